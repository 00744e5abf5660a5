import Verif.Model.Projection
import Verif.Props.C50_Localization
import Verif.Props.C111_BlochOperator
import Verif.Props.C104_Position
import Verif.Props.C112_TightBindingState

/-!
# C117, C118: Localisation of a single band
-/

set_option autoImplicit false

namespace Verif

open Finset Spec
open scoped ComplexOrder

/-- The overlap of the state `v` of sample `a` with a state on the large cell. -/
noncomputable def overlapWith (axes : List (ℕ × ℕ)) (b : Basis) (v : ℕ → ℂ) (a : ℕ) (g : ℕ → ℂ) : ℂ :=
  ∑ X ∈ range (unfurledShape axes).prod, (starRingEnd ℂ) (blochWave axes b v (unravel (sampleShape axes) a) (unravel (unfurledShape axes) X)) * g X

theorem expand_smul (b : Basis) (c : ℂ) (v w : ℕ → ℂ) (h : ∀ k < size b, w k = c * v k) (x : ℕ) : expand b w x = c * expand b v x := by
  unfold expand
  rw [mul_sum]
  exact sum_congr rfl fun k hk => by rw [h k (mem_range.1 hk), mul_assoc]

theorem blochWave_smul (axes : List (ℕ × ℕ)) (b : Basis) (c : ℂ) (v w : ℕ → ℂ) (h : ∀ k < size b, w k = c * v k) (a X : List ℕ) :
    blochWave axes b w a X = c * blochWave axes b v a X := by
  unfold blochWave
  rw [expand_smul b c v w h]
  ring

/-- **C117.** Localising a single band multiplies the state of every sample by a phase, such that its overlap with the projection is real and not negative. -/
theorem C117_phase (same : Basis → Basis → Bool) (hs : Sound same) (svd : ∀ p q, Matrix (Fin p) (Fin q) ℂ → Svd p q) (axes : List (ℕ × ℕ))
    (hsvd : ∀ A, (svd 1 1 A).IsDecomposition A) (b : Basis) (hb : Valid b) (ho : OrthonormalParts b) (hshape : b.fundamentalShape = stateShape axes) (data : ℕ → ℂ)
    (p : StateVector) (hbp : Valid p.basis) (hop : OrthonormalParts p.basis) (hcp : Compatible p.basis (fT (unfurledShape axes))) :
    ∃ d, localizeSingleBand same svd (sampleShape axes) b data p = some d ∧ ∀ a < (sampleShape axes).prod,
      (∃ c : ℂ, ‖c‖ = 1 ∧ ∀ k < size b, d (a * size b + k) = c * data (a * size b + k)) ∧
      overlapWith axes b (fun k => d (a * size b + k)) a (expand p.basis p.data) =
        (‖overlapWith axes b (fun k => data (a * size b + k)) a (expand p.basis p.data)‖ : ℂ) := by
  obtain ⟨op, h1, h2, h3, h4, h5⟩ := projection_entry same hs svd axes 1 b hb ho hshape data p.basis hbp hop hcp 1 p.data
  obtain ⟨w', g1, g2, g3, g4, g5⟩ := localized_block ⟨1, sampleShape axes, b, data⟩ op h4.symm h2.symm
  refine ⟨block ((sampleShape axes).prod * b.n) w'.data 0, ?_, fun a ha => ?_⟩
  · unfold localizeSingleBand localizeWavepacketProjection
    rw [h1, Option.bind_some, g1, Option.map_some]
  · have hd : ∀ k < size b, block ((sampleShape axes).prod * b.n) w'.data 0 (a * size b + k) = op.entry a 0 0 * data (a * size b + k) := by
      intro k hk
      have := g5 0 a ha k hk
      simp only [Nat.zero_mul, Nat.zero_add, sum_range_one] at this
      unfold block at this ⊢
      rw [Nat.zero_mul, Nat.zero_add]
      exact this
    set A := overlaps axes b p.basis 1 1 data p.data a with hA
    set u := svd 1 1 A with hu
    have he : op.entry a 0 0 = (u.u * u.vh) 0 0 := h5 a ha 0 0
    have hgram := congrFun (congrFun (svd_gram (hsvd A) le_rfl) 0) 0
    have hn : ‖op.entry a 0 0‖ = 1 := by
      rw [he]
      rw [Matrix.mul_apply, Fin.sum_univ_one, Matrix.conjTranspose_apply, Matrix.one_apply_eq] at hgram
      have h := congrArg norm hgram
      rw [norm_mul, norm_star, norm_one, ← hu] at h
      nlinarith [norm_nonneg ((u.u * u.vh) 0 0)]
    have hpos := svd_positive (hsvd A)
    rw [← hu] at hpos
    have hov : ∀ c : ℂ, ∀ v w : ℕ → ℂ, (∀ k < size b, w k = c * v k) → overlapWith axes b w a (expand p.basis p.data) =
        (starRingEnd ℂ) c * overlapWith axes b v a (expand p.basis p.data) := by
      intro c v w h
      unfold overlapWith
      rw [mul_sum]
      exact sum_congr rfl fun X _ => by rw [blochWave_smul axes b c v w h, map_mul, mul_assoc]
    have hA0 : A 0 0 = overlapWith axes b (fun k => data (a * size b + k)) a (expand p.basis p.data) := by
      rw [hA]
      unfold overlaps overlapWith block
      simp
    have hz : (starRingEnd ℂ) (op.entry a 0 0) * A 0 0 = ((u.u * u.vh).conjTranspose * A) 0 0 := by
      rw [Matrix.mul_apply, Fin.sum_univ_one, Matrix.conjTranspose_apply, he]
      rfl
    refine ⟨⟨op.entry a 0 0, hn, hd⟩, ?_⟩
    rw [hov _ _ _ hd, ← hA0, hz]
    have h0 := hpos.diag_nonneg (i := 0)
    have hnorm : ‖((u.u * u.vh).conjTranspose * A) 0 0‖ = ‖A 0 0‖ := by
      rw [← hz, norm_mul, RCLike.norm_conj, hn, one_mul]
    rw [← hnorm]
    obtain ⟨r, hr⟩ : ∃ r : ℝ, 0 ≤ r ∧ ((u.u * u.vh).conjTranspose * A) 0 0 = (r : ℂ) := by
      have := Complex.le_def.1 h0
      exact ⟨_, this.1, Complex.ext rfl this.2.symm⟩
    rw [hr.2, Complex.norm_real, Real.norm_of_nonneg hr.1]

theorem wrapSample_around (U xs : List ℕ) (h : InShape U xs) :
    wrapSample U (wrapIndexAroundOrigin U none none (xs.map fun i : ℕ => (i : ℤ))) = xs := by
  have hl := inShape_length U xs h
  apply List.ext_getElem
  · simp [wrapSample, wrapIndexAroundOrigin, hl]
  · intro k h1 h2
    have hk : k < U.length := by omega
    have hx : xs[k] < U[k] := by
      have := inShape_getD U xs h k hk
      simpa [List.getD_eq_getElem?_getD, hk, h2] using this
    simp only [wrapSample, wrapIndexAroundOrigin, List.getElem_zipWith, List.getElem_map, List.getElem_range]
    have e1 : (xs.map fun i : ℕ => (i : ℤ)).getD k 0 = (xs[k] : ℤ) := by simp [List.getD_eq_getElem?_getD, h2]
    have e2 : U.getD k 0 = U[k] := by simp [List.getD_eq_getElem?_getD, hk]
    rw [e1, e2]
    have := (C05_wrap_index_window (xs[k] : ℤ) U[k] 0 (by omega)).1
    rw [this, Int.emod_eq_of_lt (by omega) (by exact_mod_cast hx)]
    simp

theorem inShape_pos : ∀ (U xs : List ℕ), InShape U xs → ∀ n ∈ U, 0 < n
  | [], _, _, n, h => by simp at h
  | _ :: _, [], h, _, _ => by simp [InShape] at h
  | m :: U, x :: xs, h, n, hn => by
    rcases List.mem_cons.1 hn with e | e
    · have := h.1; omega
    · exact inShape_pos U xs h.2 n e

theorem compatible_position_fT (U : List ℕ) : Compatible (.tuple (U.map Basis.fundamental)) (fT U) := by
  show Compatibles _ _
  induction U with
  | nil => trivial
  | cons n U ih => exact ⟨rfl, ih⟩

theorem position_n (U : List ℕ) : (Basis.tuple (U.map Basis.fundamental)).n = U.prod := by rw [Basis.n_eq]; exact (fund_facts U).1

theorem singlePoint_at (U : List ℕ) (m : ℕ) (hm : m < U.prod) :
    ∃ s, singlePointState (.tuple (U.map .fundamental)) (m : ℤ) = some s ∧ s.basis = .tuple (U.map .fundamental) ∧ ∀ X < U.prod, s.data X = if X = m then 1 else 0 := by
  refine ⟨_, by unfold singlePointState; rw [if_pos ⟨by omega, by rw [position_n]; exact_mod_cast hm⟩], rfl, fun X _ => ?_⟩
  dsimp only
  rw [position_n, Int.emod_eq_of_lt (by omega) (by exact_mod_cast hm)]
  simp

/-- **C117.** The state at a single point for a wavepacket: with an origin it is one at the origin, wrapped into the large cell; without it is one at a point where
the modulus of the state of the sample is largest. -/
theorem C117_point_state (same : Basis → Basis → Bool) (hs : Sound same) (axes : List (ℕ × ℕ)) (h0 : ∀ n ∈ unfurledShape axes, 0 < n) (b : Basis) (hb : Valid b)
    (ho : OrthonormalParts b) (hshape : b.fundamentalShape = stateShape axes) (data : ℕ → ℂ) (idx : ℕ) (hi : idx < (sampleShape axes).prod) :
    (∀ o : List ℤ, o.length = axes.length → ∃ s, singlePointStateForWavepacket same ⟨fT (sampleShape axes), b, data⟩ idx (some o) = some s ∧
      s.basis = .tuple ((unfurledShape axes).map .fundamental) ∧ ∀ X < (unfurledShape axes).prod, s.data X =
        if X = ravel (unfurledShape axes) (List.zipWith (fun (n : ℕ) i => (i % (n : ℤ)).toNat) (unfurledShape axes) o) then 1 else 0) ∧
    ∃ s, ∃ M < (unfurledShape axes).prod, singlePointStateForWavepacket same ⟨fT (sampleShape axes), b, data⟩ idx none = some s ∧
      s.basis = .tuple ((unfurledShape axes).map .fundamental) ∧ (∀ X < (unfurledShape axes).prod, s.data X = if X = M then 1 else 0) ∧
      ∀ X < (unfurledShape axes).prod, ‖blochWave axes b (fun k => data (idx * size b + k)) (unravel (sampleShape axes) idx) (unravel (unfurledShape axes) X)‖ ≤
        ‖blochWave axes b (fun k => data (idx * size b + k)) (unravel (sampleShape axes) idx) (unravel (unfurledShape axes) M)‖ := by
  obtain ⟨s, p, e1, e2, e3, e4, e5⟩ := sample_position same hs axes b hb ho hshape data idx hi
  have hlen : (unfurledShape axes).length = axes.length := by simp [unfurledShape]
  constructor
  · intro o hlo
    have hw := getFlatIndex_wrap (unfurledShape axes) o (by omega) h0
    have hin := wrapSample_inShape (unfurledShape axes) o (by omega) h0
    obtain ⟨t, t1, t2, t3⟩ := singlePoint_at (unfurledShape axes) _ (ravel_lt _ _ hin)
    refine ⟨t, ?_, t2, t3⟩
    unfold singlePointStateForWavepacket
    rw [e1, Option.bind_some, e3, Option.bind_some, e2]
    dsimp only [Option.getD_some]
    rw [hw, Option.bind_some, e4, t1]
  · obtain ⟨m1, m2⟩ := argmaxReal_spec (fun X => ‖p.data X‖) ((unfurledShape axes).prod - 1)
    have hpos : 0 < (unfurledShape axes).prod := List.prod_pos h0
    set M := argmaxReal (fun X => ‖p.data X‖) ((unfurledShape axes).prod - 1) with hM
    have hMlt : M < (unfurledShape axes).prod := by omega
    have hin := unravel_inShape _ M hMlt
    have hw := getFlatIndex_wrap (unfurledShape axes) (wrapIndexAroundOrigin (unfurledShape axes) none none
      ((unravel (unfurledShape axes) M).map fun i : ℕ => (i : ℤ))) (by simp [wrapIndexAroundOrigin]) h0
    rw [wrapSample_around _ _ hin, ravel_unravel _ M hMlt] at hw
    obtain ⟨t, t1, t2, t3⟩ := singlePoint_at (unfurledShape axes) M hMlt
    refine ⟨t, M, hMlt, ?_, t2, t3, fun X hX => ?_⟩
    · unfold singlePointStateForWavepacket
      rw [e1, Option.bind_some, e3, Option.bind_some, e2]
      dsimp only [Option.getD_none]
      rw [← hM, hw, Option.bind_some, e4, t1]
    · have := m2 X (by omega)
      simp only [e5 X hX, e5 M hMlt] at this
      exact this

/-- **C117.** Localising at a single point: there is a point, where the modulus of the state of the chosen sample is largest, at which the states of all samples are
made real and not negative, each by a phase. Of all wavepackets which differ from the given one by a phase for each sample, the localised one has the largest value of
the unfurled state at this point. -/
theorem C117_point (same : Basis → Basis → Bool) (hs : Sound same) (svd : ∀ p q, Matrix (Fin p) (Fin q) ℂ → Svd p q) (axes : List (ℕ × ℕ))
    (hsvd : ∀ A, (svd 1 1 A).IsDecomposition A) (h0 : ∀ n ∈ unfurledShape axes, 0 < n) (b : Basis) (hb : Valid b) (ho : OrthonormalParts b)
    (hshape : b.fundamentalShape = stateShape axes) (data : ℕ → ℂ) (idx : ℕ) (hi : idx < (sampleShape axes).prod) :
    ∃ d, ∃ M < (unfurledShape axes).prod, localizeSinglePoint same svd (sampleShape axes) b data idx = some d ∧
      (∀ X < (unfurledShape axes).prod, ‖blochWave axes b (fun k => data (idx * size b + k)) (unravel (sampleShape axes) idx) (unravel (unfurledShape axes) X)‖ ≤
        ‖blochWave axes b (fun k => data (idx * size b + k)) (unravel (sampleShape axes) idx) (unravel (unfurledShape axes) M)‖) ∧
      (∀ a < (sampleShape axes).prod, (∃ c : ℂ, ‖c‖ = 1 ∧ ∀ k < size b, d (a * size b + k) = c * data (a * size b + k)) ∧
        blochWave axes b (fun k => d (a * size b + k)) (unravel (sampleShape axes) a) (unravel (unfurledShape axes) M) =
          (‖blochWave axes b (fun k => data (a * size b + k)) (unravel (sampleShape axes) a) (unravel (unfurledShape axes) M)‖ : ℂ)) ∧
      ∀ e : ℕ → ℂ, (∀ a < (sampleShape axes).prod, ∃ c : ℂ, ‖c‖ = 1 ∧ ∀ k < size b, e (a * size b + k) = c * data (a * size b + k)) →
        ∃ s s' : StateVector, unfurlWavepacket same ⟨fT (sampleShape axes), b, d⟩ = some s ∧ unfurlWavepacket same ⟨fT (sampleShape axes), b, e⟩ = some s' ∧
          ‖expand s'.basis s'.data M‖ ≤ ‖expand s.basis s.data M‖ := by
  obtain ⟨p, M, hM, h1, h2, h3, h4⟩ := (C117_point_state same hs axes h0 b hb ho hshape data idx hi).2
  obtain ⟨d, g1, g2⟩ := C117_phase same hs svd axes hsvd b hb ho hshape data p (h2 ▸ (fund_facts _).2.2.2) (h2 ▸ orthonormalParts_fundamental _)
    (h2 ▸ compatible_position_fT _)
  have hov : ∀ (v : ℕ → ℂ) (a : ℕ), overlapWith axes b v a (expand p.basis p.data) =
      (starRingEnd ℂ) (blochWave axes b v (unravel (sampleShape axes) a) (unravel (unfurledShape axes) M)) := by
    intro v a
    unfold overlapWith
    rw [sum_congr rfl fun X hX => by rw [h2, expand_position _ _ (mem_range.1 hX), h3 X (mem_range.1 hX)]]
    simp [hM]
  have key : ∀ a < (sampleShape axes).prod, (∃ c : ℂ, ‖c‖ = 1 ∧ ∀ k < size b, d (a * size b + k) = c * data (a * size b + k)) ∧
        blochWave axes b (fun k => d (a * size b + k)) (unravel (sampleShape axes) a) (unravel (unfurledShape axes) M) =
          (‖blochWave axes b (fun k => data (a * size b + k)) (unravel (sampleShape axes) a) (unravel (unfurledShape axes) M)‖ : ℂ) := by
    intro a ha
    refine ⟨(g2 a ha).1, ?_⟩
    have := (g2 a ha).2
    rw [hov, hov, RCLike.norm_conj] at this
    have h := congrArg (starRingEnd ℂ) this
    rwa [Complex.conj_conj, Complex.conj_ofReal] at h
  refine ⟨d, M, hM, ?_, h4, key, fun e he => ?_⟩
  · unfold localizeSinglePoint
    rw [show Basis.tuple ((sampleShape axes).map Basis.fundamentalTransformed) = fT (sampleShape axes) from rfl, h1, Option.bind_some, g1]
  · obtain ⟨s, a1, a2, a3⟩ := C45_bloch same hs axes b hb ho hshape d
    obtain ⟨s', b1, b2, b3⟩ := C45_bloch same hs axes b hb ho hshape e
    refine ⟨s, s', a1, b1, ?_⟩
    have hin := unravel_inShape _ M hM
    have a4 := a3 _ hin
    have b4 := b3 _ hin
    rw [ravel_unravel _ M hM] at a4 b4
    have hN : 0 < (sampleShape axes).prod := by omega
    have hsq : (Real.sqrt ((sampleShape axes).prod : ℕ) : ℂ) ≠ 0 := by
      have : (0 : ℝ) < ((sampleShape axes).prod : ℕ) := by exact_mod_cast hN
      exact_mod_cast (Real.sqrt_pos.2 this).ne'
    have hbw : ∀ (v : ℕ → ℂ) (a : ℕ), blochPhase axes (unravel (sampleShape axes) a) (unravel (unfurledShape axes) M) *
        expand b v (ravel (stateShape axes) (reduce axes (unravel (unfurledShape axes) M))) =
        blochWave axes b v (unravel (sampleShape axes) a) (unravel (unfurledShape axes) M) * (Real.sqrt ((sampleShape axes).prod : ℕ) : ℂ) := by
      intro v a
      unfold blochWave
      rw [show (axes.map Prod.fst).prod = (sampleShape axes).prod from rfl, div_mul_cancel₀ _ hsq]
      rfl
    rw [a4, b4, norm_div, norm_div]
    apply div_le_div_of_nonneg_right _ (norm_nonneg _)
    have hd : ∑ a ∈ range (sampleShape axes).prod, blochPhase axes (unravel (sampleShape axes) a) (unravel (unfurledShape axes) M) *
        expand b (block (size b) d a) (ravel (stateShape axes) (reduce axes (unravel (unfurledShape axes) M))) =
        ((∑ a ∈ range (sampleShape axes).prod, ‖blochWave axes b (fun k => data (a * size b + k)) (unravel (sampleShape axes) a) (unravel (unfurledShape axes) M)‖) *
          Real.sqrt ((sampleShape axes).prod : ℕ) : ℝ) := by
      rw [Complex.ofReal_mul, Complex.ofReal_sum, sum_mul]
      refine sum_congr rfl fun a ha => ?_
      rw [hbw, ← (key a (mem_range.1 ha)).2]
      rfl
    rw [hd, Complex.norm_real, Real.norm_of_nonneg (mul_nonneg (sum_nonneg fun a _ => norm_nonneg _) (Real.sqrt_nonneg _)), sum_mul]
    refine (norm_sum_le _ _).trans (sum_le_sum fun a ha => ?_)
    obtain ⟨c, hc, hk⟩ := he a (mem_range.1 ha)
    rw [hbw, blochWave_smul axes b c (fun k => data (a * size b + k)) (block (size b) e a) hk, norm_mul, norm_mul, hc, one_mul, Complex.norm_real,
      Real.norm_of_nonneg (Real.sqrt_nonneg _)]

/-- For instance three samples of a grid with four points, in the oblique basis of three of the momenta. -/
example (same : Basis → Basis → Bool) (hs : Sound same) (data : ℕ → ℂ) (svd1 : Matrix (Fin 1) (Fin 1) ℂ → Svd 1 1) (h : ∀ A, (svd1 A).IsDecomposition A) : ∃ d, ∃ M < 12,
    localizeSinglePoint same (fun p q => if e : p = 1 ∧ q = 1 then e.1 ▸ e.2 ▸ svd1 else fun _ => ⟨0, 0, 0⟩) [3] (.tuple [.transformed 3 4]) data 1 = some d ∧
    blochWave [(3, 4)] (.tuple [.transformed 3 4]) (fun k => d (2 * 3 + k)) [2] [M] =
      (‖blochWave [(3, 4)] (.tuple [.transformed 3 4]) (fun k => data (2 * 3 + k)) [2] [M]‖ : ℂ) := by
  obtain ⟨d, M, h1, h2, h3, h4, h5⟩ := C117_point same hs
    (fun p q => if e : p = 1 ∧ q = 1 then e.1 ▸ e.2 ▸ svd1 else fun _ => ⟨0, 0, 0⟩) [(3, 4)] (fun A => by simpa using h A) (by decide) (.tuple [.transformed 3 4])
    (by simp [Valid, Valids]) (by simp [OrthonormalParts, OrthonormalPartss]) rfl data 1 (by decide)
  refine ⟨d, M, h1, h2, ?_⟩
  have := (h4 2 (by decide)).2
  have e : unravel (unfurledShape [(3, 4)]) M = [M] := by
    have : M < 12 := h1
    simp [unfurledShape, unravel, Nat.mod_eq_of_lt this]
  rwa [e] at this

/-! ## C118 -/

/-- The point `x` is the last one not after the fraction `i / s` of the cell, in every direction. -/
def AtFraction : List ℕ → List ℕ → List ℕ → List ℕ → Prop
  | n :: U, s :: S, i :: I, x :: X => (x * s ≤ n * i ∧ n * i < (x + 1) * s) ∧ AtFraction U S I X
  | [], [], [], [] => True
  | _, _, _, _ => False

theorem fraction_point : ∀ (U S I : List ℕ), U.length = S.length → InShape S I → (∀ n ∈ U, 0 < n) →
    InShape U (List.zipWith (fun (ni : ℕ × ℕ) s => ni.1 * ni.2 / s) (U.zip I) S) ∧
    ∀ X, InShape U X → (X = List.zipWith (fun (ni : ℕ × ℕ) s => ni.1 * ni.2 / s) (U.zip I) S ↔ AtFraction U S I X)
  | [], [], [], _, _, _ => ⟨trivial, fun X hX => by cases X with
    | nil => simp [AtFraction]
    | cons x X => simp [InShape] at hX⟩
  | [], [], _ :: _, _, h, _ => by simp [InShape] at h
  | [], _ :: _, _, h, _, _ => by simp at h
  | _ :: _, [], _, h, _, _ => by simp at h
  | _ :: _, _ :: _, [], _, h, _ => by simp [InShape] at h
  | n :: U, s :: S, i :: I, hl, hI, hp => by
    obtain ⟨h1, h2⟩ := fraction_point U S I (by simpa using hl) hI.2 fun m hm => hp m (List.mem_cons_of_mem _ hm)
    have hi : i < s := hI.1
    have hn : 0 < n := hp n List.mem_cons_self
    have hs : 0 < s := by omega
    refine ⟨⟨?_, h1⟩, fun X hX => ?_⟩
    · show n * i / s < n
      rw [Nat.div_lt_iff_lt_mul hs]
      exact Nat.mul_lt_mul_of_pos_left hi hn
    · cases X with
      | nil => simp [InShape] at hX
      | cons x X =>
        show x :: X = n * i / s :: List.zipWith (fun (ni : ℕ × ℕ) s => ni.1 * ni.2 / s) (U.zip I) S ↔ (_ ∧ _) ∧ _
        rw [List.cons.injEq, h2 X hX.2]
        refine and_congr ?_ Iff.rfl
        rw [eq_comm, Nat.div_eq_iff hs]
        constructor
        · rintro ⟨a, b⟩
          exact ⟨a, by rw [Nat.add_mul, Nat.one_mul]; omega⟩
        · rintro ⟨a, b⟩
          rw [Nat.add_mul, Nat.one_mul] at b
          exact ⟨a, by omega⟩

/-- **C118.** The evenly spaced states: state `i` is one at the point at the fraction `i / shape` of the large cell (rounded down) and zero elsewhere. -/
theorem C118_points (U S : List ℕ) (hl : U.length = S.length) (hS : S ≠ []) (hU : ∀ n ∈ U, 0 < n) :
    ∃ s, evenlySpacedPoints U S = some s ∧ s.listBasis = .tuple (S.map .fundamental) ∧ s.basis = .tuple (U.map .fundamental) ∧
      ∀ i x, InShape S i → InShape U x → (AtFraction U S i x → s.data (ravel S i * U.prod + ravel U x) = 1) ∧
        (¬AtFraction U S i x → s.data (ravel S i * U.prod + ravel U x) = 0) := by
  have hp : U.prod ≠ 0 := (List.prod_pos hU).ne'
  refine ⟨_, by unfold evenlySpacedPoints; rw [if_neg (by simp [hl, hS, hp])], rfl, rfl, fun i x hi hx => ?_⟩
  obtain ⟨h1, h2⟩ := fraction_point U S i hl hi hU
  have e : (ravel U x = ravel U (List.zipWith (fun (ni : ℕ × ℕ) s => ni.1 * ni.2 / s) (U.zip i) S)) ↔ AtFraction U S i x := by
    rw [← h2 x hx]
    refine ⟨fun h => ?_, fun h => by rw [← h]⟩
    rw [← unravel_ravel U x hx, h, unravel_ravel U _ h1]
  dsimp only
  rw [flatten_entry _ _ (ravel_lt U x hx), unravel_ravel S i hi]
  exact ⟨fun h => if_pos (e.2 h), fun h => if_neg fun g => h (e.1 g)⟩

theorem atFraction_unique : ∀ (U S i j x : List ℕ), (∀ p ∈ U.zip S, p.2 ≤ p.1) → AtFraction U S i x → AtFraction U S j x → i = j
  | n :: U, s :: S, i :: I, j :: J, x :: X, h, h1, h2 => by
    have hn : s ≤ n := h (n, s) (by simp)
    have e := atFraction_unique U S I J X (fun p hp => h p (by simp [hp])) h1.2 h2.2
    have a := h1.1
    have b := h2.1
    rw [Nat.add_mul, Nat.one_mul] at a b
    have : i = j := by
      rcases Nat.lt_trichotomy i j with c | c | c
      · have : n * (i + 1) ≤ n * j := Nat.mul_le_mul_left _ c
        rw [Nat.mul_add, Nat.mul_one] at this
        omega
      · exact c
      · have : n * (j + 1) ≤ n * i := Nat.mul_le_mul_left _ c
        rw [Nat.mul_add, Nat.mul_one] at this
        omega
    rw [this, e]
  | [], [], [], [], [], _, _, _ => rfl
  | [], [], [], _ :: _, [], _, _, h => by simp [AtFraction] at h
  | [], [], [], _ :: _, _ :: _, _, _, h => by simp [AtFraction] at h
  | [], [], [], [], _ :: _, _, h, _ => by simp [AtFraction] at h
  | [], [], _ :: _, _, _, _, h, _ => by simp [AtFraction] at h
  | [], _ :: _, _, _, _, _, h, _ => by simp [AtFraction] at h
  | _ :: _, [], _, _, _, _, h, _ => by simp [AtFraction] at h
  | _ :: _, _ :: _, [], _, _, _, h, _ => by simp [AtFraction] at h
  | _ :: _, _ :: _, _ :: _, [], _, _, _, h => by simp [AtFraction] at h
  | _ :: _, _ :: _, _ :: _, _ :: _, [], _, h, _ => by simp [AtFraction] at h

/-- **C118.** If there are not more states than points in any direction the states are orthonormal. -/
theorem C118_orthonormal (U S : List ℕ) (hl : U.length = S.length) (hS : S ≠ []) (hU : ∀ n ∈ U, 0 < n) (hle : ∀ p ∈ U.zip S, p.2 ≤ p.1) :
    ∃ s, evenlySpacedPoints U S = some s ∧ ∀ i < S.prod, ∀ j < S.prod,
      ∑ x ∈ range U.prod, (starRingEnd ℂ) (s.data (i * U.prod + x)) * s.data (j * U.prod + x) = if i = j then 1 else 0 := by
  classical
  obtain ⟨s, h1, -, -, h4⟩ := C118_points U S hl hS hU
  refine ⟨s, h1, fun i hi j hj => ?_⟩
  have hiS := unravel_inShape S i hi
  have hjS := unravel_inShape S j hj
  have hent : ∀ k < S.prod, ∀ x < U.prod, s.data (k * U.prod + x) = if AtFraction U S (unravel S k) (unravel U x) then 1 else 0 := by
    intro k hk x hx
    have := h4 _ _ (unravel_inShape S k hk) (unravel_inShape U x hx)
    rw [ravel_unravel S k hk, ravel_unravel U x hx] at this
    split_ifs with c
    · exact this.1 c
    · exact this.2 c
  rw [sum_congr rfl fun x hx => by rw [hent i hi x (mem_range.1 hx), hent j hj x (mem_range.1 hx)]]
  split_ifs with hij
  · subst hij
    obtain ⟨f1, f2⟩ := fraction_point U S _ hl hiS hU
    set P := List.zipWith (fun (ni : ℕ × ℕ) s => ni.1 * ni.2 / s) (U.zip (unravel S i)) S with hP
    rw [sum_eq_single (ravel U P)]
    · rw [unravel_ravel U P f1, if_pos ((f2 P f1).1 rfl)]
      simp
    · intro x hx hne
      rw [if_neg]
      · simp
      · intro h
        have := (f2 _ (unravel_inShape U x (mem_range.1 hx))).2 h
        exact hne (by rw [← this, ravel_unravel U x (mem_range.1 hx)])
    · intro h
      exact absurd (mem_range.2 (ravel_lt U P f1)) h
  · refine sum_eq_zero fun x _ => ?_
    by_cases c : AtFraction U S (unravel S i) (unravel U x)
    · by_cases c' : AtFraction U S (unravel S j) (unravel U x)
      · have := atFraction_unique U S _ _ _ hle c c'
        exact absurd (by rw [← ravel_unravel S i hi, this, ravel_unravel S j hj]) hij
      · simp [c']
    · simp [c]

/-- With more states than points two of the states are the same. -/
theorem C118_many_negation (n s : ℕ) (hn : 0 < n) (h : n < s) :
    ∃ v, evenlySpacedPoints [n] [s] = some v ∧ ∀ x < n, v.data (0 * n + x) = v.data (1 * n + x) := by
  obtain ⟨v, h1, -, -, h4⟩ := C118_points [n] [s] rfl (by simp) (by simpa using hn)
  refine ⟨v, h1, fun x hx => ?_⟩
  have h0 := h4 [0] [x] ⟨by omega, trivial⟩ ⟨hx, trivial⟩
  have h1 := h4 [1] [x] ⟨by omega, trivial⟩ ⟨hx, trivial⟩
  simp only [ravel, List.prod_nil, List.prod_cons, mul_one, add_zero] at h0 h1
  by_cases hx0 : x = 0
  · subst hx0
    rw [h0.1 ⟨⟨by omega, by omega⟩, trivial⟩, h1.1 ⟨⟨by omega, by omega⟩, trivial⟩]
  · have : s ≤ x * s := Nat.le_mul_of_pos_left s (by omega)
    rw [h0.2 (fun g => by have := g.1.1; omega), h1.2 (fun g => by have := g.1.1; omega)]

/-- For instance `3 * 2` states on `7 * 4` points: state `(2, 1)` is at the point `(4, 2)`. -/
example : ∃ s, evenlySpacedPoints [7, 4] [3, 2] = some s ∧ s.data (ravel [3, 2] [2, 1] * 28 + ravel [7, 4] [4, 2]) = 1 := by
  obtain ⟨s, h1, -, -, h4⟩ := C118_points [7, 4] [3, 2] rfl (by simp) (by simp)
  exact ⟨s, h1, (h4 [2, 1] [4, 2] (by simp [InShape]) (by simp [InShape])).1 (by simp [AtFraction])⟩

end Verif
