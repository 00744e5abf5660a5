import Verif.Model.ProjectionLocalization
import Verif.Props.C117_Projection
import Verif.Props.C119_GaussianState
import Verif.Props.C147_PositionMomentum

/-!
C148: localisation of wavepackets with tight binding states and gaussians.
-/

set_option autoImplicit false

namespace Verif

open Finset Spec
open scoped ComplexOrder

theorem overlapWith_congr (axes : List (ℕ × ℕ)) (b : Basis) (v : ℕ → ℂ) (a : ℕ) {g h : ℕ → ℂ} (e : ∀ X < (unfurledShape axes).prod, g X = h X) :
    overlapWith axes b v a g = overlapWith axes b v a h :=
  sum_congr rfl fun X hX => by rw [e X (mem_range.1 hX)]

/-- A state given at the points, used as a projection in its momentum basis. -/
theorem projection_momentum (same : Basis → Basis → Bool) (hs : Sound same) (svd : ∀ p q, Matrix (Fin p) (Fin q) ℂ → Svd p q) (axes : List (ℕ × ℕ))
    (hsvd : ∀ A, (svd 1 1 A).IsDecomposition A) (b : Basis) (hb : Valid b) (ho : OrthonormalParts b) (hshape : b.fundamentalShape = stateShape axes)
    (data : ℕ → ℂ) (φ : ℕ → ℂ) :
    ∃ t d, stateToMomentum same ⟨.tuple ((unfurledShape axes).map .fundamental), φ⟩ = some t ∧
      localizeSingleBand same svd (sampleShape axes) b data t = some d ∧ ∀ a < (sampleShape axes).prod,
      (∃ c : ℂ, ‖c‖ = 1 ∧ ∀ k < size b, d (a * size b + k) = c * data (a * size b + k)) ∧
      overlapWith axes b (fun k => d (a * size b + k)) a φ = (‖overlapWith axes b (fun k => data (a * size b + k)) a φ‖ : ℂ) := by
  obtain ⟨h1, h2, h3, h4⟩ := fund_facts (unfurledShape axes)
  obtain ⟨t, _, ht, _, st, _, et, _⟩ := C147_momentum same hs ⟨.tuple ((unfurledShape axes).map .fundamental), φ⟩ h4 (orthonormalParts_fundamental _)
  have hsh : (Basis.tuple ((unfurledShape axes).map .fundamental)).fundamentalShape = unfurledShape axes := by
    rw [Basis.fundamentalShape]
    induction unfurledShape axes with
    | nil => rfl
    | cons n ns ih => rw [List.map_cons, Basis.methodsList, List.map_cons, ih]; rfl
  have bt : t.basis = fT (unfurledShape axes) := by
    rw [stateToMomentum, convertStateVector] at ht
    obtain ⟨_, _, rfl⟩ := Option.map_eq_some_iff.1 ht
    show Basis.asTransformedBasis _ = _
    rw [Basis.asTransformedBasis, hsh]
  obtain ⟨d, hd, kd⟩ := C117_phase same hs svd axes hsvd b hb ho hshape data t (bt ▸ valids_fT _) (bt ▸ orthonormalPartss_fT _)
    (bt ▸ compatible_refl _)
  have e : ∀ X < (unfurledShape axes).prod, expand t.basis t.data X = φ X := by
    intro X hX
    rw [et X (by rw [h2]; exact hX)]
    show expand (.tuple ((unfurledShape axes).map .fundamental)) φ X = φ X
    unfold expand
    rw [h1, sum_eq_single X]
    · rw [h3 X hX X hX, if_pos rfl, mul_one]
    · intro y hy hne; rw [h3 y (mem_range.1 hy) X hX, if_neg hne, mul_zero]
    · intro h; exact absurd (mem_range.2 hX) h
  refine ⟨t, d, ht, hd, fun a ha => ?_⟩
  obtain ⟨k1, k2⟩ := kd a ha
  rw [overlapWith_congr axes b _ a e, overlapWith_congr axes b _ a e] at k2
  exact ⟨k1, k2⟩

/-- The basis of a tight binding state. -/
theorem tight_basis (same : Basis → Basis → Bool) (hs : Sound same) (axes : List (ℕ × ℕ)) (b : Basis) (hb : Valid b) (ho : OrthonormalParts b)
    (hshape : b.fundamentalShape = stateShape axes) (data : ℕ → ℂ) (a : ℕ) (ha : a < (sampleShape axes).prod) (o : Option (List ℤ)) (s : StateVector)
    (h : getTightBindingState same ⟨fT (sampleShape axes), b, data⟩ a o = some s) :
    s.basis = .tuple ((unfurledShape axes).map .fundamental) ∧
      ∀ X < (unfurledShape axes).prod, s.data X = blochCoeff axes b (block (size b) data a) a X ∨ s.data X = 0 := by
  obtain ⟨s', p, e1, e2, e3, e4, e5⟩ := sample_position same hs axes b hb ho hshape data a ha
  unfold getTightBindingState at h
  rw [e1, Option.bind_some, e3, Option.bind_some] at h
  dsimp only at h
  split_ifs at h
  cases h
  refine ⟨e4, fun X hX => ?_⟩
  dsimp only
  split_ifs
  · exact Or.inl (e5 X hX)
  · exact Or.inr rfl

/-- **C148.** Localising a band with its tight binding state, whenever there is one (C112): the state of every sample is multiplied by a phase, such that its overlap
with the tight binding state is real and not negative. The state of the first sample, from which the tight binding state is cut out, is kept unless the cut out part is
zero. -/
theorem C148_tight_binding_partial (same : Basis → Basis → Bool) (hs : Sound same) (svd : ∀ p q, Matrix (Fin p) (Fin q) ℂ → Svd p q) (axes : List (ℕ × ℕ))
    (hsvd : ∀ A, (svd 1 1 A).IsDecomposition A) (b : Basis) (hb : Valid b) (ho : OrthonormalParts b) (hshape : b.fundamentalShape = stateShape axes)
    (h0 : 0 < (sampleShape axes).prod) (data : ℕ → ℂ) (s : StateVector)
    (h : getTightBindingState same ⟨fT (sampleShape axes), b, data⟩ 0 none = some s) :
    ∃ d, localizeTightBinding same svd (sampleShape axes) b data = some d ∧
      (∀ a < (sampleShape axes).prod, (∃ c : ℂ, ‖c‖ = 1 ∧ ∀ k < size b, d (a * size b + k) = c * data (a * size b + k)) ∧
        overlapWith axes b (fun k => d (a * size b + k)) a s.data = (‖overlapWith axes b (fun k => data (a * size b + k)) a s.data‖ : ℂ)) ∧
      ((∃ X < (unfurledShape axes).prod, s.data X ≠ 0) → ∀ k < size b, d k = data k) := by
  obtain ⟨hsb, hsd⟩ := tight_basis same hs axes b hb ho hshape data 0 h0 none s h
  obtain ⟨t, d, ht, hd, kd⟩ := projection_momentum same hs svd axes hsvd b hb ho hshape data s.data
  have hs' : s = ⟨.tuple ((unfurledShape axes).map .fundamental), s.data⟩ := by rw [← hsb]
  refine ⟨d, ?_, kd, fun ⟨X, hX, hne⟩ k hk => ?_⟩
  · unfold localizeTightBinding
    rw [show Basis.tuple ((sampleShape axes).map .fundamentalTransformed) = fT (sampleShape axes) from rfl, h, Option.bind_some, hs', ht, Option.bind_some, hd]
  · obtain ⟨⟨c, hc, kc⟩, ov⟩ := kd 0 h0
    have key : overlapWith axes b (fun k => data (0 * size b + k)) 0 s.data = ((∑ Y ∈ range (unfurledShape axes).prod, ‖s.data Y‖ ^ 2 : ℝ) : ℂ) := by
      unfold overlapWith
      rw [Complex.ofReal_sum]
      refine sum_congr rfl fun Y hY => ?_
      rw [← Complex.normSq_eq_norm_sq, Complex.normSq_eq_conj_mul_self]
      rcases hsd Y (mem_range.1 hY) with e | e
      · rw [e]; rfl
      · rw [e, mul_zero, mul_zero]
    have pos : 0 < ∑ Y ∈ range (unfurledShape axes).prod, ‖s.data Y‖ ^ 2 :=
      sum_pos' (fun _ _ => by positivity) ⟨X, mem_range.2 hX, by have := norm_pos_iff.2 hne; positivity⟩
    have e1 : overlapWith axes b (fun k => d (0 * size b + k)) 0 s.data =
        (starRingEnd ℂ) c * overlapWith axes b (fun k => data (0 * size b + k)) 0 s.data := by
      unfold overlapWith
      rw [mul_sum]
      refine sum_congr rfl fun Y _ => ?_
      rw [blochWave_smul axes b c (fun k => data (0 * size b + k)) (fun k => d (0 * size b + k)) kc, map_mul, mul_assoc]
    rw [e1, key, Complex.norm_real, Real.norm_of_nonneg pos.le] at ov
    have hc1 : (starRingEnd ℂ) c = 1 := by
      have : ((∑ Y ∈ range (unfurledShape axes).prod, ‖s.data Y‖ ^ 2 : ℝ) : ℂ) ≠ 0 := by exact_mod_cast pos.ne'
      exact mul_right_cancel₀ this (by rw [ov, one_mul])
    have : c = 1 := by rw [← Complex.conj_conj c, hc1, map_one]
    have := kc k hk
    rw [zero_mul, zero_add] at this
    rw [this, ‹c = 1›, one_mul]

/-- **C148.** With one axis and at least as many samples as points: the part of the state of the first sample in a unit cell around one of its largest values is the
tight binding state; the localised states have real and not negative overlaps with it, and the first of them is the state of the first sample. -/
theorem C148_one_axis_partial (same : Basis → Basis → Bool) (hs : Sound same) (svd : ∀ p q, Matrix (Fin p) (Fin q) ℂ → Svd p q)
    (hsvd : ∀ A, (svd 1 1 A).IsDecomposition A) (ns nx : ℕ) (b : Basis) (hb : Valid b) (ho : OrthonormalParts b) (hshape : b.fundamentalShape = [nx])
    (hfull : b.shape = [nx]) (hnx : 0 < nx) (hle : nx ≤ ns) (data : ℕ → ℂ) :
    ∃ (o : ℤ) (φ d : ℕ → ℂ), localizeTightBinding same svd [ns] b data = some d ∧
      (∀ X < ns * nx, (InCell (ns * nx) nx o X → φ X = blochWave [(ns, nx)] b (block (size b) data 0) [0] [X]) ∧ (¬InCell (ns * nx) nx o X → φ X = 0)) ∧
      (∃ M < ns * nx, (M : ℤ) = o % (ns * nx : ℕ) ∧ ∀ Y < ns * nx, ‖blochWave [(ns, nx)] b (block (size b) data 0) [0] [Y]‖ ≤ ‖φ M‖) ∧
      (∀ a < ns, (∃ c : ℂ, ‖c‖ = 1 ∧ ∀ k < size b, d (a * size b + k) = c * data (a * size b + k)) ∧
        overlapWith [(ns, nx)] b (fun k => d (a * size b + k)) a φ = (‖overlapWith [(ns, nx)] b (fun k => data (a * size b + k)) a φ‖ : ℂ)) ∧
      ((∃ Y < ns * nx, blochWave [(ns, nx)] b (block (size b) data 0) [0] [Y] ≠ 0) → ∀ k < size b, d k = data k) := by
  have hp1 : (sampleShape [(ns, nx)]).prod = ns := by simp [sampleShape]
  have hp3 : (unfurledShape [(ns, nx)]).prod = ns * nx := by simp [unfurledShape]
  obtain ⟨o, s, h1, -, -, h2, M, hM, hMo, h3⟩ := C112_default_origin_partial same hs ns nx b hb ho hshape hfull hnx hle data 0 (by omega)
  obtain ⟨d, k1, k2, k3⟩ := C148_tight_binding_partial same hs svd [(ns, nx)] hsvd b hb ho hshape (by rw [hp1]; omega) data s h1
  rw [hp1] at k2
  rw [hp3] at k3
  refine ⟨o, s.data, d, k1, h2, ⟨M, hM, hMo, h3⟩, k2, fun ⟨Y, hY, hne⟩ => k3 ⟨M, hM, fun e => hne ?_⟩⟩
  have := h3 Y hY
  rw [e, norm_zero] at this
  exact norm_le_zero_iff.1 this

/-- **C148.** Localising with a gaussian, for two axes: the overlaps with the (normalised) gaussian are made real and not negative, by a phase for each sample. -/
theorem C148_gaussian_partial (same : Basis → Basis → Bool) (hs : Sound same) (svd : ∀ p q, Matrix (Fin p) (Fin q) ℂ → Svd p q)
    (hsvd : ∀ A, (svd 1 1 A).IsDecomposition A) (ns ms nx mx : ℕ) (hns : 0 < ns) (hms : 0 < ms) (hnx : 0 < nx) (hmx : 0 < mx) (b : Basis) (hb : Valid b)
    (ho : OrthonormalParts b) (hshape : b.fundamentalShape = [nx, mx]) (hsz : 0 < size b) (data : ℕ → ℂ) :
    ∃ (g : ℕ → ℝ) (d : ℕ → ℂ) (C : ℝ), localizeGaussian same svd [ns, ms] [ns * nx, ms * mx] b data = some d ∧ 0 < C ∧
      ∑ q ∈ range (ns * nx * (ms * mx)), g q ^ 2 = 1 ∧
      (∀ x < ns * nx, ∀ y < ms * mx, ∀ u v : ℤ, u ≡ x [ZMOD (ns * nx : ℕ)] → -(((ns * nx : ℕ) : ℤ) / 2) ≤ u → u < -(((ns * nx : ℕ) : ℤ) / 2) + (ns * nx : ℕ) →
        v ≡ y [ZMOD (ms * mx : ℕ)] → -(((ms * mx : ℕ) : ℤ) / 2) ≤ v → v < -(((ms * mx : ℕ) : ℤ) / 2) + (ms * mx : ℕ) →
        g (x * (ms * mx) + y) = C * Real.exp (-((u / (ns * ms : ℕ) : ℝ) ^ 2 + (v / (size b : ℕ) : ℝ) ^ 2) / 2)) ∧
      ∀ a < ns * ms, (∃ c : ℂ, ‖c‖ = 1 ∧ ∀ k < size b, d (a * size b + k) = c * data (a * size b + k)) ∧
        overlapWith [(ns, nx), (ms, mx)] b (fun k => d (a * size b + k)) a (fun X => (g X : ℂ)) =
          (‖overlapWith [(ns, nx), (ms, mx)] b (fun k => data (a * size b + k)) a (fun X => (g X : ℂ))‖ : ℂ) := by
  have hp1 : (sampleShape [(ns, nx), (ms, mx)]).prod = ns * ms := by simp [sampleShape]
  have hL : 0 < ns * ms := Nat.mul_pos hns hms
  have hN : 0 < ns * nx := Nat.mul_pos hns hnx
  have hM : 0 < ms * mx := Nat.mul_pos hms hmx
  obtain ⟨g, o', p', C, h1, h2, h3, hC, h5, h6, -⟩ := C119_two_partial (ns * ms) (size b) (ns * nx) (ms * mx) hL hsz hN hM 0 0
  have zero : ∀ (K : ℕ) (z : ℤ), 0 < K → z ≡ 0 [ZMOD K] → -((K : ℤ) / 2) ≤ z → z < -((K : ℤ) / 2) + K → z = 0 := by
    intro K z hK a b c
    have hK' : (0 : ℤ) < K := by exact_mod_cast hK
    have e1 := C05_wrap_index_unique 0 K 0 z hK' a (by omega) (by omega)
    have e2 := C05_wrap_index_unique 0 K 0 0 hK' rfl (by omega) (by omega)
    rw [e1, ← e2]
  have eo := zero _ _ hL h2.1 h2.2.1 h2.2.2
  have ep := zero _ _ hsz h3.1 h3.2.1 h3.2.2
  obtain ⟨t, d, ht, hd, kd⟩ := projection_momentum same hs svd [(ns, nx), (ms, mx)] hsvd b hb ho hshape data fun X => (g X : ℂ)
  rw [hp1] at kd
  refine ⟨g, d, C, ?_, hC, h5, fun x hx y hy u v a1 a2 a3 a4 a5 a6 => ?_, kd⟩
  · unfold localizeGaussian
    rw [Basis.n_eq, show [ns, ms].prod = ns * ms by simp, show ([ns * nx, ms * mx].map fun _ => (0 : ℤ)) = [0, 0] from rfl, h1, Option.bind_some]
    rw [show (unfurledShape [(ns, nx), (ms, mx)]) = [ns * nx, ms * mx] from rfl] at ht
    rw [ht, Option.bind_some]
    exact hd
  · exact h6 x hx y hy u v (by rw [eo, sub_zero]; exact a1) a2 a3 (by rw [ep, sub_zero]; exact a4) a5 a6

/-- **C148, negation.** With one, or with three or more axes, localising with a gaussian always raises. -/
theorem C148_gaussian_negation (same : Basis → Basis → Bool) (svd : ∀ p q, Matrix (Fin p) (Fin q) ℂ → Svd p q) (samples U : List ℕ) (b : Basis)
    (data : ℕ → ℂ) (h : U.length ≠ 2) : localizeGaussian same svd samples U b data = none := by
  unfold localizeGaussian
  rw [C119_axes_negation _ _ U _ h]
  rfl

/-- **C148, negation.** With three or more axes, localising with tight binding states always raises. -/
theorem C148_tight_binding_negation (same : Basis → Basis → Bool) (svd : ∀ p q, Matrix (Fin p) (Fin q) ℂ → Svd p q) (samples : List ℕ) (b : Basis)
    (data : ℕ → ℂ) (h : 3 ≤ b.shape.length) : localizeTightBinding same svd samples b data = none := by
  unfold localizeTightBinding
  rw [C112_many_axes_negation same _ 0 none h]
  rfl

/-- **C148, negation.** Localising with exponentially decaying states raises for every wavepacket: the exponential reads a third entry of a shape which has
two. -/
theorem C148_exponential_negation (same : Basis → Basis → Bool) (svd : ∀ p q, Matrix (Fin p) (Fin q) ℂ → Svd p q) (samples : List ℕ) (b : Basis)
    (data : ℕ → ℂ) : localizeExponential same svd samples b data = none := by
  unfold localizeExponential exponentialDecayState
  simp only [C119_exponential_negation, Option.map_none, Option.bind_fun_none, Option.bind_none]

/-- **C148.** Several bands, localised with the tight binding states of all of them: orthonormal wavepackets stay orthonormal, and at every sample the overlaps of the new
states with the tight binding states are a positive matrix. -/
theorem C148_bands_partial (same : Basis → Basis → Bool) (hs : Sound same) (svd : ∀ p q, Matrix (Fin p) (Fin q) ℂ → Svd p q) (axes : List (ℕ × ℕ)) (bands : ℕ)
    (hbands : 0 < bands) (hsvd : ∀ A, (svd bands bands A).IsDecomposition A) (b : Basis) (hb : Valid b) (ho : OrthonormalParts b)
    (hshape : b.fundamentalShape = stateShape axes) (h0 : 0 < (sampleShape axes).prod) (data : ℕ → ℂ)
    (hw : Orthonormal ⟨bands, sampleShape axes, b, data⟩) (f : ℕ → StateVector)
    (h : ∀ c < bands, getTightBindingState same ⟨fT (sampleShape axes), b, fun k => data (c * ((sampleShape axes).prod * size b) + k)⟩ 0 none = some (f c)) :
    ∃ op w', tightBindingOperator same svd ⟨bands, sampleShape axes, b, data⟩ = some op ∧
      getLocalizedWavepackets ⟨bands, sampleShape axes, b, data⟩ op = some w' ∧ w'.bands = bands ∧ w'.samples = sampleShape axes ∧ w'.basis = b ∧
      Orthonormal w' ∧ ∀ a < (sampleShape axes).prod, (Matrix.of fun i j : Fin bands => overlapWith axes b
        (block (size b) w'.data (i * (sampleShape axes).prod + a)) a (f j).data).PosSemidef := by
  have hsl : size (fT (sampleShape axes)) = (sampleShape axes).prod := size_fT _
  have hB : ∀ c < bands, (f c).basis = .tuple ((unfurledShape axes).map .fundamental) := fun c hc =>
    (tight_basis same hs axes b hb ho hshape _ 0 h0 none (f c) (h c hc)).1
  obtain ⟨r, hr, r1, r2, r3⟩ := C112_bands same ⟨.fundamental bands, fT (sampleShape axes), b, data⟩ 0 none f
    (.tuple ((unfurledShape axes).map .fundamental)) (show 0 < size (.fundamental bands) from hbands) (fun c hc => by
      have hc' : c < bands := hc
      refine ⟨?_, hB c hc'⟩
      show getTightBindingState same ⟨fT (sampleShape axes), b, fun k => data (c * (size (fT (sampleShape axes)) * size b) + k)⟩ 0 none = _
      rw [hsl]
      exact h c hc')
  obtain ⟨h1, h2, h3, h4⟩ := fund_facts (unfurledShape axes)
  have hsh : (Basis.tuple ((unfurledShape axes).map .fundamental)).fundamentalShape = unfurledShape axes := by
    rw [Basis.fundamentalShape]
    induction unfurledShape axes with
    | nil => rfl
    | cons n ns ih => rw [List.map_cons, Basis.methodsList, List.map_cons, ih]; rfl
  have hT : (Basis.tuple ((unfurledShape axes).map .fundamental)).asTransformedBasis = fT (unfurledShape axes) := by
    rw [Basis.asTransformedBasis, hsh]
  obtain ⟨g, hg, kg⟩ := expand_convert same hs (.tuple ((unfurledShape axes).map .fundamental)) (fT (unfurledShape axes)) h4 (valids_fT _)
    (orthonormalParts_fundamental _) (orthonormalPartss_fT _) (compatible_position_fT _) (by rw [size_fT]; exact (fT_facts _).2.1.symm)
  let C : StateVectorList := ⟨r.listBasis, fT (unfurledShape axes), flatten (fT (unfurledShape axes)).n fun i => g (block r.basis.n r.data i)⟩
  have hC : convertStateVectorList same r r.basis.asTransformedBasis = some C := by
    rw [convertStateVectorList, r2, hT, hg, Option.map_some, ← r2]
  obtain ⟨w', g1, g2, g3, g4, g5⟩ := C50_orthonormal same hs svd axes bands bands hsvd b hb ho hshape data (fT (unfurledShape axes)) (valids_fT _)
    (orthonormalPartss_fT _) (compatible_refl _) C.data le_rfl hw
  obtain ⟨w'', q1, q2⟩ := C50_positive same hs svd axes bands bands hsvd b hb ho hshape data (fT (unfurledShape axes)) (valids_fT _)
    (orthonormalPartss_fT _) (compatible_refl _) C.data
  obtain rfl : w' = w'' := by rw [g1] at q1; exact Option.some.inj q1
  unfold localizeWavepacketProjection at g1
  obtain ⟨op, e1, e2⟩ := Option.bind_eq_some_iff.1 g1
  refine ⟨op, w', ?_, e2, g2, g3, g4, g5, fun a ha => ?_⟩
  · unfold tightBindingOperator
    dsimp only
    rw [show Basis.tuple ((sampleShape axes).map .fundamentalTransformed) = fT (sampleShape axes) from rfl, hr, Option.bind_some, hC, Option.bind_some]
    show projectionOperator same svd _ (fT (unfurledShape axes)) r.listBasis.n C.data = some op
    rw [r1]
    exact e1
  · refine Eq.subst (motive := fun M => Matrix.PosSemidef M) ?_ (q2 a ha)
    ext i j
    refine Eq.symm ?_
    show overlapWith axes b (block (size b) w'.data (i * (sampleShape axes).prod + a)) a (f j).data = ∑ X ∈ range (unfurledShape axes).prod, _
    unfold overlapWith
    refine sum_congr rfl fun X hX => ?_
    have hX' := mem_range.1 hX
    congr 1
    have e : ∀ k < size (fT (unfurledShape axes)), block (size (fT (unfurledShape axes))) C.data j k = g (block r.basis.n r.data j) k := by
      intro k hk
      rw [← Basis.n_eq] at hk ⊢
      exact block_flatten (fun i => g (block r.basis.n r.data i)) j hk
    rw [expand_congr _ e, kg _ X (by rw [h2]; exact hX')]
    unfold expand
    rw [h1, sum_eq_single X]
    · rw [h3 X hX' X hX', if_pos rfl, mul_one, Basis.n_eq, r2]
      exact (r3 j j.2 X (by rw [h1]; exact hX')).symm
    · intro y hy hne; rw [h3 y (mem_range.1 hy) X hX', if_neg hne, mul_zero]
    · intro h; exact absurd (mem_range.2 hX') h

/-- Two points and three samples with one axis, (2, 2) points and (1, 2) samples with two, and two orthonormal bands meet the hypotheses; there are decompositions of all
matrices with one entry. -/
example (same : Basis → Basis → Bool) (hs : Sound same) (svd : ∀ p q, Matrix (Fin p) (Fin q) ℂ → Svd p q) (hsvd : ∀ A, (svd 1 1 A).IsDecomposition A)
    (data : ℕ → ℂ) (h0 : data 0 ≠ 0) (h1 : data 1 = 0) : (∃ d, localizeTightBinding same svd [3] (.tuple [.fundamental 2]) data = some d ∧ d 0 = data 0 ∧ d 1 = 0 ∧
      ∃ c : ℂ, ‖c‖ = 1 ∧ d 2 = c * data 2 ∧ d 3 = c * data 3) ∧
    ∃ d, localizeGaussian same svd [1, 2] [2, 4] (.tuple [.fundamental 2, .fundamental 2]) data = some d := by
  obtain ⟨o, φ, d, k1, k2, k3, k4, k5⟩ := C148_one_axis_partial same hs svd hsvd 3 2 (.tuple [.fundamental 2]) ⟨trivial, trivial⟩ ⟨trivial, trivial⟩ rfl rfl
    (by norm_num) (by norm_num) data
  obtain ⟨g, e, C, m1, -⟩ := C148_gaussian_partial same hs svd hsvd 1 2 2 2 (by norm_num) (by norm_num) (by norm_num) (by norm_num)
    (.tuple [.fundamental 2, .fundamental 2]) ⟨trivial, trivial, trivial⟩ ⟨trivial, trivial, trivial⟩ rfl (by decide) data
  have hb := fund_facts [2]
  have hx : expand (.tuple [.fundamental 2]) (block (size (.tuple [.fundamental 2])) data 0) 0 = data 0 := by
    unfold expand
    have s1 : size (.tuple [.fundamental 2]) = 2 := rfl
    rw [s1, sum_range_succ, sum_range_one]
    have e0 := hb.2.2.1 0 (by decide) 0 (by decide)
    have e1 := hb.2.2.1 1 (by decide) 0 (by decide)
    simp only [List.map_cons, List.map_nil] at e0 e1
    rw [e0, e1]
    simp [block]
  have hne : blochWave [(3, 2)] (.tuple [.fundamental 2]) (block (size (.tuple [.fundamental 2])) data 0) [0] [0] ≠ 0 := by
    unfold blochWave
    refine div_ne_zero (mul_ne_zero ?_ ?_) (by simp)
    · simp [blochPhase]
    · simpa [ravel, reduce, hx] using h0
  have keep := k5 ⟨0, by norm_num, hne⟩
  have s1 : size (.tuple [.fundamental 2]) = 2 := rfl
  rw [s1] at keep k4
  obtain ⟨c, hc, kc⟩ := (k4 1 (by norm_num)).1
  exact ⟨⟨d, k1, keep 0 (by norm_num), by rw [keep 1 (by norm_num), h1], c, hc, kc 0 (by norm_num), kc 1 (by norm_num)⟩, e, m1⟩

end Verif
