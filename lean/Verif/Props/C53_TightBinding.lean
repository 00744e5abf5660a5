import Verif.Props.C52_Wannier
import Verif.Props.C25_States

/-!
# C53, C90: sample fractions and localisation by phases
-/

set_option autoImplicit false

namespace Verif

open Finset Spec

/-! ## C90 -/

theorem nk_getD : ∀ (ns as : List ℕ), InShape ns as → ∀ ax, ax < ns.length →
    (List.zipWith (fun n j => nkPoints n j) ns as).getD ax 0 = freq (ns.getD ax 0) (as.getD ax 0)
  | n :: ns, a :: as, h, 0, _ => by
    show nkPoints n a = freq n a
    exact nkPoints_eq_freq h.1
  | n :: ns, a :: as, h, ax + 1, hax => by
    rw [List.zipWith_cons_cons, List.getD_cons_succ, List.getD_cons_succ, List.getD_cons_succ]
    exact nk_getD ns as h.2 ax (by simpa using hax)
  | [], _, _, _, hax => by simp at hax
  | _ :: _, [], h, _, _ => by simp [InShape] at h

theorem list_identity (same : Basis → Basis → Bool) (hs : Sound same) (ns : List ℕ) :
    ∃ f, Basis.convert same (fT ns) (fT ns) = some f ∧ ∀ v, ∀ j < ns.prod, f v j = v j := by
  obtain ⟨h1, h2, h3⟩ := fT_facts ns
  obtain ⟨f, hf, kf⟩ := C10_route same hs (fT ns) (fT ns) (valids_fT _) (valids_fT _) (orthonormalPartss_fT _) (compatible_fT ns)
  refine ⟨f, hf, fun v j hj => ?_⟩
  rw [kf v j (by rw [h1]; exact hj)]
  exact dot_state_expand (state_orthonormal (fT ns) (valids_fT _) (orthonormalPartss_fT _)) v (by rw [h1]; exact hj)

/-- **C90.** For the fundamental transformed list basis the sample fractions are the momenta of the samples as fractions of the
Brillouin zone. -/
theorem C90_fractions_partial (same : Basis → Basis → Bool) (hs : Sound same) (ns : List ℕ) :
    ∃ φ, sampleFractions same (fT ns) = some φ ∧ ∀ a, InShape ns a → ∀ ax < ns.length,
      φ ax (ravel ns a) = (freq (ns.getD ax 0) (a.getD ax 0) : ℝ) / (ns.getD ax 0 : ℕ) := by
  obtain ⟨f, hf, kf⟩ := list_identity same hs ns
  refine ⟨fun ax i => (f (fun k => (((stackedNkPoints ns k).getD ax 0 : ℤ) : ℂ) / (ns.getD ax 0 : ℕ)) i).re, ?_, fun a ha ax hax => ?_⟩
  · unfold sampleFractions
    rw [show (fT ns).fundamentalShape = ns from fundamentalShape_fT ns, Basis.asTransformedBasis,
      show (fT ns).fundamentalShape = ns from fundamentalShape_fT ns, hf, Option.map_some]
  · dsimp only
    rw [kf _ _ (ravel_lt _ _ ha)]
    unfold stackedNkPoints
    rw [unravel_ravel _ _ ha, nk_getD ns a ha ax hax]
    rw [show ((freq (ns.getD ax 0) (a.getD ax 0) : ℤ) : ℂ) / ((ns.getD ax 0 : ℕ) : ℂ) =
      (((freq (ns.getD ax 0) (a.getD ax 0) : ℝ) / (ns.getD ax 0 : ℕ) : ℝ) : ℂ) by push_cast; rfl, Complex.ofReal_re]

-- three by two samples, the last one: fractions -1/3 and -1/2
example : InShape [3, 2] [2, 1] ∧ freq 3 2 = -1 ∧ freq 2 1 = -1 := by
  refine ⟨⟨by norm_num, by norm_num, trivial⟩, rfl, rfl⟩

/-- **C90, negation.** For a list basis which is not transformed (as returned by `convert_wavepacket_to_shape`) the fractions are
converted as if they were the components of a vector: the first sample does not have momentum zero. -/
theorem C90_fundamental_negation (same : Basis → Basis → Bool) (hs : Sound same) :
    ∃ φ, sampleFractions same (.tuple [.fundamental 2]) = some φ ∧ φ 0 0 < 0 := by
  obtain ⟨f, hf, kf⟩ := C10_route same hs (.tuple [.fundamentalTransformed 2]) (.tuple [.fundamental 2]) ⟨trivial, trivial⟩
    ⟨trivial, trivial⟩ ⟨trivial, trivial⟩ ⟨rfl, trivial⟩
  have e0 : (Basis.tuple [Basis.fundamental 2]).fundamentalShape = [2] := rfl
  refine ⟨fun ax i => (f (fun k => (((stackedNkPoints [2] k).getD ax 0 : ℤ) : ℂ) / (([2] : List ℕ).getD ax 0 : ℕ)) i).re, ?_, ?_⟩
  · unfold sampleFractions
    rw [e0]
    rw [show (Basis.tuple [Basis.fundamental 2]).asTransformedBasis = .tuple [.fundamentalTransformed 2] from rfl, hf, Option.map_some]
  · dsimp only
    rw [kf _ 0 (by simp [size, sizes])]
    have e : ∀ k < 2, (stackedNkPoints [2] k).getD 0 0 = -k := by
      intro k hk
      interval_cases k <;> rfl
    have e2 : ([2] : List ℕ).getD 0 0 = 2 := rfl
    simp only [points, pointss, expand, size, sizes, sum_range_succ, range_zero, sum_empty, e2, e 0 (by norm_num), e 1 (by norm_num)]
    simp [state, states, sizes, pointss, planeWave]
    have : 0 < √(2 : ℝ) := by positivity
    linarith

/-! ## C53 -/

/-- The point `X` of the large cell is the one with the (arbitrary integer) index `idx`. -/
def AtPoint : List (ℕ × ℕ) → List ℤ → List ℕ → Prop
  | [], [], [] => True
  | (ns, nx) :: axes, i :: is, x :: xs => i % ((ns * nx : ℕ) : ℤ) = x ∧ AtPoint axes is xs
  | _, _, _ => False

/-- The phase angle of the Bloch factor, divided by `2 π`. -/
noncomputable def fracDot : List (ℕ × ℕ) → List ℕ → List ℤ → ℝ
  | (ns, nx) :: axes, a :: as, i :: is => (freq ns a : ℝ) / (ns : ℕ) * ((i : ℝ) / (nx : ℕ)) + fracDot axes as is
  | _, _, _ => 0

theorem sum_fracDot : ∀ (axes : List (ℕ × ℕ)) (a X : List ℕ) (idx : List ℤ), InShape (sampleShape axes) a → AtPoint axes idx X →
    ∑ ax ∈ range idx.length, (freq ((sampleShape axes).getD ax 0) (a.getD ax 0) : ℝ) / ((sampleShape axes).getD ax 0 : ℕ) *
      (((idx.getD ax 0 : ℤ) : ℝ) / ((stateShape axes).getD ax 0 : ℕ)) = fracDot axes a idx
  | [], [], [], [], _, _ => by simp [fracDot]
  | (ns, nx) :: axes, a :: as, x :: xs, i :: is, ha, h => by
    rw [List.length_cons, sum_range_succ', fracDot, ← sum_fracDot axes as xs is ha.2 h.2, add_comm]
    rfl
  | [], _ :: _, _, _, h, _ => by simp [sampleShape, InShape] at h
  | [], [], _ :: _, _, _, h => by cases ‹List ℤ› <;> simp [AtPoint] at h
  | [], [], [], _ :: _, _, h => by simp [AtPoint] at h
  | _ :: _, [], _, _, h, _ => by simp [sampleShape, InShape] at h
  | _ :: _, _ :: _, [], _, _, h => by cases ‹List ℤ› <;> simp [AtPoint] at h
  | _ :: _, _ :: _, _ :: _, [], _, h => by simp [AtPoint] at h

theorem exp_fracDot : ∀ (axes : List (ℕ × ℕ)) (a X : List ℕ) (idx : List ℤ), InShape (sampleShape axes) a → AtPoint axes idx X →
    InShape (unfurledShape axes) X → Complex.exp (Complex.I * ((2 * Real.pi * fracDot axes a idx : ℝ) : ℂ)) = blochPhase axes a X
  | [], [], [], [], _, _, _ => by simp [fracDot, blochPhase]
  | (ns, nx) :: axes, a :: as, x :: xs, i :: is, ha, h, hX => by
    have ih := exp_fracDot axes as xs is ha.2 h.2 hX.2
    have hN : 0 < ns * nx := Nat.zero_lt_of_lt hX.1
    have hn : (ns : ℂ) ≠ 0 := by exact_mod_cast (Nat.zero_lt_of_lt ha.1).ne'
    have hx : (nx : ℂ) ≠ 0 := by exact_mod_cast (Nat.pos_of_mul_pos_left hN).ne'
    rw [blochPhase, fracDot, ← ih, exp_phase, mul_add, Complex.ofReal_add, mul_add, Complex.exp_add]
    congr 1
    have e : phase (ns * nx) (freq ns a * x) = phase (ns * nx) (freq ns a * i) := by
      apply phase_congr hN
      rw [← mul_sub]
      apply Dvd.dvd.mul_left
      have h1 : ((ns * nx : ℕ) : ℤ) ∣ i - x := by
        have := h.1
        rw [← this]
        exact Int.dvd_self_sub_emod
      rw [← neg_sub]
      exact (dvd_neg).2 h1
    rw [e]
    unfold phase
    congr 1
    push_cast
    field_simp
  | [], _ :: _, _, _, h, _, _ => by simp [sampleShape, InShape] at h
  | [], [], _ :: _, _, _, _, h => by simp [unfurledShape, InShape] at h
  | [], [], [], _ :: _, _, h, _ => by simp [AtPoint] at h
  | _ :: _, [], _, _, h, _, _ => by simp [sampleShape, InShape] at h
  | _ :: _, _ :: _, [], _, _, _, h => by simp [unfurledShape, InShape] at h
  | _ :: _, _ :: _, _ :: _, [], _, h, _ => by simp [AtPoint] at h

theorem coords_atPoint : ∀ (axes : List (ℕ × ℕ)) (X : List ℕ) (idx : List ℤ), AtPoint axes idx X → InShape (unfurledShape axes) X →
    ravelCoords .wrap (stateShape axes) idx = some (reduce axes X)
  | [], [], [], _, _ => rfl
  | (ns, nx) :: axes, x :: xs, i :: is, h, hX => by
    have hN : 0 < ns * nx := Nat.zero_lt_of_lt hX.1
    have hx : nx ≠ 0 := (Nat.pos_of_mul_pos_left hN).ne'
    have ih := coords_atPoint axes xs is h.2 hX.2
    show (match ravelCoord .wrap nx i, ravelCoords .wrap (stateShape axes) is with
      | some a, some as => some (a :: as)
      | _, _ => none) = some (x % nx :: reduce axes xs)
    rw [ih, ravelCoord]
    simp only [if_neg hx]
    have e : (i % (nx : ℤ)).toNat = x % nx := by
      have h1 : i % (nx : ℤ) = (x : ℤ) % nx := by
        have := h.1
        rw [← this]
        push_cast
        rw [Int.emod_emod_of_dvd _ (Dvd.intro_left _ rfl)]
      rw [h1]
      exact_mod_cast rfl
    rw [e]
  | [], _ :: _, _, _, h => by simp [unfurledShape, InShape] at h
  | [], [], _ :: _, h, _ => by simp [AtPoint] at h
  | _ :: _, [], _, _, h => by simp [unfurledShape, InShape] at h
  | _ :: _, _ :: _, [], h, _ => by simp [AtPoint] at h

theorem atPoint_length : ∀ (axes : List (ℕ × ℕ)) (X : List ℕ) (idx : List ℤ), AtPoint axes idx X → idx.length = axes.length
  | [], [], [], _ => rfl
  | _ :: axes, _ :: xs, _ :: is, h => congrArg (· + 1) (atPoint_length axes xs is h.2)
  | [], _ :: _, _, h => by cases ‹List ℤ› <;> simp [AtPoint] at h
  | [], [], _ :: _, h => by simp [AtPoint] at h
  | _ :: _, [], _, h => by cases ‹List ℤ› <;> simp [AtPoint] at h
  | _ :: _, _ :: _, [], h => by simp [AtPoint] at h

theorem norm_blochPhase : ∀ (axes : List (ℕ × ℕ)) (a X : List ℕ), ‖blochPhase axes a X‖ = 1
  | (ns, nx) :: axes, a :: as, x :: xs => by
    rw [blochPhase, norm_mul, norm_blochPhase axes as xs, mul_one, exp_phase]
    unfold phase
    rw [show (2 * Real.pi * Complex.I * ((freq ns a * x : ℤ) : ℂ) / ((ns * nx : ℕ) : ℂ) : ℂ) =
      ((2 * Real.pi * (freq ns a * x : ℤ) / ((ns * nx : ℕ) : ℝ) : ℝ) : ℂ) * Complex.I by push_cast; ring]
    exact Complex.norm_exp_ofReal_mul_I _
  | [], _, _ => by rw [blochPhase]; exact norm_one; all_goals simp
  | _ :: _, [], _ => by rw [blochPhase]; exact norm_one; all_goals simp
  | _ :: _, _ :: _, [] => by rw [blochPhase]; exact norm_one; all_goals simp

theorem compatible_asPosition (b : Basis) : Compatible b b.asPositionBasis := by
  have h : points b = points b.asPositionBasis := by
    rw [Basis.asPositionBasis, (fund_facts _).2.1, fundamentalShape_prod]
  cases b with
  | tuple axes =>
    show Compatibles axes _
    rw [Basis.fundamentalShape]
    clear h
    induction axes with
    | nil => trivial
    | cons a axes ih =>
      refine ⟨?_, ih⟩
      have := (methods_sizes a).2
      cases a <;> exact this.symm
  | _ => exact h

theorem expand_scale (b : Basis) (z : ℂ) (v : ℕ → ℂ) (x : ℕ) : expand b (fun j => z * v j) x = z * expand b v x := by
  unfold expand
  rw [mul_sum]
  exact sum_congr rfl fun _ _ => by ring

/-- **C53.** Localising at a point (given by arbitrary integers, so possibly in another cell) multiplies the state of every sample by
a phase; afterwards the Bloch state of every sample has at that point the phase `angle`, its modulus is the one before. -/
theorem C53_phases_partial (same : Basis → Basis → Bool) (hs : Sound same) (axes : List (ℕ × ℕ)) (b : Basis) (hb : Valid b)
    (ho : OrthonormalParts b) (hshape : b.fundamentalShape = stateShape axes) (data : ℕ → ℂ) (idx : List ℤ) (angle : ℝ)
    (X : List ℕ) (hX : InShape (unfurledShape axes) X) (hidx : AtPoint axes idx X) :
    ∃ w, localizeTightlyBound same ⟨fT (sampleShape axes), b, data⟩ idx angle = some w ∧ w.listBasis = fT (sampleShape axes) ∧
      w.basis = b ∧ ∀ a < (sampleShape axes).prod,
        (∃ z : ℂ, ‖z‖ = 1 ∧ ∀ k < size b, w.data (a * size b + k) = z * data (a * size b + k)) ∧
        blochWave axes b (block (size b) w.data a) (unravel (sampleShape axes) a) X =
          ‖blochWave axes b (block (size b) data a) (unravel (sampleShape axes) a) X‖ * Complex.exp (Complex.I * angle) := by
  have hbn : b.n = size b := (methods_sizes b).1
  obtain ⟨f, hf, kf⟩ := list_identity same hs (sampleShape axes)
  have hc : Compatible b (.tuple ((stateShape axes).map .fundamental)) := by
    have := compatible_asPosition b
    rwa [Basis.asPositionBasis, hshape] at this
  obtain ⟨g, hg, kg⟩ := convert_position same hs b hb ho (stateShape axes) hc
  obtain ⟨φ, hφ, kφ⟩ := C90_fractions_partial same hs (sampleShape axes)
  have hlen := atPoint_length axes X idx hidx
  have hxs := reduce_inShape axes X hX
  -- the point in the small cell
  obtain ⟨x, hx⟩ : ∃ x, x = ravel (stateShape axes) (reduce axes X) := ⟨_, rfl⟩
  have hxlt : x < (stateShape axes).prod := by rw [hx]; exact ravel_lt _ _ hxs
  have hpn : (Basis.tuple ((stateShape axes).map .fundamental)).n = (stateShape axes).prod :=
    ((methods_sizes _).1).trans (fund_facts _).1
  obtain ⟨E, hE⟩ : ∃ E : ℕ → ℂ, E = fun a => expand b (block (size b) data a) x := ⟨_, rfl⟩
  obtain ⟨B, hB, kB⟩ : ∃ B, blochPhases same ⟨fT (sampleShape axes), b, data⟩ idx = some B ∧
      ∀ a < (sampleShape axes).prod, B a = Complex.arg (E a) := by
    unfold blochPhases convertWavepacket
    dsimp only
    rw [hf, Option.bind_some, Basis.asPositionBasis, hshape, hg, Option.map_some, Option.bind_some, getFlatIndex,
      coords_atPoint axes X idx hidx hX, Option.map_some, Option.map_some]
    refine ⟨_, rfl, fun a ha => ?_⟩
    dsimp only
    rw [hpn, ← hx]
    have q := block_flatten (n := (stateShape axes).prod)
      (fun i => g fun k => f (fun l => data (l * b.n + k)) i) a hxlt
    unfold block at q
    rw [q, kg _ _ hxlt, hE]
    congr 1
    refine sum_congr rfl fun k _ => ?_
    beta_reduce
    rw [kf _ _ ha, hbn]
    rfl
  obtain ⟨G, hG, kG⟩ : ∃ G, globalPhases same ⟨fT (sampleShape axes), b, data⟩ idx = some G ∧
      ∀ a < (sampleShape axes).prod, G a = 2 * Real.pi * fracDot axes (unravel (sampleShape axes) a) idx := by
    unfold globalPhases
    dsimp only
    rw [show (fT (sampleShape axes)).fundamentalShape = sampleShape axes from fundamentalShape_fT _, hshape, if_pos, hφ,
      Option.map_some]
    · refine ⟨_, rfl, fun a ha => ?_⟩
      have sa := unravel_inShape _ a ha
      rw [← sum_fracDot axes _ X idx sa hidx]
      congr 1
      apply sum_congr rfl; intro ax hax
      have := kφ _ sa ax (by rw [sampleShape, List.length_map, ← hlen]; exact mem_range.1 hax)
      rw [ravel_unravel _ a ha] at this
      rw [this]
    · rw [hlen, stateShape, sampleShape, List.length_map, List.length_map]; exact ⟨rfl, rfl⟩
  refine ⟨⟨fT (sampleShape axes), b, flatten b.n fun a k =>
      data (a * b.n + k) * Complex.exp (-Complex.I * ((B a + G a - angle : ℝ) : ℂ))⟩, ?_, rfl, rfl, fun a ha => ?_⟩
  · unfold localizeTightlyBound
    rw [hB, Option.bind_some, hG, Option.map_some]
  · have sa := unravel_inShape _ a ha
    obtain ⟨z, hz⟩ : ∃ z, z = Complex.exp (-Complex.I * ((B a + G a - angle : ℝ) : ℂ)) := ⟨_, rfl⟩
    have hn : ‖z‖ = 1 := by
      rw [hz, show (-Complex.I * ((B a + G a - angle : ℝ) : ℂ)) = ((-(B a + G a - angle) : ℝ) : ℂ) * Complex.I by push_cast; ring]
      exact Complex.norm_exp_ofReal_mul_I _
    have hd : ∀ k < size b, block (size b) (flatten b.n fun a k =>
        data (a * b.n + k) * Complex.exp (-Complex.I * ((B a + G a - angle : ℝ) : ℂ))) a k = z * block (size b) data a k := by
      intro k hk
      rw [hbn, block_flatten _ a hk, hz]
      unfold block
      ring
    refine ⟨⟨z, hn, fun k hk => hd k hk⟩, ?_⟩
    have e1 : Complex.exp (Complex.I * (G a : ℂ)) = blochPhase axes (unravel (sampleShape axes) a) X := by
      rw [kG a ha]; exact exp_fracDot axes _ X idx sa hidx hX
    unfold blochWave
    rw [expand_congr b hd, expand_scale, show axes.map Prod.snd = stateShape axes from rfl, ← hx,
      show expand b (block (size b) data a) x = E a by rw [hE], norm_div, norm_mul, norm_blochPhase, one_mul, Complex.norm_real,
      Real.norm_of_nonneg (Real.sqrt_nonneg _), Complex.ofReal_div, ← e1]
    have e2 : z = Complex.exp (-(Complex.arg (E a) * Complex.I)) * Complex.exp (-(Complex.I * (G a : ℂ))) *
        Complex.exp (Complex.I * angle) := by
      rw [hz, kB a ha, ← Complex.exp_add, ← Complex.exp_add]
      congr 1
      push_cast
      ring
    have e3 : Complex.exp (Complex.I * (G a : ℂ)) * Complex.exp (-(Complex.I * (G a : ℂ))) = 1 := by
      rw [← Complex.exp_add, add_neg_cancel, Complex.exp_zero]
    have e4 : Complex.exp (-(Complex.arg (E a) * Complex.I)) * E a = ‖E a‖ := by
      have q := Complex.norm_mul_exp_arg_mul_I (E a)
      have q2 : Complex.exp (-(Complex.arg (E a) * Complex.I)) * Complex.exp (Complex.arg (E a) * Complex.I) = 1 := by
        rw [← Complex.exp_add, neg_add_cancel, Complex.exp_zero]
      linear_combination (-Complex.exp (-(Complex.arg (E a) * Complex.I))) * q + (‖E a‖ : ℂ) * q2
    rw [e2]
    generalize Complex.exp (Complex.I * (G a : ℂ)) = P at *
    generalize Complex.exp (-(Complex.I * (G a : ℂ))) = Q at *
    generalize Complex.exp (-(Complex.arg (E a) * Complex.I)) = S at *
    generalize Complex.exp (Complex.I * angle) = T at *
    linear_combination (S * E a * T / (Real.sqrt ((axes.map Prod.fst).prod : ℕ) : ℂ)) * e3 +
      (T / (Real.sqrt ((axes.map Prod.fst).prod : ℕ) : ℂ)) * e4

/-- **C53.** The inner products of the states of a sample are kept by a common phase, in particular the norms. -/
theorem C53_norm_partial (same : Basis → Basis → Bool) (hs : Sound same) (axes : List (ℕ × ℕ)) (b : Basis) (hb : Valid b)
    (ho : OrthonormalParts b) (hshape : b.fundamentalShape = stateShape axes) (data : ℕ → ℂ) (idx : List ℤ) (angle : ℝ)
    (X : List ℕ) (hX : InShape (unfurledShape axes) X) (hidx : AtPoint axes idx X) :
    ∃ w, localizeTightlyBound same ⟨fT (sampleShape axes), b, data⟩ idx angle = some w ∧ ∀ a < (sampleShape axes).prod,
      dot (size b) (block (size b) w.data a) (block (size b) w.data a) = dot (size b) (block (size b) data a) (block (size b) data a) := by
  obtain ⟨w, h1, -, -, h2⟩ := C53_phases_partial same hs axes b hb ho hshape data idx angle X hX hidx
  refine ⟨w, h1, fun a ha => ?_⟩
  obtain ⟨⟨z, hz, hd⟩, -⟩ := h2 a ha
  unfold dot
  refine sum_congr rfl fun k hk => ?_
  have := hd k (mem_range.1 hk)
  unfold block
  rw [this, map_mul]
  have e : (starRingEnd ℂ) z * z = 1 := by
    rw [Complex.conj_mul', hz]; norm_num
  linear_combination ((starRingEnd ℂ) (data (a * size b + k)) * data (a * size b + k)) * e

-- two samples of three points; the point 7 of the large cell of six points is point 1
example : AtPoint [(2, 3)] [7] [1] ∧ InShape (unfurledShape [(2, 3)]) [1] ∧
    (Basis.tuple [.fundamental 3]).fundamentalShape = stateShape [(2, 3)] ∧ Valid (.tuple [.fundamental 3]) ∧
    OrthonormalParts (.tuple [.fundamental 3]) :=
  ⟨⟨by norm_num, trivial⟩, ⟨by norm_num, trivial⟩, rfl, ⟨trivial, trivial⟩, ⟨trivial, trivial⟩⟩

/-- **C53, negation.** The variant with two points returns an array with a row for every sample, each of which holds the data of
all samples: not the number of entries of the wavepacket. -/
theorem C53_two_point_negation (N n : ℕ) (hN : 1 < N) (hn : 0 < n) :
    ∃ shape, twoPointMaxShape N n = some shape ∧ shape.prod = N * (N * n) ∧ shape.prod ≠ N * n := by
  have h1 : N * n ≠ 1 := by
    intro h
    have := Nat.eq_one_of_mul_eq_one_right h
    omega
  refine ⟨[N, N * n], ?_, by simp, ?_⟩
  · simp [twoPointMaxShape, newaxisShape, broadcastShape, broadcastRev]
  · have : 0 < N * n := Nat.mul_pos (by omega) hn
    simp only [List.prod_cons, List.prod_nil, mul_one]
    nlinarith

/-- **C53, negation.** The variant at the maximum raises for every wavepacket. -/
theorem C53_max_point_negation (N n : ℕ) : maxPointShape N n = none := rfl

end Verif
