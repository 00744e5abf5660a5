import Verif.Model.DiagonalLocalization
import Verif.Props.C111_BlochOperator
import Verif.Props.C29_Operators
import Verif.Props.C64_Gaussian
import Verif.Props.C65_Sample

/-!
# C145, C146: Diagonal localisation operators; components of sampled noise, displacements of the points
-/

set_option autoImplicit false

namespace Verif

open Finset Spec MeasureTheory

/-! ## Diagonal and full localisation operators -/

/-- The overlap `⟨state j of b | state i of a⟩`. -/
noncomputable def stateOverlap (b a : Basis) (j i : ℕ) : ℂ :=
  ∑ x ∈ range (points a), (starRingEnd ℂ) (state b j x) * state a i x

theorem fullEntry (list b : Basis) (data : ℕ → ℂ) (a : ℕ) {i j : ℕ} (hi : i < size b) (hj : j < size b) :
    (diagonalLocalizationAsFull list b data).entry a i j = if i = j then data (a * size b + i) else 0 := by
  unfold OperatorList.entry diagonalLocalizationAsFull diagonalOperatorListAsFull
  dsimp only
  rw [Basis.n_eq, flatten3_entry _ _ hi hj]
  split <;> simp

/-- **C145.** The diagonal form of a localisation operator for given new states `b0` and old states `b1`: the diagonal matrix elements
`⟨b0 i| O |b0 i⟩ = ∑ l, O i l ⟨b1 l| b0 i⟩`, for every sample. -/
theorem C145_diagonal (same : Basis → Basis → Bool) (hs : Sound same) (L : OperatorList) (h0 : Valid L.b0) (h1 : Valid L.b1)
    (o0 : OrthonormalParts L.b0) (o1 : OrthonormalParts L.b1) (hc : Compatible L.b1 L.b0) :
    ∃ d, localizationOperatorAsDiagonal same L = some (L.listBasis, L.b0, d) ∧ ∀ a, ∀ i < size L.b0,
      d (a * size L.b0 + i) = ∑ l ∈ range (size L.b1), L.entry a i l * (starRingEnd ℂ) (stateOverlap L.b0 L.b1 i l) := by
  obtain ⟨C, f, f', hC, hf, hf', kC⟩ := C17_matrix same hs L.b0 L.b0 L.b1 L.b0 h0 h0 o0 (compatible_refl _) h1 h0 o1 hc
  obtain ⟨g, hg, kg⟩ := convert_identity same hs L.b0 h0 o0
  obtain ⟨g', hg', kg'⟩ := C10_route same hs L.b1 L.b0 h1 h0 o1 hc
  obtain rfl : f = g := Option.some.inj (hf.symm.trans hg)
  obtain rfl : f' = g' := Option.some.inj (hf'.symm.trans hg')
  refine ⟨_, by unfold localizationOperatorAsDiagonal convertOperatorList; rw [hC]; rfl, fun a i hi => ?_⟩
  simp only [operatorListAsDiagonal, Basis.n_eq]
  rw [flatten_entry _ _ hi, flatten3_entry _ _ hi hi, kC _ i hi i hi]
  rw [sum_eq_single i (fun i' hi' hne => ?_) (fun h => absurd (mem_range.2 hi) h)]
  · refine sum_congr rfl fun l hl => ?_
    rw [kg _ i hi, kg' _ i hi]
    have e : ∀ x, expand L.b1 (unit l) x = state L.b1 l x := fun x => by
      unfold expand unit
      rw [sum_eq_single l (fun m _ hm => by simp [hm]) (fun h => absurd hl h)]
      simp
    simp only [e, stateOverlap]
    rw [show unit i i = 1 by simp [unit], one_mul]
  · refine sum_eq_zero fun l _ => ?_
    rw [kg _ i hi, show unit i' i = 0 by simp [unit, Ne.symm hne]]
    ring

/-- Old states which are plane waves, new states at the points of the grid. -/
example : ∃ L : OperatorList, Valid L.b0 ∧ Valid L.b1 ∧ OrthonormalParts L.b0 ∧ OrthonormalParts L.b1 ∧ Compatible L.b1 L.b0 ∧ L.b1 ≠ L.b0 :=
  ⟨⟨.fundamental 3, .fundamental 4, .fundamentalTransformed 4, fun k => k⟩, trivial, trivial, trivial, trivial, rfl, by simp⟩

/-- **C145.** With the same states on both sides the diagonal entries are read off. -/
theorem C145_same (same : Basis → Basis → Bool) (hs : Sound same) (L : OperatorList) (h0 : Valid L.b0) (o0 : OrthonormalParts L.b0)
    (hb : L.b1 = L.b0) : ∃ d, localizationOperatorAsDiagonal same L = some (L.listBasis, L.b0, d) ∧ ∀ a, ∀ i < size L.b0,
      d (a * size L.b0 + i) = L.entry a i i := by
  obtain ⟨d, hd, kd⟩ := C145_diagonal same hs L h0 (hb ▸ h0) o0 (hb ▸ o0) (hb ▸ compatible_refl _)
  refine ⟨d, hd, fun a i hi => ?_⟩
  rw [kd a i hi, hb]
  have : ∀ l ∈ range (size L.b0), L.entry a i l * (starRingEnd ℂ) (stateOverlap L.b0 L.b0 i l) = if i = l then L.entry a i l else 0 := by
    intro l hl
    unfold stateOverlap
    rw [state_orthonormal L.b0 h0 o0 i hi l (mem_range.1 hl)]
    split <;> simp
  rw [sum_congr rfl this, sum_ite_eq, if_pos (mem_range.2 hi)]

/-- **C145.** The diagonal form of the full form of a diagonal localisation operator is the operator itself, in every basis with orthonormal
states. -/
theorem C145_round_trip (same : Basis → Basis → Bool) (hs : Sound same) (list b : Basis) (hv : Valid b) (ho : OrthonormalParts b)
    (data : ℕ → ℂ) : ∃ d, localizationOperatorAsDiagonal same (diagonalLocalizationAsFull list b data) = some (list, b, d) ∧
      ∀ a, ∀ i < size b, d (a * size b + i) = data (a * size b + i) := by
  obtain ⟨d, hd, kd⟩ := C145_same same hs (diagonalLocalizationAsFull list b data) hv ho rfl
  refine ⟨d, hd, fun a i hi => ?_⟩
  rw [show size b = size (diagonalLocalizationAsFull list b data).b0 from rfl, kd a i hi, fullEntry list b data a hi hi, if_pos rfl]
  rfl

/-- **C145.** The full form of the diagonal form keeps the diagonal and drops all the other entries; it is the given operator if and only if
the operator is diagonal at every sample. -/
theorem C145_full (same : Basis → Basis → Bool) (hs : Sound same) (L : OperatorList) (h0 : Valid L.b0) (o0 : OrthonormalParts L.b0)
    (hb : L.b1 = L.b0) : ∃ list b d, localizationOperatorAsDiagonal same L = some (list, b, d) ∧
      ∀ a, (∀ i < size L.b0, ∀ j < size L.b0, (diagonalLocalizationAsFull list b d).entry a i j = if i = j then L.entry a i j else 0) ∧
      ((∀ i < size L.b0, ∀ j < size L.b0, (diagonalLocalizationAsFull list b d).entry a i j = L.entry a i j) ↔
        ∀ i < size L.b0, ∀ j < size L.b0, i ≠ j → L.entry a i j = 0) := by
  obtain ⟨d, hd, kd⟩ := C145_same same hs L h0 o0 hb
  have key : ∀ a, ∀ i < size L.b0, ∀ j < size L.b0,
      (diagonalLocalizationAsFull L.listBasis L.b0 d).entry a i j = if i = j then L.entry a i j else 0 := by
    intro a i hi j hj
    rw [fullEntry _ _ _ a hi hj]
    by_cases h : i = j
    · rw [if_pos h, if_pos h, kd a i hi, h]
    · rw [if_neg h, if_neg h]
  refine ⟨_, _, d, hd, fun a => ⟨key a, fun h i hi j hj hij => ?_, fun h i hi j hj => ?_⟩⟩
  · rw [← h i hi j hj, key a i hi j hj, if_neg hij]
  · rw [key a i hi j hj]
    by_cases hij : i = j
    · rw [if_pos hij]
    · rw [if_neg hij, h i hi j hj hij]

/-- Two new states, the sum and the difference of the old ones: the diagonal form is not the whole operator. -/
example : ∃ L : OperatorList, Valid L.b0 ∧ OrthonormalParts L.b0 ∧ L.b1 = L.b0 ∧ size L.b0 = 2 ∧ L.entry 0 0 1 ≠ 0 := by
  refine ⟨⟨.fundamental 1, .fundamental 2, .fundamental 2, fun k => if k = 3 then -1 else 1⟩, trivial, trivial, rfl, rfl, ?_⟩
  simp [OperatorList.entry, Basis.n]

/-- **C145.** A diagonal localisation operator and its full form localise wavepackets in the same way. -/
theorem C145_wavepackets (w : BlochWavefunctions) (list b : Basis) (hb : size b = w.bands) (data : ℕ → ℂ) :
    ∃ w', getLocalizedWavepackets w ⟨w.samples, w.bands, w.bands, (diagonalLocalizationAsFull list b data).data⟩ = some w' ∧
      w'.bands = w.bands ∧ w'.samples = w.samples ∧ w'.basis = w.basis ∧
      ∀ i < w.bands, ∀ a < w.samples.prod, ∀ k < size w.basis,
        w'.data ((i * w.samples.prod + a) * size w.basis + k) =
          (getDiagonalLocalizedWavepackets w data).data ((i * w.samples.prod + a) * size w.basis + k) ∧
        w'.data ((i * w.samples.prod + a) * size w.basis + k) =
          data (a * w.bands + i) * w.data ((i * w.samples.prod + a) * size w.basis + k) := by
  obtain ⟨w', h1, h2, h3, h4, h5⟩ := localized_block w
    ⟨w.samples, w.bands, w.bands, (diagonalLocalizationAsFull list b data).data⟩ rfl rfl
  refine ⟨w', h1, h2, h3, h4, fun i hi a ha k hk => ?_⟩
  have e : w'.data ((i * w.samples.prod + a) * size w.basis + k) =
      data (a * w.bands + i) * w.data ((i * w.samples.prod + a) * size w.basis + k) := by
    have := h5 i a ha k hk
    simp only [block] at this
    rw [this, sum_eq_single i (fun l hl hne => ?_) (fun h => absurd (mem_range.2 hi) h)]
    · congr 1
      have := fullEntry list b data a (hb ▸ hi) (hb ▸ hi : i < size b)
      rw [if_pos rfl, OperatorList.entry] at this
      simp only [diagonalLocalizationAsFull, diagonalOperatorListAsFull, Basis.n_eq, hb] at this ⊢
      rw [← this, LocalizationOperator.entry]
      congr 1
      ring
    · have := fullEntry list b data a (hb ▸ hi) (hb ▸ mem_range.1 hl : l < size b)
      rw [if_neg (Ne.symm hne), OperatorList.entry] at this
      simp only [diagonalLocalizationAsFull, diagonalOperatorListAsFull, Basis.n_eq, hb] at this ⊢
      rw [LocalizationOperator.entry, show (a * w.bands + i) * w.bands + l = a * (w.bands * w.bands) + (i * w.bands + l) by ring]
      dsimp only
      rw [this, zero_mul]
  refine ⟨?_, e⟩
  rw [e, getDiagonalLocalizedWavepackets]
  dsimp only
  rw [Basis.n_eq, flatten3_at _ ha hk]

/-- **C145.** Phases keep the wavepackets orthonormal. -/
theorem C145_phases (w : BlochWavefunctions) (data : ℕ → ℂ) (hw : Orthonormal w)
    (hd : ∀ a < w.samples.prod, ∀ i < w.bands, ‖data (a * w.bands + i)‖ = 1) : Orthonormal (getDiagonalLocalizedWavepackets w data) := by
  intro i hi i' hi' a ha
  have hi : i < w.bands := hi
  have hi' : i' < w.bands := hi'
  have ha : a < w.samples.prod := ha
  have e : ∀ j, ∀ k < size w.basis, block (size w.basis) (getDiagonalLocalizedWavepackets w data).data (j * w.samples.prod + a) k =
      data (a * w.bands + j) * block (size w.basis) w.data (j * w.samples.prod + a) k := by
    intro j k hk
    unfold block getDiagonalLocalizedWavepackets
    dsimp only
    rw [Basis.n_eq, flatten3_at _ ha hk]
  have := hw i hi i' hi' a ha
  show dot (size w.basis) (block (size w.basis) (getDiagonalLocalizedWavepackets w data).data (i * w.samples.prod + a))
    (block (size w.basis) (getDiagonalLocalizedWavepackets w data).data (i' * w.samples.prod + a)) = _
  unfold dot at this ⊢
  have e2 : ∀ k ∈ range (size w.basis),
      (starRingEnd ℂ) (block (size w.basis) (getDiagonalLocalizedWavepackets w data).data (i * w.samples.prod + a) k) *
        block (size w.basis) (getDiagonalLocalizedWavepackets w data).data (i' * w.samples.prod + a) k =
      ((starRingEnd ℂ) (data (a * w.bands + i)) * data (a * w.bands + i')) *
        ((starRingEnd ℂ) (block (size w.basis) w.data (i * w.samples.prod + a) k) * block (size w.basis) w.data (i' * w.samples.prod + a) k) := by
    intro k hk
    rw [e i k (mem_range.1 hk), e i' k (mem_range.1 hk), map_mul]; ring
  rw [sum_congr rfl e2, ← mul_sum, this]
  by_cases h : i = i'
  · rw [if_pos h, ← h, mul_one, Complex.conj_mul', hd a ha i hi]; simp
  · rw [if_neg h, mul_zero]

/-- Two bands at two samples with the phases `1, -1, i, 1`. -/
example : ∃ (w : BlochWavefunctions) (data : ℕ → ℂ), Orthonormal w ∧ w.bands = 2 ∧ w.samples = [2] ∧
    (∀ a < w.samples.prod, ∀ i < w.bands, ‖data (a * w.bands + i)‖ = 1) ∧ data 1 = -1 := by
  refine ⟨⟨2, [2], .fundamental 2, fun k => if k = 0 ∨ k = 2 ∨ k = 5 ∨ k = 7 then 1 else 0⟩,
    fun k => if k = 1 then -1 else if k = 2 then Complex.I else 1, ?_, rfl, rfl, ?_, by simp⟩
  · intro i hi i' hi' a ha
    have hi : i < 2 := hi
    have hi' : i' < 2 := hi'
    have ha : a < 2 := ha
    interval_cases i <;> interval_cases i' <;> interval_cases a <;> simp [dot, block, size, Finset.sum_range_succ]
  · intro a ha i hi
    have hi : i < 2 := hi
    have ha : a < 2 := ha
    interval_cases i <;> interval_cases a <;> simp

/-! ## Lists of diagonal operators -/

/-- **C145.** The basis of the flat view of a list of diagonal operators has more states than the data has entries, whenever the operators
act on two or more states: it is the basis of the list of full operators. -/
theorem C145_flat_negation (L : DiagonalOperatorList) (h : L.b1 = L.b0) (hl : 0 < size L.listBasis) (hn : 2 ≤ size L.b0) :
    size (asFlatOperator L).1 = size L.listBasis * size L.b0 * size L.b0 ∧
      size L.listBasis * size L.b0 < size (asFlatOperator L).1 ∧
      ∀ k < size L.listBasis * size L.b0, (asFlatOperator L).2 k = L.data k := by
  have e : size (asFlatOperator L).1 = size L.listBasis * size L.b0 * size L.b0 := by
    show size L.listBasis * (size L.b0 * (size L.b1 * 1)) = _
    rw [h]; ring
  refine ⟨e, ?_, fun _ _ => rfl⟩
  rw [e]
  have : 0 < size L.listBasis * size L.b0 := Nat.mul_pos hl (by omega)
  nlinarith

/-- Three operators on two states. -/
example : ∃ L : DiagonalOperatorList, L.b1 = L.b0 ∧ 0 < size L.listBasis ∧ 2 ≤ size L.b0 ∧ size (asFlatOperator L).1 = 12 :=
  ⟨⟨.fundamental 3, .fundamental 2, .fundamental 2, fun _ => 1⟩, rfl, by simp [size], by simp [size], by simp [size, asFlatOperator, sizes]⟩

/-- **C145.** The two ways of picking an operator from a list of diagonal operators agree, for indices in and out of range. -/
theorem C145_single (L : DiagonalOperatorList) (idx : ℕ) :
    asDiagonalOperatorAt L (size L.listBasis * size L.b0) idx = selectDiagonalOperator L idx ∧
      (idx < size L.listBasis → ∃ D, asDiagonalOperatorAt L (size L.listBasis * size L.b0) idx = some D ∧ D.b0 = L.b0 ∧ D.b1 = L.b1 ∧
        ∀ k, D.data k = L.data (idx * size L.b0 + k)) := by
  unfold asDiagonalOperatorAt selectDiagonalOperator
  simp only [Basis.n_eq]
  have hdiv : 0 < size L.listBasis → size L.listBasis * size L.b0 / size L.listBasis = size L.b0 := fun h =>
    Nat.mul_div_cancel_left _ h
  by_cases h : idx < size L.listBasis
  · rw [if_pos ⟨by omega, Dvd.intro _ rfl, h⟩, if_pos h, hdiv (by omega)]
    exact ⟨rfl, fun _ => ⟨_, rfl, rfl, rfl, fun _ => rfl⟩⟩
  · rw [if_neg fun hh => h hh.2.2, if_neg h]
    exact ⟨rfl, fun hh => absurd hh h⟩

/-! ## Components of sampled noise -/

/-- **C146.** The components of sampled noise: there is one for each operator, they add up to the noise, each is a multiple of its operator in
every sample. -/
theorem C146_components (hbar : ℝ) (ops : DiagonalNoiseOperators) (samples : ℕ) (factors : ℕ → ℕ → ℂ) :
    (splitComponents ops.count samples ops.dim (sampleSplit hbar ops samples factors)).length = ops.count ∧
      (∀ i < samples, ∀ k < ops.dim, ((splitComponents ops.count samples ops.dim (sampleSplit hbar ops samples factors)).map fun c =>
        c (i * ops.dim + k)).sum = sampleNoise hbar ops samples factors (i * ops.dim + k)) ∧
      ∀ j < ops.count, ∃ c, (splitComponents ops.count samples ops.dim (sampleSplit hbar ops samples factors))[j]? = some c ∧
        ∀ i < samples, ∃ z : ℂ, ∀ k < ops.dim, c (i * ops.dim + k) = z * ops.data (j * ops.dim + k) := by
  have key : ∀ j, ∀ i < samples, ∀ k < ops.dim, sampleSplit hbar ops samples factors (j * (samples * ops.dim) + (i * ops.dim + k)) =
      factors i j * scimathSqrt (ops.eigenvalue j * hbar) * ops.data (j * ops.dim + k) := by
    intro j i hi k hk
    rw [sampleSplit, flatten3_entry _ _ hi hk]
  refine ⟨by simp [splitComponents], fun i hi k hk => ?_, fun j hj => ?_⟩
  · rw [sampleNoise_entry hbar ops samples factors i k hi hk]
    unfold splitComponents
    rw [List.map_map, ← List.sum_toFinset _ List.nodup_range, List.toFinset_range]
    refine sum_congr rfl fun j _ => ?_
    rw [Function.comp_apply]
    beta_reduce
    rw [key j i hi k hk, mul_assoc]
  · refine ⟨_, by unfold splitComponents; rw [List.getElem?_map, List.getElem?_range hj]; rfl, fun i hi => ⟨_, fun k hk => key j i hi k hk⟩⟩

/-- Two operators on two points and one sample: at the second point the two components add up to the noise. -/
example : ∃ ops : DiagonalNoiseOperators, ops.count = 2 ∧ ops.dim = 2 ∧ ∀ (hbar : ℝ) (factors : ℕ → ℕ → ℂ),
    ((splitComponents ops.count 1 ops.dim (sampleSplit hbar ops 1 factors)).map fun c => c 1).sum = sampleNoise hbar ops 1 factors 1 :=
  ⟨⟨2, 2, fun k => k, 2, fun k => k + 1⟩, rfl, rfl, fun hbar factors =>
    (C146_components hbar ⟨2, 2, fun k => k, 2, fun k => k + 1⟩ 1 factors).2.1 0 (by norm_num) 1 (by norm_num)⟩

variable {Ω : Type*} [MeasurableSpace Ω] {P : Measure Ω}

/-- **C146.** For standard normal random numbers different components of the noise are uncorrelated, and so are different samples; the
covariance of one component is `ℏ` times the modulus of its eigenvalue times the kernel of its operator. -/
theorem C146_covariance [IsProbabilityMeasure P] {X : ℕ × ℕ × Bool → Ω → ℝ} (h : IsStandardNormal P X) (hbar : ℝ) (hb : 0 ≤ hbar)
    (ops : DiagonalNoiseOperators) (samples : ℕ) (j j' i i' k k' : ℕ) (hj : j < ops.count) (hj' : j' < ops.count) (hi : i < samples)
    (hi' : i' < samples) (hk : k < ops.dim) (hk' : k' < ops.dim) :
    ∫ ω, (starRingEnd ℂ) ((splitComponents ops.count samples ops.dim (sampleSplit hbar ops samples (normalFactors X ω))).getD j 0
          (i * ops.dim + k)) *
        (splitComponents ops.count samples ops.dim (sampleSplit hbar ops samples (normalFactors X ω))).getD j' 0 (i' * ops.dim + k') ∂P =
      if j = j' ∧ i = i' then
        ((hbar * ‖ops.eigenvalue j‖ : ℝ) : ℂ) * ((starRingEnd ℂ) (ops.data (j * ops.dim + k)) * ops.data (j * ops.dim + k')) else 0 := by
  have key : ∀ ω, ∀ j < ops.count, ∀ i < samples, ∀ k < ops.dim,
      (splitComponents ops.count samples ops.dim (sampleSplit hbar ops samples (normalFactors X ω))).getD j 0 (i * ops.dim + k) =
        normalFactors X ω i j * (scimathSqrt (ops.eigenvalue j * hbar) * ops.data (j * ops.dim + k)) := by
    intro ω j hj i hi k hk
    unfold splitComponents
    rw [List.getD_eq_getElem?_getD, List.getElem?_map, List.getElem?_range hj]
    simp only [Option.map_some, Option.getD_some]
    rw [sampleSplit, flatten3_entry _ _ hi hk, mul_assoc]
  simp only [key _ j hj i hi k hk, key _ j' hj' i' hi' k' hk']
  have e : ∀ ω, (starRingEnd ℂ) (normalFactors X ω i j * (scimathSqrt (ops.eigenvalue j * hbar) * ops.data (j * ops.dim + k))) *
      (normalFactors X ω i' j' * (scimathSqrt (ops.eigenvalue j' * hbar) * ops.data (j' * ops.dim + k'))) =
      ((starRingEnd ℂ) (scimathSqrt (ops.eigenvalue j * hbar) * ops.data (j * ops.dim + k)) *
        (scimathSqrt (ops.eigenvalue j' * hbar) * ops.data (j' * ops.dim + k'))) *
        ((starRingEnd ℂ) (normalFactors X ω i j) * normalFactors X ω i' j') := by
    intro ω; rw [map_mul]; ring
  simp only [e]
  rw [integral_const_mul, h.factor_moment]
  by_cases hh : j = j' ∧ i = i'
  · rw [if_pos hh, if_pos ⟨hh.2, hh.1⟩, ← hh.1, mul_one]
    have := normSq_scimathSqrt (ops.eigenvalue j * hbar)
    rw [norm_mul, Complex.norm_real, Real.norm_of_nonneg hb] at this
    push_cast at this ⊢
    rw [map_mul]
    linear_combination ((starRingEnd ℂ) (ops.data (j * ops.dim + k)) * ops.data (j * ops.dim + k')) * this
  · rw [if_neg hh, if_neg fun e => hh ⟨e.2, e.1⟩, mul_zero]

/-- There are such random numbers. -/
example : ∃ (Ω : Type) (_ : MeasurableSpace Ω) (P : Measure Ω) (_ : IsProbabilityMeasure P) (X : ℕ × ℕ × Bool → Ω → ℝ), IsStandardNormal P X :=
  exists_standardNormal

/-! ## Displacements -/

variable {d : ℕ}

/-- **C146.** In one dimension, with a lattice vector of either direction: the displacement of the point `k` of `n` from the origin is `k δ / n` less the
origin, up to a whole number of cells, and at most half a cell. -/
theorem C146_line (delta : ℝ) (hd : delta ≠ 0) (n : ℕ) (origin : ℝ) (k : ℕ) :
    -(|delta| / 2) ≤ displacementX delta n origin k ∧ displacementX delta n origin k < |delta| / 2 ∧
      ∃ q : ℤ, displacementX delta n origin k = k * delta / n - origin - q * delta := by
  have hm : 0 < |delta| / 2 := by have := abs_pos.2 hd; positivity
  obtain ⟨h1, h2⟩ := wrap_mem (delta / n * k - origin) hm
  refine ⟨h1, h2, ?_⟩
  obtain ⟨q, hq⟩ := wrap_eq (delta / n * k - origin) (|delta| / 2)
  rcases abs_cases delta with ⟨h, -⟩ | ⟨h, -⟩
  · exact ⟨q, by rw [displacementX, hq, h]; ring⟩
  · exact ⟨-q, by rw [displacementX, hq, h]; push_cast; ring⟩

example : ∃ q : ℤ, displacementX (-3) 3 (1 / 2) 2 = (2 : ℕ) * (-3) / (3 : ℕ) - 1 / 2 - q * (-3) := (C146_line (-3) (by norm_num) 3 (1 / 2) 2).2.2

/-- **C146.** On an orthogonal lattice the displacements of a point from an origin, axis by axis: each lies in `[-L/2, L/2)`, differs from the
plain displacement by a multiple of the length of the axis, and together they give the distance on the torus of the point and the origin. -/
theorem C146_displacements_partial (A : Matrix (Fin d) (Fin d) ℝ) (hA : Orthogonal A) (shape : Fin d → ℕ) (origin : Fin d → ℝ) (k : ℕ) :
    (displacementsXStacked A shape origin).length = d ∧ (∀ c : Fin d, ∃ r q, (displacementsXStacked A shape origin)[(c : ℕ)]? = some r ∧
      -(|A c c| / 2) ≤ r k ∧ r k < |A c c| / 2 ∧ r k = xPoint A shape k c - origin c - ((q : ℤ) : ℝ) * A c c) ∧
      IsPeriodicDistance A (xPoint A shape k) origin
        (Real.sqrt (((displacementsXStacked A shape origin).map fun r => r k ^ 2).sum)) := by
  have hm : ∀ c, 0 < |A c c| / 2 := fun c => by have := abs_pos.2 (hA.2 c); positivity
  have hq : ∀ c, ∃ q : ℤ, displacementXAlongAxis A shape (origin c) c k = xPoint A shape k c - origin c - q * A c c := by
    intro c
    unfold displacementXAlongAxis
    rw [hA.norm c]
    obtain ⟨q, hq⟩ := wrap_eq (xPoint A shape k c - origin c) (|A c c| / 2)
    rcases abs_cases (A c c) with ⟨h, -⟩ | ⟨h, -⟩
    · exact ⟨q, by rw [hq, h]; ring⟩
    · exact ⟨-q, by rw [hq, h]; push_cast; ring⟩
  have hs : ((displacementsXStacked A shape origin).map fun r => r k ^ 2).sum =
      ∑ c, displacementXAlongAxis A shape (origin c) c k ^ 2 := by
    unfold displacementsXStacked
    rw [List.map_ofFn, List.sum_ofFn]; rfl
  refine ⟨by simp [displacementsXStacked], fun c => ?_, ?_⟩
  · obtain ⟨q, h⟩ := hq c
    have hw := wrap_mem (xPoint A shape k c - origin c) (hm c)
    refine ⟨displacementXAlongAxis A shape (origin c) c, q, by simp [displacementsXStacked], ?_, ?_, h⟩
    · unfold displacementXAlongAxis; rw [hA.norm c]; exact hw.1
    · unfold displacementXAlongAxis; rw [hA.norm c]; exact hw.2
  · rw [hs]
    constructor
    · choose m hm' using hq
      refine ⟨m, ?_⟩
      congr 1
      refine Fintype.sum_congr _ _ fun c => ?_
      rw [hm' c, hA.lattice]
    · rintro r ⟨m, rfl⟩
      refine Real.sqrt_le_sqrt (sum_le_sum fun c _ => ?_)
      unfold displacementXAlongAxis
      rw [hA.norm c, hA.lattice, ← sq_abs, ← sq_abs (_ - _ - _)]
      refine pow_le_pow_left₀ (abs_nonneg _) ?_ 2
      rcases abs_cases (A c c) with ⟨h, -⟩ | ⟨h, -⟩
      · refine (wrap_le _ (hm c) (m c)).trans_eq ?_
        rw [h]; congr 1; ring
      · refine (wrap_le _ (hm c) (-m c)).trans_eq ?_
        rw [h]; congr 1; push_cast; ring

/-- A lattice with the lengths `2` and `3`. -/
example : Orthogonal !![(2 : ℝ), 0; 0, 3] := by
  constructor
  · intro i c
    fin_cases i <;> fin_cases c <;> simp
  · intro i
    fin_cases i <;> simp

/-- **C146.** On a lattice which is not orthogonal the displacements do not give the distance on the torus: with the lattice vectors `(1, 0)`
and `(1/2, 1)` the origin at the lattice point `(1/2, 1)` is at no distance from the first grid point, yet the displacement is not zero. -/
theorem C146_displacements_negation :
    ∃ (A : Matrix (Fin 2) (Fin 2) ℝ) (shape : Fin 2 → ℕ) (origin : Fin 2 → ℝ),
      IsPeriodicDistance A (xPoint A shape 0) origin 0 ∧
        ∃ r : ℕ → ℝ, (displacementsXStacked A shape origin)[0]? = some r ∧ r 0 = -(1 / 2 : ℝ) := by
  refine ⟨!![1, 0; 1 / 2, 1], ![1, 1], ![1 / 2, 1], ⟨⟨![0, -1], ?_⟩, ?_⟩, displacementXAlongAxis !![1, 0; 1 / 2, 1] ![1, 1] (1 / 2) 0,
    by simp [displacementsXStacked], ?_⟩
  · have h0 : ∀ c, xPoint (!![1, 0; 1 / 2, 1] : Matrix (Fin 2) (Fin 2) ℝ) ![1, 1] 0 c = 0 := by
      intro c
      unfold xPoint xPointAtIndex tensordot00
      simp [stackedNx_zero]
    simp only [h0, Fin.sum_univ_two]
    simp
  · rintro r ⟨m, rfl⟩
    exact Real.sqrt_nonneg _
  · have h0 : ∀ c, xPoint (!![1, 0; 1 / 2, 1] : Matrix (Fin 2) (Fin 2) ℝ) ![1, 1] 0 c = 0 := by
      intro c
      unfold xPoint xPointAtIndex tensordot00
      simp [stackedNx_zero]
    unfold displacementXAlongAxis
    rw [h0]
    have hv : vnorm ((!![1, 0; 1 / 2, 1] : Matrix (Fin 2) (Fin 2) ℝ) 0) = 1 := by
      rw [vnorm_sq_eq]; simp [Fin.sum_univ_two]
    rw [hv]
    unfold wrapDisplacement fmod
    norm_num

end Verif
