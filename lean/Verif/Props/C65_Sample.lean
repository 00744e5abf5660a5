import Verif.Props.C62_Truncate
import Mathlib.Probability.Distributions.Gaussian.Real
import Mathlib.Probability.HasLawExists

/-!
C65: the covariance of sampled noise.
-/

set_option autoImplicit false

namespace Verif

open Finset Spec MeasureTheory ProbabilityTheory
open scoped ComplexOrder

/-- The modulus of the square root used for the samples. -/
theorem normSq_scimathSqrt (z : ℂ) : (starRingEnd ℂ) (scimathSqrt z) * scimathSqrt z = ‖z‖ := by
  rw [Complex.conj_mul', scimathSqrt]
  rcases eq_or_ne z 0 with rfl | hz
  · rw [Complex.zero_cpow (by norm_num)]
    simp
  · have h2 : ‖z ^ (1 / 2 : ℂ)‖ ^ 2 = ‖z‖ := by
      rw [← norm_pow, ← Complex.cpow_nat_mul]
      norm_num
    exact_mod_cast h2

section

variable {Ω : Type*} {mΩ : MeasurableSpace Ω} {P : Measure Ω} [IsProbabilityMeasure P]

/-- Independent standard normal random numbers: the samples `(i, j)` of the real (`false`) and imaginary (`true`) parts. -/
structure IsStandardNormal (P : Measure Ω) (X : ℕ × ℕ × Bool → Ω → ℝ) : Prop where
  law : ∀ k, HasLaw (X k) (gaussianReal 0 1) P
  indep : iIndepFun X P

omit [IsProbabilityMeasure P] in
theorem IsStandardNormal.memLp {X : ℕ × ℕ × Bool → Ω → ℝ} (h : IsStandardNormal P X) (k : ℕ × ℕ × Bool) : MemLp (X k) 2 P := by
  have h1 := memLp_id_gaussianReal (μ := 0) (v := 1) 2
  have h2 := (h.law k).map_eq
  rw [← h2] at h1
  have := h1.comp_of_map (h.law k).aemeasurable
  simpa using this

theorem IsStandardNormal.mean {X : ℕ × ℕ × Bool → Ω → ℝ} (h : IsStandardNormal P X) (k : ℕ × ℕ × Bool) : ∫ ω, X k ω ∂P = 0 := by
  rw [(h.law k).integral_eq, integral_id_gaussianReal]

theorem IsStandardNormal.moment {X : ℕ × ℕ × Bool → Ω → ℝ} (h : IsStandardNormal P X) (k l : ℕ × ℕ × Bool) :
    ∫ ω, X k ω * X l ω ∂P = if k = l then 1 else 0 := by
  rcases eq_or_ne k l with rfl | hne
  · rw [if_pos rfl]
    have h1 := (h.law k).variance_eq
    rw [variance_id_gaussianReal, variance_eq_sub (h.memLp k), h.mean k] at h1
    simpa [pow_two] using h1
  · rw [if_neg hne, (h.indep.indepFun hne).integral_fun_mul_eq_mul_integral (h.memLp k).aestronglyMeasurable
      (h.memLp l).aestronglyMeasurable, h.mean k, zero_mul]

omit [IsProbabilityMeasure P] in
theorem IsStandardNormal.integrable_mul {X : ℕ × ℕ × Bool → Ω → ℝ} (h : IsStandardNormal P X) (k l : ℕ × ℕ × Bool) :
    Integrable (fun ω => X k ω * X l ω) P := (h.memLp k).integrable_mul (h.memLp l)

/-- The random factors. -/
noncomputable def normalFactors (X : ℕ × ℕ × Bool → Ω → ℝ) (ω : Ω) : ℕ → ℕ → ℂ :=
  standardFactors (fun i j => X (i, j, false) ω) fun i j => X (i, j, true) ω

theorem conj_standardFactors (x y : ℕ → ℕ → ℝ) (i j i' j' : ℕ) :
    (starRingEnd ℂ) (standardFactors x y i j) * standardFactors x y i' j' =
      (((x i j * x i' j' + y i j * y i' j') / 2 : ℝ) : ℂ) + (((x i j * y i' j' - y i j * x i' j') / 2 : ℝ) : ℂ) * Complex.I := by
  unfold standardFactors
  rw [map_div₀, map_add, map_mul, Complex.conj_I, Complex.conj_ofReal, Complex.conj_ofReal, Complex.conj_ofReal, div_mul_div_comm]
  have h2 : ((Real.sqrt 2 : ℝ) : ℂ) * (Real.sqrt 2 : ℝ) = 2 := by
    rw [← Complex.ofReal_mul, Real.mul_self_sqrt (by norm_num)]; norm_num
  rw [h2]
  push_cast
  linear_combination ((y i j : ℂ) * y i' j' * (-1 / 2)) * Complex.I_mul_I

theorem IsStandardNormal.factor_integrable {X : ℕ × ℕ × Bool → Ω → ℝ} (h : IsStandardNormal P X) (i j i' j' : ℕ) :
    Integrable (fun ω => (starRingEnd ℂ) (normalFactors X ω i j) * normalFactors X ω i' j') P := by
  simp only [normalFactors, conj_standardFactors]
  exact (((h.integrable_mul _ _).add (h.integrable_mul _ _)).div_const 2).ofReal.add
    ((((h.integrable_mul _ _).sub (h.integrable_mul _ _)).div_const 2).ofReal.mul_const _)

theorem IsStandardNormal.factor_moment {X : ℕ × ℕ × Bool → Ω → ℝ} (h : IsStandardNormal P X) (i j i' j' : ℕ) :
    ∫ ω, (starRingEnd ℂ) (normalFactors X ω i j) * normalFactors X ω i' j' ∂P = if i = i' ∧ j = j' then 1 else 0 := by
  simp only [normalFactors, conj_standardFactors]
  have i1 := (h.integrable_mul (i, j, false) (i', j', false))
  have i2 := (h.integrable_mul (i, j, true) (i', j', true))
  have i3 := (h.integrable_mul (i, j, false) (i', j', true))
  have i4 := (h.integrable_mul (i, j, true) (i', j', false))
  rw [integral_add ((i1.add i2).div_const 2).ofReal (((i3.sub i4).div_const 2).ofReal.mul_const _), integral_mul_const,
    integral_complex_ofReal, integral_complex_ofReal, integral_div, integral_div]
  rw [integral_add i1 i2, integral_sub i3 i4, h.moment, h.moment, h.moment, h.moment]
  by_cases he : i = i' ∧ j = j'
  · simp [he.1, he.2]
  · have h1 : ¬ ((i, j, false) = (i', j', false)) := fun e => he (by simpa using e)
    have h2 : ¬ ((i, j, true) = (i', j', true)) := fun e => he (by simpa using e)
    have h3 : ¬ ((i, j, false) = (i', j', true)) := by simp
    have h4 : ¬ ((i, j, true) = (i', j', false)) := by simp
    rw [if_neg he, if_neg h1, if_neg h2, if_neg h3, if_neg h4]
    simp

/-- The covariance of noise that is linear in the random factors. -/
theorem linear_covariance {X : ℕ × ℕ × Bool → Ω → ℝ} (h : IsStandardNormal P X) (N : ℕ) (c c' : ℕ → ℂ) (i i' : ℕ) :
    ∫ ω, (starRingEnd ℂ) (∑ j ∈ range N, normalFactors X ω i j * c j) * (∑ j ∈ range N, normalFactors X ω i' j * c' j) ∂P =
      if i = i' then ∑ j ∈ range N, (starRingEnd ℂ) (c j) * c' j else 0 := by
  have h1 : ∀ ω, (starRingEnd ℂ) (∑ j ∈ range N, normalFactors X ω i j * c j) * (∑ j ∈ range N, normalFactors X ω i' j * c' j) =
      ∑ j ∈ range N, ∑ j' ∈ range N, (starRingEnd ℂ) (c j) * c' j' *
        ((starRingEnd ℂ) (normalFactors X ω i j) * normalFactors X ω i' j') := by
    intro ω
    rw [map_sum, sum_mul_sum]
    refine sum_congr rfl fun j _ => sum_congr rfl fun j' _ => ?_
    rw [map_mul]
    ring
  simp only [h1]
  rw [integral_finset_sum _ fun j _ => integrable_finset_sum _ fun j' _ => (h.factor_integrable i j i' j').const_mul _]
  by_cases he : i = i'
  · rw [if_pos he]
    refine sum_congr rfl fun j hj => ?_
    rw [integral_finset_sum _ fun j' _ => (h.factor_integrable i j i' j').const_mul _]
    refine (sum_eq_single j (fun j' _ hne => ?_) (fun hn => absurd hj hn)).trans ?_
    · rw [integral_const_mul, h.factor_moment, if_neg fun e => hne e.2.symm, mul_zero]
    · rw [integral_const_mul, h.factor_moment, if_pos ⟨he, rfl⟩, mul_one]
  · rw [if_neg he]
    refine sum_eq_zero fun j _ => ?_
    rw [integral_finset_sum _ fun j' _ => (h.factor_integrable i j i' j').const_mul _]
    refine sum_eq_zero fun j' _ => ?_
    rw [integral_const_mul, h.factor_moment, if_neg fun e => he e.1, mul_zero]

theorem linear_mean {X : ℕ × ℕ × Bool → Ω → ℝ} (h : IsStandardNormal P X) (N : ℕ) (c : ℕ → ℂ) (i : ℕ) :
    ∫ ω, (∑ j ∈ range N, normalFactors X ω i j * c j) ∂P = 0 := by
  have hint : ∀ k, Integrable (X k) P := fun k => (h.memLp k).integrable (by norm_num)
  have hf : ∀ j, Integrable (fun ω => normalFactors X ω i j) P := fun j =>
    ((hint _).ofReal.add ((hint _).ofReal.const_mul Complex.I)).div_const _
  rw [integral_finset_sum _ fun j _ => (hf j).mul_const _]
  refine sum_eq_zero fun j _ => ?_
  rw [integral_mul_const]
  have : ∫ ω, normalFactors X ω i j ∂P = 0 := by
    show ∫ ω, ((X (i, j, false) ω : ℂ) + Complex.I * (X (i, j, true) ω : ℂ)) / (Real.sqrt 2 : ℂ) ∂P = 0
    rw [integral_div, integral_add (hint _).ofReal ((hint _).ofReal.const_mul _), integral_const_mul, integral_complex_ofReal,
      integral_complex_ofReal, h.mean, h.mean]
    simp
  rw [this, zero_mul]

theorem sampleNoise_entry (hbar : ℝ) (ops : DiagonalNoiseOperators) (samples : ℕ) (factors : ℕ → ℕ → ℂ) (i k : ℕ)
    (hi : i < samples) (hk : k < ops.dim) : sampleNoise hbar ops samples factors (i * ops.dim + k) =
      ∑ j ∈ range ops.count, factors i j * (scimathSqrt (ops.eigenvalue j * hbar) * ops.data (j * ops.dim + k)) := by
  rw [sampleNoise, sumSplit, flatten_entry _ _ hk]
  refine sum_congr rfl fun j _ => ?_
  rw [sampleSplit, flatten3_mul _ _ hi hk, mul_assoc]

/-- The covariance of sampled noise for eigenvalues of any kind: their moduli count. -/
theorem C65_modulus {X : ℕ × ℕ × Bool → Ω → ℝ} (h : IsStandardNormal P X) (hbar : ℝ) (hb : 0 ≤ hbar) (ops : DiagonalNoiseOperators)
    (samples i i' k k' : ℕ) (hi : i < samples) (hi' : i' < samples) (hk : k < ops.dim) (hk' : k' < ops.dim) :
    ∫ ω, (starRingEnd ℂ) (sampleNoise hbar ops samples (normalFactors X ω) (i * ops.dim + k)) *
      sampleNoise hbar ops samples (normalFactors X ω) (i' * ops.dim + k') ∂P = if i = i' then
        hbar * noiseKernel (range ops.count) (fun a => ‖ops.eigenvalue a‖) (fun a k => ops.data (a * ops.dim + k)) k k' else 0 := by
  simp only [sampleNoise_entry hbar ops samples _ i k hi hk, sampleNoise_entry hbar ops samples _ i' k' hi' hk']
  rw [linear_covariance h]
  refine if_congr Iff.rfl ?_ rfl
  rw [noiseKernel, mul_sum]
  refine sum_congr rfl fun j _ => ?_
  have := normSq_scimathSqrt (ops.eigenvalue j * hbar)
  rw [norm_mul, Complex.norm_real, Real.norm_of_nonneg hb] at this
  push_cast at this
  rw [map_mul]
  linear_combination ((starRingEnd ℂ) (ops.data (j * ops.dim + k)) * ops.data (j * ops.dim + k')) * this

/-- **C65.** Noise sampled from diagonal operators with nonnegative eigenvalues has mean zero, different samples are uncorrelated,
and the covariance of the entries of one sample is `ℏ` times the kernel of the operators. -/
theorem C65_covariance {X : ℕ × ℕ × Bool → Ω → ℝ} (h : IsStandardNormal P X) (hbar : ℝ) (hb : 0 ≤ hbar)
    (ops : DiagonalNoiseOperators) (hN : ops.values = ops.count) (hl : ∀ a < ops.count, 0 ≤ ops.eigenvalue a) (samples : ℕ) :
    ∃ K, getDiagonalKernel ops = some K ∧ ∀ i < samples, ∀ k < ops.dim,
      (∫ ω, sampleNoise hbar ops samples (normalFactors X ω) (i * ops.dim + k) ∂P = 0) ∧
      ∀ i' < samples, ∀ k' < ops.dim,
        ∫ ω, (starRingEnd ℂ) (sampleNoise hbar ops samples (normalFactors X ω) (i * ops.dim + k)) *
          sampleNoise hbar ops samples (normalFactors X ω) (i' * ops.dim + k') ∂P =
            if i = i' then hbar * K (k * ops.dim + k') else 0 := by
  obtain ⟨K, hK, hv⟩ := getDiagonalKernel_entries ops hN
  refine ⟨K, hK, fun i hi k hk => ⟨?_, fun i' hi' k' hk' => ?_⟩⟩
  · simp only [sampleNoise_entry hbar ops samples _ i k hi hk]
    exact linear_mean h _ _ _
  · rw [C65_modulus h hbar hb ops samples i i' k k' hi hi' hk hk', hv k k' hk']
    refine if_congr Iff.rfl ?_ rfl
    congr 1
    refine sum_congr rfl fun a ha => ?_
    beta_reduce
    rw [Complex.norm_of_nonneg' (hl a (mem_range.1 ha))]

/-- **C65**, full operators: `E[conj N(j, i) N(k, l)]` is `ℏ` times the kernel entry `((i, j), (k, l))`. -/
theorem C65_full {X : ℕ × ℕ × Bool → Ω → ℝ} (h : IsStandardNormal P X) (hbar : ℝ) (hb : 0 ≤ hbar)
    (ops : NoiseOperators) (hN : ops.values = ops.count) (hl : ∀ a < ops.count, 0 ≤ ops.eigenvalue a) :
    ∃ K, getFullKernel ops = some K ∧ ∀ s s', ∀ i < ops.cols, ∀ j < ops.rows, ∀ k < ops.rows, ∀ l < ops.cols,
      ∫ ω, (starRingEnd ℂ) (sampleFullNoise hbar ops (normalFactors X ω) (s * (ops.rows * ops.cols) + (j * ops.cols + i))) *
        sampleFullNoise hbar ops (normalFactors X ω) (s' * (ops.rows * ops.cols) + (k * ops.cols + l)) ∂P =
          if s = s' then hbar * K (((i * ops.rows + j) * ops.rows + k) * ops.cols + l) else 0 := by
  obtain ⟨K, hK, hv⟩ := getFullKernel_entries ops hN
  refine ⟨K, hK, fun s s' i hi j hj k hk l hl' => ?_⟩
  simp only [sampleFullNoise, flatten_entry _ _ (add_mul_lt hj hi), flatten_entry _ _ (add_mul_lt hk hl'), mul_assoc]
  rw [linear_covariance h]
  refine if_congr Iff.rfl ?_ rfl
  have := hv i hi j hj k hk l hl'
  simp only [mul_assoc] at this
  rw [this, mul_sum]
  refine sum_congr rfl fun a ha => ?_
  have h1 := normSq_scimathSqrt (ops.eigenvalue a * hbar)
  rw [norm_mul, Complex.norm_real, Real.norm_of_nonneg hb] at h1
  push_cast at h1
  rw [Complex.norm_of_nonneg' (hl a (mem_range.1 ha))] at h1
  rw [map_mul]
  linear_combination ((starRingEnd ℂ) (ops.data (a * (ops.rows * ops.cols) + (j * ops.cols + i))) *
    ops.data (a * (ops.rows * ops.cols) + (k * ops.cols + l))) * h1

/-- **C65**, from the kernel: noise sampled from a positive semidefinite kernel without truncation has `ℏ` times the kernel as
covariance. -/
theorem C65_kernel {X : ℕ × ℕ × Bool → Ω → ℝ} (h : IsStandardNormal P X) (hbar : ℝ) (hb : 0 ≤ hbar)
    (eigh : ∀ N, Matrix (Fin N) (Fin N) ℂ → EigResult) (argsort : ℕ → (ℕ → ℝ) → ℕ → ℕ) (n : ℕ) (hn : 0 < n) (d : ℕ → ℂ)
    (hd : (toMatrix n fun i j => d (i * n + j)).PosSemidef)
    (he : IsEigh n n (toMatrix n fun i j => d (i * n + j)) (eigh n (toMatrix n fun i j => d (i * n + j))).eigenvalues
      (eigh n (toMatrix n fun i j => d (i * n + j))).vectors)
    (ha : ∀ N key, IsArgsort N key (argsort N key)) (samples : ℕ) :
    ∃ noise : Ω → ℕ → ℂ, (∀ ω, sampleKernelNoise eigh argsort hbar n d samples none (normalFactors X ω) = some (noise ω)) ∧
      ∀ i < samples, ∀ k < n, ∀ i' < samples, ∀ k' < n,
        ∫ ω, (starRingEnd ℂ) (noise ω (i * n + k)) * noise ω (i' * n + k') ∂P = if i = i' then hbar * d (k * n + k') else 0 := by
  obtain ⟨ops, hops, hc, hval, hdim, -, -, K, hK, hKd⟩ := C56_diagonal eigh n d
    (fun i hi j hj => congrFun (congrFun hd.1.symm ⟨i, hi⟩) ⟨j, hj⟩) he
  obtain ⟨ops₂, hops₂, hnn⟩ := C61_eigenvalues_nonneg eigh n d hd he
  obtain rfl : ops = ops₂ := by rw [hops] at hops₂; exact Option.some.inj hops₂
  have hoN : ops.values = ops.count := by rw [hval, hc]
  obtain ⟨t, K₁, K', S, ht, htc, htd, hK₁, hK', htop, hent, -⟩ := C62_diagonal ops hoN
    (argsort ops.values fun a => ‖ops.eigenvalue a‖) (ha _ _) ops.count (by rw [hc]; exact hn) (le_refl _)
  obtain rfl : K = K₁ := by rw [hK] at hK₁; exact Option.some.inj hK₁
  have htcond := ht
  unfold truncateDiagonalOperators at htcond
  split_ifs at htcond with hcnd
  have hte := Option.some.inj htcond
  have htl : ∀ a < t.count, 0 ≤ t.eigenvalue a := by
    intro a _
    rw [← hte]
    show 0 ≤ ops.eigenvalue (argsort ops.values (fun a => ‖ops.eigenvalue a‖) (ops.values - 1 - (List.range ops.count).getD a 0))
    refine hnn _ ?_
    have := (ha ops.values fun a => ‖ops.eigenvalue a‖).1 (ops.values - 1 - (List.range ops.count).getD a 0) (by omega)
    omega
  have htv : t.values = t.count := by rw [← hte]
  obtain ⟨K₂, hK₂, hcov⟩ := C65_covariance h hbar hb t htv htl samples
  obtain rfl : K' = K₂ := by rw [hK'] at hK₂; exact Option.some.inj hK₂
  have htdim : t.dim = n := by rw [htd, hdim]
  refine ⟨fun ω => sampleNoise hbar t samples (normalFactors X ω), fun ω => ?_, fun i hi k hk i' hi' k' hk' => ?_⟩
  · unfold sampleKernelNoise
    rw [hops, Option.bind_some, Option.getD_none, ht, Option.map_some]
  · rw [htdim] at hcov
    beta_reduce
    rw [(hcov i hi k hk).2 i' hi' k' hk']
    refine if_congr Iff.rfl ?_ rfl
    congr 1
    have hS : S = range ops.count := eq_of_subset_of_card_le htop.1 (by rw [htop.2.1, card_range])
    rw [hdim] at hent
    have := (hent k hk k' hk').2
    rw [hS, sdiff_self, noiseKernel] at this
    rw [← hKd _ (add_mul_lt hk hk')]
    exact (sub_eq_zero.1 (this.trans sum_empty)).symm

end

/-- There are such random numbers. -/
theorem exists_standardNormal : ∃ (Ω : Type) (_ : MeasurableSpace Ω) (P : Measure Ω) (_ : IsProbabilityMeasure P)
    (X : ℕ × ℕ × Bool → Ω → ℝ), IsStandardNormal P X := by
  obtain ⟨Ω, m, P, X, -, hl, hi, hp⟩ := exists_iid (ℕ × ℕ × Bool) (gaussianReal 0 1)
  exact ⟨Ω, m, P, hp, X, ⟨hl, hi⟩⟩

/-- C65 without the condition on the eigenvalues is false: one operator with the eigenvalue `-1` has the kernel `-1`, but the noise
has the variance `ℏ`. -/
theorem C65_negative_negation : ∃ (ops : DiagonalNoiseOperators) (K : ℕ → ℂ), getDiagonalKernel ops = some K ∧ K 0 = -1 ∧
    ∀ {Ω : Type} {_ : MeasurableSpace Ω} {P : Measure Ω} [IsProbabilityMeasure P] (X : ℕ × ℕ × Bool → Ω → ℝ), IsStandardNormal P X →
      ∀ hbar : ℝ, 0 ≤ hbar → ∫ ω, (starRingEnd ℂ) (sampleNoise hbar ops 1 (normalFactors X ω) 0) *
        sampleNoise hbar ops 1 (normalFactors X ω) 0 ∂P = hbar := by
  obtain ⟨K, hK, hv⟩ := getDiagonalKernel_entries ⟨1, 1, fun _ => 1, 1, fun _ => -1⟩ rfl
  refine ⟨⟨1, 1, fun _ => 1, 1, fun _ => -1⟩, K, hK, ?_, fun X h hbar hb => ?_⟩
  · have := hv 0 0 (by norm_num)
    simpa [noiseKernel] using this
  · have := C65_modulus h hbar hb ⟨1, 1, fun _ => 1, 1, fun _ => -1⟩ 1 0 0 0 0 (by norm_num) (by norm_num) (by norm_num) (by norm_num)
    simpa [noiseKernel] using this

/-- A positive semidefinite kernel on two points. -/
example : (toMatrix 2 fun i j => (fun k : ℕ => if k = 0 ∨ k = 3 then (1 : ℂ) else 0) (i * 2 + j)).PosSemidef := by
  have : (toMatrix 2 fun i j => (fun k : ℕ => if k = 0 ∨ k = 3 then (1 : ℂ) else 0) (i * 2 + j)) = 1 := by
    ext i j
    fin_cases i <;> fin_cases j <;> simp [toMatrix]
  rw [this]
  exact Matrix.PosSemidef.one

end Verif
