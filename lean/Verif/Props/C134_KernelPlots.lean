import Verif.Model.PlotKernel
import Verif.Props.C65_Sample
import Verif.Props.C120_KernelConvert
import Verif.Props.C128_Occupations

/-!
C134: errors of truncation, samples and eigenvalues drawn by the plots of noise kernels.
-/

set_option autoImplicit false

namespace Verif

open Finset Spec MeasureTheory ProbabilityTheory
open scoped ComplexOrder

/-! ## The smallest keys -/

theorem argsort_surj {N : ℕ} {key : ℕ → ℝ} {order : ℕ → ℕ} (h : IsArgsort N key order) : (range N).image order = range N := by
  refine eq_of_subset_of_card_le (fun x hx => ?_) ?_
  · obtain ⟨a, ha, rfl⟩ := mem_image.1 hx
    exact mem_range.2 (h.1 a (mem_range.1 ha))
  · rw [card_image_of_injOn]
    intro a ha b hb e
    exact h.2.1 a (by simpa using ha) b (by simpa using hb) e

/-- The first `t` positions hold what is not among the `N - t` largest. -/
theorem sum_smallest {N t : ℕ} {key : ℕ → ℝ} {order : ℕ → ℕ} (h : IsArgsort N key order) (ht : t ≤ N) (f : ℕ → ℝ) :
    ∑ i ∈ range t, f (order i) = ∑ a ∈ range N \ topIndices N (N - t) order, f a := by
  have himg : range N \ topIndices N (N - t) order = (range t).image order := by
    ext x
    rw [mem_sdiff, mem_image, topIndices, mem_image]
    constructor
    · rintro ⟨hx, hn⟩
      rw [← argsort_surj h] at hx
      obtain ⟨a, ha, rfl⟩ := mem_image.1 hx
      have ha' := mem_range.1 ha
      refine ⟨a, mem_range.2 ?_, rfl⟩
      by_contra hlt
      refine hn ⟨N - 1 - a, mem_range.2 (by omega), ?_⟩
      congr 1
      omega
    · rintro ⟨a, ha, rfl⟩
      have ha' := mem_range.1 ha
      refine ⟨mem_range.2 (h.1 a (by omega)), ?_⟩
      rintro ⟨b, hb, e⟩
      have hb' := mem_range.1 hb
      have := h.2.1 (N - 1 - b) (by omega) a (by omega) e
      omega
  rw [himg, sum_image]
  intro a ha b hb e
  have ha' := mem_range.1 (mem_coe.1 ha)
  have hb' := mem_range.1 (mem_coe.1 hb)
  exact h.2.1 a (by omega) b (by omega) e

/-- Dropping what is not among the largest drops as little as possible. -/
theorem sum_dropped_least {N t : ℕ} {key : ℕ → ℝ} {S : Finset ℕ} (h : IsTop N (N - t) key S) (ht : t ≤ N) :
    IsLeast {x | ∃ T ⊆ range N, T.card = t ∧ x = ∑ a ∈ T, key a} (∑ a ∈ range N \ S, key a) := by
  have hcard : (range N \ S).card = t := by
    rw [card_sdiff_of_subset h.1, card_range, h.2.1]; omega
  refine ⟨⟨range N \ S, sdiff_subset, hcard, rfl⟩, ?_⟩
  rintro _ ⟨T, hT, hc, rfl⟩
  set D := range N \ S with hD
  have h1 : ∑ a ∈ D ∩ T, key a + ∑ a ∈ D \ T, key a = ∑ a ∈ D, key a := sum_inter_add_sum_sdiff D T key
  have h2 : ∑ a ∈ D ∩ T, key a + ∑ a ∈ T \ D, key a = ∑ a ∈ T, key a := by
    rw [inter_comm]; exact sum_inter_add_sum_sdiff T D key
  have hcards : (D \ T).card = (T \ D).card := by
    have e1 := card_sdiff_add_card_inter D T
    have e2 := card_sdiff_add_card_inter T D
    rw [inter_comm] at e2
    omega
  have key' : ∑ a ∈ D \ T, key a ≤ ∑ a ∈ T \ D, key a := by
    rcases (T \ D).eq_empty_or_nonempty with he | hne
    · have : D \ T = ∅ := by rw [← card_eq_zero, hcards, he, card_empty]
      rw [he, this]
    · obtain ⟨m, hm, hmin⟩ := exists_min_image (T \ D) key hne
      have hmS : m ∈ S := by
        by_contra hms
        exact (mem_sdiff.1 hm).2 (mem_sdiff.2 ⟨hT (mem_sdiff.1 hm).1, hms⟩)
      calc ∑ a ∈ D \ T, key a ≤ (D \ T).card • key m := sum_le_card_nsmul _ _ _ fun a ha => by
            have := mem_sdiff.1 (mem_sdiff.1 ha).1
            exact h.2.2 m hmS a (mem_range.1 this.1) this.2
        _ = (T \ D).card • key m := by rw [hcards]
        _ ≤ ∑ a ∈ T \ D, key a := card_nsmul_le_sum _ _ _ hmin
  linarith

theorem truncationCumulative_least {argsort : ℕ → (ℕ → ℝ) → ℕ → ℕ} (ha : ∀ N key, IsArgsort N key (argsort N key)) (N : ℕ)
    (lam : ℕ → ℂ) (t : ℕ) (ht : t ≤ N) :
    IsLeast {x | ∃ T ⊆ range N, T.card = t ∧ x = ∑ a ∈ T, ‖lam a‖} (truncationCumulative argsort N lam t) := by
  have h := ha N fun a => ‖lam a‖
  unfold truncationCumulative
  rw [sum_smallest h ht fun a => ‖lam a‖]
  exact sum_dropped_least (topIndices_isTop h (Nat.sub_le _ _)) ht

/-! ## Errors of truncation -/

theorem entry_le_one {n : ℕ} (v : ℕ → ℂ) (h : ∑ i ∈ range n, (starRingEnd ℂ) (v i) * v i = 1) (i : ℕ) (hi : i < n) : ‖v i‖ ≤ 1 := by
  have hr : ∑ i ∈ range n, ‖v i‖ ^ 2 = 1 := by
    have : ((∑ i ∈ range n, ‖v i‖ ^ 2 : ℝ) : ℂ) = 1 := by
      rw [← h]
      push_cast
      exact sum_congr rfl fun i _ => (Complex.conj_mul' _).symm
    exact_mod_cast this
  have := single_le_sum (f := fun i => ‖v i‖ ^ 2) (fun i _ => sq_nonneg _) (mem_range.2 hi)
  have h2 : ‖v i‖ ^ 2 ≤ 1 := by rw [← hr]; exact this
  exact (sq_le_one_iff₀ (norm_nonneg _)).1 h2

/-- **C134.** The error drawn for a diagonal kernel against the number `t` of operators dropped, for a Hermitian kernel on `n` points: it is
the least possible sum of the moduli of `t` eigenvalues. When `truncate_diagonal_noise_operator_list` keeps all but `t` operators, no entry
of the kernel changes by more than that, and for a kernel without negative eigenvalues it is exactly the loss of the sum of the
diagonal. -/
theorem C134_diagonal_error (eigh : ∀ N, Matrix (Fin N) (Fin N) ℂ → EigResult) (argsort : ℕ → (ℕ → ℝ) → ℕ → ℕ)
    (ha : ∀ N key, IsArgsort N key (argsort N key)) (n : ℕ) (d : ℕ → ℂ)
    (hd : ∀ i < n, ∀ j < n, d (i * n + j) = (starRingEnd ℂ) (d (j * n + i)))
    (he : IsEigh n n (toMatrix n fun i j => d (i * n + j)) (eigh n (toMatrix n fun i j => d (i * n + j))).eigenvalues
      (eigh n (toMatrix n fun i j => d (i * n + j))).vectors) :
    ∃ line ops, plotDiagonalKernelTruncationError eigh argsort n d = some line ∧ diagonalEigenOperators eigh n d = some ops ∧
      line.n = n + 1 ∧ ∀ t ≤ n, line.coordinates t = t ∧
        IsLeast {x | ∃ T ⊆ range n, T.card = t ∧ x = ∑ a ∈ T, ‖ops.eigenvalue a‖} (line.values t) ∧
        (t < n → ∃ ops' K', truncateDiagonalOperators (argsort n fun a => ‖ops.eigenvalue a‖) ops (List.range (n - t)) = some ops' ∧
          getDiagonalKernel ops' = some K' ∧
          (∀ i < n, ∀ j < n, ‖d (i * n + j) - K' (i * n + j)‖ ≤ line.values t) ∧
          ((∀ a < n, 0 ≤ ops.eigenvalue a) → ∑ i ∈ range n, (d (i * n + i) - K' (i * n + i)) = line.values t)) := by
  obtain ⟨ops, hops, hc, hval, hdim, him, horth, K, hK, hKd⟩ := C56_diagonal eigh n d hd he
  have hnn : ∀ t, 0 ≤ truncationCumulative argsort n ops.eigenvalue t := fun t => sum_nonneg fun i _ => norm_nonneg _
  refine ⟨⟨n + 1, fun t => t, getMeasuredData (fun t => (truncationCumulative argsort n ops.eigenvalue t : ℂ)) .abs⟩, ops, ?_, hops, rfl,
    fun t ht => ?_⟩
  · unfold plotDiagonalKernelTruncationError
    rw [hops, Option.bind_some, hval]
    rfl
  have hv : getMeasuredData (fun t => (truncationCumulative argsort n ops.eigenvalue t : ℂ)) .abs t =
      truncationCumulative argsort n ops.eigenvalue t := by
    show ‖((truncationCumulative argsort n ops.eigenvalue t : ℝ) : ℂ)‖ = _
    rw [Complex.norm_real, Real.norm_of_nonneg (hnn t)]
  dsimp only
  rw [hv]
  refine ⟨rfl, truncationCumulative_least ha n _ t ht, fun htn => ?_⟩
  have hord := ha n fun a => ‖ops.eigenvalue a‖
  obtain ⟨ops', K₀, K', S, h1, -, -, h4, h5, h6, h7, -⟩ := C62_diagonal ops (by rw [hval, hc])
    (argsort n fun a => ‖ops.eigenvalue a‖) (by rw [hval]; exact hord) (n - t) (by omega) (by rw [hc]; omega)
  obtain rfl : K = K₀ := Option.some.inj (hK.symm.trans h4)
  rw [hc] at h6
  have hsum : truncationCumulative argsort n ops.eigenvalue t = ∑ a ∈ range n \ S, ‖ops.eigenvalue a‖ :=
    (truncationCumulative_least ha n ops.eigenvalue t ht).unique (sum_dropped_least h6 ht)
  rw [hdim, hc] at h7
  have hdiff : ∀ i < n, ∀ j < n, d (i * n + j) - K' (i * n + j) =
      noiseKernel (range n \ S) ops.eigenvalue (fun a i => ops.data (a * n + i)) i j := fun i hi j hj => by
    rw [← hKd _ (add_mul_lt hi hj)]
    exact (h7 i hi j hj).2
  have hone : ∀ a < n, ∀ i < n, ‖ops.data (a * n + i)‖ ≤ 1 := fun a ha' i hi =>
    entry_le_one (fun i => ops.data (a * n + i)) ((horth a ha' a ha').trans (if_pos rfl)) i hi
  refine ⟨ops', K', h1, h5, fun i hi j hj => ?_, fun hpos => ?_⟩
  · rw [hdiff i hi j hj, hsum, noiseKernel]
    refine (norm_sum_le _ _).trans (sum_le_sum fun a ha' => ?_)
    have han := mem_range.1 (mem_sdiff.1 ha').1
    rw [norm_mul, norm_mul, RCLike.norm_conj]
    calc ‖ops.eigenvalue a‖ * ‖ops.data (a * n + i)‖ * ‖ops.data (a * n + j)‖ ≤ ‖ops.eigenvalue a‖ * 1 * 1 := by
          gcongr
          · exact hone a han i hi
          · exact hone a han j hj
      _ = _ := by ring
  · rw [hsum, sum_congr rfl fun i hi => hdiff i (mem_range.1 hi) i (mem_range.1 hi)]
    simp only [noiseKernel]
    rw [sum_comm]
    push_cast
    refine sum_congr rfl fun a ha' => ?_
    have han := mem_range.1 (mem_sdiff.1 ha').1
    simp only [mul_assoc]
    rw [← mul_sum, horth a han a han, if_pos rfl, mul_one, Complex.norm_of_nonneg' (hpos a han)]

/-- **C134.** The error drawn for a full kernel: at every chosen number `t` of dropped operators the least possible sum of the moduli of
`t` of the `n²` eigenvalues; a number of more than `n²` raises. By default the numbers start with zero. -/
theorem C134_full_error (eigh : ∀ N, Matrix (Fin N) (Fin N) ℂ → EigResult) (argsort : ℕ → (ℕ → ℝ) → ℕ → ℕ)
    (ha : ∀ N key, IsArgsort N key (argsort N key)) (n : ℕ) (K : ℕ → ℂ) (ops : NoiseOperators)
    (hops : eigenOperators eigh n K = some ops) :
    (∀ truncations : List ℕ, (∀ t ∈ truncations, t ≤ n * n) →
      ∃ points, plotKernelTruncationError eigh argsort n K (some truncations) = some points ∧ points.map Prod.fst = truncations ∧
        ∀ p ∈ points, IsLeast {x | ∃ T ⊆ range (n * n), T.card = p.1 ∧ x = ∑ a ∈ T, ‖ops.eigenvalue a‖} p.2) ∧
    (∀ truncations : List ℕ, (∃ t ∈ truncations, n * n < t) →
      plotKernelTruncationError eigh argsort n K (some truncations) = none) ∧
    ∃ truncations : List ℕ, plotKernelTruncationError eigh argsort n K none =
        plotKernelTruncationError eigh argsort n K (some truncations) ∧
      (∀ t, t ∈ truncations ↔ t ≤ n * n ∧ (1 + (n * n + 1) / 100) ∣ t) ∧ truncations.SortedLT := by
  have hval : ops.values = n * n := by
    unfold eigenOperators at hops
    dsimp only at hops
    split_ifs at hops
    rw [← Option.some.inj hops]
  refine ⟨fun truncations ht => ?_, fun truncations ⟨t, htm, ht⟩ => ?_, ?_⟩
  · refine ⟨truncations.map fun t => (t, truncationCumulative argsort (n * n) ops.eigenvalue t), ?_, ?_, ?_⟩
    · unfold plotKernelTruncationError
      rw [hops, Option.bind_some, hval]
      exact if_pos fun t h => Nat.lt_succ_of_le (ht t h)
    · rw [List.map_map]
      exact List.map_id _
    · intro p hp
      obtain ⟨t, htm, rfl⟩ := List.mem_map.1 hp
      exact truncationCumulative_least ha _ _ t (ht t htm)
  · unfold plotKernelTruncationError
    rw [hops, Option.bind_some, hval]
    exact if_neg fun h => by have := h t htm; omega
  · set step := 1 + (n * n + 1) / 100 with hstep
    have hpos : 0 < step := by omega
    refine ⟨List.range' 0 ((n * n + 1 + step - 1) / step) step, ?_, fun t => ?_, ?_⟩
    · unfold plotKernelTruncationError
      rw [hops, Option.bind_some, Option.bind_some, hval]
      rfl
    · rw [List.mem_range']
      constructor
      · rintro ⟨i, hi, rfl⟩
        refine ⟨?_, ⟨i, by ring⟩⟩
        have h2 : (i + 1) * step ≤ n * n + 1 + step - 1 := (Nat.le_div_iff_mul_le hpos).1 hi
        have h3 : (i + 1) * step = step * i + step := by ring
        omega
      · rintro ⟨h, i, rfl⟩
        refine ⟨i, (Nat.le_div_iff_mul_le hpos).2 ?_, by ring⟩
        have h3 : (i + 1) * step = step * i + step := by ring
        show (i + 1) * step ≤ _
        omega
    · exact List.sortedLT_range' _ _ (by omega)

/-! ## Samples -/

section

variable {Ω : Type*} {mΩ : MeasurableSpace Ω} {P : MeasureTheory.Measure Ω} [IsProbabilityMeasure P]

/-- **C134 (partial).** A single sample drawn on given axes without truncation, for operators with nonnegative eigenvalues: it vanishes at the
first point, and elsewhere it has mean zero and the covariance `ℏ` times the kernel of the operators, measured from the first point.
Missing: samples with a truncation or without given axes, see `C134_sample_negation`. -/
theorem C134_sample_partial {X : ℕ × ℕ × Bool → Ω → ℝ} (h : IsStandardNormal P X) (hbar : ℝ) (hb : 0 ≤ hbar)
    (argsort : ℕ → (ℕ → ℝ) → ℕ → ℕ) (ha : ∀ N key, IsArgsort N key (argsort N key)) (ops : DiagonalNoiseOperators)
    (hN : ops.values = ops.count) (h0 : 0 < ops.count) (hdim : 0 < ops.dim) (hl : ∀ a < ops.count, 0 ≤ ops.eigenvalue a) :
    ∃ (V : Ω → ℕ → ℂ) (K : ℕ → ℂ),
      (∀ ω, plotOperatorsSingleSample argsort hbar ops none true (normalFactors X ω 0) = some (V ω)) ∧
      getDiagonalKernel ops = some K ∧ (∀ ω, V ω 0 = 0) ∧ (∀ k, ∫ ω, V ω k ∂P = 0) ∧
      ∀ k < ops.dim, ∀ k' < ops.dim, ∫ ω, (starRingEnd ℂ) (V ω k) * V ω k' ∂P =
        hbar * (K (k * ops.dim + k') - K (k * ops.dim + 0) - K (0 * ops.dim + k') + K (0 * ops.dim + 0)) := by
  obtain ⟨K, hK, hv⟩ := getDiagonalKernel_entries ops hN
  set order := argsort ops.values fun a => ‖ops.eigenvalue a‖ with horder
  have hcond : List.range ops.values ≠ [] ∧
      ∀ s ∈ List.range ops.values, s < ops.values ∧ order (ops.values - 1 - s) < ops.count := by
    refine ⟨by simp; omega, fun s hs => ?_⟩
    have := List.mem_range.1 hs
    refine ⟨this, ?_⟩
    rw [← hN]
    exact (ha ops.values fun a => ‖ops.eigenvalue a‖).1 (ops.values - 1 - s) (by omega)
  set c : ℕ → ℕ → ℂ := fun k i => scimathSqrt (ops.eigenvalue i * hbar) * (ops.data (i * ops.dim + k) - ops.data (i * ops.dim + 0))
    with hc
  have hV : ∀ ω k, (∑ i ∈ range ops.values, normalFactors X ω 0 i * scimathSqrt (ops.eigenvalue i * hbar) *
      ops.data (i * ops.dim + k)) - (∑ i ∈ range ops.values, normalFactors X ω 0 i * scimathSqrt (ops.eigenvalue i * hbar) *
      ops.data (i * ops.dim + 0)) = ∑ i ∈ range ops.values, normalFactors X ω 0 i * c k i := by
    intro ω k
    rw [← sum_sub_distrib]
    refine sum_congr rfl fun i _ => ?_
    simp only [hc]
    ring
  refine ⟨fun ω k => ∑ i ∈ range ops.values, normalFactors X ω 0 i * c k i, K, fun ω => ?_, hK, fun ω => ?_, fun k => ?_,
    fun k hk k' hk' => ?_⟩
  · unfold plotOperatorsSingleSample
    rw [Option.getD_none, show truncateDiagonalOperators (argsort ops.values fun a => ‖ops.eigenvalue a‖) ops
      (List.range ops.values) = some _ from if_pos hcond, Option.bind_some]
    dsimp only
    rw [List.length_range, if_pos ⟨by omega, le_refl _, hdim, rfl⟩]
    congr 1
    funext k
    exact hV ω k
  · exact sum_eq_zero fun i _ => by simp [hc]
  · exact linear_mean h _ _ _
  · rw [linear_covariance h, if_pos rfl, hv k k' hk', hv k 0 hdim, hv 0 k' hk', hv 0 0 hdim]
    simp only [noiseKernel]
    rw [← sum_sub_distrib, ← sum_sub_distrib, ← sum_add_distrib, mul_sum, hN]
    refine sum_congr rfl fun i hi => ?_
    have h1 := normSq_scimathSqrt (ops.eigenvalue i * hbar)
    rw [norm_mul, Complex.norm_real, Real.norm_of_nonneg hb] at h1
    push_cast at h1
    rw [Complex.norm_of_nonneg' (hl i (mem_range.1 hi))] at h1
    simp only [hc]
    rw [map_mul, map_sub]
    linear_combination ((starRingEnd ℂ) (ops.data (i * ops.dim + k) ) - (starRingEnd ℂ) (ops.data (i * ops.dim + 0))) *
      (ops.data (i * ops.dim + k') - ops.data (i * ops.dim + 0)) * h1

end

/-- **C134 (negation).** Without given axes the plot of a sample raises, whatever the operators. With a truncation the operators are taken from the list
before truncation: whenever the first eigenvalue (for a kernel the *smallest*) is zero, the sample truncated to the operator with the
largest eigenvalue is zero for all random numbers. -/
theorem C134_sample_negation (argsort : ℕ → (ℕ → ℝ) → ℕ → ℕ) (ha : ∀ N key, IsArgsort N key (argsort N key)) (hbar : ℝ) :
    (∀ ops truncation factors, plotOperatorsSingleSample argsort hbar ops truncation false factors = none) ∧
    ∀ (ops : DiagonalNoiseOperators), ops.values = ops.count → 0 < ops.count → 0 < ops.dim → ops.eigenvalue 0 = 0 → ∀ factors,
      ∃ V, plotOperatorsSingleSample argsort hbar ops (some [0]) true factors = some V ∧ ∀ k, V k = 0 := by
  constructor
  · intro ops truncation factors
    unfold plotOperatorsSingleSample
    rcases truncateDiagonalOperators (argsort ops.values fun a => ‖ops.eigenvalue a‖) ops (truncation.getD (List.range ops.values)) with
      _ | t
    · rfl
    · rw [Option.bind_some]
      exact if_neg fun h => by simp at h
  · intro ops hN h0 hdim he factors
    have hcond : [0] ≠ [] ∧ ∀ s ∈ [0], s < ops.values ∧
        argsort ops.values (fun a => ‖ops.eigenvalue a‖) (ops.values - 1 - s) < ops.count := by
      refine ⟨by simp, fun s hs => ?_⟩
      rw [List.mem_singleton] at hs
      subst hs
      have := (ha ops.values fun a => ‖ops.eigenvalue a‖).1 (ops.values - 1 - 0) (by omega)
      omega
    refine ⟨_, by
      unfold plotOperatorsSingleSample
      rw [Option.getD_some, show truncateDiagonalOperators (argsort ops.values fun a => ‖ops.eigenvalue a‖) ops [0] = some _ from
        if_pos hcond, Option.bind_some]
      exact if_pos ⟨h0, by rw [hN]; exact h0, hdim, rfl⟩, fun k => ?_⟩
    have hs : scimathSqrt 0 = 0 := by
      unfold scimathSqrt
      rw [Complex.zero_cpow (by norm_num)]
    simp [he, hs]

/-! ## Eigenvalues -/

/-- **C134 (partial).** The eigenvalues drawn without truncation: each of them once, from the largest to the smallest. Missing: a truncation, see
`C134_eigenvalues_negation`. -/
theorem C134_eigenvalues_partial (argsort : ℕ → (ℕ → ℝ) → ℕ → ℕ) (ha : ∀ N key, IsArgsort N key (argsort N key)) (N : ℕ)
    (lam : ℕ → ℂ) (measure : Measure) :
    (plotOperatorEigenvalues argsort N lam measure none).Perm ((List.range N).map (getMeasuredData lam measure)) ∧
    (plotOperatorEigenvalues argsort N lam measure none).Pairwise fun x y => y ≤ x := by
  have h := ha N (getMeasuredData lam measure)
  constructor
  · unfold plotOperatorEigenvalues
    dsimp only [reverseSliceLength]
    have : ((List.range N).map fun i => argsort N (getMeasuredData lam measure) (N - 1 - i)).Perm (List.range N) := by
      refine List.perm_of_nodup_nodup_toFinset_eq ?_ List.nodup_range ?_
      · refine List.Nodup.map_on ?_ List.nodup_range
        intro a ha' b hb e
        have h1 := List.mem_range.1 ha'
        have h2 := List.mem_range.1 hb
        have := h.2.1 (N - 1 - a) (by omega) (N - 1 - b) (by omega) e
        omega
      · ext x
        simp only [List.mem_toFinset, List.mem_map, List.mem_range]
        constructor
        · rintro ⟨a, ha', rfl⟩
          exact h.1 _ (by omega)
        · intro hx
          have : x ∈ (range N).image (argsort N (getMeasuredData lam measure)) := by
            rw [argsort_surj h]; exact mem_range.2 hx
          obtain ⟨a, ha', rfl⟩ := mem_image.1 this
          have := mem_range.1 ha'
          exact ⟨N - 1 - a, by omega, by congr 1; omega⟩
    have h2 := this.map (getMeasuredData lam measure)
    rwa [List.map_map] at h2
  · unfold plotOperatorEigenvalues
    dsimp only [reverseSliceLength]
    rw [List.pairwise_map]
    refine List.Pairwise.imp_of_mem ?_ List.pairwise_lt_range
    intro a b ha' hb hlt
    have h1 := List.mem_range.1 ha'
    have h2 := List.mem_range.1 hb
    exact h.2.2 _ _ (by omega) (by omega)

/-- **C134 (negation).** A truncation to `t` eigenvalues draws not the `t` largest of `N` but the `N - 1 - t` largest; truncating to all of
them draws nothing; only the truncation `-1 - t` draws the `t` largest. -/
theorem C134_eigenvalues_negation (argsort : ℕ → (ℕ → ℝ) → ℕ → ℕ) (N : ℕ) (lam : ℕ → ℂ) (measure : Measure) :
    (∀ t < N, plotOperatorEigenvalues argsort N lam measure (some t) =
      (plotOperatorEigenvalues argsort N lam measure none).take (N - 1 - t)) ∧
    plotOperatorEigenvalues argsort N lam measure (some N) = [] ∧
    ∀ t : ℕ, plotOperatorEigenvalues argsort N lam measure (some (-1 - t)) =
      (plotOperatorEigenvalues argsort N lam measure none).take t := by
  refine ⟨?_, ?_, fun t => ?_⟩
  · intro t ht
    unfold plotOperatorEigenvalues
    have : reverseSliceLength N (some (t : ℤ)) = N - 1 - t := by
      unfold reverseSliceLength
      dsimp only
      rw [if_neg (by omega), min_eq_left (by omega)]
      omega
    rw [this]
    dsimp only [reverseSliceLength]
    rw [← List.map_take, List.take_range, min_eq_left (by omega)]
  · unfold plotOperatorEigenvalues
    have : reverseSliceLength N (some (N : ℤ)) = 0 := by
      unfold reverseSliceLength
      dsimp only
      rw [if_neg (by omega), min_eq_right (by omega)]
      omega
    rw [this]
    rfl
  · unfold plotOperatorEigenvalues
    have : reverseSliceLength N (some (-1 - (t : ℤ))) = min t N := by
      unfold reverseSliceLength
      dsimp only
      rw [if_pos (by omega)]
      omega
    rw [this]
    dsimp only [reverseSliceLength]
    rw [← List.map_take, List.take_range]

/-! ## Errors of a fit -/

/-- **C134.** The percentage drawn for a fitted isotropic kernel in another basis of the same space, relative to a kernel given by its values at the
points of the grid: wherever the true kernel does not vanish, the fitted kernel at this point is the true one times one plus the
percentage over a hundred. -/
theorem C134_percentage (same : Basis → Basis → Bool) (hs : Sound same) (ns : List ℕ) (c : Basis) (hcv : Valid c)
    (hoc : OrthonormalParts c) (hcomp : Compatible c (.tuple (ns.map .fundamental))) (true' fitted : ℕ → ℂ) :
    ∃ e, kernelPercentageError same (.tuple (ns.map .fundamental)) c true' fitted = some e ∧ ∀ k < ns.prod, true' k ≠ 0 →
      expand c fitted k = true' k * (1 + e k / 100) := by
  obtain ⟨β, hβ, h⟩ := C120_isotropic_partial same hs c hcv hoc ns hcomp fitted
  refine ⟨_, by unfold kernelPercentageError; rw [hβ]; rfl, fun k hk hne => ?_⟩
  beta_reduce
  rw [h k hk]
  field_simp
  ring

/-- A kernel on two points with the eigenvalues 1 and 3, dropping one operator: an error of 1. -/
example (eigh : ∀ N, Matrix (Fin N) (Fin N) ℂ → EigResult) (argsort : ℕ → (ℕ → ℝ) → ℕ → ℕ)
    (ha : ∀ N key, IsArgsort N key (argsort N key)) (d : ℕ → ℂ) (hd0 : d 0 = 1) (hd1 : d 1 = 0) (hd2 : d 2 = 0) (hd3 : d 3 = 3)
    (he : eigh 2 (toMatrix 2 fun i j => d (i * 2 + j)) = ⟨fun j => if j = 0 then 1 else 3, fun i j => if i = j then 1 else 0⟩) :
    ∃ line, plotDiagonalKernelTruncationError eigh argsort 2 d = some line ∧ line.values 1 = 1 := by
  have hM : toMatrix 2 (fun i j => d (i * 2 + j)) = !![1, 0; 0, 3] := by
    ext i j
    fin_cases i <;> fin_cases j <;> simp [toMatrix, hd0, hd1, hd2, hd3]
  obtain ⟨line, ops, h1, h2, -, h4⟩ := C134_diagonal_error eigh argsort ha 2 d
    (by
      intro i hi j hj
      have h3 : (starRingEnd ℂ) 3 = 3 := Complex.conj_ofNat 3
      interval_cases i <;> interval_cases j <;> simp [hd0, hd1, hd2, hd3, h3])
    (by
      rw [he, hM]
      refine ⟨fun j hj => ?_, fun j hj i => ?_, fun j hj j' hj' => ?_⟩
      · interval_cases j <;> simp
      · interval_cases j <;> fin_cases i <;> simp [Fin.sum_univ_two]
      · interval_cases j <;> interval_cases j' <;> simp [Fin.sum_univ_two])
  refine ⟨line, h1, ?_⟩
  have hev : ops.eigenvalue = fun j => if j = 0 then 1 else 3 := by
    unfold diagonalEigenOperators at h2
    dsimp only at h2
    split_ifs at h2
    rw [← Option.some.inj h2, he]
  refine (h4 1 (by norm_num)).2.1.unique ⟨⟨{0}, by simp, rfl, by simp [hev]⟩, ?_⟩
  rintro _ ⟨T, hT, hc, rfl⟩
  obtain ⟨a, rfl⟩ := card_eq_one.1 hc
  rw [sum_singleton, hev]
  by_cases h0 : a = 0 <;> simp [h0]

/-- Operators with a first eigenvalue zero: the sample truncated to the one with the largest eigenvalue misses it. -/
example : (⟨2, 2, fun k => if k = 0 ∨ k = 3 then 1 else 0, 2, fun j => j⟩ : DiagonalNoiseOperators).eigenvalue 0 = 0 := by simp

end Verif
