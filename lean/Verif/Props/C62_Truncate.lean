import Verif.Props.C56_NoiseOperators

/-!
C62: truncated lists of noise operators and truncated kernels.
-/

set_option autoImplicit false

namespace Verif

open Finset Spec

/-! ## The largest keys -/

/-- The indices of the `t` largest keys, from the result of `argsort`. -/
def topIndices (N t : ℕ) (order : ℕ → ℕ) : Finset ℕ := (range t).image fun a => order (N - 1 - a)

theorem topIndices_injOn {N t : ℕ} {key : ℕ → ℝ} {order : ℕ → ℕ} (h : IsArgsort N key order) (ht : t ≤ N) :
    Set.InjOn (fun a => order (N - 1 - a)) (range t : Finset ℕ) := by
  intro a ha b hb e
  rw [coe_range, Set.mem_Iio] at ha hb
  have := h.2.1 (N - 1 - a) (by omega) (N - 1 - b) (by omega) e
  omega

theorem topIndices_isTop {N t : ℕ} {key : ℕ → ℝ} {order : ℕ → ℕ} (h : IsArgsort N key order) (ht : t ≤ N) :
    IsTop N t key (topIndices N t order) := by
  have hsurj : ∀ b < N, ∃ a < N, order a = b := by
    have hinj : Set.InjOn order (range N : Finset ℕ) := by
      intro a ha b hb e
      rw [coe_range, Set.mem_Iio] at ha hb
      exact h.2.1 a ha b hb e
    have hsub : (range N).image order ⊆ range N := fun x hx => by
      obtain ⟨a, ha, rfl⟩ := mem_image.1 hx
      exact mem_range.2 (h.1 a (mem_range.1 ha))
    have hcard : ((range N).image order).card = (range N).card := card_image_of_injOn hinj
    have heq := eq_of_subset_of_card_le hsub (le_of_eq hcard.symm)
    intro b hb
    have : b ∈ (range N).image order := by rw [heq]; exact mem_range.2 hb
    obtain ⟨a, ha, e⟩ := mem_image.1 this
    exact ⟨a, mem_range.1 ha, e⟩
  refine ⟨fun x hx => ?_, ?_, fun x hx b hb hbn => ?_⟩
  · obtain ⟨a, ha, rfl⟩ := mem_image.1 hx
    have := mem_range.1 ha
    exact mem_range.2 (h.1 _ (by omega))
  · rw [topIndices, card_image_of_injOn (topIndices_injOn h ht), card_range]
  · obtain ⟨a, ha, rfl⟩ := mem_image.1 hx
    have ha' := mem_range.1 ha
    obtain ⟨c, hc, rfl⟩ := hsurj b hb
    refine h.2.2 c (N - 1 - a) ?_ (by omega)
    by_contra hlt
    apply hbn
    refine mem_image.2 ⟨N - 1 - c, mem_range.2 (by omega), ?_⟩
    show order (N - 1 - (N - 1 - c)) = order c
    congr 1
    omega

theorem sum_topIndices {N t : ℕ} {key : ℕ → ℝ} {order : ℕ → ℕ} (h : IsArgsort N key order) (ht : t ≤ N) (f : ℕ → ℂ) :
    ∑ a ∈ topIndices N t order, f a = ∑ a ∈ range t, f (order (N - 1 - (List.range t).getD a 0)) := by
  rw [topIndices, sum_image (topIndices_injOn h ht)]
  refine sum_congr rfl fun a ha => ?_
  rw [List.getD_eq_getElem?_getD, List.getElem?_range (mem_range.1 ha), Option.getD_some]

/-! ## Orthonormal operators -/

/-- The squared size of a kernel of orthonormal operators is the sum of the squared eigenvalues. -/
theorem noiseKernel_frobenius (S : Finset ℕ) (n : ℕ) (lam : ℕ → ℂ) (L : ℕ → ℕ → ℂ)
    (hL : ∀ a ∈ S, ∀ b ∈ S, ∑ i ∈ range n, (starRingEnd ℂ) (L a i) * L b i = if a = b then 1 else 0) :
    ∑ i ∈ range n, ∑ j ∈ range n, ‖noiseKernel S lam L i j‖ ^ 2 = ∑ a ∈ S, ‖lam a‖ ^ 2 := by
  have hc : (((∑ i ∈ range n, ∑ j ∈ range n, ‖noiseKernel S lam L i j‖ ^ 2 : ℝ)) : ℂ) = ((∑ a ∈ S, ‖lam a‖ ^ 2 : ℝ) : ℂ) := by
    push_cast
    have h1 : ∀ i j, ((‖noiseKernel S lam L i j‖ : ℂ)) ^ 2 = ∑ a ∈ S, ∑ b ∈ S,
        (starRingEnd ℂ) (lam a) * lam b * ((starRingEnd ℂ) (L b i) * L a i) * ((starRingEnd ℂ) (L a j) * L b j) := by
      intro i j
      rw [← Complex.conj_mul', noiseKernel, map_sum, sum_mul_sum]
      refine sum_congr rfl fun a _ => sum_congr rfl fun b _ => ?_
      rw [map_mul, map_mul, Complex.conj_conj]
      ring
    simp only [h1]
    calc ∑ i ∈ range n, ∑ j ∈ range n, ∑ a ∈ S, ∑ b ∈ S,
          (starRingEnd ℂ) (lam a) * lam b * ((starRingEnd ℂ) (L b i) * L a i) * ((starRingEnd ℂ) (L a j) * L b j)
        = ∑ i ∈ range n, ∑ a ∈ S, ∑ b ∈ S, ∑ j ∈ range n,
          (starRingEnd ℂ) (lam a) * lam b * ((starRingEnd ℂ) (L b i) * L a i) * ((starRingEnd ℂ) (L a j) * L b j) := by
          refine sum_congr rfl fun i _ => ?_
          rw [sum_comm]
          exact sum_congr rfl fun a _ => sum_comm
      _ = ∑ i ∈ range n, ∑ a ∈ S, (starRingEnd ℂ) (lam a) * lam a * ((starRingEnd ℂ) (L a i) * L a i) := by
          refine sum_congr rfl fun i _ => sum_congr rfl fun a ha => ?_
          refine (sum_eq_single a (fun b hb hne => ?_) (fun h => absurd ha h)).trans ?_
          · rw [← mul_sum, hL a ha b hb, if_neg hne.symm, mul_zero]
          · rw [← mul_sum, hL a ha a ha, if_pos rfl, mul_one]
      _ = ∑ a ∈ S, (starRingEnd ℂ) (lam a) * lam a := by
          rw [sum_comm]
          refine sum_congr rfl fun a ha => ?_
          rw [← mul_sum, hL a ha a ha, if_pos rfl, mul_one]
      _ = ∑ a ∈ S, (‖lam a‖ : ℂ) ^ 2 := sum_congr rfl fun a _ => Complex.conj_mul' _
  exact_mod_cast hc

/-! ## C62 -/

/-- **C62**, diagonal operators. Truncating to `t` operators keeps `t` operators with the largest modulus of the eigenvalue; the
kernel loses exactly the contribution of the others, and for orthonormal operators the squared error is the sum of the squares of
the dropped eigenvalues. -/
theorem C62_diagonal (ops : DiagonalNoiseOperators) (hN : ops.values = ops.count) (order : ℕ → ℕ)
    (ho : IsArgsort ops.values (fun a => ‖ops.eigenvalue a‖) order) (t : ℕ) (ht : 0 < t) (htN : t ≤ ops.count) :
    ∃ ops' K K' S, truncateDiagonalOperators order ops (List.range t) = some ops' ∧ ops'.count = t ∧ ops'.dim = ops.dim ∧
      getDiagonalKernel ops = some K ∧ getDiagonalKernel ops' = some K' ∧
      IsTop ops.count t (fun a => ‖ops.eigenvalue a‖) S ∧
      (∀ i < ops.dim, ∀ j < ops.dim,
        K' (i * ops.dim + j) = noiseKernel S ops.eigenvalue (fun a i => ops.data (a * ops.dim + i)) i j ∧
        K (i * ops.dim + j) - K' (i * ops.dim + j) =
          noiseKernel (range ops.count \ S) ops.eigenvalue (fun a i => ops.data (a * ops.dim + i)) i j) ∧
      ((∀ a < ops.count, ∀ b < ops.count, ∑ i ∈ range ops.dim, (starRingEnd ℂ) (ops.data (a * ops.dim + i)) *
          ops.data (b * ops.dim + i) = if a = b then 1 else 0) →
        ∑ i ∈ range ops.dim, ∑ j ∈ range ops.dim, ‖K (i * ops.dim + j) - K' (i * ops.dim + j)‖ ^ 2 =
          ∑ a ∈ range ops.count \ S, ‖ops.eigenvalue a‖ ^ 2) := by
  rw [hN] at ho
  have hcond : List.range t ≠ [] ∧ ∀ s ∈ List.range t, s < ops.values ∧ order (ops.values - 1 - s) < ops.count := by
    refine ⟨by simp; omega, fun s hs => ?_⟩
    have := List.mem_range.1 hs
    rw [hN]
    exact ⟨by omega, ho.1 _ (by omega)⟩
  have htr : truncateDiagonalOperators order ops (List.range t) = some _ := if_pos hcond
  obtain ⟨K, hK, hv⟩ := getDiagonalKernel_entries ops hN
  obtain ⟨K', hK', hv'⟩ := getDiagonalKernel_entries (⟨(List.range t).length, ops.dim, flatten ops.dim fun a i =>
    ops.data (order (ops.values - 1 - (List.range t).getD a 0) * ops.dim + i), (List.range t).length,
    fun a => ops.eigenvalue (order (ops.values - 1 - (List.range t).getD a 0))⟩ : DiagonalNoiseOperators) rfl
  have htop := topIndices_isTop ho htN
  have hmain : ∀ i < ops.dim, ∀ j < ops.dim,
        K' (i * ops.dim + j) = noiseKernel (topIndices ops.count t order) ops.eigenvalue
          (fun a i => ops.data (a * ops.dim + i)) i j ∧
        K (i * ops.dim + j) - K' (i * ops.dim + j) = noiseKernel (range ops.count \ topIndices ops.count t order) ops.eigenvalue
          (fun a i => ops.data (a * ops.dim + i)) i j := by
    intro i hi j hj
    have h1 : K' (i * ops.dim + j) = noiseKernel (topIndices ops.count t order) ops.eigenvalue
          (fun a i => ops.data (a * ops.dim + i)) i j := by
      rw [hv' i j hj, noiseKernel, noiseKernel, sum_topIndices ho htN]
      dsimp only
      rw [List.length_range]
      refine sum_congr rfl fun a _ => ?_
      rw [flatten_entry _ _ hi, flatten_entry _ _ hj, hN]
    refine ⟨h1, ?_⟩
    rw [hv i j hj, h1, sub_eq_iff_eq_add]
    exact (sum_sdiff htop.1).symm
  refine ⟨_, K, K', topIndices ops.count t order, htr, List.length_range, rfl, hK, hK', htop, hmain, fun horth => ?_⟩
  rw [← noiseKernel_frobenius _ ops.dim ops.eigenvalue (fun a i => ops.data (a * ops.dim + i)) fun a ha b hb =>
    horth a (mem_range.1 (mem_sdiff.1 ha).1) b (mem_range.1 (mem_sdiff.1 hb).1)]
  refine sum_congr rfl fun i hi => sum_congr rfl fun j hj => ?_
  rw [(hmain i (mem_range.1 hi) j (mem_range.1 hj)).2]

/-- **C62**, full operators: truncating to `t` operators keeps `t` operators with the largest eigenvalues *with sign*, and the
kernel loses exactly the contribution of the others. The operators kept are in general not those of largest modulus, see
`C62_modulus_negation`; they are when no eigenvalue is negative. -/
theorem C62_full_partial (ops : NoiseOperators) (hN : ops.values = ops.count) (order : ℕ → ℕ)
    (ho : IsArgsort ops.values (fun a => (ops.eigenvalue a).re) order) (t : ℕ) (ht : 0 < t) (htN : t ≤ ops.count) :
    ∃ ops' K K' S, truncateOperators order ops (List.range t) = some ops' ∧ ops'.count = t ∧
      getFullKernel ops = some K ∧ getFullKernel ops' = some K' ∧
      IsTop ops.count t (fun a => (ops.eigenvalue a).re) S ∧
      ((∀ a < ops.count, 0 ≤ (ops.eigenvalue a).re ∧ (ops.eigenvalue a).im = 0) →
        IsTop ops.count t (fun a => ‖ops.eigenvalue a‖) S) ∧
      ∀ i < ops.cols, ∀ j < ops.rows, ∀ k < ops.rows, ∀ l < ops.cols,
        K (((i * ops.rows + j) * ops.rows + k) * ops.cols + l) - K' (((i * ops.rows + j) * ops.rows + k) * ops.cols + l) =
          ∑ a ∈ range ops.count \ S, ops.eigenvalue a *
            (starRingEnd ℂ) (ops.data (a * (ops.rows * ops.cols) + (j * ops.cols + i))) *
            ops.data (a * (ops.rows * ops.cols) + (k * ops.cols + l)) := by
  rw [hN] at ho
  have hcond : List.range t ≠ [] ∧ ∀ s ∈ List.range t, s < ops.values ∧ order (ops.values - 1 - s) < ops.count := by
    refine ⟨by simp; omega, fun s hs => ?_⟩
    have := List.mem_range.1 hs
    rw [hN]
    exact ⟨by omega, ho.1 _ (by omega)⟩
  have htr : truncateOperators order ops (List.range t) = some _ := if_pos hcond
  obtain ⟨K, hK, hv⟩ := getFullKernel_entries ops hN
  obtain ⟨K', hK', hv'⟩ := getFullKernel_entries (⟨(List.range t).length, ops.rows, ops.cols, flatten (ops.rows * ops.cols)
    fun a p => ops.data (order (ops.values - 1 - (List.range t).getD a 0) * (ops.rows * ops.cols) + p), (List.range t).length,
    fun a => ops.eigenvalue (order (ops.values - 1 - (List.range t).getD a 0))⟩ : NoiseOperators) rfl
  have htop := topIndices_isTop ho htN
  refine ⟨_, K, K', topIndices ops.count t order, htr, List.length_range, hK, hK', htop, fun hpos => ?_,
    fun i hi j hj k hk l hl => ?_⟩
  · have hre : ∀ a < ops.count, ‖ops.eigenvalue a‖ = (ops.eigenvalue a).re := fun a ha => by
      rw [Complex.norm_def, Complex.normSq_apply, (hpos a ha).2, mul_zero, add_zero, Real.sqrt_mul_self (hpos a ha).1]
    refine ⟨htop.1, htop.2.1, fun a ha b hb hbn => ?_⟩
    beta_reduce
    rw [hre a (mem_range.1 (htop.1 ha)), hre b hb]
    exact htop.2.2 a ha b hb hbn
  · rw [hv i hi j hj k hk l hl, hv' i hi j hj k hk l hl, sub_eq_iff_eq_add]
    dsimp only
    rw [List.length_range]
    refine (sum_sdiff htop.1).symm.trans ?_
    congr 1
    rw [sum_topIndices ho htN]
    refine sum_congr rfl fun a _ => ?_
    rw [flatten_entry _ _ (add_mul_lt hj hi), flatten_entry _ _ (add_mul_lt hk hl), hN]

/-- **C62** for `truncate_noise_kernel`: the truncated kernel of a Hermitian kernel misses the dropped eigenvalues, which are those
smallest with sign, so it can be further from the kernel than the truncation to largest moduli. -/
theorem C62_kernel_partial (eigh : ∀ N, Matrix (Fin N) (Fin N) ℂ → EigResult) (argsort : ℕ → (ℕ → ℂ) → ℕ → ℕ) (n : ℕ) (K : ℕ → ℂ)
    (hd : ∀ i < n, ∀ j < n, ∀ k < n, ∀ l < n, K (((i * n + j) * n + k) * n + l) =
      (starRingEnd ℂ) (K (((l * n + k) * n + j) * n + i)))
    (he : ∀ M : Matrix (Fin (n * n)) (Fin (n * n)) ℂ, M.conjTranspose = M →
      IsEigh (n * n) (n * n) M (eigh (n * n) M).eigenvalues (eigh (n * n) M).vectors)
    (ha : ∀ N key, IsArgsort N (fun a => (key a).re) (argsort N key)) (t : ℕ) (ht : 0 < t) (htN : t ≤ n * n) :
    ∃ K' lam S, truncateKernel eigh argsort n K (List.range t) = some K' ∧ IsTop (n * n) t lam S ∧
      ∑ p ∈ range (n * n), ∑ q ∈ range (n * n), ‖K (p * (n * n) + q) - K' (p * (n * n) + q)‖ ^ 2 =
        ∑ a ∈ range (n * n) \ S, lam a ^ 2 := by
  obtain ⟨ops, hops, hcount, hvalues, hrows, hcols, hreal, horth, K0, hK0, hKK⟩ := C56_full eigh n K hd he
  obtain ⟨ops', K1, K', S, htr, -, hK1, hK', htop, -, hdiff⟩ := C62_full_partial ops (by rw [hvalues, hcount])
    (argsort ops.values ops.eigenvalue) (ha _ _) t ht (by rw [hcount]; exact htN)
  obtain rfl : K0 = K1 := by rw [hK0] at hK1; exact Option.some.inj hK1
  rw [hcount] at htop hdiff
  rw [hrows, hcols] at hdiff
  refine ⟨K', fun a => (ops.eigenvalue a).re, S, ?_, htop, ?_⟩
  · rw [truncateKernel, hops, Option.bind_some, htr, Option.bind_some, hK']
  · have h1 := noiseKernel_frobenius (range (n * n) \ S) (n * n) ops.eigenvalue (fun a p => ops.data (a * (n * n) + p))
      fun a ha b hb => horth a (mem_range.1 (mem_sdiff.1 ha).1) b (mem_range.1 (mem_sdiff.1 hb).1)
    have h2 : ∑ a ∈ range (n * n) \ S, ‖ops.eigenvalue a‖ ^ 2 = ∑ a ∈ range (n * n) \ S, (ops.eigenvalue a).re ^ 2 := by
      refine sum_congr rfl fun a ha => ?_
      rw [← Complex.normSq_eq_norm_sq, Complex.normSq_apply, hreal a (mem_range.1 (mem_sdiff.1 ha).1)]
      ring
    rw [← h2, ← h1]
    have hn : 0 < n := Nat.pos_of_ne_zero fun h => by subst h; omega
    -- the rows of the kernel are permuted: entry `(i, j)` of the kernel is row `(j, i)` of the matrix
    have key : ∀ p < n * n, ∀ q < n * n, ‖K (p * (n * n) + q) - K' (p * (n * n) + q)‖ ^ 2 =
        ‖noiseKernel (range (n * n) \ S) ops.eigenvalue (fun a p => ops.data (a * (n * n) + p)) (p % n * n + p / n) q‖ ^ 2 := by
      intro p hp q hq
      have hp1 := Nat.div_lt_of_lt_mul hp
      have hq1 := Nat.div_lt_of_lt_mul hq
      have hp2 := Nat.mod_lt p hn
      have hq2 := Nat.mod_lt q hn
      have e : ∀ c q : ℕ, (c * n + q / n) * n + q % n = c * (n * n) + q := fun c q => by
        conv_rhs => rw [← Nat.div_add_mod' q n]
        ring
      have := hdiff (p / n) hp1 (p % n) hp2 (q / n) hq1 (q % n) hq2
      rw [e, Nat.div_add_mod', Nat.div_add_mod'] at this
      rw [← hKK _ (add_mul_lt hp hq), this]
      rfl
    rw [sum_congr rfl fun p hp => sum_congr rfl fun q hq => key p (mem_range.1 hp) q (mem_range.1 hq)]
    have hswap : ∀ f : ℕ → ℝ, ∑ p ∈ range (n * n), f (p % n * n + p / n) = ∑ p ∈ range (n * n), f p := by
      intro f
      refine sum_nbij' (fun p => p % n * n + p / n) (fun p => p % n * n + p / n) ?_ ?_ ?_ ?_ fun _ _ => rfl
      · intro p hp
        exact mem_range.2 (add_mul_lt (Nat.mod_lt _ hn) (Nat.div_lt_of_lt_mul (mem_range.1 hp)))
      · intro p hp
        exact mem_range.2 (add_mul_lt (Nat.mod_lt _ hn) (Nat.div_lt_of_lt_mul (mem_range.1 hp)))
      all_goals
        intro p hp
        have hp1 := Nat.div_lt_of_lt_mul (mem_range.1 hp)
        beta_reduce
        have f1 : (p % n * n + p / n) % n = p / n := by
          rw [Nat.mul_comm, Nat.mul_add_mod, Nat.mod_eq_of_lt hp1]
        have f2 : (p % n * n + p / n) / n = p % n := by
          rw [Nat.mul_comm, Nat.mul_add_div hn, Nat.div_eq_of_lt hp1, add_zero]
        rw [f1, f2, Nat.div_add_mod']
    exact hswap fun p => ∑ q ∈ range (n * n), ‖noiseKernel (range (n * n) \ S) ops.eigenvalue
      (fun a p => ops.data (a * (n * n) + p)) p q‖ ^ 2

/-- C62 read as "the operators of largest modulus" is false of the full operators: of two operators with the eigenvalues `1` and
`-2` the first is kept. The diagonal operators with the same eigenvalues keep the second. -/
theorem C62_modulus_negation : ∃ (full : NoiseOperators) (diag : DiagonalNoiseOperators) (order order' : ℕ → ℕ),
    full.eigenvalue = diag.eigenvalue ∧ full.values = diag.values ∧ full.values = full.count ∧ diag.values = diag.count ∧
    IsArgsort full.values (fun a => (full.eigenvalue a).re) order ∧ IsArgsort diag.values (fun a => ‖diag.eigenvalue a‖) order' ∧
    (∃ kept, truncateOperators order full [0] = some kept ∧ kept.eigenvalue 0 = 1) ∧
    (∃ kept, truncateDiagonalOperators order' diag [0] = some kept ∧ kept.eigenvalue 0 = -2) := by
  refine ⟨⟨2, 1, 1, fun _ => 1, 2, fun a => if a = 0 then 1 else -2⟩, ⟨2, 1, fun _ => 1, 2, fun a => if a = 0 then 1 else -2⟩,
    fun a => 1 - a, fun a => a, rfl, rfl, rfl, rfl, ⟨?_, ?_, ?_⟩, ⟨?_, ?_, ?_⟩, ⟨_, if_pos ?_, ?_⟩, ⟨_, if_pos ?_, ?_⟩⟩
  · intro a ha; show 1 - a < 2; omega
  · intro a ha b hb h; dsimp only at *; omega
  · intro a b hab hb
    dsimp only at *
    obtain rfl | rfl : b = 0 ∨ b = 1 := by omega
    · obtain rfl : a = 0 := by omega
      exact le_refl _
    · obtain rfl | rfl : a = 0 ∨ a = 1 := by omega
      · norm_num
      · exact le_refl _
  · intro a ha; exact ha
  · intro a ha b hb h; exact h
  · intro a b hab hb
    dsimp only at *
    obtain rfl | rfl : b = 0 ∨ b = 1 := by omega
    · obtain rfl : a = 0 := by omega
      exact le_refl _
    · obtain rfl | rfl : a = 0 ∨ a = 1 := by omega
      · norm_num
      · exact le_refl _
  · simp
  · simp
  · simp
  · simp

/-- C62 is false of `truncate_diagonal_noise_kernel`: for more than one grid point it always raises, whatever is kept (the
diagonal operators it computes are handed to a function for full operators). -/
theorem C62_diagonal_kernel_negation (eigh : ∀ N, Matrix (Fin N) (Fin N) ℂ → EigResult) (argsort : ℕ → (ℕ → ℝ) → ℕ → ℕ) (n : ℕ)
    (hn : 1 < n) (d : ℕ → ℂ) (truncation : List ℕ) : truncateDiagonalKernel eigh argsort n d truncation = none := by
  unfold truncateDiagonalKernel
  rw [Option.bind_eq_none_iff]
  intro ops hops
  rw [Option.bind_eq_none_iff]
  intro t ht
  have hdim : ops.dim = n := by
    unfold diagonalEigenOperators at hops
    dsimp only at hops
    split_ifs at hops
    rw [← Option.some.inj hops]
  unfold truncateDiagonalOperators at ht
  dsimp only at ht
  split_ifs at ht with h
  have e := Option.some.inj ht
  have hd : t.dim = n := by rw [← e]; exact hdim
  have hc : t.count = truncation.length := by rw [← e]
  have hpos : 0 < truncation.length := List.length_pos_iff.2 h.1
  unfold reinterpretAsFull
  rw [if_neg, Option.bind_none]
  rw [hd, hc]
  intro heq
  have := Nat.eq_of_mul_eq_mul_left hpos heq
  nlinarith

/-- A list of three eigenvalues of both signs and its order by modulus. -/
example : IsArgsort 3 (fun a => ‖(if a = 0 then (3 : ℂ) else if a = 1 then -1 else 2)‖) (fun a => if a = 0 then 1 else
    if a = 1 then 2 else 0) := by
  refine ⟨fun a ha => ?_, fun a ha b hb h => ?_, fun a b hab hb => ?_⟩
  · obtain rfl | rfl | rfl : a = 0 ∨ a = 1 ∨ a = 2 := by omega
    all_goals simp
  · obtain rfl | rfl | rfl : a = 0 ∨ a = 1 ∨ a = 2 := by omega
    all_goals obtain rfl | rfl | rfl : b = 0 ∨ b = 1 ∨ b = 2 := by omega
    all_goals simp at h ⊢
  · obtain rfl | rfl | rfl : a = 0 ∨ a = 1 ∨ a = 2 := by omega
    all_goals obtain rfl | rfl | rfl : b = 0 ∨ b = 1 ∨ b = 2 := by omega
    all_goals first | omega | norm_num

end Verif
