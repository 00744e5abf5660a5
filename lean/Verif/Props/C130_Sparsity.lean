import Verif.Model.PlotLists
import Verif.Props.C112_TightBindingState

/-!
# C130: plots of the sparsity of an operator
-/

set_option autoImplicit false

namespace Verif

open Finset Spec

/-- **C130.** Entry `(r, c)` of an operator is entry `c` of the diagonal number `(c - r) mod n`, and of no other diagonal at this position. -/
theorem C130_diagonals (n : ℕ) (data : ℕ → ℂ) :
    (∀ i < n, ∀ j < n, ∃ r < n, (n : ℤ) ∣ (j : ℤ) - r - i ∧ plotOperatorDiagonals n data i j = data (r * n + j)) ∧
      ∀ r < n, ∀ c < n, ∃ i < n, plotOperatorDiagonals n data i c = data (r * n + c) ∧ (n : ℤ) ∣ (c : ℤ) - r - i := by
  have key : ∀ i < n, ∀ j < n, ∀ r < n, (n : ℤ) ∣ (j : ℤ) - r - i → plotOperatorDiagonals n data i j = data (r * n + j) := by
    intro i _ j _ r hr h
    unfold plotOperatorDiagonals roll
    have : (((j : ℤ) - i) % (n : ℤ)).toNat = r := by
      obtain ⟨q, hq⟩ := h
      have : (j : ℤ) - i = r + n * q := by linarith
      rw [this, Int.add_mul_emod_self_left, Int.emod_eq_of_lt (by positivity) (by exact_mod_cast hr), Int.toNat_natCast]
    rw [this]
  have ex : ∀ i < n, ∀ j : ℕ, ∃ r < n, (n : ℤ) ∣ (j : ℤ) - r - i := by
    intro i hi j
    have hn : (0 : ℤ) < n := by exact_mod_cast (by omega : 0 < n)
    have h0 := Int.emod_nonneg ((j : ℤ) - i) hn.ne'
    have h1 := Int.emod_lt_of_pos ((j : ℤ) - i) hn
    refine ⟨(((j : ℤ) - i) % n).toNat, by omega, ?_⟩
    rw [Int.toNat_of_nonneg h0]
    have := Int.emod_add_mul_ediv ((j : ℤ) - i) n
    exact ⟨((j : ℤ) - i) / n, by linarith⟩
  refine ⟨fun i hi j hj => ?_, fun r hr c hc => ?_⟩
  · obtain ⟨r, hr, h⟩ := ex i hi j
    exact ⟨r, hr, h, key i hi j hj r hr h⟩
  · obtain ⟨i, hi, h⟩ := ex r hr c
    have h' : (n : ℤ) ∣ (c : ℤ) - r - i := by
      obtain ⟨q, hq⟩ := h
      exact ⟨q, by linarith⟩
    exact ⟨i, hi, key i hi c hc r hr h', h'⟩

/-- **C130.** The squared norms of the diagonals add up to the squared norm of the operator: each entry is on one diagonal. -/
theorem C130_norm (n : ℕ) (data : ℕ → ℂ) :
    ∑ i ∈ range n, ∑ j ∈ range n, ‖plotOperatorDiagonals n data i j‖ ^ 2 = ∑ r ∈ range n, ∑ c ∈ range n, ‖data (r * n + c)‖ ^ 2 := by
  rw [sum_comm, sum_comm (s := range n) (t := range n) (f := fun r c => ‖data (r * n + c)‖ ^ 2)]
  refine sum_congr rfl fun j _ => ?_
  rcases Nat.eq_zero_or_pos n with rfl | hn
  · simp
  have hn' : (0 : ℤ) < n := by exact_mod_cast hn
  have inv : ∀ i : ℕ, i < n → (((j : ℤ) - ((((j : ℤ) - i) % (n : ℤ)).toNat : ℕ)) % (n : ℤ)).toNat = i := by
    intro i hi
    rw [Int.toNat_of_nonneg (Int.emod_nonneg _ hn'.ne'), Int.sub_emod, Int.emod_emod, ← Int.sub_emod, sub_sub_cancel,
      Int.emod_eq_of_lt (by positivity) (by exact_mod_cast hi), Int.toNat_natCast]
  have lt : ∀ i : ℕ, (((j : ℤ) - i) % (n : ℤ)).toNat ∈ range n := by
    intro i
    have h0 := Int.emod_nonneg ((j : ℤ) - i) hn'.ne'
    have h1 := Int.emod_lt_of_pos ((j : ℤ) - i) hn'
    exact mem_range.2 (by omega)
  exact sum_nbij' (fun i => (((j : ℤ) - i) % (n : ℤ)).toNat) (fun i => (((j : ℤ) - i) % (n : ℤ)).toNat) (fun i _ => lt i) (fun i _ => lt i)
    (fun i hi => inv i (mem_range.1 hi)) (fun i hi => inv i (mem_range.1 hi)) fun i _ => rfl

theorem sparsityEdges_mono {top : ℝ} (h : (10 : ℝ) ^ (-22 : ℝ) ≤ top) : Monotone (sparsityEdges top) := by
  intro i j hij
  unfold sparsityEdges
  refine Real.rpow_le_rpow_of_exponent_le (by norm_num) ?_
  have h0 : 0 ≤ Real.logb 10 top - -22 := by
    rw [sub_nonneg, Real.le_logb_iff_rpow_le (by norm_num) (lt_of_lt_of_le (Real.rpow_pos_of_pos (by norm_num) _) h)]
    exact h
  have : (i : ℝ) ≤ j := by exact_mod_cast hij
  nlinarith [mul_le_mul_of_nonneg_right this (div_nonneg h0 (by norm_num : (0 : ℝ) ≤ 9999))]

theorem sparsityEdges_zero (top : ℝ) : sparsityEdges top 0 = (10 : ℝ) ^ (-22 : ℝ) := by
  simp [sparsityEdges]

theorem sparsityEdges_last {top : ℝ} (h : 0 < top) : sparsityEdges top 9999 = top := by
  unfold sparsityEdges
  rw [show (-22 : ℝ) + (9999 : ℕ) * ((Real.logb 10 top - -22) / 9999) = Real.logb 10 top by push_cast; ring]
  exact Real.rpow_logb (by norm_num) (by norm_num) h

/-- The bins up to one of them count what lies between the first edge and the upper edge of this bin. -/
theorem sum_histogram (count : ℕ) (values : ℕ → ℝ) (bins : ℕ) (edges : ℕ → ℝ) (hm : Monotone edges) : ∀ i < bins,
    ∑ b ∈ range (i + 1), histogram count values bins edges b = histogram count values (if i + 1 = bins then 1 else 2)
      (fun k => if k = 0 then edges 0 else edges (i + 1)) 0 := by
  classical
  intro i hi
  unfold histogram
  have hdis : ((range (i + 1) : Finset ℕ) : Set ℕ).PairwiseDisjoint fun b => (range count).filter fun k => edges b ≤ values k ∧
      (values k < edges (b + 1) ∨ b + 1 = bins ∧ values k ≤ edges (b + 1)) := by
    intro b hb b' hb' hne
    refine disjoint_filter.2 fun k _ h1 h2 => ?_
    have hb1 : b < i + 1 := by simpa using hb
    have hb2 : b' < i + 1 := by simpa using hb'
    rcases Nat.lt_or_gt_of_ne hne with h | h
    · have := hm (show b + 1 ≤ b' by omega)
      rcases h1.2 with h3 | h3
      · linarith [h2.1]
      · omega
    · have := hm (show b' + 1 ≤ b by omega)
      rcases h2.2 with h3 | h3
      · linarith [h1.1]
      · omega
  rw [← card_biUnion hdis]
  congr 1
  ext k
  simp only [mem_biUnion, mem_filter, mem_range, if_true, Nat.zero_add, one_ne_zero, if_false]
  constructor
  · rintro ⟨b, hb, hk, h1, h2⟩
    refine ⟨hk, (hm (Nat.zero_le b)).trans h1, ?_⟩
    rcases h2 with h2 | h2
    · exact Or.inl (lt_of_lt_of_le h2 (hm (by omega)))
    · have : b = i := by omega
      subst this
      rw [if_pos h2.1]
      exact Or.inr ⟨rfl, h2.2⟩
  · rintro ⟨hk, h1, h2⟩
    have hlt : values k < edges (i + 1) → ∃ b < i + 1, k < count ∧ edges b ≤ values k ∧ (values k < edges (b + 1) ∨ b + 1 = bins ∧ values k ≤ edges (b + 1)) := by
      intro h
      have hex : ∃ b, values k < edges (b + 1) := ⟨i, h⟩
      refine ⟨Nat.find hex, by have := Nat.find_min' hex h; omega, hk, ?_, Or.inl (Nat.find_spec hex)⟩
      rcases hz : Nat.find hex with _ | m
      · exact h1
      · have := Nat.find_min hex (show m < Nat.find hex by omega)
        exact not_lt.1 this
    rcases h2 with h2 | ⟨h2, h3⟩
    · exact hlt h2
    · by_cases hb : i + 1 = bins
      · rcases lt_or_ge (values k) (edges (i + 1)) with h | h
        · exact hlt h
        · exact ⟨i, by omega, hk, (hm (by omega)).trans h, Or.inr ⟨hb, h3⟩⟩
      · rw [if_neg hb] at h2
        omega

namespace Spec

/-- The points of a plot of sparsity of the given values: 9999 of them at increasing positions from `10⁻²²` on, each with the number of values from `10⁻²²` on
which are below the next point (at the last point, of all the values from `10⁻²²` on). -/
def CountsValues (count : ℕ) (values : ℕ → ℝ) (points : ℕ) (x : ℕ → ℝ) (y : ℕ → ℕ) : Prop :=
  points = 9999 ∧ x 0 = (10 : ℝ) ^ (-22 : ℝ) ∧ Monotone x ∧
    (∀ i, i + 1 < 9999 → y i = Nat.card {k // k < count ∧ (10 : ℝ) ^ (-22 : ℝ) ≤ values k ∧ values k < x (i + 1)}) ∧
    y 9998 = Nat.card {k // k < count ∧ (10 : ℝ) ^ (-22 : ℝ) ≤ values k}

end Spec

theorem plotSparsity_counts (count : ℕ) (values : ℕ → ℝ) (h : ∃ k < count, (10 : ℝ) ^ (-22 : ℝ) ≤ values k) :
    ∃ points x y, plotSparsity count values = some (points, x, y) ∧ CountsValues count values points x y := by
  classical
  obtain ⟨k, hk, hv⟩ := h
  obtain ⟨ha, hmax⟩ := argmaxReal_spec values (count - 1)
  set top := values (argmaxReal values (count - 1)) with htopd
  have htop : (10 : ℝ) ^ (-22 : ℝ) ≤ top := hv.trans (hmax k (by omega))
  have hpos : (0 : ℝ) < top := lt_of_lt_of_le (Real.rpow_pos_of_pos (by norm_num) _) htop
  have hm := sparsityEdges_mono htop
  have h0 := sparsityEdges_zero top
  refine ⟨9999, sparsityEdges top, fun i => ∑ b ∈ range (i + 1), histogram count values 9999 (sparsityEdges top) b, ?_, rfl, h0, hm, fun i hi => ?_, ?_⟩
  · unfold plotSparsity
    rw [if_neg (by omega), if_neg (not_lt.2 htop)]
  · dsimp only
    rw [sum_histogram count values 9999 _ hm i (by omega), if_neg (by omega)]
    unfold histogram
    exact (Nat.subtype_card _ fun k => by simp [h0]).symm
  · dsimp only
    rw [sum_histogram count values 9999 _ hm 9998 (by omega), if_pos (by rfl)]
    unfold histogram
    refine (Nat.subtype_card _ fun k => ?_).symm
    simp only [mem_filter, mem_range, if_true, zero_add, one_ne_zero, if_false, h0, true_and]
    refine and_congr_right fun hk => and_iff_left ?_
    right
    rw [show 9998 + 1 = 9999 from rfl, sparsityEdges_last hpos]
    exact hmax k (by omega)

/-- **C130.** The plot of the sparsity of an operator with an entry of absolute value at least `10⁻²²` counts the entries by their absolute value. -/
theorem C130_operator_partial (n : ℕ) (data : ℕ → ℂ) (h : ∃ k < n * n, (10 : ℝ) ^ (-22 : ℝ) ≤ ‖data k‖) :
    ∃ points x y, plotOperatorSparsity n data .abs = some (points, x, y) ∧ CountsValues (n * n) (fun k => ‖data k‖) points x y :=
  plotSparsity_counts (n * n) (fun k => ‖data k‖) h

/-- **C130.** The plot of the sparsity of the diagonals counts them by their norm. -/
theorem C130_diagonal_partial (n : ℕ) (data : ℕ → ℂ) (h : ∃ k < n * n, (10 : ℝ) ^ (-22 : ℝ) ≤ ‖data k‖) :
    ∃ (size : ℕ → ℝ) (points : ℕ) (x : ℕ → ℝ) (y : ℕ → ℕ), plotOperatorDiagonalSparsity n data = some (points, x, y) ∧ CountsValues n size points x y ∧
      (∀ i, 0 ≤ size i) ∧ ∀ i < n, size i ^ 2 = ∑ r ∈ range n, ∑ c ∈ range n, if (n : ℤ) ∣ (c : ℤ) - r - i then ‖data (r * n + c)‖ ^ 2 else 0 := by
  have hn : 0 < n := by
    obtain ⟨k, hk, -⟩ := h
    exact Nat.pos_of_ne_zero fun h => by simp [h] at hk
  have hd : ∃ i < n, (10 : ℝ) ^ (-22 : ℝ) ≤ Real.sqrt (∑ j ∈ range n, ‖plotOperatorDiagonals n data i j‖ ^ 2) := by
    obtain ⟨k, hk, hv⟩ := h
    obtain ⟨i, hi, he, -⟩ := (C130_diagonals n data).2 (k / n) (Nat.div_lt_of_lt_mul hk) (k % n) (Nat.mod_lt _ hn)
    refine ⟨i, hi, hv.trans (Real.le_sqrt_of_sq_le ?_)⟩
    refine le_trans (le_of_eq ?_) (single_le_sum (f := fun j => ‖plotOperatorDiagonals n data i j‖ ^ 2) (fun j _ => sq_nonneg _) (mem_range.2 (Nat.mod_lt k hn)))
    rw [he, show k / n * n + k % n = k by rw [mul_comm]; exact Nat.div_add_mod k n]
  obtain ⟨points, x, y, h1, h2⟩ := plotSparsity_counts n _ hd
  refine ⟨_, points, x, y, h1, h2, fun i => Real.sqrt_nonneg _, fun i hi => ?_⟩
  rw [Real.sq_sqrt (sum_nonneg fun j _ => sq_nonneg _), sum_comm]
  refine sum_congr rfl fun j hj => ?_
  obtain ⟨r, hr, hdvd, he⟩ := (C130_diagonals n data).1 i hi j (mem_range.1 hj)
  rw [he, sum_eq_single_of_mem r (mem_range.2 hr), if_pos hdvd]
  intro r' hr' hne
  rw [if_neg]
  intro h'
  refine hne ((dvd_sub_iff_eq (mem_range.1 hr') hr).1 ?_)
  obtain ⟨q, hq⟩ := hdvd
  obtain ⟨q', hq'⟩ := h'
  exact ⟨q - q', by linarith⟩

/-- **C130** (negation). The number drawn at a value is not the number of entries up to this value: for the operator with the only entry 1 the last point is below
1 and shows one entry. -/
theorem C130_operator_negation : ∃ (n : ℕ) (data : ℕ → ℂ) (points : ℕ) (x : ℕ → ℝ) (y : ℕ → ℕ), plotOperatorSparsity n data .abs = some (points, x, y) ∧
    y 9998 = 1 ∧ ∀ k < n * n, x 9998 < ‖data k‖ := by
  have hle : (10 : ℝ) ^ (-22 : ℝ) ≤ ‖(1 : ℂ)‖ := by
    rw [norm_one]
    exact Real.rpow_le_one_of_one_le_of_nonpos (by norm_num) (by norm_num)
  have hcount := plotSparsity_counts (1 * 1) (fun _ => ‖(1 : ℂ)‖) ⟨0, by decide, hle⟩
  obtain ⟨points, x, y, h1, h2⟩ := hcount
  refine ⟨1, fun _ => 1, points, x, y, h1, ?_, fun k _ => ?_⟩
  · rw [h2.2.2.2.2]
    simp only [hle, and_true]
    exact (Nat.subtype_card {0} fun k => by simp).trans rfl
  · unfold plotSparsity at h1
    rw [if_neg (by decide), if_neg (not_lt.2 hle)] at h1
    have hx : x = sparsityEdges ‖(1 : ℂ)‖ := ((Prod.mk.inj (Prod.mk.inj (Option.some.inj h1)).2).1).symm
    rw [hx, norm_one]
    unfold sparsityEdges
    rw [Real.logb_one]
    exact Real.rpow_lt_one_of_one_lt_of_neg (by norm_num) (by norm_num)

/-- The operator `[[1, 0], [2, 3]]`: the second diagonal is made of the entries 2 and 0. -/
example : plotOperatorDiagonals 2 (fun k => if k = 0 then 1 else if k = 1 then 0 else if k = 2 then 2 else 3) 1 0 = 2 ∧
    plotOperatorDiagonals 2 (fun k => if k = 0 then 1 else if k = 1 then 0 else if k = 2 then 2 else 3) 1 1 = 0 := by
  constructor <;> rfl

end Verif
