import Verif.Model.PlotDistribution
import Verif.Props.C105_Spread
import Verif.Props.C130_Sparsity

/-!
# C156: histograms of values
-/

set_option autoImplicit false

namespace Verif

open Finset Spec

namespace Spec

/-- Bars for `count` values: consecutive even bins from `lo` to `hi`, whose areas are the fractions of the values between `lo` and `hi` which are in the bin
(the last bin includes its upper edge). -/
def IsDensityHistogram (count : ℕ) (values : ℕ → ℝ) (lo hi : ℝ) (h : DrawnHistogram) : Prop :=
  0 < h.bins ∧ lo < hi ∧ h.edges 0 = lo ∧ h.edges h.bins = hi ∧ (∀ i < h.bins, h.edges (i + 1) - h.edges i = (hi - lo) / h.bins) ∧
    ∀ i < h.bins, h.heights i * (h.edges (i + 1) - h.edges i) * Nat.card {k // k < count ∧ lo ≤ values k ∧ values k ≤ hi} =
      Nat.card {k // k < count ∧ h.edges i ≤ values k ∧ (values k < h.edges (i + 1) ∨ i + 1 = h.bins ∧ values k = hi)}

end Spec

/-! ## Helpers -/

theorem plotHistogram_spec (count : ℕ) (values : ℕ → ℝ) (bins : ℕ) (hb : 0 < bins) (lo hi : ℝ) (hle : lo ≤ hi)
    (hex : ∃ k < count, lo ≤ values k ∧ values k ≤ hi) :
    ∃ lo' hi', lo' ≤ lo ∧ hi ≤ hi' ∧ (lo < hi → lo' = lo ∧ hi' = hi) ∧ (plotHistogram count values bins lo hi).bins = bins ∧
      IsDensityHistogram count values lo' hi' (plotHistogram count values bins lo hi) ∧
      ∑ i ∈ range bins, (plotHistogram count values bins lo hi).heights i *
        ((plotHistogram count values bins lo hi).edges (i + 1) - (plotHistogram count values bins lo hi).edges i) = 1 := by
  classical
  obtain ⟨first, hf⟩ : ∃ x, x = if lo = hi then lo - 1 / 2 else lo := ⟨_, rfl⟩
  obtain ⟨last, hl⟩ : ∃ x, x = if lo = hi then hi + 1 / 2 else hi := ⟨_, rfl⟩
  have h1 : first ≤ lo := by rw [hf]; split_ifs <;> linarith
  have h2 : hi ≤ last := by rw [hl]; split_ifs <;> linarith
  have hlt : first < last := by
    rw [hf, hl]
    split_ifs with h
    · linarith
    · exact lt_of_le_of_ne hle h
  have hbr : (0 : ℝ) < bins := by exact_mod_cast hb
  obtain ⟨width, hw⟩ : ∃ x, x = (last - first) / bins := ⟨_, rfl⟩
  have hwp : 0 < width := by rw [hw]; exact div_pos (sub_pos.2 hlt) hbr
  obtain ⟨edges, he⟩ : ∃ e : ℕ → ℝ, e = fun i : ℕ => first + i * width := ⟨_, rfl⟩
  have e0 : edges 0 = first := by rw [he]; simp
  have el : edges bins = last := by rw [he, hw]; field_simp; ring
  have hstep : ∀ i, edges (i + 1) - edges i = width := fun i => by rw [he]; push_cast; ring
  have hm : Monotone edges := monotone_nat_of_le_succ fun i => by linarith [hstep i]
  have hform : plotHistogram count values bins lo hi = ⟨bins, edges, fun i => histogram count values bins edges i / width /
      ((∑ b ∈ range bins, histogram count values bins edges b : ℕ) : ℝ)⟩ := by
    unfold plotHistogram
    simp only [← hf, ← hl, ← hw, ← he]
  obtain ⟨m, rfl⟩ : ∃ m, bins = m + 1 := ⟨bins - 1, by omega⟩
  have htotal : ∑ b ∈ range (m + 1), histogram count values (m + 1) edges b = Nat.card {k // k < count ∧ first ≤ values k ∧ values k ≤ last} := by
    rw [sum_histogram count values (m + 1) edges hm m (by omega), if_pos rfl]
    unfold histogram
    refine (Nat.subtype_card _ fun k => ?_).symm
    simp only [mem_filter, mem_range, if_true, zero_add, one_ne_zero, if_false, e0, el, true_and]
    refine and_congr_right fun _ => and_congr_right fun _ => ⟨fun h => ?_, fun h => Or.inr h⟩
    rcases h with h | h
    · exact h.le
    · exact h
  have hpos : 0 < Nat.card {k // k < count ∧ first ≤ values k ∧ values k ≤ last} := by
    rw [← htotal]
    rw [htotal]
    obtain ⟨k, hk, k1, k2⟩ := hex
    have : Finite {k // k < count ∧ first ≤ values k ∧ values k ≤ last} :=
      Set.Finite.subset (Set.finite_Iio count) (fun x hx => hx.1)
    have : Nonempty {k // k < count ∧ first ≤ values k ∧ values k ≤ last} := ⟨⟨k, hk, h1.trans k1, k2.trans h2⟩⟩
    exact Nat.card_pos
  have hposr : (0 : ℝ) < (Nat.card {k // k < count ∧ first ≤ values k ∧ values k ≤ last} : ℕ) := by exact_mod_cast hpos
  refine ⟨first, last, h1, h2, fun h => ⟨by rw [hf, if_neg h.ne], by rw [hl, if_neg h.ne]⟩, by rw [hform], ?_, ?_⟩
  · rw [hform]
    refine ⟨hb, hlt, e0, el, fun i _ => by rw [hstep, hw], fun i hi' => ?_⟩
    dsimp only
    rw [hstep, htotal]
    have hcount : histogram count values (m + 1) edges i =
        Nat.card {k // k < count ∧ edges i ≤ values k ∧ (values k < edges (i + 1) ∨ i + 1 = m + 1 ∧ values k = last)} := by
      unfold histogram
      refine (Nat.subtype_card _ fun k => ?_).symm
      simp only [mem_filter, mem_range]
      refine and_congr_right fun _ => and_congr_right fun _ => ⟨fun h => ?_, fun h => ?_⟩
      · rcases h with h | ⟨h, h'⟩
        · exact Or.inl h
        · rcases lt_or_eq_of_le h' with h'' | h''
          · exact Or.inl h''
          · exact Or.inr ⟨h, by rw [h'', h, el]⟩
      · rcases h with h | ⟨h, h'⟩
        · exact Or.inl h
        · exact Or.inr ⟨h, by rw [h', h, el]⟩
    rw [hcount]
    field_simp
  · rw [hform]
    dsimp only
    simp_rw [hstep]
    rw [← sum_mul, ← sum_div, ← sum_div, ← Nat.cast_sum, htotal]
    field_simp

theorem std_sq (count : ℕ) (values : ℕ → ℝ) :
    listStd count values ^ 2 * count = ∑ i ∈ range count, (values i - listAverage count values) ^ 2 := by
  unfold listStd
  rw [Real.sq_sqrt (div_nonneg (sum_nonneg fun i _ => sq_nonneg _) (Nat.cast_nonneg _))]
  rcases Nat.eq_zero_or_pos count with rfl | h
  · simp
  · have : (count : ℝ) ≠ 0 := by exact_mod_cast h.ne'
    field_simp

/-- Chebyshev's inequality: at most one in sixteen values is further than four standard deviations from the average. -/
theorem outliers_le (count : ℕ) (values : ℕ → ℝ) :
    16 * Nat.card {k // k < count ∧ ¬ (listAverage count values - 4 * listStd count values ≤ values k ∧
      values k ≤ listAverage count values + 4 * listStd count values)} ≤ count := by
  classical
  obtain ⟨m, hm⟩ : ∃ m, m = listAverage count values := ⟨_, rfl⟩
  obtain ⟨s, hs⟩ : ∃ s, s = listStd count values := ⟨_, rfl⟩
  have hs0 : 0 ≤ s := by rw [hs]; exact Real.sqrt_nonneg _
  have hsum : s ^ 2 * count = ∑ i ∈ range count, (values i - m) ^ 2 := by rw [hs, hm]; exact std_sq count values
  rw [← hm, ← hs]
  have hcard : Nat.card {k // k < count ∧ ¬ (m - 4 * s ≤ values k ∧ values k ≤ m + 4 * s)} =
      ((range count).filter fun k => ¬ (m - 4 * s ≤ values k ∧ values k ≤ m + 4 * s)).card :=
    Nat.subtype_card _ fun k => by simp only [mem_filter, mem_range]
  rw [hcard]
  have hout : ∀ k ∈ (range count).filter (fun k => ¬ (m - 4 * s ≤ values k ∧ values k ≤ m + 4 * s)), 16 * s ^ 2 < (values k - m) ^ 2 := by
    intro k hk
    rw [mem_filter, not_and_or, not_le, not_le] at hk
    rcases hk.2 with h | h <;> nlinarith
  rcases hs0.eq_or_lt with h0 | hpos
  · have : (range count).filter (fun k => ¬ (m - 4 * s ≤ values k ∧ values k ≤ m + 4 * s)) = ∅ := by
      refine filter_eq_empty_iff.2 fun k hk hn => ?_
      have h1 := hout k (mem_filter.2 ⟨hk, hn⟩)
      have h2 : (values k - m) ^ 2 ≤ ∑ i ∈ range count, (values i - m) ^ 2 := single_le_sum (fun i _ => sq_nonneg (values i - m)) hk
      rw [← hsum, ← h0] at h2
      rw [← h0] at h1
      linarith
    rw [this]
    simp
  · have h1 : ((range count).filter fun k => ¬ (m - 4 * s ≤ values k ∧ values k ≤ m + 4 * s)).card • (16 * s ^ 2) ≤
        ∑ i ∈ (range count).filter (fun k => ¬ (m - 4 * s ≤ values k ∧ values k ≤ m + 4 * s)), (values i - m) ^ 2 :=
      card_nsmul_le_sum _ _ _ fun k hk => (hout k hk).le
    have h2 : ∑ i ∈ (range count).filter (fun k => ¬ (m - 4 * s ≤ values k ∧ values k ≤ m + 4 * s)), (values i - m) ^ 2 ≤
        ∑ i ∈ range count, (values i - m) ^ 2 := sum_le_sum_of_subset_of_nonneg (filter_subset _ _) fun i _ _ => sq_nonneg _
    rw [← hsum] at h2
    rw [nsmul_eq_mul] at h1
    have h3 : (((range count).filter fun k => ¬ (m - 4 * s ≤ values k ∧ values k ≤ m + 4 * s)).card : ℝ) * 16 ≤ count := by
      have hs2 : 0 < s ^ 2 := by positivity
      nlinarith
    have : (((16 * ((range count).filter fun k => ¬ (m - 4 * s ≤ values k ∧ values k ≤ m + 4 * s)).card : ℕ)) : ℝ) ≤ (count : ℝ) := by
      push_cast; linarith
    exact_mod_cast this

/-! ## Theorems -/

/-- **C156.** `plot_value_list_distribution` without a distribution: at least eleven even bins, which cover all the values; the areas of the bars are the fractions of the
values in their bins, and sum to one. -/
theorem C156_values (count : ℕ) (hc : 0 < count) (values : ℕ → ℝ) :
    ∃ h curve lo hi, plotValueDistribution count values false = some (h, curve) ∧ h.bins = max 11 (count / 100) ∧
      IsDensityHistogram count values lo hi h ∧ (∀ k < count, lo ≤ values k ∧ values k ≤ hi) ∧
      ((∃ j < count, ∃ k < count, values j ≠ values k) → (∃ k < count, values k = lo) ∧ ∃ k < count, values k = hi) ∧
      ∑ i ∈ range h.bins, h.heights i * (h.edges (i + 1) - h.edges i) = 1 := by
  obtain ⟨a1, a2⟩ := argmaxReal_spec (fun i => -values i) (count - 1)
  obtain ⟨b1, b2⟩ := argmaxReal_spec values (count - 1)
  set i0 := argmaxReal (fun i => -values i) (count - 1) with hi0
  set i1 := argmaxReal values (count - 1) with hi1
  have hlo : ∀ k < count, values i0 ≤ values k := fun k hk => by have := a2 k (by omega); linarith
  have hhi : ∀ k < count, values k ≤ values i1 := fun k hk => b2 k (by omega)
  obtain ⟨lo, hi, h1, h2, h3, h4, h5, h6⟩ := plotHistogram_spec count values (max 11 (count / 100)) (by omega) (values i0) (values i1)
    (hlo i1 (by omega)) ⟨i0, by omega, le_refl _, hhi i0 (by omega)⟩
  refine ⟨_, _, lo, hi, by unfold plotValueDistribution; rw [if_neg (by omega)]; rfl, rfl, h5,
    fun k hk => ⟨h1.trans (hlo k hk), (hhi k hk).trans h2⟩, ?_, h6⟩
  rintro ⟨j, hj, k, hk, hne⟩
  have hlt : values i0 < values i1 := by
    refine lt_of_le_of_ne (hlo i1 (by omega)) fun h => hne ?_
    have e1 : values j = values i0 := le_antisymm (h ▸ hhi j hj) (hlo j hj)
    have e2 : values k = values i0 := le_antisymm (h ▸ hhi k hk) (hlo k hk)
    rw [e1, e2]
  obtain ⟨e1, e2⟩ := h3 hlt
  exact ⟨⟨i0, by omega, e1.symm⟩, i1, by omega, e2.symm⟩

/-- **C156.** With a distribution the bins cover four standard deviations around the average, and the areas of the bars are the fractions in their bins of the values in this
range, which are at least 15 of 16 values; the curve is the density of the normal distribution with the average and the standard deviation of all the values.
Missing: that all the values are counted, which is false (`C156_fit_negation`). -/
theorem C156_fit_partial (count : ℕ) (hc : 0 < count) (values : ℕ → ℝ) (m s : ℝ) (hm : m * count = ∑ i ∈ range count, values i)
    (hs : s ^ 2 * count = ∑ i ∈ range count, (values i - m) ^ 2) (hs0 : 0 < s) :
    ∃ h curve, plotValueDistribution count values true = some (h, curve) ∧ h.bins = max 11 (count / 100) ∧
      IsDensityHistogram count values (m - 4 * s) (m + 4 * s) h ∧
      16 * Nat.card {k // k < count ∧ ¬ (m - 4 * s ≤ values k ∧ values k ≤ m + 4 * s)} ≤ count ∧
      ∑ i ∈ range h.bins, h.heights i * (h.edges (i + 1) - h.edges i) = 1 ∧
      curve.n = 1000 ∧ curve.coordinates 0 = m - 4 * s ∧ curve.coordinates 999 = m + 4 * s ∧
      (∀ i < 999, curve.coordinates (i + 1) - curve.coordinates i = 8 * s / 999) ∧
      ∀ i < 1000, curve.values i = (s * Real.sqrt (2 * Real.pi))⁻¹ * Real.exp (-(curve.coordinates i - m) ^ 2 / (2 * s ^ 2)) := by
  have hcr : (count : ℝ) ≠ 0 := by exact_mod_cast hc.ne'
  have em : listAverage count values = m := by
    unfold listAverage
    rw [← hm]
    field_simp
  have es : listStd count values = s := by
    unfold listStd
    rw [em, ← hs, mul_div_assoc, div_self hcr, mul_one, Real.sqrt_sq hs0.le]
  have hout := outliers_le count values
  rw [em, es] at hout
  have hex : ∃ k < count, m - 4 * s ≤ values k ∧ values k ≤ m + 4 * s := by
    by_contra hn
    push Not at hn
    have hcount : Nat.card {k // k < count ∧ ¬ (m - 4 * s ≤ values k ∧ values k ≤ m + 4 * s)} = count := by
      rw [Nat.subtype_card (range count) fun k => by
        rw [mem_range]
        exact ⟨fun h => ⟨h, fun h' => absurd h'.2 (not_le.2 (hn k h h'.1))⟩, fun h => h.1⟩, card_range]
    rw [hcount] at hout
    omega
  obtain ⟨lo, hi, h1, h2, h3, h4, h5, h6⟩ := plotHistogram_spec count values (max 11 (count / 100)) (by omega) (m - 4 * s) (m + 4 * s)
    (by linarith) hex
  obtain ⟨rfl, rfl⟩ := h3 (by linarith)
  refine ⟨plotHistogram count values (max 11 (count / 100)) (m - 4 * s) (m + 4 * s),
    ⟨1000, fun i : ℕ => m - 4 * s + i * ((m + 4 * s - (m - 4 * s)) / 999), fun i => normalPdf m s (m - 4 * s + i * ((m + 4 * s - (m - 4 * s)) / 999))⟩,
    by unfold plotValueDistribution; rw [if_neg (by omega), em, es]; rfl, rfl, h5, hout, h6, rfl, by simp, ?_, fun i _ => ?_, fun i _ => ?_⟩
  · push_cast; ring
  · push_cast; ring
  · dsimp only
    unfold normalPdf
    rw [div_pow, mul_inv, div_div, mul_comm (Real.sqrt (2 * Real.pi)) s, div_eq_mul_inv (Real.exp _), mul_comm (Real.exp _), mul_inv]
    congr 2
    field_simp

/-- **C156.** With a distribution values may be missing from the histogram: of the eighteen values 1, 0, 0, …, 0 the first is further than four standard deviations
from the average. -/
theorem C156_fit_negation : ∃ (values : ℕ → ℝ) (h : DrawnHistogram) (curve : DrawnLine), plotValueDistribution 18 values true = some (h, curve) ∧
    h.edges h.bins < values 0 := by
  obtain ⟨h, curve, h1, -, h2, -⟩ := C156_fit_partial 18 (by norm_num) (fun i => if i = 0 then 1 else 0) (1 / 18) (Real.sqrt 17 / 18)
    (by simp)
    (by
      rw [div_pow, Real.sq_sqrt (by norm_num)]
      simp [sum_range_succ]
      norm_num)
    (by positivity)
  refine ⟨_, h, curve, h1, ?_⟩
  rw [h2.2.2.2.1]
  have h : Real.sqrt 17 < 17 / 4 := by
    rw [Real.sqrt_lt' (by norm_num)]; norm_num
  simp only [if_true]
  linarith

/-- **C156.** For states on a grid along one axis `plot_k_distribution_1d` is this plot of the expectation values of the momentum of the states, and `plot_x_distribution_1d`
that of the expectation values of the position. Missing: several axes, see `C106_negation`. -/
theorem C156_states_partial (same : Basis → Basis → Bool) (hs : Sound same) (n : ℕ) (b : Basis) (hb : Valid b) (hob : OrthonormalParts b)
    (hshape : b.fundamentalShape = [n]) (A : Matrix (Fin 1) (Fin 1) ℝ) (hL : A 0 0 ≠ 0) (lb : Basis) (data : ℕ → ℂ) :
    plotKDistribution same A ⟨lb, b, data⟩ 0 .real = plotValueDistribution (size lb) (fun i => ∑ j ∈ range n, (2 * Real.pi / A 0 0 * freq n j) *
        ‖dot n (planeWave n (freq n j)) (expand b (block (size b) data i))‖ ^ 2) true ∧
      plotXDistribution same A ⟨lb, b, data⟩ 0 .real =
        (plotValueDistribution (size lb) (fun i => ∑ p ∈ range n, (A 0 0 * p / n) * ‖expand b (block (size b) data i) p‖ ^ 2) false).map Prod.fst := by
  obtain ⟨k, hk, k1⟩ := C106_k_partial same hs n b hb hob hshape A hL lb data
  obtain ⟨x, hx, x1⟩ := C106_x_partial same hs n b hb hob hshape A lb data
  constructor
  · unfold plotKDistribution
    rw [hk, Option.bind_some, Basis.n_eq]
    congr 1
    funext i
    show (k i).re = _
    rw [k1, Complex.ofReal_re]
  · unfold plotXDistribution
    rw [hx, Option.bind_some, Basis.n_eq]
    congr 2
    funext i
    show (x i).re = _
    rw [x1, Complex.ofReal_re]
    rfl

/-- **C156.** `plot_kernel_sparsity` for positive values: 9999 points at increasing positions from the smallest value on, spaced evenly on a logarithmic scale up to
the largest value; each has the number of values below the next point, and the last one the number of all values. -/
theorem C156_sparsity (count : ℕ) (values : ℕ → ℝ) (hpos : ∀ k < count, 0 < values k) (low high : ℕ) (hlow : low < count) (hhigh : high < count)
    (hl : ∀ k < count, values low ≤ values k) (hh : ∀ k < count, values k ≤ values high) :
    ∃ x y, plotKernelSparsity count values = some (9999, x, y) ∧ Monotone x ∧
      (∀ i : ℕ, x i = values low * (values high / values low) ^ ((i : ℝ) / 9999)) ∧
      (∀ i, i + 1 < 9999 → y i = Nat.card {k // k < count ∧ values k < x (i + 1)}) ∧ y 9998 = count := by
  classical
  obtain ⟨a1, a2⟩ := argmaxReal_spec (fun i => -values i) (count - 1)
  obtain ⟨b1, b2⟩ := argmaxReal_spec values (count - 1)
  have e0 : values (argmaxReal (fun i => -values i) (count - 1)) = values low :=
    le_antisymm (by have := a2 low (by omega); linarith) (hl _ (by omega))
  have e1 : values (argmaxReal values (count - 1)) = values high := le_antisymm (hh _ (by omega)) (b2 high (by omega))
  obtain ⟨edges, he⟩ : ∃ e : ℕ → ℝ, e = fun i : ℕ => (10 : ℝ) ^ (Real.logb 10 (values low) +
    i * ((Real.logb 10 (values high) - Real.logb 10 (values low)) / 9999)) := ⟨_, rfl⟩
  have p0 := hpos low hlow
  have p1 := hpos high hhigh
  have hx : ∀ i : ℕ, edges i = values low * (values high / values low) ^ ((i : ℝ) / 9999) := by
    intro i
    rw [he]
    dsimp only
    rw [Real.rpow_add (by norm_num), Real.rpow_logb (by norm_num) (by norm_num) p0, ← Real.logb_div p1.ne' p0.ne',
      show (i : ℝ) * (Real.logb 10 (values high / values low) / 9999) = Real.logb 10 (values high / values low) * ((i : ℝ) / 9999) by ring,
      Real.rpow_mul (by norm_num), Real.rpow_logb (by norm_num) (by norm_num) (div_pos p1 p0)]
  have hratio : 1 ≤ values high / values low := by rw [le_div_iff₀ p0, one_mul]; exact hl high hhigh
  have hm : Monotone edges := by
    intro i j hij
    rw [hx, hx]
    refine mul_le_mul_of_nonneg_left (Real.rpow_le_rpow_of_exponent_le hratio ?_) p0.le
    have : (i : ℝ) ≤ j := by exact_mod_cast hij
    linarith [div_le_div_of_nonneg_right this (by norm_num : (0 : ℝ) ≤ 9999)]
  have h0 : edges 0 = values low := by rw [hx]; simp
  have hlast : edges 9999 = values high := by
    rw [hx]
    push_cast
    rw [div_self (by norm_num), Real.rpow_one]
    field_simp
  refine ⟨edges, fun i => ∑ b ∈ range (i + 1), histogram count values 9999 edges b, ?_, hm, hx, fun i hi => ?_, ?_⟩
  · unfold plotKernelSparsity
    rw [if_neg (by omega), e0, e1, he]
  · dsimp only
    rw [sum_histogram count values 9999 edges hm i (by omega), if_neg (by omega)]
    unfold histogram
    refine (Nat.subtype_card _ fun k => ?_).symm
    simp only [mem_filter, mem_range, if_true, zero_add, one_ne_zero, if_false, h0]
    refine and_congr_right fun hk => ⟨fun h => ?_, fun h => ⟨hl k hk, Or.inl h⟩⟩
    rcases h.2 with h | h
    · exact h
    · omega
  · dsimp only
    rw [sum_histogram count values 9999 edges hm 9998 (by omega), if_pos (by rfl)]
    unfold histogram
    rw [filter_true_of_mem, card_range]
    intro k hk
    simp only [if_true, zero_add, one_ne_zero, if_false, h0, true_and]
    refine ⟨hl k (mem_range.1 hk), Or.inr ?_⟩
    rw [show 9998 + 1 = 9999 from rfl, hlast]
    exact hh k (mem_range.1 hk)

-- the values 1, 2, 3
example : ∃ (values : ℕ → ℝ) (m s : ℝ), m * (3 : ℕ) = ∑ i ∈ range 3, values i ∧ s ^ 2 * (3 : ℕ) = ∑ i ∈ range 3, (values i - m) ^ 2 ∧ 0 < s ∧
    (∀ k < 3, 0 < values k) ∧ (∀ k < 3, values 0 ≤ values k) ∧ (∀ k < 3, values k ≤ values 2) := by
  refine ⟨fun i => i + 1, 2, Real.sqrt (2 / 3), ?_, ?_, by positivity, fun k _ => by positivity, fun k _ => by simp, fun k hk => ?_⟩
  · norm_num [sum_range_succ]
  · rw [Real.sq_sqrt (by norm_num)]
    norm_num [sum_range_succ]
  · have : (k : ℝ) ≤ 2 := by exact_mod_cast (by omega : k ≤ 2)
    simpa using this

end Verif
