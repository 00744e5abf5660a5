import Verif.Model.SliceAlong
import Verif.Spec.Grid
import Mathlib.Tactic.Linarith
import Mathlib.Tactic.Ring

/-!
# C170: slices along one axis
-/

set_option autoImplicit false

namespace Verif

open Spec

/-! ## Specification -/

/-- `axis` names the axis after `pre` and before `post`: counted from the front, or from the end if negative. -/
def NamesAxis (pre post : List ℕ) (axis : ℤ) : Prop := axis = pre.length ∨ axis = -1 - post.length

/-! ## Lemmas -/

theorem full_positions (n : ℕ) : ({} : StepSlice).positions n = some (List.range n) := by
  simp only [StepSlice.positions, Option.getD_none, Option.map_none]
  rw [if_neg (by omega), if_pos (by omega), show (((n : ℤ) - 0 + 1 - 1) / 1).toNat = n by omega]
  congr 1
  refine Eq.trans (List.map_congr_left fun k _ => ?_) (List.map_id _)
  simp

theorem basic_full (post : List ℕ) : ∃ r, basicIndex (List.replicate post.length .full) post = some r ∧ r.1 = post ∧ ∀ j, InShape post j → r.2 j = j := by
  induction post with
  | nil => exact ⟨_, rfl, rfl, fun j hj => by cases j <;> simp_all [InShape]⟩
  | cons n post ih =>
    obtain ⟨r, h, h1, h2⟩ := ih
    refine ⟨_, by rw [List.length_cons, List.replicate_succ, IndexItem.full, basicIndex, full_positions, Option.bind_some, ← IndexItem.full, h]; rfl, by simp [h1], ?_⟩
    intro j hj
    cases j with
    | nil => simp [InShape] at hj
    | cons a j =>
      obtain ⟨ha, hj⟩ := hj
      simp [h2 j hj, ha]

theorem basic_pre (pre : List ℕ) (is : List IndexItem) (ns : List ℕ) (r : List ℕ × (List ℕ → List ℕ)) (h : basicIndex is ns = some r) :
    ∃ r', basicIndex (List.replicate pre.length .full ++ is) (pre ++ ns) = some r' ∧ r'.1 = pre ++ r.1 ∧ ∀ i, InShape pre i → ∀ l, r'.2 (i ++ l) = i ++ r.2 l := by
  induction pre with
  | nil => exact ⟨r, h, rfl, fun i hi l => by cases i <;> simp_all [InShape]⟩
  | cons n pre ih =>
    obtain ⟨r', h', h1, h2⟩ := ih
    refine ⟨_, by rw [List.length_cons, List.replicate_succ, List.cons_append, IndexItem.full, List.cons_append, basicIndex, full_positions, Option.bind_some,
      ← IndexItem.full, h']; rfl, by simp [h1], ?_⟩
    intro i hi l
    cases i with
    | nil => simp [InShape] at hi
    | cons a i =>
      obtain ⟨ha, hi⟩ := hi
      simp [h2 i hi l, ha]

theorem count_full (k : ℕ) : (List.replicate k IndexItem.full).countP IndexItem.usesAxis = k ∧ (List.replicate k IndexItem.full).countP IndexItem.isEllipsis = 0 ∧
    (List.replicate k IndexItem.full).any IndexItem.isEllipsis = false := by
  simp [List.countP_replicate, IndexItem.full, IndexItem.usesAxis, IndexItem.isEllipsis]

theorem flat_full (f : List IndexItem) (k : ℕ) :
    (List.replicate k IndexItem.full).flatMap (fun i => if i.isEllipsis then f else [i]) = List.replicate k IndexItem.full := by
  induction k with
  | zero => rfl
  | succ k ih => rw [List.replicate_succ, List.flatMap_cons, ih]; rfl

theorem fill_axis (item : IndexItem) (he : item.isEllipsis = false) (pre post : List ℕ) (u : ℕ) (hu : u = if item.usesAxis then 1 else 0) (axis : ℤ)
    (h : NamesAxis pre post axis) :
    fillEllipsis (sliceAlongAxis item axis) (pre.length + u + post.length) =
      some (List.replicate pre.length .full ++ item :: List.replicate post.length .full) := by
  rcases h with rfl | rfl
  · have es : sliceAlongAxis item pre.length = List.replicate pre.length .full ++ [item] := by
      unfold sliceAlongAxis
      rw [if_neg (by omega), Int.toNat_natCast]
    rw [es]
    have e : (List.replicate pre.length IndexItem.full ++ [item]).countP IndexItem.usesAxis = pre.length + u := by
      rw [List.countP_append, (count_full _).1, hu]
      simp [List.countP_cons]
    have e' : (List.replicate pre.length IndexItem.full ++ [item]).countP IndexItem.isEllipsis = 0 := by
      rw [List.countP_append, (count_full _).2.1]
      simp [he]
    have e'' : (List.replicate pre.length IndexItem.full ++ [item]).any IndexItem.isEllipsis = false := by
      rw [List.any_append, (count_full _).2.2]
      simp [he]
    unfold fillEllipsis
    simp only [e, e', e'']
    rw [if_neg (by omega), if_neg (by simp), show pre.length + u + post.length - (pre.length + u) = post.length by omega, List.append_assoc]
    rfl
  · have es : sliceAlongAxis item (-1 - post.length) = .ellipsis :: item :: List.replicate post.length .full := by
      unfold sliceAlongAxis
      rw [if_pos (by omega), show (-1 - (-1 - (post.length : ℤ))).toNat = post.length by omega]
    rw [es]
    have e : (IndexItem.ellipsis :: item :: List.replicate post.length IndexItem.full).countP IndexItem.usesAxis = u + post.length := by
      rw [List.countP_cons, List.countP_cons, (count_full _).1, hu]
      simp [IndexItem.usesAxis, add_comm]
    have e' : (IndexItem.ellipsis :: item :: List.replicate post.length IndexItem.full).countP IndexItem.isEllipsis = 1 := by
      rw [List.countP_cons, List.countP_cons, (count_full _).2.1, he]
      rfl
    unfold fillEllipsis
    simp only [e, e']
    rw [if_neg (by omega), if_pos (by simp [IndexItem.isEllipsis]), List.flatMap_cons, List.flatMap_cons, flat_full, he,
      show pre.length + u + post.length - (u + post.length) = pre.length by omega]
    rfl

/-! ## Theorems -/

/-- **C170.** A slice along an axis, which is named from the front or from the end, takes its positions along this axis, and everything along all others. -/
theorem C170_slice (pre post : List ℕ) (n : ℕ) (s : StepSlice) (p : List ℕ) (hp : s.positions n = some p) (axis : ℤ) (h : NamesAxis pre post axis) :
    ∃ r, basicIndexing (sliceAlongAxis (.slice s) axis) (pre ++ n :: post) = some r ∧ r.1 = pre ++ p.length :: post ∧
      ∀ i j k, InShape pre i → InShape post j → (hk : k < p.length) → r.2 (i ++ k :: j) = i ++ p[k] :: j := by
  obtain ⟨r, e, e1, e2⟩ := basic_full post
  obtain ⟨r', f, f1, f2⟩ := basic_pre pre (.slice s :: List.replicate post.length .full) (n :: post) (p.length :: r.1, fun idx => p.getD (idx.headD 0) 0 :: r.2 idx.tail)
    (by rw [basicIndex, hp, Option.bind_some, e]; rfl)
  refine ⟨r', ?_, by rw [f1, e1], fun i j k hi hj hk => ?_⟩
  · unfold basicIndexing
    rw [show (pre ++ n :: post).length = pre.length + 1 + post.length by simp; omega, fill_axis (.slice s) rfl pre post 1 rfl axis h, Option.bind_some, f]
  · rw [f2 i hi]
    simp [e2 j hj, hk]

/-- **C170.** An integer along an axis, counted from the end if negative, takes the entries with this index along the axis, which is removed. -/
theorem C170_integer (pre post : List ℕ) (n m : ℕ) (hm : m < n) (c : ℤ) (hc : c = m ∨ c = m - n) (axis : ℤ) (h : NamesAxis pre post axis) :
    ∃ r, basicIndexing (sliceAlongAxis (.int c) axis) (pre ++ n :: post) = some r ∧ r.1 = pre ++ post ∧
      ∀ i j, InShape pre i → InShape post j → r.2 (i ++ j) = i ++ m :: j := by
  obtain ⟨r, e, e1, e2⟩ := basic_full post
  obtain ⟨r', f, f1, f2⟩ := basic_pre pre (.int c :: List.replicate post.length .full) (n :: post) (r.1, fun idx => (c % (n : ℤ)).toNat :: r.2 idx)
    (by rw [basicIndex, if_pos (by omega), e]; rfl)
  have hcm : (c % (n : ℤ)).toNat = m := by
    rcases hc with rfl | rfl
    · rw [Int.emod_eq_of_lt (by omega) (by omega)]; omega
    · rw [Int.sub_emod_right, Int.emod_eq_of_lt (by omega) (by omega)]; omega
  refine ⟨r', ?_, by rw [f1, e1], fun i j hi hj => ?_⟩
  · unfold basicIndexing
    rw [show (pre ++ n :: post).length = pre.length + 1 + post.length by simp; omega, fill_axis (.int c) rfl pre post 1 rfl axis h, Option.bind_some, f]
  · rw [f2 i hi, hcm]
    simp [e2 j hj]

/-- **C170.** `None` inserts an axis with one entry, which has the given number (from the front or from the end) in the result. -/
theorem C170_newaxis (pre post : List ℕ) (axis : ℤ) (h : NamesAxis pre post axis) :
    ∃ r, basicIndexing (sliceAlongAxis .newaxis axis) (pre ++ post) = some r ∧ r.1 = pre ++ 1 :: post ∧
      ∀ i j, InShape pre i → InShape post j → r.2 (i ++ 0 :: j) = i ++ j := by
  obtain ⟨r, e, e1, e2⟩ := basic_full post
  obtain ⟨r', f, f1, f2⟩ := basic_pre pre (.newaxis :: List.replicate post.length .full) post (1 :: r.1, fun idx => r.2 idx.tail)
    (by rw [basicIndex, e]; rfl)
  refine ⟨r', ?_, by rw [f1, e1], fun i j hi hj => ?_⟩
  · unfold basicIndexing
    rw [show (pre ++ post).length = pre.length + 0 + post.length by simp, fill_axis .newaxis rfl pre post 0 rfl axis h, Option.bind_some, f]
  · rw [f2 i hi]
    simp [e2 j hj]

/-- **C170.** A slice or an integer along an axis which the array does not have raises. -/
theorem C170_raises (shape : List ℕ) (item : IndexItem) (hu : item.usesAxis = true) (axis : ℤ) (h : axis < -(shape.length : ℤ) ∨ (shape.length : ℤ) ≤ axis) :
    basicIndexing (sliceAlongAxis item axis) shape = none := by
  unfold basicIndexing fillEllipsis sliceAlongAxis
  dsimp only
  rw [if_pos, Option.bind_none]
  left
  split_ifs with ha
  · rw [List.countP_cons, List.countP_cons, (count_full _).1, hu]
    simp only [if_true]
    omega
  · rw [List.countP_append, (count_full _).1, List.countP_cons, hu]
    simp only [if_true]
    omega

/-- **C170.** The positions of a slice with a positive step: in increasing order every position from the start, below the stop, at a multiple of the step from the start. -/
theorem C170_positions (n a b c : ℕ) (hc : 0 < c) :
    ∃ p, (⟨some a, some b, some c⟩ : StepSlice).positions n = some p ∧ p.Pairwise (· < ·) ∧ ∀ x, x ∈ p ↔ a ≤ x ∧ x < b ∧ x < n ∧ c ∣ x - a := by
  refine ⟨_, by
    simp only [StepSlice.positions, Option.getD_some, Option.map_some]
    rw [if_neg (by omega), if_pos (by omega)], ?_, fun x => ?_⟩
  · rw [List.pairwise_map]
    refine List.Pairwise.imp ?_ List.pairwise_lt_range
    intro k l hkl
    have h1 : (0 : ℤ) ≤ clampBound n 0 n a := by unfold clampBound; split_ifs <;> omega
    have h2 : (k : ℤ) * c < l * c := by exact_mod_cast Nat.mul_lt_mul_of_pos_right hkl hc
    have h3 : (0 : ℤ) ≤ (k : ℤ) * c := by positivity
    omega
  · have e1 : clampBound n 0 n a = (min a n : ℕ) := by unfold clampBound; rw [if_neg (by omega)]; push_cast; rfl
    have e2 : clampBound n 0 n b = (min b n : ℕ) := by unfold clampBound; rw [if_neg (by omega)]; push_cast; rfl
    rw [e1, e2]
    have hk : ∀ k : ℕ, k < (((min b n : ℕ) : ℤ) - (min a n : ℕ) + c - 1) / c ↔ min a n + k * c < min b n := by
      intro k
      rw [← Int.add_one_le_iff, Int.le_ediv_iff_mul_le (by omega)]
      have : ((k : ℤ) + 1) * c = k * c + c := by ring
      rw [this]
      zify
      omega
    simp only [List.mem_map, List.mem_range, Int.lt_toNat, hk]
    constructor
    · rintro ⟨k, h1, rfl⟩
      have e : (((min a n : ℕ) : ℤ) + (k : ℤ) * c).toNat = min a n + k * c := by omega
      rw [e]
      have : min a n = a := by
        have := Nat.zero_le (k * c)
        omega
      rw [this] at h1 ⊢
      exact ⟨by omega, by omega, by omega, ⟨k, by rw [Nat.add_sub_cancel_left, mul_comm]⟩⟩
    · rintro ⟨h1, h2, h3, k, h4⟩
      have : min a n = a := by omega
      refine ⟨k, ?_, ?_⟩ <;> rw [this] <;> rw [mul_comm] at h4
      · omega
      · have : (k : ℤ) * c = (k * c : ℕ) := by push_cast; rfl
        rw [this]
        omega

/-- **C170.** The slices used for evenly spaced bases take, of `n` times `step` entries, the `n` entries at `offset % step` and every `step` further. -/
theorem C170_spaced (n step : ℕ) (hs : 0 < step) (offset : ℤ) :
    (⟨some (offset % step), none, some step⟩ : StepSlice).positions (step * n) = some ((List.range n).map fun k => (offset % step).toNat + k * step) := by
  have h0 := Int.emod_nonneg offset (show (step : ℤ) ≠ 0 by omega)
  have h1 := Int.emod_lt_of_pos offset (show (0 : ℤ) < step by omega)
  obtain ⟨q, hq⟩ := Int.eq_ofNat_of_zero_le h0
  rw [hq] at h1 ⊢
  have hqs : q < step := by exact_mod_cast h1
  simp only [StepSlice.positions, Option.getD_some, Option.map_some, Option.map_none, Option.getD_none, clampBound]
  rw [if_neg (by omega), if_pos (by omega), if_neg (by simp)]
  rcases Nat.eq_zero_or_pos n with rfl | hn
  · have : ((((step * 0 : ℕ) : ℤ) - min ((q : ℤ)) ((step * 0 : ℕ) : ℤ) + step - 1) / step).toNat = 0 := by
      have e : min ((q : ℤ)) ((step * 0 : ℕ) : ℤ) = 0 := by simp
      rw [e]
      have : ((((step * 0 : ℕ) : ℤ) - 0 + step - 1) / step) = 0 := Int.ediv_eq_zero_of_lt (by simp; omega) (by simp)
      rw [this]; rfl
    rw [this]; rfl
  have hm : step ≤ step * n := Nat.le_mul_of_pos_right _ hn
  have e : min ((q : ℤ)) ((step * n : ℕ) : ℤ) = q := by
    rw [min_eq_left]
    exact_mod_cast (le_trans hqs.le hm)
  rw [e]
  have hcount : ((((step * n : ℕ) : ℤ) - q + step - 1) / step).toNat = n := by
    have : (((step * n : ℕ) : ℤ) - q + step - 1) = (step - 1 - q) + n * step := by push_cast; ring
    rw [this, Int.add_mul_ediv_right _ _ (by omega), Int.ediv_eq_zero_of_lt (by omega) (by omega)]
    omega
  rw [hcount]
  congr 1

/-- **C170.** The two halves used to make an interpolation symmetric have equally many entries; entry `t` of the lower half is the point `1 + t` and that of the upper half
the point `n - (1 + t)`. -/
theorem C170_halves (n : ℕ) : ∃ lower upper, (⟨some 1, some ((n + 1) / 2), none⟩ : StepSlice).positions n = some lower ∧
    (⟨none, some (n / 2), some (-1)⟩ : StepSlice).positions n = some upper ∧ lower = (List.range ((n + 1) / 2 - 1)).map (fun t => 1 + t) ∧
      upper = lower.map fun x => n - x := by
  have h1 : (⟨some 1, some ((n + 1) / 2), none⟩ : StepSlice).positions n = some ((List.range ((n + 1) / 2 - 1)).map fun t => 1 + t) := by
    simp only [StepSlice.positions, Option.getD_none, Option.map_some, Option.getD_some, clampBound]
    rw [if_neg (by omega), if_pos (by omega), if_neg (by omega), if_neg (by omega)]
    have : ((min (((n : ℤ) + 1) / 2) n - min 1 (n : ℤ) + 1 - 1) / 1).toNat = (n + 1) / 2 - 1 := by omega
    rw [this]
    congr 1
    refine List.map_congr_left fun k hk => ?_
    have := List.mem_range.1 hk
    omega
  have h2 : (⟨none, some (n / 2), some (-1)⟩ : StepSlice).positions n = some ((List.range ((n + 1) / 2 - 1)).map fun t => n - (1 + t)) := by
    simp only [StepSlice.positions, Option.getD_none, Option.map_some, Option.getD_some, Option.map_none, clampBound]
    rw [if_neg (by omega), if_neg (by omega), if_neg (by omega)]
    have : (((n : ℤ) - 1 - min ((n : ℤ) / 2) (n - 1) - -1 - 1) / - -1).toNat = (n + 1) / 2 - 1 := by
      rw [neg_neg, Int.ediv_one]
      omega
    rw [this]
    congr 1
    refine List.map_congr_left fun k hk => ?_
    have := List.mem_range.1 hk
    omega
  exact ⟨_, _, h1, h2, rfl, by rw [List.map_map]; rfl⟩

/-! ## Concrete cases -/

/-- Every second entry, from the first, along the middle axis of an array with the shape `(2, 6, 3)`, named as `1` and as `-2`. -/
example (axis : ℤ) (h : axis = 1 ∨ axis = -2) : ∃ r, basicIndexing (sliceAlongAxis (.slice ⟨some 1, none, some 2⟩) axis) [2, 6, 3] = some r ∧ r.1 = [2, 3, 3] ∧
    r.2 [1, 2, 0] = [1, 5, 0] := by
  obtain ⟨r, h1, h2, h3⟩ := C170_slice [2] [3] 6 ⟨some 1, none, some 2⟩ [1, 3, 5] (by decide) axis (by simpa [NamesAxis] using h)
  exact ⟨r, h1, h2, h3 [1] [0] 2 (by simp [InShape]) (by simp [InShape]) (by decide)⟩

/-- The last entry along the last axis, an inserted axis, an axis which does not exist, and the positions of a slice. -/
example : (∃ r, basicIndexing (sliceAlongAxis (.int (-1)) (-1)) [2, 4] = some r ∧ r.1 = [2] ∧ r.2 [1] = [1, 3]) ∧
    (∃ r, basicIndexing (sliceAlongAxis .newaxis 1) [2, 4] = some r ∧ r.1 = [2, 1, 4] ∧ r.2 [1, 0, 3] = [1, 3]) ∧
    basicIndexing (sliceAlongAxis (.int 0) 2) [2, 4] = none := by
  refine ⟨?_, ?_, C170_raises [2, 4] (.int 0) rfl 2 (by simp)⟩
  · obtain ⟨r, h1, h2, h3⟩ := C170_integer [2] [] 4 3 (by decide) (-1) (by decide) (-1) (by simp [NamesAxis])
    exact ⟨r, h1, h2, h3 [1] [] (by simp [InShape]) (by simp [InShape])⟩
  · obtain ⟨r, h1, h2, h3⟩ := C170_newaxis [2] [4] 1 (by simp [NamesAxis])
    exact ⟨r, h1, h2, h3 [1] [3] (by simp [InShape]) (by simp [InShape])⟩

end Verif
