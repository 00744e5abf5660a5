import Verif.Model.Slice
import Mathlib.Data.List.Sort
import Mathlib.Data.List.Perm.Basic
import Mathlib.Data.List.Range

/-!
# C07: reading an array along chosen axes
-/

namespace Verif

namespace Spec

/-- The entries of an index at the positions which are not listed in `axes`, in order. -/
def offAxes (axes full : List ℕ) : List ℕ :=
  ((List.range full.length).filter (fun p => decide (p ∉ axes))).map (fun p => full.getD p 0)

/-- The entries of an index at the positions `axes`, in the order of `axes`. -/
def onAxes (axes full : List ℕ) : List ℕ := axes.map (fun p => full.getD p 0)

end Spec

open Spec

theorem argsort_perm (l : List ℕ) : (argsort l).Perm (List.range l.length) := List.mergeSort_perm _ _

theorem argsort_length (l : List ℕ) : (argsort l).length = l.length := by
  simpa using (argsort_perm l).length_eq

theorem argsort_map (l : List ℕ) :
    (argsort l).map (fun i => l.getD i 0) = l.mergeSort (fun a b => decide (a ≤ b)) := by
  have hl : (List.range l.length).map (fun i => l.getD i 0) = l := by
    apply List.ext_getElem
    · simp
    · intro i h1 h2; simp [h2]
  apply List.Perm.eq_of_pairwise (le := (· ≤ ·))
  · intro a b _ _ h1 h2; exact le_antisymm h1 h2
  · rw [List.pairwise_map]
    have := List.pairwise_mergeSort (le := fun i j => decide (l.getD i 0 ≤ l.getD j 0))
      (fun a b c h1 h2 => by simp only [decide_eq_true_eq] at *; exact le_trans h1 h2)
      (fun a b => by simp only [Bool.or_eq_true, decide_eq_true_eq]; exact le_total _ _) (List.range l.length)
    exact this.imp (by intro a b h; simpa using h)
  · have := List.pairwise_mergeSort (le := fun a b : ℕ => decide (a ≤ b))
      (fun a b c h1 h2 => by simp only [decide_eq_true_eq] at *; exact le_trans h1 h2)
      (fun a b => by simp only [Bool.or_eq_true, decide_eq_true_eq]; exact le_total _ _) l
    exact this.imp (by intro a b h; simpa using h)
  · refine ((argsort_perm l).map _).trans ?_
    rw [hl]
    exact (List.mergeSort_perm _ _).symm

theorem mergeSort_range_perm (l : List ℕ) (n : ℕ) (h : l.Perm (List.range n)) :
    l.mergeSort (fun a b => decide (a ≤ b)) = List.range n := by
  apply List.Perm.eq_of_pairwise (le := (· ≤ ·))
  · intro a b _ _ h1 h2; exact le_antisymm h1 h2
  · have := List.pairwise_mergeSort (le := fun a b : ℕ => decide (a ≤ b))
      (fun a b c h1 h2 => by simp only [decide_eq_true_eq] at *; exact le_trans h1 h2)
      (fun a b => by simp only [Bool.or_eq_true, decide_eq_true_eq]; exact le_total _ _) l
    exact this.imp (by intro a b h; simpa using h)
  · exact List.pairwise_lt_range.imp le_of_lt
  · exact (List.mergeSort_perm _ _).trans h

theorem position_perm (l : List ℕ) : (getPositionInSorted l).Perm (List.range l.length) := by
  have := argsort_perm (argsort l)
  rwa [argsort_length] at this

theorem position_length (l : List ℕ) : (getPositionInSorted l).length = l.length := by
  simpa using (position_perm l).length_eq

/-- Position `k` names the rank of `l[k]`. -/
theorem position_spec (l : List ℕ) (k : ℕ) (hk : k < l.length) :
    (l.mergeSort (fun a b => decide (a ≤ b))).getD ((getPositionInSorted l).getD k 0) 0 = l.getD k 0 := by
  have h1 : (getPositionInSorted l).map (fun i => (argsort l).getD i 0) = List.range l.length := by
    rw [getPositionInSorted, argsort_map, mergeSort_range_perm _ _ (argsort_perm l)]
  have hk' : k < (getPositionInSorted l).length := by rw [position_length]; exact hk
  have hget : (getPositionInSorted l).getD k 0 = (getPositionInSorted l)[k] := by
    simp [List.getD, List.getElem?_eq_getElem hk']
  have hmem : (getPositionInSorted l)[k] < l.length := by
    have := (position_perm l).mem_iff.1 (List.getElem_mem hk')
    simpa using this
  have h2 : (argsort l).getD ((getPositionInSorted l)[k]) 0 = k := by
    have := congrArg (fun x => x.getD k 0) h1
    simpa [List.getD, List.getElem?_eq_getElem hk', List.getElem?_range hk] using this
  rw [hget, ← argsort_map]
  have hmem' : (getPositionInSorted l)[k] < (argsort l).length := by rw [argsort_length]; exact hmem
  have e : ((argsort l).map (fun i => l.getD i 0)).getD ((getPositionInSorted l)[k]) 0 =
      l.getD ((argsort l).getD ((getPositionInSorted l)[k]) 0) 0 := by
    simp [List.getD, List.getElem?_eq_getElem hmem']
  rw [e, h2]

/-- The slice with `none` at the positions of `l`. -/
def markAxes (l full : List ℕ) : List (Option ℕ) :=
  full.mapIdx fun p v => if p ∈ l then none else some v

theorem offAxes_eq_mark (l full : List ℕ) : offAxes l full = (markAxes l full).reduceOption := by
  induction full using List.reverseRecOn with
  | nil => simp [offAxes, markAxes, List.reduceOption]
  | append_singleton f a ih =>
    have e1 : offAxes l (f ++ [a]) = offAxes l f ++ (if f.length ∈ l then [] else [a]) := by
      unfold offAxes
      rw [List.length_append, List.length_singleton, List.range_succ, List.filter_append, List.map_append]
      congr 1
      · apply List.map_congr_left
        intro p hp
        have : p < f.length := by simpa using (List.mem_filter.1 hp).1
        simp [List.getD, List.getElem?_append_left this]
      · by_cases h : f.length ∈ l <;> simp [h]
    rw [e1, ih]
    unfold markAxes
    rw [List.mapIdx_append]
    by_cases h : f.length ∈ l <;> simp [h, List.reduceOption]

theorem markAxes_nil (full : List ℕ) : markAxes [] full = full.map some := by
  simp [markAxes, List.mapIdx_eq_zipIdx_map]
  apply List.ext_getElem <;> simp

theorem markAxes_length (l full : List ℕ) : (markAxes l full).length = full.length := by simp [markAxes]

theorem insert_mark (l full : List ℕ) (a : ℕ) (hl : ∀ x ∈ l, x < a) (ha : a < full.length) :
    (markAxes l (full.eraseIdx a)).insertIdx a none = markAxes (l ++ [a]) full := by
  apply List.ext_getElem?
  intro i
  have hlen : (markAxes l (full.eraseIdx a)).length = full.length - 1 := by
    rw [markAxes_length, List.length_eraseIdx_of_lt ha]
  rw [List.getElem?_insertIdx]
  rcases lt_trichotomy i a with h | h | h
  · simp only [h, ↓reduceIte, markAxes, List.getElem?_mapIdx]
    rw [List.getElem?_eraseIdx, if_pos h]
    simp [h.ne]
  · subst h
    simp only [lt_irrefl, ↓reduceIte, hlen]
    rw [if_pos (by omega)]
    simp [markAxes, ha]
  · rw [if_neg (by omega), if_neg (by omega)]
    simp only [markAxes, List.getElem?_mapIdx]
    rw [List.getElem?_eraseIdx, if_neg (by omega), show i - 1 + 1 = i by omega]
    have h1 : i - 1 ∉ l := fun hm => by have := hl _ hm; omega
    have h2 : i ∉ l := fun hm => by have := hl _ hm; omega
    simp [h1, h2, h.ne']

theorem reduce_insert_none (s : List (Option ℕ)) (a : ℕ) : (s.insertIdx a none).reduceOption = s.reduceOption := by
  induction s generalizing a with
  | nil => cases a <;> simp [List.reduceOption]
  | cons x s ih =>
    cases a with
    | zero => simp [List.reduceOption]
    | succ a =>
      have := ih a
      cases x <;> simp_all [List.insertIdx_succ_cons, List.reduceOption]

theorem foldl_insert_mark (l : List ℕ) : ∀ full : List ℕ, l.Pairwise (· < ·) → (∀ x ∈ l, x < full.length) →
    l.foldl (fun s axis => s.insertIdx (min axis s.length) none) ((markAxes l full).reduceOption.map some)
      = markAxes l full := by
  induction l using List.reverseRecOn with
  | nil => intro full _ _; rw [markAxes_nil]; simp [List.reduceOption, List.filterMap_map]
  | append_singleton l a ih =>
    intro full hp hlt
    have ha : a < full.length := hlt a (by simp)
    rw [List.pairwise_append] at hp
    have hl : ∀ x ∈ l, x < a := fun x hx => hp.2.2 x hx a (by simp)
    rw [List.foldl_append, ← insert_mark l full a hl ha, reduce_insert_none]
    rw [ih (full.eraseIdx a) hp.1 (fun x hx => by rw [List.length_eraseIdx_of_lt ha]; have := hl x hx; omega)]
    simp only [List.foldl_cons, List.foldl_nil]
    rw [markAxes_length, List.length_eraseIdx_of_lt ha, min_eq_left (by omega)]

theorem sorted_axes (axes : List ℕ) (hnd : axes.Nodup) :
    (axes.mergeSort (fun a b => decide (a ≤ b))).Pairwise (· < ·) := by
  have h := List.pairwise_mergeSort (le := fun a b : ℕ => decide (a ≤ b))
      (fun a b c h1 h2 => by simp only [decide_eq_true_eq] at *; exact le_trans h1 h2)
      (fun a b => by simp only [Bool.or_eq_true, decide_eq_true_eq]; exact le_total _ _) axes
  have hn : (axes.mergeSort (fun a b => decide (a ≤ b))).Nodup := (List.mergeSort_perm _ _).nodup_iff.2 hnd
  exact (h.and hn).imp (by rintro a b ⟨h1, h2⟩; simp at h1; omega)

theorem markAxes_congr (l l' full : List ℕ) (h : ∀ x, x ∈ l ↔ x ∈ l') : markAxes l full = markAxes l' full := by
  unfold markAxes; simp only [h]

theorem sliceIgnoring_eq (axes full : List ℕ) (hnd : axes.Nodup) (hlt : ∀ x ∈ axes, x < full.length) :
    sliceIgnoringAxes (offAxes axes full) axes = markAxes axes full := by
  set s := axes.mergeSort (fun a b => decide (a ≤ b)) with hs
  have hmem : ∀ x, x ∈ axes ↔ x ∈ s := fun x => (List.mergeSort_perm _ _).mem_iff.symm
  unfold sliceIgnoringAxes
  rw [offAxes_eq_mark, markAxes_congr axes s full hmem, ← hs]
  exact foldl_insert_mark s full (sorted_axes axes hnd) (fun x hx => hlt x ((hmem x).2 hx))

/-- Entries at positions in `l`, in increasing order of the position. -/
def onSorted (l full : List ℕ) : List ℕ :=
  ((List.range full.length).filter (fun p => decide (p ∈ l))).map (fun p => full.getD p 0)

theorem onSorted_cons (l full : List ℕ) (v : ℕ) : onSorted l (v :: full) =
    (if 0 ∈ l then [v] else []) ++
      ((List.range full.length).filter (fun p => decide (p + 1 ∈ l))).map (fun p => full.getD p 0) := by
  unfold onSorted
  rw [List.length_cons, List.range_succ_eq_map, List.filter_cons]
  have : (List.filter (fun p => decide (p ∈ l)) (List.map Nat.succ (List.range full.length))).map
      (fun p => (v :: full).getD p 0) =
      ((List.range full.length).filter (fun p => decide (p + 1 ∈ l))).map (fun p => full.getD p 0) := by
    rw [List.filter_map, List.map_map]; rfl
  split <;> rename_i h <;> simp at h <;> simp [h] <;> simpa using this

theorem fill_aux (full : List ℕ) : ∀ m : ℕ → Bool,
    fillSlice (full.mapIdx fun p v => if m p then none else some v)
      (((List.range full.length).filter m).map (fun p => full.getD p 0)) = full := by
  induction full with
  | nil => intro m; simp [fillSlice]
  | cons v full ih =>
    intro m
    have h := ih (fun p => m (p + 1))
    have e : ((List.range (v :: full).length).filter m).map (fun p => (v :: full).getD p 0) =
        (if m 0 then [v] else []) ++ ((List.range full.length).filter (fun p => m (p + 1))).map
          (fun p => full.getD p 0) := by
      rw [List.length_cons, List.range_succ_eq_map, List.filter_cons]
      have : (List.filter m (List.map Nat.succ (List.range full.length))).map
          (fun p => (v :: full).getD p 0) =
          ((List.range full.length).filter (fun p => m (p + 1))).map (fun p => full.getD p 0) := by
        rw [List.filter_map, List.map_map]; rfl
      split <;> rename_i h0 <;> simp [h0] <;> simpa using this
    rw [e, List.mapIdx_cons]
    by_cases h0 : m 0
    · simp only [h0, ↓reduceIte, List.singleton_append, fillSlice]; rw [h]
    · simp only [h0, Bool.false_eq_true, ↓reduceIte, List.nil_append, fillSlice]; rw [h]

theorem fill_mark (l full : List ℕ) : fillSlice (markAxes l full) (onSorted l full) = full := by
  have := fill_aux full (fun p => decide (p ∈ l))
  simpa [markAxes, onSorted] using this

theorem onSorted_eq (axes full : List ℕ) (hnd : axes.Nodup) (hlt : ∀ x ∈ axes, x < full.length) :
    onSorted axes full = (axes.mergeSort (fun a b => decide (a ≤ b))).map (fun p => full.getD p 0) := by
  unfold onSorted
  congr 1
  apply List.Perm.eq_of_pairwise (le := (· ≤ ·))
  · intro a b _ _ h1 h2; exact le_antisymm h1 h2
  · exact (List.pairwise_lt_range.filter _).imp le_of_lt
  · exact (sorted_axes axes hnd).imp le_of_lt
  · rw [List.perm_ext_iff_of_nodup (List.nodup_range.filter _)
      ((List.mergeSort_perm _ _).nodup_iff.2 hnd)]
    intro a
    rw [(List.mergeSort_perm axes _).mem_iff]
    simp only [List.mem_filter, List.mem_range, decide_eq_true_eq, and_iff_right_iff_imp]
    exact hlt a

theorem transpose_onAxes (axes full : List ℕ) :
    transposeIndex (getPositionInSorted axes) (onAxes axes full) =
      (axes.mergeSort (fun a b => decide (a ≤ b))).map (fun p => full.getD p 0) := by
  have hlen := position_length axes
  apply List.ext_getElem
  · simp [transposeIndex, hlen]
  · intro p h1 h2
    have hp : p < axes.length := by simpa using h2
    have hmem : p ∈ getPositionInSorted axes := by
      rw [(position_perm axes).mem_iff]; simpa using hp
    have hk := List.idxOf_lt_length_of_mem hmem
    have hspec := position_spec axes ((getPositionInSorted axes).idxOf p) (by rw [← hlen]; exact hk)
    have hpos : (getPositionInSorted axes).getD ((getPositionInSorted axes).idxOf p) 0 = p := by
      rw [List.getD, List.getElem?_eq_getElem hk]; simp
    rw [hpos] at hspec
    have hps : p < (axes.mergeSort (fun a b => decide (a ≤ b))).length := by simpa using h2
    simp only [transposeIndex, List.getElem_map, List.getElem_range, onAxes]
    have hk' : (getPositionInSorted axes).idxOf p < axes.length := by rw [← hlen]; exact hk
    have e1 : (axes.map fun q => full.getD q 0).getD ((getPositionInSorted axes).idxOf p) 0 =
        full.getD (axes.getD ((getPositionInSorted axes).idxOf p) 0) 0 := by
      simp [List.getD, List.getElem?_eq_getElem hk']
    rw [e1, ← hspec]
    simp [List.getD, List.getElem?_eq_getElem hps]

/-- **C07.** `get_data_in_axes(data, axes, idx)` for distinct axes: take any full index of the array, give the
entries off `axes` (in order) as `idx`, and read the result at the entries on `axes` (in the order given by
`axes`): the value is the value of the array at the full index. -/
theorem C07_data {β : Type*} (data : List ℕ → β) (axes full : List ℕ) (hnd : axes.Nodup)
    (hlt : ∀ x ∈ axes, x < full.length) :
    getDataInAxes data axes (offAxes axes full) (onAxes axes full) = data full := by
  unfold getDataInAxes
  rw [sliceIgnoring_eq axes full hnd hlt, transpose_onAxes, ← onSorted_eq axes full hnd hlt, fill_mark]

theorem sliceShape_mark (shape : List ℕ) : ∀ (m : ℕ → Bool) (full : List ℕ), full.length = shape.length →
    sliceShape (full.mapIdx fun p v => if m p then none else some v) shape =
      ((List.range shape.length).filter m).map (fun p => shape.getD p 0) := by
  induction shape with
  | nil => intro m full h; simp at h; subst h; simp [sliceShape]
  | cons n ns ih =>
    intro m full h
    cases full with
    | nil => simp at h
    | cons v full =>
      have e : ((List.range (n :: ns).length).filter m).map (fun p => (n :: ns).getD p 0) =
          (if m 0 then [n] else []) ++ ((List.range ns.length).filter (fun p => m (p + 1))).map
            (fun p => ns.getD p 0) := by
        rw [List.length_cons, List.range_succ_eq_map, List.filter_cons]
        have : (List.filter m (List.map Nat.succ (List.range ns.length))).map
            (fun p => (n :: ns).getD p 0) =
            ((List.range ns.length).filter (fun p => m (p + 1))).map (fun p => ns.getD p 0) := by
          rw [List.filter_map, List.map_map]; rfl
        split <;> rename_i h0 <;> simp [h0] <;> simpa using this
      rw [e, List.mapIdx_cons]
      have h' := ih (fun p => m (p + 1)) full (by simpa using h)
      by_cases h0 : m 0
      · simp only [h0, ↓reduceIte, List.singleton_append, sliceShape]; rw [h']
      · simp only [h0, Bool.false_eq_true, ↓reduceIte, List.nil_append, sliceShape]; rw [h']

/-- **C07.** The shape of the result lists the lengths of the chosen axes in the order given. -/
theorem C07_shape (shape axes idx : List ℕ) (hnd : axes.Nodup) (hlt : ∀ x ∈ axes, x < shape.length)
    (full : List ℕ) (hfull : full.length = shape.length) (hidx : idx = offAxes axes full) :
    getDataInAxesShape shape axes idx = axes.map (fun p => shape.getD p 0) := by
  unfold getDataInAxesShape
  rw [hidx, sliceIgnoring_eq axes full hnd (by rw [hfull]; exact hlt)]
  have e : sliceShape (markAxes axes full) shape =
      (axes.mergeSort (fun a b => decide (a ≤ b))).map (fun p => shape.getD p 0) := by
    rw [← onSorted_eq axes shape hnd hlt]
    have := sliceShape_mark shape (fun p => decide (p ∈ axes)) full hfull
    simpa [markAxes, onSorted] using this
  rw [e]
  apply List.ext_getElem
  · simp [position_length]
  · intro k h1 h2
    have hk : k < axes.length := by simpa using h2
    have hspec := position_spec axes k hk
    have hk' : k < (getPositionInSorted axes).length := by rw [position_length]; exact hk
    have hget : (getPositionInSorted axes).getD k 0 = (getPositionInSorted axes)[k] := by
      simp [List.getD, List.getElem?_eq_getElem hk']
    rw [hget] at hspec
    have hmem : (getPositionInSorted axes)[k] < axes.length := by
      have := (position_perm axes).mem_iff.1 (List.getElem_mem hk')
      simpa using this
    have hms : (getPositionInSorted axes)[k] < (axes.mergeSort (fun a b => decide (a ≤ b))).length := by
      simpa using hmem
    simp only [List.getElem_map]
    have e2 : axes.getD k 0 = axes[k] := by simp [List.getD, List.getElem?_eq_getElem hk]
    rw [← e2, ← hspec]
    simp [List.getD, List.getElem?_eq_getElem hms]

/-- **C07.** The documented example and its general form: `get_position_in_sorted` gives the rank of each entry, that is
the number of smaller entries. -/
theorem C07_position (axes : List ℕ) (hnd : axes.Nodup) (k : ℕ) (hk : k < axes.length) :
    (getPositionInSorted axes).getD k 0 = (axes.filter (fun a => decide (a < axes.getD k 0))).length := by
  set s := axes.mergeSort (fun a b => decide (a ≤ b)) with hs
  have hspec := position_spec axes k hk
  have hk' : k < (getPositionInSorted axes).length := by rw [position_length]; exact hk
  have hget : (getPositionInSorted axes).getD k 0 = (getPositionInSorted axes)[k] := by
    simp [List.getD, List.getElem?_eq_getElem hk']
  have hmem : (getPositionInSorted axes)[k] < axes.length := by
    have := (position_perm axes).mem_iff.1 (List.getElem_mem hk')
    simpa using this
  have hms : (getPositionInSorted axes)[k] < s.length := by simpa [hs] using hmem
  rw [hget] at hspec ⊢
  rw [← hs] at hspec
  set r := (getPositionInSorted axes)[k] with hr
  have hsr : s.getD r 0 = s[r] := by simp [List.getD, List.getElem?_eq_getElem hms]
  rw [hsr] at hspec
  rw [← hspec, ← ((List.mergeSort_perm axes (fun a b => decide (a ≤ b))).filter _).length_eq, ← hs]
  have hsort : s.Pairwise (· < ·) := sorted_axes axes hnd
  have e : s.filter (fun a => decide (a < s[r])) = s.take r := by
    have h0 : s.filter (fun a => decide (a < s[r])) =
        (s.take r ++ s.drop r).filter (fun a => decide (a < s[r])) := by
      simp only [List.take_append_drop]
    rw [h0, List.filter_append]
    have h1 : (s.take r).filter (fun a => decide (a < s[r])) = s.take r := by
      rw [List.filter_eq_self]
      intro a ha
      obtain ⟨i, hi, rfl⟩ := List.getElem_of_mem ha
      have hir : i < r := by simp at hi; omega
      simp only [List.getElem_take, decide_eq_true_eq]
      exact List.pairwise_iff_getElem.1 hsort i r (by omega) hms hir
    have h2 : (s.drop r).filter (fun a => decide (a < s[r])) = [] := by
      rw [List.filter_eq_nil_iff]
      intro a ha
      obtain ⟨i, hi, rfl⟩ := List.getElem_of_mem ha
      simp only [List.getElem_drop, decide_eq_true_eq, not_lt]
      rcases Nat.eq_zero_or_pos i with h0 | h0
      · subst h0; simp
      · exact (List.pairwise_iff_getElem.1 hsort r (r + i) hms (by simp at hi; omega) (by omega)).le
    rw [h1, h2, List.append_nil]
  rw [e, List.length_take]; omega

-- non-trivial instances
example : (getPositionInSorted [2, 4, 1, 3]).getD 0 0 = 1 ∧ (getPositionInSorted [2, 4, 1, 3]).getD 1 0 = 3 ∧
    (getPositionInSorted [2, 4, 1, 3]).getD 2 0 = 0 ∧ (getPositionInSorted [2, 4, 1, 3]).getD 3 0 = 2 := by
  refine ⟨?_, ?_, ?_, ?_⟩ <;> rw [C07_position _ (by decide) _ (by decide)] <;> decide
example : getDataInAxes (fun l => l) [2, 0] [7] [5, 6] = [6, 7, 5] :=
  C07_data (fun l => l) [2, 0] [6, 7, 5] (by decide) (by decide)

end Verif
