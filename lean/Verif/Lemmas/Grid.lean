import Verif.Model.Pad
import Verif.Spec.Grid
import Mathlib.Data.List.Basic

namespace Verif

open Spec

variable {α : Type*}

theorem nkPointsLen_eq (n : ℕ) : nkPointsLen n = n := by
  unfold nkPointsLen arangeLen; omega

theorem nkPoints_eq_freq {n j : ℕ} (hj : j < n) : nkPoints n j = freq n j := by
  have h : arangeLen ((-(n : ℤ) + 1) / 2) (((n : ℤ) + 1) / 2) = n := nkPointsLen_eq n
  unfold nkPoints ifftshift roll arange freq
  rw [h]
  have hn : (0 : ℤ) < n := by omega
  have e1 : ((j : ℤ) - -((n : ℤ) / 2)) = j + (n : ℤ) / 2 := by ring
  rw [e1]
  by_cases h2 : 2 * j < n
  · have : ((j : ℤ) + (n : ℤ) / 2) % n = j + (n : ℤ) / 2 :=
      Int.emod_eq_of_lt (by omega) (by omega)
    rw [this, if_pos h2]
    omega
  · have : ((j : ℤ) + (n : ℤ) / 2) % n = j + (n : ℤ) / 2 - n := by
      have h3 := Int.emod_eq_of_lt (a := (j : ℤ) + (n : ℤ) / 2 - n) (b := n) (by omega) (by omega)
      rw [← h3]
      exact (Int.sub_emod_right _ _).symm
    rw [this, if_neg h2]
    omega

theorem freq_onGrid {n j : ℕ} (hj : j < n) : OnGrid n (freq n j) := by
  unfold OnGrid freq; split <;> omega

theorem slot_freq {n j : ℕ} (hj : j < n) : slot n (freq n j) = j := by
  unfold slot freq; split <;> split <;> omega

theorem slot_lt {n : ℕ} {f : ℤ} (h : OnGrid n f) : slot n f < n := by
  unfold OnGrid at h; unfold slot; split <;> omega

theorem freq_slot {n : ℕ} {f : ℤ} (h : OnGrid n f) : freq n (slot n f) = f := by
  unfold OnGrid at h; unfold slot freq; split <;> split <;> omega

theorem slot_inj {n : ℕ} {f g : ℤ} (hf : OnGrid n f) (hg : OnGrid n g) (h : slot n f = slot n g) : f = g := by
  rw [← freq_slot hf, ← freq_slot hg, h]

theorem onGrid_mono {m n : ℕ} (h : m ≤ n) {f : ℤ} (hf : OnGrid m f) : OnGrid n f := by
  unfold OnGrid at *; omega

theorem freq_emod {n j : ℕ} : (freq n j) % n = (j : ℤ) % n := by
  unfold freq; split
  · rfl
  · simp

/-- The slot of a frequency is its residue. -/
theorem slot_emod {n : ℕ} {f : ℤ} (h : OnGrid n f) : (slot n f : ℤ) = f % n := by
  have hs := slot_lt h
  have := freq_emod (n := n) (j := slot n f)
  rw [freq_slot h] at this
  rw [this, Int.emod_eq_of_lt (by omega) (by omega)]

theorem onGrid_unique {n : ℕ} {f g : ℤ} (hf : OnGrid n f) (hg : OnGrid n g) (h : f % n = g % n) : f = g := by
  apply slot_inj hf hg
  have := slot_emod hf; have := slot_emod hg; omega

/-! ### One axis of `pad_ft_points` -/

/-- Where the coordinate `i` of the padded axis comes from: the slot of the same frequency. -/
def axisSource (a : PadAxis) (i : ℕ) : ℕ :=
  match a.2 with
  | none => i
  | some s => slot a.1 (freq s i)

/-- The frequency of coordinate `i` of the padded axis exists on the old axis. -/
def axisHas (a : PadAxis) (i : ℕ) : Prop :=
  match a.2 with
  | none => True
  | some s => OnGrid a.1 (freq s i)

theorem padStart_bounds (n s L : ℕ) (hL : L = n ∨ L = s) :
    (padStartSlice n s).lo L = 0 ∧ (padStartSlice n s).hi L = min ((n + 1) / 2) ((s + 1) / 2) := by
  unfold padStartSlice PySlice.lo PySlice.hi resolveBound
  refine ⟨rfl, ?_⟩
  simp only
  split <;> omega

theorem padEnd_bounds (n s L : ℕ) (hL : L = n ∨ L = s) :
    (padEndSlice n s).hi L - (padEndSlice n s).lo L = min (n / 2) (s / 2) ∧
    (0 < min (n / 2) (s / 2) →
      (padEndSlice n s).lo L = L - min (n / 2) (s / 2) ∧ (padEndSlice n s).hi L = L) := by
  unfold padEndSlice
  simp only
  split
  · rename_i h
    simp only [PySlice.lo, PySlice.hi, resolveBound, h, if_true]
    have hm : max ((-(n : ℤ) + 1) / 2) ((-(s : ℤ) + 1) / 2) = -((min (n / 2) (s / 2) : ℕ) : ℤ) := by
      omega
    rw [hm]
    generalize hk : min (n / 2) (s / 2) = k at *
    have : k ≤ L := by omega
    refine ⟨by omega, fun _ => ⟨by omega, trivial⟩⟩
  · simp only [PySlice.lo, PySlice.hi, resolveBound]
    omega

theorem axis_source_of_mem {a : PadAxis} {i : ℕ} (hi : i < a.newLen) {sl : PySlice} (hs : sl ∈ a.slices)
    (hlo : sl.lo a.newLen ≤ i) (hhi : i < sl.hi a.newLen) :
    axisHas a i ∧ i - sl.lo a.newLen + sl.lo a.len = axisSource a i := by
  obtain ⟨n, o⟩ := a
  cases o with
  | none =>
    simp only [PadAxis.slices, List.mem_cons, List.not_mem_nil, or_false, or_self] at hs
    subst hs
    simp [axisHas, axisSource, fullSlice, PySlice.lo]
  | some s =>
    simp only [PadAxis.slices, List.mem_cons, List.not_mem_nil, or_false] at hs
    simp only [axisHas, axisSource, PadAxis.newLen, PadAxis.len] at *
    rcases hs with rfl | rfl
    · have h1 := padStart_bounds n s n (Or.inl rfl)
      have h2 := padStart_bounds n s s (Or.inr rfl)
      rw [h2.2] at hhi
      rw [h1.1, h2.1]
      unfold OnGrid slot freq
      have : 2 * i < s := by omega
      have h3 : (0 : ℤ) ≤ i := by omega
      simp only [this, if_true, h3]
      omega
    · have h1 := padEnd_bounds n s n (Or.inl rfl)
      have h2 := padEnd_bounds n s s (Or.inr rfl)
      have hpos : 0 < min (n / 2) (s / 2) := by omega
      have h3 := h1.2 hpos
      have h4 := h2.2 hpos
      rw [h4.1] at hlo
      rw [h3.1, h4.1]
      unfold OnGrid slot freq
      have : ¬ 2 * i < s := by omega
      simp only [this, if_false]
      have : ¬ (0 : ℤ) ≤ (i : ℤ) - s := by omega
      simp only [this, if_false]
      omega

theorem axis_exists_of_has {a : PadAxis} {i : ℕ} (hi : i < a.newLen) (h : axisHas a i) :
    ∃ sl ∈ a.slices, sl.lo a.newLen ≤ i ∧ i < sl.hi a.newLen := by
  obtain ⟨n, o⟩ := a
  cases o with
  | none =>
    refine ⟨fullSlice, by simp [PadAxis.slices], ?_⟩
    simpa [fullSlice, PySlice.lo, PySlice.hi, PadAxis.newLen] using hi
  | some s =>
    simp only [axisHas, PadAxis.newLen, OnGrid, freq] at *
    by_cases h2 : 2 * i < s
    · refine ⟨padStartSlice n s, by simp [PadAxis.slices], ?_⟩
      have h1 := padStart_bounds n s s (Or.inr rfl)
      rw [h1.1, h1.2]
      simp only [h2, if_true] at h
      omega
    · refine ⟨padEndSlice n s, by simp [PadAxis.slices], ?_⟩
      have h1 := padEnd_bounds n s s (Or.inr rfl)
      simp only [h2, if_false] at h
      have h3 := h1.2 (by omega)
      rw [h3.1, h3.2]
      omega

/-! ### All axes -/

/-- Multi-index version of `axisSource`. -/
def idxSource : List PadAxis → List ℕ → List ℕ
  | a :: as, i :: is => axisSource a i :: idxSource as is
  | _, _ => []

/-- Multi-index version of `axisHas`. -/
def idxHas : List PadAxis → List ℕ → Prop
  | a :: as, i :: is => axisHas a i ∧ idxHas as is
  | _, _ => True

theorem foldl_assign (ds ns : List ℕ) (array : List ℕ → α) (idx src : List ℕ) :
    ∀ (L : List (List PySlice)) (init : List ℕ → α),
      (∀ ss ∈ L, inBlock ds ss idx = true → blockSource ds ns ss idx = src) →
      (L.foldl (fun padded ss => assignBlock ds ns ss array padded) init) idx =
        if ∃ ss ∈ L, inBlock ds ss idx = true then array src else init idx := by
  intro L
  induction L with
  | nil => intro init _; simp
  | cons ss L ih =>
    intro init h
    rw [List.foldl_cons, ih _ (fun s hs => h s (List.mem_cons_of_mem _ hs))]
    by_cases h1 : ∃ s ∈ L, inBlock ds s idx = true
    · rw [if_pos h1, if_pos]
      obtain ⟨s, hs, hb⟩ := h1
      exact ⟨s, List.mem_cons_of_mem _ hs, hb⟩
    · rw [if_neg h1]
      unfold assignBlock
      by_cases h2 : inBlock ds ss idx = true
      · rw [if_pos h2, if_pos ⟨ss, List.mem_cons_self, h2⟩, h ss List.mem_cons_self h2]
      · rw [if_neg h2, if_neg]
        rintro ⟨s, hs, hb⟩
        rcases List.mem_cons.1 hs with rfl | hs
        · exact h2 hb
        · exact h1 ⟨s, hs, hb⟩

theorem mem_product_cons {β : Type*} {l : List β} {ls : List (List β)} {ys : List β} :
    ys ∈ product (l :: ls) ↔ ∃ x ∈ l, ∃ xs ∈ product ls, ys = x :: xs := by
  simp only [product, List.mem_flatMap, List.mem_map]
  constructor
  · rintro ⟨x, hx, xs, hxs, rfl⟩; exact ⟨x, hx, xs, hxs, rfl⟩
  · rintro ⟨x, hx, xs, hxs, rfl⟩; exact ⟨x, hx, xs, hxs, rfl⟩

theorem block_source (axes : List PadAxis) : ∀ (idx : List ℕ), InShape (axes.map PadAxis.newLen) idx →
    ∀ ss ∈ product (axes.map PadAxis.slices), inBlock (axes.map PadAxis.newLen) ss idx = true →
      idxHas axes idx ∧
      blockSource (axes.map PadAxis.newLen) (axes.map PadAxis.len) ss idx = idxSource axes idx := by
  induction axes with
  | nil =>
    intro idx hin ss hss _
    cases idx with
    | nil => simp [product] at hss; subst hss; simp [idxHas, blockSource, idxSource]
    | cons i is => simp [InShape] at hin
  | cons a as ih =>
    intro idx hin ss hss hb
    cases idx with
    | nil => simp [InShape] at hin
    | cons i is =>
      simp only [List.map_cons] at *
      obtain ⟨x, hx, xs, hxs, rfl⟩ := mem_product_cons.1 hss
      simp only [inBlock, Bool.and_eq_true, decide_eq_true_eq] at hb
      have h1 := axis_source_of_mem hin.1 hx hb.1.1 hb.1.2
      have h2 := ih is hin.2 xs hxs hb.2
      exact ⟨⟨h1.1, h2.1⟩, by simp only [blockSource, idxSource]; rw [h1.2, h2.2]⟩

theorem block_exists (axes : List PadAxis) : ∀ (idx : List ℕ), InShape (axes.map PadAxis.newLen) idx →
    idxHas axes idx →
    ∃ ss ∈ product (axes.map PadAxis.slices), inBlock (axes.map PadAxis.newLen) ss idx = true := by
  induction axes with
  | nil =>
    intro idx hin _
    cases idx with
    | nil => exact ⟨[], by simp [product], by simp [inBlock]⟩
    | cons i is => simp [InShape] at hin
  | cons a as ih =>
    intro idx hin h
    cases idx with
    | nil => simp [InShape] at hin
    | cons i is =>
      simp only [List.map_cons] at *
      obtain ⟨sl, hsl, hlo, hhi⟩ := axis_exists_of_has hin.1 h.1
      obtain ⟨ss, hss, hb⟩ := ih is hin.2 h.2
      refine ⟨sl :: ss, mem_product_cons.2 ⟨sl, hsl, ss, hss, rfl⟩, ?_⟩
      simp [inBlock, hlo, hhi, hb]

open Classical in
/-- Closed form of `pad_ft_points`. -/
theorem padFtPoints_eq [Zero α] (axes : List PadAxis) (array : List ℕ → α) (idx : List ℕ)
    (hin : InShape (axes.map PadAxis.newLen) idx) :
    padFtPoints axes array idx = if idxHas axes idx then array (idxSource axes idx) else 0 := by
  unfold padFtPoints
  rw [foldl_assign _ _ array idx (idxSource axes idx) _ _
    (fun ss hss hb => (block_source axes idx hin ss hss hb).2)]
  by_cases h : idxHas axes idx
  · rw [if_pos h, if_pos (block_exists axes idx hin h)]
  · rw [if_neg h, if_neg]
    rintro ⟨ss, hss, hb⟩
    exact h (block_source axes idx hin ss hss hb).1

/-- Closed form of the one-axis padding. -/
theorem pad1_eq [Zero α] (n s : ℕ) (v : ℕ → α) {j : ℕ} (hj : j < s) :
    pad1 n s v j = if OnGrid n (freq s j) then v (slot n (freq s j)) else 0 := by
  unfold pad1
  rw [padFtPoints_eq _ _ _ (by simp [InShape, PadAxis.newLen, hj])]
  simp [idxHas, axisHas, idxSource, axisSource]

end Verif
