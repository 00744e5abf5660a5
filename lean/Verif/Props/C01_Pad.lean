import Verif.Lemmas.Grid

/-!
# C01, C02: `pad_ft_points`
-/

namespace Verif

open Spec

variable {α : Type*}

theorem newLen_eq (a : PadAxis) : a.newLen = a.2.getD a.1 := by
  obtain ⟨n, o⟩ := a; cases o <;> rfl

theorem newShape_eq (axes : List PadAxis) : axes.map PadAxis.newLen = newShape axes := by
  simp [newShape, newLen_eq]

theorem idxSource_of_same : ∀ (axes : List PadAxis) (i j : List ℕ), InShape (newShape axes) i →
    InShape (oldShape axes) j → SameCoefficient axes i j → idxHas axes i ∧ idxSource axes i = j := by
  intro axes
  induction axes with
  | nil => intro i j hi hj h; cases i <;> cases j <;> simp_all [SameCoefficient, idxHas, idxSource]
  | cons a as ih =>
    intro i j hi hj h
    obtain ⟨n, o⟩ := a
    cases i with
    | nil => simp [newShape, InShape] at hi
    | cons i is =>
      cases j with
      | nil => simp [oldShape, InShape] at hj
      | cons j js =>
        simp only [newShape, oldShape, List.map_cons, InShape] at hi hj
        cases o with
        | none =>
          obtain ⟨rfl, h⟩ := h
          have := ih is js hi.2 hj.2 h
          simp [idxHas, axisHas, idxSource, axisSource, this]
        | some s =>
          obtain ⟨hf, h⟩ := h
          have := ih is js hi.2 hj.2 h
          simp only [idxHas, axisHas, idxSource, axisSource, this, hf, and_true, slot_freq hj.1]
          exact freq_onGrid hj.1

theorem exists_same_of_has : ∀ (axes : List PadAxis) (i : List ℕ), InShape (newShape axes) i →
    idxHas axes i → ∃ j, InShape (oldShape axes) j ∧ SameCoefficient axes i j := by
  intro axes
  induction axes with
  | nil => intro i hi _; cases i with
    | nil => exact ⟨[], by simp [oldShape, InShape], by simp [SameCoefficient]⟩
    | cons _ _ => simp [newShape, InShape] at hi
  | cons a as ih =>
    intro i hi h
    obtain ⟨n, o⟩ := a
    cases i with
    | nil => simp [newShape, InShape] at hi
    | cons i is =>
      simp only [newShape, List.map_cons, InShape] at hi
      obtain ⟨js, hjs, hsame⟩ := ih is hi.2 h.2
      cases o with
      | none => exact ⟨i :: js, ⟨hi.1, hjs⟩, ⟨rfl, hsame⟩⟩
      | some s => exact ⟨slot n (freq s i) :: js, ⟨slot_lt h.1, hjs⟩, ⟨(freq_slot h.1).symm, hsame⟩⟩

/-- **C01.** Every coefficient whose frequency exists on both grids is found, in the padded array, in the
slot of that frequency. -/
theorem C01_pad_keeps_frequencies [Zero α] (axes : List PadAxis) (array : List ℕ → α) (i j : List ℕ)
    (hi : InShape (newShape axes) i) (hj : InShape (oldShape axes) j) (h : SameCoefficient axes i j) :
    padFtPoints axes array i = array j := by
  have := idxSource_of_same axes i j hi hj h
  rw [padFtPoints_eq _ _ _ (by rw [newShape_eq]; exact hi), if_pos this.1, this.2]

/-- **C01.** Every other coefficient of the padded array is zero. -/
theorem C01_pad_zero_elsewhere [Zero α] (axes : List PadAxis) (array : List ℕ → α) (i : List ℕ)
    (hi : InShape (newShape axes) i) (h : ∀ j, InShape (oldShape axes) j → ¬ SameCoefficient axes i j) :
    padFtPoints axes array i = 0 := by
  rw [padFtPoints_eq _ _ _ (by rw [newShape_eq]; exact hi), if_neg]
  intro hh
  obtain ⟨j, hj, hs⟩ := exists_same_of_has axes i hi hh
  exact h j hj hs

/-- **C01.** The assignments `padded[slices] = array[slices]` never raise and never broadcast: both sides
select equally many elements on every axis and for every slice used. -/
theorem C01_pad_blocks_same_size (a : PadAxis) (sl : PySlice) (h : sl ∈ a.slices) :
    sl.hi a.newLen - sl.lo a.newLen = sl.hi a.len - sl.lo a.len := by
  obtain ⟨n, o⟩ := a
  cases o with
  | none => rfl
  | some s =>
    simp only [PadAxis.slices, List.mem_cons, List.not_mem_nil, or_false] at h
    simp only [PadAxis.newLen, PadAxis.len]
    rcases h with rfl | rfl
    · have h1 := padStart_bounds n s n (Or.inl rfl)
      have h2 := padStart_bounds n s s (Or.inr rfl)
      rw [h1.1, h1.2, h2.1, h2.2]
    · rw [(padEnd_bounds n s n (Or.inl rfl)).1, (padEnd_bounds n s s (Or.inr rfl)).1]

/-- **C01**, one axis: the coefficient of frequency `f`. -/
theorem C01_pad1_frequency [Zero α] (n s : ℕ) (v : ℕ → α) (f : ℤ) (hf : OnGrid s f) :
    pad1 n s v (slot s f) = if OnGrid n f then v (slot n f) else 0 := by
  rw [pad1_eq n s v (slot_lt hf), freq_slot hf]

-- a mixed case: pad 4 → 6 on axis 0, leave axis 1 alone, truncate 5 → 2 on axis 2
example : padFtPoints (α := ℕ) [(4, some 6), (2, none), (5, some 2)]
    (fun idx => 100 * idx.getD 0 0 + 10 * idx.getD 1 0 + idx.getD 2 0 + 1) [4, 1, 1] = 215 := by decide
example : InShape (newShape [(4, some 6), (2, none), (5, some 2)]) [4, 1, 1] ∧
    InShape (oldShape [(4, some 6), (2, none), (5, some 2)]) [2, 1, 4] ∧
    SameCoefficient [(4, some 6), (2, none), (5, some 2)] [4, 1, 1] [2, 1, 4] := by
  refine ⟨?_, ?_, ?_⟩ <;> simp [InShape, newShape, oldShape, SameCoefficient, freq]
-- a coefficient which does not exist on the old grid
example : ∀ j, InShape (oldShape [(4, some 6)]) j → ¬ SameCoefficient [(4, some 6)] [2] j := by
  intro j hj h
  match j, hj, h with
  | [j], hj, h =>
    simp only [oldShape, List.map_cons, List.map_nil, InShape] at hj
    simp only [SameCoefficient, freq] at h
    have h := h.1
    simp only [Nat.reduceMul, Nat.reduceLT, ite_true] at h
    split at h <;> omega
example : OnGrid 6 (-2) ∧ OnGrid 4 (-2) := by decide

/-- **C02.** Padding to a longer grid and back is the identity (any number of axes). -/
theorem C02_pad_round_trip [Zero α] (axes : List PadAxis) (array : List ℕ → α) (idx : List ℕ)
    (hup : ∀ a ∈ axes, ∀ s, a.2 = some s → a.1 ≤ s) (hidx : InShape (oldShape axes) idx) :
    padFtPoints (axes.map fun a => (a.2.getD a.1, a.2.map fun _ => a.1)) (padFtPoints axes array) idx
      = array idx := by
  set back := axes.map fun a : PadAxis => ((a.2.getD a.1, a.2.map fun _ => a.1) : PadAxis) with hback
  have key : ∀ (axes : List PadAxis) (idx : List ℕ), (∀ a ∈ axes, ∀ s, a.2 = some s → a.1 ≤ s) →
      InShape (oldShape axes) idx →
      ∃ mid, InShape (newShape axes) mid ∧ SameCoefficient axes mid idx ∧
        InShape (newShape (axes.map fun a : PadAxis => ((a.2.getD a.1, a.2.map fun _ => a.1) : PadAxis))) idx ∧
        InShape (oldShape (axes.map fun a : PadAxis => ((a.2.getD a.1, a.2.map fun _ => a.1) : PadAxis))) mid ∧
        SameCoefficient (axes.map fun a : PadAxis => ((a.2.getD a.1, a.2.map fun _ => a.1) : PadAxis)) idx mid := by
    intro axes
    induction axes with
    | nil => intro idx _ hi; cases idx with
      | nil => exact ⟨[], by simp [newShape, oldShape, InShape, SameCoefficient]⟩
      | cons _ _ => simp [oldShape, InShape] at hi
    | cons a as ih =>
      intro idx hup hi
      obtain ⟨n, o⟩ := a
      cases idx with
      | nil => simp [oldShape, InShape] at hi
      | cons i is =>
        simp only [oldShape, List.map_cons, InShape] at hi
        obtain ⟨mid, h1, h2, h3, h4, h5⟩ :=
          ih is (fun a ha => hup a (List.mem_cons_of_mem _ ha)) hi.2
        cases o with
        | none => exact ⟨i :: mid, ⟨hi.1, h1⟩, ⟨rfl, h2⟩, ⟨hi.1, h3⟩, ⟨hi.1, h4⟩, ⟨rfl, h5⟩⟩
        | some s =>
          have hns : n ≤ s := hup (n, some s) List.mem_cons_self s rfl
          have hg := onGrid_mono hns (freq_onGrid hi.1)
          have hfs := freq_slot hg
          exact ⟨slot s (freq n i) :: mid, ⟨slot_lt hg, h1⟩, ⟨hfs, h2⟩, ⟨hi.1, h3⟩,
            ⟨slot_lt hg, h4⟩, ⟨hfs.symm, h5⟩⟩
  obtain ⟨mid, h1, h2, h3, h4, h5⟩ := key axes idx hup hidx
  rw [C01_pad_keeps_frequencies back _ idx mid h3 h4 h5,
    C01_pad_keeps_frequencies axes array mid idx h1 hidx h2]

/-- **C02.** Truncating to a shorter grid and padding back keeps the coefficients whose frequency exists on
the short grid and zeroes the others; in particular it is idempotent. -/
theorem C02_truncate_pad_projection [Zero α] (n s : ℕ) (v : ℕ → α) {j : ℕ} (hj : j < n) :
    pad1 s n (pad1 n s v) j = if OnGrid s (freq n j) then v j else 0 := by
  rw [pad1_eq s n _ hj]
  split
  · rename_i h
    rw [pad1_eq n s v (slot_lt h), freq_slot h, if_pos (freq_onGrid hj), slot_freq hj]
  · rfl

theorem C02_truncate_pad_idempotent [Zero α] (n s : ℕ) (v : ℕ → α) {j : ℕ} (hj : j < n) :
    pad1 s n (pad1 n s (pad1 s n (pad1 n s v))) j = pad1 s n (pad1 n s v) j := by
  rw [C02_truncate_pad_projection _ _ _ hj, C02_truncate_pad_projection _ _ _ hj]
  split <;> rfl

example : (∀ a ∈ ([(4, some 7), (3, none), (1, some 1)] : List PadAxis), ∀ s, a.2 = some s → a.1 ≤ s) ∧
    InShape (oldShape [(4, some 7), (3, none), (1, some 1)]) [2, 2, 0] := by
  constructor
  · simp
  · simp [oldShape, InShape]
example : ([0, 1, 2, 3, 4].map (pad1 3 5 (pad1 5 3 (fun j => (j : ℤ) + 1)))) = [1, 2, 0, 0, 5] := by decide

end Verif
