import Verif.Lemmas.Grid
import Mathlib.Data.List.Range

/-!
# C03, C04, C05: momentum labels, flat/stacked indices, index wrapping
-/

namespace Verif

open Spec

/-! ## C03 -/

/-- **C03.** `nk_points` has one label per state. -/
theorem C03_nk_points_length (n : ℕ) : nkPointsLen n = n := nkPointsLen_eq n

/-- **C03.** Label `j` is congruent to `j`, lies in `[-n/2, n/2)`, and is the only integer doing so;
it equals `j` wrapped around the origin. -/
theorem C03_nk_points_centred_residue (n j : ℕ) (hj : j < n) :
    nkPoints n j ≡ j [ZMOD n] ∧ (-(n : ℤ) ≤ 2 * nkPoints n j ∧ 2 * nkPoints n j < n) ∧
    (∀ z : ℤ, z ≡ j [ZMOD n] → -(n : ℤ) ≤ 2 * z → 2 * z < n → z = nkPoints n j) ∧
    nkPoints n j = wrapIndex j n 0 := by
  rw [nkPoints_eq_freq hj]
  have hg := freq_onGrid hj
  refine ⟨freq_emod, hg, ?_, ?_⟩
  · intro z hz h1 h2
    exact onGrid_unique ⟨h1, h2⟩ hg (hz.trans freq_emod.symm)
  · unfold wrapIndex
    have hn : (0 : ℤ) < n := by omega
    symm
    apply onGrid_unique (n := n) _ hg
    · rw [freq_emod]
      have : ((j : ℤ) - 0 + n / 2) % n + 0 - n / 2 = ((j : ℤ) + n / 2) % n - n / 2 := by ring_nf
      rw [this, Int.emod_sub_emod]; congr 1; ring
    · unfold OnGrid
      have := Int.emod_nonneg ((j : ℤ) - 0 + n / 2) hn.ne'
      have := Int.emod_lt_of_pos ((j : ℤ) - 0 + n / 2) hn
      omega

/-- **C03.** In FFT order: `0, 1, 2, …` then the negative labels in increasing order. -/
theorem C03_nk_points_order (n j : ℕ) (hj : j < n) :
    nkPoints n j = if 2 * j < n then (j : ℤ) else j - n := nkPoints_eq_freq hj

/-- **C03.** The labels are distinct. -/
theorem C03_nk_points_injective (n i j : ℕ) (hi : i < n) (hj : j < n) (h : nkPoints n i = nkPoints n j) :
    i = j := by
  rw [nkPoints_eq_freq hi, nkPoints_eq_freq hj] at h
  rw [← slot_freq hi, ← slot_freq hj, h]

example : (List.range 5).map (nkPoints 5) = [0, 1, 2, -2, -1] := by decide
example : (List.range 4).map (nkPoints 4) = [0, 1, -2, -1] := by decide

/-! ## C04 -/

theorem ravel_lt : ∀ (shape idx : List ℕ), InShape shape idx → ravel shape idx < shape.prod
  | [], [], _ => by simp [ravel]
  | n :: ns, i :: is, h => by
    have h2 := ravel_lt ns is h.2
    have h1 : i + 1 ≤ n := h.1
    simp only [ravel, List.prod_cons]
    calc i * ns.prod + ravel ns is < i * ns.prod + ns.prod := by omega
      _ = (i + 1) * ns.prod := by ring
      _ ≤ n * ns.prod := Nat.mul_le_mul_right _ h1
  | [], _ :: _, h => by simp [InShape] at h
  | _ :: _, [], h => by simp [InShape] at h

theorem unravel_mul_add (m : ℕ) : ∀ (shape : List ℕ) (k : ℕ), unravel shape (m * shape.prod + k) = unravel shape k
  | [], _ => rfl
  | n :: ns, k => by
    simp only [unravel]
    have e : m * (n :: ns).prod + k = (m * n) * ns.prod + k := by simp [mul_assoc]
    rw [e, unravel_mul_add (m * n) ns k]
    congr 1
    rcases Nat.eq_zero_or_pos ns.prod with h0 | hp
    · simp [h0]
    · rw [show m * n * ns.prod + k = k + ns.prod * (m * n) by ring, Nat.add_mul_div_left _ _ hp, mul_comm m n,
        Nat.add_mul_mod_self_left]

theorem unravel_ravel : ∀ (shape idx : List ℕ), InShape shape idx → unravel shape (ravel shape idx) = idx
  | [], [], _ => rfl
  | n :: ns, i :: is, h => by
    have hlt := ravel_lt ns is h.2
    simp only [ravel, unravel]
    rw [unravel_mul_add, unravel_ravel ns is h.2]
    congr 1
    rw [show i * ns.prod + ravel ns is = ravel ns is + ns.prod * i by ring,
      Nat.add_mul_div_left _ _ (by omega), Nat.div_eq_of_lt hlt, zero_add, Nat.mod_eq_of_lt h.1]
  | [], _ :: _, h => by simp [InShape] at h
  | _ :: _, [], h => by simp [InShape] at h

theorem unravel_inShape : ∀ (shape : List ℕ) (k : ℕ), k < shape.prod → InShape shape (unravel shape k)
  | [], _, _ => trivial
  | n :: ns, k, h => by
    simp only [List.prod_cons] at h
    have hp : 0 < ns.prod := by
      rcases Nat.eq_zero_or_pos ns.prod with h0 | hp
      · simp [h0] at h
      · exact hp
    have hn : 0 < n := by
      rcases Nat.eq_zero_or_pos n with h0 | hp
      · simp [h0] at h
      · exact hp
    refine ⟨Nat.mod_lt _ hn, ?_⟩
    have := unravel_mul_add (k / ns.prod) ns (k % ns.prod)
    rw [mul_comm, Nat.div_add_mod] at this
    rw [this]
    exact unravel_inShape ns _ (Nat.mod_lt _ hp)

theorem ravel_unravel_mod : ∀ (shape : List ℕ) (k : ℕ), 0 < shape.prod →
    ravel shape (unravel shape k) = k % shape.prod
  | [], k, _ => by simp [ravel, Nat.mod_one]
  | n :: ns, k, h => by
    simp only [List.prod_cons] at h
    have hp : 0 < ns.prod := Nat.pos_of_mul_pos_left h
    simp only [ravel, unravel, List.prod_cons]
    rw [ravel_unravel_mod ns k hp, mul_comm n, Nat.mod_mul]
    ring

theorem ravel_unravel (shape : List ℕ) (k : ℕ) (h : k < shape.prod) :
    ravel shape (unravel shape k) = k := by
  rw [ravel_unravel_mod shape k (by omega), Nat.mod_eq_of_lt h]

theorem ravelCoords_natCast (mode : RavelMode) : ∀ (shape idx : List ℕ), InShape shape idx →
    ravelCoords mode shape (idx.map (fun i : ℕ => (i : ℤ))) = some idx
  | [], [], _ => rfl
  | n :: ns, i :: is, h => by
    simp only [List.map_cons, ravelCoords]
    rw [ravelCoords_natCast mode ns is h.2]
    have h1 := h.1
    have : ravelCoord mode n i = some i := by
      cases mode
      · simp only [ravelCoord]
        rw [if_pos (by omega)]; simp
      · simp only [ravelCoord]
        rw [if_neg (by omega), Int.emod_eq_of_lt (by omega) (by omega)]; simp
      · simp only [ravelCoord]
        rw [if_neg (by omega)]; congr 1; omega
    rw [this]
  | [], _ :: _, h => by simp [InShape] at h
  | _ :: _, [], h => by simp [InShape] at h

/-- **C04.** A valid flat index survives the trip through its stacked index, in every mode. -/
theorem C04_flat_of_stacked (mode : RavelMode) (shape : List ℕ) (k : ℕ) (hk : k < shape.prod) :
    ∃ idx, getStackedIndex shape k = some idx ∧ InShape shape idx ∧
      getFlatIndex mode shape (idx.map (fun i : ℕ => (i : ℤ))) = some k := by
  refine ⟨unravel shape k, ?_, unravel_inShape shape k hk, ?_⟩
  · simp only [getStackedIndex]; rw [if_pos ⟨by omega, by exact_mod_cast hk⟩]; simp
  · rw [getFlatIndex, ravelCoords_natCast mode _ _ (unravel_inShape shape k hk), Option.map_some,
      ravel_unravel shape k hk]

/-- **C04.** A valid stacked index survives the trip through its flat index, which is in range. -/
theorem C04_stacked_of_flat (mode : RavelMode) (shape idx : List ℕ) (h : InShape shape idx) :
    ∃ k : ℕ, getFlatIndex mode shape (idx.map (fun i : ℕ => (i : ℤ))) = some k ∧ k < shape.prod ∧
      getStackedIndex shape k = some idx := by
  refine ⟨ravel shape idx, ?_, ravel_lt shape idx h, ?_⟩
  · rw [getFlatIndex, ravelCoords_natCast mode _ _ h, Option.map_some]
  · simp only [getStackedIndex]
    rw [if_pos ⟨by omega, by exact_mod_cast ravel_lt shape idx h⟩]
    simp [unravel_ravel shape idx h]

/-- **C04.** Flat indices out of range raise. -/
theorem C04_stacked_out_of_range (shape : List ℕ) (k : ℤ) (h : k < 0 ∨ (shape.prod : ℤ) ≤ k) :
    getStackedIndex shape k = none := by
  unfold getStackedIndex; rw [if_neg]; omega

/-- An integer stacked index is inside the shape. -/
def InShapeInt : List ℕ → List ℤ → Prop
  | [], [] => True
  | n :: ns, i :: is => (0 ≤ i ∧ i < n) ∧ InShapeInt ns is
  | _, _ => False

/-- **C04.** Mode `raise` raises exactly when some coordinate is out of range (or the number of
coordinates is wrong). -/
theorem C04_raise_iff (shape : List ℕ) (idx : List ℤ) :
    (getFlatIndex .raise shape idx).isSome ↔ InShapeInt shape idx := by
  unfold getFlatIndex
  rw [Option.isSome_map]
  induction shape generalizing idx with
  | nil => cases idx <;> simp [ravelCoords, InShapeInt]
  | cons n ns ih =>
    cases idx with
    | nil => simp [ravelCoords, InShapeInt]
    | cons i is =>
      have := ih is
      simp only [ravelCoords, InShapeInt, ravelCoord]
      by_cases h : 0 ≤ i ∧ i < n
      · rw [if_pos h]
        cases hr : ravelCoords .raise ns is <;> simp_all
      · rw [if_neg h]; simp [h]

/-- **C04.** Mode `wrap` is mode `raise` on the coordinates reduced modulo the axis lengths. -/
theorem C04_wrap_mod (shape : List ℕ) (idx : List ℤ) (hlen : idx.length = shape.length)
    (hpos : ∀ n ∈ shape, 0 < n) :
    getFlatIndex .wrap shape idx =
      getFlatIndex .raise shape (List.zipWith (fun (n : ℕ) i => i % (n : ℤ)) shape idx) := by
  unfold getFlatIndex
  congr 1
  induction shape generalizing idx with
  | nil => cases idx <;> simp_all [ravelCoords]
  | cons n ns ih =>
    cases idx with
    | nil => simp at hlen
    | cons i is =>
      have hn : 0 < n := hpos n List.mem_cons_self
      simp only [List.zipWith_cons_cons, ravelCoords]
      rw [ih is (by simpa using hlen) (fun m hm => hpos m (List.mem_cons_of_mem _ hm))]
      have : ravelCoord .wrap n i = ravelCoord .raise n (i % n) := by
        simp only [ravelCoord]
        rw [if_neg (by omega), if_pos ⟨Int.emod_nonneg _ (by omega), Int.emod_lt_of_pos _ (by omega)⟩]
      rw [this]

/-- **C04.** Mode `clip` is mode `raise` on the coordinates clamped to the nearest valid coordinate. -/
theorem C04_clip_clamp (shape : List ℕ) (idx : List ℤ) (hlen : idx.length = shape.length)
    (hpos : ∀ n ∈ shape, 0 < n) :
    getFlatIndex .clip shape idx =
      getFlatIndex .raise shape (List.zipWith
        (fun (n : ℕ) i => if i < 0 then 0 else if (n : ℤ) ≤ i then (n : ℤ) - 1 else i) shape idx) := by
  unfold getFlatIndex
  congr 1
  induction shape generalizing idx with
  | nil => cases idx <;> simp_all [ravelCoords]
  | cons n ns ih =>
    cases idx with
    | nil => simp at hlen
    | cons i is =>
      have hn : 0 < n := hpos n List.mem_cons_self
      simp only [List.zipWith_cons_cons, ravelCoords]
      rw [ih is (by simpa using hlen) (fun m hm => hpos m (List.mem_cons_of_mem _ hm))]
      have : ravelCoord .clip n i =
          ravelCoord .raise n (if i < 0 then 0 else if (n : ℤ) ≤ i then (n : ℤ) - 1 else i) := by
        simp only [ravelCoord]
        rw [if_neg (by omega)]
        split <;> [skip; split] <;> (rw [if_pos (by omega)]; congr 1; omega)
      rw [this]

example : getFlatIndex .wrap [3, 4, 2] [-1, 5, 1] = some 19 ∧ getFlatIndex .raise [3, 4, 2] [-1, 5, 1] = none
    ∧ getFlatIndex .clip [3, 4, 2] [-1, 5, 1] = some 7 ∧ getStackedIndex [3, 4, 2] 19 = some [2, 1, 1] := by
  decide
example : InShape [3, 4, 2] [2, 1, 1] ∧ (19 : ℕ) < [3, 4, 2].prod := by
  constructor
  · simp [InShape]
  · decide

/-! ## C05 -/

/-- **C05.** One coordinate: congruent, in the window, and the only such integer. -/
theorem C05_wrap_index_window (d L o : ℤ) (hL : 0 < L) :
    wrapIndex d L o ≡ d [ZMOD L] ∧ o - L / 2 ≤ wrapIndex d L o ∧ wrapIndex d L o < o - L / 2 + L := by
  unfold wrapIndex
  have h1 := Int.emod_nonneg (d - o + L / 2) hL.ne'
  have h2 := Int.emod_lt_of_pos (d - o + L / 2) hL
  refine ⟨?_, by omega, by omega⟩
  have e := Int.mul_ediv_add_emod (d - o + L / 2) L
  have : (d - o + L / 2) % L + o - L / 2 = d - L * ((d - o + L / 2) / L) := by omega
  rw [this]
  exact (Int.modEq_iff_dvd.2 ⟨(d - o + L / 2) / L, by ring⟩)

/-- **C05.** Uniqueness in the window. -/
theorem C05_wrap_index_unique (d L o z : ℤ) (hL : 0 < L) (hz : z ≡ d [ZMOD L])
    (h1 : o - L / 2 ≤ z) (h2 : z < o - L / 2 + L) : z = wrapIndex d L o := by
  obtain ⟨hw, hw1, hw2⟩ := C05_wrap_index_window d L o hL
  have hd : L ∣ wrapIndex d L o - z := Int.modEq_iff_dvd.1 (hz.trans hw.symm)
  obtain ⟨k, hk⟩ := hd
  have : k = 0 := by
    by_contra hne
    rcases lt_or_gt_of_ne hne with h | h
    · have : L * k ≤ L * (-1) := Int.mul_le_mul_of_nonneg_left (by omega) hL.le
      omega
    · have : L * 1 ≤ L * k := Int.mul_le_mul_of_nonneg_left (by omega) hL.le
      omega
  subst this
  omega

/-- **C05.** Idempotent, periodic, and closest: no equivalent index is strictly closer to the origin. -/
theorem C05_wrap_index_closest (d L o z : ℤ) (hL : 0 < L) (hz : z ≡ d [ZMOD L]) :
    wrapIndex (wrapIndex d L o) L o = wrapIndex d L o ∧ wrapIndex z L o = wrapIndex d L o ∧
    |wrapIndex d L o - o| ≤ |z - o| := by
  obtain ⟨hw, hw1, hw2⟩ := C05_wrap_index_window d L o hL
  refine ⟨(C05_wrap_index_unique _ L o _ hL rfl hw1 hw2).symm,
    (C05_wrap_index_unique z L o _ hL (hw.trans hz.symm) hw1 hw2).symm, ?_⟩
  obtain ⟨k, hk⟩ := Int.modEq_iff_dvd.1 (hw.trans hz.symm)
  rcases lt_trichotomy k 0 with h | h | h
  · have : L * k ≤ L * (-1) := Int.mul_le_mul_of_nonneg_left (by omega) hL.le
    rw [abs_le]
    have := neg_abs_le (z - o)
    have := le_abs_self (z - o)
    constructor <;> omega
  · subst h; simp at hk; rw [show wrapIndex d L o = z by omega]
  · have : L * 1 ≤ L * k := Int.mul_le_mul_of_nonneg_left (by omega) hL.le
    rw [abs_le]
    have := neg_abs_le (z - o)
    have := le_abs_self (z - o)
    constructor <;> omega

/-- **C05.** `wrap_index_around_origin` on a stacked index: selected axes are wrapped, the others are
returned unchanged, and the number of axes is kept. -/
theorem C05_wrap_stacked (shape : List ℕ) (axes : Option (List ℕ)) (origin : Option (List ℤ)) (idx : List ℤ)
    (hpos : ∀ n ∈ shape, 0 < n) :
    (wrapIndexAroundOrigin shape axes origin idx).length = shape.length ∧
    ∀ ax (hax : ax < shape.length),
      (if (∀ a, axes = some a → ax ∈ a) then
        let o := (origin.map fun l => l.getD ax 0).getD 0
        let w := (wrapIndexAroundOrigin shape axes origin idx).getD ax 0
        w ≡ idx.getD ax 0 [ZMOD shape[ax]] ∧ o - shape[ax] / 2 ≤ w ∧ w < o - shape[ax] / 2 + shape[ax]
      else (wrapIndexAroundOrigin shape axes origin idx).getD ax 0 = idx.getD ax 0) := by
  refine ⟨by simp [wrapIndexAroundOrigin], ?_⟩
  intro ax hax
  have hp := hpos _ (List.getElem_mem hax)
  have hs : shape.getD ax 0 = shape[ax] := by simp [List.getD, hax]
  have hw : (wrapIndexAroundOrigin shape axes origin idx).getD ax 0 =
      if (∀ a, axes = some a → ax ∈ a) then
        wrapIndex (idx.getD ax 0) shape[ax] ((origin.map fun l => l.getD ax 0).getD 0)
      else idx.getD ax 0 := by
    have : (wrapIndexAroundOrigin shape axes origin idx).getD ax 0 =
        (wrapIndexAroundOrigin shape axes origin idx)[ax]'(by simpa [wrapIndexAroundOrigin] using hax) := by
      rw [List.getD, List.getElem?_eq_getElem (by simpa [wrapIndexAroundOrigin] using hax)]
      rfl
    rw [this]
    simp only [wrapIndexAroundOrigin, List.getElem_map, List.getElem_range]
    cases axes with
    | none => cases origin <;> simp [hax]
    | some axs => cases origin <;> simp [hax]
  rw [hw]
  split
  · exact C05_wrap_index_window _ _ _ (by exact_mod_cast hp)
  · rfl

example : wrapIndexAroundOrigin [4, 5, 3] (some [0, 1]) none [2, 4, 7] = [-2, -1, 7] := by decide
example : wrapIndexAroundOrigin [4, 5, 3] none (some [10, -3, 1]) [2, 4, 7] = [10, -1, 1] := by decide

end Verif
