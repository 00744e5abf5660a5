import Verif.Model.Grid

/-!
`pad_ft_points` (`util/interpolation.py:21-77`), with python's slice resolution.
-/

namespace Verif

variable {α : Type*}

/-- A python `slice(start, stop)` without step. -/
structure PySlice where
  start : Option ℤ
  stop : Option ℤ
  deriving DecidableEq

/-- Python's resolution of one bound of a slice on a sequence of length `L`:
negative bounds count from the end, everything is clamped to `[0, L]`. -/
def resolveBound (L : ℕ) (b : ℤ) : ℕ :=
  if b < 0 then ((L : ℤ) + b).toNat else min b.toNat L

/-- First index selected by a slice on length `L`. -/
def PySlice.lo (L : ℕ) (s : PySlice) : ℕ :=
  match s.start with
  | none => 0
  | some b => resolveBound L b

/-- One past the last index selected by a slice on length `L`. -/
def PySlice.hi (L : ℕ) (s : PySlice) : ℕ :=
  match s.stop with
  | none => L
  | some b => resolveBound L b

/-- `slice(None)`. -/
def fullSlice : PySlice := ⟨none, none⟩

/-- The start slice of an axis, `slice(1 + min((n - 1) // 2, (s - 1) // 2))`,
`util/interpolation.py:56`. -/
def padStartSlice (n s : ℕ) : PySlice :=
  ⟨none, some (1 + min (((n : ℤ) - 1) / 2) (((s : ℤ) - 1) / 2))⟩

/-- The end slice of an axis, `slice(start, None)` with
`start = max((-n + 1) // 2, (-s + 1) // 2)` when negative, otherwise `slice(0, 0)`,
`util/interpolation.py:64-67`. -/
def padEndSlice (n s : ℕ) : PySlice :=
  let start := max ((-(n : ℤ) + 1) / 2) ((-(s : ℤ) + 1) / 2)
  if start < 0 then ⟨some start, none⟩ else ⟨some 0, some 0⟩

/-- One axis of the array: its length and, when the axis is listed in `axes`, the target length from `s`.
(Simplification: `axes` holds distinct axes, so that each axis has at most one target.) -/
abbrev PadAxis := ℕ × Option ℕ

/-- Length of an axis of the input. -/
def PadAxis.len (a : PadAxis) : ℕ := a.1

/-- Length of the axis of the result, `padded_shape[axes_arr] = s` (`util/interpolation.py:47-48`). -/
def PadAxis.newLen (a : PadAxis) : ℕ :=
  match a.2 with
  | none => a.1
  | some s => s

/-- The pair `slice_start[ax], slice_end[ax]` (`util/interpolation.py:53-71`); `slice(None)` twice for an
axis which is not padded. -/
def PadAxis.slices (a : PadAxis) : List PySlice :=
  match a.2 with
  | none => [fullSlice, fullSlice]
  | some s => [padStartSlice a.1 s, padEndSlice a.1 s]

/-- `itertools.product` of lists (`util/interpolation.py:74`). -/
def product {β : Type*} : List (List β) → List (List β)
  | [] => [[]]
  | l :: ls => l.flatMap fun x => (product ls).map fun xs => x :: xs

/-- Whether a multi-index lies in the block selected by the slices of an array of the given shape. -/
def inBlock : List ℕ → List PySlice → List ℕ → Bool
  | n :: ns, s :: ss, i :: is => decide (s.lo n ≤ i ∧ i < s.hi n) && inBlock ns ss is
  | [], [], [] => true
  | _, _, _ => false

/-- The index of the source element that lands on index `i` of the destination block. -/
def blockSource : List ℕ → List ℕ → List PySlice → List ℕ → List ℕ
  | d :: ds, n :: ns, s :: ss, i :: is => (i - s.lo d + s.lo n) :: blockSource ds ns ss is
  | _, _, _, _ => []

/-- `padded[slices] = array[slices]` (`util/interpolation.py:75`): `ds` is the shape of `padded`, `ns` the shape of
`array`. (numpy raises when block shapes differ, apart from broadcasting of length one blocks; the theorem
`padBlocks_same_size` shows that they never differ.) -/
def assignBlock (ds ns : List ℕ) (ss : List PySlice) (array padded : List ℕ → α) : List ℕ → α :=
  fun idx => if inBlock ds ss idx then array (blockSource ds ns ss idx) else padded idx

/-- `pad_ft_points(array, s, axes)` (`util/interpolation.py:21-77`). -/
def padFtPoints [Zero α] (axes : List PadAxis) (array : List ℕ → α) : List ℕ → α :=
  (product (axes.map PadAxis.slices)).foldl
    (fun padded ss => assignBlock (axes.map PadAxis.newLen) (axes.map PadAxis.len) ss array padded)
    (fun _ => 0)

/-- `pad_ft_points` along a single axis, the rest of the array being spectators: this is the case
`axes=(axis,)` used by the basis classes (`basis/basis.py:120,134,184,197`). -/
def pad1 [Zero α] (n s : ℕ) (v : ℕ → α) : ℕ → α :=
  fun j => padFtPoints [(n, some s)] (fun idx => v (idx.headD 0)) [j]

end Verif
