import Mathlib.Data.List.Basic

/-!
Index helpers of `util/util.py`: slices which keep some axes, argsort ranks, transposition.

An n-dimensional array is a function of the list of its indices together with its shape (a list). A basic slice is a
list with one entry for each axis: `none` for `slice(None)` and `some i` for an integer. Axes and indices are
non-negative here: negative axes are not modelled.
-/

namespace Verif

/-- `slice_ignoring_axes`, `util/util.py:38-59`: `for axis in sorted(axes): old_slice.insert(axis, slice(None))`.
`list.insert` past the end appends. -/
def sliceIgnoringAxes {α : Type*} (oldSlice : List α) (axes : List ℕ) : List (Option α) :=
  (axes.mergeSort (fun a b => decide (a ≤ b))).foldl
    (fun s axis => s.insertIdx (min axis s.length) none) (oldSlice.map some)

/-- `np.argsort` of a list of integers (for distinct entries the result does not depend on the algorithm). -/
def argsort (l : List ℕ) : List ℕ :=
  (List.range l.length).mergeSort (fun i j => decide (l.getD i 0 ≤ l.getD j 0))

/-- `get_position_in_sorted`, `util/util.py:62-76`. -/
def getPositionInSorted (axes : List ℕ) : List ℕ := argsort (argsort axes)

/-- The index of the full array read by position `idx` of the array `data[slice]`. -/
def fillSlice {α : Type*} : List (Option α) → List α → List α
  | [], _ => []
  | some i :: s, idx => i :: fillSlice s idx
  | none :: s, j :: idx => j :: fillSlice s idx
  | none :: _, [] => []

/-- The shape of `data[slice]`. -/
def sliceShape {α : Type*} : List (Option α) → List ℕ → List ℕ
  | none :: s, n :: ns => n :: sliceShape s ns
  | some _ :: s, _ :: ns => sliceShape s ns
  | _, _ => []

/-- `np.transpose(arr, perm)`: axis `k` of the result is axis `perm[k]` of the array, so that position `idx` of
the result reads the position with `idx[k]` at place `perm[k]`. -/
def transposeIndex (perm idx : List ℕ) : List ℕ :=
  (List.range perm.length).map fun p => idx.getD (perm.idxOf p) 0

/-- `get_data_in_axes`, `util/util.py:106-127`: the data. -/
def getDataInAxes {β : Type*} (data : List ℕ → β) (axes idx : List ℕ) : List ℕ → β :=
  fun is => data (fillSlice (sliceIgnoringAxes idx axes) (transposeIndex (getPositionInSorted axes) is))

/-- `get_data_in_axes`, `util/util.py:106-127`: the shape. -/
def getDataInAxesShape (shape axes idx : List ℕ) : List ℕ :=
  (getPositionInSorted axes).map fun p => (sliceShape (sliceIgnoringAxes idx axes) shape).getD p 0

end Verif
