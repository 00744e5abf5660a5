import Mathlib.Data.Int.Notation
import Mathlib.Data.Int.Order.Basic
import Mathlib.Data.List.Basic

/-!
`slice_along_axis` (`util/util.py:19-35`), with the meaning which numpy gives to its result: basic indexing of an array, of which the shape is a list and an
entry is found by the list of its indices.
-/

set_option autoImplicit false

namespace Verif

/-- A python `slice(start, stop, step)`. -/
structure StepSlice where
  start : Option ℤ := none
  stop : Option ℤ := none
  step : Option ℤ := none

/-- `slice.indices` of python for one bound: `lower` and `upper` are the extreme values of the bound, negative bounds count from the end. -/
def clampBound (n : ℕ) (lower upper b : ℤ) : ℤ := if b < 0 then max (b + n) lower else min b upper

/-- The positions which a slice takes of a sequence with `n` entries, `range(*slice.indices(n))` of python. A step of zero raises. -/
def StepSlice.positions (s : StepSlice) (n : ℕ) : Option (List ℕ) :=
  let step := s.step.getD 1
  if step = 0 then none
  else if 0 < step then
    let start := (s.start.map (clampBound n 0 n)).getD 0
    let stop := (s.stop.map (clampBound n 0 n)).getD n
    some ((List.range ((stop - start + step - 1) / step).toNat).map fun k : ℕ => (start + (k : ℤ) * step).toNat)
  else
    let start := (s.start.map (clampBound n (-1) (n - 1))).getD (n - 1)
    let stop := (s.stop.map (clampBound n (-1) (n - 1))).getD (-1)
    some ((List.range ((start - stop - step - 1) / -step).toNat).map fun k : ℕ => (start + (k : ℤ) * step).toNat)

/-- An entry of the index of an array: `...`, `None`, a slice or an integer. -/
inductive IndexItem
  | ellipsis
  | newaxis
  | slice (s : StepSlice)
  | int (i : ℤ)

/-- `slice(None)`. -/
def IndexItem.full : IndexItem := .slice {}

/-- Whether the entry is `...`. -/
def IndexItem.isEllipsis : IndexItem → Bool
  | .ellipsis => true
  | _ => false

/-- Whether the entry belongs to an axis of the array. -/
def IndexItem.usesAxis : IndexItem → Bool
  | .slice _ => true
  | .int _ => true
  | _ => false

/-- `slice_along_axis`, `util/util.py:19-35`. -/
def sliceAlongAxis (item : IndexItem) (axis : ℤ) : List IndexItem :=
  if axis < 0 then .ellipsis :: item :: List.replicate (-1 - axis).toNat .full else List.replicate axis.toNat .full ++ [item]

/-- The index of numpy with one entry for each axis: `...`, or the end without it, stands for the axes which are not given. More entries than axes, or two `...`, raise. -/
def fillEllipsis (items : List IndexItem) (ndim : ℕ) : Option (List IndexItem) :=
  let used := items.countP IndexItem.usesAxis
  if ndim < used ∨ 1 < items.countP IndexItem.isEllipsis then none
  else if items.any IndexItem.isEllipsis then
    some (items.flatMap fun i => if i.isEllipsis then List.replicate (ndim - used) .full else [i])
  else some (items ++ List.replicate (ndim - used) .full)

/-- Basic indexing of numpy: the shape of the result, and the index of the entry of the array for an index of the result. -/
def basicIndex : List IndexItem → List ℕ → Option (List ℕ × (List ℕ → List ℕ))
  | [], [] => some ([], fun _ => [])
  | .newaxis :: is, ns => (basicIndex is ns).map fun r => (1 :: r.1, fun idx => r.2 idx.tail)
  | .slice s :: is, n :: ns => (s.positions n).bind fun p => (basicIndex is ns).map fun r => (p.length :: r.1, fun idx => p.getD (idx.headD 0) 0 :: r.2 idx.tail)
  | .int i :: is, n :: ns =>
    if -(n : ℤ) ≤ i ∧ i < n then (basicIndex is ns).map fun r => (r.1, fun idx => (i % (n : ℤ)).toNat :: r.2 idx) else none
  | _, _ => none

/-- `array[index]` of numpy for an array of the given shape. -/
def basicIndexing (items : List IndexItem) (shape : List ℕ) : Option (List ℕ × (List ℕ → List ℕ)) :=
  (fillEllipsis items shape.length).bind fun is => basicIndex is shape

end Verif
