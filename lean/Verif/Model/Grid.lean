import Mathlib.Data.Int.ModEq
import Mathlib.Tactic.Ring
import Mathlib.Tactic.Linarith

/-!
Index grids: `nk_points`, flat/stacked indices, index wrapping, `pad_ft_points`.

A 1-D numpy array of length `n` is a function `ℕ → α`, only read at indices `< n`.
An n-D array of shape `ns` is a function `List ℕ → α`, only read at multi-indices inside `ns`.
Python's `//` and `%` with a positive right operand are Lean's `Int` `/` and `%`.
-/

namespace Verif

variable {α : Type*}

/-- `np.roll(v, shift)` on an axis of length `n`: entry `j` of the result is entry `j - shift` (cyclically)
of the input.  numpy primitive used at `util/..`, `basis/evenly_spaced_basis.py:40,55`,
`dynamics/util.py:46`. -/
def roll (n : ℕ) (shift : ℤ) (v : ℕ → α) : ℕ → α :=
  fun j => v (((j : ℤ) - shift) % (n : ℤ)).toNat

/-- `np.fft.ifftshift(v)` = `np.roll(v, -(n // 2))`; numpy primitive used at `basis/util.py:118,128`. -/
def ifftshift (n : ℕ) (v : ℕ → α) : ℕ → α := roll n (-((n : ℤ) / 2)) v

/-- `np.fft.fftshift(v)` = `np.roll(v, n // 2)`. -/
def fftshift (n : ℕ) (v : ℕ → α) : ℕ → α := roll n ((n : ℤ) / 2) v

/-- Length of `np.arange(lo, hi)` for integers. -/
def arangeLen (lo hi : ℤ) : ℕ := (hi - lo).toNat

/-- Entry `k` of `np.arange(lo, hi)` for integers. -/
def arange (lo : ℤ) : ℕ → ℤ := fun k => lo + k

/-- `BasisUtil.nk_points` (`basis/util.py:114-120`), also `fundamental_nk_points`
(`basis/util.py:122-130`, with `n` the fundamental size):
`np.fft.ifftshift(np.arange((-n + 1) // 2, (n + 1) // 2))`. -/
def nkPoints (n : ℕ) : ℕ → ℤ :=
  ifftshift (arangeLen ((-(n : ℤ) + 1) / 2) (((n : ℤ) + 1) / 2)) (arange ((-(n : ℤ) + 1) / 2))

/-- Number of entries of `nk_points` (`basis/util.py:118-120`). -/
def nkPointsLen (n : ℕ) : ℕ := arangeLen ((-(n : ℤ) + 1) / 2) (((n : ℤ) + 1) / 2)

/-- `_wrap_index(distance, length, origin)` (`stacked_basis/util.py:249-250`). -/
def wrapIndex (d L o : ℤ) : ℤ := (d - o + L / 2) % L + o - L / 2

/-- `wrap_index_around_origin` (`stacked_basis/util.py:275-304`) for a stacked index given as one entry
per axis; `axes = none` wraps every axis.  The `origin` argument is already in stacked form
(line 298 unravels a flat one, see `unravel`); `origin = none` is the zero index (line 297).
Lists shorter than `ndim` are an `IndexError` in python: `zipWith3`-like recursion here stops instead, the
theorems assume equal lengths. -/
def wrapIndexAroundOrigin (shape : List ℕ) (axes : Option (List ℕ)) (origin : Option (List ℤ))
    (idx : List ℤ) : List ℤ :=
  (List.range shape.length).map fun ax =>
    let o := match origin with
      | none => 0
      | some os => os.getD ax 0
    match axes with
    | none => wrapIndex (idx.getD ax 0) (shape.getD ax 0) o
    | some axs =>
      if ax ∈ axs then wrapIndex (idx.getD ax 0) (shape.getD ax 0) o else idx.getD ax 0

/-- `np.ravel_multi_index` in C order for in-range coordinates; `basis/util.py:272`. -/
def ravel : List ℕ → List ℕ → ℕ
  | _ :: ns, i :: is => i * ns.prod + ravel ns is
  | _, _ => 0

/-- `np.unravel_index` in C order, `basis/util.py:303` (`get_stacked_index`, flat index in range). -/
def unravel : List ℕ → ℕ → List ℕ
  | [], _ => []
  | n :: ns, k => (k / ns.prod) % n :: unravel ns k

/-- The `mode` argument of `get_flat_index` (`basis/util.py:255`). -/
inductive RavelMode | raise | wrap | clip
  deriving DecidableEq

/-- How `np.ravel_multi_index` treats one coordinate for each mode: `raise` is a `ValueError` (`none`)
out of range, `wrap` reduces modulo the axis length, `clip` clamps. -/
def ravelCoord (mode : RavelMode) (n : ℕ) (i : ℤ) : Option ℕ :=
  match mode with
  | .raise => if 0 ≤ i ∧ i < n then some i.toNat else none
  | .wrap => if n = 0 then none else some (i % n).toNat
  | .clip => if n = 0 then none else some (min (max i 0) (n - 1)).toNat

/-- All coordinates of a stacked index, `none` when some coordinate raises or the number of
coordinates is wrong (`ValueError` in numpy). -/
def ravelCoords (mode : RavelMode) : List ℕ → List ℤ → Option (List ℕ)
  | [], [] => some []
  | n :: ns, i :: is =>
    match ravelCoord mode n i, ravelCoords mode ns is with
    | some a, some as => some (a :: as)
    | _, _ => none
  | _, _ => none

/-- `BasisUtil.get_flat_index(idx, mode=mode)` (`basis/util.py:251-272`). -/
def getFlatIndex (mode : RavelMode) (shape : List ℕ) (idx : List ℤ) : Option ℕ :=
  (ravelCoords mode shape idx).map (ravel shape)

/-- `BasisUtil.get_stacked_index(idx)` (`basis/util.py:288-303`); numpy raises `ValueError` when the flat
index is out of range. -/
def getStackedIndex (shape : List ℕ) (k : ℤ) : Option (List ℕ) :=
  if 0 ≤ k ∧ k < (shape.prod : ℤ) then some (unravel shape k.toNat) else none

/-- `BasisUtil.stacked_nk_points` (`basis/util.py:191-199`): the flattened `ij` mesh grid of the labels
of each axis; entry `k` of coordinate `ax`. -/
def stackedNkPoints (shape : List ℕ) (k : ℕ) : List ℤ :=
  List.zipWith (fun n j => nkPoints n j) shape (unravel shape k)

/-- `BasisUtil.stacked_nx_points` (`basis/util.py:212-220`): flattened `ij` mesh grid of `arange(n)`. -/
def stackedNxPoints (shape : List ℕ) (k : ℕ) : List ℕ := unravel shape k

end Verif
