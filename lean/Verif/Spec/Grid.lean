import Mathlib.Data.Int.ModEq

/-!
Specification of FFT grids, independent of the model.
-/

namespace Verif.Spec

/-- The frequencies of an FFT grid with `n` points: the integers `f` with `-n/2 ≤ f < n/2`
(numpy `fftfreq(n) * n`). -/
def OnGrid (n : ℕ) (f : ℤ) : Prop := -(n : ℤ) ≤ 2 * f ∧ 2 * f < n

instance (n : ℕ) (f : ℤ) : Decidable (OnGrid n f) := by unfold OnGrid; infer_instance

/-- The storage slot of frequency `f` in numpy's FFT order: nonnegative frequencies first, negative ones
counted back from the end. -/
def slot (n : ℕ) (f : ℤ) : ℕ := if 0 ≤ f then f.toNat else ((n : ℤ) + f).toNat

/-- The frequency stored in slot `j` of a grid with `n` points. -/
def freq (n j : ℕ) : ℤ := if 2 * j < n then j else (j : ℤ) - n

/-- A multi-index is inside a shape. -/
def InShape : List ℕ → List ℕ → Prop
  | [], [] => True
  | n :: ns, i :: is => i < n ∧ InShape ns is
  | _, _ => False

end Verif.Spec

namespace Verif.Spec

/-- Two multi-indices, `i` into an array padded to new lengths and `j` into the original array, address the
same coefficient: on an axis with a new length the two slots hold the same frequency, on any other axis the
coordinates agree.  Each axis is given as (old length, new length if the axis is padded). -/
def SameCoefficient : List (ℕ × Option ℕ) → List ℕ → List ℕ → Prop
  | [], [], [] => True
  | (_, none) :: as, i :: is, j :: js => i = j ∧ SameCoefficient as is js
  | (n, some s) :: as, i :: is, j :: js => freq s i = freq n j ∧ SameCoefficient as is js
  | _, _, _ => False

/-- The shape of the original array. -/
def oldShape (axes : List (ℕ × Option ℕ)) : List ℕ := axes.map Prod.fst

/-- The shape of the padded array. -/
def newShape (axes : List (ℕ × Option ℕ)) : List ℕ := axes.map fun a => a.2.getD a.1

end Verif.Spec
