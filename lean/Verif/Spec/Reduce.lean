import Verif.Model.Grid
import Mathlib.Algebra.BigOperators.Group.Finset.Basic

/-!
Specification of sums over axes of an array.
-/

set_option autoImplicit false

namespace Verif.Spec

open Finset

/-- The entries of a list at positions outside `axes`, when the first entry has position `k`. -/
def keepFrom {α : Type*} (axes : List ℕ) : ℕ → List α → List α
  | _, [] => []
  | k, x :: xs => if k ∈ axes then keepFrom axes (k + 1) xs else x :: keepFrom axes (k + 1) xs

/-- The entries of a list at positions in `axes`. -/
def loseFrom {α : Type*} (axes : List ℕ) : ℕ → List α → List α
  | _, [] => []
  | k, x :: xs => if k ∈ axes then x :: loseFrom axes (k + 1) xs else loseFrom axes (k + 1) xs

/-- The sum of all entries of an array (listed in row-major order) whose index agrees with `j` on the axes which are
kept. -/
def marginal {α : Type*} [AddCommMonoid α] (shape axes : List ℕ) (data : ℕ → α) (j : List ℕ) : α :=
  ∑ m ∈ range shape.prod, if keepFrom axes 0 (unravel shape m) = j then data m else 0

end Verif.Spec
