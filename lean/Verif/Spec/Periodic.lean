import Mathlib.Data.Matrix.Mul
import Mathlib.Data.Real.Sqrt

/-!
Distances on a torus: points of the space, up to lattice vectors.
-/

set_option autoImplicit false

namespace Verif.Spec

/-- `D` is the distance of the points `u` and `v` modulo the lattice spanned by the rows of `A`: the shortest length of
`u - v - R` for a lattice vector `R`. -/
def IsPeriodicDistance {d : ℕ} (A : Matrix (Fin d) (Fin d) ℝ) (u v : Fin d → ℝ) (D : ℝ) : Prop :=
  IsLeast {r | ∃ m : Fin d → ℤ, r = Real.sqrt (∑ c, (u c - v c - ∑ i, (m i : ℝ) * A i c) ^ 2)} D

end Verif.Spec
