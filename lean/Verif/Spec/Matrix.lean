import Mathlib.Data.Matrix.Mul
import Mathlib.Data.Complex.Basic

/-!
Specification: the matrix listed row by row in a flat array.
-/

set_option autoImplicit false

namespace Verif.Spec

/-- The `m × n` matrix whose entries are listed row by row. -/
def matrix (m n : ℕ) (data : ℕ → ℂ) : Matrix (Fin m) (Fin n) ℂ := fun i j => data (i * n + j)

/-- The `m × n` matrix number `t` of a list of matrices. -/
def matrixAt (m n : ℕ) (data : ℕ → ℂ) (t : ℕ) : Matrix (Fin m) (Fin n) ℂ := fun i j => data (t * (m * n) + (i * n + j))

end Verif.Spec
