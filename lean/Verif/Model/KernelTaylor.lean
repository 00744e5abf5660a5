import Verif.Model.KernelFft
import Mathlib.LinearAlgebra.Matrix.NonsingularInverse

/-!
Noise operators by Taylor series and by polynomial fits, `kernel/solve/_taylor.py`.

`np.linalg.solve` is multiplication with the inverse matrix. `np.polynomial.Chebyshev.fit` is a parameter.
-/

set_option autoImplicit false

namespace Verif

open Finset

/-- `np.max` of an array of `size` numbers. -/
def arrayMax (size : ℕ) (p : ℕ → ℝ) : ℝ := ((List.range size).map p).foldl max (p 0)

open Classical in
/-- `n_nonzero_terms` of `_get_cos_coefficients_for_taylor_series`, `kernel/solve/_taylor.py:61-66`: the number of coefficients
in front of the first one which `np.isclose` takes for zero, at most `n_terms`. -/
noncomputable def nonzeroTerms (size : ℕ) (p : ℕ → ℝ) (nTerms : ℕ) : ℕ :=
  let atol := 1e-8 * arrayMax size p
  min ((List.range size).findIdx fun m => decide (|p m| ≤ atol)) nTerms

/-- `coefficients_matrix` of `_get_cos_coefficients_for_taylor_series`, `kernel/solve/_taylor.py:69-72`. -/
noncomputable def cosMatrix (k : ℕ) : Matrix (Fin k) (Fin k) ℝ :=
  Matrix.of fun m i => (-1) ^ (m : ℕ) / ((2 * (m : ℕ)).factorial : ℝ) * ((i : ℕ) : ℝ) ^ (2 * (m : ℕ))

/-- `_get_cos_coefficients_for_taylor_series`, `kernel/solve/_taylor.py:54-78`. -/
noncomputable def cosCoefficients (size : ℕ) (p : ℕ → ℝ) (nTerms : Option ℕ) : ℕ → ℝ :=
  let k := nonzeroTerms size p (nTerms.getD size)
  let solution := (cosMatrix k)⁻¹.mulVec fun m => p m
  fun i => if h : i < k then solution ⟨i, h⟩ else 0

/-- The coefficients of the cosines, then those of the sines in the opposite order without the first:
`np.concatenate([c, c[:0:-1]])`, as in `kernel/solve/_taylor.py:89-90` and `kernel/solve/_taylor.py:200-202`, for `f` coefficients
(`2 f - 1` entries, none for `f = 0`). -/
def mirrored {α : Type*} (f : ℕ) (c : ℕ → α) : ℕ → α := fun a => if a < f then c a else c (f - 1 - (a - f))

/-- `get_periodic_noise_operators_explicit_taylor_expansion`, `kernel/solve/_taylor.py:93-117`, with
`_get_periodic_coefficients_for_taylor_series`, `kernel/solve/_taylor.py:81-90`, called without `n_terms`. -/
noncomputable def explicitTaylor (n size : ℕ) (p : ℕ → ℝ) (nTerms : Option ℕ) : Option DiagonalNoiseOperators :=
  (realIsotropicOperators n (some (nTerms.getD (n / 2))) none true).map fun data =>
    ⟨data.1, n, data.2, size + (size - 1), fun a => ((mirrored size (cosCoefficients size p none) a * n : ℝ) : ℂ)⟩

/-- `get_displacements_matrix_nx`, `operator/build.py:127-147`. -/
def displacementNx (n : ℕ) (i j : ℕ) : ℤ := ((i : ℤ) - j + (n / 2 : ℕ)) % n - (n / 2 : ℕ)

/-- `get_linear_noise_operators_explicit_taylor_expansion`, `kernel/solve/_taylor.py:135-154`, with
`_get_linear_operators_for_noise`, `kernel/solve/_taylor.py:120-132`: powers of the displacement from the middle of the grid. -/
noncomputable def linearTaylor (n size : ℕ) (p : ℕ → ℝ) (nTerms : Option ℕ) : DiagonalNoiseOperators :=
  ⟨nTerms.getD n, n, flatten n fun t j => (((2 * Real.pi * (displacementNx n (n / 2) j : ℝ) / (n : ℝ)) ^ t : ℝ) : ℂ),
    size, fun a => ((p a : ℝ) : ℂ)⟩

/-- `get_periodic_noise_operators_real_isotropic_taylor_expansion`, `kernel/solve/_taylor.py:168-207`. The parameter `fit` stands for
`np.polynomial.Chebyshev.fit(x, y, deg, w, domain=(-1, 1)).coef`: arguments are the number of points, `x`, `y`, `deg`, `w`.
(Simplification: the basis of the kernel is a position basis.) -/
noncomputable def fittedTaylor (fit : ℕ → (ℕ → ℝ) → (ℕ → ℂ) → ℕ → (ℕ → ℝ) → ℕ → ℂ) (states : ℕ) (β : ℕ → ℂ) (n : Option ℕ) :
    Option DiagonalNoiseOperators :=
  let n := n.getD ((states + 1) / 2)
  let weight := pad1 (2 * n + 1) states fun _ => (1 : ℝ)
  let points := fun j : ℕ => Real.cos ((j : ℝ) * (2 * Real.pi / (states : ℝ)))
  let coef := fit states points β n weight
  (realIsotropicOperators states (some (n + 1)) none true).map fun operators =>
    ⟨operators.1, states, operators.2, n + 1 + n, fun a => mirrored (n + 1) coef a * (states : ℂ)⟩

/-- `get_periodic_noise_operators_real_isotropic_stacked_taylor_expansion`, `kernel/solve/_taylor.py:214-245`. -/
noncomputable def fittedTaylorStacked (fit : ℕ → (ℕ → ℝ) → (ℕ → ℂ) → ℕ → (ℕ → ℝ) → ℕ → ℂ) (ns : List ℕ) (β : ℕ → ℂ)
    (shape : Option (List (Option ℕ))) : Option DiagonalNoiseOperators :=
  ((List.zipWith (fun n β' => (n, β')) ns (axisFromIsotropic ns β)).zipIdx.mapM fun p =>
    fittedTaylor fit p.1.1 p.1.2 (match shape with
      | none => none
      | some s => s.getD p.2 none)).map operatorsFromAxis

end Verif
