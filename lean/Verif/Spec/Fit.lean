import Mathlib.Data.Complex.BigOperators
import Mathlib.Analysis.Complex.Basic
import Mathlib.RingTheory.Polynomial.Chebyshev

/-!
Contract of the least-squares fit of a Chebyshev series, `np.polynomial.Chebyshev.fit(x, y, deg, w=w, domain=(-1, 1))`.
-/

set_option autoImplicit false

namespace Verif.Spec

open Finset

/-- The weighted sum of the squared residuals of the series with the coefficients `c` at the `N` points `x`. -/
noncomputable def chebyshevResidual (N : ℕ) (x : ℕ → ℝ) (y : ℕ → ℂ) (deg : ℕ) (w : ℕ → ℝ) (c : ℕ → ℂ) : ℝ :=
  ∑ j ∈ range N, ‖(w j : ℂ) * (y j - ∑ k ∈ range (deg + 1), c k * (((Polynomial.Chebyshev.T ℝ k).eval (x j) : ℝ) : ℂ))‖ ^ 2

/-- The coefficients `c` have the smallest weighted sum of squared residuals. -/
def IsChebyshevFit (N : ℕ) (x : ℕ → ℝ) (y : ℕ → ℂ) (deg : ℕ) (w : ℕ → ℝ) (c : ℕ → ℂ) : Prop :=
  ∀ c', chebyshevResidual N x y deg w c ≤ chebyshevResidual N x y deg w c'

end Verif.Spec
