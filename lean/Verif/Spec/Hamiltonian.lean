import Verif.Spec.Basis
import Mathlib.Analysis.Complex.Norm

/-!
Quadratic forms of operators and plane waves on stacked grids.
-/

set_option autoImplicit false

namespace Verif.Spec

open Finset

/-- The expectation `v† H v` of a matrix with `n` rows. -/
noncomputable def form (n : ℕ) (H : ℕ → ℕ → ℂ) (v : ℕ → ℂ) : ℂ :=
  ∑ i ∈ range n, ∑ j ∈ range n, (starRingEnd ℂ) (v i) * H i j * v j

/-- The matrix element `u† H v` of a matrix with `n` rows. -/
noncomputable def sesq (n : ℕ) (H : ℕ → ℕ → ℂ) (u v : ℕ → ℂ) : ℂ :=
  ∑ i ∈ range n, ∑ j ∈ range n, (starRingEnd ℂ) (u i) * H i j * v j

/-- `exp (2 π i Σ kₐ xₐ / nₐ)` for lists of the number of points, labels and indices of the axes. -/
noncomputable def gridPhase : List ℕ → List ℤ → List ℕ → ℂ
  | n :: ns, k :: ks, x :: xs => Complex.exp (2 * Real.pi * Complex.I * k * x / n) * gridPhase ns ks xs
  | _, _, _ => 1

end Verif.Spec
