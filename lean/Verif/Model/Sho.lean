import Verif.Model.Geometry
import Mathlib.Analysis.SpecialFunctions.Trigonometric.Basic
import Mathlib.Data.Nat.Factorial.Basic

/-!
The harmonic oscillator states of `stacked_basis/sho_basis.py`.
-/

set_option autoImplicit false

namespace Verif

open Matrix

/-- `scipy.special.eval_hermite`, called in `stacked_basis/sho_basis.py:61`: the physicists' Hermite polynomials by their three term
recurrence. Library function. -/
noncomputable def evalHermite : ℕ → ℝ → ℝ
  | 0, _ => 1
  | 1, x => 2 * x
  | n + 2, x => 2 * x * evalHermite (n + 1) x - 2 * ((n : ℝ) + 1) * evalHermite n x

/-- `calculate_sho_wavefunction`, `stacked_basis/sho_basis.py:36-67`, at one point. The constant `hbar` is a parameter; the
points are real. -/
noncomputable def shoWavefunction (hbar omega mass : ℝ) (n : ℕ) (x : ℝ) : ℝ :=
  let norm := Real.sqrt (omega * mass / hbar)
  let prefactor := Real.sqrt ((norm / 2 ^ n) / ((n.factorial : ℝ) * Real.sqrt Real.pi))
  prefactor * evalHermite n (x * norm) * Real.exp (-(x * norm) ^ 2 / 2)

/-- `calculate_x_distances`, `stacked_basis/sho_basis.py:70-80`: the distance of point `x` of the `n` points of the basis. -/
noncomputable def calculateXDistances (deltaX : Fin 3 → ℝ) (n : ℕ) (origin : Fin 3 → ℝ) (x : ℕ) : ℝ :=
  let unit : Fin 3 → ℝ := fun i => deltaX i / vnorm deltaX
  (unit ⬝ᵥ fun i => deltaX i / n * x) + unit ⬝ᵥ origin

/-- The potential of `get_sho_potential_basis_config`, `stacked_basis/sho_basis.py:91-127`. -/
noncomputable def shoPotentialData (mass omega : ℝ) (deltaX : Fin 3 → ℝ) (n : ℕ) (origin : Fin 3 → ℝ) (x : ℕ) : ℂ :=
  ((0.5 * mass * omega ^ 2 * calculateXDistances deltaX n origin x ^ 2 : ℝ) : ℂ)

/-- The vectors of `infinate_sho_basis_3d_from_config`, `stacked_basis/sho_basis.py:153-183`. -/
noncomputable def infiniteShoVectors (hbar mass omega : ℝ) (deltaX : Fin 3 → ℝ) (n : ℕ) (origin : Fin 3 → ℝ) (i x : ℕ) : ℝ :=
  shoWavefunction hbar omega mass i (calculateXDistances deltaX n origin x) * Real.sqrt (vnorm fun i => deltaX i / n)

end Verif
