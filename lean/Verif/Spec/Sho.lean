import Mathlib.Analysis.Calculus.Deriv.Basic
import Mathlib.MeasureTheory.Integral.Bochner.Basic
import Mathlib.MeasureTheory.Measure.Lebesgue.Basic

/-!
Specification: the harmonic oscillator on the real line.
-/

set_option autoImplicit false

namespace Verif.Spec

open MeasureTheory

/-- The Schroedinger equation of the harmonic oscillator with energy `E`. -/
def SolvesOscillator (hbar mass omega E : ℝ) (ψ : ℝ → ℝ) : Prop :=
  Differentiable ℝ ψ ∧ Differentiable ℝ (deriv ψ) ∧
  ∀ x, -(hbar ^ 2 / (2 * mass)) * deriv (deriv ψ) x + mass * omega ^ 2 * x ^ 2 / 2 * ψ x = E * ψ x

/-- The functions are orthonormal on the real line. -/
def OrthonormalOnLine (m : ℕ) (ψ : ℕ → ℝ → ℝ) : Prop :=
  ∀ i < m, ∀ j < m, ∫ x : ℝ, ψ i x * ψ j x = if i = j then 1 else 0

end Verif.Spec
