import Mathlib.Data.Matrix.Mul
import Mathlib.LinearAlgebra.Matrix.ConjTranspose
import Mathlib.Analysis.Complex.Basic
import Mathlib.Analysis.SpecialFunctions.Sqrt

/-!
Specification: one Euler step of the (normalised) stochastic Schrödinger equation, in the units in which the equation has
no factors of the reduced Planck constant:
`dψ = -i H ψ dt + Σ_k (⟨L_k⟩* L_k - L_k† L_k / 2 - |⟨L_k⟩|² / 2) ψ dt + Σ_k (L_k - ⟨L_k⟩) ψ √dt ξ_k`.
-/

set_option autoImplicit false

namespace Verif.Spec

variable {n : ℕ}

/-- `⟨ψ| L |ψ⟩`. -/
noncomputable def meanValue (L : Matrix (Fin n) (Fin n) ℂ) (psi : Fin n → ℂ) : ℂ := star psi ⬝ᵥ L.mulVec psi

/-- Drift of one collapse operator. -/
noncomputable def collapseDrift (L : Matrix (Fin n) (Fin n) ℂ) (psi : Fin n → ℂ) : Fin n → ℂ :=
  star (meanValue L psi) • L.mulVec psi - (1 / 2 : ℂ) • (L.conjTranspose * L).mulVec psi -
    (1 / 2 * (star (meanValue L psi) * meanValue L psi) : ℂ) • psi

/-- Noise of one collapse operator. -/
noncomputable def collapseNoise (L : Matrix (Fin n) (Fin n) ℂ) (psi : Fin n → ℂ) : Fin n → ℂ :=
  L.mulVec psi - meanValue L psi • psi

/-- Increment of the state in one step of length `dt` with normalised noises `xi`. -/
noncomputable def sseIncrement {m : ℕ} (H : Matrix (Fin n) (Fin n) ℂ) (L : Fin m → Matrix (Fin n) (Fin n) ℂ) (dt : ℝ)
    (xi : Fin m → ℂ) (psi : Fin n → ℂ) : Fin n → ℂ :=
  (dt : ℂ) • ((-Complex.I) • H.mulVec psi + ∑ k, collapseDrift (L k) psi) +
    (Real.sqrt dt : ℂ) • ∑ k, xi k • collapseNoise (L k) psi

end Verif.Spec
