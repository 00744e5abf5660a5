import Mathlib.Data.Complex.BigOperators
import Mathlib.Data.Real.Sqrt

/-!
Specification of noise kernels: the correlations of the noise made by a list of operators.
-/

set_option autoImplicit false

namespace Verif.Spec

open Finset

/-- The kernel of the operators with the diagonals `L a` and the strengths `lam a`, for `a` in `S`. -/
noncomputable def noiseKernel (S : Finset ℕ) (lam : ℕ → ℂ) (L : ℕ → ℕ → ℂ) (i j : ℕ) : ℂ :=
  ∑ a ∈ S, lam a * (starRingEnd ℂ) (L a i) * L a j

/-- Contract of `np.argsort`: `order` lists the indices `0 .. N - 1` with nondecreasing keys. -/
def IsArgsort (N : ℕ) (key : ℕ → ℝ) (order : ℕ → ℕ) : Prop :=
  (∀ a < N, order a < N) ∧ (∀ a < N, ∀ b < N, order a = order b → a = b) ∧
    ∀ a b, a ≤ b → b < N → key (order a) ≤ key (order b)

/-- `S` holds `t` of the indices `0 .. N - 1`, with the largest keys. -/
def IsTop (N t : ℕ) (key : ℕ → ℝ) (S : Finset ℕ) : Prop :=
  S ⊆ range N ∧ S.card = t ∧ ∀ a ∈ S, ∀ b < N, b ∉ S → key b ≤ key a

end Verif.Spec
