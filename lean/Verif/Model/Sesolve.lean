import Verif.Model.Stochastic

/-!
The Schrödinger equation solved by `qutip.sesolve`, `dynamics/schrodinger/solve.py`.

The external solver is a parameter; `IsSesolve` (`Props/C139_Sesolve.lean`) is its contract.
-/

set_option autoImplicit false

namespace Verif

/-- `solve_schrodinger_equation`, `dynamics/schrodinger/solve.py:155-192`: the flat data of the result, state `k` being that at time `k`.
`sesolve` is `qutip.sesolve`: matrix, initial state, number of times, times. (The option `nsteps`, which bounds the number of internal steps of
the solver, is not modelled.) -/
noncomputable def solveSchrodingerQutip {n : ℕ} (sesolve : Matrix (Fin n) (Fin n) ℂ → (Fin n → ℂ) → ℕ → (ℕ → ℝ) → ℕ → Fin n → ℂ)
    (hbar : ℝ) (H : Matrix (Fin n) (Fin n) ℂ) (initial : Fin n → ℂ) (times : TimeBasis) : ℕ → Fin n → ℂ :=
  sesolve (Matrix.of fun i j => H i j / hbar) initial times.n times.times

end Verif
