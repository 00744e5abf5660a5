import Verif.Model.State
import Verif.Model.Stochastic

/-!
`dynamics/diagonalized_stochastic_schrodinger/solve.py`: the arguments given to the compiled solver `solve_sse_euler_bra_ket` and the use of its result.
The solver itself is not part of the repository.
-/

set_option autoImplicit false

namespace Verif

/-- The arguments of `solve_sse_euler_bra_ket`, `dynamics/diagonalized_stochastic_schrodinger/solve.py:97-106`. -/
structure BraKetCall where
  initial : List ℂ
  hamiltonian : List ℂ
  amplitudes : List ℂ
  bra : List ℂ
  ket : List ℂ
  n : ℕ
  step : ℕ
  dt : ℝ

/-- A collapse operator: the bases of its bra and ket and the data. -/
structure RankOneOperator where
  bra : Basis
  ket : Basis
  data : List ℂ

/-- One pass of the loop over the collapse operators, `dynamics/diagonalized_stochastic_schrodinger/solve.py:82-94`: both states are made from the first
basis and both are added to the kets; a basis with another number of states than one, and data with more than one entry, raise. -/
noncomputable def addCollapseOperator (call : BraKetCall) (o : RankOneOperator) : Option BraKetCall :=
  let states := getBasisStates o.bra
  if states.listBasis.n = 1 then
    (getStateDualVector states 0).bind fun bra => (getStateVector states 0).bind fun ket =>
      match o.data with
      | [a] => some { call with
          ket := call.ket ++ (List.range o.bra.n).map bra.data ++ (List.range o.bra.n).map ket.data
          amplitudes := call.amplitudes ++ [a] }
      | _ => none
  else none

/-- The arguments, `dynamics/diagonalized_stochastic_schrodinger/solve.py:74-106`; `times.offset == 0` is asserted. -/
noncomputable def braKetCall (times : TimeBasis) (initial hamiltonian : List ℂ) (operators : List RankOneOperator) : Option BraKetCall :=
  if times.offset = 0 then
    operators.foldlM addCollapseOperator ⟨initial, hamiltonian, [], [], [], times.n, times.step, times.fundamentalDt⟩
  else none

/-- `solve_stochastic_schrodinger_equation`, `dynamics/diagonalized_stochastic_schrodinger/solve.py:65-116`: the data of the trajectories. `solver i` is call
number `i` of the compiled solver, which may draw random numbers. Results with another number of entries than times the entries of a state are `none`;
simplified: NumPy would repeat the entry of a result with one entry for each time. -/
noncomputable def solveDiagonalizedSse (solver : ℕ → BraKetCall → List ℂ) (times : TimeBasis) (initial hamiltonian : List ℂ)
    (operators : List RankOneOperator) (trajectories : ℕ) : Option (List ℂ) :=
  (braKetCall times initial hamiltonian operators).bind fun call =>
    if ∀ i < trajectories, (solver i call).length = times.n * initial.length then
      some ((List.range trajectories).flatMap fun i => solver i call)
    else none

end Verif
