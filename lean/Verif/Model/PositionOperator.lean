import Verif.Model.Operator
import Verif.Model.KernelBuild
import Verif.Model.Wavepacket
import Verif.Model.Wannier

/-!
The operator of position, its matrix between states, and localisation by its eigenstates
(`wavepacket/localization/_operator.py`).
-/

set_option autoImplicit false

namespace Verif

open Finset

variable {d : ℕ}

/-- `_get_position_operator`, `wavepacket/localization/_operator.py:67-77`: the first Cartesian component of the points as a diagonal
matrix, converted to the basis. The rows of `A` are the `delta_x` of the axes; a stacked basis has at least one axis. The array is stored
with two axes, of which only the flat data is kept here. -/
noncomputable def getPositionOperator (same : Basis → Basis → Bool) (A : Matrix (Fin (d + 1)) (Fin (d + 1)) ℝ) (b : Basis) : Option Operator :=
  let locations := fun k => xPoint A (fun i => b.fundamentalShape.getD i 0) k 0
  let p := b.asPositionBasis
  convertOperator same ⟨p, p, [p.n, p.n], flatten p.n fun i j => if i = j then (locations i : ℂ) else 0⟩ b b

/-- `_get_operator_between_states`, `wavepacket/localization/_operator.py:80-95`. -/
noncomputable def getOperatorBetweenStates (states : List StateVector) (operator : Operator) : Operator :=
  let n := states.length
  let zero : StateVector := ⟨operator.b0, 0⟩
  ⟨.fundamental n, .fundamental n, [n, n], flatten n fun i j =>
    calculateOperatorInnerProduct (asDualVector (states.getD i zero)) operator (states.getD j zero)⟩

/-- `localize_position_operator_many_band`, `wavepacket/localization/_operator.py:139-176`, from the list of the states on, given the result of
`eigh`. The loop runs over the entries of the flat array of all eigenvectors: each of them is a number, for which `np.tensordot` over an axis
raises. -/
noncomputable def localizeStatesByPosition (same : Basis → Basis → Bool) (A : Matrix (Fin (d + 1)) (Fin (d + 1)) ℝ) (states : List StateVector)
    (b : Basis) (eigh : Operator → EigResult) : Option (List StateVector) :=
  (getPositionOperator same A b).bind fun position =>
    let operator := getOperatorBetweenStates states position
    let eigenstates := calculateEigenvectors operator operator.b0.n (eigh operator)
    if eigenstates.states.listBasis.n * eigenstates.states.basis.n = 0 then some [] else none

/-- `_localize_operator`, `wavepacket/localization/_operator.py:98-115`, used by `localize_position_operator`,
`wavepacket/localization/_operator.py:118-136`, for a wavepacket with `n` eigenvalues. Only what decides whether it raises is modelled: the states are
those of `get_all_eigenstates`, and the loop runs over the entries of the flat array of all eigenvectors of the operator between them; each of
them is a number, for which `vector[:, np.newaxis]` raises. (The conversions of the states may raise before.) -/
noncomputable def localizePositionOperator (same : Basis → Basis → Bool) (w : StateVectorList) (n : ℕ) (eigenvalue : ℕ → ℂ) :
    Option (List StateVectorList) :=
  (getAllEigenstates same w n eigenvalue).bind fun states => if states.length * states.length = 0 then some [] else none

/-- The first step of `localize_position_operator_many_band_individual`, `wavepacket/localization/_operator.py:179-210`: for each wavepacket (with its
number of eigenvalues and its eigenvalues) one of the results of `localize_position_operator`, at a quarter of the number of samples of the first. -/
noncomputable def localizePositionOperatorIndividual (same : Basis → Basis → Bool) (wavepackets : List (StateVectorList × ℕ × (ℕ → ℂ))) :
    Option (List StateVectorList) :=
  wavepackets.head?.bind fun first => wavepackets.mapM fun w =>
    (localizePositionOperator same w.1 w.2.1 w.2.2).bind fun l => l[first.1.listBasis.n / 4]?

end Verif
