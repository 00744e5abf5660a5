import Verif.Model.State
import Verif.Model.Wavepacket
import Verif.Model.Wannier
import Verif.Model.Potential

/-!
Conversions to the bases of the points and of the plane waves: states, duals of states, wavepackets and potentials,
`state_vector/conversion.py`, `wavepacket/conversion.py`, `potential/conversion.py`.
-/

set_option autoImplicit false

namespace Verif

/-- `convert_state_vector_to_position_basis`, `state_vector/conversion.py:103-122`. -/
noncomputable def stateToPosition (same : Basis → Basis → Bool) (v : StateVector) : Option StateVector :=
  convertStateVector same v v.basis.asPositionBasis

/-- `convert_state_vector_to_momentum_basis`, `state_vector/conversion.py:125-144`. -/
noncomputable def stateToMomentum (same : Basis → Basis → Bool) (v : StateVector) : Option StateVector :=
  convertStateVector same v v.basis.asTransformedBasis

/-- `convert_state_dual_vector_to_position_basis`, `state_vector/conversion.py:147-166`. -/
noncomputable def dualToPosition (same : Basis → Basis → Bool) (v : StateDualVector) : Option StateDualVector :=
  convertStateDualVector same v v.basis.asPositionBasis

/-- `convert_state_dual_vector_to_momentum_basis`, `state_vector/conversion.py:169-188`. -/
noncomputable def dualToMomentum (same : Basis → Basis → Bool) (v : StateDualVector) : Option StateDualVector :=
  convertStateDualVector same v v.basis.asTransformedBasis

/-- `convert_wavepacket_to_position_basis`, `wavepacket/conversion.py:202-221`: the list basis is kept. -/
noncomputable def wavepacketToPosition (same : Basis → Basis → Bool) (w : StateVectorList) : Option StateVectorList :=
  convertWavepacket same w w.listBasis w.basis.asPositionBasis

/-- `convert_wavepacket_to_fundamental_momentum_basis`, `wavepacket/conversion.py:252-272`, without `list_basis`: the list
basis is kept. -/
noncomputable def wavepacketToMomentum (same : Basis → Basis → Bool) (w : StateVectorList) : Option StateVectorList :=
  convertWavepacket same w w.listBasis w.basis.asTransformedBasis

/-- `convert_potential_to_position_basis`, `potential/conversion.py:52-71`. -/
noncomputable def potentialToPosition (same : Basis → Basis → Bool) (axes : List Basis) (V : ℕ → ℂ) : Option (ℕ → ℂ) :=
  convertPotential same axes (positionAxes axes) V

end Verif
