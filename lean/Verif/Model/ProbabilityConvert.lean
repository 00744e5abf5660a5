import Verif.Model.Basis
import Verif.Model.State
import Verif.Model.Wannier
import Verif.Model.Wavepacket

/-!
Conversion of probability vectors, `probability_vector/conversion.py`. Probabilities are complex numbers here, since the
conversion of numpy arrays may give complex data.
-/

set_option autoImplicit false

namespace Verif

/-- `convert_probability_vector_to_basis`, `probability_vector/conversion.py:36-54`. -/
noncomputable def convertProbabilityVector (same : Basis → Basis → Bool) (basis final : Basis) (data : ℕ → ℂ) : Option (ℕ → ℂ) :=
  (Basis.convert same basis final).map fun f => f data

/-- `convert_probability_vector_list_to_basis`, `probability_vector/conversion.py:57-79`. -/
noncomputable def convertProbabilityVectorList (same : Basis → Basis → Bool) (basis final : Basis) (data : ℕ → ℂ) : Option (ℕ → ℂ) :=
  (Basis.convert same basis final).map fun f => flatten final.n fun i => f (block basis.n data i)

/-- `convert_probability_vector_to_position_basis`, `probability_vector/conversion.py:82-101`. -/
noncomputable def convertProbabilityToPosition (same : Basis → Basis → Bool) (basis : Basis) (data : ℕ → ℂ) : Option (ℕ → ℂ) :=
  convertProbabilityVector same basis basis.asPositionBasis data

/-- `convert_probability_vector_to_momentum_basis`, `probability_vector/conversion.py:104-123`. -/
noncomputable def convertProbabilityToMomentum (same : Basis → Basis → Bool) (basis : Basis) (data : ℕ → ℂ) : Option (ℕ → ℂ) :=
  convertProbabilityVector same basis basis.asTransformedBasis data

end Verif
