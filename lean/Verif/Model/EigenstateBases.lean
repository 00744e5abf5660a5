import Verif.Model.ExplicitZ
import Verif.Model.Generate
import Verif.Model.Sho

/-!
Bases made of the lowest eigenstates of a hamiltonian: `state_vector/eigenstate_calculation.py`, `stacked_basis/potential_basis.py` and
`stacked_basis/sho_basis.py`.
-/

set_option autoImplicit false

namespace Verif

/-- `get_eigenstate_basis_stacked_from_hamiltonian`, `state_vector/eigenstate_calculation.py:236-254`, for `subset_by_index=(lo, hi)`: the constructor
`ExplicitStackedBasisWithLength`, `basis/explicit_basis.py:247-251`, keeps the vectors. The numerical routine `eigh` is a parameter. -/
noncomputable def getEigenstateBasisStacked (eigh : Operator → ℕ → ℕ → EigResult) (H : Operator) (lo hi : ℤ) : Option Basis :=
  (eighSubset eigh H lo hi).map fun r => getEigenstateBasis H (hi - lo + 1).toNat r

/-- `get_potential_basis_config_basis`, `stacked_basis/potential_basis.py:81-99`, for a potential with the data `Vz` on `nz` points along an axis of the
given length; `m` is the number of states of the configuration. -/
noncomputable def potentialConfigBasis (same : Basis → Basis → Bool) (eigh : Operator → ℕ → ℕ → EigResult) (hbar length : ℝ) (nz : ℕ) (Vz : ℕ → ℂ)
    (mass : ℝ) (m : ℕ) : Option Basis :=
  (configHamiltonian same hbar length nz Vz mass none).bind fun H => getEigenstateBasisStacked eigh H 0 ((m : ℤ) - 1)

/-- `sho_basis_3d_from_config`, `stacked_basis/sho_basis.py:130-150`, for a parent with `n` fundamental points along `deltaX`. -/
noncomputable def shoBasisFromConfig (same : Basis → Basis → Bool) (eigh : Operator → ℕ → ℕ → EigResult) (hbar mass omega : ℝ) (deltaX : Fin 3 → ℝ)
    (n : ℕ) (origin : Fin 3 → ℝ) (m : ℕ) : Option Basis :=
  potentialConfigBasis same eigh hbar (vnorm deltaX) n (shoPotentialData mass omega deltaX n origin) mass m

end Verif
