import Verif.Model.Potential
import Verif.Model.Generator
import Verif.Model.Fft

/-!
The hamiltonian in a basis of momentum states in the surface and explicit states normal to it:
`surface_potential_analysis/hamiltonian_builder/explicit_z_basis.py` and
`surface_potential_analysis/stacked_basis/potential_basis.py`.
-/

set_option autoImplicit false

namespace Verif

open Finset

/-- The size guard, `hamiltonian_builder/explicit_z_basis.py:116-124` and `hamiltonian_builder/sho_subtracted_basis.py:68-77`;
`false` raises. -/
def sizeGuard (r n : ℕ) : Bool := ¬ 2 * ((r : ℤ) - 1) > n

/-- The hamiltonian of `get_potential_basis_config_eigenstates`, `stacked_basis/potential_basis.py:53-78`; the result of the
eigenvalue routine for it is a parameter of the definitions below. -/
noncomputable def configHamiltonian (same : Basis → Basis → Bool) (hbar length : ℝ) (nz : ℕ) (Vz : ℕ → ℂ) (mass : ℝ) (fraction : Option ℝ) :
    Option Operator :=
  totalHamiltonian same hbar !![length] [.fundamental nz] Vz mass (some fun _ => fraction.getD 0)

/-- `_SurfaceHamiltonianUtil.basis`, `hamiltonian_builder/explicit_z_basis.py:124-157`. -/
noncomputable def explicitZAxes (n0 n1 nz r0 r1 r2 : ℕ) (r : EigResult) : List Basis :=
  [.transformed r0 n0, .transformed r1 n1, .explicit r2 (fun j z => r.vectors z j) (.fundamental nz)]

/-- `BasisUtil.vectors`, `basis/util.py:78-82`. -/
noncomputable def utilVectors (b : Basis) : ℕ → ℕ → ℂ := fun j => b.methods.intoF fun k => if k = j then 1 else 0

/-- `subtracted_points`, `hamiltonian_builder/explicit_z_basis.py:227-233`; the potential has the shape `(n0, n1, nz)`. -/
def subtractedPoints (n1 nz : ℕ) (V Vz : ℕ → ℂ) (x0 x1 z : ℕ) : ℂ := V ((x0 * n1 + x1) * nz + z) - Vz z

/-- `get_ft_potential`, `hamiltonian_builder/explicit_z_basis.py:235-238`: `ifft2` along the first two axes. -/
noncomputable def ftPotential (n0 n1 nz : ℕ) (V Vz : ℕ → ℂ) (k0 k1 z : ℕ) : ℂ :=
  ifft .backward n0 (fun x0 => ifft .backward n1 (fun x1 => subtractedPoints n1 nz V Vz x0 x1 z) k1) k0

/-- `_get_xy_hamiltonian`, `hamiltonian_builder/explicit_z_basis.py:59-80`; `A` has the lattice vectors as rows. -/
noncomputable def xyHamiltonian (same : Basis → Basis → Bool) (hbar : ℝ) (A : Matrix (Fin 3) (Fin 3) ℝ) (axes : List Basis) (r0 r1 r2 : ℕ)
    (mass : ℝ) (fraction : Fin 2 → ℝ) : Option Operator :=
  (hamiltonianFromMassInBasis same hbar !![A 0 0, A 0 1; A 1 0, A 1 1] [.transformed r0 r0, .transformed r1 r1] mass (some fraction)).map fun K =>
    ⟨.tuple axes, .tuple axes, [r0 * r1 * r2 * (r0 * r1 * r2)],
      flatten (r0 * r1 * r2) fun i j => if i = j then K.entry (i / r2) (i / r2) else 0⟩

/-- `bloch_z_hamiltonian`, `hamiltonian_builder/explicit_z_basis.py:167-192`. -/
noncomputable def blochZHamiltonian (n0 n1 nz : ℕ) (V Vz : ℕ → ℂ) (r0 r1 r2 : ℕ) (r : EigResult) : Operator :=
  let axes := explicitZAxes n0 n1 nz r0 r1 r2 r
  let other := offDiagonalEnergies2 (ftPotential n0 n1 nz V Vz) n0 n1 nz
    (utilVectors (.explicit r2 (fun j z => r.vectors z j) (.fundamental nz))) r0 r1 r2
  ⟨.tuple axes, .tuple axes, [r0 * r1 * r2 * (r0 * r1 * r2)],
    flatten (r0 * r1 * r2) fun i j => (if i = j then r.eigenvalues (i % r2) else 0) + (other.getD i []).getD j 0⟩

/-- `total_surface_hamiltonian`, `hamiltonian_builder/explicit_z_basis.py:242-277`; `none` is the `PotentialSizeError`. `r` is
the result of the eigenvalue routine for the hamiltonian normal to the surface (`configHamiltonian` for the third Bloch
fraction), of which the `r2` lowest states are used. -/
noncomputable def explicitZHamiltonian (same : Basis → Basis → Bool) (hbar : ℝ) (A : Matrix (Fin 3) (Fin 3) ℝ) (n0 n1 nz : ℕ) (V Vz : ℕ → ℂ)
    (mass : ℝ) (fraction : Fin 3 → ℝ) (r0 r1 r2 : ℕ) (r : EigResult) : Option Operator :=
  if sizeGuard r0 n0 && sizeGuard r1 n1 then
    (xyHamiltonian same hbar A (explicitZAxes n0 n1 nz r0 r1 r2 r) r0 r1 r2 mass fun i => fraction i.castSucc).bind fun K =>
      addOperator K (blochZHamiltonian n0 n1 nz V Vz r0 r1 r2 r)
  else none

/-- `select_minimum_potential_3d`, `stacked_basis/potential_basis.py:102-125`, for real data of the shape `(n0, n1, nz)`: the
length of the new axis and the data; `argmin` is the result of `np.argmin`. -/
noncomputable def selectMinimumPotential (A : Matrix (Fin 3) (Fin 3) ℝ) (n1 nz : ℕ) (V : ℕ → ℝ) (argmin : ℕ) : ℝ × (ℕ → ℝ) :=
  (A 2 2, fun z => V ((argmin / (n1 * nz) * n1 + argmin / nz % n1) * nz + z))

end Verif
