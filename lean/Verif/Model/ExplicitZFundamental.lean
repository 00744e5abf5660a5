import Verif.Model.ExplicitZ

/-!
The hamiltonian of `hamiltonian_builder/explicit_z_basis.py` with the shape of the surface ignored.
-/

set_option autoImplicit false

namespace Verif

/-- The new axes of `total_surface_hamiltonian_as_fundamental`, `hamiltonian_builder/explicit_z_basis.py:317-326`: as many plane waves as points in the
surface, the third axis is kept. The lengths of the axes, which are kept too, are those of the lattice. -/
noncomputable def fundamentalZAxes (nz r0 r1 r2 : ℕ) (r : EigResult) : List Basis :=
  [.fundamentalTransformed r0, .fundamentalTransformed r1, .explicit r2 (fun j z => r.vectors z j) (.fundamental nz)]

/-- `total_surface_hamiltonian_as_fundamental`, `hamiltonian_builder/explicit_z_basis.py:280-327`: the data is kept. -/
noncomputable def explicitZAsFundamental (same : Basis → Basis → Bool) (hbar : ℝ) (A : Matrix (Fin 3) (Fin 3) ℝ) (n0 n1 nz : ℕ) (V Vz : ℕ → ℂ)
    (mass : ℝ) (fraction : Fin 3 → ℝ) (r0 r1 r2 : ℕ) (r : EigResult) : Option Operator :=
  (explicitZHamiltonian same hbar A n0 n1 nz V Vz mass fraction r0 r1 r2 r).map fun H =>
    ⟨.tuple (fundamentalZAxes nz r0 r1 r2 r), .tuple (fundamentalZAxes nz r0 r1 r2 r), H.shape, H.data⟩

end Verif
