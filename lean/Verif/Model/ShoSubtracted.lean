import Verif.Model.ExplicitZ
import Verif.Model.Sho

/-!
The hamiltonian in a basis of momentum states in the surface and oscillator states normal to it:
`surface_potential_analysis/hamiltonian_builder/sho_subtracted_basis.py`. The lattice vectors are the rows of `A`, the potential has the shape
`(n0, n1, nz)`; `mass`, `omega` and `origin` are the entries of the configuration.
-/

set_option autoImplicit false

namespace Verif

/-- `points`, `hamiltonian_builder/sho_subtracted_basis.py:83-89`: the real part of the potential. -/
def shoPoints (V : ℕ → ℂ) (x : ℕ) : ℂ := ((V x).re : ℂ)

/-- `dz`, `hamiltonian_builder/sho_subtracted_basis.py:107-110`. -/
noncomputable def shoDz (A : Matrix (Fin 3) (Fin 3) ℝ) (nz : ℕ) : ℝ := vnorm fun c => A 2 c / nz

/-- `get_sho_potential`, `hamiltonian_builder/sho_subtracted_basis.py:198-201` and `112-117`. -/
noncomputable def shoSubtraction (A : Matrix (Fin 3) (Fin 3) ℝ) (nz : ℕ) (mass omega : ℝ) (origin : Fin 3 → ℝ) (z : ℕ) : ℂ :=
  ((0.5 * mass * omega ^ 2 * calculateXDistances (A 2) nz origin z ^ 2 : ℝ) : ℂ)

/-- `get_sho_subtracted_points`, `hamiltonian_builder/sho_subtracted_basis.py:203-206`. -/
noncomputable def shoSubtractedPoints (A : Matrix (Fin 3) (Fin 3) ℝ) (n1 nz : ℕ) (V : ℕ → ℂ) (mass omega : ℝ) (origin : Fin 3 → ℝ)
    (x0 x1 z : ℕ) : ℂ :=
  subtractedPoints n1 nz (shoPoints V) (shoSubtraction A nz mass omega origin) x0 x1 z

/-- `get_ft_potential`, `hamiltonian_builder/sho_subtracted_basis.py:208-212`: `ifft2` along the first two axes. -/
noncomputable def shoFtPotential (A : Matrix (Fin 3) (Fin 3) ℝ) (n0 n1 nz : ℕ) (V : ℕ → ℂ) (mass omega : ℝ) (origin : Fin 3 → ℝ)
    (k0 k1 z : ℕ) : ℂ :=
  ifft .backward n0 (fun x0 => ifft .backward n1 (fun x1 => shoSubtractedPoints A n1 nz V mass omega origin x0 x1 z) k1) k0

/-- `_calculate_off_diagonal_energies_fast`, `hamiltonian_builder/sho_subtracted_basis.py:214-228` and `91-93`: entry `(i, j)` of the result. -/
noncomputable def shoOffDiagonal (hbar : ℝ) (A : Matrix (Fin 3) (Fin 3) ℝ) (n0 n1 nz : ℕ) (V : ℕ → ℂ) (mass omega : ℝ) (origin : Fin 3 → ℝ)
    (r0 r1 r2 : ℕ) (i j : ℕ) : ℂ :=
  ((offDiagonalEnergies hbar (shoFtPotential A n0 n1 nz V mass omega origin) n0 n1 nz r0 r1 r2 (shoDz A nz) mass omega (origin 2)).getD i []).getD j 0

/-- A call of a python function with two positional parameters and the parameter `n`, which is keyword-only: `none` is the `TypeError` if `n` is
passed by position (a third positional argument), or is missing. `stacked_basis/sho_basis.py:153-155`. -/
def callInfiniteSho {α : Type} (positional : ℕ) (n : Option ℕ) (result : ℕ → α) : Option α :=
  if positional = 2 then n.map result else none

/-- `basis`, `hamiltonian_builder/sho_subtracted_basis.py:119-146`: the third axis is requested with three positional arguments. -/
noncomputable def shoSubtractedBasis (hbar : ℝ) (A : Matrix (Fin 3) (Fin 3) ℝ) (n0 n1 nz : ℕ) (mass omega : ℝ) (origin : Fin 3 → ℝ)
    (r0 r1 _r2 : ℕ) : Option (List Basis) :=
  (callInfiniteSho 3 none fun r2 =>
    Basis.explicit r2 (fun j z => (infiniteShoVectors hbar mass omega (A 2) nz origin j z : ℂ)) (.fundamental nz)).map fun z =>
    [.transformed r0 n0, .transformed r1 n1, z]

/-- `_calculate_diagonal_energy`, `hamiltonian_builder/sho_subtracted_basis.py:179-196` and `167-177`, of the state with the labels `(k0, k1, k2)`. -/
noncomputable def shoDiagonalEnergy (hbar : ℝ) (A : Matrix (Fin 3) (Fin 3) ℝ) (mass omega : ℝ) (phase : Fin 3 → ℝ) (k0 k1 : ℤ) (k2 : ℕ) : ℝ :=
  let dk := dkStacked A
  let kx := dk 0 0 * k0 + dk 1 0 * k1 + phase 0
  let ky := dk 0 1 * k0 + dk 1 1 * k1 + phase 1
  (hbar * kx) ^ 2 / (2 * mass) + (hbar * ky) ^ 2 / (2 * mass) + hbar * omega * (k2 + 0.5)

/-- `total_surface_hamiltonian`, `hamiltonian_builder/sho_subtracted_basis.py:268-306` and `148-165`, with the guard of lines 68-77; the entries of
the matrix. The labels of the states (lines 167-177) are in FFT order in the surface. `none` raises. -/
noncomputable def shoSubtractedHamiltonian (hbar : ℝ) (A : Matrix (Fin 3) (Fin 3) ℝ) (n0 n1 nz : ℕ) (V : ℕ → ℂ) (mass omega : ℝ)
    (origin fraction : Fin 3 → ℝ) (r0 r1 r2 : ℕ) : Option (ℕ → ℕ → ℂ) :=
  if sizeGuard r0 n0 && sizeGuard r1 n1 then
    (shoSubtractedBasis hbar A n0 n1 nz mass omega origin r0 r1 r2).map fun _ i j =>
      (if i = j then (shoDiagonalEnergy hbar A mass omega (tensordot00 (dkStacked A) fraction) (nkPoints r0 (i / r2 / r1))
        (nkPoints r1 (i / r2 % r1)) (i % r2) : ℂ) else 0) + shoOffDiagonal hbar A n0 n1 nz V mass omega origin r0 r1 r2 i j
  else none

end Verif
