import Verif.Model.Operator
import Verif.Model.Geometry
import Verif.Model.Interp
import Mathlib.Analysis.SpecialFunctions.Pow.Real

/-!
Potentials (`potential/potential.py`, `potential/conversion.py`) and the hamiltonian in the momentum basis
(`hamiltonian_builder/momentum_basis.py`).

The axes of the basis are a list of `Basis`; their lengths `delta_x` are the rows of the matrix `A`, which is kept apart
since conversions do not use it. Functions of the lattice take the number `d` of axes from `A`.
-/

set_option autoImplicit false

namespace Verif

open Finset Matrix

/-- `points.min()` of an array with `n` entries, as used at `potential/potential.py:202`; raises for an empty array. -/
noncomputable def arrayMin (n : ℕ) (v : ℕ → ℝ) : Option ℝ :=
  if n = 0 then none else some ((List.range (n - 1)).foldl (fun m i => min m (v (i + 1))) (v 0))

/-- `normalize_potential`, `potential/potential.py:189-203`. -/
noncomputable def normalizePotential (n : ℕ) (v : ℕ → ℝ) : Option (ℕ → ℝ) := (arrayMin n v).map fun m i => v i - m

/-- `truncate_potential`, `potential/potential.py:206-224`, for one entry. (Where numpy gives nan - a negative argument of
the logarithm, or a negative logarithm to the power `1 / n` - the value here has no meaning.) -/
noncomputable def truncatePotential (cutoff : ℝ) (n : ℕ) (offset : ℝ) (E : ℝ) : ℝ :=
  cutoff * Real.log (1 + ((E + offset) / cutoff) ^ n) ^ (1 / (n : ℝ)) - offset

/-- `undo_truncate_potential`, `potential/potential.py:227-232`, for one entry. -/
noncomputable def undoTruncatePotential (cutoff : ℝ) (n : ℕ) (offset : ℝ) (E : ℝ) : ℝ :=
  cutoff * (Real.exp ((E + offset) / cutoff) - 1) ^ (1 / (n : ℝ)) - offset

/-- Entry `k` of `np.linspace(a, b, n)`, as used at `util/interpolation.py:240`: `a + k * (b - a) / (n - 1)`. -/
noncomputable def linspace (a b : ℝ) (n k : ℕ) : ℝ := a + k * ((b - a) / (n - 1))

/-- `interpolate_points_along_axis_spline`, `util/interpolation.py:233-256`, for one fibre along the axis: the spline
`spline N x y` through the `N` points (`splrep` with `s=0` and `splev`) is a parameter. -/
noncomputable def interpolateSpline (spline : ℕ → (ℕ → ℝ) → (ℕ → ℝ) → ℝ → ℝ) (N : ℕ) (coords values : ℕ → ℝ) (n k : ℕ) : ℝ :=
  spline N coords values (linspace (coords 0) (coords (N - 1)) n k)

/-- `stacked_basis_as_fundamental_momentum_basis`, `stacked_basis/conversion.py:105-130`. -/
noncomputable def momentumAxes (axes : List Basis) : List Basis := axes.map fun b => .fundamentalTransformed b.methods.fn

/-- `stacked_basis_as_fundamental_position_basis`, `stacked_basis/conversion.py:169-192`. -/
noncomputable def positionAxes (axes : List Basis) : List Basis := axes.map fun b => .fundamental b.methods.fn

/-- `fundamental_shape` of a stacked basis, `basis/stacked_basis.py:115-119`. -/
noncomputable def fundamentalShape (axes : List Basis) : List ℕ := axes.map fun b => b.methods.fn

/-- `convert_potential_to_basis`, `potential/conversion.py:33-49`. -/
noncomputable def convertPotential (same : Basis → Basis → Bool) (axes target : List Basis) (V : ℕ → ℂ) : Option (ℕ → ℂ) :=
  (Basis.convert same (.tuple axes) (.tuple target)).map fun f => f V

variable {d : ℕ}

/-- Column `j` of `BasisUtil.fundamental_stacked_k_points`, `basis/util.py:359-365`. -/
noncomputable def fundamentalKPoint (A : Matrix (Fin d) (Fin d) ℝ) (fshape : List ℕ) (j : ℕ) : Fin d → ℝ :=
  kPointAtIndex A fun i => (stackedNkPoints fshape j).getD i 0

/-- Column `j` of `BasisUtil.fundamental_x_points_stacked`, `basis/util.py:396-402`. -/
noncomputable def fundamentalXPoint (A : Matrix (Fin d) (Fin d) ℝ) (fshape : List ℕ) (j : ℕ) : Fin d → ℝ :=
  xPointAtIndex A (fun i => fshape.getD i 0) fun i => ((stackedNxPoints fshape j).getD i 0 : ℕ)

/-- `get_continuous_potential`, `potential/conversion.py:77-124`. -/
noncomputable def continuousPotential (same : Basis → Basis → Bool) (A : Matrix (Fin d) (Fin d) ℝ) (axes : List Basis) (V : ℕ → ℂ) :
    Option ((Fin d → ℝ) → ℂ) :=
  (convertPotential same axes (momentumAxes axes) V).map fun data x =>
    ∑ j ∈ range (fundamentalShape axes).prod, data j *
      (Complex.exp (Complex.I * ((fundamentalKPoint A (fundamentalShape axes) j ⬝ᵥ x : ℝ) : ℂ)) /
        ((Real.sqrt ((fundamentalShape axes).prod : ℕ) : ℝ) : ℂ))

/-- `get_potential_derivative`, `potential/conversion.py:127-140`: the axes and the data of the result. -/
noncomputable def potentialDerivative (same : Basis → Basis → Bool) (A : Matrix (Fin d) (Fin d) ℝ) (axes : List Basis) (V : ℕ → ℂ)
    (axis : Fin d) : Option (List Basis × (ℕ → ℂ)) :=
  (convertPotential same axes (momentumAxes axes) V).map fun data =>
    (momentumAxes axes, fun j => Complex.I * ((kPointAtIndex A (fun i => (stackedNkPoints ((momentumAxes axes).map fun b => b.methods.n) j).getD i 0) axis : ℝ) : ℂ) * data j)

/-- `hamiltonian_from_potential`, `hamiltonian_builder/momentum_basis.py:40-64`. -/
noncomputable def hamiltonianFromPotential (same : Basis → Basis → Bool) (axes : List Basis) (V : ℕ → ℂ) : Option Operator :=
  (convertPotential same axes (positionAxes axes) V).bind fun data =>
    convertOperator same ⟨.tuple (positionAxes axes), .tuple (positionAxes axes),
      [(Basis.tuple (positionAxes axes)).n * (Basis.tuple (positionAxes axes)).n],
      flatten (Basis.tuple (positionAxes axes)).n fun i j => if i = j then data i else 0⟩ (.tuple axes) (.tuple axes)

/-- `hamiltonian_from_mass`, `hamiltonian_builder/momentum_basis.py:67-99`; `fraction = none` is the default. -/
noncomputable def hamiltonianFromMass (hbar : ℝ) (A : Matrix (Fin d) (Fin d) ℝ) (axes : List Basis) (mass : ℝ) (fraction : Option (Fin d → ℝ)) :
    DiagonalOperator :=
  let phase := tensordot00 (dkStacked A) (fraction.getD fun _ => 0)
  ⟨.tuple (momentumAxes axes), .tuple (momentumAxes axes), fun j =>
    ((∑ c, (hbar * (fundamentalKPoint A (fundamentalShape axes) j c + phase c)) ^ 2 / (2 * mass) : ℝ) : ℂ)⟩

/-- `hamiltonian_from_mass_in_basis`, `hamiltonian_builder/momentum_basis.py:102-122`. -/
noncomputable def hamiltonianFromMassInBasis (same : Basis → Basis → Bool) (hbar : ℝ) (A : Matrix (Fin d) (Fin d) ℝ) (axes : List Basis)
    (mass : ℝ) (fraction : Option (Fin d → ℝ)) : Option Operator :=
  convertOperator same (asOperator (hamiltonianFromMass hbar A axes mass fraction)) (.tuple axes) (.tuple axes)

/-- `total_surface_hamiltonian`, `hamiltonian_builder/momentum_basis.py:129-148`. -/
noncomputable def totalHamiltonian (same : Basis → Basis → Bool) (hbar : ℝ) (A : Matrix (Fin d) (Fin d) ℝ) (axes : List Basis) (V : ℕ → ℂ)
    (mass : ℝ) (fraction : Option (Fin d → ℝ)) : Option Operator :=
  (hamiltonianFromPotential same axes V).bind fun P =>
    (hamiltonianFromMassInBasis same hbar A axes mass fraction).bind fun K => addOperator K P

end Verif
