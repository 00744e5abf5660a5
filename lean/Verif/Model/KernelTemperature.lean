import Verif.Model.KernelBuild
import Verif.Model.KernelConvert
import Verif.Model.Wannier

/-!
# Temperature-corrected gaussian noise operators

`kernel/build.py:188-273`, `kernel/gaussian.py:240-405,530-560`. The Boltzmann constant and `hbar` are parameters.
-/

set_option autoImplicit false

namespace Verif

variable {d : ℕ}

/-- `get_temperature_corrected_noise_operators`, `kernel/build.py:188-222`, for operators with the basis `b` on both sides; `kT` is the
Boltzmann constant times the temperature. The basis of the list only matters through its number of states. -/
noncomputable def temperatureCorrectedNoise (same : Basis → Basis → Bool) (H : Operator) (b : Basis) (ops : NoiseOperators) (kT : ℝ) :
    Option NoiseOperators :=
  (temperatureCorrected same H ⟨.fundamental ops.count, b, b, ops.data⟩ kT).map fun X =>
    ⟨ops.count, X.b0.n, X.b1.n, X.data, ops.values, ops.eigenvalue⟩

/-- `get_temperature_corrected_diagonal_noise_operators`, `kernel/build.py:239-273`, for diagonal operators in the basis `b`. -/
noncomputable def temperatureCorrectedDiagonalNoise (same : Basis → Basis → Bool) (H : Operator) (b : Basis)
    (ops : DiagonalNoiseOperators) (kT : ℝ) : Option NoiseOperators :=
  (temperatureCorrectedDiagonal same H ⟨.fundamental ops.count, b, b, ops.data⟩ kT).map fun X =>
    ⟨ops.count, X.b0.n, X.b1.n, X.data, ops.values, ops.eigenvalue⟩

/-- The shape of the position basis of a stacked basis, one entry for each of the lattice vectors. -/
noncomputable def gridShape (d : ℕ) (b : Basis) : Fin d → ℕ := fun i => b.fundamentalShape.getD i 0

/-- `get_temperature_corrected_gaussian_noise_operators`, `kernel/gaussian.py:341-372`: the operators of the position basis of the
Hamiltonian, corrected and converted to the bases of the Hamiltonian. -/
noncomputable def temperatureCorrectedGaussian (argsort : ℕ → (ℕ → ℝ) → ℕ → ℕ) (same : Basis → Basis → Bool)
    (A : Matrix (Fin d) (Fin d) ℝ) (H : Operator) (a lam kB T : ℝ) (truncation : Option (List ℕ)) : Option NoiseOperators :=
  let position := H.b0.asPositionBasis
  (gaussianOperators argsort A (gridShape d H.b0) a lam truncation).bind fun ops =>
    (temperatureCorrectedDiagonalNoise same H position ops (kB * T)).bind fun corrected =>
      convertNoiseOperators same corrected position position H.b0 H.b1

/-- `get_temperature_corrected_effective_gaussian_noise_operators`, `kernel/gaussian.py:375-405`: the `lambda_factor` is left at its
default. -/
noncomputable def temperatureCorrectedEffectiveGaussian (argsort : ℕ → (ℕ → ℝ) → ℕ → ℕ) (same : Basis → Basis → Bool)
    (A : Matrix (Fin d) (Fin d) ℝ) (H : Operator) (hbar kB eta T : ℝ) (truncation : Option (List ℕ)) : Option NoiseOperators :=
  let p := effectiveGaussianParameters A hbar kB eta T (2 * Real.sqrt 2)
  temperatureCorrectedGaussian argsort same A H p.1 p.2 kB T truncation

/-- `get_effective_gaussian_isotropic_noise_kernel`, `kernel/gaussian.py:240-270`. -/
noncomputable def effectiveGaussianIsotropic (A : Matrix (Fin d) (Fin d) ℝ) (shape : Fin d → ℕ) (hbar kB eta T factor : ℝ) : ℕ → ℂ :=
  let p := effectiveGaussianParameters A hbar kB eta T factor
  gaussianIsotropic A shape p.1 p.2

/-- `get_effective_gaussian_noise_operators_periodic`, `kernel/gaussian.py:308-338`. -/
noncomputable def effectiveGaussianOperators (argsort : ℕ → (ℕ → ℝ) → ℕ → ℕ) (A : Matrix (Fin d) (Fin d) ℝ) (shape : Fin d → ℕ)
    (hbar kB eta T : ℝ) (truncation : Option (List ℕ)) : Option DiagonalNoiseOperators :=
  let p := effectiveGaussianParameters A hbar kB eta T (2 * Real.sqrt 2)
  gaussianOperators argsort A shape p.1 p.2 truncation

/-- `get_linear_gaussian_operators_explicit_taylor_stacked`, `kernel/gaussian.py:530-560`, for axes given by their number of points,
the norm of `delta_x`, and the entry of `shape`. -/
noncomputable def gaussianLinearTaylorStacked (axes : List (ℕ × ℝ × Option ℕ)) (a lam : ℝ) : DiagonalNoiseOperators :=
  operatorsFromAxis (axes.map fun p => gaussianLinearTaylor p.1 p.2.1 a lam p.2.2)

/-- `get_isotropic_kernel_from_operators`, `kernel/kernel.py:561-586`. -/
noncomputable def getIsotropicKernelFromFull (ops : NoiseOperators) (assertIsotropic : Bool) : Option (ℕ → ℂ) :=
  getIsotropicKernel (asDiagonalOperators ops) assertIsotropic

end Verif
