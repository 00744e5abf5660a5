import Verif.Model.KernelTaylor
import Verif.Model.Geometry

/-!
Displacements and the kernels built from them: `operator/build.py`, `kernel/build.py`, `kernel/gaussian.py`,
`kernel/lorentzian.py`.

A stacked basis has the lattice vectors `A` (rows) and the shape `shape : Fin d → ℕ`; its points are numbered as those of the
flat array of shape `List.ofFn shape`. The physical constants are parameters.
-/

set_option autoImplicit false

namespace Verif

open Finset

variable {d : ℕ}

/-! ## Displacements -/

/-- `_wrap_displacements`, `operator/build.py:41-47`, for one displacement. -/
noncomputable def wrapDisplacement (x m : ℝ) : ℝ := fmod (x + m) (2 * m) - m

/-- `BasisUtil.stacked_nx_points`, `basis/util.py:212-220`, for a position basis: the indices of the flat index `k`. -/
def stackedNx (shape : Fin d → ℕ) (k : ℕ) : Fin d → ℤ := fun i => ((unravel (List.ofFn shape) k).getD i 0 : ℕ)

/-- `BasisUtil.x_points_stacked`, `basis/util.py:391-394`: component `c` of the point with the flat index `k`. -/
noncomputable def xPoint (A : Matrix (Fin d) (Fin d) ℝ) (shape : Fin d → ℕ) (k : ℕ) : Fin d → ℝ :=
  xPointAtIndex A shape (stackedNx shape k)

/-- `get_displacements_x`, `operator/build.py:50-68`, for a basis whose `delta_x` has one component. -/
noncomputable def displacementX (delta : ℝ) (n : ℕ) (origin : ℝ) (k : ℕ) : ℝ := wrapDisplacement (delta / n * k - origin) (|delta| / 2)

/-- `_get_displacements_x_along_axis`, `operator/build.py:71-83`. -/
noncomputable def displacementXAlongAxis (A : Matrix (Fin d) (Fin d) ℝ) (shape : Fin d → ℕ) (origin : ℝ) (axis : Fin d) (k : ℕ) : ℝ :=
  wrapDisplacement (xPoint A shape k axis - origin) (vnorm (A axis) / 2)

/-- `get_displacements_matrix_nx_stacked`, `operator/build.py:101-124`. -/
def displacementNxStacked (shape : Fin d → ℕ) (axis : Fin d) (i j : ℕ) : ℤ :=
  (stackedNx shape i axis - stackedNx shape j axis + (shape axis / 2 : ℕ)) % (shape axis) - (shape axis / 2 : ℕ)

/-- `_get_displacements_matrix_x_along_axis`, `operator/build.py:176-190`. -/
noncomputable def displacementMatrixAlongAxis (A : Matrix (Fin d) (Fin d) ℝ) (shape : Fin d → ℕ) (origin : ℝ) (axis : Fin d) (i j : ℕ) : ℝ :=
  wrapDisplacement (xPoint A shape i axis - xPoint A shape j axis - origin) (vnorm (A axis) / 2)

/-- `get_total_displacements_matrix_x_stacked`, `operator/build.py:209-236`, with `get_displacements_matrix_x_stacked`,
`operator/build.py:193-206`, for the origin `0`. -/
noncomputable def totalDisplacement (A : Matrix (Fin d) (Fin d) ℝ) (shape : Fin d → ℕ) (i j : ℕ) : ℝ :=
  vnorm fun axis => displacementMatrixAlongAxis A shape 0 axis i j

/-- The length of an axis of two arrays which are combined by numpy: an axis of length one is repeated, other differences raise. -/
def broadcastLength (p q : ℕ) : Option ℕ := if p = q then some p else if p = 1 then some q else if q = 1 then some p else none

/-- `get_displacements_matrix_x`, `operator/build.py:150-173`, for a basis of `n` points whose `delta_x` has `nd` components: the number
of entries and the flat array. `x_points` has the shape `(nd, n)`, so that `x_points[:, np.newaxis] - x_points[np.newaxis, :]`
has the shape `(nd, nd, n)`; to its last axis `delta_x`, of length `nd`, is added. -/
noncomputable def displacementsMatrixX (nd n : ℕ) (delta : Fin nd → ℝ) (origin : ℝ) : Option (ℕ × (ℕ → ℝ)) :=
  (broadcastLength n nd).map fun len =>
    let component := fun c : ℕ => if h : c < nd then delta ⟨c, h⟩ else 0
    let m := vnorm delta / 2
    (nd * nd * len, fun k =>
      let p := k / len / nd
      let q := k / len % nd
      let l := k % len
      fmod (component p / n * (einsumIndex n l : ℕ) - component q / n * (einsumIndex n l : ℕ) - origin + component (einsumIndex nd l)) m - m)

/-! ## Kernels from functions -/

/-- `build_isotropic_kernel_from_function`, `kernel/build.py:76-104`: the reshape to `(n, n)` raises unless the number of entries
agrees. -/
noncomputable def isotropicFromFunction (nd n : ℕ) (delta : Fin nd → ℝ) (fn : ℝ → ℂ) : Option (ℕ → ℂ) :=
  (displacementsMatrixX nd n delta 0).bind fun D => if D.1 = n * n then some fun k => fn (D.2 k) else none

/-- `build_isotropic_kernel_from_function_stacked`, `kernel/build.py:107-137`: the first row of the matrix of displacements. -/
noncomputable def isotropicFromFunctionStacked (A : Matrix (Fin d) (Fin d) ℝ) (shape : Fin d → ℕ) (fn : ℝ → ℂ) : ℕ → ℂ :=
  fun k => fn (totalDisplacement A shape 0 k)

/-- `build_axis_kernel_from_function_stacked`, `kernel/build.py:140-169`. -/
noncomputable def axisFromFunction (A : Matrix (Fin d) (Fin d) ℝ) (shape : Fin d → ℕ) (fn : ℝ → ℂ) : Option (List (ℕ → ℂ)) :=
  (List.finRange d).mapM fun i => isotropicFromFunction d (shape i) (A i) fn

/-! ## Gaussian kernels -/

/-- `fn` of `get_gaussian_isotropic_noise_kernel`, `kernel/gaussian.py:91-96`. -/
noncomputable def gaussianFn (a lam x : ℝ) : ℂ := ((a ^ 2 * Real.exp (-(x ^ 2) / (2 * lam ^ 2)) : ℝ) : ℂ)

/-- `get_gaussian_isotropic_noise_kernel`, `kernel/gaussian.py:64-98`. -/
noncomputable def gaussianIsotropic (A : Matrix (Fin d) (Fin d) ℝ) (shape : Fin d → ℕ) (a lam : ℝ) : ℕ → ℂ :=
  isotropicFromFunctionStacked A shape (gaussianFn a lam)

/-- `get_gaussian_axis_noise_kernel`, `kernel/gaussian.py:101-133`. -/
noncomputable def gaussianAxis (A : Matrix (Fin d) (Fin d) ℝ) (shape : Fin d → ℕ) (a lam : ℝ) : Option (List (ℕ → ℂ)) :=
  axisFromFunction A shape (gaussianFn a lam)

/-- `get_gaussian_noise_kernel`, `kernel/gaussian.py:136-164`: the differences of the flat indices are used. -/
noncomputable def gaussianKernel (A : Matrix (Fin d) (Fin d) ℝ) (shape : Fin d → ℕ) (a lam : ℝ) : ℕ → ℂ :=
  diagonalFromIsotropic (List.ofFn shape).prod (gaussianIsotropic A shape a lam)

/-- `get_effective_gaussian_parameters`, `kernel/gaussian.py:167-204`: amplitude and length. -/
noncomputable def effectiveGaussianParameters (A : Matrix (Fin d) (Fin d) ℝ) (hbar kB eta T factor : ℝ) : ℝ × ℝ :=
  let lam := (⨅ i, vnorm (A i)) / factor
  (Real.sqrt (2 * eta * kB * T / hbar ^ 2) * lam, lam)

/-- `get_effective_gaussian_noise_kernel`, `kernel/gaussian.py:207-237`. -/
noncomputable def effectiveGaussianKernel (A : Matrix (Fin d) (Fin d) ℝ) (shape : Fin d → ℕ) (hbar kB eta T factor : ℝ) : ℕ → ℂ :=
  let p := effectiveGaussianParameters A hbar kB eta T factor
  gaussianKernel A shape p.1 p.2

/-- `get_gaussian_noise_operators_periodic`, `kernel/gaussian.py:273-305`; `argsort` is `np.argsort`. -/
noncomputable def gaussianOperators (argsort : ℕ → (ℕ → ℝ) → ℕ → ℕ) (A : Matrix (Fin d) (Fin d) ℝ) (shape : Fin d → ℕ) (a lam : ℝ)
    (truncation : Option (List ℕ)) : Option DiagonalNoiseOperators :=
  (realIsotropicStackedFft (List.ofFn shape) (gaussianIsotropic A shape a lam) none true).bind fun ops =>
    truncateDiagonalOperators (argsort ops.values fun i => ‖ops.eigenvalue i‖) ops (truncation.getD (List.range ops.count))

/-- `_get_explicit_taylor_coefficients_gaussian`, `kernel/gaussian.py:408-415`. -/
noncomputable def gaussianTaylorCoefficients (a lam : ℝ) : ℕ → ℝ := fun i => a ^ 2 / (i.factorial : ℝ) * (-1 / (2 * lam ^ 2)) ^ i

/-- `get_periodic_gaussian_operators_explicit_taylor`, `kernel/gaussian.py:418-450`; `delta` is the norm of `delta_x`. -/
noncomputable def gaussianTaylor (n : ℕ) (delta a lam : ℝ) (nTerms : Option ℕ) : Option DiagonalNoiseOperators :=
  let t := nTerms.getD (n / 2)
  explicitTaylor n t (gaussianTaylorCoefficients a (2 * Real.pi * lam / delta)) (some t)

/-- `get_linear_gaussian_noise_operators_explicit_taylor`, `kernel/gaussian.py:453-494`. -/
noncomputable def gaussianLinearTaylor (n : ℕ) (delta a lam : ℝ) (nTerms : Option ℕ) : DiagonalNoiseOperators :=
  let t := nTerms.getD n
  linearTaylor n t (gaussianTaylorCoefficients a (2 * Real.pi * lam / delta)) (some t)

/-- `get_periodic_gaussian_operators_explicit_taylor_stacked`, `kernel/gaussian.py:497-527`, for axes given by their number of points,
the norm of `delta_x`, and the entry of `shape`. -/
noncomputable def gaussianTaylorStacked (axes : List (ℕ × ℝ × Option ℕ)) (a lam : ℝ) : Option DiagonalNoiseOperators :=
  (axes.mapM fun p => gaussianTaylor p.1 p.2.1 a lam p.2.2).map operatorsFromAxis

/-! ## Lorentzian kernels -/

/-- `get_effective_lorentzian_parameter`, `kernel/lorentzian.py:37-67`. -/
noncomputable def effectiveLorentzianParameters (A : Matrix (Fin d) (Fin d) ℝ) (hbar kB eta T factor : ℝ) : ℝ × ℝ :=
  let lam := (⨅ i, vnorm (A i)) / 2 / factor
  (Real.sqrt (2 * eta * kB * T / hbar ^ 2) * lam, lam)

/-- `fn` of `get_lorentzian_isotropic_noise_kernel`, `kernel/lorentzian.py:94-97`. -/
noncomputable def lorentzianFn (a lam x : ℝ) : ℂ := ((a ^ 2 * lam ^ 2 / (x ^ 2 + lam ^ 2) : ℝ) : ℂ)

/-- `get_lorentzian_isotropic_noise_kernel`, `kernel/lorentzian.py:70-98`. -/
noncomputable def lorentzianIsotropic (A : Matrix (Fin d) (Fin d) ℝ) (shape : Fin d → ℕ) (a lam : ℝ) : ℕ → ℂ :=
  isotropicFromFunctionStacked A shape (lorentzianFn a lam)

/-- `_get_explicit_taylor_coefficients_lorentzian`, `kernel/lorentzian.py:102-109`: one more coefficient than terms. -/
noncomputable def lorentzianTaylorCoefficients (a lam : ℝ) : ℕ → ℝ := fun i => a ^ 2 * (-1 / lam ^ 2) ^ i

/-- `get_lorentzian_operators_explicit_taylor`, `kernel/lorentzian.py:112-152`. -/
noncomputable def lorentzianTaylor (n : ℕ) (delta a lam : ℝ) (nTerms : Option ℕ) : Option DiagonalNoiseOperators :=
  let t := nTerms.getD (n / 2)
  explicitTaylor n (t + 1) (lorentzianTaylorCoefficients a (2 * Real.pi * lam / delta)) (some t)

end Verif
