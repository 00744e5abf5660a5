import Verif.Model.Kernel
import Verif.Model.Interp

/-!
Noise operators of isotropic kernels by Fourier transforms, `kernel/solve/_fft.py`.

The basis of the kernel is given by its number of points (or its shape); the length of the operators, `fundamental_n`, is an
optional argument as in the code.
-/

set_option autoImplicit false

namespace Verif

open Finset

/-- `_assert_periodic_sample`, `kernel/solve/_fft.py:49-61`: every length of the basis is a multiple of the length of the sample.
(`n % 0` raises as well.) -/
def periodicSample (basisShape shape : List ℕ) : Bool :=
  decide (basisShape.length = shape.length) && (List.zipWith (fun n s : ℕ => decide (0 < s ∧ n % s = 0)) basisShape shape).all id

/-- `_get_operators_for_isotropic_noise`, `kernel/solve/_fft.py:64-89`: the number of operators and their data,
`e^{i a k x} / √n` with `k = 2 π / N`. (Simplification: the code labels the operators with a basis of `N` elements; the only call
in the repository leaves the number `n` of operators at its default `N`, so that `count = N`.) -/
noncomputable def isotropicOperators (n : ℕ) (fundamentalN : Option ℕ) (assertPeriodic : Bool) : Option (ℕ × (ℕ → ℂ)) :=
  let N := fundamentalN.getD n
  if assertPeriodic = true ∧ periodicSample [n] [N] = false then none
  else some (N, flatten n fun a m =>
    Complex.exp (Complex.I * (a : ℂ) * ((2 * Real.pi / (N : ℝ) : ℝ) : ℂ) * ((nkPoints n m : ℤ) : ℂ)) / ((Real.sqrt n : ℝ) : ℂ))

/-- `_get_noise_eigenvalues_isotropic_fft`, `kernel/solve/_fft.py:92-104`. -/
noncomputable def isotropicEigenvalues (n : ℕ) (β : ℕ → ℂ) (fundamentalN : Option ℕ) : ℕ → ℂ :=
  let N := fundamentalN.getD n
  fun a => ifft .forward N (pad1 n N β) a * ((n : ℂ) / (N : ℂ))

/-- `get_periodic_noise_operators_isotropic_fft`, `kernel/solve/_fft.py:107-149`. -/
noncomputable def isotropicFft (n : ℕ) (β : ℕ → ℂ) (fundamentalN : Option ℕ) (assertPeriodic : Bool) :
    Option DiagonalNoiseOperators :=
  let N := fundamentalN.getD n
  (isotropicOperators n (some N) assertPeriodic).map fun ops =>
    ⟨ops.1, n, ops.2, N, isotropicEigenvalues n β (some N)⟩

/-- `get_periodic_operators_for_real_isotropic_noise`, `kernel/solve/_fft.py:152-196`: cosines of the frequencies `0, 1, …`, then
sines of the same frequencies in the opposite order without the frequency zero. -/
noncomputable def realIsotropicOperators (n : ℕ) (frequencies fundamentalN : Option ℕ) (assertPeriodic : Bool) :
    Option (ℕ × (ℕ → ℂ)) :=
  let N := fundamentalN.getD n
  if assertPeriodic = true ∧ periodicSample [n] [N] = false then none
  else
    let f := frequencies.getD (N / 2)
    let k : ℝ := 2 * Real.pi / (N : ℝ)
    some (f + (f - 1), flatten n fun a m =>
      ((if a < f then Real.cos ((a : ℝ) * ((nkPoints n m : ℤ) : ℝ) * k)
        else Real.sin (((f - 1 - (a - f) : ℕ) : ℝ) * ((nkPoints n m : ℤ) : ℝ) * k) : ℝ) : ℂ) / ((Real.sqrt n : ℝ) : ℂ))

open Classical in
/-- `get_periodic_noise_operators_real_isotropic_fft`, `kernel/solve/_fft.py:199-252`. (The tolerances of `assert_allclose` are
taken to be zero.) -/
noncomputable def realIsotropicFft (n : ℕ) (β : ℕ → ℂ) (terms : Option ℕ) (assertPeriodic : Bool) :
    Option DiagonalNoiseOperators :=
  if ¬ ∀ j < n, (β j).im = 0 then none
  else
    let N := match terms with
      | none => n
      | some t => 2 * t + 1
    (realIsotropicOperators n none (some N) assertPeriodic).bind fun ops =>
      let eigenvalues := isotropicEigenvalues n β (some N)
      if ¬ ∀ a < N - 1, eigenvalues (1 + a) = eigenvalues (1 + (N - 1 - 1 - a)) then none
      else some ⟨ops.1, n, ops.2, N, eigenvalues⟩

/-- The phase `np.einsum("i,i,ij->j", k, i, nk_points)` at one point, `kernel/solve/_fft.py:279`. -/
noncomputable def stackedPhase (shape : List ℕ) (i nk : List ℤ) : ℝ :=
  (List.zipWith3 (fun (N : ℕ) (a x : ℤ) => 2 * Real.pi / (N : ℝ) * (a : ℝ) * (x : ℝ)) shape i nk).sum

/-- `_get_operators_for_isotropic_stacked_noise`, `kernel/solve/_fft.py:255-290`. (Simplification: the basis of the kernel has its
fundamental shape, as the position bases in use have; the number of operators is left at its default.) -/
noncomputable def isotropicStackedOperators (ns : List ℕ) (fundamentalShape : Option (List ℕ)) (assertPeriodic : Bool) :
    Option (ℕ × (ℕ → ℂ)) :=
  let Ns := fundamentalShape.getD ns
  if assertPeriodic = true ∧ periodicSample ns Ns = false then none
  else some (Ns.prod, flatten ns.prod fun a m =>
    Complex.exp (Complex.I * ((stackedPhase Ns (stackedNkPoints Ns a) (stackedNkPoints ns m) : ℝ) : ℂ)) /
      ((Real.sqrt ns.prod : ℝ) : ℂ))

/-- The axes of `pad_ft_points(data, fundamental_shape, range(len(fundamental_shape)))`, `kernel/solve/_fft.py:302-310`. -/
def fftAxes (ns Ns : List ℕ) : List PadAxis := List.zipWith (fun n N : ℕ => (n, some N)) ns Ns

/-- `_get_noise_eigenvalues_isotropic_stacked_fft`, `kernel/solve/_fft.py:293-315`. -/
noncomputable def isotropicStackedEigenvalues (ns : List ℕ) (β : ℕ → ℂ) (fundamentalShape : Option (List ℕ)) : ℕ → ℂ :=
  let Ns := fundamentalShape.getD ns
  fun a => ifftn (fftAxes ns Ns) (padFtPoints (fftAxes ns Ns) fun idx => β (ravel ns idx)) (unravel Ns a) *
    ((ns.prod : ℂ) / (Ns.prod : ℂ))

/-- `get_periodic_noise_operators_isotropic_stacked_fft`, `kernel/solve/_fft.py:318-366`. -/
noncomputable def isotropicStackedFft (ns : List ℕ) (β : ℕ → ℂ) (fundamentalShape : Option (List ℕ)) (assertPeriodic : Bool) :
    Option DiagonalNoiseOperators :=
  let Ns := fundamentalShape.getD ns
  (isotropicStackedOperators ns (some Ns) assertPeriodic).map fun ops =>
    ⟨ops.1, ns.prod, ops.2, Ns.prod, isotropicStackedEigenvalues ns β (some Ns)⟩

/-- `get_periodic_noise_operators_real_isotropic_stacked_fft`, `kernel/solve/_fft.py:369-402`: the complex operators of each axis
for the kernels of the axes (`get_fundamental_axis_kernels_from_isotropic`, `kernel/solve/_util.py:45-52`, on a position basis). -/
noncomputable def realIsotropicStackedFft (ns : List ℕ) (β : ℕ → ℂ) (fundamentalShape : Option (List (Option ℕ)))
    (assertPeriodic : Bool) : Option DiagonalNoiseOperators :=
  ((List.zipWith (fun n β' => (n, β')) ns (axisFromIsotropic ns β)).zipIdx.mapM fun p =>
    isotropicFft p.1.1 p.1.2 (match fundamentalShape with
      | none => none
      | some s => s.getD p.2 none) assertPeriodic).map operatorsFromAxis

end Verif
