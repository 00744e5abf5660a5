import Mathlib.Analysis.SpecialFunctions.Complex.Circle
import Mathlib.Algebra.BigOperators.Ring.Finset

/-!
`np.fft.fft` and `np.fft.ifft` as finite sums over exact complex numbers, with numpy's three normalisations.
An axis of `n` complex numbers is a function `ℕ → ℂ` read at indices `< n`.
-/

namespace Verif

open Complex

/-- The `norm` argument of `np.fft`. -/
inductive FftNorm
  | backward
  | ortho
  | forward
  deriving DecidableEq

/-- The factor of the forward transform: `1`, `1/√n`, `1/n`. -/
noncomputable def FftNorm.fftScale (n : ℕ) : FftNorm → ℂ
  | .backward => 1
  | .ortho => 1 / (Real.sqrt n : ℂ)
  | .forward => 1 / (n : ℂ)

/-- The factor of the inverse transform: `1/n`, `1/√n`, `1`. -/
noncomputable def FftNorm.ifftScale (n : ℕ) : FftNorm → ℂ
  | .backward => 1 / (n : ℂ)
  | .ortho => 1 / (Real.sqrt n : ℂ)
  | .forward => 1

/-- `np.fft.fft(v, axis=axis, norm=norm)` on an axis of length `n`; numpy primitive used at
`basis/basis_like.py:169,283` and elsewhere. (A length argument different from the length of the axis would crop or
pad; every modelled call passes the length of the axis.) -/
noncomputable def fft (norm : FftNorm) (n : ℕ) (v : ℕ → ℂ) : ℕ → ℂ := fun k =>
  norm.fftScale n * ∑ j ∈ Finset.range n, v j * exp (-(2 * Real.pi * I * j * k / n))

/-- `np.fft.ifft(v, axis=axis, norm=norm)`; numpy primitive used at `basis/basis_like.py:216,295` and
elsewhere. -/
noncomputable def ifft (norm : FftNorm) (n : ℕ) (v : ℕ → ℂ) : ℕ → ℂ := fun k =>
  norm.ifftScale n * ∑ j ∈ Finset.range n, v j * exp (2 * Real.pi * I * j * k / n)

end Verif
