import Verif.Model.Kernel
import Verif.Model.KernelConvert
import Verif.Model.PlotData

/-!
What is drawn by `kernel/plot.py`: the numbers given to matplotlib. The figure itself is not modelled.
-/

set_option autoImplicit false

namespace Verif

open Finset

/-- The array `cumulative` of length `N + 1`, `kernel/plot.py:206-209,245-248`: sums of the sorted moduli of the eigenvalues (`np.sort`
is the data in the order of `np.argsort`). -/
noncomputable def truncationCumulative (argsort : ℕ → (ℕ → ℝ) → ℕ → ℕ) (N : ℕ) (eigenvalue : ℕ → ℂ) (t : ℕ) : ℝ :=
  ∑ i ∈ range t, ‖eigenvalue (argsort N (fun a => ‖eigenvalue a‖) i)‖

/-- `plot_kernel_truncation_error`, `kernel/plot.py:179-220`, for nonnegative truncations: the points drawn. An index out of range
raises. -/
noncomputable def plotKernelTruncationError (eigh : ∀ N, Matrix (Fin N) (Fin N) ℂ → EigResult) (argsort : ℕ → (ℕ → ℝ) → ℕ → ℕ) (n : ℕ)
    (K : ℕ → ℂ) (truncations : Option (List ℕ)) : Option (List (ℕ × ℝ)) :=
  (eigenOperators eigh n K).bind fun ops =>
    let size := ops.values + 1
    let step := 1 + size / 100
    let truncations := truncations.getD (List.range' 0 ((size + step - 1) / step) step)
    if ∀ t ∈ truncations, t < size then
      some (truncations.map fun t => (t, truncationCumulative argsort ops.values ops.eigenvalue t))
    else none

/-- `plot_diagonal_kernel_truncation_error`, `kernel/plot.py:223-257`. -/
noncomputable def plotDiagonalKernelTruncationError (eigh : ∀ N, Matrix (Fin N) (Fin N) ℂ → EigResult)
    (argsort : ℕ → (ℕ → ℝ) → ℕ → ℕ) (n : ℕ) (d : ℕ → ℂ) : Option DrawnLine :=
  (diagonalEigenOperators eigh n d).bind fun ops =>
    plotData1d (ops.values + 1) (fun t => (truncationCumulative argsort ops.values ops.eigenvalue t : ℂ)) (fun t => (t : ℝ)) .abs false

/-- The data drawn by `plot_diagonal_noise_operators_single_sample`, `kernel/plot.py:260-330`, for given random factors, one for each
operator after truncation. The operators used are taken from the list *before* truncation; `ax.set_ylabel` raises unless the axes of a
figure are given (`hasAxes`). -/
noncomputable def plotOperatorsSingleSample (argsort : ℕ → (ℕ → ℝ) → ℕ → ℕ) (hbar : ℝ) (ops : DiagonalNoiseOperators)
    (truncation : Option (List ℕ)) (hasAxes : Bool) (factors : ℕ → ℂ) : Option (ℕ → ℂ) :=
  (truncateDiagonalOperators (argsort ops.values fun a => ‖ops.eigenvalue a‖) ops (truncation.getD (List.range ops.values))).bind
    fun truncated =>
      if truncated.values ≤ ops.count ∧ truncated.values ≤ ops.values ∧ 0 < ops.dim ∧ hasAxes then
        let potential := fun k => ∑ i ∈ range truncated.values,
          factors i * scimathSqrt (ops.eigenvalue i * hbar) * ops.data (i * ops.dim + k)
        some fun k => potential k - potential 0
      else none

/-- The data drawn by `plot_noise_kernel_single_sample`, `kernel/plot.py:383-428`. -/
noncomputable def plotKernelSingleSample (eigh : ∀ N, Matrix (Fin N) (Fin N) ℂ → EigResult) (argsort : ℕ → (ℕ → ℝ) → ℕ → ℕ)
    (hbar : ℝ) (n : ℕ) (d : ℕ → ℂ) (truncation : Option (List ℕ)) (hasAxes : Bool) (factors : ℕ → ℂ) : Option (ℕ → ℂ) :=
  (diagonalEigenOperators eigh n d).bind fun ops => plotOperatorsSingleSample argsort hbar ops truncation hasAxes factors

/-- Number of entries of the slice `[:stop:-1]` of an array of length `N`; python primitive used at `kernel/plot.py:466`. -/
def reverseSliceLength (N : ℕ) (stop : Option ℤ) : ℕ :=
  match stop with
  | none => N
  | some k => ((N : ℤ) - 1 - (if k < 0 then max (k + N) (-1) else min k ((N : ℤ) - 1))).toNat

/-- `plot_diagonal_noise_operators_eigenvalues`, `kernel/plot.py:431-472`: the values drawn. -/
noncomputable def plotOperatorEigenvalues (argsort : ℕ → (ℕ → ℝ) → ℕ → ℕ) (N : ℕ) (eigenvalue : ℕ → ℂ) (measure : Measure)
    (truncation : Option ℤ) : List ℝ :=
  let measured := getMeasuredData eigenvalue measure
  (List.range (reverseSliceLength N truncation)).map fun i => measured (argsort N measured (N - 1 - i))

/-- `_get_noise_kernel_percentage_error`, `kernel/plot.py:548-556`. (Where the true kernel is zero numpy warns and gives `nan` or
infinity: zero here.) -/
noncomputable def kernelPercentageError (same : Basis → Basis → Bool) (b c : Basis) (true' fitted : ℕ → ℂ) : Option (ℕ → ℂ) :=
  (convertIsotropicKernel same c b fitted).map fun converted => fun k => (converted k - true' k) * 100 / true' k

end Verif
