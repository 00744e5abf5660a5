import Verif.Model.PlotKernel
import Verif.Model.PlotLists
import Verif.Model.PlotOperators

/-!
Operators and kernels drawn as matrices, isotropic kernels and their errors drawn against position (`operator/plot.py`, `kernel/plot.py`). As in
`Model/PlotData` only the numbers given to matplotlib are modelled.
-/

set_option autoImplicit false

namespace Verif

open Matrix

variable {d : ℕ}

/-- A matrix of values given to `pcolormesh` (row `i` is drawn at height `i`), and the limits of the colours. -/
structure DrawnMatrix where
  rows : ℕ
  cols : ℕ
  values : ℕ → ℕ → ℝ
  limits : ℝ × ℝ

/-- `plot_data_2d`, `util/plot.py:386-411`, without coordinates; an empty array raises in `np.max`. -/
noncomputable def plotData2d (rows cols : ℕ) (data : ℕ → ℕ → ℂ) (measure : Measure) : Option DrawnMatrix :=
  let measured := fun i j => getMeasuredData (data i) measure j
  (getLim (none, none) measure ((List.range rows).flatMap fun i => (List.range cols).map (measured i))).map fun clim =>
    ⟨rows, cols, measured, clim⟩

/-- `plot_diagonal_kernel_2d`, `kernel/plot.py:75-104`, for a kernel of operators between bases of sizes `n` and `m`: the data has `n m` entries, and
`reshape(n_states, n_states)` raises for another number of entries; `np.fft.fftshift` shifts both axes. -/
noncomputable def plotDiagonalKernel2d (n m : ℕ) (kernel : ℕ → ℂ) (measure : Measure) : Option DrawnMatrix :=
  if n * m = n * n then
    plotData2d n n (fun i j => fftshift n (fun i' => fftshift n (fun j' => kernel (i' * n + j')) j) i) measure
  else none

/-- `plot_kernel_2d`, `kernel/plot.py:107-131`, for a kernel of operators between bases of sizes `n` and `m`. -/
noncomputable def plotKernel2d (n m : ℕ) (kernel : ℕ → ℂ) (measure : Measure) : Option DrawnMatrix :=
  plotData2d (n * m) (n * m) (fun p q => kernel (p * (n * m) + q)) measure

/-- `plot_operator_2d`, `operator/plot.py:470-494`. -/
noncomputable def plotOperator2d (O : Operator) (measure : Measure) : Option DrawnMatrix := plotData2d O.b0.n O.b1.n O.entry measure

/-- `plot_operator_2d_diagonal`, `operator/plot.py:497-519`. -/
noncomputable def plotDiagonalOperator2d (D : DiagonalOperator) (measure : Measure) : Option DrawnMatrix := plotOperator2d (asOperator D) measure

/-- `plot_eigenvalues`, `operator/plot.py:196-225`, given the result of `eigh` or `np.linalg.eig`. -/
noncomputable def plotEigenvaluesOf (argsort : ℕ → (ℕ → ℝ) → ℕ → ℕ) (O : Operator) (r : EigResult) (measure : Measure) : DrawnLine :=
  plotEigenvalues argsort O.b0.n (calculateEigenvectors O O.b0.n r).eigenvalue measure

/-- `plot_eigenstate_occupations`, `operator/plot.py:167-193`, given the result of `np.linalg.eig`; the eigenvalues changed by the plot are those of the
list made here, and not returned. -/
noncomputable def plotOccupationsOf (argsort : ℕ → (ℕ → ℂ) → ℕ → ℕ) (kB temperature : ℝ) (O : Operator) (r : EigResult) : Option DrawnLine :=
  (plotEigenstateOccupations argsort kB temperature O.b0.n (calculateEigenvectors O O.b0.n r).eigenvalue).map Prod.fst

/-- The data drawn by `plot_noise_operators_single_sample_x`, `kernel/plot.py:333-380`, for operators between the bases `b0` and `b1` and given random
factors, as for `plotOperatorsSingleSample`. -/
noncomputable def plotNoiseOperatorsSampleX (same : Basis → Basis → Bool) (argsort : ℕ → (ℕ → ℝ) → ℕ → ℕ) (hbar : ℝ) (ops : NoiseOperators)
    (b0 b1 : Basis) (truncation : Option (List ℕ)) (hasAxes : Bool) (factors : ℕ → ℂ) : Option (ℕ → ℂ) :=
  (convertNoiseOperators same ops b0 b1 b0.asPositionBasis b0.asPositionBasis).bind fun converted =>
    plotOperatorsSingleSample argsort hbar (asDiagonalOperators converted) truncation hasAxes factors

/-- `plot_isotropic_noise_kernel_1d_x`, `kernel/plot.py:475-509`. -/
noncomputable def plotIsotropicKernel1dX (same : Basis → Basis → Bool) (A : Matrix (Fin d) (Fin d) ℝ) (b : Basis) (β : ℕ → ℂ) (axis : Fin d)
    (idx : Option (List ℕ)) (measure : Measure) : Option DrawnLine := plotLineX same A b β axis idx measure

/-- `plot_isotropic_noise_kernel_2d_x`, `kernel/plot.py:512-545`. -/
noncomputable def plotIsotropicKernel2dX (same : Basis → Basis → Bool) (A : Matrix (Fin d) (Fin d) ℝ) (b : Basis) (β : ℕ → ℂ)
    (axes : List (Fin d)) (idx : Option (List ℕ)) : Option DrawnSlice := plotDataX same A b β axes idx

/-- `plot_isotropic_kernel_error_1d_x`, `kernel/plot.py:559-569`: the first axis, through the point with the largest error; `b` and `c` are the bases of
the true and of the fitted kernel. -/
noncomputable def plotKernelError1dX (same : Basis → Basis → Bool) (A : Matrix (Fin (d + 1)) (Fin (d + 1)) ℝ) (b c : Basis) (true' fitted : ℕ → ℂ) :
    Option DrawnLine :=
  (kernelPercentageError same b c true' fitted).bind fun e => plotLineX same A b e 0 none .real

/-- `plot_isotropic_kernel_error_1d`, `kernel/plot.py:572-587`. -/
noncomputable def plotKernelError1d (same : Basis → Basis → Bool) (b c : Basis) (true' fitted : ℕ → ℂ) : Option DrawnLine :=
  (kernelPercentageError same b c true' fitted).bind fun e => plotData1d b.n e (fun i => i) .real false

end Verif
