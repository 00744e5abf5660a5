import Mathlib.Analysis.SpecialFunctions.Log.Base
import Mathlib.Analysis.SpecialFunctions.Pow.Real
import Verif.Model.Fft
import Verif.Model.PlotData
import Verif.Model.Stochastic

/-!
What is drawn by `state_vector/eigenvalue_list_plot.py`, `state_vector/plot_value_list.py`, the plots of sparsity in
`operator/plot.py` and the paths in `potential/plot.py`: the numbers given to matplotlib. The figure itself is not modelled.
-/

set_option autoImplicit false

namespace Verif

open Finset Matrix

/-! ## Eigenvalues -/

/-- The order of complex numbers used by `np.min`, `np.argmin` and `np.argsort`: real parts first, then imaginary parts. -/
def lexLt (x y : ℂ) : Prop := x.re < y.re ∨ x.re = y.re ∧ x.im < y.im

/-- `np.argmin` of the first `m + 1` entries of a complex array (the first position of the smallest); `np.min` is the entry
there. Used at `state_vector/eigenvalue_list_plot.py:103` and `potential/plot.py:444`. -/
noncomputable def argminLex (f : ℕ → ℂ) : ℕ → ℕ
  | 0 => 0
  | m + 1 => open Classical in if lexLt (f (m + 1)) (f (argminLex f m)) then m + 1 else argminLex f m

/-- `plot_eigenstate_occupations`, `state_vector/eigenvalue_list_plot.py:77-118`, for `n` eigenvalues: the line drawn and the
eigenvalues of the caller after the call, which `energies -= np.min(energies)` changes in place. `argsort` is `np.argsort` on an array
of the given length; `ax.plot` discards the imaginary part of the energies. `np.min` of an empty array raises. -/
noncomputable def plotEigenstateOccupations (argsort : ℕ → (ℕ → ℂ) → ℕ → ℕ) (kB temperature : ℝ) (n : ℕ) (eigenvalue : ℕ → ℂ) :
    Option (DrawnLine × (ℕ → ℂ)) :=
  if n = 0 then none
  else
    let energies := fun i => eigenvalue i - eigenvalue (argminLex eigenvalue (n - 1))
    let weight := fun i => Real.exp (-‖energies i‖ / (temperature * kB))
    let occupation := fun i => weight i / ∑ j ∈ range n, weight j
    let order := argsort n energies
    some (⟨n, fun i => (energies (order i)).re, fun i => occupation (order i)⟩, energies)

/-- `plot_eigenvalues`, `state_vector/eigenvalue_list_plot.py:121-154`: the values drawn against their position. The data is measured
before it is sorted. -/
noncomputable def plotEigenvalues (argsort : ℕ → (ℕ → ℝ) → ℕ → ℕ) (n : ℕ) (eigenvalue : ℕ → ℂ) (measure : Measure) : DrawnLine :=
  let order := argsort n fun i => ‖eigenvalue i‖
  ⟨n, fun i => i, fun i => getMeasuredData eigenvalue measure (order i)⟩

/-! ## Lists of values -/

/-- `np.fft.fftfreq(n, d)`: the integers `0 .. (n - 1) // 2` and then `-(n // 2) .. -1`, divided by `n d`; numpy primitive used at
`state_vector/plot_value_list.py:133,223`. -/
noncomputable def fftfreq (n : ℕ) (d : ℝ) (j : ℕ) : ℝ :=
  ((if j < (n - 1) / 2 + 1 then (j : ℤ) else -((n : ℤ) / 2) + (j - ((n - 1) / 2 + 1) : ℕ) : ℤ) : ℝ) * (1 / (n * d))

/-- The transform in `plot_value_list_against_frequency`, `state_vector/plot_value_list.py:130-131`. -/
noncomputable def frequencyData (t : TimeBasis) (data : ℕ → ℂ) : ℕ → ℂ :=
  fftshift t.n (fft .backward t.n (roll t.n t.offset data))

/-- The coordinates in `plot_value_list_against_frequency`, `state_vector/plot_value_list.py:132-134`. -/
noncomputable def frequencyCoordinates (t : TimeBasis) : ℕ → ℝ := fftshift t.n (fftfreq t.n t.dt)

/-- `plot_value_list_against_time`, `state_vector/plot_value_list.py:74-103`. -/
noncomputable def plotAgainstTime (t : TimeBasis) (data : ℕ → ℂ) (measure : Measure) : Option DrawnLine :=
  plotData1d t.n data t.times measure false

/-- `plot_value_list_against_frequency`, `state_vector/plot_value_list.py:106-144`. The transform of empty data raises. -/
noncomputable def plotAgainstFrequency (t : TimeBasis) (data : ℕ → ℂ) (measure : Measure) : Option DrawnLine :=
  if t.n = 0 then none else plotData1d t.n (frequencyData t data) (frequencyCoordinates t) measure false

/-- `plot_split_value_list_against_time`, `state_vector/plot_value_list.py:148-186`: one line for each of `bands` rows, of the sums of
this row and all the rows before it. -/
noncomputable def plotSplitAgainstTime (bands : ℕ) (t : TimeBasis) (data : ℕ → ℂ) (measure : Measure) : Option (List DrawnLine) :=
  (List.range bands).mapM fun b =>
    plotData1d t.n (fun j => ∑ c ∈ range (b + 1), data (c * t.n + j)) t.times measure false

/-- `plot_split_value_list_against_frequency`, `state_vector/plot_value_list.py:189-237`. -/
noncomputable def plotSplitAgainstFrequency (bands : ℕ) (t : TimeBasis) (data : ℕ → ℂ) (measure : Measure) : Option (List DrawnLine) :=
  if t.n = 0 then none
  else
    (List.range bands).mapM fun b =>
      plotData1d t.n (fun j => ∑ c ∈ range (b + 1), frequencyData t (fun i => data (c * t.n + i)) j) (frequencyCoordinates t)
        measure false

/-- `plot_all_value_list_against_time`, `state_vector/plot_value_list.py:240-273`. -/
noncomputable def plotAllAgainstTime (rows : ℕ) (t : TimeBasis) (data : ℕ → ℂ) (measure : Measure) : Option (List DrawnLine) :=
  (List.range rows).mapM fun r => plotAgainstTime t (fun j => data (r * t.n + j)) measure

/-- What `plot_average_value_list_against_time` draws: a line, and the lower and upper edge of the area around it. -/
structure DrawnBand where
  line : DrawnLine
  lower : ℕ → ℝ
  upper : ℕ → ℝ

/-- `plot_average_value_list_against_time`, `state_vector/plot_value_list.py:276-320`, for `rows` rows. The average of the measured
data is measured again by `plot_data_1d`. (With no rows numpy warns and draws `nan`: `none` here.) -/
noncomputable def plotAverageAgainstTime (rows : ℕ) (t : TimeBasis) (data : ℕ → ℂ) (measure : Measure) : Option DrawnBand :=
  if rows = 0 then none
  else
    let measured := fun r j => getMeasuredData data measure (r * t.n + j)
    let average := fun j => (∑ r ∈ range rows, measured r j) / rows
    let std := fun j => Real.sqrt ((∑ r ∈ range rows, (measured r j - average j) ^ 2) / rows) / Real.sqrt rows
    (plotData1d t.n (fun j => (average j : ℂ)) t.times measure false).map fun line =>
      ⟨line, fun j => average j - std j, fun j => average j + std j⟩

/-! ## Sparsity of operators -/

/-- `_get_operator_diagonals`, `operator/plot.py:114-121`, for an operator with `n` states on both sides: entry `j` of row `i`. -/
def plotOperatorDiagonals (n : ℕ) (data : ℕ → ℂ) (i j : ℕ) : ℂ := roll n i (fun r => data (r * n + j)) j

/-- `np.logspace(-22, np.log10(top), 10000)`, `operator/plot.py:100,153`; the last edge is `top` up to rounding. -/
noncomputable def sparsityEdges (top : ℝ) (i : ℕ) : ℝ := (10 : ℝ) ^ (-22 + i * ((Real.logb 10 top - -22) / 9999))

/-- `np.histogram(values, bins=edges)` for `count` values and `bins + 1` increasing edges, from its documentation: all but the last bin
are half open. -/
noncomputable def histogram (count : ℕ) (values : ℕ → ℝ) (bins : ℕ) (edges : ℕ → ℝ) (i : ℕ) : ℕ :=
  open Classical in
  ((range count).filter fun k => edges i ≤ values k ∧ (values k < edges (i + 1) ∨ i + 1 = bins ∧ values k ≤ edges (i + 1))).card

/-- The points drawn by `plot_operator_sparsity`, `operator/plot.py:98-104`, and by `plot_operator_diagonal_sparsity`,
`operator/plot.py:151-157`, for the given values: the cumulative count is drawn at the lower edge of each bin. Without a largest value of at least
`10⁻²²` the edges do not increase and `np.histogram` raises. -/
noncomputable def plotSparsity (count : ℕ) (values : ℕ → ℝ) : Option (ℕ × (ℕ → ℝ) × (ℕ → ℕ)) :=
  if count = 0 then none
  else
    let top := values (argmaxReal values (count - 1))
    if top < (10 : ℝ) ^ (-22 : ℝ) then none
    else some (9999, sparsityEdges top, fun i => ∑ b ∈ range (i + 1), histogram count values 9999 (sparsityEdges top) b)

/-- `plot_operator_sparsity`, `operator/plot.py:71-111`. -/
noncomputable def plotOperatorSparsity (n : ℕ) (data : ℕ → ℂ) (measure : Measure) : Option (ℕ × (ℕ → ℝ) × (ℕ → ℕ)) :=
  plotSparsity (n * n) (getMeasuredData data measure)

/-- `plot_operator_diagonal_sparsity`, `operator/plot.py:124-159`: the values are the norms of the rows. -/
noncomputable def plotOperatorDiagonalSparsity (n : ℕ) (data : ℕ → ℂ) : Option (ℕ × (ℕ → ℝ) × (ℕ → ℕ)) :=
  plotSparsity n fun i => Real.sqrt (∑ j ∈ range n, ‖plotOperatorDiagonals n data i j‖ ^ 2)

/-! ## Potentials along paths -/

/-- `get_minimum_path`, `potential/plot.py:421-446`: the path (an array with one row for each axis but one) is given as the list of its
points. The data is used as it is stored, whatever the basis. -/
noncomputable def getMinimumPath (shape : List ℕ) (data : ℕ → ℂ) (path : List (List ℤ)) (axis : ℤ) : Option (List (List ℤ)) :=
  if shape.length = 0 then none
  else
    let a := (axis % (shape.length : ℤ)).toNat
    if shape.getD a 0 = 0 then none
    else
      let minIdx := fun js : List ℕ => argminLex (fun m => data (ravel shape (js.insertIdx a m))) (shape.getD a 0 - 1)
      path.mapM fun p =>
        (getFlatIndex .wrap (shape.eraseIdx a) p).map fun k => p.insertIdx a (minIdx (unravel (shape.eraseIdx a) k) : ℤ)

/-- `plot_potential_along_path`, `potential/plot.py:373-418`, distances not wrapped: the distances along the path and the values at its points.
`measure` is not `angle` (the values of a whole path are unwrapped then). -/
noncomputable def plotPotentialAlongPath {d : ℕ} (same : Basis → Basis → Bool) (A : Matrix (Fin d) (Fin d) ℝ) (basis : Basis) (data : ℕ → ℂ)
    (path : List (List ℤ)) (measure : Measure) : Option (List ℝ × List ℝ) :=
  let shape := basis.fundamentalShape
  (Basis.convert same basis basis.asPositionBasis).bind fun f =>
    (path.mapM fun p => (getFlatIndex .wrap shape p).map fun k => getMeasuredData (fun _ => f data k) measure 0).map fun values =>
      (cumulativeXDistances A (fun i => shape.getD i 0) (fun i => shape.getD i 0) false (path.map fun p => fun i => p.getD i 0), values)

/-- `plot_potential_minimum_along_path`, `potential/plot.py:449-477`. -/
noncomputable def plotPotentialMinimumAlongPath {d : ℕ} (same : Basis → Basis → Bool) (A : Matrix (Fin d) (Fin d) ℝ) (basis : Basis)
    (data : ℕ → ℂ) (path : List (List ℤ)) (axis : ℤ) : Option (List ℝ × List ℝ) :=
  (getMinimumPath basis.shape data path axis).bind fun full => plotPotentialAlongPath same A basis data full .real

end Verif
