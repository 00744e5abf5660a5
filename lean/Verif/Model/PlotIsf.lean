import Verif.Model.IsfFit
import Verif.Model.PlotLists
import Verif.Model.Reduce

/-!
Scattering functions drawn against time (`dynamics/isf_plot.py`, `state_vector/eigenvalue_list_plot.py:33-74`), and rates drawn against temperature
(`dynamics/incoherent_propagation/plot.py`). As in `Model/PlotData` only the numbers given to matplotlib are modelled.
-/

set_option autoImplicit false

namespace Verif

open Finset

/-- The bases given to these functions: an axis of `n` times (`ExplicitTimeBasis`, `basis/time_basis_like.py:84-97`, and the evenly spaced ones), an axis without
times, or a tuple (`TupleBasis`, `basis/stacked_basis.py:213-334`). -/
inductive TimeArgument where
  | time (n : ℕ) (times : ℕ → ℝ)
  | other (n : ℕ)
  | tuple (parts : List TimeArgument)

/-- `basis[i]`, `basis/stacked_basis.py:302-334`: only tuples can be subscripted, anything else raises a `TypeError`. -/
def TimeArgument.get (b : TimeArgument) (i : ℕ) : Option TimeArgument :=
  match b with
  | .tuple parts => parts[i]?
  | _ => none

/-- `basis.times`: the number of times and the times (`basis/time_basis_like.py:90-93` for explicit times); other bases raise an `AttributeError`. -/
def TimeArgument.timesOf (b : TimeArgument) : Option (ℕ × (ℕ → ℝ)) :=
  match b with
  | .time n times => some (n, times)
  | _ => none

/-- What is drawn: the line, the half widths of the error bars, and the limits of the axes (`none` when they are left to matplotlib). -/
structure DrawnSeries where
  line : DrawnLine
  deviation : Option (ℕ → ℝ)
  xLimits : ℝ × ℝ
  yLimits : Option (ℝ × ℝ)

/-- `plot_eigenvalue_against_time`, `state_vector/eigenvalue_list_plot.py:33-74`. Without times `times[0]` raises. -/
noncomputable def plotEigenvalueAgainstTime (basis : TimeArgument) (data : ℕ → ℂ) (deviation : Option (ℕ → ℝ)) (measure : Measure) :
    Option DrawnSeries :=
  (basis.get 0).bind fun b => b.timesOf.bind fun t =>
    if t.1 = 0 then none
    else some ⟨⟨t.1, t.2, getMeasuredData data measure⟩, deviation, (t.2 0, t.2 (t.1 - 1)), none⟩

/-- `plot_isf_against_time`, `dynamics/isf_plot.py:42-74`. -/
noncomputable def plotIsfAgainstTime (basis : TimeArgument) (data : ℕ → ℂ) (deviation : Option (ℕ → ℝ)) (measure : Measure) : Option DrawnSeries :=
  (plotEigenvalueAgainstTime basis data deviation measure).map fun s => { s with yLimits := some (0, 1.01) }

/-- `plot_average_isf_against_time`, `dynamics/isf_plot.py:77-109`, for `rows` rows of values at `n` times. `average_eigenvalues` (see `averageEigenvalues`) gives a
pair of tuples with the time axis; the axis alone is passed on as the basis. -/
noncomputable def plotAverageIsfAgainstTime (rows n : ℕ) (times : ℕ → ℝ) (data : ℕ → ℂ) (measure : Measure) : Option DrawnSeries :=
  (averageAxes [rows, n] [0] data).bind fun averaged =>
    let basis := TimeArgument.tuple [.tuple [.time n times], .tuple [.time n times]]
    (basis.get 0).bind fun b => (b.get 0).bind fun axis => plotIsfAgainstTime axis averaged none measure

/-- The basis of the scattering functions of fits, `dynamics/isf.py:142-150` and `dynamics/isf.py:312-323`, also `dynamics/isf.py:540-570`. -/
def fitBasis (n : ℕ) (times : ℕ → ℝ) : TimeArgument := .tuple [.time n times, .time n times]

/-- `plot_isf_4_variable_fit_against_time`, `dynamics/isf_plot.py:112-141`. -/
noncomputable def plotIsfFourVariable (fit : FourVariableFit) (n : ℕ) (times : ℕ → ℝ) (measure : Measure) : Option DrawnSeries :=
  plotIsfAgainstTime (fitBasis n times) (fun i => ((isfOfFourVariableFit fit (times i) : ℝ) : ℂ)) none measure

/-- `plot_isf_fey_4_variable_fit_against_time`, `dynamics/isf_plot.py:144-173`. -/
noncomputable def plotIsfFeyFourVariable (fit : FeyFourVariableFit) (n : ℕ) (times : ℕ → ℝ) (measure : Measure) : Option DrawnSeries :=
  plotIsfAgainstTime (fitBasis n times) (fun i => ((isfOfFeyFourVariableFit fit (times i) : ℝ) : ℂ)) none measure

/-- `plot_isf_fey_model_fit_112bar_against_time`, `dynamics/isf_plot.py:176-205`. -/
noncomputable def plotIsfFey112bar (fit : FeyFit) (n : ℕ) (times : ℕ → ℝ) (measure : Measure) : Option DrawnSeries :=
  plotIsfAgainstTime (fitBasis n times) (fun i => ((isfOfFeyFit112bar fit (times i) : ℝ) : ℂ)) none measure

/-- `plot_isf_fey_model_fit_110_against_time`, `dynamics/isf_plot.py:208-237`. -/
noncomputable def plotIsfFey110 (fit : FeyFit) (n : ℕ) (times : ℕ → ℝ) (measure : Measure) : Option DrawnSeries :=
  plotIsfAgainstTime (fitBasis n times) (fun i => ((isfOfFeyFit110 fit (times i) : ℝ) : ℂ)) none measure

/-- `plot_rate_decomposition_against_temperature`, `dynamics/incoherent_propagation/plot.py:21-51`, for decompositions with `count` coefficients each, one for each of
`n` temperatures; `order` is the result of `np.argsort` for the absolute values of the coefficients. Fewer than 50 coefficients raise an `IndexError`, no decomposition
at all too. -/
noncomputable def plotRateDecomposition (argsort : ℕ → (ℕ → ℝ) → ℕ → ℕ) (n count : ℕ) (rates coefficients : ℕ → ℕ → ℂ) (temperatures : ℕ → ℝ) :
    Option (List DrawnLine) :=
  if n = 0 ∨ count < 50 then none
  else
    let order := fun k => argsort count fun a => ‖coefficients k a‖
    some ((List.range 50).map fun i => ⟨n, temperatures, fun k => -(rates k (order k (count - 1 - i))).re⟩)

end Verif
