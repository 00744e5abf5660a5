import Verif.Model.PlotLists
import Verif.Model.Reduce

/-!
# Occupations of bands and sites drawn against time

`dynamics/plot.py`, `probability_vector/plot.py:43-104`. Only the numbers given to matplotlib are modelled.
-/

set_option autoImplicit false

namespace Verif

/-- `plot_probability_against_time`, `probability_vector/plot.py:43-78`, for `n` states: one line for each. -/
noncomputable def plotProbabilityAgainstTime (t : TimeBasis) (n : ℕ) (data : ℕ → ℝ) : List DrawnLine :=
  (List.range n).map fun k => ⟨t.n, t.times, fun j => data (j * n + k)⟩

/-- `plot_total_probability_against_time`, `probability_vector/plot.py:81-104`. -/
noncomputable def plotTotalProbabilityAgainstTime (t : TimeBasis) (basis : List Basis) (data : ℕ → ℝ) : Option (List DrawnLine) :=
  (sumProbabilities (.fundamental t.n) basis none data).map fun r => plotProbabilityAgainstTime t (stackedShape r.1).prod r.2

/-- `plot_probability_per_band`, `dynamics/plot.py:38-70`. -/
noncomputable def plotProbabilityPerBand (t : TimeBasis) (basis : List Basis) (data : ℕ → ℝ) : Option (List DrawnLine) :=
  (sumProbabilities (.fundamental t.n) basis (some [0, 1]) data).map fun r =>
    plotProbabilityAgainstTime t (stackedShape r.1).prod r.2

/-- `plot_average_probability_per_band`, `dynamics/plot.py:73-109`, for `repeats` repeats: the average over the first axis of the list. -/
noncomputable def plotAverageProbabilityPerBand (repeats : Basis) (t : TimeBasis) (basis : List Basis) (data : ℕ → ℝ) :
    Option (List DrawnLine) :=
  (averageProbabilities [repeats, .fundamental t.n] (.tuple basis) [0] data).bind fun r => plotProbabilityPerBand t basis r.2

/-- `plot_probability_per_site`, `dynamics/plot.py:112-144`. -/
noncomputable def plotProbabilityPerSite (t : TimeBasis) (basis : List Basis) (data : ℕ → ℝ) : Option (List DrawnLine) :=
  (sumProbabilities (.fundamental t.n) basis (some [2]) data).map fun r =>
    plotProbabilityAgainstTime t (stackedShape r.1).prod r.2

end Verif
