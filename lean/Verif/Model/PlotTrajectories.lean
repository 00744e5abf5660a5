import Verif.Model.Trajectory
import Verif.Model.PlotDistribution

/-!
Averages along trajectories drawn against time, and widths of states drawn against their momentum and position: `state_vector/plot.py:1310-1415`,
`1490-1522` and `1653-1760`. As in `Model/PlotData` only the numbers given to matplotlib are modelled.

A list of states holds `rows` trajectories with `t.n` states each.
-/

set_option autoImplicit false

namespace Verif

variable {d : ℕ}

/-- `plot_averaged_occupation_1d_k`, `state_vector/plot.py:1310-1337`. -/
noncomputable def plotAveragedOccupationK (same : Basis → Basis → Bool) (A : Matrix (Fin d) (Fin d) ℝ) (rows : ℕ) (t : TimeBasis)
    (l : StateVectorList) (axis : Fin d) (measure : Measure) : Option (List DrawnLine) :=
  (getAverageK same A l axis).bind fun k => plotAllAgainstTime rows t k measure

/-- `plot_spread_against_k`, `state_vector/plot.py:1340-1376`: the points of the line. The states are normalised in place by the first call, so the momentum is the one
of the normalised states; of the complex momenta matplotlib draws the real part. -/
noncomputable def plotSpreadAgainstK (same : Basis → Basis → Bool) (A : Matrix (Fin d) (Fin d) ℝ) (l : StateVectorList) (axis : Fin d) :
    Option DrawnLine :=
  (getXSpread same A l axis).bind fun spread =>
    (getAverageK same A spread.2 axis).map fun k => ⟨l.listBasis.n, fun i => (k i).re, spread.1⟩

/-- `plot_spread_against_x`, `state_vector/plot.py:1379-1415`. Coordinates with another length than the widths raise. -/
noncomputable def plotSpreadAgainstX (same : Basis → Basis → Bool) (A : Matrix (Fin d) (Fin d) ℝ) (l : StateVectorList) (axis : Fin d) :
    Option DrawnLine :=
  (getXSpread same A l axis).bind fun spread =>
    (getAverageXPeriodic same A spread.2 axis).bind fun x =>
      if x.1 = l.listBasis.n then some ⟨l.listBasis.n, x.2, spread.1⟩ else none

/-- `plot_periodic_x_distribution_1d`, `state_vector/plot.py:1490-1522`; without a curve through the bars. -/
noncomputable def plotPeriodicXDistribution (same : Basis → Basis → Bool) (A : Matrix (Fin d) (Fin d) ℝ) (l : StateVectorList) (axis : Fin d)
    (measure : Measure) : Option DrawnHistogram :=
  (getAverageXPeriodic same A l axis).bind fun x =>
    (plotValueDistribution x.1 (getMeasuredData (fun i => ((x.2 i : ℝ) : ℂ)) measure) false).map Prod.fst

/-- `plot_average_displacement_1d_x`, `state_vector/plot.py:1653-1686`. -/
noncomputable def plotAverageDisplacementX (same : Basis → Basis → Bool) (A : Matrix (Fin d) (Fin d) ℝ) (rows : ℕ) (t : TimeBasis)
    (l : StateVectorList) (axis : Fin d) (measure : Measure) : Option DrawnBand :=
  (getRestoredX same A t.n l axis).bind fun x =>
    let displacements := getAverageDisplacements t x
    plotAverageAgainstTime rows displacements.1 (fun i => ((displacements.2 i : ℝ) : ℂ)) measure

/-- `plot_average_drift_1d_x`, `state_vector/plot.py:1689-1723`: the momentum is always the one along axis `0`. Simplified: the momenta, which are real numbers held
in a complex array, are replaced by their real parts. -/
noncomputable def plotAverageDriftX [NeZero d] (same : Basis → Basis → Bool) (A : Matrix (Fin d) (Fin d) ℝ) (rows : ℕ) (t : TimeBasis)
    (l : StateVectorList) (axis : Fin d) (measure : Measure) : Option DrawnBand :=
  (getRestoredX same A t.n l axis).bind fun x =>
    (getAverageK same A l 0).bind fun k =>
      let drift := getNormalizedAverageDrift t x fun i => (k i).re
      plotAverageAgainstTime rows drift.1 (fun i => ((drift.2 i : ℝ) : ℂ)) measure

/-- `plot_average_isf_1d_x`, `state_vector/plot.py:1726-1760`. -/
noncomputable def plotAverageIsfX (same : Basis → Basis → Bool) (A : Matrix (Fin d) (Fin d) ℝ) (rows : ℕ) (t : TimeBasis)
    (l : StateVectorList) (scatteredK : ℝ) (axis : Fin d) (measure : Measure) : Option DrawnBand :=
  (getRestoredX same A t.n l axis).bind fun x =>
    let isf := getAverageIsf t x scatteredK
    plotAverageAgainstTime rows isf.1 isf.2 measure

/-- `MomentumBasis`, `basis/momentum_basis_like.py:11-18`: a basis with one state for each of the given momenta. -/
structure MomentumBasis where
  n : ℕ
  kPoints : ℕ → ℝ

/-- `plot_value_list_against_momentum`, `state_vector/plot_value_list.py:385-418`: the line, and the half widths of the error bars if there are any. -/
noncomputable def plotAgainstMomentum (b : MomentumBasis) (data : ℕ → ℂ) (deviation : Option (ℕ → ℝ)) (measure : Measure) :
    Option (DrawnLine × Option (ℕ → ℝ)) :=
  (plotData1d b.n data b.kPoints measure false).map fun line => (line, deviation)

end Verif
