import Verif.Model.PlotLists
import Verif.Model.PositionAverage

/-!
Histograms of lists of values (`plot_value_list_distribution`), and of eigenvalues of a kernel (`plot_kernel_sparsity`). As in `Model/PlotData` only
the numbers given to matplotlib are modelled; `Axes.hist` with `density=True` draws the bars of `np.histogram`.
-/

set_option autoImplicit false

namespace Verif

open Finset

/-- The bars of a histogram: number, edges, heights. -/
structure DrawnHistogram where
  bins : ℕ
  edges : ℕ → ℝ
  heights : ℕ → ℝ

/-- `Axes.hist(values, bins, (lo, hi), density=True)`, called at `state_vector/plot_value_list.py:361`, for `count` values: even bins; if the
ends of the range are equal numpy moves both by one half; the heights are the counts over their sum and the width of the bins. (If no value is in the
range numpy warns and gives `nan`.) -/
noncomputable def plotHistogram (count : ℕ) (values : ℕ → ℝ) (bins : ℕ) (lo hi : ℝ) : DrawnHistogram :=
  open Classical in
  let first := if lo = hi then lo - 1 / 2 else lo
  let last := if lo = hi then hi + 1 / 2 else hi
  let width := (last - first) / bins
  let edges := fun i : ℕ => first + i * width
  let counts := histogram count values bins edges
  ⟨bins, edges, fun i => counts i / width / ((∑ b ∈ range bins, counts b : ℕ) : ℝ)⟩

/-- `np.average` of `count` values. -/
noncomputable def listAverage (count : ℕ) (values : ℕ → ℝ) : ℝ := (∑ i ∈ range count, values i) / count

/-- `np.std` of `count` values. -/
noncomputable def listStd (count : ℕ) (values : ℕ → ℝ) : ℝ :=
  Real.sqrt ((∑ i ∈ range count, (values i - listAverage count values) ^ 2) / count)

/-- `scipy.stats.norm.pdf(x, loc=average, scale=std)`, called at `state_vector/plot_value_list.py:365`. (For `std = 0` scipy gives `nan`.) -/
noncomputable def normalPdf (average std x : ℝ) : ℝ := Real.exp (-((x - average) / std) ^ 2 / 2) / Real.sqrt (2 * Real.pi) / std

/-- `plot_value_list_distribution`, `state_vector/plot_value_list.py:326-382`, for `count` values which have been measured; `fit` tells if a
distribution is given. The curve of the normal distribution is the second entry; the fits of the other distributions are not modelled. Without values the
smallest value, or the range of the histogram, raises. -/
noncomputable def plotValueDistribution (count : ℕ) (measured : ℕ → ℝ) (fit : Bool) : Option (DrawnHistogram × DrawnLine) :=
  if count = 0 then none
  else
    let std := listStd count measured
    let average := listAverage count measured
    let lo := if fit then average - 4 * std else measured (argmaxReal (fun i => -measured i) (count - 1))
    let hi := if fit then average + 4 * std else measured (argmaxReal measured (count - 1))
    let points := fun i : ℕ => lo + i * ((hi - lo) / 999)
    some (plotHistogram count measured (max 11 (count / 100)) lo hi, ⟨1000, points, fun i => normalPdf average std (points i)⟩)

/-- `plot_k_distribution_1d`, `state_vector/plot.py:1418-1452`. -/
noncomputable def plotKDistribution {d : ℕ} (same : Basis → Basis → Bool) (A : Matrix (Fin d) (Fin d) ℝ) (l : StateVectorList) (axis : Fin d)
    (measure : Measure) : Option (DrawnHistogram × DrawnLine) :=
  (getAverageK same A l axis).bind fun k => plotValueDistribution l.listBasis.n (getMeasuredData k measure) true

/-- `plot_x_distribution_1d`, `state_vector/plot.py:1455-1487`: no distribution is given, so that the curve is not drawn. -/
noncomputable def plotXDistribution {d : ℕ} (same : Basis → Basis → Bool) (A : Matrix (Fin d) (Fin d) ℝ) (l : StateVectorList) (axis : Fin d)
    (measure : Measure) : Option DrawnHistogram :=
  (getAverageX same A l axis).bind fun x => (plotValueDistribution l.listBasis.n (getMeasuredData x measure) false).map Prod.fst

/-- The points drawn by `plot_kernel_sparsity`, `kernel/plot.py:134-176`, for `count` measured eigenvalues, all positive (the logarithm of other
values is not modelled): the edges are `np.logspace` from the smallest to the largest value. -/
noncomputable def plotKernelSparsity (count : ℕ) (values : ℕ → ℝ) : Option (ℕ × (ℕ → ℝ) × (ℕ → ℕ)) :=
  if count = 0 then none
  else
    let lo := Real.logb 10 (values (argmaxReal (fun i => -values i) (count - 1)))
    let hi := Real.logb 10 (values (argmaxReal values (count - 1)))
    let edges := fun i : ℕ => (10 : ℝ) ^ (lo + i * ((hi - lo) / 9999))
    some (9999, edges, fun i => ∑ b ∈ range (i + 1), histogram count values 9999 edges b)

end Verif
