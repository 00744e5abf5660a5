import Verif.Model.Stochastic

/-!
Averages along trajectories: `state_vector/plot.py:1525-1650`.

The positions are real numbers (they come from `np.angle`); the list has the shape `(trajectories, n)` with `n` times.
-/

set_option autoImplicit false

namespace Verif

open Finset

/-- `scipy.signal.correlate(x, y, mode="full")` for real arrays of the same length `n`, entry `k`, from its documentation:
`z[k] = sum_l x_l y_{l - k + n - 1}` where `y_m` is zero outside its range. -/
noncomputable def correlateFull (n : ℕ) (x y : ℕ → ℝ) (k : ℕ) : ℝ :=
  ∑ l ∈ range n, x l * (if 0 ≤ (l : ℤ) - k + n - 1 ∧ (l : ℤ) - k + n - 1 < n then y ((l : ℤ) - k + n - 1).toNat else 0)

/-- `_calculate_total_offsset_multiplications_real`, `state_vector/plot.py:1525-1540`. -/
noncomputable def totalOffsetReal (n : ℕ) (lhs rhs : ℕ → ℝ) (j : ℕ) : ℝ := correlateFull n lhs rhs (n - 1 + j)

/-- `_calculate_total_offsset_multiplications_complex`, `state_vector/plot.py:1543-1563`. -/
noncomputable def totalOffsetComplex (n : ℕ) (lhs rhs : ℕ → ℂ) (j : ℕ) : ℂ :=
  let reRe := totalOffsetReal n (fun i => (lhs i).re) (fun i => (rhs i).re) j
  let reIm := totalOffsetReal n (fun i => (lhs i).re) (fun i => (rhs i).im) j
  let imRe := totalOffsetReal n (fun i => (lhs i).im) (fun i => (rhs i).re) j
  let imIm := totalOffsetReal n (fun i => (lhs i).im) (fun i => (rhs i).im) j
  (reRe : ℂ) - imIm + Complex.I * (reIm + imRe)

/-- `np.cumsum` along an axis. -/
noncomputable def cumsum (x : ℕ → ℝ) (m : ℕ) : ℝ := ∑ i ∈ range (m + 1), x i

/-- `[::-1]` of an axis of length `n`. -/
def reversed {α : Type} (n : ℕ) (x : ℕ → α) (i : ℕ) : α := x (n - 1 - i)

/-- The time axis of the results, `state_vector/plot.py:1582`, `1603`, `1626` and `1649`. -/
noncomputable def lagBasis (t : TimeBasis) : TimeBasis := ⟨t.n, 1, 0, t.dt * t.n⟩

/-- `get_average_displacements`, `state_vector/plot.py:1566-1583`, flat data. -/
noncomputable def getAverageDisplacements (t : TimeBasis) (positions : ℕ → ℝ) : TimeBasis × (ℕ → ℝ) :=
  (lagBasis t, fun k =>
    let stacked := fun i => positions (k / t.n * t.n + i)
    let squared := fun i => stacked i ^ 2
    let total := reversed t.n (cumsum fun i => squared i + reversed t.n squared i)
    let convolution := totalOffsetReal t.n stacked stacked
    let j := k % t.n
    (total j - 2 * convolution j) / reversed t.n (fun i => ((1 + i : ℕ) : ℝ)) j)

/-- `get_average_isf`, `state_vector/plot.py:1586-1604`, flat data. -/
noncomputable def getAverageIsf (t : TimeBasis) (positions : ℕ → ℝ) (scatteredK : ℝ) : TimeBasis × (ℕ → ℂ) :=
  (lagBasis t, fun k =>
    let exps := fun i => Complex.exp (Complex.I * scatteredK * positions (k / t.n * t.n + i))
    let j := k % t.n
    totalOffsetComplex t.n (fun i => (starRingEnd ℂ) (exps i)) exps j / ((reversed t.n (fun i => ((1 + i : ℕ) : ℝ)) j : ℝ) : ℂ))

/-- `get_average_normalized_drift`, `state_vector/plot.py:1607-1627`, flat data. -/
noncomputable def getAverageNormalizedDrift (t : TimeBasis) (positions kValues : ℕ → ℝ) : TimeBasis × (ℕ → ℝ) :=
  (lagBasis t, fun k =>
    let stackedX := fun i => positions (k / t.n * t.n + i)
    let stackedK := fun i => 1 / kValues (k / t.n * t.n + i)
    let convolution := totalOffsetReal t.n stackedX fun i => 1 / stackedK i
    let cumulative := reversed t.n (cumsum fun i => stackedX i / stackedK i)
    let j := k % t.n
    cumulative j - convolution j / t.n)

/-- `get_normalized_average_drift`, `state_vector/plot.py:1630-1650`, flat data. -/
noncomputable def getNormalizedAverageDrift (t : TimeBasis) (positions kValues : ℕ → ℝ) : TimeBasis × (ℕ → ℝ) :=
  (lagBasis t, fun k =>
    let stackedX := fun i => positions (k / t.n * t.n + i)
    let stackedK := fun i => 1 / kValues (k / t.n * t.n + i)
    let cumulativeRhs := cumsum (reversed t.n stackedX)
    let cumulativeLhs := cumsum stackedX
    let cumulativeK := cumsum stackedK
    let j := k % t.n
    reversed t.n (fun m => (cumulativeLhs m - cumulativeRhs m) / cumulativeK m) j)

end Verif
