import Verif.Model.Dynamics
import Mathlib.Analysis.SpecialFunctions.Sqrt

/-!
`basis/time_basis_like.py`, `dynamics/stochastic_schrodinger/solve.py`.

The external solvers (`qutip.ssesolve`, the Rust crate `sse_solver_py`) are not modelled: the model stops at the
arguments passed to them.
-/

set_option autoImplicit false

namespace Verif

open Finset

/-! ## Time axes -/

/-- `EvenlySpacedTimeBasis.__init__`, `basis/time_basis_like.py:44-46`. -/
structure TimeBasis where
  n : ℕ
  step : ℕ
  offset : ℤ
  deltaT : ℝ

/-- `EvenlySpacedBasis.fundamental_n`, `basis/evenly_spaced_basis.py:77-79`. -/
def TimeBasis.fundamentalN (b : TimeBasis) : ℕ := b.n * b.step

/-- `EvenlySpacedTimeBasis.fundamental_dt`, `basis/time_basis_like.py:64-66`. -/
noncomputable def TimeBasis.fundamentalDt (b : TimeBasis) : ℝ := b.deltaT / b.fundamentalN

/-- `EvenlySpacedTimeBasis.dt`, `basis/time_basis_like.py:60-62`. -/
noncomputable def TimeBasis.dt (b : TimeBasis) : ℝ := b.deltaT / b.n

/-- `EvenlySpacedTimeBasis.nt_points`, `basis/time_basis_like.py:68-70`: entry `k` of the `arange`. -/
def TimeBasis.ntPoints (b : TimeBasis) (k : ℕ) : ℤ := b.offset + k * b.step

/-- `EvenlySpacedTimeBasis.times`, `basis/time_basis_like.py:48-50`. -/
noncomputable def TimeBasis.times (b : TimeBasis) (k : ℕ) : ℝ := b.fundamentalDt * b.ntPoints k

/-- `EvenlySpacedTimeBasis.fundamental_times`, `basis/time_basis_like.py:52-54`: entry `k` of `np.linspace(0, delta_t,
fundamental_n)` (which includes both ends; a single point is 0). -/
noncomputable def TimeBasis.fundamentalTimes (b : TimeBasis) (k : ℕ) : ℝ := b.deltaT * (k / ((b.fundamentalN : ℝ) - 1))

/-! ## Banded operators -/

/-- `_get_operator_diagonals`, `dynamics/stochastic_schrodinger/solve.py:416-430`: entry `c` of row `i`, the concatenation
of `np.diag(operator, k=-i)` (length `n - i`) and `np.diag(operator, k=n - i)`. -/
def operatorDiagonals (n : ℕ) (op : ℕ → ℕ → ℂ) (i c : ℕ) : ℂ :=
  if c < n - i then op (i + c) c else op (c - (n - i)) ((c - (n - i)) + (n - i))

/-- `np.linalg.norm(diagonals, axis=1)`, `dynamics/stochastic_schrodinger/solve.py:437`. -/
noncomputable def diagonalNorm (n : ℕ) (op : ℕ → ℕ → ℂ) (i : ℕ) : ℝ :=
  Real.sqrt (∑ c ∈ range n, ‖operatorDiagonals n op i c‖ ^ 2)

open Classical in
/-- The two cleaning steps of `_get_banded_operator`, `dynamics/stochastic_schrodinger/solve.py:441-444`, on one entry. -/
noncomputable def cleanEntry (threshold : ℝ) (z : ℂ) : ℂ :=
  let z1 : ℂ := if |z.im| < threshold then (z.re : ℂ) else z
  if |z1.re| < threshold then Complex.I * z1.im else z1

open Classical in
/-- `_get_banded_operator`, `dynamics/stochastic_schrodinger/solve.py:433-449`: the offsets which are kept. -/
noncomputable def bandedOffsets (n : ℕ) (op : ℕ → ℕ → ℂ) (threshold : ℝ) : List ℕ :=
  (List.range n).filter fun i => threshold < diagonalNorm n op i

/-- `_get_banded_operator`, `dynamics/stochastic_schrodinger/solve.py:433-449`: the diagonals which are kept, each with its
`n` entries. -/
noncomputable def bandedDiagonals (n : ℕ) (op : ℕ → ℕ → ℂ) (threshold : ℝ) : List (List ℂ) :=
  (bandedOffsets n op threshold).map fun i => (List.range n).map fun c => cleanEntry threshold (operatorDiagonals n op i c)

/-! ## Arguments of the solvers -/

/-- What is handed to an external solver of the stochastic Schrödinger equation. -/
structure SseInput (n m : ℕ) where
  H : Matrix (Fin n) (Fin n) ℂ
  L : Fin m → Matrix (Fin n) (Fin n) ℂ
  dt : ℝ
  samples : ℕ
  step : ℕ

variable {n m : ℕ}

/-- `solve_stochastic_schrodinger_equation`, `dynamics/stochastic_schrodinger/solve.py:267-333`: arguments of
`qutip.ssesolve`. -/
noncomputable def qutipInput (hbar : ℝ) (H : Matrix (Fin n) (Fin n) ℂ) (L : Fin m → Matrix (Fin n) (Fin n) ℂ)
    (times : TimeBasis) : SseInput n m :=
  ⟨(1 / hbar : ℂ) • H, fun k => (1 / hbar : ℂ) • L k, times.fundamentalDt, times.n, times.step⟩

/-- `solve_stochastic_schrodinger_equation_rust`, `dynamics/stochastic_schrodinger/solve.py:362-413`: arguments of
`solve_sse`. -/
noncomputable def rustInput (hbar : ℝ) (H : Matrix (Fin n) (Fin n) ℂ) (L : Fin m → Matrix (Fin n) (Fin n) ℂ)
    (times : TimeBasis) : SseInput n m :=
  ⟨(1 / hbar : ℂ) • H, fun k => (1 / Real.sqrt hbar : ℂ) • L k, times.dt, times.n, times.step⟩

/-- `np.linalg.norm` of a matrix. -/
noncomputable def frobenius (A : Matrix (Fin n) (Fin n) ℂ) : ℝ := Real.sqrt (∑ i, ∑ j, ‖A i j‖ ^ 2)

/-- `solve_stochastic_schrodinger_equation_rust_banded`, `dynamics/stochastic_schrodinger/solve.py:489-574`: arguments of
`solve_sse_banded` at threshold zero, as full operators (see `bandedDiagonals` for the layout), for operators already in
the basis of the Hamiltonian; `maxNorm` is `np.max` of the norms of the collapse operators (which raises for an empty
list). -/
noncomputable def bandedInput (hbar maxNorm : ℝ) (H : Matrix (Fin n) (Fin n) ℂ) (L : Fin m → Matrix (Fin n) (Fin n) ℂ)
    (times : TimeBasis) : SseInput n m :=
  ⟨(1 / (maxNorm : ℂ) ^ 2) • H, fun k => (1 / maxNorm : ℂ) • L k, times.fundamentalDt * maxNorm ^ 2 / hbar, times.n,
    times.step⟩

/-! ## Localisation -/

/-- `op` of `_select_random_localized_state`, `dynamics/stochastic_schrodinger/solve.py:600-601`: inner products of the
`N` states of dimension `d`, divided by the norm. -/
noncomputable def localizationOperator (N d : ℕ) (S : ℕ → ℕ → ℂ) : Matrix (Fin N) (Fin N) ℂ :=
  let op : Matrix (Fin N) (Fin N) ℂ := fun i j => ∑ k ∈ range d, (starRingEnd ℂ) (S i k) * S j k
  (1 / (frobenius op : ℂ)) • op

/-- `_select_random_localized_state`, `dynamics/stochastic_schrodinger/solve.py:580-610`, when `rng.choice` returned
`idx`; `r` is the result of `eigh` on `op`. -/
noncomputable def selectLocalizedState (N : ℕ) (S : ℕ → ℕ → ℂ) (r : EigResult) (idx : ℕ) : ℕ → ℂ := fun j =>
  ∑ i ∈ range N, r.vectors i idx / Real.sqrt 2 * S i j

/-- The probabilities of `rng.choice`, `dynamics/stochastic_schrodinger/solve.py:605-606`. -/
noncomputable def localizationProbabilities (N : ℕ) (r : EigResult) (idx : ℕ) : ℂ :=
  r.eigenvalues idx / ∑ i ∈ range N, r.eigenvalues i

/-- The time axis of the inner solver of `solve_stochastic_schrodinger_equation_localized`,
`dynamics/stochastic_schrodinger/solve.py:637-678` (657). -/
noncomputable def localizedInnerTimes (times : TimeBasis) : TimeBasis := ⟨2, times.step, 0, times.dt⟩

/-- `solve_stochastic_schrodinger_equation_localized`, `dynamics/stochastic_schrodinger/solve.py:637-678`: the recorded
states of one trajectory. `solve state realization k` is the state at time index `k` of the inner solver, `select` the
localisation of a list of states. `get_state_along_axis(result, axes=(1,), idx=(1,))` keeps the *time* axis (1) and takes
index 1 of the realization axis, so the list passed to `select` runs over the two times. -/
def localizedTrajectory {σ : Type*} (solve : σ → ℕ → ℕ → σ) (select : (ℕ → σ) → σ) (initial : σ) : ℕ → σ
  | 0 => select fun k => solve initial 1 k
  | t + 1 => select fun k => solve (localizedTrajectory solve select initial t) 1 k

/-! ## Collapse operators -/

/-- The nonzero positions of a square array in row-major order (`np.nonzero`). -/
noncomputable def nonzeroPositions (A : Matrix (Fin n) (Fin n) ℂ) : List (Fin n × Fin n) :=
  (List.finRange n).flatMap fun i => ((List.finRange n).filter fun j => A i j ≠ 0).map fun j => (i, j)

/-- `get_collapse_operators_from_a_matrix`, `dynamics/stochastic_schrodinger/solve.py:105-135`: the operators and the array
of the caller afterwards. `np.array(..., dtype=np.float64)` keeps the real part. -/
noncomputable def getCollapseOperators (A : Matrix (Fin n) (Fin n) ℂ) :
    List (Matrix (Fin n) (Fin n) ℂ) × Matrix (Fin n) (Fin n) ℂ :=
  let data := fillDiagonal A
  ((nonzeroPositions data).map fun idx => Matrix.of fun i j => if i = idx.1 ∧ j = idx.2 then ((data i j).re : ℂ) else 0,
    data)

end Verif
