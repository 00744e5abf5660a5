import Verif.Model.Operator
import Verif.Model.Grid
import Mathlib.Analysis.SpecialFunctions.Exponential
import Mathlib.LinearAlgebra.Matrix.NonsingularInverse

/-!
`dynamics/schrodinger/solve.py`, `dynamics/incoherent_propagation/{tunnelling_matrix,eigenstates}.py`,
`dynamics/util.py`.

Square arrays are matrices indexed by `Fin n` (the data after `reshape(basis.shape)`); eigenvalue routines are
parameters (`EigResult`: eigenvalues, and the array whose columns are the eigenvectors). `scipy.linalg.solve(a, b)` is
`a⁻¹ b` (it raises for singular `a`).
-/

set_option autoImplicit false

namespace Verif

open Finset

variable {n : ℕ}

/-! ## Schrödinger equation -/

/-- `get_state_vector_decomposition`, `dynamics/schrodinger/solve.py:45-79`: the (reachable) first return. Row `j` of
`states` is state `j`. -/
noncomputable def getStateVectorDecomposition (states : Fin n → Fin n → ℂ) (initial : Fin n → ℂ) : Fin n → ℂ :=
  fun j => ∑ i, (starRingEnd ℂ) (states j i) * initial i

open Classical in
/-- `solve_schrodinger_equation_decomposition`, `dynamics/schrodinger/solve.py:82-124`: the state at one time `t`; `r` is
the result of `eigh` (see `calculateEigenvectors`: the transposed vectors are stored). The two
`assert_array_almost_equal` are exact equalities here. -/
noncomputable def solveSchrodingerDecomposition (hbar : ℝ) (H : Matrix (Fin n) (Fin n) ℂ) (r : EigResult)
    (initial : Fin n → ℂ) (t : ℝ) : Option (Fin n → ℂ) :=
  let states : Fin n → Fin n → ℂ := fun j i => r.vectors i j
  let coefficients := getStateVectorDecomposition states initial
  if H.conjTranspose = H ∧ (fun i => ∑ j, coefficients j * states j i) = initial then
    let constants : Fin n → ℂ := fun j => coefficients j * Complex.exp (-Complex.I * r.eigenvalues j * t / hbar)
    some fun i => ∑ j, constants j * states j i
  else none

/-- `solve_schrodinger_equation_diagonal`, `dynamics/schrodinger/solve.py:127-152`: the state at one time, for an initial
state which was converted to the basis of the operator. -/
noncomputable def solveSchrodingerDiagonal (hbar : ℝ) (d : ℕ → ℂ) (initial : ℕ → ℂ) (t : ℝ) : ℕ → ℂ :=
  fun i => initial i * Complex.exp (-Complex.I * d i * t / hbar)

/-! ## Rate equation -/

/-- `np.fill_diagonal(data, 0)`, `dynamics/incoherent_propagation/tunnelling_matrix.py:333`. -/
def fillDiagonal (A : Matrix (Fin n) (Fin n) ℂ) : Matrix (Fin n) (Fin n) ℂ := fun i j => if i = j then 0 else A i j

/-- `get_tunnelling_m_matrix`, `dynamics/incoherent_propagation/tunnelling_matrix.py:316-335`: the result, and the array
of the caller afterwards (`reshape` of the contiguous data is a view, so `fill_diagonal` writes into it). With `n_bands`
the function `get_a_matrix_reduced_bands` (254-292) reshapes the data to the shape of the pair of bases twice and takes
a slice with six indices of it: it always raises. -/
noncomputable def getTunnellingMMatrix (A : Matrix (Fin n) (Fin n) ℂ) (nBands : Option ℕ) :
    Option (Matrix (Fin n) (Fin n) ℂ × Matrix (Fin n) (Fin n) ℂ) :=
  match nBands with
  | none =>
    let data := fillDiagonal A
    some (data.transpose - Matrix.diagonal (fun i => ∑ k, data i k), data)
  | some _ => none

/-- Order of complex numbers in `np.max` and `np.argmax`: real parts first, then imaginary parts. -/
def LexLt (z w : ℂ) : Prop := z.re < w.re ∨ (z.re = w.re ∧ z.im < w.im)

open Classical in
/-- `np.argmax` of the first `m + 1` entries: the first position of the largest. -/
noncomputable def npArgmax (v : ℕ → ℂ) : ℕ → ℕ
  | 0 => 0
  | m + 1 => if LexLt (v (npArgmax v m)) (v (m + 1)) then m + 1 else npArgmax v m

/-- `np.max` of the first `n` entries (raises for `n = 0`). -/
noncomputable def npMax (v : ℕ → ℂ) (n : ℕ) : ℂ := v (npArgmax v (n - 1))

/-- `calculate_tunnelling_eigenstates`, `dynamics/incoherent_propagation/eigenstates.py:36-58`, given the result of
`scipy.linalg.eig`: the eigenvalues (shifted by the largest); row `j` of the stored array of vectors is eigenvector
`j`. -/
noncomputable def calculateTunnellingEigenstates (n : ℕ) (r : EigResult) : EigResult :=
  ⟨fun j => r.eigenvalues j - npMax r.eigenvalues n, fun j i => r.vectors i j⟩

/-- `get_operator_state_vector_decomposition`, `dynamics/incoherent_propagation/eigenstates.py:61-85`. -/
noncomputable def getOperatorStateVectorDecomposition (p : Fin n → ℂ) (l : EigResult) : Fin n → ℂ :=
  ((Matrix.of fun i j : Fin n => l.vectors j i)⁻¹ : Matrix (Fin n) (Fin n) ℂ).mulVec p

/-- `get_initial_pure_density_matrix_for_basis`, `dynamics/incoherent_propagation/tunnelling_matrix.py:338-359`, flat
index. -/
def initialPure (n idx : ℕ) : Fin n → ℂ := fun i => if i.val = idx then 1 else 0

/-- `get_equilibrium_state`, `dynamics/incoherent_propagation/eigenstates.py:88-117`. -/
noncomputable def getEquilibriumState (n : ℕ) (l : EigResult) : Fin n → ℂ :=
  let coefficients := getOperatorStateVectorDecomposition (initialPure n 0) l
  let idx := npArgmax l.eigenvalues (n - 1)
  fun i => if h : idx < n then coefficients ⟨idx, h⟩ * l.vectors idx i else 0

/-- `calculate_equilibrium_state`, `dynamics/incoherent_propagation/eigenstates.py:120-138`, given the result of `eig`. -/
noncomputable def calculateEquilibriumState (n : ℕ) (r : EigResult) : Fin n → ℂ :=
  getEquilibriumState n (calculateTunnellingEigenstates n r)

/-- `get_tunnelling_simulation_state`, `dynamics/incoherent_propagation/eigenstates.py:141-173`: the distribution at one
time. -/
noncomputable def getTunnellingSimulationState (l : EigResult) (initial : Fin n → ℂ) (t : ℝ) : Fin n → ℂ :=
  let coefficients := getOperatorStateVectorDecomposition initial l
  fun i => ∑ j : Fin n, coefficients j * Complex.exp (l.eigenvalues j * t) * l.vectors j i

/-- `calculate_tunnelling_simulation_state`, `dynamics/incoherent_propagation/eigenstates.py:182-199`, given the result
of `eig`. -/
noncomputable def calculateTunnellingSimulationState (r : EigResult) (initial : Fin n → ℂ) (t : ℝ) : Fin n → ℂ :=
  getTunnellingSimulationState (calculateTunnellingEigenstates n r) initial t

/-- `density_matrix_as_probability`, `dynamics/incoherent_propagation/tunnelling_matrix.py:362-376`. -/
def densityMatrixAsProbability (p : Fin n → ℂ) : Fin n → ℝ := fun i => (p i).re

/-! ## Hops -/

/-- `get_hop_shift`, `dynamics/util.py:15-29`; `item(hop)` raises out of range. -/
def getHopShift (hop ndim : ℕ) : Option (List ℤ) :=
  if hop < 3 ^ ndim then some (stackedNkPoints (List.replicate ndim 3) hop) else none

/-- The index read by `np.roll` with several axes: `(i - shift) % n` on each axis. -/
def rollIndex : List ℕ → List ℤ → List ℕ → List ℕ
  | n :: ns, s :: ss, i :: is => (((i : ℤ) - s) % n).toNat :: rollIndex ns ss is
  | _, _, _ => []

/-- `build_hop_operator`, `dynamics/util.py:32-51`: entry `[*i, *j]` of the identity rolled along its first axes. -/
def buildHopOperator (hop : ℕ) (shape : List ℕ) : Option (List ℕ → List ℕ → ℝ) :=
  (getHopShift hop shape.length).map fun shift i j =>
    if ravel shape (rollIndex shape shift i) = ravel shape j then 1 else 0

/-- `get_a_matrix_from_jump_matrix`, `dynamics/incoherent_propagation/tunnelling_matrix.py:146-189`, for two axes of the
supercell: entry `[i, n0, j, n1]` of the A matrix. `B` is the number of bands of the jump matrix, whose data has
`B * B * 9` entries; by default `n_bands` is the *fundamental number of states of the pair* of bands bases, `B * B`; the
`reshape(n_bands, n_bands, 9)` raises unless `n_bands = B`. -/
noncomputable def getAMatrixFromJumpMatrix (B : ℕ) (jump : ℕ → ℕ → ℕ → ℂ) (shape : List ℕ) (nBands : Option ℕ) :
    Option (List ℕ → ℕ → List ℕ → ℕ → ℂ) :=
  let nb := nBands.getD (B * B)
  if nb * nb * 9 = B * B * 9 ∧ shape.length = 2 then
    some fun i n0 j n1 => ∑ hop ∈ range 9,
      match buildHopOperator hop shape with
      | some op => jump n0 n1 hop * (op j i : ℂ)
      | none => 0
  else none

/-- `get_jump_matrix_from_function`, `dynamics/incoherent_propagation/tunnelling_matrix.py:221-248`. -/
def getJumpMatrixFromFunction (jumpFunction : ℕ → ℕ → ℕ → ℝ) : ℕ → ℕ → ℕ → ℂ := fun n0 n1 d => (jumpFunction n0 n1 d : ℂ)

end Verif
