import Verif.Model.State
import Mathlib.LinearAlgebra.Matrix.NonsingularInverse

/-!
Operators, diagonal operators, lists of operators and their algebra: `surface_potential_analysis/operator/operator.py`,
`operator_list.py`, `operations.py`, `conversion.py` and `state_vector/eigenstate_calculation.py`.

The data of an operator is a numpy array with a shape (some functions return two-dimensional data) whose entries, in
C order, are `data k`; reshaping to `(m, n)` reads entry `(i, j)` at `i * n + j`.
-/

set_option autoImplicit false

namespace Verif

open Finset

/-- `Operator`, `operator/operator.py:43-48`; `shape` is the shape of the array `data`. -/
structure Operator where
  b0 : Basis
  b1 : Basis
  shape : List ℕ
  data : ℕ → ℂ

/-- `DiagonalOperator`, `operator/operator.py:55-60`. -/
structure DiagonalOperator where
  b0 : Basis
  b1 : Basis
  data : ℕ → ℂ

/-- Entry `(i, j)` of `operator["data"].reshape(operator["basis"].shape)`. -/
noncomputable def Operator.entry (A : Operator) (i j : ℕ) : ℂ := A.data (i * A.b1.n + j)

/-- Numpy's rule for the shape of an elementwise operation on arrays of the given shapes (last axis first):
equal lengths, or one of them is 1; `none` is the `ValueError`. -/
def broadcastRev : List ℕ → List ℕ → Option (List ℕ)
  | [], t => some t
  | s, [] => some s
  | a :: s, b :: t =>
    if a = b ∨ b = 1 then (broadcastRev s t).map (a :: ·)
    else if a = 1 then (broadcastRev s t).map (b :: ·) else none

/-- See `broadcastRev`. -/
def broadcastShape (s t : List ℕ) : Option (List ℕ) := (broadcastRev s.reverse t.reverse).map List.reverse

/-- The entry of an array of shape `s` (last axis first) which is used for the entry `idx` (last axis first) of the
result of an elementwise operation: missing axes are ignored, axes of length one are repeated. -/
def broadcastIndexRev : List ℕ → List ℕ → List ℕ
  | [], _ => []
  | _, [] => []
  | n :: s, i :: idx => (if n = 1 then 0 else i) :: broadcastIndexRev s idx

/-- The entries in C order of an array of shape `s` repeated to the shape `r`. -/
def broadcastTo (s r : List ℕ) (data : ℕ → ℂ) (k : ℕ) : ℂ :=
  data (ravel s (broadcastIndexRev s.reverse (unravel r k).reverse).reverse)

/-- An elementwise operation on two arrays. -/
def elementwise (op : ℂ → ℂ → ℂ) (s t : List ℕ) (x y : ℕ → ℂ) : Option (List ℕ × (ℕ → ℂ)) :=
  (broadcastShape s t).map fun r => (r, fun k => op (broadcastTo s r x k) (broadcastTo t r y k))

/-- `as_operator`, `operator/operator.py:69-81`: `np.diag` returns a two-dimensional array with as many rows and columns
as the diagonal has entries. -/
noncomputable def asOperator (d : DiagonalOperator) : Operator :=
  ⟨d.b0, d.b1, [d.b0.n, d.b0.n], flatten d.b0.n fun i j => if i = j then d.data i else 0⟩

/-- `as_diagonal_operator`, `operator/operator.py:84-97`. -/
noncomputable def asDiagonalOperator (A : Operator) : DiagonalOperator := ⟨A.b0, A.b1, fun i => A.entry i i⟩

/-- `matmul_operator`, `operator/operator.py:238-246`; two-dimensional data; `none` for different inner sizes. -/
noncomputable def matmulOperator (A B : Operator) : Option Operator :=
  if A.b1.n = B.b0.n then
    some ⟨A.b0, B.b1, [A.b0.n, B.b1.n], flatten B.b1.n fun i j => ∑ k ∈ range A.b1.n, A.entry i k * B.entry k j⟩
  else none

/-- `add_operator`, `operator/operator.py:249-262`. -/
def addOperator (A B : Operator) : Option Operator :=
  (elementwise (· + ·) A.shape B.shape A.data B.data).map fun r => ⟨A.b0, A.b1, r.1, r.2⟩

/-- `subtract_operator`, `operator/operator.py:265-280`. -/
def subtractOperator (A B : Operator) : Option Operator :=
  (elementwise (· - ·) A.shape B.shape A.data B.data).map fun r => ⟨A.b0, A.b1, r.1, r.2⟩

/-- `scale_operator`, `operator/operations.py:296-309`. -/
def scaleOperator (factor : ℂ) (A : Operator) : Operator := { A with data := fun k => A.data k * factor }

/-- `get_commutator`, `operator/operations.py:344-361`. -/
noncomputable def getCommutator (A B : Operator) : Option Operator :=
  (matmulOperator A B).bind fun AB => (matmulOperator B A).bind fun BA => subtractOperator AB BA

/-- `get_anti_commutator`, `operator/operations.py:364-383`. -/
noncomputable def getAntiCommutator (A B : Operator) : Option Operator :=
  (matmulOperator A B).bind fun AB => (matmulOperator B A).bind fun BA => addOperator AB BA

/-- `convert_operator_to_basis`, `operator/conversion.py:32-54`. -/
noncomputable def convertOperator (same : Basis → Basis → Bool) (A : Operator) (c0 c1 : Basis) : Option Operator :=
  (convertMatrix same A.b0 c0 A.b1 c1).map fun f => ⟨c0, c1, [c0.n * c1.n], flatten c1.n (f A.entry)⟩

/-- `convert_diagonal_operator_to_basis`, `operator/conversion.py:57-73`. -/
noncomputable def convertDiagonalOperator (same : Basis → Basis → Bool) (d : DiagonalOperator) (c0 c1 : Basis) :
    Option Operator := convertOperator same (asOperator d) c0 c1

/-- `Eigenstate`, `state_vector/eigenstate_list.py:37-40`. -/
structure Eigenstate where
  basis : Basis
  data : ℕ → ℂ
  eigenvalue : ℂ

/-- `apply_operator_to_state`, `operator/operator.py:283-305`. (If the result is the zero vector python divides zero
by zero; here the quotient is zero.) -/
noncomputable def applyOperatorToState (same : Basis → Basis → Bool) (A : Operator) (v : StateVector) :
    Option Eigenstate :=
  (convertStateVector same v A.b1).map fun c =>
    let data := fun i => ∑ k ∈ range A.b1.n, A.entry i k * c.data k
    let norm := Real.sqrt (∑ i ∈ range A.b0.n, ‖data i ^ 2‖)
    ⟨A.b0, fun i => data i / norm, norm⟩

/-- `OperatorList`, `operator/operator_list.py:32-37`; flat data, operator after operator. -/
structure OperatorList where
  listBasis : Basis
  b0 : Basis
  b1 : Basis
  data : ℕ → ℂ

/-- `DiagonalOperatorList`, `operator/operator_list.py:66-71`. -/
structure DiagonalOperatorList where
  listBasis : Basis
  b0 : Basis
  b1 : Basis
  data : ℕ → ℂ

/-- Entry `(i, j)` of operator `m` of a list. -/
noncomputable def OperatorList.entry (L : OperatorList) (m i j : ℕ) : ℂ :=
  L.data (m * (L.b0.n * L.b1.n) + (i * L.b1.n + j))

/-- The flat data of a list of `p × q` matrices. -/
def flatten3 (p q : ℕ) (f : ℕ → ℕ → ℕ → ℂ) : ℕ → ℂ := flatten (p * q) fun m => flatten q (f m)

/-- `select_operator`, `operator/operator_list.py:43-63`. -/
noncomputable def selectOperator (L : OperatorList) (idx : ℕ) : Option Operator :=
  if idx < L.listBasis.n then some ⟨L.b0, L.b1, [L.b0.n * L.b1.n], block (L.b0.n * L.b1.n) L.data idx⟩ else none

/-- `select_diagonal_operator`, `operator/operator_list.py:77-97`. -/
noncomputable def selectDiagonalOperator (L : DiagonalOperatorList) (idx : ℕ) : Option DiagonalOperator :=
  if idx < L.listBasis.n then some ⟨L.b0, L.b1, block L.b0.n L.data idx⟩ else none

/-- `diagonal_operator_list_as_full`, `operator/operator_list.py:100-121`. -/
noncomputable def diagonalOperatorListAsFull (L : DiagonalOperatorList) : OperatorList :=
  ⟨L.listBasis, L.b0, L.b1, flatten3 L.b0.n L.b0.n fun m i j => L.data (m * L.b0.n + i) * if i = j then 1 else 0⟩

/-- `operator_list_as_diagonal`, `operator/operator_list.py:124-145`. -/
noncomputable def operatorListAsDiagonal (L : OperatorList) : DiagonalOperatorList :=
  ⟨L.listBasis, L.b0, L.b1, flatten L.b0.n fun m i => L.data (m * (L.b0.n * L.b0.n) + (i * L.b0.n + i))⟩

/-- `operator_list_from_iter`, `operator/operator_list.py:148-170`, for operators in one pair of bases; `none` for no
operators and for arrays of different shapes. -/
noncomputable def operatorListFromIter (ops : List Operator) : Option OperatorList :=
  match ops with
  | [] => none
  | A :: rest =>
    if ∀ B ∈ rest, B.shape = A.shape then
      some ⟨.fundamental (rest.length + 1), A.b0, A.b1, flatten (A.b0.n * A.b1.n) fun m => ((A :: rest).getD m A).data⟩
    else none

/-- `operator_list_into_iter`, `operator/operator_list.py:174-197`. -/
noncomputable def operatorListIntoIter (L : OperatorList) : List Operator :=
  (List.range L.listBasis.n).map fun m => ⟨L.b0, L.b1, [L.b0.n * L.b1.n], block (L.b0.n * L.b1.n) L.data m⟩

/-- `convert_operator_list_to_basis`, `operator/conversion.py:76-102`. -/
noncomputable def convertOperatorList (same : Basis → Basis → Bool) (L : OperatorList) (c0 c1 : Basis) :
    Option OperatorList :=
  (convertMatrix same L.b0 c0 L.b1 c1).map fun f => ⟨L.listBasis, c0, c1, flatten3 c0.n c1.n fun m => f (L.entry m)⟩

/-- `matmul_list_operator`, `operator/operations.py:55-86`: the converted operator is reshaped to the *unconverted* shape,
which raises (`none`) for different numbers of states; otherwise the two shapes agree. -/
noncomputable def matmulListOperator (same : Basis → Basis → Bool) (L : OperatorList) (B : Operator) :
    Option OperatorList :=
  (convertOperator same B L.b1 B.b1).bind fun C =>
    if L.b1.n * B.b1.n = B.b0.n * B.b1.n ∧ L.b1.n = B.b0.n then
      some ⟨L.listBasis, L.b0, B.b1, flatten3 L.b0.n B.b1.n fun m i j =>
        ∑ k ∈ range L.b1.n, L.entry m i k * C.data (k * B.b1.n + j)⟩
    else none

/-- `matmul_operator_list`, `operator/operations.py:89-119`. -/
noncomputable def matmulOperatorList (same : Basis → Basis → Bool) (A : Operator) (L : OperatorList) :
    Option OperatorList :=
  (convertOperatorList same L A.b1 L.b1).map fun C =>
    ⟨L.listBasis, A.b0, L.b1, flatten3 A.b0.n L.b1.n fun m i j => ∑ k ∈ range A.b1.n, A.entry i k * C.entry m k j⟩

/-- `matmul_diagonal_list_operator`, `operator/operations.py:122-153`. -/
noncomputable def matmulDiagonalListOperator (same : Basis → Basis → Bool) (L : DiagonalOperatorList) (B : Operator) :
    Option OperatorList :=
  (convertOperator same B L.b1 B.b1).map fun C =>
    ⟨L.listBasis, L.b0, B.b1, flatten3 L.b1.n B.b1.n fun m k l => L.data (m * L.b1.n + k) * C.entry k l⟩

/-- `matmul_operator_diagonal_list`, `operator/operations.py:156-186`: again the converted operator is reshaped to the
unconverted shape. -/
noncomputable def matmulOperatorDiagonalList (same : Basis → Basis → Bool) (A : Operator) (L : DiagonalOperatorList) :
    Option OperatorList :=
  (convertOperator same A A.b0 L.b0).bind fun C =>
    if A.b0.n * L.b0.n = A.b0.n * A.b1.n ∧ L.b0.n = A.b1.n then
      some ⟨L.listBasis, A.b0, L.b1, flatten3 A.b0.n L.b0.n fun m i k =>
        C.data (i * A.b1.n + k) * L.data (m * L.b0.n + k)⟩
    else none

/-- `subtract_list_list`, `operator/operations.py:189-208`, for lists of the same number of operators. -/
noncomputable def subtractListList (same : Basis → Basis → Bool) (L M : OperatorList) : Option OperatorList :=
  (convertOperatorList same M L.b0 L.b1).bind fun C =>
    if L.listBasis.n = M.listBasis.n then some { L with data := fun k => L.data k - C.data k } else none

/-- `add_list_list`, `operator/operations.py:256-275`, for lists of the same number of operators. -/
noncomputable def addListList (same : Basis → Basis → Bool) (L M : OperatorList) : Option OperatorList :=
  (convertOperatorList same M L.b0 L.b1).bind fun C =>
    if L.listBasis.n = M.listBasis.n then some { L with data := fun k => L.data k + C.data k } else none

/-- `scale_operator_list`, `operator/operations.py:278-293`. -/
def scaleOperatorList (factor : ℂ) (L : OperatorList) : OperatorList := { L with data := fun k => L.data k * factor }

/-- `get_commutator_operator_list`, `operator/operations.py:211-231`. -/
noncomputable def getCommutatorOperatorList (same : Basis → Basis → Bool) (A : Operator) (L : OperatorList) :
    Option OperatorList :=
  (convertOperatorList same L A.b0 A.b1).bind fun C => (matmulOperatorList same A C).bind fun AC =>
    (matmulListOperator same C A).bind fun CA => subtractListList same AC CA

/-- `get_commutator_diagonal_operator_list`, `operator/operations.py:234-253`. -/
noncomputable def getCommutatorDiagonalOperatorList (same : Basis → Basis → Bool) (A : Operator)
    (L : DiagonalOperatorList) : Option OperatorList :=
  (matmulOperatorDiagonalList same A L).bind fun AL => (matmulDiagonalListOperator same L A).bind fun LA =>
    subtractListList same AL LA

/-- `EigenstateList`, `state_vector/eigenstate_list.py:43-49`. -/
structure EigenstateList where
  states : StateVectorList
  eigenvalue : ℕ → ℂ

/-- `apply_operator_to_states`, `operator/operations.py:312-339`. (Zero results as in `applyOperatorToState`.) -/
noncomputable def applyOperatorToStates (same : Basis → Basis → Bool) (A : Operator) (l : StateVectorList) :
    Option EigenstateList :=
  (convertStateVectorList same l A.b1).map fun c =>
    let data := fun j i => ∑ k ∈ range A.b1.n, A.entry i k * c.data (j * A.b1.n + k)
    let norm := fun j => Real.sqrt (∑ i ∈ range A.b0.n, ‖data j i ^ 2‖)
    ⟨⟨l.listBasis, A.b0, flatten A.b0.n fun j i => data j i / norm j⟩, fun j => norm j⟩

/-! ## Eigenstates -/

/-- The square matrix `data.reshape(n, n)` as a matrix. -/
def toMatrix (n : ℕ) (f : ℕ → ℕ → ℂ) : Matrix (Fin n) (Fin n) ℂ := fun i j => f i j

/-- The flat data of a matrix. -/
def ofMatrix {n : ℕ} (M : Matrix (Fin n) (Fin n) ℂ) : ℕ → ℂ := flatten n fun i j =>
  if h : i < n ∧ j < n then M ⟨i, h.1⟩ ⟨j, h.2⟩ else 0

/-- The result of `scipy.linalg.eigh` / `np.linalg.eig`: eigenvalues, and a matrix whose *columns* are the
eigenvectors. Numerical routines, given as parameters. -/
structure EigResult where
  eigenvalues : ℕ → ℂ
  vectors : ℕ → ℕ → ℂ

/-- `calculate_eigenvectors_hermitian`, `state_vector/eigenstate_calculation.py:51-67`, and
`calculate_eigenvectors`, `state_vector/eigenstate_calculation.py:70-81`, given
the result of the numerical routine for the data of the operator; `m` is the number of eigenvalues (all, or the number in
`subset_by_index`). The transposed array of vectors is stored. -/
noncomputable def calculateEigenvectors (A : Operator) (m : ℕ) (r : EigResult) : EigenstateList :=
  ⟨⟨.fundamental m, A.b0, flatten A.b0.n fun j i => r.vectors i j⟩, r.eigenvalues⟩

/-- `operator_from_eigenstates`, `state_vector/eigenstate_calculation.py:84-99`: `einsum("ji,j,kj->ik", E, λ, inv(E))`.
`np.linalg.inv` is the inverse matrix (it raises for a singular matrix, where Lean's inverse is zero). -/
noncomputable def operatorFromEigenstates (l : EigenstateList) : Operator :=
  let n := l.states.basis.n
  let E : Matrix (Fin n) (Fin n) ℂ := toMatrix n fun j i => l.states.data (j * n + i)
  ⟨l.states.basis, l.states.basis, [n * n],
    ofMatrix (fun i k : Fin n => ∑ j : Fin n, E j i * l.eigenvalue j * E⁻¹ k j)⟩

/-- `exp_operator`, `operator/operations.py:386-405`, given the result of `np.linalg.eig`. -/
noncomputable def expOperator (A : Operator) (r : EigResult) : Operator :=
  let l := calculateEigenvectors A A.b0.n r
  operatorFromEigenstates ⟨l.states, fun j => Complex.exp (l.eigenvalue j)⟩

/-- `apply_function_to_operator`, `operator/operator.py:222-235`, given the result of `np.linalg.eig`; two-dimensional
data; `fn` acts on the array of eigenvalues (here: entry by entry). -/
noncomputable def applyFunctionToOperator (A : Operator) (fn : ℂ → ℂ) (r : EigResult) : Operator :=
  let n := A.b0.n
  let V : Matrix (Fin n) (Fin n) ℂ := toMatrix n r.vectors
  ⟨A.b0, A.b1, [n, n], ofMatrix (fun a b : Fin n => ∑ k : Fin n, fn (r.eigenvalues k) * V a k * V⁻¹ k b)⟩

/-- `calculate_expectation`, `state_vector/eigenstate_calculation.py:128-153`. -/
noncomputable def calculateExpectation (same : Basis → Basis → Bool) (A : Operator) (v : StateVector) : Option ℂ :=
  (convertOperator same A v.basis v.basis).map fun C =>
    ∑ i ∈ range v.basis.n, ∑ j ∈ range v.basis.n, (starRingEnd ℂ) (v.data i) * C.entry i j * v.data j

/-- `calculate_expectation_diagonal`, `state_vector/eigenstate_calculation.py:102-125`. -/
noncomputable def calculateExpectationDiagonal (same : Basis → Basis → Bool) (d : DiagonalOperator) (v : StateVector) :
    Option ℂ :=
  (convertStateVector same v d.b0).map fun c => ∑ j ∈ range d.b0.n, (starRingEnd ℂ) (c.data j) * d.data j * c.data j

/-- `calculate_expectation_list`, `state_vector/eigenstate_calculation.py:156-182`. -/
noncomputable def calculateExpectationList (same : Basis → Basis → Bool) (A : Operator) (l : StateVectorList) :
    Option (ℕ → ℂ) :=
  (convertOperator same A l.basis l.basis).map fun C i => ∑ j ∈ range l.basis.n, ∑ k ∈ range l.basis.n,
    (starRingEnd ℂ) (block l.basis.n l.data i j) * C.entry j k * block l.basis.n l.data i k

/-- `calculate_operator_inner_product`, `state_vector/eigenstate_calculation.py:185-209`. -/
noncomputable def calculateOperatorInnerProduct (d : StateDualVector) (A : Operator) (v : StateVector) : ℂ :=
  ∑ i ∈ range A.b0.n, ∑ j ∈ range A.b1.n, d.data i * A.entry i j * v.data j

/-- `get_eigenstate_basis_from_hamiltonian`, `state_vector/eigenstate_calculation.py:212-230`: the explicit basis of the
eigenstates. -/
noncomputable def getEigenstateBasis (A : Operator) (m : ℕ) (r : EigResult) : Basis :=
  let l := calculateEigenvectors A m r
  .explicit m (block l.states.basis.n l.states.data) l.states.basis

end Verif
