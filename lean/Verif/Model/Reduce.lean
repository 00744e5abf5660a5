import Verif.Model.Operator
import Verif.Model.Slice
import Verif.Model.Grid

/-!
Sums and averages over axes: `operator/operator.py`, `probability_vector/probability_vector.py`,
`state_vector/state_vector_list.py`. Weights are not modelled (`weights=None`), axes are non-negative.
-/

set_option autoImplicit false

namespace Verif

open Finset

/-- Shape with a mark at the axes to be summed. -/
def flagAxes (start : ℕ) (shape axes : List ℕ) : List (ℕ × Bool) :=
  (shape.zipIdx start).map fun p => (p.1, decide (p.2 ∈ axes))

/-- Sum of an array over the marked axes; the index runs over the other axes. -/
def sumFlags {α : Type*} [AddCommMonoid α] : List (ℕ × Bool) → (List ℕ → α) → List ℕ → α
  | [], f, _ => f []
  | (n, true) :: fs, f, idx => ∑ i ∈ range n, sumFlags fs (fun is => f (i :: is)) idx
  | (_, false) :: fs, f, j :: idx => sumFlags fs (fun is => f (j :: is)) idx
  | (_, false) :: _, _, [] => 0

/-- `tuple(b for (i, b) in enumerate(l) if i not in axes)`, as in `operator/operator.py:117-119`. -/
def dropAxes {α : Type*} (axes : List ℕ) (l : List α) : List α :=
  (l.zipIdx.filter fun p => decide (p.2 ∉ axes)).map Prod.fst

/-- The entries of the summed axes. -/
def takeAxes {α : Type*} (axes : List ℕ) (l : List α) : List α :=
  (l.zipIdx.filter fun p => decide (p.2 ∈ axes)).map Prod.fst

/-- `np.sum(data.reshape(shape), axis=axes).reshape(-1)`, as in `operator/operator.py:120-123`. It raises for axes out of
range and for repeated axes. -/
def sumAxes {α : Type*} [AddCommMonoid α] (shape axes : List ℕ) (data : ℕ → α) : Option (ℕ → α) :=
  if (∀ a ∈ axes, a < shape.length) ∧ axes.Nodup then
    some fun k => sumFlags (flagAxes 0 shape axes) (fun idx => data (ravel shape idx)) (unravel (dropAxes axes shape) k)
  else none

/-- `np.average(data.reshape(shape), axis=axes).reshape(-1)`, as in `operator/operator.py:172-178`. -/
def averageAxes {α : Type*} [Field α] (shape axes : List ℕ) (data : ℕ → α) : Option (ℕ → α) :=
  (sumAxes shape axes data).map fun f k => f k / ((takeAxes axes shape).prod : α)

/-- Shape of a stacked basis. -/
noncomputable def stackedShape (l : List Basis) : List ℕ := l.map Basis.n

/-- `sum_diagonal_operator_over_axes`, `operator/operator.py:100-124`: the axes of both bases, and the data. -/
noncomputable def sumDiagonalOperatorOverAxes (basis : List Basis) (axes : List ℕ) (data : ℕ → ℂ) :
    Option (List Basis × (ℕ → ℂ)) :=
  (sumAxes (stackedShape basis) axes data).map fun d => (dropAxes axes basis, d)

/-- `average_eigenvalues`, `operator/operator.py:149-179`: by default the axes are the range of the number of axes of
the *outer* basis (the pair of the two equal bases of the operator), which is always two. -/
noncomputable def averageEigenvalues (basis : List Basis) (axis : Option (List ℕ)) (data : ℕ → ℂ) :
    Option (List Basis × (ℕ → ℂ)) :=
  let axes := axis.getD (List.range 2)
  (averageAxes (stackedShape basis) axes data).map fun d => (dropAxes axes basis, d)

/-- `average_eigenvalues_list`, `operator/operator.py:182-219`: the first axis of the data is the list; the outer
basis is again a pair. -/
noncomputable def averageEigenvaluesList (listBasis : Basis) (basis : List Basis) (axis : Option (List ℕ)) (data : ℕ → ℂ) :
    Option (List Basis × (ℕ → ℂ)) :=
  let axes := axis.getD (List.range 2)
  (averageAxes (listBasis.n :: stackedShape basis) (axes.map (1 + ·)) data).map fun d => (dropAxes axes basis, d)

/-- `from_state_vector`, `probability_vector/probability_vector.py:44-56`; also `from_state_vector_list`,
which has the same data. -/
noncomputable def probabilities (data : ℕ → ℂ) : ℕ → ℝ := fun i => ‖data i‖ ^ 2

/-- `get_probability`, `probability_vector/probability_vector.py:76-96`, for a flat index (default 0). -/
noncomputable def getProbability (listBasis basis : Basis) (data : ℕ → ℝ) (idx : ℕ := 0) : Option (ℕ → ℝ) :=
  if idx < listBasis.n then some fun j => data (idx * basis.n + j) else none

/-- `sum_probability`, `probability_vector/probability_vector.py:133-157`: here the default is the number of axes of the
basis itself. (The returned basis is a plain tuple of bases.) -/
noncomputable def sumProbability (basis : List Basis) (axis : Option (List ℕ)) (data : ℕ → ℝ) :
    Option (List Basis × (ℕ → ℝ)) :=
  let axes := axis.getD (List.range basis.length)
  (sumAxes (stackedShape basis) axes data).map fun d => (dropAxes axes basis, d)

/-- `sum_probabilities`, `probability_vector/probability_vector.py:160-186`: the default is the number of axes of the
outer basis (list and state), two. -/
noncomputable def sumProbabilities (listBasis : Basis) (basis : List Basis) (axis : Option (List ℕ)) (data : ℕ → ℝ) :
    Option (List Basis × (ℕ → ℝ)) :=
  let axes := axis.getD (List.range 2)
  (sumAxes (listBasis.n :: stackedShape basis) (axes.map (1 + ·)) data).map fun d => (dropAxes axes basis, d)

/-- `average_probabilities`, `probability_vector/probability_vector.py:209-246`, without axes: the mean over the list. -/
noncomputable def averageProbabilitiesAll (listBasis basis : Basis) (data : ℕ → ℝ) : Option (ℕ → ℝ) :=
  averageAxes [listBasis.n, basis.n] [0] data

/-- `average_probabilities`, `probability_vector/probability_vector.py:209-246`, with axes of a stacked list basis. -/
noncomputable def averageProbabilities (listBasis : List Basis) (basis : Basis) (axes : List ℕ) (data : ℕ → ℝ) :
    Option (List Basis × (ℕ → ℝ)) :=
  (averageAxes (stackedShape listBasis ++ [basis.n]) axes data).map fun d => (dropAxes axes listBasis, d)

/-- `average_state_vector`, `state_vector/state_vector_list.py:264-292`: default all axes of the list basis. -/
noncomputable def averageStateVector (listBasis : List Basis) (basis : Basis) (axis : Option (List ℕ)) (data : ℕ → ℂ) :
    Option (List Basis × (ℕ → ℂ)) :=
  let axes := axis.getD (List.range listBasis.length)
  (averageAxes (stackedShape listBasis ++ [basis.n]) axes data).map fun d => (dropAxes axes listBasis, d)

/-- `get_state_along_axis`, `state_vector/state_vector_list.py:317-348`: the states at the positions `idx` of the axes of
the list which are not in `axes` (default zeros). The basis of the list is the listed axes in their original order
(the data is in the order of `axes`). -/
noncomputable def getStateAlongAxis (listBasis : List Basis) (basis : Basis) (data : ℕ → ℂ) (axes : List ℕ := [0])
    (idx : Option (List ℕ) := none) : List Basis × (ℕ → ℂ) :=
  let ndim := listBasis.length
  let idx := idx.getD (List.replicate (ndim - axes.length) 0)
  let shape := stackedShape listBasis ++ [basis.n]
  (takeAxes axes listBasis, fun k =>
    getDataInAxes (fun is => data (ravel shape is)) (axes ++ [ndim]) idx
      (unravel (getDataInAxesShape shape (axes ++ [ndim]) idx) k))

/-- `get_probability_along_axis`, `probability_vector/probability_vector.py:99-130`: the basis, and the shape of the
(unflattened) data. The data is reshaped to the two axes of the outer basis, not to the axes of the list, and the
default index has `ndim - 2` entries. -/
noncomputable def getProbabilityAlongAxisShape (listBasis : List Basis) (basis : Basis) (axes : List ℕ := [0])
    (idx : Option (List ℕ) := none) : List Basis × List ℕ :=
  let ndim := listBasis.length
  let idx := idx.getD (List.replicate (ndim - 2) 0)
  let n0 := (stackedShape listBasis).prod
  (takeAxes axes listBasis, getDataInAxesShape [n0, basis.n] (axes ++ [ndim]) idx)

/-- `calculate_inner_products_eigenvalues`, `state_vector/state_vector_list.py:236-261`: weighted by the
eigenvalues. No conversion between the bases is made. -/
noncomputable def calculateInnerProductsEigenvalues (s0 s1 : EigenstateList) : Option (ℕ → ℂ) :=
  if s0.states.basis.n = s1.states.basis.n then
    some (flatten s1.states.listBasis.n fun i j => ∑ k ∈ range s0.states.basis.n,
      (starRingEnd ℂ) (block s0.states.basis.n s0.states.data i k) * block s1.states.basis.n s1.states.data j k *
        (starRingEnd ℂ) (s0.eigenvalue i) * s1.eigenvalue j)
  else none

/-- The new points of one axis in `interpolate_state_vector_momentum`, `state_vector/conversion.py:191-226`. Operator
precedence makes `idx` the truth value of `next(...) is not None`, so that `shape[idx]` is `shape[True] = shape[1]` for
every listed axis (`IndexError` if `shape` has one entry). -/
def interpolatedAxisPoints (shape axes : List ℕ) (iax n : ℕ) : Option ℕ :=
  if iax ∈ axes then shape[1]? else some n

/-- `interpolate_state_vector_momentum`, `state_vector/conversion.py:191-226`, for a state which is given in the
fundamental momentum basis with shape `ns`: the basis of the result (momentum states `n` in `N` points), and the data,
scaled by `sqrt(prod(shape) / n)`. -/
noncomputable def interpolateStateVectorMomentum (ns shape axes : List ℕ) (data : ℕ → ℂ) :
    Option (Basis × (ℕ → ℂ)) :=
  (ns.zipIdx.mapM fun p => (interpolatedAxisPoints shape axes p.2 p.1).map fun N =>
    if p.2 ∈ axes then Basis.transformed p.1 N else Basis.fundamentalTransformed p.1).map fun bs =>
    (.tuple bs, fun k => data k * (Real.sqrt ((shape.prod : ℝ) / (ns.prod : ℝ)) : ℂ))

end Verif
