import Verif.Model.ConvertMatrix

/-!
State vectors, dual vectors, lists of states and eigenstates:
`surface_potential_analysis/state_vector/state_vector.py`, `state_vector_list.py`, `conversion.py`,
`eigenstate_list.py`.

The data of a list of states is one flat array; `reshape(basis.shape)[i]` is its `i`-th block.
-/

set_option autoImplicit false

namespace Verif

open Finset

/-- The property `n` of a basis object. -/
noncomputable def Basis.n (b : Basis) : ℕ := b.methods.n

/-- `StateVector`, `state_vector/state_vector.py:14-18`. -/
structure StateVector where
  basis : Basis
  data : ℕ → ℂ

/-- `StateDualVector`, `state_vector/state_vector.py:21-25`. -/
structure StateDualVector where
  basis : Basis
  data : ℕ → ℂ

/-- `as_vector`, `state_vector/state_vector.py:28-40`. -/
noncomputable def asVector (v : StateDualVector) : StateVector := ⟨v.basis, conjVec v.data⟩

/-- `as_dual_vector`, `state_vector/state_vector.py:43-55`. -/
noncomputable def asDualVector (v : StateVector) : StateDualVector := ⟨v.basis, conjVec v.data⟩

/-- `calculate_normalization`, `state_vector/state_vector.py:58-74`. -/
noncomputable def calculateNormalization (v : StateVector) : ℝ := ∑ i ∈ range v.basis.n, ‖v.data i‖ ^ 2

/-- `calculate_inner_product`, `state_vector/state_vector.py:77-93`; `np.tensordot` raises (`none`) for different
lengths. -/
noncomputable def calculateInnerProduct (state0 : StateVector) (state1 : StateDualVector) : Option ℂ :=
  if state1.basis.n = state0.basis.n then some (∑ i ∈ range state0.basis.n, state1.data i * state0.data i) else none

/-- `convert_state_vector_to_basis`, `state_vector/conversion.py:45-61`. -/
noncomputable def convertStateVector (same : Basis → Basis → Bool) (v : StateVector) (b : Basis) :
    Option StateVector :=
  (Basis.convert same v.basis b).map fun f => ⟨b, f v.data⟩

/-- `convert_state_dual_vector_to_basis`, `state_vector/conversion.py:84-100`. -/
noncomputable def convertStateDualVector (same : Basis → Basis → Bool) (v : StateDualVector) (b : Basis) :
    Option StateDualVector :=
  (convertDual same v.basis b).map fun f => ⟨b, f v.data⟩

/-- `StateVectorList`, `state_vector/state_vector_list.py:45-54`: basis of the list, basis of the states, flat data. -/
structure StateVectorList where
  listBasis : Basis
  basis : Basis
  data : ℕ → ℂ

/-- Block `i` of a flat array of blocks of length `n`: `data.reshape(-1, n)[i]`. -/
def block (n : ℕ) (data : ℕ → ℂ) (i : ℕ) : ℕ → ℂ := fun j => data (i * n + j)

/-- The flat array with the given blocks of length `n`: `np.array(blocks).reshape(-1)`. -/
def flatten (n : ℕ) (blocks : ℕ → ℕ → ℂ) : ℕ → ℂ := fun k => blocks (k / n) (k % n)

/-- `get_state_vector`, `state_vector/state_vector_list.py:74-99`, for a flat index `0 ≤ idx < n` (`none` is the
`IndexError`; negative indices are not modelled). -/
noncomputable def getStateVector (l : StateVectorList) (idx : ℕ) : Option StateVector :=
  if idx < l.listBasis.n then some ⟨l.basis, block l.basis.n l.data idx⟩ else none

/-- `get_state_vector`, `state_vector/state_vector_list.py:74-99`, for a stacked index: wrapped into the shape of the
list basis, then as a flat index. `shape` is the shape of the list basis. -/
noncomputable def getStateVectorStacked (shape : List ℕ) (l : StateVectorList) (idx : List ℤ) : Option StateVector :=
  (getFlatIndex .wrap shape idx).bind (getStateVector l)

/-- `get_weighted_state_vector`, `state_vector/state_vector_list.py:102-122`. -/
noncomputable def getWeightedStateVector (l : StateVectorList) (weights : StateVector) : StateVector :=
  ⟨l.basis, fun j => ∑ i ∈ range l.listBasis.n, weights.data i * block l.basis.n l.data i j⟩

/-- `get_state_dual_vector`, `state_vector/state_vector_list.py:125-143`. -/
noncomputable def getStateDualVector (l : StateVectorList) (idx : ℕ) : Option StateDualVector :=
  if idx < l.listBasis.n then some ⟨l.basis, conjVec (block l.basis.n l.data idx)⟩ else none

/-- `state_vector_list_into_iter`, `state_vector/state_vector_list.py:146-168`. -/
noncomputable def stateVectorListIntoIter (l : StateVectorList) : List StateVector :=
  (List.range l.listBasis.n).map fun idx => ⟨l.basis, block l.basis.n l.data idx⟩

/-- `as_state_vector_list`, `state_vector/state_vector_list.py:171-179`: `none` for no states (`states[0]` raises) and
for states of different lengths (`np.array` of a ragged list). -/
noncomputable def asStateVectorList (states : List StateVector) : Option StateVectorList :=
  match states with
  | [] => none
  | s :: rest =>
    if ∀ t ∈ rest, t.basis.n = s.basis.n then
      some ⟨.fundamental (rest.length + 1), s.basis,
        flatten s.basis.n fun i => ((s :: rest).getD i s).data⟩
    else none

/-- `convert_state_vector_list_to_basis`, `state_vector/conversion.py:64-81`: every state is converted. -/
noncomputable def convertStateVectorList (same : Basis → Basis → Bool) (l : StateVectorList) (b : Basis) :
    Option StateVectorList :=
  (Basis.convert same l.basis b).map fun f =>
    ⟨l.listBasis, b, flatten b.n fun i => f (block l.basis.n l.data i)⟩

/-- `calculate_inner_products`, `state_vector/state_vector_list.py:182-206`: entry `(i, j)` of the matrix. -/
noncomputable def calculateInnerProducts (same : Basis → Basis → Bool) (s0 s1 : StateVectorList) :
    Option (ℕ → ℂ) :=
  (convertStateVectorList same s1 s0.basis).map fun c =>
    flatten s1.listBasis.n fun i j => ∑ k ∈ range s0.basis.n,
      (starRingEnd ℂ) (block s0.basis.n s0.data i k) * block c.basis.n c.data j k

/-- `calculate_inner_products_elementwise`, `state_vector/state_vector_list.py:209-233`. -/
noncomputable def calculateInnerProductsElementwise (same : Basis → Basis → Bool) (s0 s1 : StateVectorList) :
    Option (ℕ → ℂ) :=
  (convertStateVectorList same s1 s0.basis).map fun c i => ∑ k ∈ range s0.basis.n,
      (starRingEnd ℂ) (block s0.basis.n s0.data i k) * block c.basis.n c.data i k

/-- `get_basis_states`, `state_vector/state_vector_list.py:295-314`. -/
noncomputable def getBasisStates (b : Basis) : StateVectorList :=
  ⟨.fundamental b.n, b, flatten b.n fun i j => if i = j then 1 else 0⟩

end Verif
