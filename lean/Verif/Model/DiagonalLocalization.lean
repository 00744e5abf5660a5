import Verif.Model.Localization
import Verif.Model.Kernel
import Verif.Model.KernelBuild

/-!
Diagonal localisation operators, `wavepacket/localization_operator.py`; single operators and flat views of lists of diagonal
operators, `operator/operator_list.py`; components of sampled noise, `kernel/sample.py`; displacements, `operator/build.py`.
-/

set_option autoImplicit false

namespace Verif

/-- `localization_operator_as_diagonal`, `wavepacket/localization_operator.py:53-62`: the list basis, the basis of the new
states and the flat data `(sample, state)`. -/
noncomputable def localizationOperatorAsDiagonal (same : Basis → Basis → Bool) (L : OperatorList) : Option (Basis × Basis × (ℕ → ℂ)) :=
  (convertOperatorList same L L.b0 L.b0).map fun converted =>
    let diagonal := operatorListAsDiagonal converted
    (diagonal.listBasis, diagonal.b0, diagonal.data)

/-- `diagonal_localization_operator_as_full`, `wavepacket/localization_operator.py:65-77`. -/
noncomputable def diagonalLocalizationAsFull (list b : Basis) (data : ℕ → ℂ) : OperatorList :=
  diagonalOperatorListAsFull ⟨list, b, b, data⟩

/-- `as_flat_operator`, `operator/operator_list.py:200-221`: the basis and the data. -/
def asFlatOperator (L : DiagonalOperatorList) : Basis × (ℕ → ℂ) := (.tuple [L.listBasis, L.b0, L.b1], L.data)

/-- `as_diagonal_operator`, `operator/operator_list.py:224-245`, for data with `size` entries; `reshape(n, -1)` raises if `n` is zero or
does not divide the number of entries, an index out of range raises. (Negative indices are not modelled.) -/
noncomputable def asDiagonalOperatorAt (L : DiagonalOperatorList) (size idx : ℕ) : Option DiagonalOperator :=
  if 0 < L.listBasis.n ∧ L.listBasis.n ∣ size ∧ idx < L.listBasis.n then
    some ⟨L.b0, L.b1, fun k => L.data (idx * (size / L.listBasis.n) + k)⟩
  else none

/-- `get_diagonal_split_noise_components`, `kernel/sample.py:93-113`: for each operator the flat array `(sample, entry)`. -/
def splitComponents (count samples dim : ℕ) (data : ℕ → ℂ) : List (ℕ → ℂ) :=
  (List.range count).map fun j k => data (j * (samples * dim) + k)

/-- `get_displacements_x_stacked`, `operator/build.py:86-98`: one array for each entry of the origin (for a lattice with as many axes). -/
noncomputable def displacementsXStacked {d : ℕ} (A : Matrix (Fin d) (Fin d) ℝ) (shape : Fin d → ℕ) (origin : Fin d → ℝ) :
    List (ℕ → ℝ) :=
  List.ofFn fun axis => displacementXAlongAxis A shape (origin axis) axis

end Verif
