import Verif.Model.Basis

/-!
`convert_dual_vector` and `convert_matrix` of `surface_potential_analysis/basis/basis_like.py`, and the data type
dependence of the conversion to the same basis object.
-/

set_option autoImplicit false

namespace Verif

/-- Entrywise complex conjugate. -/
noncomputable def conjVec (v : ℕ → ℂ) : ℕ → ℂ := fun i => (starRingEnd ℂ) (v i)

/-- `convert_dual_vector`, `basis/basis_like.py:355-382`: `np.conj(convert_vector(np.conj(co_vector), …))`. -/
noncomputable def convertDual (same : Basis → Basis → Bool) (a b : Basis) : Option ((ℕ → ℂ) → ℕ → ℂ) :=
  (Basis.convert same a b).map fun f u => conjVec (f (conjVec u))

/-- `convert_matrix`, `basis/basis_like.py:385-415`, with the default axes `(0, 1)`: the columns (fibres along axis 0)
are converted as vectors from `a` to `b`, then the rows (fibres along axis 1) as dual vectors from
`a'` to `b'`. -/
noncomputable def convertMatrix (same : Basis → Basis → Bool) (a b a' b' : Basis) :
    Option ((ℕ → ℕ → ℂ) → ℕ → ℕ → ℂ) :=
  (Basis.convert same a b).bind fun f => (convertDual same a' b').map fun g M i =>
    g fun j => f (fun i' => M i' j) i

/-- A one-dimensional numpy array of data type `float64` or `complex128`. -/
inductive NumArray
  | real (l : List ℝ)
  | complex (l : List ℂ)

/-- Reading consecutive pairs of floats as complex numbers; `none` if a single float remains. -/
def pairUp : List ℝ → Option (List ℂ)
  | [] => some []
  | [_] => none
  | x :: y :: l => (pairUp l).map fun r => ⟨x, y⟩ :: r

/-- `vector.view(np.complex128)` as used by `BasisLike.__convert_vector_into__` for the same basis object
(`basis/basis_like.py:310`): numpy reinterprets the memory. The memory of a `float64` array is read as pairs (real
part, imaginary part); an odd number of floats raises (`none`). One-dimensional contiguous arrays only. -/
def viewComplex : NumArray → Option (List ℂ)
  | .real l => pairUp l
  | .complex l => some l

/-- The values of an array as complex numbers (`astype(np.complex128)`). -/
noncomputable def NumArray.values : NumArray → List ℂ
  | .real l => l.map fun x : ℝ => (x : ℂ)
  | .complex l => l

/-- `convert_vector(vector, b, b)` with one and the same basis object `b` which is not a tuple basis
(`basis/basis_like.py:298-311`). -/
def convertSameDtype (vector : NumArray) : Option (List ℂ) := viewComplex vector

end Verif
