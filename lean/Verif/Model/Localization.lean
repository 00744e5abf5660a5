import Verif.Model.Bloch
import Verif.Model.Operator
import Mathlib.LinearAlgebra.Matrix.ConjTranspose
import Mathlib.Data.Matrix.Diagonal
import Mathlib.Analysis.SpecialFunctions.Complex.Arg

/-!
Localisation of wavepackets: `wavepacket/localization_operator.py`, `wavepacket/localization/_projection.py`,
`wavepacket/localization/_tight_binding.py`, the Wannier functions of `wavepacket/get_eigenstate.py`, and
`convert_wavepacket_to_shape` of `wavepacket/conversion.py`.

A list of wavepackets is the structure `BlochWavefunctions`: entry `(band, sample, state)` of a flat array. The list basis is the
fundamental transformed basis of the samples. The basis of the bands only enters through its size.
-/

set_option autoImplicit false

namespace Verif

open Finset

/-- `LocalizationOperator`, `wavepacket/localization_operator.py:29-48`: a list of matrices, one for each sample, entry
`(sample, new, old)` of a flat array. -/
structure LocalizationOperator where
  samples : List ℕ
  new : ℕ
  old : ℕ
  data : ℕ → ℂ

/-- `operator["data"].reshape(operator["basis"][0].n, *operator["basis"][1].shape)[a, i, l]`,
`wavepacket/localization_operator.py:104-106`. -/
def LocalizationOperator.entry (op : LocalizationOperator) (a i l : ℕ) : ℂ := op.data ((a * op.new + i) * op.old + l)

/-- `get_localized_wavepackets`, `wavepacket/localization_operator.py:84-120`; the assertions compare the bases, here the
numbers of bands and samples. -/
noncomputable def getLocalizedWavepackets (w : BlochWavefunctions) (op : LocalizationOperator) : Option BlochWavefunctions :=
  if w.bands = op.old ∧ w.samples = op.samples then
    some ⟨op.new, w.samples, w.basis, flatten3 w.samples.prod w.basis.n fun i a k =>
      ∑ l ∈ range op.old, op.entry a i l * w.data ((l * w.samples.prod + a) * w.basis.n + k)⟩
  else none

/-- `get_diagonal_localized_wavepackets`, `wavepacket/localization_operator.py:156-187`; `op` is the flat array
`(sample, band)`. -/
noncomputable def getDiagonalLocalizedWavepackets (w : BlochWavefunctions) (op : ℕ → ℂ) : BlochWavefunctions :=
  ⟨w.bands, w.samples, w.basis, flatten3 w.samples.prod w.basis.n fun i a k =>
    op (a * w.bands + i) * w.data ((i * w.samples.prod + a) * w.basis.n + k)⟩

/-- `get_localized_hamiltonian_from_eigenvalues`, `wavepacket/localization_operator.py:123-153`: entry `(sample, i, j)` of the
result; `h` is the flat array `(band, sample)` of the eigenvalues. -/
noncomputable def localizedHamiltonian (h : ℕ → ℂ) (op : LocalizationOperator) : ℕ → ℂ :=
  flatten3 op.new op.new fun d i j => ∑ c ∈ range op.old,
    op.entry d i c * h (c * op.samples.prod + d) * (starRingEnd ℂ) (op.entry d j c)

/-- `get_identity_operator`, `wavepacket/localization_operator.py:190-211`: the diagonal of ones is expanded in matrices of
size `basis[1].n`, the number of samples, and the result is labelled `(sample, (basis[1].n, bands))`. -/
noncomputable def identityLocalization (bands : ℕ) (samples : List ℕ) : LocalizationOperator :=
  ⟨samples, samples.prod, bands, flatten3 samples.prod samples.prod fun _ i j => 1 * if i = j then 1 else 0⟩

/-- The result of `scipy.linalg.svd(a, full_matrices=False)`. -/
structure Svd (p q : ℕ) where
  u : Matrix (Fin p) (Fin (min p q)) ℂ
  s : Fin (min p q) → ℝ
  vh : Matrix (Fin (min p q)) (Fin q) ℂ

/-- What is assumed of `scipy.linalg.svd`: the factors are a decomposition of the matrix. -/
structure Svd.IsDecomposition {p q : ℕ} (d : Svd p q) (A : Matrix (Fin p) (Fin q) ℂ) : Prop where
  eq : A = d.u * Matrix.diagonal (fun i => (d.s i : ℂ)) * d.vh
  left : d.u.conjTranspose * d.u = 1
  right : d.vh * d.vh.conjTranspose = 1
  nonneg : ∀ i, 0 ≤ d.s i

/-- `get_state_projections_many_band` for the states of sample `a`, `wavepacket/localization/_projection.py:89-94`: the
states (`get_states_at_bloch_idx`, `wavepacket/get_eigenstate.py:358-400`) are the momentum components in the basis of the
sample, the `q` projections `P` in the basis `bp` are converted to this basis. The first conversion of the wavepackets to the
momentum basis is done once, in the code twice. -/
noncomputable def stateProjections (same : Basis → Basis → Bool) (w : BlochWavefunctions) (bp : Basis) (q : ℕ) (P : ℕ → ℂ)
    (a : ℕ) : Option (Matrix (Fin w.bands) (Fin q) ℂ) :=
  let b := sampledBasis w.axes ((unravel w.samples a).map fun i : ℕ => (i : ℤ))
  (Basis.convert same w.basis w.basis.asTransformedBasis).bind fun g =>
    (Basis.convert same bp b).map fun f =>
      Matrix.of fun l i => ∑ k ∈ range b.n,
        (starRingEnd ℂ) (g (block w.basis.n w.data (l * w.samples.prod + a)) k) * f (block bp.n P i) k

/-- `_get_orthogonal_projected_states_many_band`, `wavepacket/localization/_projection.py:97-114`: the product of the unitary
factors, transposed. -/
noncomputable def orthogonalProjected {p q : ℕ} (svd : Matrix (Fin p) (Fin q) ℂ → Svd p q) (A : Matrix (Fin p) (Fin q) ℂ) :
    Matrix (Fin q) (Fin p) ℂ := ((svd A).u * (svd A).vh).transpose

open Classical in
/-- `get_localization_operator_for_projections`, `wavepacket/localization/_projection.py:117-140`: one matrix for every
sample. Raises if one of the conversions does. -/
noncomputable def projectionOperator (same : Basis → Basis → Bool)
    (svd : ∀ p q, Matrix (Fin p) (Fin q) ℂ → Svd p q) (w : BlochWavefunctions) (bp : Basis) (q : ℕ) (P : ℕ → ℂ) :
    Option LocalizationOperator :=
  if ∀ a < w.samples.prod, (stateProjections same w bp q P a).isSome then
    some ⟨w.samples, q, w.bands, flatten3 q w.bands fun a i l =>
      if h : i < q ∧ l < w.bands then
        orthogonalProjected (svd w.bands q) ((stateProjections same w bp q P a).getD 0) ⟨i, h.1⟩ ⟨l, h.2⟩
      else 0⟩
  else none

/-- `localize_wavepacket_projection`, `wavepacket/localization/_projection.py:143-160`. -/
noncomputable def localizeWavepacketProjection (same : Basis → Basis → Bool)
    (svd : ∀ p q, Matrix (Fin p) (Fin q) ℂ → Svd p q) (w : BlochWavefunctions) (bp : Basis) (q : ℕ) (P : ℕ → ℂ) :
    Option BlochWavefunctions :=
  (projectionOperator same svd w bp q P).bind fun op => getLocalizedWavepackets w op

end Verif
