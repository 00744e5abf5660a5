import Verif.Model.Localization

/-!
Wannier functions (`wavepacket/get_eigenstate.py:880-1030`), the change of the number of samples of a wavepacket
(`wavepacket/conversion.py:275-307`), the sample fractions (`wavepacket/wavepacket.py:190-215`), localisation by phases
(`wavepacket/localization/_tight_binding.py:75-335`).
-/

set_option autoImplicit false

namespace Verif

open Finset

/-- `convert_wavepacket_to_shape`, `wavepacket/conversion.py:275-307`. `None` where python raises: different numbers of axes, a
division by zero, a slice of step zero or a shape which does not divide. The list basis of the result is not transformed. -/
noncomputable def wavepacketToShape (w : StateVectorList) (shape : List ℕ) : Option StateVectorList :=
  let old := w.listBasis.shape
  if old.length = shape.length ∧ ∀ p ∈ old.zip shape, p.2 ≠ 0 ∧ p.1 / p.2 ≠ 0 ∧ p.1 = p.1 / p.2 * p.2 then
    some ⟨.tuple (shape.map .fundamental), w.basis, flatten w.basis.n fun i k =>
      w.data (ravel old (List.zipWith3 (fun s0 s1 j => s0 / s1 * j) old shape (unravel shape i)) * w.basis.n + k)⟩
  else none

/-- `stacked_basis_as_fundamental_position_basis`, `stacked_basis/conversion.py`: one fundamental axis of each fundamental size. -/
noncomputable def Basis.asPositionBasis (b : Basis) : Basis := .tuple (b.fundamentalShape.map .fundamental)

/-- One wavepacket of the list on the points of the large cell: `unfurl_wavepacket_list`,
`wavepacket/eigenstate_conversion.py:122-152`, and the conversion in `wavepacket/get_eigenstate.py:890-895`. -/
noncomputable def wannierFundamental (same : Basis → Basis → Bool) (l : BlochWavefunctions) (i : ℕ) : Option (ℕ → ℂ) :=
  (unfurlWavepacket same ⟨l.list, l.basis, block (l.samples.prod * l.basis.n) l.data i⟩).bind fun s =>
    (Basis.convert same s.basis s.basis.asPositionBasis).map fun f => f s.data

open Classical in
/-- `get_wannier_states`, `wavepacket/get_eigenstate.py:880-926`: entry `(wannier, translation, point)` of a flat array. The
shift is computed from `shape` and not from `fundamental_shape`. -/
noncomputable def wannierStates (same : Basis → Basis → Bool) (w : BlochWavefunctions) (op : LocalizationOperator) :
    Option (ℕ → ℂ) :=
  (getLocalizedWavepackets w op).bind fun l =>
    if ∀ i < op.new, (wannierFundamental same l i).isSome then
      let shape := unfurledShape l.axes
      some (flatten3 op.samples.prod shape.prod fun i t X =>
        let shift := List.zipWith (fun n o : ℕ => -((n : ℤ) * o)) w.basis.shape (unravel op.samples t)
        rollAxes shape shift (fun idx => (wannierFundamental same l i).getD 0 (ravel shape idx)) (unravel shape X))
    else none

/-- The coefficients of `np.fft.ifftn(.., norm="ortho")` (`sign = 1`) and `np.fft.fftn(.., norm="ortho")` (`sign = -1`) over the axes
of the samples, as used at `wavepacket/get_eigenstate.py:1003-1014`. -/
noncomputable def orthoKernel (sign : ℤ) : List ℕ → List ℕ → List ℕ → ℂ
  | n :: ns, a :: as, t :: ts =>
    Complex.exp (2 * Real.pi * Complex.I * (sign * a * t) / n) / (Real.sqrt n : ℂ) * orthoKernel sign ns as ts
  | _, _, _ => 1

/-- `get_full_wannier_hamiltonian`, `wavepacket/get_eigenstate.py:969-1030`: the localised Hamiltonian of each sample on the
diagonal, inverse transform over the first index, transform over the second, and the order of the indices changed to
`(translation, wannier, translation', wannier')`. `h` are the eigenvalues, a flat array `(band, sample)`. -/
noncomputable def fullWannierHamiltonian (h : ℕ → ℂ) (op : LocalizationOperator) : ℕ → ℂ :=
  let N := op.samples.prod
  let M := op.new
  flatten (M * (N * M)) fun t => flatten3 N M fun i t' j =>
    ∑ a ∈ range N, ∑ a' ∈ range N,
      orthoKernel 1 op.samples (unravel op.samples a) (unravel op.samples t) *
        orthoKernel (-1) op.samples (unravel op.samples a') (unravel op.samples t') *
        (localizedHamiltonian h op ((a * M + i) * M + j) * if a = a' then 1 else 0)

/-- `get_wavepacket_sample_fractions`, `wavepacket/wavepacket.py:190-215`: entry `(axis, sample)`. The labels of the fundamental
transformed basis are converted, as if they were the components of a vector, to the list basis. -/
noncomputable def sampleFractions (same : Basis → Basis → Bool) (l : Basis) : Option (ℕ → ℕ → ℝ) :=
  (Basis.convert same l.asTransformedBasis l).map fun f => fun ax i =>
    (f (fun k => (((stackedNkPoints l.fundamentalShape k).getD ax 0 : ℤ) : ℂ) / (l.fundamentalShape.getD ax 0 : ℕ)) i).re

/-- `_get_global_phases`, `wavepacket/localization/_tight_binding.py:75-106`, for one stacked index. -/
noncomputable def globalPhases (same : Basis → Basis → Bool) (w : StateVectorList) (idx : List ℤ) : Option (ℕ → ℝ) :=
  if idx.length = w.basis.fundamentalShape.length ∧ w.listBasis.fundamentalShape.length = idx.length then
    (sampleFractions same w.listBasis).map fun nk => fun a =>
      2 * Real.pi * ∑ ax ∈ range idx.length, nk ax a * (((idx.getD ax 0 : ℤ) : ℝ) / (w.basis.fundamentalShape.getD ax 0 : ℕ))
  else none

/-- `_get_bloch_wavefunction_phases`, `wavepacket/localization/_tight_binding.py:109-132`, for one stacked index. -/
noncomputable def blochPhases (same : Basis → Basis → Bool) (w : StateVectorList) (idx : List ℤ) : Option (ℕ → ℝ) :=
  (convertWavepacket same w w.listBasis w.basis.asPositionBasis).bind fun c =>
    (getFlatIndex .wrap w.basis.fundamentalShape idx).map fun x => fun a => Complex.arg (c.data (a * c.basis.n + x))

/-- `localize_tightly_bound_wavepacket_idx`, `wavepacket/localization/_tight_binding.py:135-166`, for one stacked index. -/
noncomputable def localizeTightlyBound (same : Basis → Basis → Bool) (w : StateVectorList) (idx : List ℤ) (angle : ℝ) :
    Option StateVectorList :=
  (blochPhases same w idx).bind fun bloch => (globalPhases same w idx).map fun glob =>
    ⟨w.listBasis, w.basis, flatten w.basis.n fun a k =>
      w.data (a * w.basis.n + k) * Complex.exp (-Complex.I * ((bloch a + glob a - angle : ℝ) : ℂ))⟩

/-- The shape of `arr[:, .., :, np.newaxis]` with `k` colons: `None` is the `IndexError` for too many indices. -/
def newaxisShape (k : ℕ) (shape : List ℕ) : Option (List ℕ) :=
  if k ≤ shape.length then some (shape.take k ++ 1 :: shape.drop k) else none

/-- The shape of the data returned by `localize_tightly_bound_wavepacket_two_point_max`,
`wavepacket/localization/_tight_binding.py:213-296`, for `N` samples of `n` states: line 294 multiplies the flat data by
`phases[:, np.newaxis]`. (The values of the phases are not modelled.) -/
def twoPointMaxShape (N n : ℕ) : Option (List ℕ) := (newaxisShape 1 [N]).bind (broadcastShape [N * n])

/-- The shape of the data returned by `localize_tightly_bound_wavepacket_max_point`,
`wavepacket/localization/_tight_binding.py:300-335`: line 333 multiplies the flat data by `phases[:, :, np.newaxis]`. -/
def maxPointShape (N n : ℕ) : Option (List ℕ) := (newaxisShape 2 [N]).bind (broadcastShape [N * n])

end Verif
