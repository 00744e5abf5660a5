import Verif.Model.State
import Verif.Model.Slice
import Verif.Model.Interp

/-!
Wavepackets: `wavepacket/wavepacket.py`, `wavepacket/conversion.py`, `wavepacket/eigenstate_conversion.py`,
`wavepacket/get_eigenstate.py`.

A wavepacket is a list of Bloch states, one for each sample of the Brillouin zone. `axes : List (ℕ × ℕ)` lists, for each
axis, the number of samples and the number of states.
-/

set_option autoImplicit false

namespace Verif

open Finset

/-- `np.roll(arr, shifts, all axes)`. -/
def rollAxes {α : Type*} (shape : List ℕ) (shifts : List ℤ) (arr : List ℕ → α) : List ℕ → α := fun idx =>
  arr (List.zipWith3 (fun n s j => (((j : ℕ) : ℤ) - s) % ((n : ℕ) : ℤ) |>.toNat) shape shifts idx)

/-- `np.fft.fftshift(arr)` over all axes. -/
def fftshiftAxes {α : Type*} (shape : List ℕ) (arr : List ℕ → α) : List ℕ → α :=
  rollAxes shape (shape.map fun n : ℕ => (n : ℤ) / 2) arr

/-- `np.fft.ifftshift(arr)` over all axes. -/
def ifftshiftAxes {α : Type*} (shape : List ℕ) (arr : List ℕ → α) : List ℕ → α :=
  rollAxes shape (shape.map fun n : ℕ => -((n : ℤ) / 2)) arr

/-- `arr.reshape(new)` of an array of shape `old`. -/
def reshapeAxes {α : Type*} (old new : List ℕ) (arr : List ℕ → α) : List ℕ → α := fun idx =>
  arr (unravel old (ravel new idx))

/-- The list of axes `n, 0, n+1, 1, ...`, `wavepacket/eigenstate_conversion.py:69-70`. -/
def unfurlAxes (nd : ℕ) : List ℕ := (List.range nd).flatMap fun i => [nd + i, i]

/-- Number of samples of each axis. -/
def sampleShape (axes : List (ℕ × ℕ)) : List ℕ := axes.map Prod.fst

/-- Number of states of each axis. -/
def stateShape (axes : List (ℕ × ℕ)) : List ℕ := axes.map Prod.snd

/-- `final_shape`, `wavepacket/eigenstate_conversion.py:60-62`. -/
def unfurledShape (axes : List (ℕ × ℕ)) : List ℕ := axes.map fun a => a.1 * a.2

/-- The rearrangement in `_unfurl_momentum_basis_wavepacket`, `wavepacket/eigenstate_conversion.py:63-85`: shift every axis,
interleave the axes, join the axes in pairs, roll back, flatten. -/
def unfurlRearrange (axes : List (ℕ × ℕ)) (data : ℕ → ℂ) : ℕ → ℂ :=
  let shape := sampleShape axes ++ stateShape axes
  let stacked := fun idx => data (ravel shape idx)
  let shifted := fftshiftAxes shape stacked
  let swapped := fun idx => shifted (transposeIndex (unfurlAxes axes.length) idx)
  let ravelled := reshapeAxes (axes.flatMap fun a => [a.2, a.1]) (unfurledShape axes) swapped
  let shift := axes.map fun a => -((a.1 : ℤ) / 2 + a.1 * ((a.2 : ℤ) / 2))
  let unshifted := rollAxes (unfurledShape axes) shift ravelled
  fun k => unshifted (unravel (unfurledShape axes) k)

/-- `_unfurl_momentum_basis_wavepacket`, `wavepacket/eigenstate_conversion.py:51-90`: the data. -/
noncomputable def unfurlMomentum (axes : List (ℕ × ℕ)) (data : ℕ → ℂ) : ℕ → ℂ := fun k =>
  unfurlRearrange axes data k / (Real.sqrt ((sampleShape axes).prod : ℕ) : ℂ)

/-- `fundamental_shape` of a stacked basis, `basis/stacked_basis.py:52-76` (for a stacked explicit basis that of the basis of
its states, `basis/explicit_basis.py:40-284`). A basis with a single axis counts as one axis. -/
noncomputable def Basis.fundamentalShape : Basis → List ℕ
  | .tuple axes => (Basis.methodsList axes).map Methods.fn
  | .explicit _ _ inner => inner.fundamentalShape
  | b => [b.methods.fn]

/-- `stacked_basis_as_fundamental_momentum_basis` and `stacked_basis_as_fundamental_transformed_basis`,
`stacked_basis/conversion.py`: one fundamental transformed axis of each fundamental size. -/
noncomputable def Basis.asTransformedBasis (b : Basis) : Basis :=
  .tuple (b.fundamentalShape.map .fundamentalTransformed)

/-- `convert_wavepacket_to_basis`, `wavepacket/conversion.py:89-116`: the index of the sample is converted from the list
basis to the new list basis and the state from the basis to the new basis. -/
noncomputable def convertWavepacket (same : Basis → Basis → Bool) (w : StateVectorList) (listBasis basis : Basis) :
    Option StateVectorList :=
  (Basis.convert same w.listBasis listBasis).bind fun f =>
    (Basis.convert same w.basis basis).map fun g =>
      ⟨listBasis, basis, flatten basis.n fun i => g fun k => f (fun l => w.data (l * w.basis.n + k)) i⟩

/-- `convert_wavepacket_to_fundamental_momentum_basis`, `wavepacket/conversion.py:252-272`, with the list basis transformed
too (as all callers in the modelled files do). -/
noncomputable def convertWavepacketToMomentum (same : Basis → Basis → Bool) (w : StateVectorList) : Option StateVectorList :=
  convertWavepacket same w w.listBasis.asTransformedBasis w.basis.asTransformedBasis

/-- The numbers of samples and states for each axis of a wavepacket: `zip(list_shape, states_shape, strict=True)`
raises (`none`) for different numbers of axes. -/
noncomputable def wavepacketAxes (w : StateVectorList) : Option (List (ℕ × ℕ)) :=
  if w.listBasis.fundamentalShape.length = w.basis.fundamentalShape.length then
    some (w.listBasis.fundamentalShape.zip w.basis.fundamentalShape)
  else none

/-- `unfurl_wavepacket`, `wavepacket/eigenstate_conversion.py:93-119`; the basis is `get_fundamental_unfurled_basis`,
`wavepacket/wavepacket.py:161-187`. -/
noncomputable def unfurlWavepacket (same : Basis → Basis → Bool) (w : StateVectorList) : Option StateVector :=
  (wavepacketAxes w).bind fun axes => (convertWavepacketToMomentum same w).map fun c =>
    ⟨.tuple ((unfurledShape axes).map .fundamentalTransformed), unfurlMomentum axes c.data⟩

/-- `_get_sampled_basis`, `wavepacket/get_eigenstate.py:109-129`: the momenta of one sample of the Brillouin zone. -/
def sampledBasis (axes : List (ℕ × ℕ)) (offset : List ℤ) : Basis :=
  .tuple (List.zipWith (fun a o => .evenlySpacedTransformed a.2 a.1 (wrapIndex o a.1 0)) axes offset)

/-- `get_fundamental_unfurled_sample_basis_momentum`, `wavepacket/wavepacket.py:110-131`: as `_get_sampled_basis`, with the
offset not wrapped. -/
def unfurledSampleBasis (axes : List (ℕ × ℕ)) (offset : List ℤ) : Basis :=
  .tuple (List.zipWith (fun a o => .evenlySpacedTransformed a.2 a.1 o) axes offset)

/-- `get_wavepacket_state_vector`, `wavepacket/get_eigenstate.py:132-165`, for a flat index; an index out of range
raises. -/
noncomputable def getWavepacketStateVector (same : Basis → Basis → Bool) (w : StateVectorList) (idx : ℕ) :
    Option StateVector :=
  (wavepacketAxes w).bind fun axes => (convertWavepacketToMomentum same w).bind fun c =>
    if idx < (sampleShape axes).prod then
      some ⟨sampledBasis axes ((unravel (sampleShape axes) idx).map fun i : ℕ => (i : ℤ)),
        block (stateShape axes).prod c.data idx⟩
    else none

/-- `get_all_wavepacket_states`, `wavepacket/get_eigenstate.py:246-279`: one state for each sample, with the offset given by
the centred labels of the sample. -/
noncomputable def getAllWavepacketStates (same : Basis → Basis → Bool) (w : StateVectorList) : Option (List StateVector) :=
  (wavepacketAxes w).bind fun axes => (convertWavepacketToMomentum same w).map fun c =>
    (List.range (sampleShape axes).prod).map fun i =>
      ⟨sampledBasis axes (stackedNkPoints (sampleShape axes) i), block (stateShape axes).prod c.data i⟩

/-- `get_all_eigenstates`, `wavepacket/get_eigenstate.py:202-243`: as `get_all_wavepacket_states`, but the data is not
reshaped: the strict `zip` runs over the single entries of the flat data, and raises if there are not as many of them as
there are eigenvalues. The data of each state is one number. `n` is the number of eigenvalues. -/
noncomputable def getAllEigenstates (same : Basis → Basis → Bool) (w : StateVectorList) (n : ℕ) (eigenvalue : ℕ → ℂ) :
    Option (List (Basis × ℂ × ℂ)) :=
  (wavepacketAxes w).bind fun axes => (convertWavepacketToMomentum same w).bind fun c =>
    if c.listBasis.n * c.basis.n = n ∧ n = (sampleShape axes).prod then
      some ((List.range n).map fun i =>
        (sampledBasis axes (stackedNkPoints (sampleShape axes) i), c.data i, eigenvalue i))
    else none

end Verif
