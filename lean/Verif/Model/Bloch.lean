import Verif.Model.Wavepacket

/-!
The basis of Bloch states: the class `BlochBasis` of `wavepacket/get_eigenstate.py`.

The wavefunctions are a list of bands of Bloch states: entry `(band, sample, state)` of a flat array. The list basis has
been converted to the fundamental transformed basis by the constructor.
-/

set_option autoImplicit false

namespace Verif

open Finset

/-- `shape` of a stacked basis, `basis/stacked_basis.py:52-76`; the shape of an explicit stacked basis is that of the basis of its
states, `basis/explicit_basis.py:261-263`. A basis with a single axis counts as one axis. -/
noncomputable def Basis.shape : Basis → List ℕ
  | .tuple axes => (Basis.methodsList axes).map Methods.n
  | .explicit _ _ inner => inner.shape
  | b => [b.methods.n]

/-- The wavefunctions of a `BlochBasis`: number of bands, number of samples of each axis, basis of the Bloch states, data. -/
structure BlochWavefunctions where
  bands : ℕ
  samples : List ℕ
  basis : Basis
  data : ℕ → ℂ

/-- The list basis. -/
def BlochWavefunctions.list (w : BlochWavefunctions) : Basis := .tuple (w.samples.map .fundamentalTransformed)

/-- The numbers of samples and fundamental states for each axis. `zip` is not strict here, but `unfurled_basis`
(`get_fundamental_unfurled_basis`, `wavepacket/wavepacket.py:161-187`) raises for different numbers of axes. -/
noncomputable def BlochWavefunctions.axes (w : BlochWavefunctions) : List (ℕ × ℕ) := w.samples.zip w.basis.fundamentalShape

/-- The axes `1, 3, ..., 0, 2, ...`, `wavepacket/get_eigenstate.py:607-612`. -/
def flipAxes (nd : ℕ) : List ℕ := (List.range nd).map (fun i => 2 * i + 1) ++ (List.range nd).map fun i => 2 * i

/-- The rearrangement in `__from_fundamental__`, `wavepacket/get_eigenstate.py:581-619`: roll, split every axis, bring the samples to
the front, shift, flatten. -/
def furlRearrange (axes : List (ℕ × ℕ)) (u : ℕ → ℂ) : ℕ → ℂ :=
  let shift := axes.map fun a => (a.1 : ℤ) / 2 + a.1 * ((a.2 : ℤ) / 2)
  let rolled := rollAxes (unfurledShape axes) shift fun idx => u (ravel (unfurledShape axes) idx)
  let shifted := reshapeAxes (unfurledShape axes) (axes.flatMap fun a => [a.2, a.1]) rolled
  let flipped := fun idx => shifted (transposeIndex (flipAxes axes.length) idx)
  let shape := sampleShape axes ++ stateShape axes
  let unshifted := ifftshiftAxes shape flipped
  fun k => unshifted (unravel shape k)

/-- `__into_fundamental__`, `wavepacket/get_eigenstate.py:665-749`, for one vector: contraction with the wavefunctions,
conversion of the Bloch states to the momentum basis, the rearrangement of `_unfurl_momentum_basis_wavepacket` (without the
factor), conversion to the position basis. The reshapes use `shape` and not `fundamental_shape`, and the size `n`: they
raise unless the numbers of entries agree.
The assertion on the result for small bases (lines 737-746) is not part of the model; that it never fails is a theorem. -/
noncomputable def blochInto (same : Basis → Basis → Bool) (w : BlochWavefunctions) (v : ℕ → ℂ) : Option (ℕ → ℂ) :=
  if w.samples.length = w.basis.fundamentalShape.length then
    let y := flatten w.basis.n fun j k =>
      ∑ i ∈ range w.bands, v (i * w.samples.prod + j) * w.data ((i * w.samples.prod + j) * w.basis.n + k)
    (Basis.convert same (.tuple [w.list, w.basis]) (.tuple [w.list.asTransformedBasis, w.basis.asTransformedBasis])).bind
      fun f =>
        if w.basis.shape.prod = w.basis.fundamentalShape.prod ∧ w.basis.n = w.basis.fundamentalShape.prod then
          some ((Basis.tuple ((unfurledShape w.axes).map .fundamentalTransformed)).methods.intoF
            (unfurlRearrange (w.samples.zip w.basis.shape) (f y)))
        else none
  else none

/-- `__from_fundamental__`, `wavepacket/get_eigenstate.py:566-663`, for one vector (without the assertion in lines
621-645). -/
noncomputable def blochFrom (same : Basis → Basis → Bool) (w : BlochWavefunctions) (φ : ℕ → ℂ) : Option (ℕ → ℂ) :=
  if w.samples.length = w.basis.fundamentalShape.length then
    let u := (Basis.tuple ((unfurledShape w.axes).map .fundamentalTransformed)).methods.fromF φ
    (Basis.convert same (.tuple [w.list.asTransformedBasis, w.basis.asTransformedBasis]) (.tuple [w.list, w.basis])).map
      fun g => fun m => ∑ k ∈ range w.basis.n,
        g (furlRearrange w.axes u) ((m % w.samples.prod) * w.basis.n + k) *
          (starRingEnd ℂ) (w.data (m * w.basis.n + k))
  else none

/-- `get_bloch_states`, `wavepacket/get_eigenstate.py:451-522`: state `(band, sample)` in the unfurled basis. The
list basis is already the fundamental transformed one, converting it is left out. -/
noncomputable def blochVector (same : Basis → Basis → Bool) (w : BlochWavefunctions) (m : ℕ) : Option (ℕ → ℂ) :=
  (Basis.convert same w.basis w.basis.asTransformedBasis).bind fun g =>
    (Basis.convert same
      (sampledBasis w.axes ((unravel w.samples (m % w.samples.prod)).map fun i : ℕ => (i : ℤ)))
      (.tuple ((unfurledShape w.axes).map .fundamentalTransformed))).map fun h =>
        h (g (block w.basis.n w.data m))

end Verif
