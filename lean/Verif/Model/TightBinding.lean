import Verif.Model.Generate
import Verif.Model.Wannier

/-!
# Tight binding states

Models `get_tight_binding_state` and `get_tight_binding_states` of `wavepacket/get_eigenstate.py`.
-/

set_option autoImplicit false

namespace Verif

/-- `np.argmax` of the first `m + 1` entries of a real array: the first position of the largest; used at
`wavepacket/get_eigenstate.py:311`. -/
noncomputable def argmaxReal (f : ℕ → ℝ) : ℕ → ℕ
  | 0 => 0
  | m + 1 => if f (argmaxReal f m) < f (m + 1) then m + 1 else argmaxReal f m

/-- The flat index number `q` in `relevant_idx_flat`, `wavepacket/get_eigenstate.py:320-326`: `unit_cell_util` is built from
`wavepacket["basis"]`, the pair of the list basis with `L` and the basis of the states with `S` points, so that its stacked
points are pairs of a flat sample and a flat point. -/
def tightBindingPoint (shape unfurled : List ℕ) (L S : ℕ) (origin : List ℤ) (q : ℕ) : Option ℕ :=
  getFlatIndex .wrap unfurled (wrapIndexAroundOrigin shape none (some origin) ((unravel [L, S] q).map fun i : ℕ => (i : ℤ)))

/-- `get_tight_binding_state`, `wavepacket/get_eigenstate.py:282-333`, for a flat index of the sample and an origin which is a
stacked index or `None`. With more than two axes `idx[ax]` in `wrap_index_around_origin` raises an `IndexError`, as does an
origin with too few coordinates. -/
noncomputable def getTightBindingState (same : Basis → Basis → Bool) (w : StateVectorList) (idx : ℕ) (origin : Option (List ℤ)) :
    Option StateVector :=
  (getWavepacketStateVector same w idx).bind fun s => (convertStateVector same s s.basis.asPositionBasis).bind fun p =>
    let U := s.basis.fundamentalShape
    let o := origin.getD (wrapIndexAroundOrigin w.basis.shape none none
      ((unravel U (argmaxReal (fun X => ‖p.data X‖) (U.prod - 1))).map fun i : ℕ => (i : ℤ)))
    if w.basis.shape.length ≤ 2 ∧ w.basis.shape.length ≤ o.length then
      open Classical in
      some ⟨p.basis, fun X => if ∃ q < w.listBasis.methods.fn * w.basis.methods.fn,
        tightBindingPoint w.basis.shape U w.listBasis.methods.fn w.basis.methods.fn o q = some X then p.data X else 0⟩
    else none

/-- `get_tight_binding_states`, `wavepacket/get_eigenstate.py:338-355`: the states of all bands, in the band basis of the
wavepackets. `none` if one of them raises or if there are none. -/
noncomputable def getTightBindingStates (same : Basis → Basis → Bool) (w : WavepacketList) (idx : ℕ) (origin : Option (List ℤ)) :
    Option StateVectorList :=
  ((wavepacketListIntoIter w).mapM fun s => getTightBindingState same s idx origin).bind fun l =>
    (asStateVectorList l).map fun r => ⟨w.band, r.basis, r.data⟩

end Verif
