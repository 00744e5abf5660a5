import Verif.Model.Localization
import Verif.Model.TightBinding
import Verif.Model.InitialStates

/-!
# Localisation of a single band by projection

Models `wavepacket/localization/_projection.py`: the localisation of one wavepacket, and the states used as projections. Argument checks of python
(an index past the end of a tuple) are `none`.
-/

set_option autoImplicit false

namespace Verif

open Finset

/-- `localize_single_band_wavepacket_projection`, `wavepacket/localization/_projection.py:163-182`: the wavepacket as a list with one band, the
projection as a list with one state, and band zero of the result (entry `(sample, state)` of a flat array). -/
noncomputable def localizeSingleBand (same : Basis → Basis → Bool) (svd : ∀ p q, Matrix (Fin p) (Fin q) ℂ → Svd p q) (samples : List ℕ) (b : Basis)
    (data : ℕ → ℂ) (projection : StateVector) : Option (ℕ → ℂ) :=
  (localizeWavepacketProjection same svd ⟨1, samples, b, data⟩ projection.basis 1 projection.data).map fun w => block (samples.prod * b.n) w.data 0

/-- `get_single_point_state_for_wavepacket`, `wavepacket/localization/_projection.py:220-238`, for a flat index of the sample and an origin which is a
stacked index or `None`. -/
noncomputable def singlePointStateForWavepacket (same : Basis → Basis → Bool) (w : StateVectorList) (idx : ℕ) (origin : Option (List ℤ)) :
    Option StateVector :=
  (getWavepacketStateVector same w idx).bind fun s => (convertStateVector same s s.basis.asPositionBasis).bind fun p =>
    let U := s.basis.fundamentalShape
    let o := origin.getD (wrapIndexAroundOrigin U none none
      ((unravel U (argmaxReal (fun X => ‖p.data X‖) (U.prod - 1))).map fun i : ℕ => (i : ℤ)))
    (getFlatIndex .wrap U o).bind fun i => singlePointState p.basis i

/-- `localize_single_point_projection`, `wavepacket/localization/_projection.py:241-261`. -/
noncomputable def localizeSinglePoint (same : Basis → Basis → Bool) (svd : ∀ p q, Matrix (Fin p) (Fin q) ℂ → Svd p q) (samples : List ℕ) (b : Basis)
    (data : ℕ → ℂ) (idx : ℕ) : Option (ℕ → ℂ) :=
  (singlePointStateForWavepacket same ⟨.tuple (samples.map .fundamentalTransformed), b, data⟩ idx none).bind fun p =>
    localizeSingleBand same svd samples b data p

/-- `get_evenly_spaced_points`, `wavepacket/localization/_projection.py:437-463`, for the shape of the large cell. `none`: lists of different lengths
(`zip(strict=True)`), or no points. The empty shape (for which `np.zeros` gets a float) also is `none`. -/
def evenlySpacedPoints (unfurled shape : List ℕ) : Option StateVectorList :=
  if shape = [] ∨ (shape.prod ≠ 0 ∧ (unfurled.length ≠ shape.length ∨ unfurled.prod = 0)) then none
  else some ⟨.tuple (shape.map .fundamental), .tuple (unfurled.map .fundamental), flatten unfurled.prod fun i p =>
    if p = ravel unfurled (List.zipWith (fun (ni : ℕ × ℕ) s => ni.1 * ni.2 / s) (unfurled.zip (unravel shape i)) shape) then 1 else 0⟩

/-- `wrap_index_around_origin`, `stacked_basis/util.py:275-304`, with the `IndexError` for an index or origin with too few entries (`none`); see
`wrapIndexAroundOrigin`. -/
def wrapIndexChecked (shape : List ℕ) (origin : Option (List ℤ)) (idx : List ℤ) : Option (List ℤ) :=
  if shape.length ≤ idx.length ∧ ∀ o, origin = some o → shape.length ≤ o.length then some (wrapIndexAroundOrigin shape none origin idx) else none

/-- The data of `get_gaussian_states`, `wavepacket/localization/_projection.py:361-412`, for an origin given as a stacked index: `L` and `S` are the numbers of
samples and of states, the shape of `wavepacket["basis"]`; `zip(strict=True)` raises unless there are as many axes. -/
noncomputable def gaussianState (L S : ℕ) (unfurled : List ℕ) (origin : List ℤ) : Option (ℕ → ℝ) :=
  (wrapIndexChecked [L, S] none origin).bind fun o =>
    if unfurled.length ≤ o.length ∧ unfurled.length = o.length ∧ o.length = 2 then
      let raw := fun p => Real.exp (-0.5 * (List.zipWith (fun (co : ℤ × ℤ) (w : ℕ) => (((co.1 - co.2 : ℤ) : ℝ) / w) ^ 2)
        ((wrapIndexAroundOrigin unfurled none (some o) ((unravel unfurled p).map fun i : ℕ => (i : ℤ))).zip o) [L, S]).sum)
      some fun p => raw p / Real.sqrt (∑ q ∈ range unfurled.prod, raw q ^ 2)
    else none

/-- The data of `get_exponential_state`, `wavepacket/localization/_projection.py:264-319`, for an origin given as a stacked index: entry by entry for the three
directions. -/
noncomputable def exponentialState (L S : ℕ) (unfurled : List ℕ) (origin : List ℤ) : Option (ℕ → ℝ) :=
  (wrapIndexChecked [L, S] none origin).bind fun o =>
    if unfurled.length ≤ o.length then
      let c := fun p => wrapIndexAroundOrigin unfurled none (some o) ((unravel unfurled p).map fun i : ℕ => (i : ℤ))
      (o[0]?).bind fun (o0 : ℤ) => (o[1]?).bind fun (o1 : ℤ) => (o[2]?).bind fun (o2 : ℤ) => ([L, S][2]?).bind fun (n2 : ℕ) => if unfurled.length < 3 then none else
        let raw := fun p => Real.exp (-((((c p).getD 0 0 : ℤ) - (o0 : ℝ) / L) ^ 2 + (((c p).getD 1 0 : ℤ) - (o1 : ℝ) / S) ^ 2 + (((c p).getD 2 0 : ℤ) - (o2 : ℝ) / n2) ^ 2))
        some fun p => raw p / Real.sqrt (∑ q ∈ range unfurled.prod, raw q ^ 2)
    else none

end Verif
