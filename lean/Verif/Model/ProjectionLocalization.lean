import Verif.Model.Projection
import Verif.Model.StateConversion

/-!
Localisation of wavepackets with tight binding states and gaussians, `wavepacket/localization/_projection.py`.
-/

set_option autoImplicit false

namespace Verif

/-- `get_localization_operator_tight_binding_projections`, `wavepacket/localization/_projection.py:185-194`. -/
noncomputable def tightBindingOperator (same : Basis → Basis → Bool) (svd : ∀ p q, Matrix (Fin p) (Fin q) ℂ → Svd p q) (w : BlochWavefunctions) :
    Option LocalizationOperator :=
  (getTightBindingStates same ⟨.fundamental w.bands, .tuple (w.samples.map .fundamentalTransformed), w.basis, w.data⟩ 0 none).bind fun projections =>
    (convertStateVectorList same projections projections.basis.asTransformedBasis).bind fun converted =>
      projectionOperator same svd w converted.basis converted.listBasis.n converted.data

/-- `localize_tight_binding_projection`, `wavepacket/localization/_projection.py:197-217`. -/
noncomputable def localizeTightBinding (same : Basis → Basis → Bool) (svd : ∀ p q, Matrix (Fin p) (Fin q) ℂ → Svd p q) (samples : List ℕ) (b : Basis)
    (data : ℕ → ℂ) : Option (ℕ → ℂ) :=
  (getTightBindingState same ⟨.tuple (samples.map .fundamentalTransformed), b, data⟩ 0 none).bind fun projection =>
    (stateToMomentum same projection).bind fun transformed => localizeSingleBand same svd samples b data transformed

/-- `localize_wavepacket_gaussian_projection`, `wavepacket/localization/_projection.py:415-434`, for the shape of the large cell: the origin is the
flat index zero. -/
noncomputable def localizeGaussian (same : Basis → Basis → Bool) (svd : ∀ p q, Matrix (Fin p) (Fin q) ℂ → Svd p q) (samples unfurled : List ℕ) (b : Basis)
    (data : ℕ → ℂ) : Option (ℕ → ℂ) :=
  (gaussianState samples.prod b.n unfurled (unfurled.map fun _ => 0)).bind fun g =>
    (stateToMomentum same ⟨.tuple (unfurled.map .fundamental), fun X => (g X : ℂ)⟩).bind fun transformed => localizeSingleBand same svd samples b data transformed

/-- `_get_exponential_decay_state`, `wavepacket/localization/_projection.py:322-338`, with the maximum of the state at the first sample as the origin of
the exponential. -/
noncomputable def exponentialDecayState (same : Basis → Basis → Bool) (samples : List ℕ) (b : Basis) (data : ℕ → ℂ) : Option StateVector :=
  (getWavepacketStateVector same ⟨.tuple (samples.map .fundamentalTransformed), b, data⟩ 0).bind fun s =>
    (convertStateVector same s s.basis.asPositionBasis).bind fun p =>
      let U := s.basis.fundamentalShape
      (exponentialState samples.prod b.n U ((unravel U (argmaxReal (fun X => ‖p.data X‖) (U.prod - 1))).map fun i : ℕ => (i : ℤ))).map fun e =>
        let raw := fun X => (e X : ℂ) * p.data X
        ⟨p.basis, fun X => raw X / (Real.sqrt (∑ Y ∈ Finset.range U.prod, ‖raw Y‖ ^ 2) : ℂ)⟩

/-- `localize_exponential_decay_projection`, `wavepacket/localization/_projection.py:341-358`. -/
noncomputable def localizeExponential (same : Basis → Basis → Bool) (svd : ∀ p q, Matrix (Fin p) (Fin q) ℂ → Svd p q) (samples : List ℕ) (b : Basis)
    (data : ℕ → ℂ) : Option (ℕ → ℂ) :=
  (exponentialDecayState same samples b data).bind fun projection =>
    (stateToMomentum same projection).bind fun transformed => localizeSingleBand same svd samples b data transformed

end Verif
