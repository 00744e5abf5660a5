import Verif.Model.BandEnergies
import Verif.Model.Wannier

/-!
Effective masses from the Hamiltonian of localised states, and the plots of effective masses, `wavepacket/plot.py`.
-/

set_option autoImplicit false

namespace Verif

open Finset Matrix

/-- The energy read by `get_wavepacket_localized_effective_mass`, `wavepacket/plot.py:598-645` (lines 620-632), for one band: the flat
Hamiltonian is taken for an array of shape `(wannier, translation, wannier, translation)`, as in the basis it is labelled with; the entry at
`(band, 0, band, k)` with `k` one along the axis. An index out of range raises. -/
noncomputable def localizedEnergy (h : ℕ → ℂ) (op : LocalizationOperator) (axis band : ℕ) : Option ℂ :=
  let N := op.samples.prod
  let k := ravel op.samples ((List.range op.samples.length).map fun i => if i = axis then 1 else 0)
  if op.samples.getD axis 0 < 2 ∨ 0 ∈ op.samples then none
  else some (fullWannierHamiltonian h op (((band * N + 0) * op.new + band) * N + k))

/-- `get_wavepacket_localized_effective_mass`, `wavepacket/plot.py:598-645`, for one band. (For an energy zero numpy warns and gives
infinity: zero here.) -/
noncomputable def getLocalizedEffectiveMass {d : ℕ} (hbar : ℝ) (A : Matrix (Fin d) (Fin d) ℝ) (h : ℕ → ℂ) (op : LocalizationOperator)
    (axis : Fin d) (band : ℕ) : Option ℝ :=
  (localizedEnergy h op axis band).map fun c =>
    Real.sqrt op.samples.prod * vnorm (A axis) / (2 * Real.pi) * (hbar ^ 2 / 2) * getFreeEnergy A band axis / ‖c‖

/-- The mass drawn by `plot_wavepacket_transformed_energy_effective_mass_against_energy`, `wavepacket/plot.py:497-552`, and by
`plot_wavepacket_localized_effective_mass_against_energy`, `wavepacket/plot.py:648-704`, at one band: relative to a true mass if one is given. -/
noncomputable def drawnMass (trueMass : Option ℝ) (mass : ℝ) : ℝ :=
  match trueMass with
  | none => mass
  | some t => (mass - t) / t

/-- `plot_wavepacket_transformed_energy_effective_mass_against_energy`, `wavepacket/plot.py:497-552`, the point of one band with the default
measure: the average energy of the band and the mass. -/
noncomputable def plotMassAgainstEnergy {d : ℕ} (same : Basis → Basis → Bool) (hbar : ℝ) (A : Matrix (Fin d) (Fin d) ℝ) (list : Basis)
    (eigenvalue : ℕ → ℂ) (axis : Fin d) (trueMass : Option ℝ) (band : ℕ) : Option (ℝ × ℝ) :=
  (getEffectiveMass same hbar A list eigenvalue axis band).map fun mass =>
    (getAverageBandEnergy list.n eigenvalue band, drawnMass trueMass mass)

/-- `plot_occupation_against_band_average_energy`, `wavepacket/plot.py:1148-1184`, the point of one band with the default measure: the average
energy of the band and the modulus of its occupation. -/
noncomputable def plotOccupationAgainstEnergy (kB temperature : ℝ) (bands samples : ℕ) (eigenvalue : ℕ → ℂ) (band : ℕ) : ℝ × ℝ :=
  (getAverageBandEnergy samples eigenvalue band, ‖getBandOccupation kB temperature bands samples eigenvalue band‖)

end Verif
