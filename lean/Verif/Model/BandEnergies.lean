import Verif.Model.Geometry
import Verif.Model.PlotData
import Verif.Model.Basis

/-!
Energies of bands: transformed energies, effective masses and occupations of bands, `wavepacket/plot.py`.

The eigenvalues of a wavepacket with eigenvalues are the flat array `(band, sample)`.
-/

set_option autoImplicit false

namespace Verif

open Finset Matrix

variable {d : ℕ}

/-- The eigenvalues of `convert_wavepacket_with_eigenvalues_to_basis`, `wavepacket/conversion.py:159-199`, for one band: converted as a vector in the
basis of the samples. -/
noncomputable def convertBandEnergies (same : Basis → Basis → Bool) (list target : Basis) (eigenvalue : ℕ → ℂ) (band : ℕ) :
    Option (ℕ → ℂ) :=
  (Basis.convert same list target).map fun f => f fun j => eigenvalue (band * list.n + j)

/-- The component of the transformed energies one point along an axis, `wavepacket/plot.py:415-418,481-483`: the index is one along `axis` and
zero otherwise; an index out of range raises. -/
noncomputable def lowestComponent (same : Basis → Basis → Bool) (list : Basis) (eigenvalue : ℕ → ℂ) (axis band : ℕ) : Option ℂ :=
  let shape := list.fundamentalShape
  (convertBandEnergies same list list.asPositionBasis eigenvalue band).bind fun data =>
    if shape.getD axis 0 < 2 ∨ 0 ∈ shape then none
    else some (data (ravel shape ((List.range shape.length).map fun i => if i = axis then 1 else 0)))

/-- `_get_free_energy`, `wavepacket/plot.py:441-449`, for one band. -/
noncomputable def getFreeEnergy (A : Matrix (Fin d) (Fin d) ℝ) (band : ℕ) (axis : Fin d) : ℝ :=
  4 * Real.pi * (2 * band + 1) / vnorm (A axis) ^ 3

/-- `get_wavepacket_transformed_energy_effective_mass`, `wavepacket/plot.py:452-494`, for one band. (For a component zero numpy warns and
gives infinity: zero here.) -/
noncomputable def getEffectiveMass (same : Basis → Basis → Bool) (hbar : ℝ) (A : Matrix (Fin d) (Fin d) ℝ) (list : Basis)
    (eigenvalue : ℕ → ℂ) (axis : Fin d) (band : ℕ) : Option ℝ :=
  (lowestComponent same list eigenvalue axis band).map fun c =>
    Real.sqrt list.n * vnorm (A axis) / (2 * Real.pi) * (hbar ^ 2 / 2) * getFreeEnergy A band axis / ‖c‖

/-- The two lines of `plot_wavepacket_transformed_energy_1d`, `wavepacket/plot.py:365-438`, at one band, with the default measure: the
modulus of the component, and the value for a free particle. -/
noncomputable def plotTransformedEnergy (same : Basis → Basis → Bool) (hbar : ℝ) (A : Matrix (Fin d) (Fin d) ℝ) (list : Basis)
    (eigenvalue : ℕ → ℂ) (freeMass : ℝ) (axis : Fin d) (band : ℕ) : Option (ℝ × ℝ) :=
  (lowestComponent same list eigenvalue axis band).map fun c =>
    let norm := vnorm (A axis) * Real.sqrt list.n / (2 * Real.pi)
    let offset := norm * (4 * Real.pi * hbar ^ 2 / (2 * freeMass * vnorm (A axis) ^ 3))
    (‖c‖, (2 * band + 1) * offset)

/-- `get_wavepacket_band_occupation`, `wavepacket/plot.py:1090-1109`, for `samples` samples of each of `bands` bands. -/
noncomputable def getBandOccupation (kB temperature : ℝ) (bands samples : ℕ) (eigenvalue : ℕ → ℂ) (band : ℕ) : ℂ :=
  let occupation := fun k => Complex.exp (-eigenvalue k / (temperature * kB))
  (∑ j ∈ range samples, occupation (band * samples + j)) / ∑ k ∈ range (bands * samples), occupation k

/-- `get_average_band_energy`, `state_vector/plot.py:854-872`: the mean over the samples of the real part. -/
noncomputable def getAverageBandEnergy (samples : ℕ) (data : ℕ → ℂ) (band : ℕ) : ℝ :=
  (∑ j ∈ range samples, (data (band * samples + j)).re) / samples

end Verif
