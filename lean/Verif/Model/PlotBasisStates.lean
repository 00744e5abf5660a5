import Verif.Model.BandEnergies
import Verif.Model.ExplicitZ
import Verif.Model.PlotStates
import Verif.Model.PlotWavepackets

/-!
The states of a basis drawn against position (`basis/plot.py`), and effective masses drawn against the band (`wavepacket/plot.py`). As in
`Model/PlotData` only the numbers given to matplotlib are modelled.
-/

set_option autoImplicit false

namespace Verif

variable {d : ℕ}

/-- The line of one state in `plot_explicit_basis_states_x`, `basis/plot.py:21-42`: the norms of `fundamental_x_points`, `basis/util.py:166-170`, and the
measured row of `BasisUtil.vectors`; `deltaX` is the length of the axis. -/
noncomputable def basisStateLine (deltaX : Fin d → ℝ) (b : Basis) (i : ℕ) (measure : Measure) : DrawnLine :=
  ⟨b.methods.fn, fun x => vnorm fun c => deltaX c / b.methods.fn * x, getMeasuredData (utilVectors b i) measure⟩

/-- `plot_explicit_basis_states_x`, `basis/plot.py:21-42`. -/
noncomputable def plotBasisStatesX (deltaX : Fin d → ℝ) (b : Basis) (measure : Measure) : List DrawnLine :=
  (List.range b.n).map fun i => basisStateLine deltaX b i measure

/-- `plot_explicit_basis_state_x`, `basis/plot.py:45-59`. -/
noncomputable def plotBasisStateX (deltaX : Fin d → ℝ) (b : Basis) (idx : ℤ) (measure : Measure) : Option DrawnLine :=
  (numpyIndex b.n idx).map fun i => basisStateLine deltaX b i measure

/-- `plot_wavepacket_transformed_energy_effective_mass_against_band`, `wavepacket/plot.py:555-595`: the points drawn for `bands` bands. -/
noncomputable def plotMassAgainstBand (same : Basis → Basis → Bool) (hbar : ℝ) (A : Matrix (Fin d) (Fin d) ℝ) (bands : ℕ) (list : Basis)
    (eigenvalue : ℕ → ℂ) (axis : Fin d) (measure : Measure) : Option (List (ℕ × ℝ)) :=
  ((List.range bands).mapM fun band => getEffectiveMass same hbar A list eigenvalue axis band).map fun masses =>
    plotValueListAgainstNx bands (fun i => ((masses.getD i 0 : ℝ) : ℂ)) measure

end Verif
