import Verif.Model.BandEnergies
import Verif.Model.Grid
import Verif.Model.Slice

/-!
Energies of bands drawn against momentum and position, and the momenta of the samples, `wavepacket/plot.py` and
`wavepacket/wavepacket.py`.

The eigenvalues of a wavepacket with eigenvalues are the flat array `(band, sample)`.
-/

set_option autoImplicit false

namespace Verif

open Finset Matrix

variable {d : ℕ}

/-- The lengths `delta_x` of `get_fundamental_sample_basis`, `wavepacket/wavepacket.py:134-158`: the vectors of the unit cell times the
number of samples. -/
noncomputable def sampleVectors (A : Matrix (Fin d) (Fin d) ℝ) (list : Basis) : Matrix (Fin d) (Fin d) ℝ :=
  Matrix.of fun i c => A i c * list.fundamentalShape.getD i 0

/-- `get_fundamental_sample_basis`, `wavepacket/wavepacket.py:134-158`, without its lengths, which are `sampleVectors`. -/
noncomputable def getFundamentalSampleBasis (list : Basis) : Basis := .tuple (list.fundamentalShape.map .fundamentalTransformed)

/-- `get_wavepacket_fundamental_sample_frequencies`, `wavepacket/wavepacket.py:218-235`, for one sample. -/
noncomputable def getSampleFrequency (A : Matrix (Fin d) (Fin d) ℝ) (list : Basis) (sample : ℕ) : Fin d → ℝ :=
  let shape := (getFundamentalSampleBasis list).fundamentalShape
  kPointAtIndex (sampleVectors A list) fun i => (stackedNkPoints shape sample).getD i 0

/-- Whether a full index is kept by a slice; a slice shorter than the array keeps everything along the remaining axes. -/
def keptBySlice (slice : List (Option ℕ)) (full : List ℕ) : Bool :=
  (slice.zip full).all fun p => match p.1 with
    | none => true
    | some i => i == p.2

/-- The points drawn by `plot_wavepacket_sample_frequencies`, `wavepacket/plot.py:106-145`: two Cartesian components of the frequencies in the
slice. The default index has as many entries as the pair `(list, states)` has axes besides the two drawn: none. The arrays are flattened
in C order, so that the samples appear in ascending order. `none`: the number of states of the list differs from the number
of samples, so that the reshape raises, or the index is too long or out of range. -/
noncomputable def plotSampleFrequencies (A : Matrix (Fin d) (Fin d) ℝ) (list : Basis) (axes : Fin d × Fin d) (idx : Option (List ℕ)) :
    Option (List (ℝ × ℝ)) :=
  let shape := list.shape
  let slice := sliceIgnoringAxes (idx.getD []) [axes.1, axes.2]
  if shape.prod ≠ list.fundamentalShape.prod ∨ shape.length < slice.length ∨
      (slice.zip shape).any (fun p => match p.1 with | none => false | some i => decide (p.2 ≤ i)) then none
  else some (((List.range shape.prod).filter fun k => keptBySlice slice (unravel shape k)).map fun k =>
    (getSampleFrequency A list k axes.1, getSampleFrequency A list k axes.2))

/-- One line of `plot_wavepacket_eigenvalues_1d_k`, `wavepacket/plot.py:248-304`: the energies of a band, converted to the
fundamental samples, drawn by `plot_data_1d_k`. -/
noncomputable def plotBandEnergies1dK (same : Basis → Basis → Bool) (A : Matrix (Fin d) (Fin d) ℝ) (list : Basis) (eigenvalue : ℕ → ℂ)
    (axis : Fin d) (measure : Measure) (band : ℕ) : Option DrawnLine :=
  (convertBandEnergies same list list.asTransformedBasis eigenvalue band).bind fun data =>
    (plotData1dK same (sampleVectors A list) (getFundamentalSampleBasis list) data [axis] none).bind fun s => plotSlice1d s measure

/-- `plot_wavepacket_eigenvalues_1d_k`, `wavepacket/plot.py:248-304`, for the listed bands (all bands by default); a band out of range
raises. -/
noncomputable def plotEigenvalues1dK (same : Basis → Basis → Bool) (A : Matrix (Fin d) (Fin d) ℝ) (count : ℕ) (list : Basis)
    (eigenvalue : ℕ → ℂ) (axis : Fin d) (measure : Measure) (bands : Option (List ℕ)) : Option (List DrawnLine) :=
  (bands.getD (List.range count)).mapM fun band =>
    if band < count then plotBandEnergies1dK same A list eigenvalue axis measure band else none

/-- One line of `plot_wavepacket_eigenvalues_1d_x`, `wavepacket/plot.py:307-362`: as above, drawn by `plot_data_1d_x`. -/
noncomputable def plotBandEnergies1dX (same : Basis → Basis → Bool) (A : Matrix (Fin d) (Fin d) ℝ) (list : Basis) (eigenvalue : ℕ → ℂ)
    (axis : Fin d) (measure : Measure) (band : ℕ) : Option DrawnLine :=
  (convertBandEnergies same list list.asTransformedBasis eigenvalue band).bind fun data =>
    (plotDataX same (sampleVectors A list) (getFundamentalSampleBasis list) data [axis] none).bind fun s => plotSlice1d s measure

/-- The slice drawn by `plot_wavepacket_eigenvalues_2d_k`, `wavepacket/plot.py:148-180`, for the energies of one band, which are not converted
from the basis of the list. -/
noncomputable def plotEigenvalues2dK (same : Basis → Basis → Bool) (A : Matrix (Fin d) (Fin d) ℝ) (list : Basis) (eigenvalue : ℕ → ℂ)
    (axes : List (Fin d)) (idx : Option (List ℕ)) : Option DrawnSlice :=
  plotData2dK same (sampleVectors A list) (getFundamentalSampleBasis list) eigenvalue axes idx

/-- `_get_projected_bloch_phases`, `wavepacket/plot.py:183-194`, for the sample with the fractions `fractions`. -/
noncomputable def getProjectedBlochPhase (A : Matrix (Fin d) (Fin d) ℝ) (fractions : Fin d → ℝ) (direction : Fin d → ℝ) : ℝ :=
  ∑ c, (∑ i, fractions i * dkStacked A i c) * (direction c / vnorm direction)

/-- One line of `plot_uneven_wavepacket_eigenvalues_1d_k`, `wavepacket/plot.py:197-245`, for `samples` samples at any fractions
`fractions sample`; `argsort` is `np.argsort`. -/
noncomputable def plotUnevenEigenvalues1dK (argsort : ℕ → (ℕ → ℝ) → ℕ → ℕ) (A : Matrix (Fin d) (Fin d) ℝ) (samples : ℕ)
    (fractions : ℕ → Fin d → ℝ) (eigenvalue : ℕ → ℂ) (axis : Fin d) (measure : Measure) (band : ℕ) : Option DrawnLine :=
  let phases := fun s => getProjectedBlochPhase A (fractions s) (dkStacked A axis)
  let order := argsort samples phases
  plotData1d samples (fun i => eigenvalue (band * samples + order i)) (fun i => phases (order i)) measure false

end Verif
