import Verif.Model.PlotBands
import Verif.Model.PlotStates
import Verif.Model.Wavepacket
import Verif.Model.BandEnergies

/-!
Plots of wavepackets, `wavepacket/plot.py`. Only the numbers given to matplotlib are modelled. The basis of an unfurled wavepacket has as many
unit cells as there are samples: its lattice vectors are `sampleVectors`.
-/

set_option autoImplicit false

namespace Verif

open Matrix

variable {d : ℕ}

/-- `plot_wavepacket_2d_x`, `wavepacket/plot.py:919-948`, and `plot_wavepacket_1d_x`, `wavepacket/plot.py:785-816`: the slice drawn. -/
noncomputable def plotWavepacketX (same : Basis → Basis → Bool) (A : Matrix (Fin d) (Fin d) ℝ) (w : StateVectorList) (axes : List (Fin d))
    (idx : Option (List ℕ)) : Option DrawnSlice :=
  (unfurlWavepacket same w).bind fun s => plotDataX same (sampleVectors A w.listBasis) s.basis s.data axes idx

/-- `plot_wavepacket_1d_k`, `wavepacket/plot.py:819-850`: the slice drawn. -/
noncomputable def plotWavepacket1dK (same : Basis → Basis → Bool) (A : Matrix (Fin d) (Fin d) ℝ) (w : StateVectorList) (axes : List (Fin d))
    (idx : Option (List ℕ)) : Option DrawnSlice :=
  (unfurlWavepacket same w).bind fun s => plotData1dK same (sampleVectors A w.listBasis) s.basis s.data axes idx

/-- `plot_wavepacket_2d_k`, `wavepacket/plot.py:853-882`: the slice drawn. -/
noncomputable def plotWavepacket2dK (same : Basis → Basis → Bool) (A : Matrix (Fin d) (Fin d) ℝ) (w : StateVectorList) (axes : List (Fin d))
    (idx : Option (List ℕ)) : Option DrawnSlice :=
  (unfurlWavepacket same w).bind fun s => plotData2dK same (sampleVectors A w.listBasis) s.basis s.data axes idx

/-- `plot_all_wavepacket_states_2d_x`, `wavepacket/plot.py:951-982`: the slices drawn, one for each sample. (The generator draws them one after the
other: all of them here.) -/
noncomputable def plotAllWavepacketStates2dX (same : Basis → Basis → Bool) (A : Matrix (Fin d) (Fin d) ℝ) (w : StateVectorList)
    (axes : List (Fin d)) (idx : Option (List ℕ)) : Option (List DrawnSlice) :=
  (getAllWavepacketStates same w).bind fun l =>
    l.mapM fun s => plotDataX same (sampleVectors A w.listBasis) s.basis s.data axes idx

/-- `plot_all_wavepacket_states_2d_k`, `wavepacket/plot.py:885-916`: the slices drawn, one for each sample. -/
noncomputable def plotAllWavepacketStates2dK (same : Basis → Basis → Bool) (A : Matrix (Fin d) (Fin d) ℝ) (w : StateVectorList)
    (axes : List (Fin d)) (idx : Option (List ℕ)) : Option (List DrawnSlice) :=
  (getAllWavepacketStates same w).bind fun l =>
    l.mapM fun s => plotData2dK same (sampleVectors A w.listBasis) s.basis s.data axes idx

/-- `plot_wavepacket_difference_2d_x`, `wavepacket/plot.py:985-1024`: the slice drawn. The vectors of the cell are those of the first wavepacket. -/
noncomputable def plotWavepacketDifference2dX (same : Basis → Basis → Bool) (A : Matrix (Fin d) (Fin d) ℝ) (w0 w1 : StateVectorList)
    (axes : List (Fin d)) (idx : Option (List ℕ)) : Option DrawnSlice :=
  (unfurlWavepacket same w0).bind fun s0 => (unfurlWavepacket same w1).bind fun s1 =>
    plotStateDifference2dX same (sampleVectors A w0.listBasis) s0 s1 axes idx

/-- `plot_wavepacket_along_path`, `wavepacket/plot.py:1057-1087`: distances and values. -/
noncomputable def plotWavepacketAlongPath (same : Basis → Basis → Bool) (A : Matrix (Fin d) (Fin d) ℝ) (w : StateVectorList)
    (path : List (List ℤ)) (measure : Measure) : Option (List ℝ × List ℝ) :=
  (unfurlWavepacket same w).bind fun s => plotStateAlongPath same (sampleVectors A w.listBasis) s path measure

/-- `plot_wavepacket_eigenvalues_2d_x`, `wavepacket/plot.py:707-742`: the slice drawn. The energies of the samples are not converted from the
basis of the list. -/
noncomputable def plotWavepacketEigenvalues2dX (same : Basis → Basis → Bool) (A : Matrix (Fin d) (Fin d) ℝ) (list : Basis) (eigenvalue : ℕ → ℂ)
    (axes : List (Fin d)) (idx : Option (List ℕ)) : Option DrawnSlice :=
  plotDataX same (sampleVectors A list) (getFundamentalSampleBasis list) eigenvalue axes idx

/-- `plot_eigenvalues_1d_x`, `wavepacket/plot.py:745-782`, for a list of samples of shape `shape`: the number of points and the value drawn at
each of `0, 1, …`. (The energies are real, the type of the model is complex.) -/
def plotEigenvalues1dX (shape : List ℕ) (eigenvalue : ℕ → ℂ) (axis : ℕ) (idx : Option (List ℕ)) : ℕ × (ℕ → ℂ) :=
  let idx := idx.getD (List.replicate (shape.length - 1) 0)
  (shape.getD axis 0, fun i => getDataInAxes (fun full => eigenvalue (ravel shape full)) [axis] idx [i])

/-- `plot_value_list_against_nx`, `state_vector/plot_value_list.py:40-71`: the points drawn for a list of `n` values. -/
noncomputable def plotValueListAgainstNx (n : ℕ) (data : ℕ → ℂ) (measure : Measure) : List (ℕ × ℝ) :=
  (List.range n).map fun i : ℕ => (i, getMeasuredData data measure i)

/-- `plot_occupation_against_band`, `wavepacket/plot.py:1112-1145`: the points drawn. -/
noncomputable def plotOccupationAgainstBand (kB temperature : ℝ) (bands samples : ℕ) (eigenvalue : ℕ → ℂ) (measure : Measure) :
    List (ℕ × ℝ) :=
  plotValueListAgainstNx bands (getBandOccupation kB temperature bands samples eigenvalue) measure

end Verif
