import Verif.Model.PlotWavepackets

/-!
What is drawn by the animations of a state and of a wavepacket in three dimensions, `state_vector/plot.py`, `wavepacket/plot.py` and
`util/plot.py`. Only the numbers given to matplotlib are modelled.
-/

set_option autoImplicit false

namespace Verif

open Matrix

variable {d : ℕ}

/-- One frame of an animation: the numbers of points, the two coordinates of each and its value. -/
structure DrawnFrame where
  rows : ℕ
  cols : ℕ
  coordinates : ℕ → ℕ → List ℝ
  values : ℕ → ℕ → ℝ

/-- The frames drawn by `animate_data_through_surface_x`, `util/plot.py:594-652`, for data on a grid of positions of the given shape, which has been
reshaped by the caller. The number of frames is `data.shape[2]`, which raises (`none`) unless there are at least three axes; a position beyond the length of
the axis `c` raises as well. The angles of the measured data are unwrapped along the last axis, that is from frame to frame. -/
noncomputable def animateSurfaceFrames (A : Matrix (Fin d) (Fin d) ℝ) (shape : List ℕ) (data : ℕ → ℂ) (a b c : Fin d) (idx : Option (List ℕ))
    (measure : Measure) : Option (List DrawnFrame) :=
  let idx := idx.getD (List.replicate (shape.length - 3) 0)
  let coordinates := getXCoordinatesInAxes A shape [a, b, c] (some idx)
  let values := getDataInAxes (fun full => data (ravel shape full)) [(a : ℕ), (b : ℕ), (c : ℕ)] idx
  let drawn := getDataInAxesShape shape [(a : ℕ), (b : ℕ), (c : ℕ)] idx
  shape[2]?.bind fun n =>
    if drawn.getD 2 0 < n then none
    else some ((List.range n).map fun i =>
      { rows := drawn.getD 0 0
        cols := drawn.getD 1 0
        coordinates := fun j k => (coordinates [j, k, i]).take 2
        values := fun j k => getMeasuredData (fun z => values [j, k, z]) measure i })

/-- `animate_state_3d_x`, `state_vector/plot.py:592-634`: the frames. -/
noncomputable def animateState3dX (same : Basis → Basis → Bool) (A : Matrix (Fin d) (Fin d) ℝ) (s : StateVector) (a b c : Fin d)
    (idx : Option (List ℕ)) (measure : Measure) : Option (List DrawnFrame) :=
  (convertStateVector same s s.basis.asPositionBasis).bind fun converted =>
    animateSurfaceFrames A converted.basis.shape converted.data a b c idx measure

/-- `animate_wavepacket_3d_x`, `wavepacket/plot.py:1027-1054`: the frames. The basis of the unfurled wavepacket has as many unit cells as there are
samples. -/
noncomputable def animateWavepacket3dX (same : Basis → Basis → Bool) (A : Matrix (Fin d) (Fin d) ℝ) (w : StateVectorList) (a b c : Fin d)
    (idx : Option (List ℕ)) (measure : Measure) : Option (List DrawnFrame) :=
  (unfurlWavepacket same w).bind fun s => animateState3dX same (sampleVectors A w.listBasis) s a b c idx measure

end Verif
