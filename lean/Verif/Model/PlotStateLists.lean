import Verif.Model.PlotData
import Verif.Model.State

/-!
What is drawn for lists of states: one line for each state, or an animation with one frame for each state. As in `Model/PlotData`
only the numbers given to matplotlib are modelled.
-/

set_option autoImplicit false

namespace Verif

open Matrix

variable {d : ℕ}

/-- The line drawn by `plot_data_1d_x`, `util/plot.py:325-343`. -/
noncomputable def plotLineX (same : Basis → Basis → Bool) (A : Matrix (Fin d) (Fin d) ℝ) (basis : Basis) (data : ℕ → ℂ) (axis : Fin d)
    (idx : Option (List ℕ)) (measure : Measure) : Option DrawnLine :=
  (plotDataX same A basis data [axis] idx).bind fun s => plotSlice1d s measure

/-- The line drawn by `plot_data_1d_k`, `util/plot.py:269-287`. -/
noncomputable def plotLineK (same : Basis → Basis → Bool) (A : Matrix (Fin d) (Fin d) ℝ) (basis : Basis) (data : ℕ → ℂ) (axis : Fin d)
    (idx : Option (List ℕ)) (measure : Measure) : Option DrawnLine :=
  (plotData1dK same A basis data [axis] idx).bind fun s => plotSlice1d s measure

/-- The frames of an animation of `k` rows of data with `n` columns, `util/plot.py:690-706,745-753,792-801,838-852,890-904`: each row is
drawn by the function `draw`. -/
def animateList {β : Type} (k n : ℕ) (data : ℕ → ℂ) (draw : (ℕ → ℂ) → Option β) : Option (List β) :=
  (List.range k).mapM fun i => draw (block n data i)

/-- `animate_state_over_list_1d_x`, `state_vector/plot.py:192-236` (with `animate_data_through_list_1d_x`, `util/plot.py:711-755`): the lines
of the frames. -/
noncomputable def animateStates1dX (same : Basis → Basis → Bool) (A : Matrix (Fin d) (Fin d) ℝ) (l : StateVectorList) (axis : Fin d)
    (idx : Option (List ℕ)) (measure : Measure) : Option (List DrawnLine) :=
  (convertStateVectorList same l l.basis.asPositionBasis).bind fun c =>
    animateList c.listBasis.n c.basis.n c.data fun row => plotLineX same A c.basis row axis idx measure

/-- `animate_state_over_list_1d_k`, `state_vector/plot.py:331-375` (with `animate_data_through_list_1d_k`, `util/plot.py:758-803`). -/
noncomputable def animateStates1dK (same : Basis → Basis → Bool) (A : Matrix (Fin d) (Fin d) ℝ) (l : StateVectorList) (axis : Fin d)
    (idx : Option (List ℕ)) (measure : Measure) : Option (List DrawnLine) :=
  (convertStateVectorList same l l.basis.asTransformedBasis).bind fun c =>
    animateList c.listBasis.n c.basis.n c.data fun row => plotLineK same A c.basis row axis idx measure

/-- `animate_state_over_list_2d_x`, `state_vector/plot.py:286-328` (with `animate_data_through_list_2d_x`, `util/plot.py:857-906`): the
slices of the frames (the measure is applied to their values). -/
noncomputable def animateStates2dX (same : Basis → Basis → Bool) (A : Matrix (Fin d) (Fin d) ℝ) (l : StateVectorList) (axes : List (Fin d))
    (idx : Option (List ℕ)) : Option (List DrawnSlice) :=
  (convertStateVectorList same l l.basis.asPositionBasis).bind fun c =>
    animateList c.listBasis.n c.basis.n c.data fun row => plotDataX same A c.basis row axes idx

/-- `animate_state_over_list_2d_k`, `state_vector/plot.py:239-283` (with `animate_data_through_list_2d_k`, `util/plot.py:806-854`). -/
noncomputable def animateStates2dK (same : Basis → Basis → Bool) (A : Matrix (Fin d) (Fin d) ℝ) (l : StateVectorList) (axes : List (Fin d))
    (idx : Option (List ℕ)) : Option (List DrawnSlice) :=
  (convertStateVectorList same l l.basis.asTransformedBasis).bind fun c =>
    animateList c.listBasis.n c.basis.n c.data fun row => plotData2dK same A c.basis row axes idx

/-- `plot_states_1d_x`, `state_vector/state_vector_list_plot.py:31-65`, with `plot_state_1d_x`, `state_vector/plot.py:148-189`. -/
noncomputable def plotStates1dX (same : Basis → Basis → Bool) (A : Matrix (Fin d) (Fin d) ℝ) (l : StateVectorList) (axis : Fin d)
    (idx : Option (List ℕ)) (measure : Measure) : Option (List DrawnLine) :=
  (stateVectorListIntoIter l).mapM fun s => plotLineX same A s.basis s.data axis idx measure

/-- `plot_states_1d_k`, `state_vector/state_vector_list_plot.py:68-102`, with `plot_state_1d_k`, `state_vector/plot.py:105-145`. -/
noncomputable def plotStates1dK (same : Basis → Basis → Bool) (A : Matrix (Fin d) (Fin d) ℝ) (l : StateVectorList) (axis : Fin d)
    (idx : Option (List ℕ)) (measure : Measure) : Option (List DrawnLine) :=
  (stateVectorListIntoIter l).mapM fun s => plotLineK same A s.basis s.data axis idx measure

end Verif
