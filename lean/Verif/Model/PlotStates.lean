import Verif.Model.PlotLists
import Verif.Model.State

/-!
Differences of states and states along paths, `state_vector/plot.py`. Only the numbers given to matplotlib are modelled.
-/

set_option autoImplicit false

namespace Verif

open Matrix

variable {d : ℕ}

/-- The relative difference in `plot_state_difference_2d_k`, `state_vector/plot.py:419-460`. Where both values are zero numpy gives `nan`: zero here. -/
noncomputable def relativeDifference (a b : ℂ) : ℂ := (a - b) / (max ‖a‖ ‖b‖ : ℝ)

/-- The data drawn by the `plot_state_difference` functions: both states converted to a basis. -/
noncomputable def stateDifference (same : Basis → Basis → Bool) (s0 s1 : StateVector) (basis : Basis) : Option (ℕ → ℂ) :=
  (convertStateVector same s0 basis).bind fun c0 =>
    (convertStateVector same s1 basis).map fun c1 => fun x => relativeDifference (c0.data x) (c1.data x)

/-- `plot_state_difference_2d_x`, `state_vector/plot.py:548-589`. -/
noncomputable def plotStateDifference2dX (same : Basis → Basis → Bool) (A : Matrix (Fin d) (Fin d) ℝ) (s0 s1 : StateVector)
    (axes : List (Fin d)) (idx : Option (List ℕ)) : Option DrawnSlice :=
  let basis := s0.basis.asPositionBasis
  (stateDifference same s0 s1 basis).bind fun data => plotDataX same A basis data axes idx

/-- `plot_state_difference_2d_k`, `state_vector/plot.py:419-460`. -/
noncomputable def plotStateDifference2dK (same : Basis → Basis → Bool) (A : Matrix (Fin d) (Fin d) ℝ) (s0 s1 : StateVector)
    (axes : List (Fin d)) (idx : Option (List ℕ)) : Option DrawnSlice :=
  let basis := s0.basis.asTransformedBasis
  (stateDifference same s0 s1 basis).bind fun data => plotData2dK same A basis data axes idx

/-- `plot_state_difference_1d_k`, `state_vector/plot.py:504-545`. -/
noncomputable def plotStateDifference1dK (same : Basis → Basis → Bool) (A : Matrix (Fin d) (Fin d) ℝ) (s0 s1 : StateVector)
    (axes : List (Fin d)) (idx : Option (List ℕ)) : Option DrawnSlice :=
  let basis := s0.basis.asTransformedBasis
  (stateDifference same s0 s1 basis).bind fun data => plotData1dK same A basis data axes idx

/-- An index of numpy along an axis of length `n`: negative ones count from the end, others out of range raise an `IndexError`. -/
def numpyIndex (n : ℕ) (i : ℤ) : Option ℕ :=
  if 0 ≤ i ∧ i < n then some i.toNat else if -(n : ℤ) ≤ i ∧ i < 0 then some (i + n).toNat else none

/-- `plot_state_along_path`, `state_vector/plot.py:637-681`, distances not wrapped, for a path with an entry for each axis: the distances along the path and the values at
its points. `measure` is not `angle` (the values of a whole path are unwrapped then). -/
noncomputable def plotStateAlongPath (same : Basis → Basis → Bool) (A : Matrix (Fin d) (Fin d) ℝ) (s : StateVector)
    (path : List (List ℤ)) (measure : Measure) : Option (List ℝ × List ℝ) :=
  let shape := s.basis.fundamentalShape
  (convertStateVector same s s.basis.asPositionBasis).bind fun c =>
    (path.mapM fun p => ((shape.zip p).mapM fun q => numpyIndex q.1 q.2).map fun full =>
      getMeasuredData (fun _ => c.data (ravel shape full)) measure 0).map fun values =>
        (cumulativeXDistances A (fun i => shape.getD i 0) (fun i => shape.getD i 0) false (path.map fun p => fun i => p.getD i 0), values)

end Verif
