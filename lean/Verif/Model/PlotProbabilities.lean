import Verif.Model.Overlap
import Verif.Model.PlotStateLists
import Verif.Model.PlotStates

/-!
What is drawn for probabilities, states and overlaps: `probability_vector/plot.py`, `state_vector/plot.py`, `overlap/plot.py`. Only the numbers
given to matplotlib are modelled.
-/

set_option autoImplicit false

namespace Verif

open Matrix

variable {d : ℕ}

/-- `plot_probability_1d_x`, `probability_vector/plot.py:153-193`. -/
noncomputable def plotProbability1dX (same : Basis → Basis → Bool) (A : Matrix (Fin d) (Fin d) ℝ) (basis : Basis) (p : ℕ → ℝ) (axis : Fin d)
    (idx : Option (List ℕ)) (measure : Measure) : Option DrawnLine :=
  plotLineX same A basis (fun i => (p i : ℂ)) axis idx measure

/-- `plot_probability_1d_k`, `probability_vector/plot.py:110-150`. -/
noncomputable def plotProbability1dK (same : Basis → Basis → Bool) (A : Matrix (Fin d) (Fin d) ℝ) (basis : Basis) (p : ℕ → ℝ) (axis : Fin d)
    (idx : Option (List ℕ)) (measure : Measure) : Option DrawnLine :=
  plotLineK same A basis (fun i => (p i : ℂ)) axis idx measure

/-- `plot_probability_2d_x`, `probability_vector/plot.py:239-279`: the slice (the measure is applied to its values). -/
noncomputable def plotProbability2dX (same : Basis → Basis → Bool) (A : Matrix (Fin d) (Fin d) ℝ) (basis : Basis) (p : ℕ → ℝ)
    (axes : List (Fin d)) (idx : Option (List ℕ)) : Option DrawnSlice :=
  plotDataX same A basis (fun i => (p i : ℂ)) axes idx

/-- `plot_probability_2d_k`, `probability_vector/plot.py:196-236`: the slice. -/
noncomputable def plotProbability2dK (same : Basis → Basis → Bool) (A : Matrix (Fin d) (Fin d) ℝ) (basis : Basis) (p : ℕ → ℝ)
    (axes : List (Fin d)) (idx : Option (List ℕ)) : Option DrawnSlice :=
  plotData2dK same A basis (fun i => (p i : ℂ)) axes idx

/-- `plot_state_2d_x`, `state_vector/plot.py:463-501`: the slice. -/
noncomputable def plotState2dX (same : Basis → Basis → Bool) (A : Matrix (Fin d) (Fin d) ℝ) (s : StateVector) (axes : List (Fin d))
    (idx : Option (List ℕ)) : Option DrawnSlice :=
  plotDataX same A s.basis s.data axes idx

/-- `plot_state_2d_k`, `state_vector/plot.py:378-416`: the slice. -/
noncomputable def plotState2dK (same : Basis → Basis → Bool) (A : Matrix (Fin d) (Fin d) ℝ) (s : StateVector) (axes : List (Fin d))
    (idx : Option (List ℕ)) : Option DrawnSlice :=
  plotData2dK same A s.basis s.data axes idx

/-- `plot_overlap_2d_x`, `overlap/plot.py:62-100`: the slice. The basis is the first of the two bases of the overlap. -/
noncomputable def plotOverlap2dX (same : Basis → Basis → Bool) (A : Matrix (Fin d) (Fin d) ℝ) (o : Overlap) (axes : List (Fin d))
    (idx : Option (List ℕ)) : Option DrawnSlice :=
  plotDataX same A o.basis o.data axes idx

/-- `plot_overlap_2d_k`, `overlap/plot.py:103-141`: the slice. -/
noncomputable def plotOverlap2dK (same : Basis → Basis → Bool) (A : Matrix (Fin d) (Fin d) ℝ) (o : Overlap) (axes : List (Fin d))
    (idx : Option (List ℕ)) : Option DrawnSlice :=
  plotData2dK same A o.basis o.data axes idx

/-- `plot_overlap_along_path_k`, `overlap/plot.py:144-183`: distances and values for a path with three entries for each point. The converted data has two
axes (the points, the pairs of states): more entries than axes raise an `IndexError` (fewer would give rows of the data and are not modelled).
`measure` is not `angle` (the values of a whole path are unwrapped then). -/
noncomputable def plotOverlapAlongPathK (same : Basis → Basis → Bool) (A : Matrix (Fin 3) (Fin 3) ℝ) (o : Overlap) (path : List (List ℤ))
    (wrap : Bool) (measure : Measure) : Option (List ℝ × List ℝ) :=
  (convertOverlapToMomentum same o).bind fun c =>
    let shape := [c.basis.n, c.list0.n * c.list1.n]
    (path.mapM fun p => if p.length = shape.length then ((shape.zip p).mapM fun q => numpyIndex q.1 q.2).map fun full =>
      getMeasuredData (fun _ => c.data (ravel shape full)) measure 0 else none).map fun values =>
        (cumulativeKDistances A (fun i => c.basis.shape.getD i 0) wrap (path.map fun p => fun i => p.getD i 0), values)

/-- `plot_overlap_along_k_diagonal`, `overlap/plot.py:186-215`: the length of the path is the number of all the points of the overlap,
`overlap["basis"].fundamental_shape[0]`. -/
noncomputable def plotOverlapAlongKDiagonal (same : Basis → Basis → Bool) (A : Matrix (Fin 3) (Fin 3) ℝ) (o : Overlap) (k2 : ℤ) (measure : Measure) :
    Option (List ℝ × List ℝ) :=
  plotOverlapAlongPathK same A o ((List.range o.basis.methods.fn).map fun i => [(i : ℤ), (i : ℤ), k2]) false measure

/-- `plot_overlap_along_k0`, `overlap/plot.py:218-250`. -/
noncomputable def plotOverlapAlongK0 (same : Basis → Basis → Bool) (A : Matrix (Fin 3) (Fin 3) ℝ) (o : Overlap) (k1 k2 : ℤ) (measure : Measure) :
    Option (List ℝ × List ℝ) :=
  plotOverlapAlongPathK same A o ((List.range o.basis.methods.fn).map fun i => [(i : ℤ), k1, k2]) false measure

end Verif
