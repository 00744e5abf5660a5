import Verif.Model.Operator
import Verif.Model.PlotStateLists

/-!
What is drawn for operators along their diagonal (`operator/plot.py`). As in `Model/PlotData` only the numbers given to matplotlib
are modelled.
-/

set_option autoImplicit false

namespace Verif

open Matrix

variable {d : ℕ}

/-- `plot_data_1d_n`, `util/plot.py:193-234`: the data is converted to the fundamental basis (as a vector); a point for each index along the
axis. -/
noncomputable def plotLineN (same : Basis → Basis → Bool) (basis : Basis) (data : ℕ → ℂ) (axis : ℕ) (idx : Option (List ℕ)) (measure : Measure)
    (periodic : Bool) : Option DrawnLine :=
  let shape := basis.fundamentalShape
  (Basis.convert same basis basis.asPositionBasis).bind fun f =>
    (match idx with
      | none => getMaxIdx shape shape.prod (f data) [axis]
      | some i => some i).bind fun i =>
    plotData1d (shape.getD axis 0) (fun j => getDataInAxes (fun full => f data (ravel shape full)) [axis] i [j]) (fun j => j) measure periodic

/-- `plot_diagonal_operator_along_diagonal`, `operator/plot.py:228-256`. -/
noncomputable def plotDiagonalAlongDiagonal (same : Basis → Basis → Bool) (D : DiagonalOperator) (measure : Measure) : Option DrawnLine :=
  plotLineN same (.tuple [D.b0]) D.data 0 none measure false

/-- `plot_operator_along_diagonal`, `operator/plot.py:293-319`. -/
noncomputable def plotOperatorAlongDiagonal (same : Basis → Basis → Bool) (O : Operator) (measure : Measure) : Option DrawnLine :=
  plotDiagonalAlongDiagonal same (asDiagonalOperator O) measure

/-- `animate_diagonal_operator_list_along_diagonal`, `operator/plot.py:259-290` (with `animate_data_through_list_1d_n`, `util/plot.py:655-708`), for
data with as many entries as the list has operators times the size of the basis. -/
noncomputable def animateDiagonalList (same : Basis → Basis → Bool) (L : DiagonalOperatorList) (measure : Measure) (periodic : Bool) :
    Option (List DrawnLine) :=
  animateList L.listBasis.n L.b0.n L.data fun row => plotLineN same (.tuple [L.b0]) row 0 none measure periodic

/-- The diagonal of an operator converted to the position basis of its first basis, `operator/plot.py:347-349,421-423`. -/
noncomputable def positionDiagonal (same : Basis → Basis → Bool) (O : Operator) : Option DiagonalOperator :=
  (convertOperator same O O.b0.asPositionBasis O.b0.asPositionBasis).map asDiagonalOperator

/-- `plot_operator_along_diagonal_1d_x`, `operator/plot.py:322-358`. -/
noncomputable def plotOperator1dX (same : Basis → Basis → Bool) (A : Matrix (Fin d) (Fin d) ℝ) (O : Operator) (axis : Fin d)
    (idx : Option (List ℕ)) (measure : Measure) : Option DrawnLine :=
  (positionDiagonal same O).bind fun D => plotLineX same A D.b0 D.data axis idx measure

/-- `plot_operator_along_diagonal_2d_x`, `operator/plot.py:396-432`. -/
noncomputable def plotOperator2dX (same : Basis → Basis → Bool) (A : Matrix (Fin d) (Fin d) ℝ) (O : Operator) (axes : List (Fin d))
    (idx : Option (List ℕ)) : Option DrawnSlice :=
  (positionDiagonal same O).bind fun D => plotDataX same A D.b0 D.data axes idx

/-- `plot_diagonal_operator_along_diagonal_1d_x`, `operator/plot.py:361-393`. -/
noncomputable def plotDiagonal1dX (same : Basis → Basis → Bool) (A : Matrix (Fin d) (Fin d) ℝ) (D : DiagonalOperator) (axis : Fin d)
    (idx : Option (List ℕ)) (measure : Measure) : Option DrawnLine :=
  plotOperator1dX same A (asOperator D) axis idx measure

/-- `plot_diagonal_operator_along_diagonal_2d_x`, `operator/plot.py:435-467`. -/
noncomputable def plotDiagonal2dX (same : Basis → Basis → Bool) (A : Matrix (Fin d) (Fin d) ℝ) (D : DiagonalOperator) (axes : List (Fin d))
    (idx : Option (List ℕ)) : Option DrawnSlice :=
  plotOperator2dX same A (asOperator D) axes idx

end Verif
