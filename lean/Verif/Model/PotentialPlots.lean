import Verif.Model.PlotData
import Verif.Model.StateConversion
import Mathlib.Data.Finset.Sort
import Mathlib.Data.Real.Basic

/-!
What is drawn by the plot functions for potentials (`potential/_comparison_points.py`, `potential/plot.py`,
`potential/plot_uneven_potential.py`, `potential/plot_point_potential.py`).
-/

set_option autoImplicit false

namespace Verif

variable {d : ℕ}

/-- `get_111_comparison_points_x2`, `potential/_comparison_points.py:4-13`: the entries of the dictionary in order. -/
def comparisonPoints111 (nx0 nx1 : ℕ) (offset : ℤ × ℤ) : List (String × ℤ × ℤ) :=
  [("Top Site", ((2 * nx0) / 3 : ℕ) + offset.1, ((2 * nx1) / 3 : ℕ) + offset.2),
    ("Bridge Site", (nx0 / 6 : ℕ) + offset.1, (nx1 / 6 : ℕ) + offset.2),
    ("FCC Site", offset.1, offset.2),
    ("HCP Site", (nx0 / 3 : ℕ) + offset.1, (nx1 / 3 : ℕ) + offset.2)]

/-- `get_100_comparison_points_x2`, `potential/_comparison_points.py:16-24`. -/
def comparisonPoints100 (nx0 nx1 : ℕ) (offset : ℤ × ℤ) : List (String × ℤ × ℤ) :=
  [("Hollow Site", offset.1, offset.2),
    ("Bridge Site", (nx0 / 2 : ℕ) + offset.1, 0 + offset.2),
    ("Top Site", (nx0 / 2 : ℕ) + offset.1, (nx1 / 2 : ℕ) + offset.2)]

/-- An index of an axis with `n` points of a numpy array: negative indices count from the end, others out of range raise. -/
def arrayIndex (n : ℕ) (i : ℤ) : Option ℕ := if -(n : ℤ) ≤ i ∧ i < n then some (i % n).toNat else none

/-- `plot_potential_1d_x`, `potential/plot.py:58-93`. -/
noncomputable def plotPotential1dX (same : Basis → Basis → Bool) (A : Matrix (Fin d) (Fin d) ℝ) (b : Basis) (V : ℕ → ℂ) (axis : Fin d)
    (idx : Option (List ℕ)) : Option DrawnLine :=
  (plotDataX same A b V [axis] idx).bind fun s => plotSlice1d s .real

/-- `plot_potential_1d_comparison`, `potential/plot.py:96-127`, along the last axis of three: the lines with their labels. -/
noncomputable def plotPotential1dComparison (same : Basis → Basis → Bool) (A : Matrix (Fin 3) (Fin 3) ℝ) (b : Basis) (V : ℕ → ℂ)
    (points : List (String × ℤ × ℤ)) : Option (List (String × DrawnLine)) :=
  points.mapM fun p => (arrayIndex (b.fundamentalShape.getD 0 0) p.2.1).bind fun i =>
    (arrayIndex (b.fundamentalShape.getD 1 0) p.2.2).bind fun j =>
      (plotPotential1dX same A b V 2 (some [i, j])).map fun line => (p.1, line)

/-- `plot_potential_1d_x2_comparison_111`, `potential/plot.py:130-168`, for a potential given at points (the shape of the basis is the shape
of the grid). -/
noncomputable def plotComparison111 (same : Basis → Basis → Bool) (A : Matrix (Fin 3) (Fin 3) ℝ) (b : Basis) (V : ℕ → ℂ) (offset : ℤ × ℤ) :
    Option (List (String × DrawnLine)) :=
  plotPotential1dComparison same A b V (comparisonPoints111 (b.fundamentalShape.getD 0 0) (b.fundamentalShape.getD 1 0) offset)

/-- `plot_potential_1d_x2_comparison_100`, `potential/plot.py:171-209`, for a potential given at points. -/
noncomputable def plotComparison100 (same : Basis → Basis → Bool) (A : Matrix (Fin 3) (Fin 3) ℝ) (b : Basis) (V : ℕ → ℂ) (offset : ℤ × ℤ) :
    Option (List (String × DrawnLine)) :=
  plotPotential1dComparison same A b V (comparisonPoints100 (b.fundamentalShape.getD 0 0) (b.fundamentalShape.getD 1 0) offset)

/-- `plot_potential_2d_x`, `potential/plot.py:212-249`: the slice drawn. -/
noncomputable def plotPotential2dX (same : Basis → Basis → Bool) (A : Matrix (Fin d) (Fin d) ℝ) (axesBasis : List Basis) (V : ℕ → ℂ)
    (axes : List (Fin d)) (idx : Option (List ℕ)) : Option DrawnSlice :=
  (potentialToPosition same axesBasis V).bind fun W => plotDataX same A (.tuple (positionAxes axesBasis)) W axes idx

/-- `plot_potential_difference_2d_x`, `potential/plot.py:252-286`. -/
noncomputable def plotPotentialDifference2dX (same : Basis → Basis → Bool) (A : Matrix (Fin d) (Fin d) ℝ) (b0 b1 : List Basis) (V0 V1 : ℕ → ℂ)
    (axes : List (Fin d)) (idx : Option (List ℕ)) : Option DrawnSlice :=
  (convertPotential same b1 b0 V1).bind fun W => plotPotential2dX same A b0 (fun k => V0 k - W k) axes idx

/-- `animate_potential_3d_x`, `potential/plot.py:289-332`: the values drawn at a position of the frames (the last entry is the number of the
frame). The array which is animated is the data of the potential before the conversion; to have the shape of the converted data it needs as many
entries. The default index of `animate_data_through_surface_x` is zero for the other axes. -/
noncomputable def animatePotential3dX (b : Basis) (V : ℕ → ℂ) (axes : List ℕ) (idx : Option (List ℕ)) : Option (List ℕ → ℂ) :=
  if b.n = b.fundamentalShape.prod then
    some (getDataInAxes (fun full => V (ravel b.shape full)) axes (idx.getD (List.replicate (b.shape.length - 3) 0)))
  else none

/-- `animate_potential_difference_3d_x`, `potential/plot.py:335-370`. -/
noncomputable def animatePotentialDifference3dX (same : Basis → Basis → Bool) (b0 b1 : Basis) (V0 V1 : ℕ → ℂ) (axes : List ℕ)
    (idx : Option (List ℕ)) : Option (List ℕ → ℂ) :=
  (Basis.convert same b1 b0).bind fun f => animatePotential3dX b0 (fun k => (‖(V0 k - f V1 k) / V0 k‖ : ℝ)) axes idx

/-- `plot_uneven_potential_z`, `potential/plot_uneven_potential.py:26-60`: heights and energies of the points of the line. -/
def plotUnevenPotentialZ (n0 n1 n2 : ℕ) (zPoints : ℕ → ℝ) (V : ℕ → ℝ) (idx : ℤ × ℤ) : Option (List (ℝ × ℝ)) :=
  (arrayIndex n0 idx.1).bind fun i => (arrayIndex n1 idx.2).map fun j =>
    (List.range n2).map fun k => (zPoints k, V (ravel [n0, n1, n2] [i, j, k]))

/-- `plot_uneven_potential_z_comparison`, `potential/plot_uneven_potential.py:63-94`. -/
def plotUnevenComparison (n0 n1 n2 : ℕ) (zPoints : ℕ → ℝ) (V : ℕ → ℝ) (points : List (String × ℤ × ℤ)) :
    Option (List (String × List (ℝ × ℝ))) :=
  points.mapM fun p => (plotUnevenPotentialZ n0 n1 n2 zPoints V p.2).map fun line => (p.1, line)

/-- `plot_uneven_potential_z_comparison_111`, `potential/plot_uneven_potential.py:97-123`. -/
def plotUnevenComparison111 (n0 n1 n2 : ℕ) (zPoints : ℕ → ℝ) (V : ℕ → ℝ) (offset : ℤ × ℤ) : Option (List (String × List (ℝ × ℝ))) :=
  plotUnevenComparison n0 n1 n2 zPoints V (comparisonPoints111 n0 n1 offset)

/-- `plot_uneven_potential_z_comparison_100`, `potential/plot_uneven_potential.py:126-152`. -/
def plotUnevenComparison100 (n0 n1 n2 : ℕ) (zPoints : ℕ → ℝ) (V : ℕ → ℝ) (offset : ℤ × ℤ) : Option (List (String × List (ℝ × ℝ))) :=
  plotUnevenComparison n0 n1 n2 zPoints V (comparisonPoints100 n0 n1 offset)

/-! ## Point potentials -/

/-- `np.unique`: the different values in ascending order. -/
noncomputable def npUnique (l : List ℝ) : List ℝ := l.toFinset.sort (· ≤ ·)

/-- `get_point_potential_xy_locations`, `potential/plot_point_potential.py:19-41`, for `n` points: the columns of the array. -/
noncomputable def pointPotentialXy (n : ℕ) (x y : ℕ → ℝ) : List (ℝ × ℝ) :=
  open Classical in
  (npUnique ((List.range n).map x)).flatMap fun a =>
    (npUnique (((List.range n).filter fun i => x i = a).map y)).map fun b => (a, b)

/-- `plot_point_potential_all_z`, `potential/plot_point_potential.py:73-107`: for each line the location and the heights and energies of its points. -/
noncomputable def pointPotentialAllZ (n : ℕ) (x y z energy : ℕ → ℝ) : List ((ℝ × ℝ) × List (ℝ × ℝ)) :=
  open Classical in
  (pointPotentialXy n x y).map fun p => (p, ((List.range n).filter fun i => x i = p.1 ∧ y i = p.2).map fun i => (z i, energy i))

end Verif
