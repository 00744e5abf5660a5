import Verif.Model.Geometry
import Verif.Model.Slice
import Verif.Model.Grid

/-!
The points drawn by `stacked_basis/plot.py`, for bases with three axes: the rows of `A` are the lattice vectors, `shape` and `fundamental` the shape and the
fundamental shape. A drawn point is the list of its two coordinates.
-/

set_option autoImplicit false

namespace Verif

variable {d : ℕ}

/-- `plot_k_points_projected_2d`, `stacked_basis/plot.py:36-71`, with `project_k_points_along_axes`, `stacked_basis/util.py:55-83`: the points drawn. -/
noncomputable def plotKPoints (A : Matrix (Fin d) (Fin d) ℝ) (shape : Fin d → ℕ) (axes : Fin d × Fin d) (points : List (Fin d → ℝ)) : List (List ℝ) :=
  points.map (projectPoint [deltaKStacked A shape axes.1, deltaKStacked A shape axes.2])

/-- `plot_x_points_projected_2d`, `stacked_basis/plot.py:159-194`, with `project_x_points_along_axes`, `stacked_basis/util.py:133-161`. -/
noncomputable def plotXPoints (A : Matrix (Fin d) (Fin d) ℝ) (axes : Fin d × Fin d) (points : List (Fin d → ℝ)) : List (List ℝ) :=
  points.map (projectPoint [A axes.1, A axes.2])

/-- `plot_bragg_points_projected_2d`, `stacked_basis/plot.py:104-125`. -/
noncomputable def plotBraggPoints (A : Matrix (Fin d) (Fin d) ℝ) (shape : Fin d → ℕ) (axes : Fin d × Fin d) : List (List ℝ) :=
  plotKPoints A shape axes (braggPoints A shape)

/-- The coordinates of `plot_brillouin_zone_points_projected_2d`, `stacked_basis/plot.py:94-98`: the labels of the basis with a single point along the third axis,
decremented twice. `none` raises. -/
noncomputable def zoneCoordinates (A : Matrix (Fin 3) (Fin 3) ℝ) (shape : Fin 3 → ℕ) : Option (List (Fin 3 → ℤ)) :=
  (List.range [shape 0, shape 1, 1].prod).mapM fun k =>
    (decrementBrillouinZone (decrementTolerance A) A shape fun i => (stackedNkPoints [shape 0, shape 1, 1] k).getD i 0).bind fun c =>
      decrementBrillouinZone (decrementTolerance A) A shape c

/-- `plot_brillouin_zone_points_projected_2d`, `stacked_basis/plot.py:74-101`. -/
noncomputable def plotZonePoints (A : Matrix (Fin 3) (Fin 3) ℝ) (shape : Fin 3 → ℕ) (axes : Fin 3 × Fin 3) : Option (List (List ℝ)) :=
  (zoneCoordinates A shape).map fun coordinates => plotKPoints A shape axes (coordinates.map (kPointAtIndex A))

/-- The columns of `array[slice].reshape(rows, -1)`: a slice with fewer entries than axes keeps the last axes, too many entries, an index out of range, and a
number of entries which is no multiple of the number of rows raise (`none`). As used at `stacked_basis/plot.py:152-154,221-227`. -/
def slicedColumns (rows : ℕ) (shape : List ℕ) (array : List ℕ → ℝ) (slice : List (Option ℕ)) : Option (List (Fin rows → ℝ)) :=
  let full := slice ++ List.replicate (shape.length - slice.length) none
  let drawn := sliceShape full shape
  if shape.length < slice.length ∨ (∃ p ∈ full.zip shape, ∃ i, p.1 = some i ∧ p.2 ≤ i) ∨ drawn.prod % rows ≠ 0 then none
  else some ((List.range (drawn.prod / rows)).map fun p c => array (fillSlice full (unravel drawn (c * (drawn.prod / rows) + p))))

/-- `plot_fundamental_k_in_plane_projected_2d`, `stacked_basis/plot.py:128-156`: the array has the components first, the slice is made without them. -/
noncomputable def plotKInPlane (A : Matrix (Fin 3) (Fin 3) ℝ) (shape fundamental : Fin 3 → ℕ) (axes : Fin 3 × Fin 3) (idx : List ℕ) : Option (List (List ℝ)) :=
  (slicedColumns 3 [3, fundamental 0, fundamental 1, fundamental 2]
    (fun i => if h : i.getD 0 0 < 3 then kPointAtIndex A (fun c => nkPoints (fundamental c) (i.getD (c + 1) 0)) ⟨i.getD 0 0, h⟩ else 0)
    (sliceIgnoringAxes idx [axes.1.val, axes.2.val])).map fun points => plotKPoints A shape axes points

/-- `plot_fundamental_x_in_plane_projected_2d`, `stacked_basis/plot.py:197-229`. -/
noncomputable def plotXInPlane (A : Matrix (Fin 3) (Fin 3) ℝ) (fundamental : Fin 3 → ℕ) (axes : Fin 3 × Fin 3) (idx : List ℕ) : Option (List (List ℝ)) :=
  (slicedColumns 3 [3, fundamental 0, fundamental 1, fundamental 2]
    (fun i => if h : i.getD 0 0 < 3 then xPointAtIndex A fundamental (fun c => (i.getD (c + 1) 0 : ℕ)) ⟨i.getD 0 0, h⟩ else 0)
    (sliceIgnoringAxes idx [0, 1 + axes.1.val, 1 + axes.2.val])).map fun points => plotXPoints A axes points

/-- `plot_fundamental_x_at_index_projected_2d`, `stacked_basis/plot.py:232-263`, for a stacked index in range: the entry of `fundamental_stacked_nx_points` is the
index itself. -/
noncomputable def plotXAtIndex (A : Matrix (Fin 3) (Fin 3) ℝ) (fundamental : Fin 3 → ℕ) (axes : Fin 3 × Fin 3) (idx : Fin 3 → ℕ) : Option (List (List ℝ)) :=
  if ∀ c, idx c < fundamental c then some (plotXPoints A axes [fun c => (idx c : ℝ)]) else none

end Verif
