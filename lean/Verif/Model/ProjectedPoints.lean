import Verif.Model.PlotData

/-!
The points of a basis projected along axes, and the coordinates of a slice for bases with fewer states than points.
-/

set_option autoImplicit false

namespace Verif

variable {d : ℕ}

/-- `get_fundamental_stacked_x_points_projected_along_axes`, `stacked_basis/util.py:164-182`: column `k`, for a basis with the fundamental shape
`fundamental`. -/
noncomputable def projectedXPoints (A : Matrix (Fin d) (Fin d) ℝ) (fundamental : List ℕ) (axes : List (Fin d)) (k : ℕ) : List ℝ :=
  projectPoint (axes.map fun a => A a)
    (xPointAtIndex A (fun i => fundamental.getD i 0) fun i => ((stackedNxPoints fundamental k).getD i 0 : ℕ))

/-- `get_fundamental_stacked_k_points_projected_along_axes`, `stacked_basis/util.py:86-104`: column `k`. The vectors projected on are
`delta_k_stacked`, which has the shape of the basis, the points are those of the fundamental shape. -/
noncomputable def projectedKPoints (A : Matrix (Fin d) (Fin d) ℝ) (shape fundamental : List ℕ) (axes : List (Fin d)) (k : ℕ) : List ℝ :=
  projectPoint (axes.map fun a => deltaKStacked A (fun i => shape.getD i 0) a)
    (kPointAtIndex A fun i => (stackedNkPoints fundamental k).getD i 0)

/-- `points.reshape(-1, *basis.shape)`, `stacked_basis/util.py:128,206`, of an array with `rows` rows and `total` columns (column `k` is
`points k`): the number of rows of the result, and its entries; it raises if the entries do not fill a whole number of rows. -/
def reshapeRows (rows total : ℕ) (shape : List ℕ) (points : ℕ → List ℝ) : Option (ℕ × (ℕ → List ℕ → ℝ)) :=
  if shape.prod = 0 ∨ rows * total % shape.prod ≠ 0 then none
  else some (rows * total / shape.prod, fun r full =>
    let j := r * shape.prod + ravel shape full
    (points (j % total)).getD (j / total) 0)

/-- `get_x_coordinates_in_axes`, `stacked_basis/util.py:185-208`, for any basis: the number of rows and the entries of the rows. Indices outside of
the shape are not modelled. -/
noncomputable def xCoordinatesInAxes (A : Matrix (Fin d) (Fin d) ℝ) (shape fundamental : List ℕ) (axes : List (Fin d)) (idx : Option (List ℕ)) :
    Option (ℕ × (ℕ → List ℕ → ℝ)) :=
  (reshapeRows axes.length fundamental.prod shape (projectedXPoints A fundamental axes)).map fun p =>
    (p.1, fun r => getDataInAxes (p.2 r) (axes.map Fin.val) (idx.getD (List.replicate (d - axes.length) 0)))

/-- `get_k_coordinates_in_axes`, `stacked_basis/util.py:107-130`, for any basis: the number of rows and the entries of the rows. Indices outside of
the shape are not modelled. -/
noncomputable def kCoordinatesInAxes (A : Matrix (Fin d) (Fin d) ℝ) (shape fundamental : List ℕ) (axes : List (Fin d)) (idx : Option (List ℕ)) :
    Option (ℕ × (ℕ → List ℕ → ℝ)) :=
  (reshapeRows axes.length fundamental.prod shape (projectedKPoints A shape fundamental axes)).map fun p =>
    (p.1, fun r => getDataInAxes (p.2 r) (axes.map Fin.val) (idx.getD (List.replicate (d - axes.length) 0)))

end Verif
