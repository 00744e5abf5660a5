import Verif.Model.Grid
import Mathlib.LinearAlgebra.Matrix.NonsingularInverse
import Mathlib.Analysis.SpecialFunctions.Trigonometric.Basic
import Mathlib.Analysis.SpecialFunctions.Complex.Arg
import Mathlib.LinearAlgebra.Matrix.DotProduct

/-!
Lattice geometry: reciprocal vectors, k and x points, wrapping of positions, projections, paths, Bragg planes,
Brillouin-zone decrement, periodic averages.

Vectors of `d` floats are `Fin d → ℝ`; `delta_x_stacked` is a matrix whose *rows* are the lattice vectors.
`np.linalg.inv` is the matrix inverse of Mathlib; numpy raises on singular input, so theorems assume an
invertible lattice.
-/

namespace Verif

open Matrix

variable {d : ℕ}

/-- `np.linalg.norm` of a real vector. -/
noncomputable def vnorm (v : Fin d → ℝ) : ℝ := Real.sqrt (v ⬝ᵥ v)

/-- `BasisUtil.dk_stacked = 2 * np.pi * np.linalg.inv(self.delta_x_stacked).T`, `basis/util.py:441-446`
(also `fundamental_dk_stacked`, lines 448-452). -/
noncomputable def dkStacked (A : Matrix (Fin d) (Fin d) ℝ) : Matrix (Fin d) (Fin d) ℝ :=
  (2 * Real.pi) • (A⁻¹)ᵀ

/-- `BasisUtil.dx_stacked`, `basis/util.py:416-420`: row `i` is `delta_x[i] / n_i` (`basis/util.py:148-150`). -/
noncomputable def dxStacked (A : Matrix (Fin d) (Fin d) ℝ) (shape : Fin d → ℕ) : Matrix (Fin d) (Fin d) ℝ :=
  Matrix.of fun i c => A i c / shape i

/-- `BasisUtil.delta_k_stacked`, `basis/util.py:429-433`. -/
noncomputable def deltaKStacked (A : Matrix (Fin d) (Fin d) ℝ) (shape : Fin d → ℕ) :
    Matrix (Fin d) (Fin d) ℝ :=
  Matrix.of fun i c => (shape i : ℝ) * dkStacked A i c

/-- `BasisUtil.volume = np.linalg.det(self.delta_x_stacked)`, `basis/util.py:322-324`. -/
def latticeVolume (A : Matrix (Fin d) (Fin d) ℝ) : ℝ := A.det

/-- `BasisUtil.reciprocal_volume = np.linalg.det(self.dk_stacked)`, `basis/util.py:326-328`. -/
noncomputable def reciprocalVolume (A : Matrix (Fin d) (Fin d) ℝ) : ℝ := (dkStacked A).det

/-- `np.tensordot(M, v, axes=(0, 0))`: contraction of the first axis of `M` with the vector. -/
def tensordot00 (M : Matrix (Fin d) (Fin d) ℝ) (v : Fin d → ℝ) : Fin d → ℝ :=
  fun c => ∑ i, M i c * v i

/-- `get_k_points_at_index` for a stacked index, `basis/util.py:343-351`. -/
noncomputable def kPointAtIndex (A : Matrix (Fin d) (Fin d) ℝ) (nk : Fin d → ℤ) : Fin d → ℝ :=
  tensordot00 (dkStacked A) (fun i => (nk i : ℝ))

/-- `get_x_points_at_index` for a stacked index, `basis/util.py:380-388`. -/
noncomputable def xPointAtIndex (A : Matrix (Fin d) (Fin d) ℝ) (shape : Fin d → ℕ) (nx : Fin d → ℤ) :
    Fin d → ℝ :=
  tensordot00 (dxStacked A shape) (fun i => (nx i : ℝ))

/-- `np.mod` on floats with a positive modulus. -/
noncomputable def fmod (x L : ℝ) : ℝ := x - L * ⌊x / L⌋

/-- `_wrap_distance(distance, length, origin)`, `stacked_basis/util.py:229-230`. -/
noncomputable def wrapDistance (x L o : ℝ) : ℝ := fmod (x - o + L / 2) L + o - L / 2

/-- `wrap_x_point_around_origin` for a single point, `stacked_basis/util.py:307-348`. -/
noncomputable def wrapXPoint (A : Matrix (Fin d) (Fin d) ℝ) (point origin : Fin d → ℝ) : Fin d → ℝ :=
  let distance := tensordot00 A⁻¹ point
  let originAlong := tensordot00 A⁻¹ origin
  tensordot00 A (fun i => wrapDistance (distance i) 1 (originAlong i))

/-- The conversion of a float to `np.int_` (`dtype=np.int_` at `stacked_basis/util.py:381`): truncation towards
zero. -/
noncomputable def truncInt (x : ℝ) : ℤ := if 0 ≤ x then ⌊x⌋ else ⌈x⌉

/-- `calculate_distances_along_path`, `stacked_basis/util.py:354-384`; the path (an array `ndim × points`) is
given as the list of its points. `path[:, :-1] - path[:, 1:]`, wrapped to the cell when asked. -/
noncomputable def distancesAlongPath (shape : Fin d → ℕ) (wrap : Bool) (path : List (Fin d → ℤ)) :
    List (Fin d → ℤ) :=
  (List.zipWith (fun p q => fun i => p i - q i) path path.tail).map fun out =>
    if wrap then fun i => truncInt (wrapDistance (out i) (shape i) 0) else out

/-- `np.insert(np.cumsum(l), 0, 0)`, `stacked_basis/util.py:417-419`, `util/util.py:162-164`. -/
noncomputable def cumsumInsertZero (l : List ℝ) : List ℝ := l.scanl (· + ·) 0

/-- `calculate_cumulative_x_distances_along_path`, `stacked_basis/util.py:387-419`. `fundamental_dx_stacked` has rows
`delta_x[i] / fundamental_n_i`. -/
noncomputable def cumulativeXDistances (A : Matrix (Fin d) (Fin d) ℝ) (shape fshape : Fin d → ℕ) (wrap : Bool)
    (path : List (Fin d → ℤ)) : List ℝ :=
  cumsumInsertZero ((distancesAlongPath shape wrap path).map fun dist =>
    vnorm (tensordot00 (dxStacked A fshape) (fun i => (dist i : ℝ))))

/-- `calculate_cumulative_k_distances_along_path`, `stacked_basis/util.py:422-454`. The tensordot has shape
`(points - 1, ndim)` and the norm is taken over axis 0, i.e. over the path rather than over the
components. -/
noncomputable def cumulativeKDistances (A : Matrix (Fin d) (Fin d) ℝ) (shape : Fin d → ℕ) (wrap : Bool)
    (path : List (Fin d → ℤ)) : List ℝ :=
  let rows := (distancesAlongPath shape wrap path).map fun dist =>
    tensordot00 (dkStacked A) (fun i => (dist i : ℝ))
  cumsumInsertZero (List.ofFn fun c : Fin d => Real.sqrt ((rows.map fun r => r c * r c).sum))

/-- `calculate_cumulative_distances_along_path`, `util/util.py:137-164`: the path indexes a grid of
coordinates (`coordinates[:, *path]`), here the function `coordinates`. -/
noncomputable def cumulativeDistancesOnGrid {ι : Type*} (coordinates : ι → Fin d → ℝ) (path : List ι) : List ℝ :=
  let pts := path.map coordinates
  cumsumInsertZero (List.zipWith (fun p q => vnorm (fun i => p i - q i)) pts pts.tail)

/-- The inner loop of the projection: `for j in range(i): projected -= projected_axes[j] *
np.dot(projected_axes[j], projected)`, `stacked_basis/util.py:78-79,156-157`. -/
noncomputable def subtractProjections (prev : List (Fin d → ℝ)) (v : Fin d → ℝ) : Fin d → ℝ :=
  prev.foldl (fun p e => fun c => p c - e c * (e ⬝ᵥ p)) v

/-- The loop building `projected_axes`, `stacked_basis/util.py:75-81,153-159`, for the listed vectors
(`delta_x_stacked[ax]` or `delta_k_stacked[ax]` for `ax` in `axes`). -/
noncomputable def projectedAxes (vs : List (Fin d → ℝ)) : List (Fin d → ℝ) :=
  vs.foldl (fun es v =>
    let p := subtractProjections es v
    es ++ [fun c => p c / vnorm p]) []

/-- `project_x_points_along_axes` / `project_k_points_along_axes` for one point,
`stacked_basis/util.py:83,161`: `np.tensordot(projected_axes, points, axes=(1, 0))`. -/
noncomputable def projectPoint (vs : List (Fin d → ℝ)) (point : Fin d → ℝ) : List ℝ :=
  (projectedAxes vs).map fun e => e ⬝ᵥ point

/-- `get_bragg_plane_distance`, `stacked_basis/brillouin_zone.py:178-201`. -/
noncomputable def braggPlaneDistance (G point : Fin d → ℝ) : ℝ :=
  (∑ c, G c / vnorm G * point c) - vnorm G / 2

/-- The integer labels of the bragg points of the first shell, in the order of
`fundamental_stacked_nk_points` of a basis of shape `(3, …, 3)`
(`stacked_basis/brillouin_zone.py:106-113,134` with `n_bands = 1`). -/
def braggLabels (d : ℕ) : List (Fin d → ℤ) :=
  (List.range ((List.replicate d 3).prod)).map fun k =>
    fun i => (stackedNkPoints (List.replicate d 3) k).getD i 0

/-- `get_all_brag_point(basis, n_bands=1)`, `stacked_basis/brillouin_zone.py:141-159`: k points of the basis with
`delta_x = dx_stacked` (lines 113). -/
noncomputable def braggPoints (A : Matrix (Fin d) (Fin d) ℝ) (shape : Fin d → ℕ) : List (Fin d → ℝ) :=
  (braggLabels d).map fun g => kPointAtIndex (dxStacked A shape) g

/-- `get_all_brag_point_index(basis, n_bands=1)`, `stacked_basis/brillouin_zone.py:116-138`. -/
def braggPointIndex (shape : Fin d → ℕ) : List (Fin d → ℤ) :=
  (braggLabels d).map fun g => fun i => (shape i : ℤ) * g i

/-- `_get_decrement_tolerance`, `stacked_basis/brillouin_zone.py:204-207`: `1e-5` times the smallest `|dk|`.
The theorems hold for any tolerance `≥ 0`, so it is a parameter of `decrementClosest`. -/
noncomputable def decrementTolerance (A : Matrix (Fin d) (Fin d) ℝ) : ℝ :=
  (⨅ i, vnorm (dkStacked A i)) * (1 / 100000)

/-- The search loop for the closest bragg plane, `stacked_basis/brillouin_zone.py:248-257,314-323`, for one
coordinate: state `(closest, distance)`, the index `i + 1` counts bragg points from 1. -/
noncomputable def decrementClosest (tol : ℝ) (point : Fin d → ℝ) (braggs : List (Fin d → ℝ)) : ℕ × ℝ :=
  (braggs.tail.zipIdx).foldl (fun (st : ℕ × ℝ) bi =>
    let nd := braggPlaneDistance bi.1 point
    if tol < nd ∧ nd < st.2 then (bi.2 + 1, nd) else st) (0, vnorm point)

/-- `fold_point_in_bragg_plane`, `stacked_basis/brillouin_zone.py:53-86`: three coordinates are used whatever the
dimension. In dimension `d ≠ 3` the function, or the assignment of its 3-row result at line 263/329, raises:
`none`. -/
def foldPointInBraggPlane (G coord : Fin d → ℤ) : Option (Fin d → ℤ) :=
  if d = 3 then some (fun i => coord i - G i) else none

/-- One pass of the folding loop, `stacked_basis/brillouin_zone.py:260-263,326-329`, for the bragg index number
`gi.2`: the coordinate is folded if `closest` is this number; the fold is evaluated (on an empty selection)
otherwise as well, so an error is raised whenever a fold raises. -/
def decrementFoldStep (closest : ℕ) (out : Option (Fin d → ℤ)) (gi : (Fin d → ℤ) × ℕ) :
    Option (Fin d → ℤ) :=
  out.bind fun o =>
    (foldPointInBraggPlane gi.1 o).map fun folded => if closest = gi.2 then folded else o

/-- The folding loop, `stacked_basis/brillouin_zone.py:259-263,325-329`. -/
def decrementFold (closest : ℕ) (idxs : List (Fin d → ℤ)) (coord : Fin d → ℤ) : Option (Fin d → ℤ) :=
  idxs.zipIdx.foldl (decrementFoldStep closest) (some coord)

/-- `decrement_brillouin_zone` / `decrement_brillouin_zone_3d` for one coordinate,
`stacked_basis/brillouin_zone.py:224-273,290-335`; `none` when python raises. -/
noncomputable def decrementBrillouinZone (tol : ℝ) (A : Matrix (Fin d) (Fin d) ℝ) (shape : Fin d → ℕ)
    (coord : Fin d → ℤ) : Option (Fin d → ℤ) :=
  let closest := (decrementClosest tol (kPointAtIndex A coord) (braggPoints A shape)).1
  decrementFold closest (braggPointIndex shape) coord

/-- `_get_average_angles` for a pair of angles, `basis/util.py:455-484`. `np.isclose(_, 0)` is idealised to
`= 0`; `np.nan` is `none`; `np.arctan2(y, x)` is the argument of `x + iy`. -/
noncomputable def averageAngles (a b : ℝ) : Option ℝ :=
  let avgX := (Real.cos a + Real.cos b) / 2
  let avgY := (Real.sin a + Real.sin b) / 2
  if avgX = 0 ∧ avgY = 0 then none else some (Complex.arg ⟨avgX, avgY⟩)

/-- One entry of one axis of `get_twice_average_nx`, `basis/util.py:487-530`, for the points `a`, `b` of an axis with
`n` points. `np.rint` is rounding to the nearest integer (only ever applied to an integer here). -/
noncomputable def twiceAverageNx (n a b : ℕ) : ℤ :=
  let ta := 2 * Real.pi * a / n
  let tb := 2 * Real.pi * b / n
  let avg := match averageAngles ta tb with
    | some t => t
    | none => (ta + tb) / 2
  round (avg * n / Real.pi) % (2 * n)

end Verif
