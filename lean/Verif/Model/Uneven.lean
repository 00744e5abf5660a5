import Verif.Model.Potential
import Verif.Model.Interp

/-!
# Uneven potentials

Models `interpolate_uneven_potential` of `potential/potential.py` and the spline interpolation along an axis of `util/interpolation.py`.
The spline of `scipy.interpolate` is a parameter: `spline N x y t` is the value at `t` of the spline through the `N` points `(x i, y i)`.
-/

set_option autoImplicit false

namespace Verif

/-- `interpolate_points_along_axis_spline`, `util/interpolation.py:233-256`, along the first axis of an array with the shape `(N, b, a)`, entry
`[k, j, i]`. `points` is `np.empty` with the shape `(n, b, a)`, of content `empty`. `points.swapaxes(0, -1)` has the shape `(a, b, n)` and the
strides `(1, a, a * b)`; if `a` and `b` are larger than one the first two axes cannot be merged without moving the entries, so that `reshape(-1, n)`
is a copy: the values written to it are not seen in `points`. `none`: `splrep` needs at least four points. -/
noncomputable def interpolateSplineFirst (spline : ℕ → (ℕ → ℝ) → (ℕ → ℝ) → ℝ → ℝ) (empty : ℕ → ℕ → ℕ → ℝ) (N b a : ℕ) (coords : ℕ → ℝ) (data : ℕ → ℕ → ℕ → ℝ)
    (n : ℕ) : Option (ℕ → ℕ → ℕ → ℝ) :=
  if b * a ≠ 0 ∧ N ≤ 3 then none
  else if 1 < a ∧ 1 < b then some empty
  else some fun k j i => interpolateSpline spline N coords (fun l => data l j i) n k

/-- The data of `interpolate_uneven_potential`, `potential/potential.py:235-277`, for `n0 * n1 * N` points, the last axis at the positions `z`,
and the result on `s0 * s1 * s2` points. The last axis is contiguous, so that here `reshape` is a view. `none`: see
`interpolateSplineFirst`. -/
noncomputable def interpolateUneven (spline : ℕ → (ℕ → ℝ) → (ℕ → ℝ) → ℝ → ℝ) (n0 n1 N : ℕ) (z : ℕ → ℝ) (data : ℕ → ℝ) (s0 s1 s2 : ℕ) : Option (ℕ → ℝ) :=
  if N ≤ 3 then none
  else some fun q =>
    let xy : ℕ → ℝ := fun l => interpolateRfftn [(n0, some s0)] n1 s1 (fun i j => data ((i.getD 0 0 * n1 + j) * N + l)) [q / (s1 * s2)] (q / s2 % s1)
    interpolateSpline spline N z xy s2 (q % s2)

/-- The vector of the last axis of the basis of the result, `potential/potential.py:266-274`: the distance of the last and the first
position. -/
def unevenDeltaZ (N : ℕ) (z : ℕ → ℝ) : ℝ := z (N - 1) - z 0

end Verif
