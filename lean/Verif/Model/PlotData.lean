import Verif.Model.Basis
import Verif.Model.Geometry
import Verif.Model.Slice
import Verif.Model.TightBinding
import Verif.Model.Util
import Verif.Model.Wannier
import Verif.Model.Wavepacket

/-!
What is drawn by the functions of `util/plot.py`: the numbers given to matplotlib, that is the coordinates and values of the
points and the limits of the colour scale. The figure itself is not modelled.

A slice is read at a list of positions, one for each of the chosen axes in the order given. Axes are given as `Fin d`: an axis
out of range raises an `IndexError`, negative axes are not modelled.
-/

set_option autoImplicit false

namespace Verif

open Matrix

variable {d : ℕ}

/-- `get_max_idx`, `stacked_basis/util.py:512-532`, for data with `n` entries: the entries of the stacked index of the largest
absolute value which are not listed in `axes`. `np.argmax` of empty data and an index out of the range of the basis raise. -/
noncomputable def getMaxIdx (shape : List ℕ) (n : ℕ) (data : ℕ → ℂ) (axes : List ℕ) : Option (List ℕ) :=
  if n = 0 then none
  else
    (getStackedIndex shape (argmaxReal (fun i => ‖data i‖) (n - 1))).map fun maxIdx =>
      (maxIdx.zipIdx.filter fun p => decide (p.2 ∉ axes)).map Prod.fst

/-- `get_x_coordinates_in_axes`, `stacked_basis/util.py:185-208`, for a basis of
position states (its shape is the fundamental shape): the projected coordinates at a position of the slice. -/
noncomputable def getXCoordinatesInAxes (A : Matrix (Fin d) (Fin d) ℝ) (shape : List ℕ) (axes : List (Fin d))
    (idx : Option (List ℕ)) : List ℕ → List ℝ :=
  getDataInAxes
    (fun full => projectPoint (axes.map fun a => A a)
      (xPointAtIndex A (fun i => shape.getD i 0) fun i => ((stackedNxPoints shape (ravel shape full)).getD i 0 : ℕ)))
    (axes.map Fin.val) (idx.getD (List.replicate (d - axes.length) 0))

/-- `get_k_coordinates_in_axes`, `stacked_basis/util.py:107-130`, for a basis whose shape is the fundamental shape. -/
noncomputable def getKCoordinatesInAxes (A : Matrix (Fin d) (Fin d) ℝ) (shape : List ℕ) (axes : List (Fin d))
    (idx : Option (List ℕ)) : List ℕ → List ℝ :=
  getDataInAxes
    (fun full => projectPoint (axes.map fun a => deltaKStacked A (fun i => shape.getD i 0) a)
      (kPointAtIndex A fun i => (stackedNkPoints shape (ravel shape full)).getD i 0))
    (axes.map Fin.val) (idx.getD (List.replicate (d - axes.length) 0))

/-- The values and coordinates of the points of a slice which are given to matplotlib. -/
structure DrawnSlice where
  shape : List ℕ
  coordinates : List ℕ → List ℝ
  values : List ℕ → ℂ

/-- The slice drawn by `plot_data_1d_x`, `util/plot.py:325-331`, and by `plot_data_2d_x`, `util/plot.py:512-518`
(the one dimensional function uses the only coordinate `coordinates[0]`). -/
noncomputable def plotDataX (same : Basis → Basis → Bool) (A : Matrix (Fin d) (Fin d) ℝ) (basis : Basis) (data : ℕ → ℂ)
    (axes : List (Fin d)) (idx : Option (List ℕ)) : Option DrawnSlice :=
  let shape := basis.fundamentalShape
  (Basis.convert same basis basis.asPositionBasis).bind fun f =>
    (match idx with
      | none => getMaxIdx shape shape.prod (f data) (axes.map Fin.val)
      | some i => some i).map fun i =>
    { shape := getDataInAxesShape shape (axes.map Fin.val) i
      coordinates := getXCoordinatesInAxes A shape axes (some i)
      values := getDataInAxes (fun full => f data (ravel shape full)) (axes.map Fin.val) i }

/-- The slice in momentum space shared by `plot_data_1d_k`, `util/plot.py:274-278`, and `plot_data_2d_k`, `util/plot.py:451-455`: coordinates
and data, both shifted by `np.fft.fftshift`. -/
noncomputable def momentumSlice (A : Matrix (Fin d) (Fin d) ℝ) (shape : List ℕ) (converted : ℕ → ℂ) (axes : List (Fin d))
    (i : List ℕ) : DrawnSlice :=
  let drawn := getDataInAxesShape shape (axes.map Fin.val) i
  { shape := drawn
    coordinates := fftshiftAxes drawn (getKCoordinatesInAxes A shape axes (some i))
    values := fftshiftAxes drawn (getDataInAxes (fun full => converted (ravel shape full)) (axes.map Fin.val) i) }

/-- The slice drawn by `plot_data_2d_k`, `util/plot.py:446-455`. -/
noncomputable def plotData2dK (same : Basis → Basis → Bool) (A : Matrix (Fin d) (Fin d) ℝ) (basis : Basis) (data : ℕ → ℂ)
    (axes : List (Fin d)) (idx : Option (List ℕ)) : Option DrawnSlice :=
  let shape := basis.fundamentalShape
  (Basis.convert same basis basis.asTransformedBasis).bind fun f =>
    (match idx with
      | none => getMaxIdx shape shape.prod (f data) (axes.map Fin.val)
      | some i => some i).map fun i => momentumSlice A shape (f data) axes i

/-- The slice drawn by `plot_data_1d_k`, `util/plot.py:269-278`. By default the index is taken from the data before
the conversion, which has one entry for each state of the basis, although it is split up with the shape of the basis of momentum states. -/
noncomputable def plotData1dK (same : Basis → Basis → Bool) (A : Matrix (Fin d) (Fin d) ℝ) (basis : Basis) (data : ℕ → ℂ)
    (axes : List (Fin d)) (idx : Option (List ℕ)) : Option DrawnSlice :=
  let shape := basis.fundamentalShape
  (Basis.convert same basis basis.asTransformedBasis).bind fun f =>
    (match idx with
      | none => getMaxIdx shape basis.n data (axes.map Fin.val)
      | some i => some i).map fun i => momentumSlice A shape (f data) axes i

/-- A line given to matplotlib: number of points, coordinates, values. -/
structure DrawnLine where
  n : ℕ
  coordinates : ℕ → ℝ
  values : ℕ → ℝ

/-- `plot_data_1d`, `util/plot.py:174-184`, for `n` points: with `periodic` the first value is repeated at the end, one
spacing after the last point. With fewer than two points `coordinates[1]` raises an `IndexError`. -/
noncomputable def plotData1d (n : ℕ) (data : ℕ → ℂ) (coordinates : ℕ → ℝ) (measure : Measure) (periodic : Bool) :
    Option DrawnLine :=
  let measured := getMeasuredData data measure
  if periodic then
    if n < 2 then none
    else
      some
        { n := n + 1
          coordinates := fun i => if i < n then coordinates i else coordinates (n - 1) + (coordinates 1 - coordinates 0)
          values := fun i => if i < n then measured i else measured 0 }
  else some ⟨n, coordinates, measured⟩

/-- The call of `plot_data_1d` for a slice along one axis, `util/plot.py:280-287,336-343`. -/
noncomputable def plotSlice1d (s : DrawnSlice) (measure : Measure) : Option DrawnLine :=
  plotData1d (s.shape.getD 0 0) (fun i => s.values [i]) (fun i => (s.coordinates [i]).getD 0 0) measure true

/-- `_get_default_lim`, `util/plot.py:70-75`, for the list of all the data. -/
noncomputable def getDefaultLim (measure : Measure) (data : List ℝ) : Option (ℝ × ℝ) :=
  match data with
  | [] => none
  | x :: xs =>
    match measure with
    | .abs => some (0, xs.foldl max x)
    | _ => some (xs.foldl min x, xs.foldl max x)

/-- `_get_lim`, `util/plot.py:78-86`. -/
noncomputable def getLim (lim : Option ℝ × Option ℝ) (measure : Measure) (data : List ℝ) : Option (ℝ × ℝ) :=
  (getDefaultLim measure data).map fun default => (lim.1.getD default.1, lim.2.getD default.2)

/-- The limits of the colours of an animation, `util/plot.py:579`: `get_clim` of a frame drawn by `pcolormesh` is the smallest
and the largest value (these are the limits matplotlib chooses). -/
noncomputable def animationLim (clim : Option ℝ × Option ℝ) (measure : Measure) (frames : List (ℝ × ℝ)) : Option (ℝ × ℝ) :=
  getLim clim measure (frames.flatMap fun f => [f.1, f.2])

/-- The number of frames and the limits of the colours of `animate_data_through_surface_x`, `util/plot.py:626-647`, for data of
the given shape animated along the last of the chosen axes, `axis`; `frames i` are the smallest and the largest value at position `i`
of this axis. `data.shape[2]` raises an `IndexError` unless the data has at least three axes, a position beyond the length of the axis
raises as well, and `measure` is not passed on to `build_animation`. -/
noncomputable def animateSurface (dataShape : List ℕ) (axis : ℕ) (clim : Option ℝ × Option ℝ) (measure : Measure)
    (frames : ℕ → ℝ × ℝ) : Option (ℕ × ℝ × ℝ) :=
  let clim : Option ℝ × Option ℝ := match clim.1, measure with
    | none, .abs => (some 0, clim.2)
    | _, _ => clim
  dataShape[2]?.bind fun n =>
    if dataShape.getD axis 0 < n then none
    else (animationLim clim .abs ((List.range n).map frames)).map fun lim => (n, lim)

end Verif
