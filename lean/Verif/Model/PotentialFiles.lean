import Verif.Model.PotentialPlots

/-!
Potentials read from JSON files: `potential/potential.py` and `potential/point_potential.py`. A file is modelled by the parsed numbers. The `.npy` files (pickled objects,
`load_potential` and `load_uneven_potential`) are not modelled.
-/

set_option autoImplicit false

namespace Verif

/-- An array: its shape and entries. -/
structure NumberArray where
  shape : List ℕ
  entry : List ℕ → ℝ

/-- `np.array(points)` of nested lists with three levels, `potential/potential.py:105,174`: rows of different lengths raise, as does `points.shape[2]` if there are no
rows or columns. -/
def arrayOfLists (points : List (List (List ℝ))) : Option NumberArray :=
  points.head?.bind fun row => row.head?.bind fun column =>
    if ∀ r ∈ points, r.length = row.length ∧ ∀ c ∈ r, c.length = column.length then
      some ⟨[points.length, row.length, column.length], fun i => ((points.getD (i.getD 0 0) []).getD (i.getD 1 0) []).getD (i.getD 2 0) 0⟩
    else none

/-- `data.reshape(-1)`: one axis, the last index runs fastest. -/
def NumberArray.ravelled (a : NumberArray) : NumberArray := ⟨[a.shape.prod], fun i => a.entry (unravel a.shape (i.getD 0 0))⟩

/-- A potential on a stack of axes, each with its vector and number of points, `potential/potential.py:55-59`. -/
structure FilePotential where
  axes : List (List ℝ × ℕ)
  data : NumberArray

/-- `load_potential_grid_json`, `potential/potential.py:78-115`. -/
def loadPotentialGrid (delta0 delta1 delta2 : List ℝ) (points : List (List (List ℝ))) : Option FilePotential :=
  (arrayOfLists points).map fun a => ⟨[(delta0, a.shape.getD 0 0), (delta1, a.shape.getD 1 0), (delta2, a.shape.getD 2 0)], a⟩

/-- `UnevenPotential3d`, `potential/potential.py:128-136`, with the third axis `UnevenPotential3dZBasis`, `potential/potential.py:118-125`, which has as many states as
there are heights. -/
structure UnevenFilePotential where
  delta0 : List ℝ
  n0 : ℕ
  delta1 : List ℝ
  n1 : ℕ
  heights : List ℝ
  data : NumberArray

/-- `load_uneven_potential_json`, `potential/potential.py:154-186`. -/
def loadUnevenPotential (delta0 delta1 heights : List ℝ) (points : List (List (List ℝ))) : Option UnevenFilePotential :=
  (arrayOfLists points).map fun a => ⟨delta0, a.shape.getD 0 0, delta1, a.shape.getD 1 0, heights, a⟩

/-- `mock_even_potential`, `potential/potential.py:280-314`. -/
def mockEvenPotential (p : UnevenFilePotential) : FilePotential :=
  ⟨[(p.delta0 ++ [0], p.n0), (p.delta1 ++ [0], p.n1), ([0, 0, 1], p.heights.length)], p.data.ravelled⟩

/-- `plot_point_potential_location_xy`, `potential/plot_point_potential.py:44-70`: the coordinates given to `plot`; without points there is no line, which raises. -/
noncomputable def plotPointLocations (n : ℕ) (x y : ℕ → ℝ) : Option (List ℝ × List ℝ) :=
  let p := pointPotentialXy n x y
  if p = [] then none else some (p.map Prod.fst, p.map Prod.snd)

end Verif
