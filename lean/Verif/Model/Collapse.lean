import Verif.Model.Dynamics
import Verif.Model.Generate

/-!
# Collapse operators of the stochastic Schrodinger equation built from hops

`dynamics/stochastic_schrodinger/solve.py`. An array with axes `(x0, x1, band, x0, x1, band)` is a function of the two sites
and the two bands. The entries of the rate matrix are taken as real (numbers with no imaginary part).
-/

set_option autoImplicit false

namespace Verif

/-- Indexing one entry of an array along several axes; negative indices count from the end, others out of range raise. -/
def pyIndices : List ℕ → List ℤ → Option (List ℕ)
  | [], [] => some []
  | n :: ns, s :: ss => (pyIndex n s).bind fun i => (pyIndices ns ss).map fun is => i :: is
  | _, _ => none

/-- An operator on the sites of a supercell and the bands: entry `[*i, m, *j, n]`. -/
abbrev SiteOperator := List ℕ → ℕ → List ℕ → ℕ → ℝ

/-- The body of the loop of `get_simplified_collapse_operators_from_a_matrix`,
`dynamics/stochastic_schrodinger/solve.py:138-173` (lines 161-171) for one pair of bands and hop: nothing if the rate is below one. -/
noncomputable def simplifiedCollapseStep (shape : List ℕ) (A : SiteOperator) (factor : ℝ) (t : ℕ × ℕ × ℕ) :
    Option (Option SiteOperator) :=
  (getHopShift t.2.2 2).bind fun s => (pyIndices shape s).bind fun target => (buildHopOperator t.2.2 shape).map fun op =>
    if factor * A [0, 0] t.1 target t.2.1 < 1 then none
    else some fun i m j n =>
      if m = t.2.1 ∧ n = t.1 then Real.sqrt (factor * A [0, 0] t.1 target t.2.1) * op i j else 0

/-- `get_simplified_collapse_operators_from_a_matrix`, `dynamics/stochastic_schrodinger/solve.py:138-173`. Loops over pairs of
different bands and the nine hops; `(n_x1, n_x2, n_bands) = util.shape` needs two axes of sites. -/
noncomputable def getSimplifiedCollapseOperators (shape : List ℕ) (nb : ℕ) (A : SiteOperator) (factor : ℝ) :
    Option (List SiteOperator) :=
  if shape.length = 2 then
    (((List.range nb).flatMap fun n0 => ((List.range nb).filter fun n1 => ¬ n0 = n1).flatMap fun n1 =>
      (List.range 9).map fun hop => (n0, n1, hop)).mapM (simplifiedCollapseStep shape A factor)).map fun l => l.filterMap id
  else none

/-- `get_collapse_operators_from_function`, `dynamics/stochastic_schrodinger/solve.py:176-240`: the array `data` has the shape of
the *supercell*, and is indexed with flat indices of the sites and bands. The arrays have that shape, `[i, j]` is their only nonzero
entry. `np.ravel_multi_index` with `mode="wrap"` is `Int.emod` on each axis. The bands basis has `nb` states. -/
noncomputable def getCollapseOperatorsFromFunction (n0 n1 nb : ℕ) (fn : ℕ → ℕ → ℤ × ℤ → ℝ) :
    Option (List (ℕ → ℕ → ℝ)) :=
  ((List.range (n0 * n1 * nb)).flatMap fun i => (List.range nb).flatMap fun m => (List.range 9).map fun d => (i, m, d)).mapM
    fun t =>
      let i0 : ℤ := (t.1 / nb / n1 : ℕ)
      let j0 : ℤ := (t.1 / nb % n1 : ℕ)
      let d0 : ℤ := (t.2.2 / 3 : ℕ) - 1
      let d1 : ℤ := (t.2.2 % 3 : ℕ) - 1
      let j := (((i0 + d0) % n0).toNat * n1 + ((j0 + d1) % n1).toNat) * nb + t.2.1
      if t.1 < n0 ∧ j < n1 then some fun a b => if a = t.1 ∧ b = j then fn (t.1 % nb) t.2.1 (d0, d1) else 0 else none

end Verif
