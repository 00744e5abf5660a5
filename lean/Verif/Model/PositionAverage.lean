import Verif.Model.Wannier
import Verif.Model.Operator
import Verif.Model.Geometry
import Verif.Model.Util

/-!
Positions, momenta and widths of states: `state_vector/plot.py:684-695` and `854-1307`.

`A` holds the vectors `delta_x_stacked` of the basis of the states.
-/

set_option autoImplicit false

namespace Verif

open Finset

variable {d : ℕ}

/-- The shape as a function on the axes. -/
def shapeFn (d : ℕ) (ns : List ℕ) : Fin d → ℕ := fun i => ns.getD i 0

/-- `dk` and `phi`, `state_vector/plot.py:944-950`. -/
noncomputable def periodicPhase (ns : List ℕ) (direction : List ℤ) (j : ℕ) : ℝ :=
  (2 * Real.pi) * (List.zipWith (fun (x : ℕ) (k : ℝ) => (x : ℝ) * k) (stackedNxPoints ns j)
    (List.zipWith (fun (n : ℤ) (f : ℕ) => (n : ℝ) / f) direction ns)).sum

/-- `get_periodic_x_operator`, `state_vector/plot.py:926-954`; `none` is the error of `einsum` for a direction with too few entries. -/
noncomputable def getPeriodicXOperator (same : Basis → Basis → Bool) (b : Basis) (direction : Option (List ℤ)) : Option Operator :=
  let ns := b.fundamentalShape
  let dir := direction.getD (ns.map fun _ => 1)
  if min dir.length ns.length = ns.length then
    convertDiagonalOperator same ⟨b.asPositionBasis, b.asPositionBasis, fun j => Complex.exp (Complex.I * (periodicPhase ns dir j : ℝ))⟩ b b
  else none

/-- `_get_periodic_x`, `state_vector/plot.py:957-976`. -/
noncomputable def getPeriodicX (same : Basis → Basis → Bool) (l : StateVectorList) (direction : Option (List ℤ)) : Option (ℕ → ℂ) :=
  (getPeriodicXOperator same l.basis direction).bind fun A => calculateExpectationList same A l

/-- The direction along one axis, `state_vector/plot.py:989`, `1006` and `1150`. -/
def axisDirection (ndim axis : ℕ) : List ℤ := (List.range ndim).map fun i => if i = axis then 1 else 0

/-- The product of an array of shape `(n,)` and an array of shape `(v.length,)`: the length and the entries. -/
def mulBroadcast (n : ℕ) (x : ℕ → ℝ) (v : List ℝ) : Option (ℕ × (ℕ → ℝ)) :=
  if v.length = 1 then some (n, fun i => x i * v.getD 0 0)
  else if n = v.length then some (n, fun i => x i * v.getD i 0)
  else if n = 1 then some (v.length, fun i => x 0 * v.getD i 0)
  else none

/-- `_get_average_x_periodic`, `state_vector/plot.py:982-996`: the shape and the entries of the data. -/
noncomputable def getAverageXPeriodic (same : Basis → Basis → Bool) (A : Matrix (Fin d) (Fin d) ℝ) (l : StateVectorList) (axis : Fin d) :
    Option (ℕ × (ℕ → ℝ)) :=
  (getPeriodicX same l (some (axisDirection d axis))).bind fun periodicX =>
    (mulBroadcast l.listBasis.n (fun i => fmod (periodicX i).arg (2 * Real.pi)) (List.ofFn (A axis))).map fun r =>
      (r.1, fun i => r.2 i / (2 * Real.pi))

/-- `_get_restored_x`, `state_vector/plot.py:999-1017`, for a list of `trajectories` times `nt` states; the flat data. -/
noncomputable def getRestoredX (same : Basis → Basis → Bool) (A : Matrix (Fin d) (Fin d) ℝ) (nt : ℕ) (l : StateVectorList) (axis : Fin d) :
    Option (ℕ → ℝ) :=
  (getPeriodicX same l (some (axisDirection d axis))).bind fun periodicX =>
    let rows := fun r : ℕ => mulBroadcast nt (unwrapAngles fun i => (periodicX (r * nt + i)).arg) (List.ofFn (A axis))
    (rows 0).map fun r0 => fun k => match rows (k / r0.1) with
      | some r => r.2 (k % r0.1) / (2 * Real.pi)
      | none => 0

/-- The data of the diagonal operators in `state_vector/plot.py:1068` and `1283`: the product of a vector of the lattice and the labels of
the `n` points; `none` is the error of the multiplication, or of the reshape of the result. -/
def labelData (n : ℕ) (labels : ℕ → ℤ) (v : List ℝ) : Option (ℕ → ℂ) :=
  (mulBroadcast n (fun j => (labels j : ℝ)) v).bind fun r => if r.1 = n then some fun j => ((r.2 j : ℝ) : ℂ) else none

/-- `_get_x_operator`, `state_vector/plot.py:1053-1073`. -/
noncomputable def getXOperator (same : Basis → Basis → Bool) (A : Matrix (Fin d) (Fin d) ℝ) (b : Basis) (axis : Fin d) : Option Operator :=
  let ns := b.fundamentalShape
  (labelData ns.prod (fun j => ((stackedNxPoints ns j).getD axis 0 : ℕ)) (List.ofFn (dxStacked A (shapeFn d ns) axis))).bind fun data =>
    convertDiagonalOperator same ⟨b.asPositionBasis, b.asPositionBasis, data⟩ b b

/-- `_get_average_x`, `state_vector/plot.py:1076-1092`. -/
noncomputable def getAverageX (same : Basis → Basis → Bool) (A : Matrix (Fin d) (Fin d) ℝ) (l : StateVectorList) (axis : Fin d) : Option (ℕ → ℂ) :=
  (getXOperator same A l.basis axis).bind fun X => calculateExpectationList same X l

/-- `_get_k_operator`, `state_vector/plot.py:1268-1288`. -/
noncomputable def getKOperator (same : Basis → Basis → Bool) (A : Matrix (Fin d) (Fin d) ℝ) (b : Basis) (axis : Fin d) : Option Operator :=
  let ns := b.fundamentalShape
  (labelData ns.prod (fun j => (stackedNkPoints ns j).getD axis 0) (List.ofFn (dkStacked A axis))).bind fun data =>
    convertDiagonalOperator same ⟨b.asTransformedBasis, b.asTransformedBasis, data⟩ b b

/-- `_get_average_k`, `state_vector/plot.py:1291-1307`. -/
noncomputable def getAverageK (same : Basis → Basis → Bool) (A : Matrix (Fin d) (Fin d) ℝ) (l : StateVectorList) (axis : Fin d) : Option (ℕ → ℂ) :=
  (getKOperator same A l.basis axis).bind fun K => calculateExpectationList same K l

/-- `data /= np.linalg.norm(data, axis=1)`, `state_vector/plot.py:1152-1155`: the argument after the call. -/
noncomputable def normalizeStates (l : StateVectorList) : StateVectorList :=
  { l with data := flatten l.basis.n fun i j => block l.basis.n l.data i j / (Real.sqrt (∑ k ∈ range l.basis.n, ‖block l.basis.n l.data i k‖ ^ 2) : ℂ) }

/-- `_get_x_spread`, `state_vector/plot.py:1125-1163`: the result and the argument after the call, which is normalised in place. (The
logarithm of zero is not modelled.) -/
noncomputable def getXSpread (same : Basis → Basis → Bool) (A : Matrix (Fin d) (Fin d) ℝ) (l : StateVectorList) (axis : Fin d) :
    Option ((ℕ → ℝ) × StateVectorList) :=
  let states := normalizeStates l
  (getPeriodicX same states (some (axisDirection d axis))).map fun periodicX =>
    let q := 2 * Real.pi / vnorm (A axis)
    (fun i => Real.sqrt (-(4 / q ^ 2) * Real.log ‖periodicX i‖), states)

/-- `get_coherent_coordinates`, `state_vector/plot.py:1166-1193`: the three rows of the data and the argument after the call. -/
noncomputable def getCoherentCoordinates (same : Basis → Basis → Bool) (A : Matrix (Fin d) (Fin d) ℝ) (l : StateVectorList) (axis : Fin d) :
    Option ((ℕ → ℝ) × (ℕ → ℂ) × (ℕ → ℝ) × StateVectorList) :=
  (getXSpread same A l axis).bind fun sigma =>
    (getAverageXPeriodic same A sigma.2 axis).bind fun x0 =>
      (getAverageK same A sigma.2 axis).map fun k0 => (x0.2, k0, sigma.1, sigma.2)

end Verif
