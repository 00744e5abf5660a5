import Verif.Model.Geometry
import Mathlib.Analysis.SpecialFunctions.Complex.Arg

/-!
`util/decorators.py:timed`, `util/squared_scale.py` and `get_measured_data`.
-/

set_option autoImplicit false

namespace Verif

open Finset

/-- The parts of the outside world which a timed function and the decorator use: the clock, and the lines printed (name and duration). -/
structure World where
  clock : ℝ
  printed : List (String × ℝ)

/-- A function with effects: it returns or raises, and changes the world. -/
def Effect (α ε ρ : Type) := α → World → Except ε ρ × World

/-- `try: body finally: final` where `final` may raise: its exception replaces the outcome. -/
def tryFinally {ε ρ : Type} (body : World → Except ε ρ × World) (final : World → Except ε Unit × World) (w : World) : Except ε ρ × World :=
  let r := body w
  match final r.2 with
  | (.ok _, w') => (r.1, w')
  | (.error e, w') => (.error e, w')

/-- `timed`, `util/decorators.py:19-44`. Printing does not raise. -/
noncomputable def timed {α ε ρ : Type} (name : String) (f : Effect α ε ρ) : Effect α ε ρ := fun a w =>
  let ts := w.clock
  tryFinally (f a) (fun w => let te := w.clock; (.ok (), ⟨w.clock, w.printed ++ [(name, te - ts)]⟩)) w

/-- `_SquaredTransform.transform_non_affine`, `util/squared_scale.py:60-61`. -/
noncomputable def squaredTransform (x : ℂ) : ℝ := x.re ^ 2

/-- `_InvertedSquaredTransform.transform_non_affine`, `util/squared_scale.py:79-80`. -/
noncomputable def invertedSquaredTransform (x : ℝ) : ℝ := Real.sqrt |x|

/-- `SquaredLocator.tick_values`, `util/squared_scale.py:21-32`: tick `i` of eight. -/
noncomputable def squaredTick (vmin vmax : ℝ) (i : ℕ) : ℝ := Real.sqrt (vmin ^ 2 + i * ((vmax ^ 2 - vmin ^ 2) / 7))

/-- The correction of step `j` in `np.unwrap` with the default options. Library function called in
`util/util.py:195`. -/
noncomputable def unwrapCorrection (p : ℕ → ℝ) (j : ℕ) : ℝ :=
  let dd := p (j + 1) - p j
  let low := -(2 * Real.pi / 2)
  let ddmod := fmod (dd - low) (2 * Real.pi) + low
  let ddmod := if ddmod = low ∧ 0 < dd then 2 * Real.pi / 2 else ddmod
  if |dd| < 2 * Real.pi / 2 then 0 else ddmod - dd

/-- `np.unwrap` along one axis: `p + cumsum(ph_correct)`. -/
noncomputable def unwrapAngles (p : ℕ → ℝ) (i : ℕ) : ℝ := p i + ∑ j ∈ range i, unwrapCorrection p j

/-- `Measure`, `util/util.py:167`. -/
inductive Measure
  | real
  | imag
  | abs
  | angle

/-- `get_measured_data`, `util/util.py:170-195`, along the last axis of the data. -/
noncomputable def getMeasuredData (data : ℕ → ℂ) (measure : Measure) : ℕ → ℝ :=
  match measure with
  | .real => fun i => (data i).re
  | .imag => fun i => (data i).im
  | .abs => fun i => ‖data i‖
  | .angle => unwrapAngles fun i => (data i).arg

end Verif
