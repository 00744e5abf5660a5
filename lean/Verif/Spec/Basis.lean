import Verif.Model.Basis
import Verif.Spec.Grid

/-!
Specification of the bases: which states they consist of. Only the type `Basis` of the model is used here (and not
its conversion methods).
-/

namespace Verif.Spec

open Complex Finset

mutual
/-- Number of states of a basis. -/
def size : Basis → ℕ
  | .fundamental n => n
  | .truncated n _ => n
  | .transformed n _ => n
  | .fundamentalTransformed n => n
  | .evenlySpaced n _ _ => n
  | .evenlySpacedTransformed n _ _ => n
  | .tuple axes => sizes axes
  | .explicit n _ _ => n

/-- Product of the numbers of states. -/
def sizes : List Basis → ℕ
  | [] => 1
  | b :: bs => size b * sizes bs
end

mutual
/-- Number of grid points of the space in which the states of a basis live. -/
def points : Basis → ℕ
  | .fundamental n => n
  | .truncated _ fn => fn
  | .transformed _ fn => fn
  | .fundamentalTransformed n => n
  | .evenlySpaced n step _ => n * step
  | .evenlySpacedTransformed n step _ => n * step
  | .tuple axes => pointss axes
  | .explicit _ _ inner => points inner

/-- Product of the numbers of grid points. -/
def pointss : List Basis → ℕ
  | [] => 1
  | b :: bs => points b * pointss bs
end

/-- The normalised plane wave of wave number `k` on a periodic grid of `n` points. -/
noncomputable def planeWave (n : ℕ) (k : ℤ) (x : ℕ) : ℂ :=
  exp (2 * Real.pi * I * k * x / n) / (Real.sqrt n : ℂ)

mutual
/-- `state b j x`: value of state `j` of the basis at the grid point `x`.

* fundamental: the delta function at point `j`;
* truncated: the delta function at the point with the centred label of `j`;
* transformed: the plane wave whose wave number is the centred label of `j`;
* evenly spaced: delta function at, or plane wave of wave number, `offset + step * j`;
* tuple: products, the last axis running fastest;
* explicit: the given combinations of the states of another basis. -/
noncomputable def state : Basis → ℕ → ℕ → ℂ
  | .fundamental _, j, x => if x = j then 1 else 0
  | .truncated n fn, j, x => if x = slot fn (freq n j) then 1 else 0
  | .transformed n fn, j, x => planeWave fn (freq n j) x
  | .fundamentalTransformed n, j, x => planeWave n j x
  | .evenlySpaced n step offset, j, x =>
    if (x : ℤ) = (offset + step * j) % (n * step : ℕ) then 1 else 0
  | .evenlySpacedTransformed n step offset, j, x => planeWave (n * step) (offset + step * j) x
  | .tuple axes, j, x => states axes j x
  | .explicit _ raw inner, j, x => ∑ k ∈ range (size inner), raw j k * state inner k x

/-- Product states. -/
noncomputable def states : List Basis → ℕ → ℕ → ℂ
  | [], _, _ => 1
  | b :: bs, j, x => state b (j / sizes bs) (x / pointss bs) * states bs (j % sizes bs) (x % pointss bs)
end

mutual
/-- The conditions under which a basis object can be built: truncation does not add states (asserted by the
constructors), steps are positive. -/
def Valid : Basis → Prop
  | .fundamental _ => True
  | .truncated n fn => n ≤ fn
  | .transformed n fn => n ≤ fn
  | .fundamentalTransformed _ => True
  | .evenlySpaced _ step _ => 0 < step
  | .evenlySpacedTransformed _ step _ => 0 < step
  | .tuple axes => Valids axes
  | .explicit _ _ inner => Valid inner

/-- All of a list of bases are valid. -/
def Valids : List Basis → Prop
  | [] => True
  | b :: bs => Valid b ∧ Valids bs
end

mutual
/-- Every explicit part of the basis is given by orthonormal coefficient vectors. -/
def OrthonormalParts : Basis → Prop
  | .tuple axes => OrthonormalPartss axes
  | .explicit n raw inner => OrthonormalParts inner ∧ ∀ j < n, ∀ j' < n,
      ∑ k ∈ range (size inner), (starRingEnd ℂ) (raw j k) * raw j' k = if j = j' then 1 else 0
  | _ => True

/-- Every explicit part of all the bases is given by orthonormal coefficient vectors. -/
def OrthonormalPartss : List Basis → Prop
  | [] => True
  | b :: bs => OrthonormalParts b ∧ OrthonormalPartss bs
end

/-- Products of plane waves of the axes of a stacked basis. -/
noncomputable def planes : List Basis → ℕ → ℕ → ℂ
  | [], _, _ => 1
  | b :: bs, k, x =>
    planeWave (points b) (k / pointss bs : ℕ) (x / pointss bs) * planes bs (k % pointss bs) (x % pointss bs)

/-- The transformed representation: `plane b k x` is the plane wave with label `k` at the point `x`; for a stacked
basis the product of the plane waves of its axes. -/
noncomputable def plane : Basis → ℕ → ℕ → ℂ
  | .tuple axes, k, x => planes axes k x
  | .explicit _ _ inner, k, x => plane inner k x
  | b, k, x => planeWave (points b) k x

mutual
/-- Two bases can be converted into each other: same number of grid points; for two stacked bases the same
number of axes and axis by axis the same. -/
def Compatible : Basis → Basis → Prop
  | .tuple as, .tuple bs => Compatibles as bs
  | a, b => points a = points b

/-- Axis by axis compatibility. -/
def Compatibles : List Basis → List Basis → Prop
  | [], [] => True
  | a :: as, b :: bs => Compatible a b ∧ Compatibles as bs
  | _, _ => False
end

end Verif.Spec

namespace Verif.Spec

open Finset

/-- Inner product of two vectors with `n` entries. -/
noncomputable def dot (n : ℕ) (v w : ℕ → ℂ) : ℂ := ∑ i ∈ range n, (starRingEnd ℂ) (v i) * w i

/-- The function on the grid with the given coefficients in a basis. -/
noncomputable def expand (b : Basis) (v : ℕ → ℂ) (x : ℕ) : ℂ := ∑ j ∈ range (size b), v j * state b j x

/-- The state `j` as a coefficient vector. -/
def unit (j : ℕ) : ℕ → ℂ := fun i => if i = j then 1 else 0

/-- Every state of `a` is a combination of states of `b`. -/
def SpanLe (a b : Basis) : Prop := ∀ i < size a, ∃ c : ℕ → ℂ, ∀ x < points a, state a i x = expand b c x

/-- An outcome of the identity test of python objects: only equal objects are identical. -/
def Sound (same : Basis → Basis → Bool) : Prop := ∀ a b, same a b = true → a = b

end Verif.Spec
