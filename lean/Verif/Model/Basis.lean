import Verif.Model.Pad
import Verif.Model.Fft

/-!
The basis classes of `surface_potential_analysis/basis` and the conversion of vectors between them.

A vector with `n` coefficients is a function `ℕ → ℂ` read at indices `< n` (exact complex numbers). Every conversion
method of the code takes an `axis` and acts on each one-dimensional fibre along that axis separately; the model
treats one fibre.  Classes which only add a length, times or Bloch fractions (`FundamentalPositionBasis`,
`EvenlySpacedTimeBasis`, `EvenlySpacedBlockFractionBasis`, …) inherit the conversion methods of the
classes below.
-/

namespace Verif

open Finset

/-- The methods of a basis object which take part in conversions (the protocol `BasisLike`,
`basis/basis_like.py:219-322`). -/
structure Methods where
  /-- the property `n` -/
  n : ℕ
  /-- the property `fundamental_n` -/
  fn : ℕ
  /-- `isinstance(self, AsTransformedBasis)` -/
  asTransformed : Bool
  /-- `__into_fundamental__` -/
  intoF : (ℕ → ℂ) → ℕ → ℂ
  /-- `__from_fundamental__` -/
  fromF : (ℕ → ℂ) → ℕ → ℂ
  /-- `__into_transformed__` -/
  intoT : (ℕ → ℂ) → ℕ → ℂ
  /-- `__from_transformed__` -/
  fromT : (ℕ → ℂ) → ℕ → ℂ

/-- A class deriving from `AsFundamentalBasis` and `BasisLike`: it defines `__as_fundamental__` and
`__from_fundamental__`; `__into_transformed__` is an fft of the former (`basis/basis_like.py:153-169`) and
`__from_transformed__` an ifft followed by the latter (`basis/basis_like.py:286-296`). -/
noncomputable def asFundamentalClass (n fn : ℕ) (asF fromF : (ℕ → ℂ) → ℕ → ℂ) : Methods where
  n := n
  fn := fn
  asTransformed := false
  intoF := asF
  fromF := fromF
  intoT := fun v => fft .ortho fn (asF v)
  fromT := fun w => fromF (ifft .ortho fn w)

/-- A class deriving from `AsTransformedBasis` and `BasisLike`: it defines `__as_transformed__` and
`__from_transformed__`; `__into_fundamental__` is an ifft of the former (`basis/basis_like.py:205-216`) and
`__from_fundamental__` an fft followed by the latter (`basis/basis_like.py:274-284`). -/
noncomputable def asTransformedClass (n fn : ℕ) (asT fromT : (ℕ → ℂ) → ℕ → ℂ) : Methods where
  n := n
  fn := fn
  asTransformed := true
  intoF := fun v => ifft .ortho fn (asT v)
  fromF := fun w => fromT (fft .ortho fn w)
  intoT := asT
  fromT := fromT

/-- `_pad_sample_axis`, `basis/evenly_spaced_basis.py:31-45`: `padded = zeros(step * n)`,
`padded[offset % step :: step] = np.roll(vectors, offset // step)`. -/
def padSampleAxis (n step : ℕ) (offset : ℤ) (v : ℕ → ℂ) : ℕ → ℂ := fun x =>
  if (offset % step).toNat ≤ x ∧ (x - (offset % step).toNat) % step = 0 then
    roll n (offset / step) v ((x - (offset % step).toNat) / step)
  else 0

/-- `_truncate_sample_axis`, `basis/evenly_spaced_basis.py:48-57`: `np.roll(vectors[offset % step :: step],
-(offset // step))`; the slice of an axis of length `n * step` has `n` entries. -/
def truncateSampleAxis (n step : ℕ) (offset : ℤ) (w : ℕ → ℂ) : ℕ → ℂ :=
  roll n (-(offset / step)) fun j => w ((offset % step).toNat + step * j)

/-- `BasisLike.__convert_vector_into__`, `basis/basis_like.py:298-322`. `same` is the outcome of the comparison
`self == basis` (object identity, no class defines `__eq__`). `none` is the failing assertion.
The vector has complex data here; the `view` of a real vector is modelled in `convertSameDtype`. -/
def convertGeneric (same : Bool) (a b : Methods) : Option ((ℕ → ℂ) → ℕ → ℂ) :=
  if b.fn = a.fn then
    if same then some fun v => v
    else if a.asTransformed && b.asTransformed then some fun v => b.fromT (a.intoT v)
    else some fun v => b.fromF (a.intoF v)
  else none

/-- A one-axis operation applied along axis `ax` of an n-dimensional array. -/
def applyAlong (ax : ℕ) (f : (ℕ → ℂ) → ℕ → ℂ) (arr : List ℕ → ℂ) : List ℕ → ℂ := fun idx =>
  f (fun t => arr (idx.set ax t)) (idx.getD ax 0)

/-- `_convert_tuple_basis_vector`, `basis/stacked_basis.py:175-210`, given the conversions of the
axes: reshape to the initial shape, convert along each axis in turn, reshape to one axis. -/
def convertTupleVector (initialShape finalShape : List ℕ) (fs : List ((ℕ → ℂ) → ℕ → ℂ)) (v : ℕ → ℂ) :
    ℕ → ℂ := fun k =>
  (fs.zipIdx.foldl (fun arr fax => applyAlong fax.2 fax.1 arr) (fun idx => v (ravel initialShape idx)))
    (unravel finalShape k)

/-- `FundamentalBasis`, `basis/basis.py:26-65`. -/
noncomputable def fundamentalMethods (n : ℕ) : Methods := asFundamentalClass n n (fun v => v) (fun v => v)

/-- `TruncatedBasis`, `basis/basis.py:90-134`. -/
noncomputable def truncatedMethods (n fn : ℕ) : Methods := asFundamentalClass n fn (pad1 n fn) (pad1 fn n)

/-- `TransformedBasis`, `basis/basis.py:153-197`. -/
noncomputable def transformedMethods (n fn : ℕ) : Methods := asTransformedClass n fn (pad1 n fn) (pad1 fn n)

/-- `FundamentalTransformedBasis`, `basis/basis.py:200-228`. -/
noncomputable def fundamentalTransformedMethods (n : ℕ) : Methods :=
  asTransformedClass n n (fun v => v) (fun v => v)

/-- `EvenlySpacedBasis`, `basis/evenly_spaced_basis.py:60-113`. -/
noncomputable def evenlySpacedMethods (n step : ℕ) (offset : ℤ) : Methods :=
  asFundamentalClass n (n * step) (padSampleAxis n step offset) (truncateSampleAxis n step offset)

/-- `EvenlySpacedTransformedBasis`, `basis/evenly_spaced_basis.py:116-169`. -/
noncomputable def evenlySpacedTransformedMethods (n step : ℕ) (offset : ℤ) : Methods :=
  asTransformedClass n (n * step) (padSampleAxis n step offset) (truncateSampleAxis n step offset)

/-- `ExplicitBasis.__from_state_basis__`, `basis/explicit_basis.py:100-125`: contraction of the conjugated states
with the vector; `raw j k` is coefficient `k` of state `j`, `m` the size of the basis of the states. -/
def fromStateBasis (m : ℕ) (raw : ℕ → ℕ → ℂ) (w : ℕ → ℂ) : ℕ → ℂ := fun j =>
  ∑ k ∈ range m, (starRingEnd ℂ) (raw j k) * w k

/-- `ExplicitBasis.__into_state_basis__`, `basis/explicit_basis.py:127-150`. -/
def intoStateBasis (n : ℕ) (raw : ℕ → ℕ → ℂ) (v : ℕ → ℂ) : ℕ → ℂ := fun k =>
  ∑ j ∈ range n, v j * raw j k

/-- `ExplicitBasis`, `basis/explicit_basis.py:40-204`. -/
def explicitMethods (n : ℕ) (raw : ℕ → ℕ → ℂ) (inner : Methods) : Methods where
  n := n
  fn := inner.fn
  asTransformed := false
  intoF := fun v => inner.intoF (intoStateBasis n raw v)
  fromF := fun w => fromStateBasis inner.n raw (inner.fromF w)
  intoT := fun v => inner.intoT (intoStateBasis n raw v)
  fromT := fun w => fromStateBasis inner.n raw (inner.fromT w)

/-- The conversion of every axis of a tuple basis to (or from) a fresh basis built from the fundamental size of
the axis, `basis/stacked_basis.py:222-283`. The conversions cannot fail since the fundamental sizes agree; the
total `getD` is only a way to write that. -/
def axesInto (axes : List Methods) (target : ℕ → Methods) : List ((ℕ → ℂ) → ℕ → ℂ) :=
  axes.map fun a => (convertGeneric false a (target a.fn)).getD fun v => v

/-- See `axesInto`. -/
def axesFrom (axes : List Methods) (source : ℕ → Methods) : List ((ℕ → ℂ) → ℕ → ℂ) :=
  axes.map fun a => (convertGeneric false (source a.fn) a).getD fun v => v

/-- `TupleBasis`, `basis/stacked_basis.py:213-283`; `n` and `fundamental_n` are products of the shapes
(`basis/stacked_basis.py:53-59`). -/
noncomputable def tupleMethods (axes : List Methods) : Methods where
  n := (axes.map Methods.n).prod
  fn := (axes.map Methods.fn).prod
  asTransformed := false
  intoF := convertTupleVector (axes.map Methods.n) (axes.map Methods.fn) (axesInto axes fundamentalMethods)
  fromF := convertTupleVector (axes.map Methods.fn) (axes.map Methods.n) (axesFrom axes fundamentalMethods)
  intoT := convertTupleVector (axes.map Methods.n) (axes.map Methods.fn)
    (axesInto axes fundamentalTransformedMethods)
  fromT := convertTupleVector (axes.map Methods.fn) (axes.map Methods.n)
    (axesFrom axes fundamentalTransformedMethods)

/-- The basis objects. `explicit n raw inner` has `n` states with coefficients `raw j k` in the basis `inner`. -/
inductive Basis
  | fundamental (n : ℕ)
  | truncated (n fn : ℕ)
  | transformed (n fn : ℕ)
  | fundamentalTransformed (n : ℕ)
  | evenlySpaced (n step : ℕ) (offset : ℤ)
  | evenlySpacedTransformed (n step : ℕ) (offset : ℤ)
  | tuple (axes : List Basis)
  | explicit (n : ℕ) (raw : ℕ → ℕ → ℂ) (inner : Basis)

mutual
/-- The methods of a basis object. -/
noncomputable def Basis.methods : Basis → Methods
  | .fundamental n => fundamentalMethods n
  | .truncated n fn => truncatedMethods n fn
  | .transformed n fn => transformedMethods n fn
  | .fundamentalTransformed n => fundamentalTransformedMethods n
  | .evenlySpaced n step offset => evenlySpacedMethods n step offset
  | .evenlySpacedTransformed n step offset => evenlySpacedTransformedMethods n step offset
  | .tuple axes => tupleMethods (Basis.methodsList axes)
  | .explicit n raw inner => explicitMethods n raw inner.methods

/-- The methods of each of a list of basis objects. -/
noncomputable def Basis.methodsList : List Basis → List Methods
  | [] => []
  | b :: bs => b.methods :: Basis.methodsList bs
end

mutual
/-- `initial_basis.__convert_vector_into__(vector, final_basis)` (`basis/basis_like.py:325-352`): a tuple basis
overrides the method when the target is a tuple basis too (`basis/stacked_basis.py:285-302`), everything
else uses `BasisLike.__convert_vector_into__`. `same` is the outcome of the identity test of two objects. -/
noncomputable def Basis.convert (same : Basis → Basis → Bool) : Basis → Basis → Option ((ℕ → ℂ) → ℕ → ℂ)
  | .tuple as, .tuple bs =>
    if (tupleMethods (Basis.methodsList bs)).fn = (tupleMethods (Basis.methodsList as)).fn then
      (Basis.convertList same as bs).map
        (convertTupleVector ((Basis.methodsList as).map Methods.n) ((Basis.methodsList bs).map Methods.n))
    else none
  | a, b => convertGeneric (same a b) a.methods b.methods

/-- The axis by axis conversions, `zip(initial_basis, final_basis, strict=True)`
(`basis/stacked_basis.py:203-204`): `none` if some conversion fails or the number of axes differs. -/
noncomputable def Basis.convertList (same : Basis → Basis → Bool) :
    List Basis → List Basis → Option (List ((ℕ → ℂ) → ℕ → ℂ))
  | [], [] => some []
  | a :: as, b :: bs =>
    (Basis.convert same a b).bind fun f => (Basis.convertList same as bs).map fun fs => f :: fs
  | _, _ => none
end

end Verif
