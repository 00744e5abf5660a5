import Verif.Model.Geometry
import Verif.Model.Wannier

/-!
Builders of bases with lengths: from shapes, from other bases, with another number of points; the index mirrored
about `x0 = x1`; Bloch fractions of a basis.

A basis with a length is the vector `delta_x` of its axis with the basis. A stacked basis with volume is the list of its
axes. Entries past the end are zero vectors.
-/

set_option autoImplicit false

namespace Verif

open Matrix

/-- `BasisWithLengthLike`, `basis/basis_like.py:418-430`: the vector of the axis and the basis along it. -/
structure LengthAxis (d : ℕ) where
  delta : Fin d → ℝ
  basis : Basis

/-- `delta_x_stacked` of a tuple of axes, `basis/stacked_basis.py:167-172`. -/
def latticeOf {d : ℕ} (axes : List (LengthAxis d)) : Matrix (Fin d) (Fin d) ℝ :=
  Matrix.of fun i c => ((axes.map LengthAxis.delta).getD i 0) c

/-- `shape` of a tuple of axes, `basis/stacked_basis.py:111-113`. -/
noncomputable def shapeOf {d : ℕ} (axes : List (LengthAxis d)) : Fin d → ℕ :=
  fun i => (axes.map fun a => a.basis.n).getD i 0

/-- `fundamental_shape` of a tuple of axes, `basis/stacked_basis.py:115-119`. -/
noncomputable def fundamentalShapeOf {d : ℕ} (axes : List (LengthAxis d)) : Fin d → ℕ :=
  fun i => (axes.map fun a => a.basis.methods.fn).getD i 0

/-- `basis_as_fundamental_position_basis`, `basis/conversion.py:28-42`. -/
noncomputable def basisAsFundamentalPosition {d : ℕ} (a : LengthAxis d) : LengthAxis d :=
  ⟨a.delta, .fundamental a.basis.methods.fn⟩

/-- `basis_as_fundamental_momentum_basis`, `basis/conversion.py:45-59`. -/
noncomputable def basisAsFundamentalMomentum {d : ℕ} (a : LengthAxis d) : LengthAxis d :=
  ⟨a.delta, .fundamentalTransformed a.basis.methods.fn⟩

/-- `basis_as_fundamental_transformed_basis`, `basis/conversion.py:62-76`. -/
noncomputable def basisAsFundamentalTransformed (b : Basis) : Basis := .fundamentalTransformed b.methods.fn

/-- `basis_as_fundamental_basis`, `basis/conversion.py:79-93`. -/
noncomputable def basisAsFundamental (b : Basis) : Basis := .fundamental b.methods.fn

/-- `basis_as_n_point_basis`, `basis/conversion.py:96-111`. -/
def basisAsNPoint {d : ℕ} (delta : Fin d → ℝ) (n : ℕ) : LengthAxis d := ⟨delta, .fundamental n⟩

/-- `basis_as_single_point_basis`, `basis/conversion.py:114-128`. -/
def basisAsSinglePoint {d : ℕ} (a : LengthAxis d) : LengthAxis d := basisAsNPoint a.delta 1

/-- `get_single_point_basis`, `stacked_basis/util.py:491-509`. -/
def getSinglePointBasis {d : ℕ} (axes : List (LengthAxis d)) : List (LengthAxis d) :=
  axes.map fun a => ⟨a.delta, .fundamental 1⟩

/-- `stacked_basis_as_fundamental_position_basis`, `stacked_basis/conversion.py:168-192`: pairs of the vectors and the
fundamental shape. -/
noncomputable def stackedAsFundamentalPosition {d : ℕ} (axes : List (LengthAxis d)) : List (LengthAxis d) :=
  ((axes.map LengthAxis.delta).zip (axes.map fun a => a.basis.methods.fn)).map fun p => ⟨p.1, .fundamental p.2⟩

/-- `stacked_basis_as_fundamental_momentum_basis`, `stacked_basis/conversion.py:104-130`. -/
noncomputable def stackedAsFundamentalMomentum {d : ℕ} (axes : List (LengthAxis d)) : List (LengthAxis d) :=
  ((axes.map LengthAxis.delta).zip (axes.map fun a => a.basis.methods.fn)).map fun p =>
    ⟨p.1, .fundamentalTransformed p.2⟩

/-- `stacked_basis_as_fundamental_with_shape`, `stacked_basis/conversion.py:195-216`: `zip` with `strict=True` raises if the
numbers differ. -/
def stackedAsFundamentalWithShape {d : ℕ} (axes : List (LengthAxis d)) (shape : List ℕ) : Option (List (LengthAxis d)) :=
  if axes.length = shape.length then
    some (((axes.map LengthAxis.delta).zip shape).map fun p => basisAsNPoint p.1 p.2)
  else none

/-- `position_basis_3d_from_parent`, `stacked_basis/build.py:34-59`: indexing raises with fewer than three axes. -/
def positionBasis3dFromParent (parent : List (LengthAxis 3)) (r0 r1 r2 : ℕ) : Option (List (LengthAxis 3)) :=
  match parent with
  | a :: b :: c :: _ => some [⟨a.delta, .fundamental r0⟩, ⟨b.delta, .fundamental r1⟩, ⟨c.delta, .fundamental r2⟩]
  | _ => none

/-- `position_basis_from_shape`, `stacked_basis/build.py:164-185`, with the vectors given (`zip` with `strict=True`). -/
def positionBasisFromShape {d : ℕ} (shape : List ℕ) (delta : List (Fin d → ℝ)) : Option (List (LengthAxis d)) :=
  if delta.length = shape.length then some ((delta.zip shape).map fun p => ⟨p.1, .fundamental p.2⟩) else none

/-- `position_basis_from_shape`, `stacked_basis/build.py:164-185`, without vectors: those of `np.eye`. -/
noncomputable def positionBasisFromShapeDefault (shape : List ℕ) : Option (List (LengthAxis shape.length)) :=
  positionBasisFromShape shape (List.ofFn fun i : Fin shape.length => (1 : Matrix _ _ ℝ) i)

/-- `momentum_basis_3d_from_resolution`, `stacked_basis/build.py:213-249`, with the vectors given. -/
def momentumBasis3dFromResolution (r0 r1 r2 : ℕ) (v0 v1 v2 : Fin 3 → ℝ) : List (LengthAxis 3) :=
  [⟨v0, .fundamentalTransformed r0⟩, ⟨v1, .fundamentalTransformed r1⟩, ⟨v2, .fundamentalTransformed r2⟩]

/-- `momentum_basis_3d_from_resolution`, `stacked_basis/build.py:213-249`, with the vectors left out. -/
def momentumBasis3dDefault (r0 r1 r2 : ℕ) : List (LengthAxis 3) :=
  momentumBasis3dFromResolution r0 r1 r2 ![1, 0, 0] ![0, 1, 0] ![0, 0, 1]

/-- `fundamental_stacked_basis_from_shape`, `stacked_basis/build.py:92-109`. -/
def fundamentalStackedFromShape (shape : List ℕ) : Basis := .tuple (shape.map .fundamental)

/-- `fundamental_transformed_stacked_basis_from_shape`, `stacked_basis/build.py:144-161`. -/
def fundamentalTransformedStackedFromShape (shape : List ℕ) : Basis := .tuple (shape.map .fundamentalTransformed)

/-- `get_x01_mirrored_index`, `stacked_basis/util.py:469-488`: raises with fewer than two entries. -/
def getX01MirroredIndex {α : Type} (idx : List α) : Option (List α) :=
  match idx with
  | a :: b :: rest => some (b :: a :: rest)
  | _ => none

/-- `np.linspace(-0.5, 0.5, N, endpoint=False)`. -/
noncomputable def fractionSpace (N : ℕ) : ℕ → ℝ := fun j => -0.5 + j * (1 / N)

/-- `EvenlySpacedBlockFractionBasis.bloch_fractions`, `basis/block_fraction_basis.py:60-64`: an array with one axis (of
complex numbers). -/
noncomputable def evenlySpacedBlochFractions (n step : ℕ) (offset : ℤ) : ℕ → ℂ :=
  (evenlySpacedMethods n step offset).fromF fun j => ((fractionSpace (n * step) j : ℝ) : ℂ)

/-- The shape of the array of `bloch_fractions`, `basis/block_fraction_basis.py:60-64`. -/
def evenlySpacedFractionsShape (n _step : ℕ) (_offset : ℤ) : List ℕ := [n]

/-- `ndim`, `basis/block_fraction_basis.py:30-32`: the length of the first axis of the fractions. -/
def fractionsNdim (shape : List ℕ) : ℕ := shape.getD 0 0

/-- `ExplicitBlockFractionBasis.__init__`, `basis/block_fraction_basis.py:40-44`: the number of states is the length of the
second axis of the fractions; raises without one. -/
def explicitFractionsBasis (shape : List ℕ) : Option Basis := (shape[1]?).map .fundamental

end Verif
