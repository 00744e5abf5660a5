import Verif.Model.BasisBuilders
import Verif.Props.C25_States
import Mathlib.Algebra.BigOperators.Fin
import Mathlib.Tactic

/-!
C141: bases built from shapes, from vectors and from other bases.
-/

set_option autoImplicit false

namespace Verif

open Finset Matrix

/-- The point with the given integer steps along the axes, each a fraction `1 / n i` of a lattice vector. -/
noncomputable def Spec.latticePoint {d : ℕ} (v : Fin d → Fin d → ℝ) (n : Fin d → ℕ) (idx : Fin d → ℤ) : Fin d → ℝ :=
  fun c => ∑ i, ((idx i : ℝ) / n i) * v i c

theorem xPoint_lattice {d : ℕ} (A : Matrix (Fin d) (Fin d) ℝ) (n : Fin d → ℕ) (idx : Fin d → ℤ) :
    xPointAtIndex A n idx = Spec.latticePoint A n idx := by
  funext c
  simp only [xPointAtIndex, tensordot00, dxStacked, Matrix.of_apply, Spec.latticePoint]
  exact sum_congr rfl fun i _ => by ring

theorem methods_fn_fundamental (n : ℕ) : (Basis.fundamental n).methods.fn = n := rfl
theorem methods_fn_transformed (n : ℕ) : (Basis.fundamentalTransformed n).methods.fn = n := rfl
theorem basis_n_fundamental (n : ℕ) : (Basis.fundamental n).n = n := rfl
theorem basis_n_transformed (n : ℕ) : (Basis.fundamentalTransformed n).n = n := rfl

/-- **C141**, another number of points: the new basis exists exactly if a number is given for each axis; it has the same
lattice vectors, hence the same reciprocal vectors, and the numbers of points asked for. -/
theorem C141_with_shape {d : ℕ} (axes : List (LengthAxis d)) (shape : List ℕ) (h : axes.length = shape.length) :
    ∃ b, stackedAsFundamentalWithShape axes shape = some b ∧ b.length = axes.length ∧
      (∀ i, (latticeOf b) i = (latticeOf axes) i) ∧ dkStacked (latticeOf b) = dkStacked (latticeOf axes) ∧
      (∀ i : Fin d, shapeOf b i = shape.getD i 0) ∧
      ∀ idx, xPointAtIndex (latticeOf b) (shapeOf b) idx =
        Spec.latticePoint (fun i => (axes.map LengthAxis.delta).getD i 0) (fun i => shape.getD i 0) idx := by
  refine ⟨((axes.map LengthAxis.delta).zip shape).map fun p => basisAsNPoint p.1 p.2, ?_, ?_, ?_⟩
  · rw [stackedAsFundamentalWithShape, if_pos h]
  · simp [h]
  have h1 : (((axes.map LengthAxis.delta).zip shape).map fun p => basisAsNPoint p.1 p.2).map LengthAxis.delta =
      axes.map LengthAxis.delta := by
    rw [List.map_map]
    exact List.map_fst_zip (by simp [h])
  have h2 : (((axes.map LengthAxis.delta).zip shape).map fun p => basisAsNPoint p.1 p.2).map (fun a => a.basis.n) =
      shape := by
    rw [List.map_map]
    exact List.map_snd_zip (by simp [h])
  have h3 : latticeOf (((axes.map LengthAxis.delta).zip shape).map fun p => basisAsNPoint p.1 p.2) = latticeOf axes := by
    unfold latticeOf
    rw [h1]
  refine ⟨fun i => by rw [h3], by rw [h3], fun i => ?_, fun idx => ?_⟩
  · unfold shapeOf
    rw [h2]
  · rw [xPoint_lattice, h3]
    unfold shapeOf
    rw [h2]
    rfl

/-- **C141**: with another number of sizes than of axes it raises. -/
theorem C141_with_shape_raises {d : ℕ} (axes : List (LengthAxis d)) (shape : List ℕ) :
    stackedAsFundamentalWithShape axes shape = none ↔ axes.length ≠ shape.length := by
  unfold stackedAsFundamentalWithShape
  split_ifs with h <;> simp [h]

/-- **C141**: a grid with a whole multiple of the points has the points of the coarse grid among its own. -/
theorem C141_refined {d : ℕ} (A : Matrix (Fin d) (Fin d) ℝ) (n m : Fin d → ℕ) (hm : ∀ i, m i ≠ 0) (idx : Fin d → ℤ) :
    xPointAtIndex A (fun i => m i * n i) (fun i => m i * idx i) = xPointAtIndex A n idx := by
  rw [xPoint_lattice, xPoint_lattice]
  funext c
  refine sum_congr rfl fun i _ => ?_
  have h : (m i : ℝ) ≠ 0 := Nat.cast_ne_zero.2 (hm i)
  push_cast
  rw [mul_div_mul_left _ _ h]

/-- **C141**: the points of two grids on an invertible lattice are the same exactly if the fractions of every axis are. -/
theorem C141_coincide {d : ℕ} (A : Matrix (Fin d) (Fin d) ℝ) (hA : IsUnit A.det) (n m : Fin d → ℕ) (hn : ∀ i, n i ≠ 0)
    (hm : ∀ i, m i ≠ 0) (a b : Fin d → ℤ) :
    xPointAtIndex A n a = xPointAtIndex A m b ↔ ∀ i, a i * m i = b i * n i := by
  rw [xPoint_lattice, xPoint_lattice]
  have hv : ∀ (n : Fin d → ℕ) (a : Fin d → ℤ),
      Spec.latticePoint A n a = (fun i => (a i : ℝ) / n i) ᵥ* A := fun n a => rfl
  rw [hv, hv]
  have hu : IsUnit A := (Matrix.isUnit_iff_isUnit_det A).2 hA
  have hinj := Matrix.vecMul_injective_of_isUnit hu
  rw [hinj.eq_iff]
  constructor
  · intro h i
    have hi := congrFun h i
    rw [div_eq_div_iff (Nat.cast_ne_zero.2 (hn i)) (Nat.cast_ne_zero.2 (hm i))] at hi
    exact_mod_cast hi
  · intro h
    funext i
    rw [div_eq_div_iff (Nat.cast_ne_zero.2 (hn i)) (Nat.cast_ne_zero.2 (hm i))]
    exact_mod_cast h i

/-- **C141**, fundamental bases: the position and the momentum basis of a basis have its lattice vectors and its fundamental
shape, whatever the axes, and the conversion made twice is the conversion made once. -/
theorem C141_fundamental {d : ℕ} (axes : List (LengthAxis d)) :
    (∀ f ∈ [stackedAsFundamentalPosition (d := d), stackedAsFundamentalMomentum],
      latticeOf (f axes) = latticeOf axes ∧ latticeVolume (latticeOf (f axes)) = latticeVolume (latticeOf axes) ∧
        shapeOf (f axes) = fundamentalShapeOf axes ∧ fundamentalShapeOf (f axes) = fundamentalShapeOf axes ∧
        f (f axes) = f axes ∧ f (stackedAsFundamentalPosition axes) = f axes ∧
        f (stackedAsFundamentalMomentum axes) = f axes) ∧
    stackedAsFundamentalPosition axes = axes.map basisAsFundamentalPosition ∧
    stackedAsFundamentalMomentum axes = axes.map basisAsFundamentalMomentum := by
  have hp : ∀ axes : List (LengthAxis d), stackedAsFundamentalPosition axes = axes.map basisAsFundamentalPosition := by
    intro axes
    unfold stackedAsFundamentalPosition
    rw [List.zip_map', List.map_map]
    rfl
  have hq : ∀ axes : List (LengthAxis d), stackedAsFundamentalMomentum axes = axes.map basisAsFundamentalMomentum := by
    intro axes
    unfold stackedAsFundamentalMomentum
    rw [List.zip_map', List.map_map]
    rfl
  refine ⟨?_, hp axes, hq axes⟩
  intro f hf
  simp only [List.mem_cons, List.not_mem_nil, or_false] at hf
  rcases hf with rfl | rfl
  · have h : latticeOf (stackedAsFundamentalPosition axes) = latticeOf axes := by
      rw [hp]; unfold latticeOf; rw [List.map_map]; rfl
    refine ⟨h, by rw [h], ?_, ?_, ?_, ?_, ?_⟩
    · rw [hp]; unfold shapeOf fundamentalShapeOf; rw [List.map_map]; rfl
    · rw [hp]; unfold fundamentalShapeOf; rw [List.map_map]; rfl
    · rw [hp, hp, List.map_map]; rfl
    · rw [hp, hp, List.map_map]; rfl
    · rw [hq, hp, hp, List.map_map]; rfl
  · have h : latticeOf (stackedAsFundamentalMomentum axes) = latticeOf axes := by
      rw [hq]; unfold latticeOf; rw [List.map_map]; rfl
    refine ⟨h, by rw [h], ?_, ?_, ?_, ?_, ?_⟩
    · rw [hq]; unfold shapeOf fundamentalShapeOf; rw [List.map_map]; rfl
    · rw [hq]; unfold fundamentalShapeOf; rw [List.map_map]; rfl
    · rw [hq, hq, List.map_map]; rfl
    · rw [hp, hq, hq, List.map_map]; rfl
    · rw [hq, hq, List.map_map]; rfl

open Spec in
/-- **C141.** The fundamental bases of a single axis have as many states as the axis has points, not as many as it has states, and the same points. -/
theorem C141_axis (b : Basis) :
    size (basisAsFundamental b) = points b ∧ points (basisAsFundamental b) = points b ∧
      size (basisAsFundamentalTransformed b) = points b ∧ points (basisAsFundamentalTransformed b) = points b :=
  ⟨(methods_sizes b).2, (methods_sizes b).2, (methods_sizes b).2, (methods_sizes b).2⟩

open Spec in
/-- A momentum basis cut off at two of three states. -/
example : size (basisAsFundamental (.transformed 2 3)) = 3 ∧ size (.transformed 2 3) = 2 := ⟨(C141_axis (.transformed 2 3)).1, rfl⟩

/-- **C141**, single points: one point for every axis, at the origin, with the lattice vectors kept. -/
theorem C141_single {d : ℕ} (axes : List (LengthAxis d)) (hd : axes.length = d) :
    getSinglePointBasis axes = axes.map basisAsSinglePoint ∧ latticeOf (getSinglePointBasis axes) = latticeOf axes ∧
      (∀ i : Fin d, shapeOf (getSinglePointBasis axes) i = 1) ∧
      stackedAsFundamentalWithShape axes (List.replicate d 1) = some (getSinglePointBasis axes) := by
  refine ⟨rfl, ?_, fun i => ?_, ?_⟩
  · unfold latticeOf getSinglePointBasis; rw [List.map_map]; rfl
  · unfold shapeOf getSinglePointBasis
    rw [List.map_map]
    have hi : (i : ℕ) < axes.length := by rw [hd]; exact i.2
    simp [hi, basis_n_fundamental]
  · rw [stackedAsFundamentalWithShape, if_pos (by simp [hd])]
    congr 1
    apply List.ext_getElem
    · simp [getSinglePointBasis, hd]
    · intro k h1 h2
      simp [getSinglePointBasis, basisAsNPoint]

/-- **C141**, from a shape: a basis from lattice vectors and a shape has these vectors and this shape; it raises if there are not
as many vectors as sizes. -/
theorem C141_from_shape {d : ℕ} (shape : List ℕ) (delta : List (Fin d → ℝ)) :
    (positionBasisFromShape shape delta = none ↔ delta.length ≠ shape.length) ∧
      ∀ b, positionBasisFromShape shape delta = some b → b.length = shape.length ∧
        (∀ i : Fin d, latticeOf b i = delta.getD i 0) ∧ (∀ i : Fin d, shapeOf b i = shape.getD i 0) := by
  constructor
  · unfold positionBasisFromShape
    split_ifs with h <;> simp [h]
  · intro b hb
    unfold positionBasisFromShape at hb
    split_ifs at hb with h
    obtain rfl := Option.some.inj hb
    have h1 : ((delta.zip shape).map fun p => (⟨p.1, .fundamental p.2⟩ : LengthAxis d)).map LengthAxis.delta = delta := by
      rw [List.map_map]
      exact List.map_fst_zip (by simp [h])
    have h2 : ((delta.zip shape).map fun p => (⟨p.1, .fundamental p.2⟩ : LengthAxis d)).map (fun a => a.basis.n) = shape := by
      rw [List.map_map]
      exact List.map_snd_zip (by simp [h])
    refine ⟨by simp [h], fun i => ?_, fun i => ?_⟩
    · unfold latticeOf; rw [h1]; rfl
    · unfold shapeOf; rw [h2]

/-- **C141**, default vectors: component `c` of the point with index `idx` is `idx c / n c`, and component `c` of the wave vector is
`2π` times the index. -/
theorem C141_default (shape : List ℕ) :
    ∃ b, positionBasisFromShapeDefault shape = some b ∧
      (∀ i : Fin shape.length, shapeOf b i = shape[i]) ∧
      (∀ idx c, xPointAtIndex (latticeOf b) (shapeOf b) idx c = idx c / (shape[c] : ℝ)) ∧
      ∀ idx c, kPointAtIndex (latticeOf b) idx c = 2 * Real.pi * idx c := by
  have hne : positionBasisFromShapeDefault shape ≠ none := by
    unfold positionBasisFromShapeDefault
    rw [Ne, (C141_from_shape _ _).1]
    simp
  obtain ⟨b, hb⟩ := Option.ne_none_iff_exists'.1 hne
  obtain ⟨h0, h1, h2⟩ := (C141_from_shape _ _).2 b hb
  have hA : latticeOf b = 1 := by
    ext i c
    rw [h1 i]
    simp
  have hs : ∀ i : Fin shape.length, shapeOf b i = shape[i] := fun i => by rw [h2 i]; simp
  refine ⟨b, hb, hs, fun idx c => ?_, fun idx c => ?_⟩
  · rw [xPoint_lattice, hA]
    unfold Spec.latticePoint
    rw [sum_eq_single c]
    · rw [hs c]; simp
    · intro i _ hi; simp [Matrix.one_apply_ne hi]
    · simp
  · rw [hA]
    unfold kPointAtIndex tensordot00 dkStacked
    rw [sum_eq_single c]
    · simp
    · intro i _ hi; simp [Matrix.one_apply_ne hi]
    · simp

/-- **C141**, three dimensions: the basis of a parent has the vectors of the parent and the resolution asked for, and the momentum
basis of a resolution has the vectors given, by default those of `C141_default`. -/
theorem C141_three (parent : List (LengthAxis 3)) (h : parent.length = 3) (r0 r1 r2 : ℕ) (v0 v1 v2 : Fin 3 → ℝ) :
    positionBasis3dFromParent parent r0 r1 r2 = stackedAsFundamentalWithShape parent [r0, r1, r2] ∧
      latticeOf (momentumBasis3dFromResolution r0 r1 r2 v0 v1 v2) = ![v0, v1, v2] ∧
      shapeOf (momentumBasis3dFromResolution r0 r1 r2 v0 v1 v2) = ![r0, r1, r2] ∧
      latticeOf (momentumBasis3dDefault r0 r1 r2) = 1 := by
  refine ⟨?_, ?_, ?_, ?_⟩
  · match parent, h with
    | [a, b, c], _ => rfl
  · ext i c; fin_cases i <;> rfl
  · funext i; fin_cases i <;> rfl
  · ext i c
    fin_cases i <;> fin_cases c <;>
      simp [latticeOf, momentumBasis3dDefault, momentumBasis3dFromResolution]

/-- **C141**: a basis from a shape has the shape, and the points and states of a fundamental basis. -/
theorem C141_stacked_shape (shape : List ℕ) :
    (fundamentalStackedFromShape shape).fundamentalShape = shape ∧
      (fundamentalTransformedStackedFromShape shape).fundamentalShape = shape ∧
      (fundamentalStackedFromShape shape).asPositionBasis = fundamentalStackedFromShape shape ∧
      (fundamentalStackedFromShape shape).asTransformedBasis = fundamentalTransformedStackedFromShape shape ∧
      (fundamentalTransformedStackedFromShape shape).asPositionBasis = fundamentalStackedFromShape shape := by
  have h1 : (fundamentalStackedFromShape shape).fundamentalShape = shape := by
    show (Basis.methodsList (shape.map Basis.fundamental)).map Methods.fn = shape
    induction shape with
    | nil => rfl
    | cons n ns ih =>
      show n :: (Basis.methodsList (ns.map Basis.fundamental)).map Methods.fn = _
      rw [ih]
  have h2 : (fundamentalTransformedStackedFromShape shape).fundamentalShape = shape := by
    show (Basis.methodsList (shape.map Basis.fundamentalTransformed)).map Methods.fn = shape
    clear h1
    induction shape with
    | nil => rfl
    | cons n ns ih =>
      show n :: (Basis.methodsList (ns.map Basis.fundamentalTransformed)).map Methods.fn = _
      rw [ih]
  refine ⟨h1, h2, ?_, ?_, ?_⟩
  · unfold Basis.asPositionBasis; rw [h1]; rfl
  · unfold Basis.asTransformedBasis; rw [h1]; rfl
  · unfold Basis.asPositionBasis; rw [h2]; rfl

/-! The mirrored index -/

/-- **C141**: mirroring twice gives the index back; it raises for fewer than two entries. -/
theorem C141_mirror_twice {α : Type} (idx : List α) :
    (getX01MirroredIndex idx = none ↔ idx.length < 2) ∧
      ∀ m, getX01MirroredIndex idx = some m → getX01MirroredIndex m = some idx ∧ m.length = idx.length := by
  rcases idx with _ | ⟨a, _ | ⟨b, t⟩⟩
  · simp [getX01MirroredIndex]
  · simp [getX01MirroredIndex]
  · refine ⟨by simp [getX01MirroredIndex], fun m hm => ?_⟩
    obtain rfl := Option.some.inj hm
    exact ⟨rfl, rfl⟩

/-- **C141**, mirror: for a grid with as many points along the first two axes, on a lattice whose first two vectors are of equal length, with
the others at right angles to their difference, the mirrored index is the index of the mirror image: the component along the difference of
the two vectors changes sign, and the components across it do not change. -/
theorem C141_mirror_partial {d : ℕ} (A : Matrix (Fin (d + 2)) (Fin (d + 2)) ℝ) (n : Fin (d + 2) → ℕ) (hn : n 0 = n 1)
    (hl : vnorm (A 0) = vnorm (A 1)) (ho : ∀ i : Fin (d + 2), i ≠ 0 → i ≠ 1 → A i ⬝ᵥ (A 0 - A 1) = 0) (idx : Fin (d + 2) → ℤ) :
    ∃ m : Fin (d + 2) → ℤ, getX01MirroredIndex (List.ofFn idx) = some (List.ofFn m) ∧
      xPointAtIndex A n m ⬝ᵥ (A 0 - A 1) = -(xPointAtIndex A n idx ⬝ᵥ (A 0 - A 1)) ∧
      (∀ w, w ⬝ᵥ (A 0 - A 1) = 0 → xPointAtIndex A n m ⬝ᵥ w = xPointAtIndex A n idx ⬝ᵥ w) ∧
      vnorm (xPointAtIndex A n m) = vnorm (xPointAtIndex A n idx) := by
  let m : Fin (d + 2) → ℤ := Fin.cons (idx 1) (Fin.cons (idx 0) fun i => idx i.succ.succ)
  have hsum : ∀ (k : Fin (d + 2) → ℤ), xPointAtIndex A n k =
      ((k 0 : ℝ) / n 0) • A 0 + (((k 1 : ℝ) / n 0) • A 1 + ∑ i : Fin d, ((k i.succ.succ : ℝ) / n i.succ.succ) • A i.succ.succ) := by
    intro k
    rw [xPoint_lattice]
    funext c
    simp only [Spec.latticePoint, Fin.sum_univ_succ, Pi.add_apply, Pi.smul_apply, smul_eq_mul, Finset.sum_apply]
    rw [hn]
    rfl
  have hlen : A 0 ⬝ᵥ A 0 = A 1 ⬝ᵥ A 1 := by
    have h0 : 0 ≤ A 0 ⬝ᵥ A 0 := sum_nonneg fun i _ => mul_self_nonneg _
    have h1 : 0 ≤ A 1 ⬝ᵥ A 1 := sum_nonneg fun i _ => mul_self_nonneg _
    exact (Real.sqrt_inj h0 h1).1 hl
  have hm0 : m 0 = idx 1 := rfl
  have hm1 : m 1 = idx 0 := rfl
  have hms : ∀ i : Fin d, m i.succ.succ = idx i.succ.succ := fun i => rfl
  have hdiff : xPointAtIndex A n m = xPointAtIndex A n idx + (((idx 1 : ℝ) - idx 0) / n 0) • (A 0 - A 1) := by
    rw [hsum m, hsum idx, hm0, hm1]
    simp only [hms]
    funext c
    simp only [Pi.add_apply, Pi.smul_apply, smul_eq_mul, Pi.sub_apply]
    ring
  have hpar : xPointAtIndex A n m ⬝ᵥ (A 0 - A 1) = -(xPointAtIndex A n idx ⬝ᵥ (A 0 - A 1)) := by
    have hrest : (∑ i : Fin d, ((idx i.succ.succ : ℝ) / n i.succ.succ) • A i.succ.succ) ⬝ᵥ (A 0 - A 1) = 0 := by
      rw [sum_dotProduct]
      refine sum_eq_zero fun i _ => ?_
      rw [smul_dotProduct, ho _ (Fin.succ_ne_zero _) (by rw [Ne, Fin.ext_iff]; simp), smul_zero]
    rw [hsum m, hsum idx, hm0, hm1]
    simp only [hms]
    rw [add_dotProduct, add_dotProduct, add_dotProduct, add_dotProduct, hrest]
    simp only [smul_dotProduct, dotProduct_sub, smul_eq_mul]
    rw [hlen, dotProduct_comm (A 1) (A 0)]
    ring
  have hperp : ∀ w, w ⬝ᵥ (A 0 - A 1) = 0 → xPointAtIndex A n m ⬝ᵥ w = xPointAtIndex A n idx ⬝ᵥ w := by
    intro w hw
    rw [hdiff, add_dotProduct, smul_dotProduct, dotProduct_comm (A 0 - A 1 : Fin (d + 2) → ℝ) w, hw, smul_zero, add_zero]
  refine ⟨m, ?_, hpar, hperp, ?_⟩
  · rw [List.ofFn_succ, List.ofFn_succ, List.ofFn_succ, List.ofFn_succ]
    rfl
  · unfold vnorm
    congr 1
    set x := xPointAtIndex A n idx
    set y := xPointAtIndex A n m
    set u := A 0 - A 1
    set c := ((idx 1 : ℝ) - idx 0) / n 0
    have h1 : y ⬝ᵥ u = x ⬝ᵥ u + c * (u ⬝ᵥ u) := by rw [hdiff, add_dotProduct, smul_dotProduct, smul_eq_mul]
    rw [hdiff]
    simp only [add_dotProduct, dotProduct_add, smul_dotProduct, dotProduct_smul, smul_eq_mul]
    rw [dotProduct_comm u x]
    have h2 : 2 * (x ⬝ᵥ u) + c * (u ⬝ᵥ u) = 0 := by linarith
    linear_combination c * h2

/-- The hypotheses of `C141_mirror_partial` for the cubic lattice: five points along both axes. -/
example : ∃ m : Fin 3 → ℤ, getX01MirroredIndex [1, 4, 2] = some (List.ofFn m) ∧
    vnorm (xPointAtIndex 1 ![5, 5, 3] m) = vnorm (xPointAtIndex 1 ![5, 5, 3] ![(1 : ℤ), 4, 2]) := by
  obtain ⟨m, h1, _, _, h4⟩ := C141_mirror_partial (d := 1) 1 ![5, 5, 3] rfl
    (by simp [vnorm, Matrix.one_apply, dotProduct]) (by
      intro i h0 h1
      fin_cases i
      · exact absurd rfl h0
      · exact absurd rfl h1
      · simp [dotProduct, Fin.sum_univ_succ]) ![(1 : ℤ), 4, 2]
  exact ⟨m, by simpa using h1, h4⟩

/-- **C141**, the full statement is false: with different numbers of points along the two axes the mirrored index is not that of a mirror
image, not even of a point as far from the origin. -/
theorem C141_mirror_negation :
    ¬ ∀ (n : Fin 2 → ℕ) (idx m : Fin 2 → ℤ), (∀ i, 0 < n i) → getX01MirroredIndex (List.ofFn idx) = some (List.ofFn m) →
      vnorm (xPointAtIndex 1 n m) = vnorm (xPointAtIndex 1 n idx) := by
  intro h
  have := h ![1, 2] ![0, 1] ![1, 0] (by intro i; fin_cases i <;> simp) rfl
  have h1 : vnorm (xPointAtIndex 1 ![1, 2] ![(1 : ℤ), 0]) ^ 2 = 1 := by
    unfold vnorm
    rw [Real.sq_sqrt (show 0 ≤ _ ⬝ᵥ _ from sum_nonneg fun i _ => mul_self_nonneg _), xPoint_lattice]
    simp [dotProduct, Fin.sum_univ_succ, Spec.latticePoint]
  have h2 : vnorm (xPointAtIndex 1 ![1, 2] ![(0 : ℤ), 1]) ^ 2 = 1 / 4 := by
    unfold vnorm
    rw [Real.sq_sqrt (show 0 ≤ _ ⬝ᵥ _ from sum_nonneg fun i _ => mul_self_nonneg _), xPoint_lattice]
    simp [dotProduct, Fin.sum_univ_succ, Spec.latticePoint]
    norm_num
  rw [this, h2] at h1
  norm_num at h1

/-! Bloch fractions -/

/-- Remainders of a sum of a remainder and whole steps. -/
theorem emod_steps (n s : ℕ) (hn : 0 < n) (hs : 0 < s) (r q : ℤ) (hr : 0 ≤ r) (hrs : r < s) :
    (r + s * q) % ((n * s : ℕ) : ℤ) = r + s * (q % n) := by
  have hq : q = n * (q / n) + q % n := (Int.mul_ediv_add_emod q n).symm
  have h0 : 0 ≤ q % n := Int.emod_nonneg _ (by omega)
  have h1 : q % n < n := Int.emod_lt_of_pos _ (by omega)
  have hrew : r + s * q = r + s * (q % n) + ((n * s : ℕ) : ℤ) * (q / n) := by
    conv_lhs => rw [hq]
    push_cast; ring
  rw [hrew, Int.add_mul_emod_self_left]
  refine Int.emod_eq_of_lt (by positivity) ?_
  push_cast
  nlinarith

/-- **C141**, Bloch fractions: fraction `j` of an evenly spaced basis is `-1/2` plus the fraction of the zone at sample
`offset + step j`, wrapped into the zone: it lies in `[-1/2, 1/2)`. -/
theorem C141_fractions (n step : ℕ) (hn : 0 < n) (hs : 0 < step) (offset : ℤ) (j : ℕ) :
    ∃ f : ℝ, evenlySpacedBlochFractions n step offset j = (f : ℂ) ∧ -1 / 2 ≤ f ∧ f < 1 / 2 ∧
      ∃ t : ℤ, f = -1 / 2 + (offset + step * j : ℝ) / (n * step) + t := by
  have hN : (0 : ℤ) < ((n * step : ℕ) : ℤ) := by positivity
  set r := offset % step with hrdef
  have hr : 0 ≤ r := Int.emod_nonneg _ (by omega)
  have hrs : r < step := Int.emod_lt_of_pos _ (by omega)
  have hidx : (((r.toNat + step * (((j : ℤ) - -(offset / step)) % (n : ℤ)).toNat : ℕ)) : ℤ) =
      (offset + step * j) % ((n * step : ℕ) : ℤ) := by
    have ho : offset + step * j = r + step * (j - -(offset / step)) := by
      have := Int.mul_ediv_add_emod offset step
      rw [hrdef]
      linear_combination -this
    rw [ho, emod_steps n step hn hs r _ hr hrs]
    push_cast
    rw [Int.toNat_of_nonneg hr, Int.toNat_of_nonneg (Int.emod_nonneg _ (by omega))]
  set k := r.toNat + step * (((j : ℤ) - -(offset / step)) % (n : ℤ)).toNat with hk
  have hval : evenlySpacedBlochFractions n step offset j = ((fractionSpace (n * step) k : ℝ) : ℂ) := rfl
  have hkR : (k : ℝ) = (((offset + step * j) % ((n * step : ℕ) : ℤ) : ℤ) : ℝ) := by
    rw [← hidx]; push_cast; rfl
  have hklt : k < n * step := by
    have := Int.emod_lt_of_pos (offset + step * j) hN
    rw [← hidx] at this
    exact_mod_cast this
  have hNR : (0 : ℝ) < ((n * step : ℕ) : ℝ) := by exact_mod_cast hN
  refine ⟨fractionSpace (n * step) k, hval, ?_, ?_, -((offset + step * j) / ((n * step : ℕ) : ℤ)), ?_⟩
  · unfold fractionSpace
    have : 0 ≤ (k : ℝ) * (1 / ((n * step : ℕ) : ℝ)) := by positivity
    norm_num at this ⊢
    linarith
  · unfold fractionSpace
    have : (k : ℝ) * (1 / ((n * step : ℕ) : ℝ)) < 1 := by
      rw [mul_one_div, div_lt_one hNR]
      exact_mod_cast hklt
    norm_num at this ⊢
    linarith
  · unfold fractionSpace
    have hdm := Int.mul_ediv_add_emod (offset + step * j) ((n * step : ℕ) : ℤ)
    have hdmR : ((n * step : ℕ) : ℝ) * (((offset + step * j) / ((n * step : ℕ) : ℤ) : ℤ) : ℝ) + k = offset + step * j := by
      rw [hkR]
      exact_mod_cast hdm
    have hne : ((n * step : ℕ) : ℝ) ≠ 0 := hNR.ne'
    have : (offset + step * j : ℝ) / (n * step) = (k : ℝ) * (1 / ((n * step : ℕ) : ℝ)) +
        (((offset + step * j) / ((n * step : ℕ) : ℤ) : ℤ) : ℝ) := by
      rw [← hdmR]
      rw [show (n : ℝ) * step = ((n * step : ℕ) : ℝ) by push_cast; rfl, add_div, mul_div_cancel_left₀ _ hne]
      ring
    rw [this]
    push_cast
    norm_num
    ring

/-- The fractions of four samples, every third of twelve, from sample two. -/
example : ∃ f : ℝ, evenlySpacedBlochFractions 4 3 2 1 = (f : ℂ) ∧ -1 / 2 ≤ f ∧ f < 1 / 2 :=
  let ⟨f, h, h1, h2, _⟩ := C141_fractions 4 3 (by norm_num) (by norm_num) 2 1
  ⟨f, h, h1, h2⟩

/-- **C141**, the fractions without an offset are in increasing order, from `-1/2` in steps of `1/n`. -/
theorem C141_fundamental_fractions (n : ℕ) (hn : 0 < n) (j : ℕ) (hj : j < n) :
    evenlySpacedBlochFractions n 1 0 j = ((-1 / 2 + j / n : ℝ) : ℂ) := by
  have h : evenlySpacedBlochFractions n 1 0 j =
      ((fractionSpace (n * 1) (0 + 1 * (((j : ℤ) - -(0 / 1)) % (n : ℤ)).toNat) : ℝ) : ℂ) := by
    unfold evenlySpacedBlochFractions
    show truncateSampleAxis n 1 0 (fun j => ((fractionSpace (n * 1) j : ℝ) : ℂ)) j = _
    unfold truncateSampleAxis roll
    simp
  rw [h]
  have h2 : (((j : ℤ) - -(0 / 1)) % (n : ℤ)).toNat = j := by
    have : ((j : ℤ) - -(0 / 1)) % (n : ℤ) = j := by
      simp only [Int.zero_ediv, neg_zero, sub_zero]
      exact Int.emod_eq_of_lt (by omega) (by omega)
    rw [this]; simp
  rw [h2]
  congr 1
  unfold fractionSpace
  simp only [mul_one, zero_add, one_mul]
  norm_num
  ring

/-- **C141**: a basis from explicit fractions has as many states as columns and as many dimensions as rows. -/
theorem C141_explicit_fractions (rows columns : ℕ) :
    ∃ b, explicitFractionsBasis [rows, columns] = some b ∧ b.n = columns ∧ fractionsNdim [rows, columns] = rows :=
  ⟨_, rfl, rfl, rfl⟩

/-- **C141**, the full statement is false: the dimension reported for the evenly spaced fractions, which are those of one axis, is the number
of states. -/
theorem C141_ndim_negation :
    (∀ n step offset, fractionsNdim (evenlySpacedFractionsShape n step offset) = n) ∧
    ¬ ∀ n step offset, fractionsNdim (evenlySpacedFractionsShape n step offset) = 1 := by
  refine ⟨fun _ _ _ => rfl, fun h => ?_⟩
  have := h 2 1 0
  norm_num [fractionsNdim, evenlySpacedFractionsShape] at this

/-- A basis with a truncated and a momentum axis on an oblique lattice, with other numbers of points: the hypotheses of
`C141_with_shape`. -/
example : ∃ b, stackedAsFundamentalWithShape
    [⟨![1, 0], .truncated 2 4⟩, ⟨![1, 2], .transformed 3 5⟩] [8, 10] = some b ∧ latticeOf b = !![1, 0; 1, 2] := by
  obtain ⟨b, h, _, h2, _⟩ := C141_with_shape (d := 2) [⟨![1, 0], .truncated 2 4⟩, ⟨![1, 2], .transformed 3 5⟩] [8, 10] rfl
  refine ⟨b, h, ?_⟩
  ext i c
  rw [h2 i]
  fin_cases i <;> fin_cases c <;> simp [latticeOf]

end Verif
