import Verif.Model.ProjectedPoints
import Verif.Props.C126_PlotSlices
import Verif.Props.C28_Projection
import Mathlib.LinearAlgebra.Matrix.NonsingularInverse

/-!
C171: the points of a basis projected along axes.
-/

set_option autoImplicit false

namespace Verif

open Finset Spec Matrix Submodule

variable {d : ℕ}

theorem rows_independent (B : Matrix (Fin d) (Fin d) ℝ) (hB : IsUnit B.det) (axes : List (Fin d)) (hnd : axes.Nodup) :
    LinearIndependent ℝ (axes.map fun a => B a).get := by
  have h := Matrix.linearIndependent_rows_of_isUnit ((Matrix.isUnit_iff_isUnit_det B).2 hB)
  have hinj : Function.Injective fun i : Fin (axes.map fun a => B a).length => axes.get (i.cast (List.length_map ..)) :=
    (List.nodup_iff_injective_get.1 hnd).comp (Fin.cast_injective _)
  have := h.comp _ hinj
  have e : (axes.map fun a => B a).get = B.row ∘ fun i => axes.get (i.cast (List.length_map ..)) := by
    funext i
    simp only [List.get_eq_getElem, List.getElem_map]
    rfl
  rw [e]
  exact this

theorem projectPoint_sub (vs : List (Fin d → ℝ)) (p q : Fin d → ℝ) :
    List.zipWith (· - ·) (projectPoint vs p) (projectPoint vs q) = projectPoint vs (p - q) := by
  unfold projectPoint
  rw [List.zipWith_map, List.zipWith_self]
  simp only [dotProduct_sub]

/-- The squares of the differences of the coordinates of two points which differ by a vector of the plane. -/
theorem project_distance (vs : List (Fin d → ℝ)) (hind : LinearIndependent ℝ vs.get) (p q : Fin d → ℝ) (h : p - q ∈ span ℝ {w | w ∈ vs}) :
    ((List.zipWith (· - ·) (projectPoint vs p) (projectPoint vs q)).map fun x => x ^ 2).sum = ∑ c, (p c - q c) ^ 2 := by
  rw [projectPoint_sub]
  have := (C28_projection_isometry vs hind (p - q) (p - q)).2.1 h
  rw [List.zipWith_self] at this
  simp only [← pow_two] at this
  rw [this]
  simp only [dotProduct, Pi.sub_apply, pow_two]

theorem combination_mem (B : Matrix (Fin d) (Fin d) ℝ) (axes : List (Fin d)) (w : Fin d → ℝ) (h : ∀ i, i ∉ axes → w i = 0) :
    ∑ i, w i • B i ∈ span ℝ {v | v ∈ axes.map fun a => B a} := by
  refine sum_mem fun i _ => ?_
  by_cases hi : i ∈ axes
  · exact smul_mem _ _ (subset_span (List.mem_map.2 ⟨i, hi, rfl⟩))
  · rw [h i hi, zero_smul]; exact zero_mem _

theorem off_val (axes : List (Fin d)) {i : Fin d} (h : i ∉ axes) : (i : ℕ) ∉ axes.map Fin.val := by
  intro hm
  obtain ⟨a, ha, e⟩ := List.mem_map.1 hm
  exact h (Fin.ext e ▸ ha)

/-- **C171.** The projections of the points of the grid along axes: one coordinate for each axis, and for two points with the same indices along all
other axes, the distance of the coordinates is the distance of the points. -/
theorem C171_position (A : Matrix (Fin d) (Fin d) ℝ) (hA : IsUnit A.det) (ns : List ℕ) (axes : List (Fin d)) (hnd : axes.Nodup) (full other : List ℕ)
    (hf : InShape ns full) (ho : InShape ns other) (hoff : AgreeOff (axes.map Fin.val) full other) :
    (projectedXPoints A ns axes (ravel ns full)).length = axes.length ∧
      ((List.zipWith (· - ·) (projectedXPoints A ns axes (ravel ns full)) (projectedXPoints A ns axes (ravel ns other))).map fun x => x ^ 2).sum =
        ∑ c, (gridPoint A ns full c - gridPoint A ns other c) ^ 2 := by
  have hind := rows_independent A hA axes hnd
  unfold projectedXPoints
  rw [drawnPoint_eq A ns full hf, drawnPoint_eq A ns other ho]
  refine ⟨by rw [(C28_projection_isometry _ hind _ 0).1, List.length_map], project_distance _ hind _ _ ?_⟩
  unfold gridPoint
  rw [← sum_sub_distrib]
  simp only [← sub_smul]
  exact combination_mem A axes _ fun i hi => by rw [hoff i (off_val axes hi), sub_self]

/-- **C171.** The projections of the wave vectors of the grid along axes, for a basis with any number of states along each axis: one coordinate for
each axis, and for two wave vectors with the same wave numbers along all other axes, the distance of the coordinates is the distance of the wave
vectors. -/
theorem C171_momentum (A : Matrix (Fin d) (Fin d) ℝ) (hA : IsUnit A.det) (shape ns : List ℕ) (hs : ∀ i : Fin d, shape.getD i 0 ≠ 0)
    (axes : List (Fin d)) (hnd : axes.Nodup) (full other : List ℕ)
    (hf : InShape ns full) (ho : InShape ns other) (hoff : AgreeOff (axes.map Fin.val) full other) :
    (projectedKPoints A shape ns axes (ravel ns full)).length = axes.length ∧
      ((List.zipWith (· - ·) (projectedKPoints A shape ns axes (ravel ns full)) (projectedKPoints A shape ns axes (ravel ns other))).map
        fun x => x ^ 2).sum = ∑ c, (waveVector A ns full c - waveVector A ns other c) ^ 2 := by
  set B := deltaKStacked A fun i => shape.getD i 0 with hB
  have hdet : IsUnit B.det := by
    have e : B = Matrix.diagonal (fun i : Fin d => (shape.getD i 0 : ℝ)) * dkStacked A := by
      ext i c
      rw [Matrix.diagonal_mul]; rfl
    rw [e, Matrix.det_mul, Matrix.det_diagonal, dkStacked, Matrix.det_smul, Matrix.det_transpose, Matrix.det_nonsing_inv]
    refine IsUnit.mul (Ne.isUnit (prod_ne_zero_iff.2 fun i _ => by exact_mod_cast hs i)) (IsUnit.mul (Ne.isUnit ?_) ?_)
    · have := Real.pi_pos; positivity
    · exact Ne.isUnit (by rw [Ring.inverse_eq_inv']; exact inv_ne_zero hA.ne_zero)
  have hind := rows_independent B hdet axes hnd
  unfold projectedKPoints
  rw [wavePoint_eq A ns full hf, wavePoint_eq A ns other ho]
  refine ⟨by rw [(C28_projection_isometry _ hind _ 0).1, List.length_map], project_distance _ hind _ _ ?_⟩
  unfold waveVector
  rw [← sum_sub_distrib]
  simp only [← sub_smul]
  have : ∀ i : Fin d, ((freq (ns.getD i 0) (full.getD i 0) : ℝ) - (freq (ns.getD i 0) (other.getD i 0) : ℝ)) • ((2 * Real.pi) • (A⁻¹)ᵀ) i =
      (((freq (ns.getD i 0) (full.getD i 0) : ℝ) - (freq (ns.getD i 0) (other.getD i 0) : ℝ)) / (shape.getD i 0 : ℝ)) • B i := by
    intro i
    have h0 : (shape.getD i 0 : ℝ) ≠ 0 := by exact_mod_cast hs i
    funext c
    rw [hB]
    simp only [deltaKStacked, dkStacked, Matrix.of_apply, Pi.smul_apply, smul_eq_mul]
    field_simp
  rw [sum_congr rfl fun i _ => this i]
  exact combination_mem B axes _ fun i hi => by rw [hoff i (off_val axes hi), sub_self, zero_div]

/-- A rectangular lattice, and two points which differ along the second axis. -/
example : IsUnit (!![(2 : ℝ), 0; 0, 3]).det ∧ InShape [2, 4] [1, 3] ∧ InShape [2, 4] [1, 0] ∧ AgreeOff [1] [1, 3] [1, 0] := by
  refine ⟨?_, by simp [InShape], by simp [InShape], fun i hi => ?_⟩
  · rw [Matrix.det_fin_two_of]; norm_num
  · match i with
    | 0 => rfl
    | 1 => simp at hi
    | i + 2 => rfl

theorem reshapeRows_some (rows : ℕ) (shape : List ℕ) (points : ℕ → List ℝ) (h : 0 < shape.prod) :
    ∃ data, reshapeRows rows shape.prod shape points = some (rows, data) ∧
      ∀ r, ∀ full, InShape shape full → data r full = (points (ravel shape full)).getD r 0 := by
  refine ⟨_, by
    unfold reshapeRows
    rw [if_neg (by rw [Nat.mul_mod_left]; omega), Nat.mul_div_cancel _ h], fun r full hf => ?_⟩
  have hl := ravel_lt _ _ hf
  dsimp only
  rw [Nat.mul_comm r, Nat.mul_add_mod, Nat.mod_eq_of_lt hl, Nat.mul_add_div h, Nat.div_eq_of_lt hl, Nat.add_zero]

/-- **C171.** The coordinates of a slice of a basis with as many states as points: one row for each of the axes, which holds the coordinates of the
projected points of the slice. -/
theorem C171_slice_partial (A : Matrix (Fin d) (Fin d) ℝ) (ns : List ℕ) (hd : ns.length = d) (axes : List (Fin d)) (hnd : axes.Nodup) (top : List ℕ)
    (htop : InShape ns top) :
    (∃ data, xCoordinatesInAxes A ns ns axes (some (offAxes (axes.map Fin.val) top)) = some (axes.length, data) ∧
      ∀ r, ∀ full, InShape ns full → AgreeOff (axes.map Fin.val) full top →
        data r (onAxes (axes.map Fin.val) full) = (projectedXPoints A ns axes (ravel ns full)).getD r 0) ∧
    ∃ data, kCoordinatesInAxes A ns ns axes (some (offAxes (axes.map Fin.val) top)) = some (axes.length, data) ∧
      ∀ r, ∀ full, InShape ns full → AgreeOff (axes.map Fin.val) full top →
        data r (onAxes (axes.map Fin.val) full) = (projectedKPoints A ns ns axes (ravel ns full)).getD r 0 := by
  have hp : 0 < ns.prod := lt_of_le_of_lt (Nat.zero_le _) (ravel_lt _ _ htop)
  obtain ⟨f, hf, kf⟩ := reshapeRows_some axes.length ns (projectedXPoints A ns axes) hp
  obtain ⟨g, hg, kg⟩ := reshapeRows_some axes.length ns (projectedKPoints A ns ns axes) hp
  refine ⟨⟨_, by unfold xCoordinatesInAxes; rw [hf]; rfl, fun r full hfull hag => ?_⟩, ⟨_, by unfold kCoordinatesInAxes; rw [hg]; rfl,
    fun r full hfull hag => ?_⟩⟩
  · rw [← kf r full hfull, Option.getD_some]
    exact read_slice _ _ full top (axes_nodup axes hnd) (by rw [← inShape_length _ _ hfull, hd]; exact axes_lt axes)
      ((inShape_length _ _ hfull).symm.trans (inShape_length _ _ htop)) hag
  · rw [← kg r full hfull, Option.getD_some]
    exact read_slice _ _ full top (axes_nodup axes hnd) (by rw [← inShape_length _ _ hfull, hd]; exact axes_lt axes)
      ((inShape_length _ _ hfull).symm.trans (inShape_length _ _ htop)) hag

example : InShape [2, 4] [1, 3] ∧ [2, 4].length = 2 := ⟨by simp [InShape], rfl⟩

theorem reshapeRows_count (rows total : ℕ) (shape : List ℕ) (points : ℕ → List ℝ) (h : 0 < shape.prod) :
    (reshapeRows rows total shape points = none ↔ ¬shape.prod ∣ rows * total) ∧
      ∀ r data, reshapeRows rows total shape points = some (r, data) → r * shape.prod = rows * total := by
  unfold reshapeRows
  by_cases hd : shape.prod ∣ rows * total
  · rw [if_neg (by rw [Nat.mod_eq_zero_of_dvd hd]; omega)]
    refine ⟨by simp [hd], fun r data e => ?_⟩
    rw [Option.some.injEq, Prod.mk.injEq] at e
    rw [← e.1, Nat.div_mul_cancel hd]
  · rw [if_pos (.inr fun e => hd (Nat.dvd_of_mod_eq_zero e))]
    exact ⟨by simp [hd], fun r data e => by simp at e⟩

/-- **C171** is false of bases with fewer states than points: the coordinates of a slice have more rows than there are axes if the numbers divide, and
otherwise raise an error. -/
theorem C171_truncated_negation (A : Matrix (Fin d) (Fin d) ℝ) (shape fundamental : List ℕ) (axes : List (Fin d)) (idx : Option (List ℕ))
    (hs : 0 < shape.prod) (hax : axes ≠ []) (hlt : shape.prod < fundamental.prod) :
    (xCoordinatesInAxes A shape fundamental axes idx = none ↔ ¬shape.prod ∣ axes.length * fundamental.prod) ∧
    (kCoordinatesInAxes A shape fundamental axes idx = none ↔ ¬shape.prod ∣ axes.length * fundamental.prod) ∧
    (∀ r data, xCoordinatesInAxes A shape fundamental axes idx = some (r, data) → axes.length < r) ∧
    ∀ r data, kCoordinatesInAxes A shape fundamental axes idx = some (r, data) → axes.length < r := by
  have hl : 0 < axes.length := List.length_pos_iff.2 hax
  have key : ∀ r, r * shape.prod = axes.length * fundamental.prod → axes.length < r := by
    intro r e
    by_contra hr
    have h1 : r * shape.prod ≤ axes.length * shape.prod := Nat.mul_le_mul_right _ (not_lt.1 hr)
    have h2 : axes.length * shape.prod < axes.length * fundamental.prod := Nat.mul_lt_mul_of_pos_left hlt hl
    omega
  unfold xCoordinatesInAxes kCoordinatesInAxes
  refine ⟨by rw [Option.map_eq_none_iff]; exact (reshapeRows_count _ _ _ _ hs).1, by rw [Option.map_eq_none_iff]; exact (reshapeRows_count _ _ _ _ hs).1,
    fun r data e => ?_, fun r data e => ?_⟩
  all_goals
    obtain ⟨⟨r', data'⟩, e', h⟩ := Option.map_eq_some_iff.1 e
    rw [Prod.mk.injEq] at h
    exact key r (h.1 ▸ (reshapeRows_count _ _ _ _ hs).2 r' data' e')

/-- Two of four plane waves along each of two axes: eight rows of coordinates in place of two. -/
example (A : Matrix (Fin 2) (Fin 2) ℝ) : ∃ data, kCoordinatesInAxes A [2, 2] [4, 4] [0, 1] none = some (8, data) := ⟨_, rfl⟩

end Verif
