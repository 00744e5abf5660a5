import Verif.Model.PlotLattice
import Verif.Props.C22_Zone
import Verif.Props.C28_Projection
import Verif.Props.C07_DataInAxes
import Verif.Props.C121_Overlaps
import Verif.Props.C126_PlotSlices
import Verif.Props.C138_Bands

/-!
# C153: The points drawn for a lattice
-/

set_option autoImplicit false

namespace Verif

open Finset Spec Matrix

variable {d : ℕ}

/-- The reciprocal lattice vectors: the rows of `2π (A⁻¹)ᵀ`. -/
noncomputable def Spec.reciprocal (A : Matrix (Fin d) (Fin d) ℝ) (i : Fin d) : Fin d → ℝ := ((2 * Real.pi) • (A⁻¹)ᵀ) i

/-- A lattice used in the examples. -/
def skewedCell : Matrix (Fin 3) (Fin 3) ℝ := !![2, 1, 0; 0, 3, 0; 0, 0, 5]

theorem kPoint_reciprocal (A : Matrix (Fin d) (Fin d) ℝ) (nk : Fin d → ℤ) : kPointAtIndex A nk = ∑ i, (nk i : ℝ) • reciprocal A i := kPoint_eq A nk

theorem plotKPoints_eq (A : Matrix (Fin d) (Fin d) ℝ) (shape : Fin d → ℕ) (axes : Fin d × Fin d) (points : List (Fin d → ℝ)) :
    plotKPoints A shape axes points = points.map (projectPoint [(shape axes.1 : ℝ) • reciprocal A axes.1, (shape axes.2 : ℝ) • reciprocal A axes.2]) := rfl

theorem mem_braggLabels (g : Fin 3 → ℤ) : g ∈ braggLabels 3 ↔ ∀ i, g i = -1 ∨ g i = 0 ∨ g i = 1 := by
  refine ⟨fun h => braggLabels_range g h, fun h => ?_⟩
  by_cases hg : g = 0
  · rw [hg]
    exact List.mem_of_getElem? braggLabels_zero
  · exact List.mem_of_mem_tail (braggLabels_all g h hg)

/-- **C153.** The Bragg points drawn are the projections of the 27 combinations of the vectors `nᵢ bᵢ` with coefficients `-1`, `0` and `1` (the origin is among them). -/
theorem C153_bragg (A : Matrix (Fin 3) (Fin 3) ℝ) (hA : IsUnit A.det) (shape : Fin 3 → ℕ) (hs : ∀ i, 0 < shape i) (axes : Fin 3 × Fin 3) :
    (plotBraggPoints A shape axes).length = 27 ∧
    ∀ q, q ∈ plotBraggPoints A shape axes ↔ ∃ g : Fin 3 → ℤ, (∀ i, g i = -1 ∨ g i = 0 ∨ g i = 1) ∧
      q = projectPoint [(shape axes.1 : ℝ) • reciprocal A axes.1, (shape axes.2 : ℝ) • reciprocal A axes.2] (∑ i, ((shape i * g i : ℤ) : ℝ) • reciprocal A i) := by
  unfold plotBraggPoints
  rw [plotKPoints_eq, braggPoints]
  refine ⟨by simp [braggLabels], fun q => ?_⟩
  simp only [List.map_map, List.mem_map, Function.comp_apply, mem_braggLabels, braggPoint_eq A hA shape hs, kPoint_reciprocal]
  exact exists_congr fun g => and_congr_right fun _ => eq_comm

example : IsUnit skewedCell.det ∧ ∀ i, 0 < (![3, 2, 4] : Fin 3 → ℕ) i := by
  refine ⟨?_, by decide⟩
  simp [skewedCell, Matrix.det_fin_three]

theorem slicedColumns_first (rows : ℕ) (hr : 0 < rows) (ns : List ℕ) (array : List ℕ → ℝ) (s : List (Option ℕ)) (hl : s.length = ns.length)
    (hin : ∀ p ∈ s.zip ns, ∀ i, p.1 = some i → i < p.2) :
    slicedColumns rows (rows :: ns) array (none :: s) = some ((List.range (sliceShape s ns).prod).map fun p c =>
      array (c.val :: fillSlice s (unravel (sliceShape s ns) p))) := by
  unfold slicedColumns
  have h1 : (none :: s) ++ List.replicate ((rows :: ns).length - (none :: s : List (Option ℕ)).length) none = (none :: s : List (Option ℕ)) := by simp [hl]
  simp only [h1]
  have h2 : sliceShape (none :: s : List (Option ℕ)) (rows :: ns) = rows :: sliceShape s ns := rfl
  rw [h2, List.prod_cons, Nat.mul_div_cancel_left _ hr, if_neg]
  · congr 1
    apply List.map_congr_left
    intro p hp
    have hp := List.mem_range.1 hp
    funext c
    have e : unravel (rows :: sliceShape s ns) (c * (sliceShape s ns).prod + p) = c.val :: unravel (sliceShape s ns) p := by
      rw [unravel, unravel_mul_add, mul_comm, Nat.mul_add_div (by omega), Nat.div_eq_of_lt hp, add_zero, Nat.mod_eq_of_lt c.isLt]
    rw [e]
    rfl
  · rintro (h | ⟨p, hp, i, hi, hle⟩ | h)
    · simp [hl] at h
    · rw [List.zip_cons_cons, List.mem_cons] at hp
      rcases hp with rfl | hp
      · cases hi
      · exact absurd (hin p hp i hi) (by omega)
    · simp at h

theorem xPoint_fractions (A : Matrix (Fin 3) (Fin 3) ℝ) (n : Fin 3 → ℕ) (x : Fin 3 → ℕ) :
    xPointAtIndex A n (fun c => (x c : ℤ)) = ∑ c, ((x c : ℝ) / n c) • A c := by
  funext c
  simp only [xPointAtIndex, tensordot00, dxStacked, Matrix.of_apply, Finset.sum_apply, Pi.smul_apply, smul_eq_mul, Int.cast_natCast]
  exact sum_congr rfl fun i _ => by ring

/-- The points of the grid in the plane with the index `i` along the axis `r`. -/
def Spec.InPlane (n : Fin 3 → ℕ) (r : Fin 3) (i : ℕ) (x : Fin 3 → ℕ) : Prop := (∀ c, x c < n c) ∧ x r = i

theorem slice_plane (a0 a1 r : Fin 3) (h01 : a0 ≠ a1) (h0 : r ≠ a0) (h1 : r ≠ a1) (i : ℕ) :
    sliceIgnoringAxes [i] [0, 1 + a0.val, 1 + a1.val] = none :: List.ofFn fun c : Fin 3 => if c = r then some i else none := by
  have := sliceIgnoring_eq [0, 1 + a0.val, 1 + a1.val] [0, if r = 0 then i else 0, if r = 1 then i else 0, if r = 2 then i else 0]
    (by fin_cases a0 <;> fin_cases a1 <;> simp_all) (by fin_cases a0 <;> fin_cases a1 <;> simp_all)
  fin_cases a0 <;> fin_cases a1 <;> fin_cases r <;> first | exact absurd rfl h01 | exact absurd rfl h0 | exact absurd rfl h1 | exact this

theorem mem_plane (n : Fin 3 → ℕ) (r : Fin 3) (i : ℕ) (hi : i < n r) (f : List ℕ → List ℝ) (q : List ℝ) :
    (∃ p < (sliceShape (List.ofFn fun c : Fin 3 => if c = r then some i else none) [n 0, n 1, n 2]).prod,
      f (fillSlice (List.ofFn fun c : Fin 3 => if c = r then some i else none)
        (unravel (sliceShape (List.ofFn fun c : Fin 3 => if c = r then some i else none) [n 0, n 1, n 2]) p)) = q) ↔
    ∃ x : Fin 3 → ℕ, InPlane n r i x ∧ q = f [x 0, x 1, x 2] := by
  have key : ∀ a b : ℕ, ∀ g : ℕ → ℕ → List ℝ, (∃ p < [a, b].prod, g (p / b % a) (p % b) = q) ↔ ∃ y z, y < a ∧ z < b ∧ q = g y z := by
    intro a b g
    simp only [List.prod_cons, List.prod_nil, mul_one]
    constructor
    · rintro ⟨p, hp, rfl⟩
      have hb : 0 < b := Nat.pos_of_ne_zero fun h => by simp [h] at hp
      have ha : 0 < a := Nat.pos_of_ne_zero fun h => by simp [h] at hp
      exact ⟨_, _, Nat.mod_lt _ ha, Nat.mod_lt _ hb, rfl⟩
    · rintro ⟨y, z, hy, hz, rfl⟩
      refine ⟨y * b + z, by nlinarith, ?_⟩
      rw [mul_comm y b, Nat.mul_add_div (by omega), Nat.div_eq_of_lt hz, add_zero, Nat.mod_eq_of_lt hy, Nat.mul_add_mod, Nat.mod_eq_of_lt hz]
  have up : ∀ a b p : ℕ, unravel [a, b] p = [p / b % a, p % b] := fun a b p => by simp [unravel]
  have fin : (∃ x : Fin 3 → ℕ, InPlane n r i x ∧ q = f [x 0, x 1, x 2]) ↔
      ∃ x0 x1 x2 : ℕ, InPlane n r i ![x0, x1, x2] ∧ q = f [x0, x1, x2] :=
    ⟨fun ⟨x, h, e⟩ => ⟨x 0, x 1, x 2, by rwa [show ![x 0, x 1, x 2] = x from by funext c; fin_cases c <;> rfl], e⟩,
      fun ⟨x0, x1, x2, h, e⟩ => ⟨_, h, e⟩⟩
  rw [fin]
  unfold InPlane
  simp only [Fin.forall_fin_succ, IsEmpty.forall_iff, and_true]
  fin_cases r
  · have := key (n 1) (n 2) fun y z => f [i, y, z]
    simp only [← up] at this
    refine Iff.trans this ⟨?_, ?_⟩
    · rintro ⟨y, z, hy, hz, e⟩
      exact ⟨i, y, z, ⟨⟨hi, hy, hz⟩, rfl⟩, e⟩
    · rintro ⟨x, y, z, ⟨⟨_, hy, hz⟩, rfl⟩, e⟩
      exact ⟨y, z, hy, hz, e⟩
  · have := key (n 0) (n 2) fun y z => f [y, i, z]
    change (∃ p < (sliceShape [none, some i, none] [n 0, n 1, n 2]).prod, f (fillSlice [none, some i, none] (unravel (sliceShape [none, some i, none] [n 0, n 1, n 2]) p)) = q) ↔ _
    simp only [sliceShape, up, fillSlice]
    refine Iff.trans this ⟨?_, ?_⟩
    · rintro ⟨y, z, hy, hz, e⟩
      exact ⟨y, i, z, ⟨⟨hy, hi, hz⟩, rfl⟩, e⟩
    · rintro ⟨x, y, z, ⟨⟨hx, _, hz⟩, rfl⟩, e⟩
      exact ⟨x, z, hx, hz, e⟩
  · have := key (n 0) (n 1) fun y z => f [y, z, i]
    change (∃ p < (sliceShape [none, none, some i] [n 0, n 1, n 2]).prod, f (fillSlice [none, none, some i] (unravel (sliceShape [none, none, some i] [n 0, n 1, n 2]) p)) = q) ↔ _
    simp only [sliceShape, up, fillSlice]
    refine Iff.trans this ⟨?_, ?_⟩
    · rintro ⟨y, z, hy, hz, e⟩
      exact ⟨y, z, i, ⟨⟨hy, hz, hi⟩, rfl⟩, e⟩
    · rintro ⟨x, y, z, ⟨⟨hx, hy, _⟩, rfl⟩, e⟩
      exact ⟨x, y, hx, hy, e⟩

/-- **C153.** The points drawn in a plane are the projections of the points of the grid in the plane, one for each of them. -/
theorem C153_x_plane (A : Matrix (Fin 3) (Fin 3) ℝ) (n : Fin 3 → ℕ) (a0 a1 r : Fin 3) (h01 : a0 ≠ a1) (h0 : r ≠ a0) (h1 : r ≠ a1) (i : ℕ) (hi : i < n r) :
    ∃ points, plotXInPlane A n (a0, a1) [i] = some points ∧ points.length = n a0 * n a1 ∧
      ∀ q, q ∈ points ↔ ∃ x, InPlane n r i x ∧ q = projectPoint [A a0, A a1] (∑ c, ((x c : ℝ) / n c) • A c) := by
  unfold plotXInPlane
  simp only
  rw [slice_plane a0 a1 r h01 h0 h1 i, slicedColumns_first 3 (by norm_num) _ _ _ (by simp)]
  · refine ⟨_, rfl, ?_, fun q => ?_⟩
    · simp only [plotXPoints, List.length_map, List.length_range]
      fin_cases a0 <;> fin_cases a1 <;> fin_cases r <;> first
        | exact absurd rfl h01
        | exact absurd rfl h0
        | exact absurd rfl h1
        | (simp [sliceShape]; done)
        | (simp [sliceShape]; exact mul_comm _ _)
    · have := mem_plane n r i hi (fun x => projectPoint [A a0, A a1] (∑ c : Fin 3, ((x.getD c 0 : ℝ) / n c) • A c)) q
      simp only [plotXPoints, List.map_map, List.mem_map, List.mem_range, Function.comp_apply]
      refine Iff.trans ?_ (this.trans ?_)
      · refine exists_congr fun p => and_congr_right fun _ => ?_
        rw [← xPoint_fractions]
        simp
      · refine exists_congr fun x => and_congr_right fun _ => ?_
        rw [Fin.sum_univ_three, Fin.sum_univ_three]
        rfl
  · intro p hp j hj
    fin_cases r <;> simp at hp <;> rcases hp with rfl | rfl | rfl <;> simp at hj <;> subst hj <;> exact hi

/-- **C153.** An index outside the grid raises. -/
theorem C153_x_plane_outside (A : Matrix (Fin 3) (Fin 3) ℝ) (n : Fin 3 → ℕ) (a0 a1 r : Fin 3) (h01 : a0 ≠ a1) (h0 : r ≠ a0) (h1 : r ≠ a1) (i : ℕ)
    (hi : n r ≤ i) : plotXInPlane A n (a0, a1) [i] = none := by
  unfold plotXInPlane
  simp only
  rw [slice_plane a0 a1 r h01 h0 h1 i]
  unfold slicedColumns
  rw [if_pos, Option.map_none]
  refine Or.inr (Or.inl ⟨(some i, n r), ?_, i, rfl, hi⟩)
  fin_cases r <;> simp

example : (![3, 4, 5] : Fin 3 → ℕ) 1 ≤ 4 := by decide

example : (2 : Fin 3) ≠ 0 ∧ (2 : Fin 3) ≠ 1 ∧ InPlane ![3, 4, 5] 1 2 ![1, 2, 4] := ⟨by decide, by decide, by unfold InPlane; decide⟩

theorem mem_zone_label (a b : ℕ) (k : ℕ) (hk : k < a * b) (c : Fin 3) :
    (stackedNkPoints [a, b, 1] k).getD c 0 = ![nkPoints a (k / b), nkPoints b (k % b), 0] c := by
  have hb : 0 < b := Nat.pos_of_ne_zero fun h => by simp [h] at hk
  have h1 : k / b % a = k / b := Nat.mod_eq_of_lt (Nat.div_lt_of_lt_mul (by rwa [mul_comm] at hk))
  have h3 : nkPoints 1 0 = 0 := by decide
  fin_cases c <;> simp [stackedNkPoints, unravel, h1, h3, Nat.mod_one]

/-- **C153 (partial).** One point is drawn for each pair of indices along the first two axes: it differs from the point with these labels, and none along the third
axis, by a combination of the vectors `nᵢ bᵢ` with coefficients between `-2` and `2`, and it is no further from the origin.
Missing: that it lies in the first Brillouin zone, see `C153_zone_negation`. -/
theorem C153_zone_partial (A : Matrix (Fin 3) (Fin 3) ℝ) (hA : IsUnit A.det) (n : Fin 3 → ℕ) (hn : ∀ i, 0 < n i) (axes : Fin 3 × Fin 3) :
    ∃ points : List (Fin 3 → ℝ), plotZonePoints A n axes =
        some (points.map (projectPoint [(n axes.1 : ℝ) • reciprocal A axes.1, (n axes.2 : ℝ) • reciprocal A axes.2])) ∧
      points.length = n 0 * n 1 ∧
      ∀ i < n 0, ∀ j < n 1, ∃ q, points[i * n 1 + j]? = some q ∧ ∃ g : Fin 3 → ℤ, (∀ c, |g c| ≤ 2) ∧
        q = ∑ c, ((![freq (n 0) i, freq (n 1) j, 0] c - n c * g c : ℤ) : ℝ) • reciprocal A c ∧
        vnorm q ≤ vnorm (∑ c, ((![freq (n 0) i, freq (n 1) j, 0] c : ℤ) : ℝ) • reciprocal A c) := by
  have tol := decrementTolerance_nonneg A
  have each : ∀ l : Fin 3 → ℤ, ∃ c', ((decrementBrillouinZone (decrementTolerance A) A n l).bind fun c =>
      decrementBrillouinZone (decrementTolerance A) A n c) = some c' ∧
      vnorm (kPointAtIndex A c') ≤ vnorm (kPointAtIndex A l) ∧ ∃ g : Fin 3 → ℤ, (∀ c, |g c| ≤ 2) ∧ c' = fun c => l c - n c * g c := by
    intro l
    obtain ⟨g, hg, e, _⟩ := C22_decrement_3d _ tol A hA n hn l
    obtain ⟨g', hg', e', _⟩ := C22_decrement_3d _ tol A hA n hn fun i => l i - n i * g i
    refine ⟨_, by rw [e]; exact e', ?_, fun c => g c + g' c, fun c => ?_, ?_⟩
    · exact (C22_decrement_never_away_partial _ tol A hA n hn _ _ e').1.trans (C22_decrement_never_away_partial _ tol A hA n hn _ _ e).1
    · rcases hg c with h | h | h <;> rcases hg' c with h' | h' | h' <;> simp [h, h']
    · funext c
      ring
  choose f hf using each
  refine ⟨(List.range (n 0 * n 1)).map fun k => kPointAtIndex A (f fun i => (stackedNkPoints [n 0, n 1, 1] k).getD i 0), ?_, by simp, ?_⟩
  · unfold plotZonePoints zoneCoordinates
    rw [show [n 0, n 1, 1].prod = n 0 * n 1 from by simp]
    have : (List.range (n 0 * n 1)).mapM (fun k => (decrementBrillouinZone (decrementTolerance A) A n fun i => (stackedNkPoints [n 0, n 1, 1] k).getD i 0).bind
        fun c => decrementBrillouinZone (decrementTolerance A) A n c) =
        some ((List.range (n 0 * n 1)).map fun k => f fun i => (stackedNkPoints [n 0, n 1, 1] k).getD i 0) := by
      exact mapM_some_map _ _ _ fun k _ => (hf _).1
    rw [this, Option.map_some, plotKPoints_eq]
    simp [Function.comp_def]
  · intro i hi j hj
    have hk : i * n 1 + j < n 0 * n 1 := by nlinarith
    have e1 : (i * n 1 + j) / n 1 = i := by rw [mul_comm, Nat.mul_add_div (by omega), Nat.div_eq_of_lt hj, add_zero]
    have e2 : (i * n 1 + j) % n 1 = j := by rw [mul_comm, Nat.mul_add_mod, Nat.mod_eq_of_lt hj]
    have el : (fun c : Fin 3 => (stackedNkPoints [n 0, n 1, 1] (i * n 1 + j)).getD c 0) = ![freq (n 0) i, freq (n 1) j, 0] := by
      funext c
      rw [mem_zone_label _ _ _ hk, e1, e2, nkPoints_eq_freq hi, nkPoints_eq_freq hj]
    refine ⟨kPointAtIndex A (f ![freq (n 0) i, freq (n 1) j, 0]), by
      rw [List.getElem?_map, List.getElem?_range hk, Option.map_some, el], ?_⟩
    obtain ⟨_, h2, g, hg, e⟩ := hf ![freq (n 0) i, freq (n 1) j, 0]
    refine ⟨g, hg, ?_, ?_⟩
    · rw [kPoint_reciprocal, e]
    · rw [← kPoint_reciprocal]
      exact h2

example : freq 4 3 = -1 ∧ freq 4 2 = -2 ∧ IsUnit skewedCell.det := by
  refine ⟨by decide, by decide, ?_⟩
  simp [skewedCell, Matrix.det_fin_three]

theorem mem_of_mapM {α β : Type*} (f : α → Option β) : ∀ (l : List α) (cs : List β), l.mapM f = some cs → ∀ a ∈ l, ∀ b, f a = some b → b ∈ cs
  | [], _, _, a, ha, _, _ => by simp at ha
  | x :: l, cs, h, a, ha, b, hb => by
    rw [List.mapM_cons] at h
    rcases hx : f x with _ | y
    · simp [hx] at h
    · rcases hl : l.mapM f with _ | ys
      · simp [hx, hl] at h
      · simp [hx, hl] at h
        subst h
        rcases List.mem_cons.1 ha with rfl | ha
        · rw [hx] at hb
          simp [Option.some.inj hb]
        · exact List.mem_cons_of_mem _ (mem_of_mapM f l ys hl a ha b hb)

/-- The first Brillouin zone of the lattice with vectors `nᵢ bᵢ`: no lattice point is closer than the origin. -/
def Spec.InZone (A : Matrix (Fin 3) (Fin 3) ℝ) (n : Fin 3 → ℕ) (q : Fin 3 → ℝ) : Prop :=
  ∀ m : Fin 3 → ℤ, vnorm q ≤ vnorm (q - ∑ c, ((n c * m c : ℤ) : ℝ) • reciprocal A c)

/-- A skewed lattice. -/
def skewed : Matrix (Fin 3) (Fin 3) ℝ := !![1, -10, 0; 0, 1, 0; 0, 0, 1]

theorem skewed_inv : skewed⁻¹ = !![1, 10, 0; 0, 1, 0; 0, 0, 1] := by
  apply Matrix.inv_eq_right_inv
  ext i j
  fin_cases i <;> fin_cases j <;> simp [skewed, Matrix.mul_apply, Fin.sum_univ_three]

theorem skewed_unit : IsUnit skewed.det := by
  simp [skewed, Matrix.det_fin_three]

theorem skewed_sum (x : Fin 3 → ℝ) : ∑ c, x c • reciprocal skewed c = (2 * Real.pi) • ![x 0 + 10 * x 1, x 1, x 2] := by
  unfold reciprocal
  rw [skewed_inv, Fin.sum_univ_three]
  funext c
  fin_cases c <;> simp [Matrix.vecHead, Matrix.vecTail] <;> ring

/-- **C153 (negation).** Decrementing twice does not always reach the first Brillouin zone: one of the points drawn for a skewed lattice lies outside. -/
theorem C153_zone_negation : ∃ (A : Matrix (Fin 3) (Fin 3) ℝ) (n : Fin 3 → ℕ) (coordinates : List (Fin 3 → ℤ)), IsUnit A.det ∧ (∀ i, 0 < n i) ∧
    zoneCoordinates A n = some coordinates ∧ (∀ axes, plotZonePoints A n axes = some (plotKPoints A n axes (coordinates.map (kPointAtIndex A)))) ∧
    ∃ q ∈ coordinates.map (kPointAtIndex A), ¬ InZone A n q := by
  have hn : ∀ i, 0 < (![2, 2, 1] : Fin 3 → ℕ) i := by decide
  obtain ⟨points, hp, hl, hq⟩ := C153_zone_partial skewed skewed_unit ![2, 2, 1] hn (0, 1)
  have hz : ∃ cs, zoneCoordinates skewed ![2, 2, 1] = some cs := by
    rcases h : zoneCoordinates skewed ![2, 2, 1] with _ | cs
    · simp [plotZonePoints, h] at hp
    · exact ⟨cs, rfl⟩
  obtain ⟨cs, hcs⟩ := hz
  refine ⟨skewed, ![2, 2, 1], cs, skewed_unit, hn, hcs, fun axes => by rw [plotZonePoints, hcs, Option.map_some], ?_⟩
  -- the coordinate with number one
  have tol := decrementTolerance_nonneg skewed
  obtain ⟨g, hg, e, _⟩ := C22_decrement_3d _ tol skewed skewed_unit ![2, 2, 1] hn ![0, -1, 0]
  obtain ⟨g', hg', e', _⟩ := C22_decrement_3d _ tol skewed skewed_unit ![2, 2, 1] hn fun i => (![0, -1, 0] : Fin 3 → ℤ) i - (![2, 2, 1] : Fin 3 → ℕ) i * g i
  set c' : Fin 3 → ℤ := fun i => (![0, -1, 0] : Fin 3 → ℤ) i - (![2, 2, 1] : Fin 3 → ℕ) i * g i - (![2, 2, 1] : Fin 3 → ℕ) i * g' i with hc'
  have hmem : c' ∈ cs := by
    refine mem_of_mapM _ _ cs hcs 1 (by decide) c' ?_
    have el : (fun c : Fin 3 => (stackedNkPoints [(![2, 2, 1] : Fin 3 → ℕ) 0, (![2, 2, 1] : Fin 3 → ℕ) 1, 1] 1).getD c 0) = ![0, -1, 0] := by
      funext c
      fin_cases c <;> decide
    rw [el, e]
    exact e'
  refine ⟨kPointAtIndex skewed c', List.mem_map_of_mem hmem, fun h => ?_⟩
  have hx : 6 ≤ |c' 0 + 10 * c' 1| := by
    have e0 : c' 0 = -(2 * g 0) - 2 * g' 0 := by simp [hc']
    have e1 : c' 1 = -1 - 2 * g 1 - 2 * g' 1 := by simp [hc']
    rw [e0, e1]
    rcases hg 0 with h | h | h <;> rcases hg' 0 with h' | h' | h' <;> rcases hg 1 with h1 | h1 | h1 <;> rcases hg' 1 with h1' | h1' | h1' <;>
      rw [h, h', h1, h1'] <;> decide
  have away : ∀ s : ℤ, s ^ 2 = 1 → 6 ≤ s * (c' 0 + 10 * c' 1) → False := by
    intro s hs h6
    have h2 := h ![s, 0, 0]
    rw [kPoint_reciprocal, ← sum_sub_distrib] at h2
    simp only [← sub_smul] at h2
    rw [skewed_sum, skewed_sum fun c => (c' c : ℝ) - (((![2, 2, 1] : Fin 3 → ℕ) c * (![s, 0, 0] : Fin 3 → ℤ) c : ℤ) : ℝ)] at h2
    rw [vnorm_smul_nonneg _ (by positivity), vnorm_smul_nonneg _ (by positivity)] at h2
    have h3 := le_of_mul_le_mul_left h2 (by positivity)
    have h4 := mul_self_le_mul_self (vnorm_nonneg _) h3
    rw [← sq, ← sq, vnorm_sq, vnorm_sq] at h4
    simp [dotProduct, Fin.sum_univ_three] at h4
    have h6' : (6 : ℝ) ≤ s * (c' 0 + 10 * c' 1) := by exact_mod_cast h6
    have hs' : (s : ℝ) ^ 2 = 1 := by exact_mod_cast hs
    nlinarith
  rcases abs_cases (c' 0 + 10 * c' 1) with ⟨ha, _⟩ | ⟨ha, _⟩
  · exact away 1 (by norm_num) (by omega)
  · exact away (-1) (by norm_num) (by omega)

theorem slicedColumns_pad (rows : ℕ) (shape : List ℕ) (array : List ℕ → ℝ) (s : List (Option ℕ)) (h : s.length + 1 = shape.length) :
    slicedColumns rows shape array s = slicedColumns rows shape array (s ++ [none]) := by
  unfold slicedColumns
  have h1 : shape.length - s.length = 1 := by omega
  have h2 : shape.length - (s ++ [none]).length = 0 := by simp; omega
  have h3 : ¬ shape.length < s.length := by omega
  have h4 : ¬ shape.length < (s ++ [none] : List (Option ℕ)).length := by simp; omega
  simp only [h1, h2, h3, h4, List.replicate_one, List.replicate_zero, List.append_nil]

/-- **C153 (partial).** What `plot_fundamental_k_in_plane_projected_2d` draws for the axes `0` and `1`: the points with the given index along the axis `1`.
Missing: the points with the index along the remaining axis, see `C153_k_plane_negation`. -/
theorem C153_k_plane_partial (A : Matrix (Fin 3) (Fin 3) ℝ) (shape n : Fin 3 → ℕ) (i : ℕ) (hi : i < n 1) :
    ∃ points, plotKInPlane A shape n (0, 1) [i] = some points ∧ points.length = n 0 * n 2 ∧
      ∀ q, q ∈ points ↔ ∃ x, InPlane n 1 i x ∧
        q = projectPoint [(shape 0 : ℝ) • reciprocal A 0, (shape 1 : ℝ) • reciprocal A 1] (∑ c, (freq (n c) (x c) : ℝ) • reciprocal A c) := by
  have hs : sliceIgnoringAxes [i] [(0 : Fin 3).val, (1 : Fin 3).val] = [none, none, some i] := by
    have := sliceIgnoring_eq [0, 1] [0, 0, i] (by simp) (by simp)
    exact this
  have ho : (List.ofFn fun c : Fin 3 => if c = 1 then some i else none) = [none, some i, none] := rfl
  unfold plotKInPlane
  simp only
  rw [hs, slicedColumns_pad _ _ _ _ (by simp)]
  have := slicedColumns_first 3 (by norm_num) [n 0, n 1, n 2]
    (fun i => if h : i.getD 0 0 < 3 then kPointAtIndex A (fun c => nkPoints (n c) (i.getD (c + 1) 0)) ⟨i.getD 0 0, h⟩ else 0) [none, some i, none] (by simp)
    (by
      intro p hp j hj
      simp at hp
      rcases hp with rfl | rfl | rfl <;> simp at hj
      subst hj
      exact hi)
  rw [show [none, none, some i] ++ [none] = none :: [none, some i, none] from rfl, this]
  refine ⟨_, rfl, ?_, fun q => ?_⟩
  · simp [plotKPoints, sliceShape]
  · have := mem_plane n 1 i hi (fun x => projectPoint [(shape 0 : ℝ) • reciprocal A 0, (shape 1 : ℝ) • reciprocal A 1]
      (∑ c : Fin 3, (nkPoints (n c) (x.getD c 0) : ℝ) • reciprocal A c)) q
    rw [ho] at this
    simp only [plotKPoints_eq, List.map_map, List.mem_map, List.mem_range, Function.comp_apply]
    refine Iff.trans ?_ (this.trans ?_)
    · refine exists_congr fun p => and_congr_right fun _ => ?_
      rw [← kPoint_reciprocal]
      simp
    · refine exists_congr fun x => and_congr_right fun hx => ?_
      have e : ∀ c : Fin 3, nkPoints (n c) ([x 0, x 1, x 2].getD c 0) = freq (n c) (x c) := by
        intro c
        fin_cases c
        · exact nkPoints_eq_freq (hx.1 0)
        · exact nkPoints_eq_freq (hx.1 1)
        · exact nkPoints_eq_freq (hx.1 2)
      simp only [e]

example : InPlane ![1, 2, 3] 1 0 ![0, 0, 2] ∧ ¬ InPlane ![1, 2, 3] 2 0 ![0, 0, 2] := by
  unfold InPlane
  decide

/-- **C153 (negation).** The points drawn are not those of the plane: for a grid with `1`, `2` and `3` points, three are drawn for the plane of the first two axes,
which has two. -/
theorem C153_k_plane_negation : ∃ points, plotKInPlane 1 ![1, 2, 3] ![1, 2, 3] (0, 1) [0] = some points ∧ points.length = 3 ∧
    (![1, 2, 3] : Fin 3 → ℕ) 0 * (![1, 2, 3] : Fin 3 → ℕ) 1 = 2 := by
  obtain ⟨points, h, hl, _⟩ := C153_k_plane_partial 1 ![1, 2, 3] ![1, 2, 3] 0 (by decide)
  exact ⟨points, h, hl, rfl⟩

/-- **C153 (partial).** When the step of the grid along each axis is the unit vector of that axis, the point drawn for an index is the projection of its position.
Missing: other grids, see `C153_x_index_negation`. -/
theorem C153_x_index_partial (A : Matrix (Fin 3) (Fin 3) ℝ) (n : Fin 3 → ℕ) (hA : ∀ c c', A c c' = if c = c' then (n c : ℝ) else 0) (a0 a1 : Fin 3)
    (x : Fin 3 → ℕ) (hx : ∀ c, x c < n c) :
    plotXAtIndex A n (a0, a1) x = some [projectPoint [A a0, A a1] (∑ c, ((x c : ℝ) / n c) • A c)] := by
  unfold plotXAtIndex plotXPoints
  rw [if_pos hx]
  simp only [List.map_cons, List.map_nil]
  congr 3
  funext c
  rw [Finset.sum_apply, Finset.sum_eq_single c]
  · have : (n c : ℝ) ≠ 0 := by
      have := hx c
      exact_mod_cast (by omega : n c ≠ 0)
    simp [hA, this]
  · intro b _ hb
    simp [hA, hb]
  · simp

example : (∀ c c', (!![2, 0, 0; 0, 3, 0; 0, 0, 4] : Matrix (Fin 3) (Fin 3) ℝ) c c' = if c = c' then ((![2, 3, 4] : Fin 3 → ℕ) c : ℝ) else 0) ∧
    ∀ c, (![1, 2, 0] : Fin 3 → ℕ) c < (![2, 3, 4] : Fin 3 → ℕ) c := by
  refine ⟨fun c c' => ?_, by decide⟩
  fin_cases c <;> fin_cases c' <;> simp

theorem project_unit (p : Fin 3 → ℝ) : projectPoint [(1 : Matrix (Fin 3) (Fin 3) ℝ) 0, (1 : Matrix (Fin 3) (Fin 3) ℝ) 1] p = [p 0, p 1] := by
  have h0 : vnorm ((1 : Matrix (Fin 3) (Fin 3) ℝ) 0) = 1 := by simp [vnorm, dotProduct, Fin.sum_univ_three, Matrix.one_apply]
  have h1 : vnorm ((1 : Matrix (Fin 3) (Fin 3) ℝ) 1) = 1 := by simp [vnorm, dotProduct, Fin.sum_univ_three, Matrix.one_apply]
  have h2 : subtractProjections [(1 : Matrix (Fin 3) (Fin 3) ℝ) 0] ((1 : Matrix (Fin 3) (Fin 3) ℝ) 1) = (1 : Matrix (Fin 3) (Fin 3) ℝ) 1 := by
    funext c
    simp [subtractProjections, dotProduct, Fin.sum_univ_three, Matrix.one_apply]
  have h3 : projectedAxes [(1 : Matrix (Fin 3) (Fin 3) ℝ) 0, (1 : Matrix (Fin 3) (Fin 3) ℝ) 1] =
      [(1 : Matrix (Fin 3) (Fin 3) ℝ) 0, (1 : Matrix (Fin 3) (Fin 3) ℝ) 1] := by
    have e : projectedAxes [(1 : Matrix (Fin 3) (Fin 3) ℝ) 0] = [(1 : Matrix (Fin 3) (Fin 3) ℝ) 0] := by
      have := projectedAxes_append [] ((1 : Matrix (Fin 3) (Fin 3) ℝ) 0)
      rw [List.nil_append] at this
      rw [this]
      simp [projectedAxes, subtractProjections, h0]
    have := projectedAxes_append [(1 : Matrix (Fin 3) (Fin 3) ℝ) 0] ((1 : Matrix (Fin 3) (Fin 3) ℝ) 1)
    rw [e, h2, h1] at this
    simpa using this
  rw [projectPoint, h3]
  simp [dotProduct, Fin.sum_univ_three, Matrix.one_apply]

/-- **C153 (negation).** The point drawn for an index is not the projection of its position: on the unit cube with two points along the first axis the second of them is
drawn at `1`, its position is `1 / 2`. -/
theorem C153_x_index_negation : plotXAtIndex 1 ![2, 2, 1] (0, 1) ![1, 0, 0] = some [[1, 0]] ∧
    projectPoint [(1 : Matrix (Fin 3) (Fin 3) ℝ) 0, (1 : Matrix (Fin 3) (Fin 3) ℝ) 1]
      (∑ c, (((![1, 0, 0] : Fin 3 → ℕ) c : ℝ) / (![2, 2, 1] : Fin 3 → ℕ) c) • (1 : Matrix (Fin 3) (Fin 3) ℝ) c) = [1 / 2, 0] := by
  constructor
  · unfold plotXAtIndex plotXPoints
    rw [if_pos (by decide)]
    simp only [List.map_cons, List.map_nil]
    rw [project_unit]
    simp
  · rw [project_unit]
    simp [Fin.sum_univ_three, Matrix.one_apply]

end Verif
