import Verif.Props.C126_PlotSlices
import Verif.Props.C105_Spread

/-!
# C126, C127: lines and colour limits
-/

set_option autoImplicit false

namespace Verif

open Finset Spec Matrix

variable {d : ℕ}

/-! ## Helpers -/

theorem set_inShape : ∀ (ns full : List ℕ) (a j : ℕ), InShape ns full → j < ns.getD a 0 → InShape ns (full.set a j)
  | [], [], _, _, _, h => by simp at h
  | n :: ns, i :: is, 0, j, hf, h => ⟨by simpa using h, hf.2⟩
  | n :: ns, i :: is, a + 1, j, hf, h => ⟨hf.1, set_inShape ns is a j hf.2 (by simpa using h)⟩
  | [], _ :: _, _, _, h, _ => absurd h (by simp [InShape])
  | _ :: _, [], _, _, h, _ => absurd h (by simp [InShape])

theorem getD_set_self (l : List ℕ) (a j : ℕ) (h : a < l.length) : (l.set a j).getD a 0 = j := by
  simp [List.getD, h]

theorem getD_set_other (l : List ℕ) (a i j : ℕ) (h : a ≠ i) : (l.set a j).getD i 0 = l.getD i 0 := by
  simp [List.getD, List.getElem?_set_ne h]

theorem agree_set (top : List ℕ) (a : Fin d) (j : ℕ) : AgreeOff ([a].map Fin.val) (top.set a j) top := by
  intro i hi
  exact getD_set_other _ _ _ _ fun h => hi (by simp [h])

theorem projectPoint_one (v p : Fin d → ℝ) : projectPoint [v] p = [v ⬝ᵥ p / vnorm v] := by
  unfold projectPoint projectedAxes
  simp only [List.foldl_cons, List.foldl_nil, List.nil_append, List.map_cons, List.map_nil, subtractProjections]
  congr 1
  simp only [dotProduct, sum_div]
  apply sum_congr rfl
  intro i _
  ring

theorem dot_self_norm (v : Fin d → ℝ) : v ⬝ᵥ v / vnorm v = vnorm v := by
  unfold vnorm
  rw [Real.div_sqrt]

/-- Moving along one axis changes a combination of vectors by a multiple of the vector of this axis. -/
theorem sum_set (c : ℕ → ℕ → ℝ) (V : Fin d → Fin d → ℝ) (top : List ℕ) (a : Fin d) (ha : (a : ℕ) < top.length) (j j' : ℕ) :
    ∑ i : Fin d, c i ((top.set a j).getD i 0) • V i =
      ∑ i : Fin d, c i ((top.set a j').getD i 0) • V i + (c a j - c a j') • V a := by
  rw [← sub_eq_iff_eq_add', ← sum_sub_distrib, sum_eq_single a]
  · rw [getD_set_self _ _ _ ha, getD_set_self _ _ _ ha, sub_smul]
  · intro i _ hi
    have : (a : ℕ) ≠ i := fun h => hi (Fin.ext h.symm)
    rw [getD_set_other _ _ _ _ this, getD_set_other _ _ _ _ this, sub_self]
  · intro h; exact absurd (mem_univ a) h

theorem measured_congr (f g : ℕ → ℂ) (measure : Measure) (i : ℕ) (h : ∀ j ≤ i, f j = g j) :
    getMeasuredData f measure i = getMeasuredData g measure i := by
  cases measure with
  | angle => exact unwrapAngles_congr (fun i => (f i).arg) (fun i => (g i).arg) i fun j hj => by rw [h j hj]
  | _ => simp [getMeasuredData, h i (le_refl i)]

/-- The line drawn for evenly spaced coordinates. -/
theorem plotData1d_line (n : ℕ) (hn : 2 ≤ n) (data value : ℕ → ℂ) (coordinates : ℕ → ℝ) (c0 step : ℝ) (measure : Measure)
    (hc : ∀ i < n, coordinates i = c0 + i * step) (hv : ∀ i < n, data i = value i) :
    ∃ line, plotData1d n data coordinates measure true = some line ∧ line.n = n + 1 ∧
      (∀ j ≤ n, line.coordinates j = c0 + j * step) ∧
      (∀ j < n, line.values j = getMeasuredData value measure j) ∧ line.values n = line.values 0 := by
  unfold plotData1d
  dsimp only
  rw [if_pos rfl, if_neg (by omega)]
  refine ⟨_, rfl, rfl, fun j hj => ?_, fun j hj => ?_, ?_⟩
  · dsimp only
    split_ifs with h
    · exact hc j h
    · have : j = n := by omega
      rw [this, hc _ (by omega), hc _ (by omega), hc _ (by omega)]
      obtain ⟨m, rfl⟩ : ∃ m, n = m + 1 := ⟨n - 1, by omega⟩
      rw [Nat.add_sub_cancel]
      push_cast
      ring
  · dsimp only
    rw [if_pos hj]
    exact measured_congr _ _ _ _ fun i hi => hv i (by omega)
  · dsimp only
    rw [if_neg (lt_irrefl n), if_pos (by omega)]

/-! ## Lines -/

/-- **C126.** The line drawn by `plot_data_1d_x` along one lattice vector: `n + 1` evenly spaced points over exactly the length
of the lattice vector, from the projection on it of the first point, whose values are those of the function at the points of the grid along the axis; the last point repeats
the value of the first. -/
theorem C126_line_x (same : Basis → Basis → Bool) (hs : Sound same) (A : Matrix (Fin d) (Fin d) ℝ) (b : Basis) (hb : Valid b)
    (ho : OrthonormalParts b) (hd : b.fundamentalShape.length = d) (a : Fin d) (data : ℕ → ℂ) (measure : Measure)
    (top : List ℕ) (htop : InShape b.fundamentalShape top) (n : ℕ) (hn : b.fundamentalShape.getD a 0 = n) (h2 : 2 ≤ n) :
    ∃ line, ((plotDataX same A b data [a] (some (offAxes [(a : ℕ)] top))).bind fun s => plotSlice1d s measure) = some line ∧
      line.n = n + 1 ∧ (∀ j ≤ n, line.coordinates j = A a ⬝ᵥ gridPoint A b.fundamentalShape (top.set a 0) / vnorm (A a) +
        j * (vnorm (A a) / n)) ∧
      (∀ j < n, line.values j = getMeasuredData (fun i => expand b data (ravel b.fundamentalShape (top.set a i))) measure j) ∧
      line.values n = line.values 0 := by
  obtain ⟨s, h1, h3, h4⟩ := C126_position same hs A b hb ho hd [a] (by simp) data top htop
  have hal : (a : ℕ) < top.length := by rw [← inShape_length _ _ htop, hd]; exact a.2
  have hin : ∀ i < n, InShape b.fundamentalShape (top.set a i) := fun i hi => set_inShape _ _ _ _ htop (by rw [hn]; exact hi)
  have hon : ∀ i, onAxes ([a].map Fin.val) (top.set a i) = [i] := fun i => by
    simp only [onAxes, List.map_cons, List.map_nil]
    rw [getD_set_self _ _ _ hal]
  have hshape : s.shape.getD 0 0 = n := by rw [h3]; simpa using hn
  have hn0 : (n : ℝ) ≠ 0 := by positivity
  obtain ⟨line, l1, l2, l3, l4, l5⟩ := plotData1d_line n h2 (fun i => s.values [i])
    (fun i => expand b data (ravel b.fundamentalShape (top.set a i))) (fun i => (s.coordinates [i]).getD 0 0)
    (A a ⬝ᵥ gridPoint A b.fundamentalShape (top.set a 0) / vnorm (A a)) (vnorm (A a) / n) measure
    (fun i hi => by
      have := (h4 _ (hin i hi) (agree_set top a i)).2
      rw [hon] at this
      rw [this, List.map_cons, List.map_nil, projectPoint_one]
      have e := sum_set (fun i j => (j : ℝ) / (b.fundamentalShape.getD i 0 : ℝ)) (fun i => A i) top a hal i 0
      unfold gridPoint
      simp only [List.getD_cons_zero]
      rw [e, dotProduct_add, dotProduct_smul, smul_eq_mul, add_div, hn, mul_div_assoc, dot_self_norm]
      push_cast
      ring)
    (fun i hi => by
      have := (h4 _ (hin i hi) (agree_set top a i)).1
      rwa [hon] at this)
  refine ⟨line, ?_, l2, l3, l4, l5⟩
  have h1' : plotDataX same A b data [a] (some (offAxes [(a : ℕ)] top)) = some s := h1
  rw [h1', Option.bind_some]
  unfold plotSlice1d
  rw [hshape]
  exact l1

/-- **C126.** The line drawn by `plot_data_1d_k` along one reciprocal lattice vector `2π (A⁻¹)ᵀ`: `n + 1` points with wave
numbers ascending from `-(n // 2)`, spaced by the length of the reciprocal lattice vector, with the projections of the wave vectors on it as
coordinates, whose values are the coefficients of the plane
waves with these wave numbers; the last point repeats the value of the first. -/
theorem C126_line_k (same : Basis → Basis → Bool) (hs : Sound same) (A : Matrix (Fin d) (Fin d) ℝ) (b : Basis) (hb : Valid b)
    (ho : OrthonormalParts b) (hd : b.fundamentalShape.length = d) (a : Fin d) (data : ℕ → ℂ) (measure : Measure)
    (top : List ℕ) (htop : InShape b.fundamentalShape top) (n : ℕ) (hn : b.fundamentalShape.getD a 0 = n) (h2 : 2 ≤ n) :
    ∃ line, ((plotData1dK same A b data [a] (some (offAxes [(a : ℕ)] top))).bind fun s => plotSlice1d s measure) = some line ∧
      line.n = n + 1 ∧ (∀ j ≤ n, line.coordinates j =
        ((2 * Real.pi) • (A⁻¹)ᵀ) a ⬝ᵥ waveVector A b.fundamentalShape (top.set a 0) / vnorm (((2 * Real.pi) • (A⁻¹)ᵀ) a) +
          ((j : ℝ) - ((n / 2 : ℕ) : ℝ)) * vnorm (((2 * Real.pi) • (A⁻¹)ᵀ) a)) ∧
      (∀ j < n, line.values j = getMeasuredData (fun i => planeCoefficient b.fundamentalShape (expand b data)
        (ravel b.fundamentalShape (top.set a (slot n ((i : ℤ) - (n : ℤ) / 2))))) measure j) ∧
      line.values n = line.values 0 := by
  obtain ⟨s, h1, _, h3, h4⟩ := C126_momentum same hs A b hb ho hd [a] (by simp) data top htop
  have hal : (a : ℕ) < top.length := by rw [← inShape_length _ _ htop, hd]; exact a.2
  have hg : ∀ i < n, OnGrid n ((i : ℤ) - (n : ℤ) / 2) := fun i hi => by constructor <;> omega
  have hin : ∀ i < n, InShape b.fundamentalShape (top.set a (slot n ((i : ℤ) - (n : ℤ) / 2))) := fun i hi =>
    set_inShape _ _ _ _ htop (by rw [hn]; exact slot_lt (hg i hi))
  have hon : ∀ i < n, [i] = [a].map (fun c : Fin d => (freq (b.fundamentalShape.getD c 0)
      ((top.set a (slot n ((i : ℤ) - (n : ℤ) / 2))).getD c 0) + (b.fundamentalShape.getD c 0 : ℤ) / 2).toNat) := fun i hi => by
    rw [List.map_cons, List.map_nil, getD_set_self _ _ _ hal, hn, freq_slot (hg i hi), sub_add_cancel, Int.toNat_natCast]
  have hshape : s.shape.getD 0 0 = n := by rw [h3]; simpa using hn
  have hn0 : (n : ℝ) ≠ 0 := by positivity
  have hnpos : (0 : ℝ) < n := by positivity
  set K := ((2 * Real.pi) • (A⁻¹)ᵀ) with hK
  obtain ⟨line, l1, l2, l3, l4, l5⟩ := plotData1d_line n h2 (fun i => s.values [i])
    (fun i => planeCoefficient b.fundamentalShape (expand b data) (ravel b.fundamentalShape (top.set a (slot n ((i : ℤ) - (n : ℤ) / 2)))))
    (fun i => (s.coordinates [i]).getD 0 0)
    (K a ⬝ᵥ waveVector A b.fundamentalShape (top.set a 0) / vnorm (K a) - ((n / 2 : ℕ) : ℝ) * vnorm (K a)) (vnorm (K a)) measure
    (fun i hi => by
      have := (h4 _ (hin i hi) (agree_set top a _) _ (hon i hi)).2
      rw [this, List.map_cons, List.map_nil, projectPoint_one, hn]
      have e := sum_set (fun i j => (freq (b.fundamentalShape.getD i 0) j : ℝ)) (fun i => K i) top a hal (slot n ((i : ℤ) - (n : ℤ) / 2)) 0
      have e' : waveVector A b.fundamentalShape (top.set a (slot n ((i : ℤ) - (n : ℤ) / 2))) =
          waveVector A b.fundamentalShape (top.set a 0) + ((i : ℝ) - ((n / 2 : ℕ) : ℝ)) • K a := by
        refine e.trans ?_
        congr 2
        beta_reduce
        rw [hn, freq_slot (hg i hi), show freq n 0 = 0 by unfold freq; rw [if_pos (by omega)]; rfl]
        push_cast
        have : (((n : ℤ) / 2 : ℤ) : ℝ) = ((n / 2 : ℕ) : ℝ) := by norm_cast
        rw [this]
        ring
      have hnorm : vnorm ((n : ℝ) • K a) = n * vnorm (K a) := by
        unfold vnorm
        rw [dotProduct_smul, smul_dotProduct, smul_eq_mul, smul_eq_mul, ← mul_assoc, Real.sqrt_mul (by positivity),
          Real.sqrt_mul_self hnpos.le]
      simp only [List.getD_cons_zero]
      rw [e', hnorm, smul_dotProduct, smul_eq_mul, mul_div_mul_left _ _ hn0, dotProduct_add, dotProduct_smul, smul_eq_mul, add_div,
        mul_div_assoc, dot_self_norm]
      ring)
    (fun i hi => (h4 _ (hin i hi) (agree_set top a _) _ (hon i hi)).1)
  refine ⟨line, ?_, l2, fun j hj => ?_, l4, l5⟩
  · have h1' : plotData1dK same A b data [a] (some (offAxes [(a : ℕ)] top)) = some s := h1
    rw [h1', Option.bind_some]
    unfold plotSlice1d
    rw [hshape]
    exact l1
  · rw [l3 j hj]; ring

/-! ## Limits of the colours -/

theorem foldl_largest (xs : List ℝ) : ∀ x : ℝ, (∀ y ∈ x :: xs, y ≤ xs.foldl max x) ∧ xs.foldl max x ∈ x :: xs := by
  induction xs with
  | nil => intro x; simp
  | cons z xs ih =>
    intro x
    obtain ⟨h1, h2⟩ := ih (max x z)
    rw [List.foldl_cons]
    constructor
    · intro y hy
      rcases List.mem_cons.1 hy with rfl | hy
      · exact (le_max_left y z).trans (h1 _ (by simp))
      · rcases List.mem_cons.1 hy with rfl | hy
        · exact (le_max_right x y).trans (h1 _ (by simp))
        · exact h1 y (by simp [hy])
    · rcases List.mem_cons.1 h2 with h | h
      · rw [h]
        rcases max_choice x z with h' | h' <;> simp [h']
      · simp [h]

theorem foldl_least (xs : List ℝ) : ∀ x : ℝ, (∀ y ∈ x :: xs, xs.foldl min x ≤ y) ∧ xs.foldl min x ∈ x :: xs := by
  induction xs with
  | nil => intro x; simp
  | cons z xs ih =>
    intro x
    obtain ⟨h1, h2⟩ := ih (min x z)
    rw [List.foldl_cons]
    constructor
    · intro y hy
      rcases List.mem_cons.1 hy with rfl | hy
      · exact (h1 (min y z) (by simp)).trans (min_le_left y z)
      · rcases List.mem_cons.1 hy with rfl | hy
        · exact (h1 (min x y) (by simp)).trans (min_le_right x y)
        · exact h1 y (by simp [hy])
    · rcases List.mem_cons.1 h2 with h | h
      · rw [h]
        rcases min_choice x z with h' | h' <;> simp [h']
      · simp [h]

/-- **C127.** The default limits of the colours of a plot contain every value and the largest value is the upper limit; the
lower limit is the smallest value, or zero for absolute values. Limits which are given are used instead. -/
theorem C127_limits (measure : Measure) (data : List ℝ) (hne : data ≠ []) (habs : measure = .abs → ∀ x ∈ data, 0 ≤ x) :
    ∃ lo hi, (∀ x ∈ data, lo ≤ x ∧ x ≤ hi) ∧ hi ∈ data ∧ (measure = .abs → lo = 0) ∧ (measure ≠ .abs → lo ∈ data) ∧
      ∀ given : Option ℝ × Option ℝ, getLim given measure data = some (given.1.getD lo, given.2.getD hi) := by
  obtain ⟨x, xs, rfl⟩ := List.exists_cons_of_ne_nil hne
  obtain ⟨a1, a2⟩ := foldl_largest xs x
  obtain ⟨b1, b2⟩ := foldl_least xs x
  cases measure with
  | abs => exact ⟨0, xs.foldl max x, fun y hy => ⟨habs rfl y hy, a1 y hy⟩, a2, fun _ => rfl, fun h => absurd rfl h, fun _ => rfl⟩
  | real => exact ⟨xs.foldl min x, xs.foldl max x, fun y hy => ⟨b1 y hy, a1 y hy⟩, a2, fun h => by (cases h), fun _ => b2, fun _ => rfl⟩
  | imag => exact ⟨xs.foldl min x, xs.foldl max x, fun y hy => ⟨b1 y hy, a1 y hy⟩, a2, fun h => by (cases h), fun _ => b2, fun _ => rfl⟩
  | angle => exact ⟨xs.foldl min x, xs.foldl max x, fun y hy => ⟨b1 y hy, a1 y hy⟩, a2, fun h => by (cases h), fun _ => b2, fun _ => rfl⟩

example : getLim (none, none) .real [2, -1, 3] = some (-1, 3) ∧ getLim (some (-2), none) .abs [2, 1, 3] = some (-2, 3) := by
  norm_num [getLim, getDefaultLim]

/-- **C127.** The common limits of the colours of the frames of an animation contain every value of every frame, when the
measure of the data is passed on. -/
theorem C127_animation (measure : Measure) (n : ℕ) (hn : 0 < n) (values : ℕ → List ℝ) (frames : ℕ → ℝ × ℝ)
    (hf : ∀ i < n, ∀ x ∈ values i, (frames i).1 ≤ x ∧ x ≤ (frames i).2) (habs : measure = .abs → ∀ i < n, 0 ≤ (frames i).1 ∧ 0 ≤ (frames i).2) :
    ∃ lo hi, animationLim (none, none) measure ((List.range n).map frames) = some (lo, hi) ∧
      ∀ i < n, ∀ x ∈ values i, lo ≤ x ∧ x ≤ hi := by
  have hmem : ∀ i < n, (frames i).1 ∈ ((List.range n).map frames).flatMap (fun f => [f.1, f.2]) ∧
      (frames i).2 ∈ ((List.range n).map frames).flatMap (fun f => [f.1, f.2]) := fun i hi =>
    ⟨List.mem_flatMap.2 ⟨frames i, List.mem_map.2 ⟨i, List.mem_range.2 hi, rfl⟩, by simp⟩,
      List.mem_flatMap.2 ⟨frames i, List.mem_map.2 ⟨i, List.mem_range.2 hi, rfl⟩, by simp⟩⟩
  obtain ⟨lo, hi, h1, _, _, _, h5⟩ := C127_limits measure (((List.range n).map frames).flatMap fun f => [f.1, f.2])
    (List.ne_nil_of_mem (hmem 0 hn).1) (by
      intro hm x hx
      obtain ⟨f, hf', hx'⟩ := List.mem_flatMap.1 hx
      obtain ⟨i, hi, rfl⟩ := List.mem_map.1 hf'
      have := habs hm i (List.mem_range.1 hi)
      rcases List.mem_cons.1 hx' with rfl | hx'
      · exact this.1
      · rw [List.mem_singleton.1 hx']; exact this.2)
  refine ⟨lo, hi, h5 _, fun i hi x hx => ?_⟩
  exact ⟨(h1 _ (hmem i hi).1).1.trans (hf i hi x hx).1, (hf i hi x hx).2.trans (h1 _ (hmem i hi).2).2⟩

/-- Two frames with the values `0, 1` and `-2, 3`. -/
example : ∃ (values : ℕ → List ℝ) (frames : ℕ → ℝ × ℝ), (∀ i < 2, ∀ x ∈ values i, (frames i).1 ≤ x ∧ x ≤ (frames i).2) ∧
    frames 0 = (0, 1) ∧ frames 1 = (-2, 3) := by
  refine ⟨fun i => if i = 0 then [0, 1] else [-2, 3], fun i => if i = 0 then (0, 1) else (-2, 3), fun i _ x hx => ?_, rfl, rfl⟩
  by_cases h : i = 0
  · simp [h] at hx ⊢
    rcases hx with rfl | rfl <;> norm_num
  · simp [h] at hx ⊢
    rcases hx with rfl | rfl <;> norm_num

/-- **C127.** `animate_data_through_surface_x` of absolute values along the third axis of three: one frame for each point of the
axis, with colour limits which contain every value. Only part of the claim, which is about every measure and order of the axes: see
`C127_surface_measure_negation` and `C127_surface_frames_negation`. -/
theorem C127_surface_partial (n0 n1 n : ℕ) (hn : 0 < n) (values : ℕ → List ℝ) (frames : ℕ → ℝ × ℝ)
    (hf : ∀ i < n, ∀ x ∈ values i, (frames i).1 ≤ x ∧ x ≤ (frames i).2) (h0 : ∀ i < n, ∀ x ∈ values i, 0 ≤ x) :
    ∃ lo hi, animateSurface [n0, n1, n] 2 (none, none) .abs frames = some (n, lo, hi) ∧
      ∀ i < n, ∀ x ∈ values i, lo ≤ x ∧ x ≤ hi := by
  have hmem : ∀ i < n, (frames i).2 ∈ ((List.range n).map frames).flatMap (fun f => [f.1, f.2]) := fun i hi =>
    List.mem_flatMap.2 ⟨frames i, List.mem_map.2 ⟨i, List.mem_range.2 hi, rfl⟩, by simp⟩
  obtain ⟨x, xs, e⟩ := List.exists_cons_of_ne_nil (List.ne_nil_of_mem (hmem 0 hn))
  obtain ⟨a1, _⟩ := foldl_largest xs x
  refine ⟨0, xs.foldl max x, ?_, fun i hi y hy => ⟨h0 i hi y hy, (hf i hi y hy).2.trans (a1 _ (e ▸ hmem i hi))⟩⟩
  unfold animateSurface animationLim getLim
  dsimp only
  rw [show [n0, n1, n][2]? = some n from rfl, Option.bind_some, if_neg (show ¬ [n0, n1, n].getD 2 0 < n from lt_irrefl n), e]
  simp [getDefaultLim]

/-- Three frames with one value each. -/
example : ∃ (values : ℕ → List ℝ) (frames : ℕ → ℝ × ℝ), (∀ i < 3, ∀ x ∈ values i, (frames i).1 ≤ x ∧ x ≤ (frames i).2) ∧
    (∀ i < 3, ∀ x ∈ values i, 0 ≤ x) ∧ values 2 = [2] := by
  refine ⟨fun i => [(i : ℝ)], fun i => (i, i + 1), fun i _ x hx => ?_, fun i _ x hx => ?_, by norm_num⟩
  · obtain rfl : x = i := by simpa using hx
    exact ⟨le_rfl, by norm_num⟩
  · obtain rfl : x = i := by simpa using hx
    positivity

/-- **C127.** The measure of the data is not passed on to `build_animation`: for the default measure `real` of
`animate_potential_3d_x` every negative value is below the lower limit of the colours. -/
theorem C127_surface_measure_negation (n0 n1 n : ℕ) (hn : 0 < n) (frames : ℕ → ℝ × ℝ) :
    ∃ lo hi, animateSurface [n0, n1, n] 2 (none, none) .real frames = some (n, lo, hi) ∧ ∀ x : ℝ, x < 0 → x < lo := by
  have hmem : (frames 0).2 ∈ ((List.range n).map frames).flatMap (fun f => [f.1, f.2]) :=
    List.mem_flatMap.2 ⟨frames 0, List.mem_map.2 ⟨0, List.mem_range.2 hn, rfl⟩, by simp⟩
  obtain ⟨x, xs, e⟩ := List.exists_cons_of_ne_nil (List.ne_nil_of_mem hmem)
  refine ⟨0, xs.foldl max x, ?_, fun _ h => h⟩
  unfold animateSurface animationLim getLim
  dsimp only
  rw [show [n0, n1, n][2]? = some n from rfl, Option.bind_some, if_neg (show ¬ [n0, n1, n].getD 2 0 < n from lt_irrefl n), e]
  simp [getDefaultLim]

/-- **C127.** The number of frames is the length of the third axis of the data, not that of the axis which is animated: frames
are missing if the animated axis is longer, and the function raises if it is shorter or if the data is a flat vector, as documented. -/
theorem C127_surface_frames_negation (n0 n1 n : ℕ) (hn : 0 < n) (measure : Measure) (frames : ℕ → ℝ × ℝ) :
    (n ≤ n1 → ∃ lim, animateSurface [n0, n1, n] 1 (none, none) measure frames = some (n, lim)) ∧
      (n1 < n → animateSurface [n0, n1, n] 1 (none, none) measure frames = none) ∧
      animateSurface [n0 * n1 * n] 2 (none, none) measure frames = none := by
  have hmem : (frames 0).2 ∈ ((List.range n).map frames).flatMap (fun f => [f.1, f.2]) :=
    List.mem_flatMap.2 ⟨frames 0, List.mem_map.2 ⟨0, List.mem_range.2 hn, rfl⟩, by simp⟩
  obtain ⟨x, xs, e⟩ := List.exists_cons_of_ne_nil (List.ne_nil_of_mem hmem)
  refine ⟨fun h => ?_, fun h => ?_, ?_⟩
  · unfold animateSurface animationLim getLim
    dsimp only
    rw [show [n0, n1, n][2]? = some n from rfl, Option.bind_some, if_neg (show ¬ [n0, n1, n].getD 1 0 < n from not_lt.2 h), e]
    simp [getDefaultLim]
  · simp [animateSurface, h]
  · simp [animateSurface]

end Verif
