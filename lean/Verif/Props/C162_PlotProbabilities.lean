import Verif.Model.PlotProbabilities
import Verif.Props.C73_Overlap
import Verif.Props.C75_Interpolator
import Verif.Props.C138_Bands
import Verif.Props.C154_PlotStateLists

/-!
# C162: probabilities as they are drawn; C163: overlaps as they are drawn
-/

set_option autoImplicit false

namespace Verif

open Finset Spec Matrix

variable {d : ℕ}

/-! ## Helpers -/

theorem plotDataX_isSlice (same : Basis → Basis → Bool) (hs : Sound same) (A : Matrix (Fin d) (Fin d) ℝ) (b : Basis) (hb : Valid b)
    (ho : OrthonormalParts b) (hd : b.fundamentalShape.length = d) (axes : List (Fin d)) (hnd : axes.Nodup) (data : ℕ → ℂ)
    (top : List ℕ) (htop : InShape b.fundamentalShape top) :
    ∃ s, plotDataX same A b data axes (some (offAxes (axes.map Fin.val) top)) = some s ∧ IsSliceX A b.fundamentalShape axes top (expand b data) s := by
  obtain ⟨s, h1, h2, h3⟩ := C126_position same hs A b hb ho hd axes hnd data top htop
  exact ⟨s, h1, h2, h3⟩

theorem plotData2dK_isSlice (same : Basis → Basis → Bool) (hs : Sound same) (A : Matrix (Fin d) (Fin d) ℝ) (b : Basis) (hb : Valid b)
    (ho : OrthonormalParts b) (hd : b.fundamentalShape.length = d) (axes : List (Fin d)) (hnd : axes.Nodup) (data : ℕ → ℂ)
    (top : List ℕ) (htop : InShape b.fundamentalShape top) :
    ∃ s, plotData2dK same A b data axes (some (offAxes (axes.map Fin.val) top)) = some s ∧ IsSliceK A b.fundamentalShape axes top (expand b data) s := by
  obtain ⟨s, _, h1, h2, h3⟩ := C126_momentum same hs A b hb ho hd axes hnd data top htop
  exact ⟨s, h1, h2, h3⟩

theorem measured_nonneg (p : ℕ → ℝ) (h : ∀ i, 0 ≤ p i) (measure : Measure) (hm : measure = .abs ∨ measure = .real) (i : ℕ) :
    getMeasuredData (fun i => (p i : ℂ)) measure i = p i := by
  rcases hm with rfl | rfl
  · show ‖(p i : ℂ)‖ = p i
    rw [Complex.norm_real, Real.norm_of_nonneg (h i)]
  · exact Complex.ofReal_re _

/-! ## Probabilities -/

/-- **C162.** Probabilities of the positions drawn in position space with a given index: the line shows at each point of the axis, and the
slice at each point of the plane, the probability of this position. -/
theorem C162_position_partial (same : Basis → Basis → Bool) (hs : Sound same) (A : Matrix (Fin d) (Fin d) ℝ) (ns : List ℕ) (hd : ns.length = d)
    (p : ℕ → ℝ) (hp : ∀ i, 0 ≤ p i) (a : Fin d) (h2 : 2 ≤ ns.getD a 0) (measure : Measure) (hm : measure = .abs ∨ measure = .real)
    (axes : List (Fin d)) (hnd : axes.Nodup) (top : List ℕ) (htop : InShape ns top) :
    (∃ line, plotProbability1dX same A (.tuple (ns.map .fundamental)) p a (some (offAxes [(a : ℕ)] top)) measure = some line ∧
      line.n = ns.getD a 0 + 1 ∧
      (∀ j ≤ ns.getD a 0, line.coordinates j = A a ⬝ᵥ gridPoint A ns (top.set a 0) / vnorm (A a) + j * (vnorm (A a) / ns.getD a 0)) ∧
      (∀ j < ns.getD a 0, line.values j = p (ravel ns (top.set a j))) ∧ line.values (ns.getD a 0) = line.values 0) ∧
    ∃ s, plotProbability2dX same A (.tuple (ns.map .fundamental)) p axes (some (offAxes (axes.map Fin.val) top)) = some s ∧
      IsSliceX A ns axes top (fun x => (p x : ℂ)) s := by
  obtain ⟨f1, f2, f3⟩ : (Basis.tuple (ns.map .fundamental)).fundamentalShape = ns ∧ Valid (.tuple (ns.map Basis.fundamental)) ∧
      OrthonormalParts (.tuple (ns.map Basis.fundamental)) := ⟨(shape_position ns).2, (fund_facts ns).2.2.2, orthonormalParts_fundamental ns⟩
  have e : ∀ x < ns.prod, expand (.tuple (ns.map Basis.fundamental)) (fun i => (p i : ℂ)) x = p x := fun x hx => expand_position ns _ hx
  constructor
  · obtain ⟨s, s1, s2⟩ := plotLineX_isLine same hs A _ f2 f3 (by rw [f1]; exact hd) a (by rw [f1]; exact h2) measure top (by rw [f1]; exact htop)
      fun i => (p i : ℂ)
    rw [f1] at s2
    obtain ⟨l1, l2, l3, l4⟩ := isLineX_congr A ns a top htop measure _ _ e s s2
    exact ⟨s, s1, l1, l2, fun j hj => (l3 j hj).trans (measured_nonneg (fun i => p (ravel ns (top.set a i))) (fun i => hp _) measure hm j), l4⟩
  · obtain ⟨s, s1, s2⟩ := plotDataX_isSlice same hs A _ f2 f3 (by rw [f1]; exact hd) axes hnd (fun i => (p i : ℂ)) top (by rw [f1]; exact htop)
    rw [f1] at s2
    exact ⟨s, s1, isSliceX_congr A ns axes top _ _ e s s2⟩

/-- **C162.** Probabilities of the plane waves drawn in momentum space with a given index: the line and the slice show at each wave number the
probability of this plane wave. -/
theorem C162_momentum_partial (same : Basis → Basis → Bool) (hs : Sound same) (A : Matrix (Fin d) (Fin d) ℝ) (ns : List ℕ) (hd : ns.length = d)
    (p : ℕ → ℝ) (hp : ∀ i, 0 ≤ p i) (a : Fin d) (h2 : 2 ≤ ns.getD a 0) (measure : Measure) (hm : measure = .abs ∨ measure = .real)
    (axes : List (Fin d)) (hnd : axes.Nodup) (top : List ℕ) (htop : InShape ns top) :
    (∃ line, plotProbability1dK same A (fT ns) p a (some (offAxes [(a : ℕ)] top)) measure = some line ∧
      line.n = ns.getD a 0 + 1 ∧
      (∀ j < ns.getD a 0, line.values j = p (ravel ns (top.set a (slot (ns.getD a 0) ((j : ℤ) - ((ns.getD a 0 : ℕ) : ℤ) / 2))))) ∧
      line.values (ns.getD a 0) = line.values 0) ∧
    ∃ s, plotProbability2dK same A (fT ns) p axes (some (offAxes (axes.map Fin.val) top)) = some s ∧
      s.shape = axes.map (fun a : Fin d => ns.getD a 0) ∧
      ∀ full, InShape ns full → AgreeOff (axes.map Fin.val) full top →
        s.values (axes.map fun a : Fin d => (freq (ns.getD a 0) (full.getD a 0) + ((ns.getD a 0 : ℕ) : ℤ) / 2).toNat) = p (ravel ns full) := by
  have f1 := fundamentalShape_fT ns
  have f2 : Valid (fT ns) := valids_fT _
  have f3 : OrthonormalParts (fT ns) := orthonormalPartss_fT _
  constructor
  · obtain ⟨s, s1, s2⟩ := plotLineK_isLine same hs A _ f2 f3 (by rw [f1]; exact hd) a (by rw [f1]; exact h2) measure top (by rw [f1]; exact htop)
      fun i => (p i : ℂ)
    rw [f1] at s2
    obtain ⟨l1, _, l3, l4⟩ := s2
    have hg : ∀ i < ns.getD a 0, OnGrid (ns.getD a 0) ((i : ℤ) - ((ns.getD a 0 : ℕ) : ℤ) / 2) := fun i hi => by constructor <;> omega
    refine ⟨s, s1, l1, fun j hj => (l3 j hj).trans ?_, l4⟩
    rw [← measured_nonneg (fun i => p (ravel ns (top.set a (slot (ns.getD a 0) ((i : ℤ) - ((ns.getD a 0 : ℕ) : ℤ) / 2))))) (fun i => hp _) measure hm j]
    refine measured_congr _ _ _ _ fun i hi => ?_
    rw [planeCoefficient_fT ns _ _ (ravel_lt _ _ (set_inShape _ _ _ _ htop (slot_lt (hg i (by omega)))))]
  · obtain ⟨s, s1, s2, s3⟩ := plotData2dK_isSlice same hs A _ f2 f3 (by rw [f1]; exact hd) axes hnd (fun i => (p i : ℂ)) top (by rw [f1]; exact htop)
    rw [f1] at s2 s3
    refine ⟨s, s1, s2, fun full hf ha => ?_⟩
    rw [(s3 full hf ha _ rfl).1, planeCoefficient_fT ns _ _ (ravel_lt _ _ hf)]

/-- Probabilities on a grid of 2 × 3 points. -/
example : ([2, 3] : List ℕ).length = 2 ∧ (∀ i : ℕ, (0 : ℝ) ≤ 1 / (i + 1)) ∧ 2 ≤ ([2, 3] : List ℕ).getD ((1 : Fin 2) : ℕ) 0 ∧ InShape [2, 3] [1, 0] := by
  refine ⟨rfl, fun i => by positivity, by decide, by simp [InShape]⟩

/-- **C162 (negation).** Probabilities of plane waves drawn in position space are transformed as if they were amplitudes: for equal probabilities of the two plane
waves on two points the numbers drawn are `1/√2` and `0`. They are not the probabilities of the positions in any normalised state. -/
theorem C162_negation (same : Basis → Basis → Bool) (hs : Sound same) (A : Matrix (Fin 1) (Fin 1) ℝ) :
    ∃ line, plotProbability1dX same A (fT [2]) (fun _ => 1 / 2) 0 (some []) .abs = some line ∧ line.values 0 = 1 / Real.sqrt 2 ∧ line.values 1 = 0 ∧
      ∀ ψ : ℕ → ℂ, ∑ x ∈ range 2, ‖ψ x‖ ^ 2 = 1 → ¬ ∀ x < 2, line.values x = ‖ψ x‖ ^ 2 := by
  obtain ⟨s, s1, s2⟩ := plotLineX_isLine same hs A (fT [2]) (valids_fT _) (orthonormalPartss_fT _) (by rw [fundamentalShape_fT]; rfl) 0
    (by rw [fundamentalShape_fT]; exact le_rfl) .abs [0] (by rw [fundamentalShape_fT]; simp [InShape]) fun _ => (((1 / 2 : ℝ)) : ℂ)
  rw [fundamentalShape_fT] at s2
  obtain ⟨_, _, l3, _⟩ := s2
  have hsq : (Real.sqrt 2) ≠ 0 := by positivity
  have hval : ∀ x < 2, expand (fT [2]) (fun _ => (((1 / 2 : ℝ)) : ℂ)) x = if x = 0 then ((1 / Real.sqrt 2 : ℝ) : ℂ) else 0 := by
    intro x hx
    have hst : ∀ k < 2, state (fT [2]) k x = (if k = 1 ∧ x = 1 then -1 else 1) / (Real.sqrt 2 : ℂ) := by
      intro k hk
      rw [← planeWave_two k x hk hx]
      show planeWave 2 ((k / 1 : ℕ) : ℤ) (x / 1) * 1 = _
      rw [Nat.div_one, Nat.div_one, mul_one]
    unfold expand
    rw [show size (fT [2]) = 2 from size_fT [2], sum_range_succ, sum_range_one, hst 0 (by omega), hst 1 (by omega)]
    interval_cases x
    · norm_num
      ring
    · norm_num
      ring
  have v0 : s.values 0 = 1 / Real.sqrt 2 := by
    rw [l3 0 (by decide)]
    show ‖expand (fT [2]) _ 0‖ = _
    rw [hval 0 (by omega), if_pos rfl, Complex.norm_real, Real.norm_of_nonneg (by positivity)]
  have v1 : s.values 1 = 0 := by
    rw [l3 1 (by decide)]
    show ‖expand (fT [2]) _ 1‖ = _
    rw [hval 1 (by omega), if_neg (by decide), norm_zero]
  refine ⟨s, s1, v0, v1, fun ψ hψ h => ?_⟩
  rw [sum_range_succ, sum_range_one, ← h 0 (by omega), ← h 1 (by omega), v0, v1, add_zero, div_eq_one_iff_eq hsq] at hψ
  have := Real.sq_sqrt (show (0 : ℝ) ≤ 2 by norm_num)
  rw [← hψ] at this
  norm_num at this

/-! ## States -/

/-- **C162.** `plot_state_2d_x` and `plot_state_2d_k` with a given index draw the state at the points of the plane, and its coefficients of the plane
waves, whatever its basis. -/
theorem C162_states (same : Basis → Basis → Bool) (hs : Sound same) (A : Matrix (Fin d) (Fin d) ℝ) (s : StateVector) (hb : Valid s.basis)
    (ho : OrthonormalParts s.basis) (hd : s.basis.fundamentalShape.length = d) (axes : List (Fin d)) (hnd : axes.Nodup)
    (top : List ℕ) (htop : InShape s.basis.fundamentalShape top) :
    (∃ r, plotState2dX same A s axes (some (offAxes (axes.map Fin.val) top)) = some r ∧
      IsSliceX A s.basis.fundamentalShape axes top (expand s.basis s.data) r) ∧
    ∃ r, plotState2dK same A s axes (some (offAxes (axes.map Fin.val) top)) = some r ∧
      IsSliceK A s.basis.fundamentalShape axes top (expand s.basis s.data) r :=
  ⟨plotDataX_isSlice same hs A _ hb ho hd axes hnd _ top htop, plotData2dK_isSlice same hs A _ hb ho hd axes hnd _ top htop⟩

/-! ## Overlaps -/

/-- **C163.** The overlap of states `i` and `j` of a list of functions of the position, drawn in position space and in momentum space with a given index: the slices
show the product of the conjugated function `i` and the function `j` moved cyclically by the shift, and the coefficients of its plane waves. -/
theorem C163_overlap_partial (same : Basis → Basis → Bool) (hs : Sound same) (A : Matrix (Fin d) (Fin d) ℝ) (list : Basis) (ns : List ℕ) (hd : ns.length = d)
    (data : ℕ → ℂ) (shift : ℤ) (i j : ℕ) (hi : i < size list) (hj : j < size list) (axes : List (Fin d)) (hnd : axes.Nodup)
    (top : List ℕ) (htop : InShape ns top) (product : ℕ → ℂ)
    (hproduct : ∀ x < ns.prod, product x = (starRingEnd ℂ) (data (i * ns.prod + x)) * data (j * ns.prod + (((x : ℤ) - shift) % (ns.prod : ℤ)).toNat)) :
    ∃ o, getSingleOverlapStacked (stateVectorListOverlap ⟨list, .tuple (ns.map .fundamental), data⟩ shift) i j = some o ∧
      (∃ s, plotOverlap2dX same A o axes (some (offAxes (axes.map Fin.val) top)) = some s ∧ IsSliceX A ns axes top product s) ∧
      ∃ s, plotOverlap2dK same A o axes (some (offAxes (axes.map Fin.val) top)) = some s ∧ IsSliceK A ns axes top product s := by
  obtain ⟨o, h1, h2, _⟩ := C74_list ⟨list, .tuple (ns.map .fundamental), data⟩ shift i j hi hj
  have hbasis : o.basis = .tuple (ns.map .fundamental) := by
    unfold getSingleOverlapStacked at h1
    obtain ⟨k, _, hk⟩ := Option.bind_eq_some_iff.1 h1
    unfold getSingleOverlap at hk
    dsimp only at hk
    split_ifs at hk
    rw [← Option.some.inj hk]
    rfl
  obtain ⟨f1, f2, f3⟩ : (Basis.tuple (ns.map .fundamental)).fundamentalShape = ns ∧ Valid (.tuple (ns.map Basis.fundamental)) ∧
      OrthonormalParts (.tuple (ns.map Basis.fundamental)) := ⟨(shape_position ns).2, (fund_facts ns).2.2.2, orthonormalParts_fundamental ns⟩
  have hsize : size (.tuple (ns.map Basis.fundamental)) = ns.prod := sizes_position ns
  have e : ∀ x < ns.prod, expand (.tuple (ns.map Basis.fundamental)) o.data x = product x := fun x hx => by
    rw [expand_position ns _ hx, hproduct x hx]
    have := h2 x (by dsimp only; rw [hsize]; exact hx)
    dsimp only at this
    rw [hsize] at this
    exact this
  refine ⟨o, h1, ?_, ?_⟩
  · obtain ⟨s, s1, s2⟩ := plotDataX_isSlice same hs A _ f2 f3 (by rw [f1]; exact hd) axes hnd o.data top (by rw [f1]; exact htop)
    rw [f1] at s2
    exact ⟨s, by unfold plotOverlap2dX; rw [hbasis]; exact s1, isSliceX_congr A ns axes top _ _ e s s2⟩
  · obtain ⟨s, s1, s2⟩ := plotData2dK_isSlice same hs A _ f2 f3 (by rw [f1]; exact hd) axes hnd o.data top (by rw [f1]; exact htop)
    rw [f1] at s2
    exact ⟨s, by unfold plotOverlap2dK; rw [hbasis]; exact s1, isSliceK_congr A ns axes top _ _ e s s2⟩

/-- **C163 (negation).** The plots of an overlap along a path in momentum space raise for every overlap. -/
theorem C163_path_negation (same : Basis → Basis → Bool) (A : Matrix (Fin 3) (Fin 3) ℝ) (o : Overlap) (measure : Measure) :
    (∀ path wrap, plotOverlapAlongPathK same A o path wrap measure = none) ∧ (∀ k2, plotOverlapAlongKDiagonal same A o k2 measure = none) ∧
    ∀ k1 k2, plotOverlapAlongK0 same A o k1 k2 measure = none := by
  have key : ∀ path wrap, plotOverlapAlongPathK same A o path wrap measure = none := fun path wrap => by
    unfold plotOverlapAlongPathK
    rw [C75_momentum_negation]
    rfl
  exact ⟨key, fun k2 => key _ _, fun k1 k2 => key _ _⟩

/-- Two states on a grid of 2 × 3 points. -/
example : 1 < size (.fundamental 2) ∧ ([2, 3] : List ℕ).length = 2 ∧ InShape [2, 3] [1, 0] ∧ [(0 : Fin 2), 1].Nodup := by
  refine ⟨by simp [size], rfl, by simp [InShape], by decide⟩

end Verif
