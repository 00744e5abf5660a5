import Verif.Model.PlotStateLists
import Verif.Props.C127_PlotLine
import Verif.Props.C143_PlotWavepackets
import Verif.Props.C147_PositionMomentum
import Verif.Props.C149_PositionOperator

/-!
# C154: lists of states drawn as lines and animations
-/

set_option autoImplicit false

namespace Verif

open Finset Spec Matrix

variable {d : ℕ}

namespace Spec

/-- State number `i` of a list, as a function on the grid. -/
noncomputable def listedState (l : StateVectorList) (i : ℕ) : ℕ → ℂ := expand l.basis (block (size l.basis) l.data i)

/-- The line of the function `E` on the grid along axis `a`, through the point `top`: `n + 1` evenly spaced points over the length of
the lattice vector, with the values of `E`, of which the last repeats the first. -/
def IsLineX (A : Matrix (Fin d) (Fin d) ℝ) (ns : List ℕ) (a : Fin d) (top : List ℕ) (measure : Measure) (E : ℕ → ℂ) (line : DrawnLine) : Prop :=
  line.n = ns.getD a 0 + 1 ∧
    (∀ j ≤ ns.getD a 0, line.coordinates j = A a ⬝ᵥ gridPoint A ns (top.set a 0) / vnorm (A a) + j * (vnorm (A a) / ns.getD a 0)) ∧
    (∀ j < ns.getD a 0, line.values j = getMeasuredData (fun i => E (ravel ns (top.set a i))) measure j) ∧
    line.values (ns.getD a 0) = line.values 0

/-- The line of the coefficients of the plane waves of the function `E` along the reciprocal axis `a`, through the plane wave `top`: wave numbers
ascend from `-(n // 2)`. -/
def IsLineK (A : Matrix (Fin d) (Fin d) ℝ) (ns : List ℕ) (a : Fin d) (top : List ℕ) (measure : Measure) (E : ℕ → ℂ) (line : DrawnLine) : Prop :=
  line.n = ns.getD a 0 + 1 ∧
    (∀ j ≤ ns.getD a 0, line.coordinates j =
      ((2 * Real.pi) • (A⁻¹)ᵀ) a ⬝ᵥ waveVector A ns (top.set a 0) / vnorm (((2 * Real.pi) • (A⁻¹)ᵀ) a) +
        ((j : ℝ) - ((ns.getD a 0 / 2 : ℕ) : ℝ)) * vnorm (((2 * Real.pi) • (A⁻¹)ᵀ) a)) ∧
    (∀ j < ns.getD a 0, line.values j = getMeasuredData (fun i => planeCoefficient ns E
      (ravel ns (top.set a (slot (ns.getD a 0) ((i : ℤ) - ((ns.getD a 0 : ℕ) : ℤ) / 2))))) measure j) ∧
    line.values (ns.getD a 0) = line.values 0

/-- The slice of the function `E` on the grid along the axes, through the point `top`. -/
def IsSliceX (A : Matrix (Fin d) (Fin d) ℝ) (ns : List ℕ) (axes : List (Fin d)) (top : List ℕ) (E : ℕ → ℂ) (s : DrawnSlice) : Prop :=
  s.shape = axes.map (fun a : Fin d => ns.getD a 0) ∧
    ∀ full, InShape ns full → AgreeOff (axes.map Fin.val) full top →
      s.values (onAxes (axes.map Fin.val) full) = E (ravel ns full) ∧
      s.coordinates (onAxes (axes.map Fin.val) full) = projectPoint (axes.map fun a => A a) (gridPoint A ns full)

/-- The slice of the coefficients of the plane waves of the function `E` along the axes, through the plane wave `top`. -/
def IsSliceK (A : Matrix (Fin d) (Fin d) ℝ) (ns : List ℕ) (axes : List (Fin d)) (top : List ℕ) (E : ℕ → ℂ) (s : DrawnSlice) : Prop :=
  s.shape = axes.map (fun a : Fin d => ns.getD a 0) ∧
    ∀ full, InShape ns full → AgreeOff (axes.map Fin.val) full top →
      ∀ position, position = axes.map (fun a : Fin d => (freq (ns.getD a 0) (full.getD a 0) + ((ns.getD a 0 : ℕ) : ℤ) / 2).toNat) →
        s.values position = planeCoefficient ns E (ravel ns full) ∧
        s.coordinates position = projectPoint (axes.map fun a : Fin d => ((ns.getD a 0 : ℝ) • ((2 * Real.pi) • (A⁻¹)ᵀ) a)) (waveVector A ns full)

/-- A list with one entry for each of `k` numbers, each of which has the given property. -/
def OneForEach {β : Type} (k : ℕ) (r : Option (List β)) (P : ℕ → β → Prop) : Prop :=
  ∃ frames, r = some frames ∧ frames.length = k ∧ ∀ i < k, ∃ s, frames[i]? = some s ∧ P i s

end Spec

/-! ## Helpers -/

theorem oneForEach_range {β : Type} (k : ℕ) (draw : ℕ → Option β) (P : ℕ → β → Prop) (h : ∀ i < k, ∃ s, draw i = some s ∧ P i s) :
    OneForEach k ((List.range k).mapM draw) P := by
  obtain ⟨r, r1, r2, r3⟩ := mapM_of_each (List.range k) draw fun i hi => by
    obtain ⟨s, hs, _⟩ := h i (by simpa using hi)
    exact ⟨s, by simpa using hs⟩
  refine ⟨r, r1, by simpa using r2, fun i hi => ?_⟩
  obtain ⟨s, hs, hP⟩ := h i hi
  exact ⟨s, by rw [r3 i (by simpa using hi)]; simpa using hs, hP⟩

theorem oneForEach_iter {β : Type} (l : StateVectorList) (draw : StateVector → Option β) (P : ℕ → β → Prop)
    (h : ∀ i < size l.listBasis, ∃ s, draw ⟨l.basis, block (size l.basis) l.data i⟩ = some s ∧ P i s) :
    OneForEach (size l.listBasis) ((stateVectorListIntoIter l).mapM draw) P := by
  have := oneForEach_range (size l.listBasis) (fun i => draw ⟨l.basis, block (size l.basis) l.data i⟩) P h
  unfold stateVectorListIntoIter
  rwa [List.mapM_map, Basis.n_eq, Basis.n_eq]

/-- The converted list represents the same functions. -/
theorem convertList_states (same : Basis → Basis → Bool) (hs : Sound same) (l : StateVectorList) (hb : Valid l.basis) (ho : OrthonormalParts l.basis)
    (b : Basis) (hv : Valid b) (hob : OrthonormalParts b) (hc : Compatible l.basis b) (hn : size b = points b) :
    ∃ c, convertStateVectorList same l b = some c ∧ c.listBasis = l.listBasis ∧ c.basis = b ∧
      ∀ i, ∀ x < points l.basis, expand b (block (size b) c.data i) x = listedState l i x := by
  obtain ⟨f, hf, kf⟩ := expand_convert same hs l.basis b hb hv ho hob hc hn
  refine ⟨⟨l.listBasis, b, flatten b.n fun i => f (block l.basis.n l.data i)⟩, by simp [convertStateVectorList, hf], rfl, rfl, fun i x hx => ?_⟩
  unfold listedState
  rw [← kf _ x hx]
  refine expand_congr b (fun j hj => ?_) x
  dsimp only
  rw [Basis.n_eq, Basis.n_eq, block_flatten _ _ hj]

theorem planeCoefficient_congr (ns : List ℕ) (E F : ℕ → ℂ) (h : ∀ x < ns.prod, E x = F x) (k : ℕ) :
    planeCoefficient ns E k = planeCoefficient ns F k :=
  sum_congr rfl fun x hx => by rw [h x (mem_range.1 hx)]

theorem isLineX_congr (A : Matrix (Fin d) (Fin d) ℝ) (ns : List ℕ) (a : Fin d) (top : List ℕ) (htop : InShape ns top) (measure : Measure)
    (E F : ℕ → ℂ) (h : ∀ x < ns.prod, E x = F x) (line : DrawnLine) (hl : IsLineX A ns a top measure E line) :
    IsLineX A ns a top measure F line := by
  obtain ⟨h1, h2, h3, h4⟩ := hl
  refine ⟨h1, h2, fun j hj => ?_, h4⟩
  rw [h3 j hj]
  exact measured_congr _ _ _ _ fun i hi => h _ (ravel_lt _ _ (set_inShape _ _ _ _ htop (by omega)))

theorem isLineK_congr (A : Matrix (Fin d) (Fin d) ℝ) (ns : List ℕ) (a : Fin d) (top : List ℕ) (measure : Measure)
    (E F : ℕ → ℂ) (h : ∀ x < ns.prod, E x = F x) (line : DrawnLine) (hl : IsLineK A ns a top measure E line) :
    IsLineK A ns a top measure F line := by
  obtain ⟨h1, h2, h3, h4⟩ := hl
  refine ⟨h1, h2, fun j hj => ?_, h4⟩
  rw [h3 j hj]
  exact measured_congr _ _ _ _ fun i _ => planeCoefficient_congr ns E F h _

theorem isSliceX_congr (A : Matrix (Fin d) (Fin d) ℝ) (ns : List ℕ) (axes : List (Fin d)) (top : List ℕ)
    (E F : ℕ → ℂ) (h : ∀ x < ns.prod, E x = F x) (s : DrawnSlice) (hl : IsSliceX A ns axes top E s) : IsSliceX A ns axes top F s :=
  ⟨hl.1, fun full hf hag => ⟨(hl.2 full hf hag).1.trans (h _ (ravel_lt _ _ hf)), (hl.2 full hf hag).2⟩⟩

theorem isSliceK_congr (A : Matrix (Fin d) (Fin d) ℝ) (ns : List ℕ) (axes : List (Fin d)) (top : List ℕ)
    (E F : ℕ → ℂ) (h : ∀ x < ns.prod, E x = F x) (s : DrawnSlice) (hl : IsSliceK A ns axes top E s) : IsSliceK A ns axes top F s :=
  ⟨hl.1, fun full hf hag p hp => ⟨(hl.2 full hf hag p hp).1.trans (planeCoefficient_congr ns E F h _), (hl.2 full hf hag p hp).2⟩⟩

/-- The frames of the list converted to the position basis. -/
theorem frames_position {β : Type} (same : Basis → Basis → Bool) (hs : Sound same) (l : StateVectorList) (hb : Valid l.basis)
    (ho : OrthonormalParts l.basis) (draw : Basis → (ℕ → ℂ) → Option β) (P : (ℕ → ℂ) → β → Prop)
    (hdraw : ∀ v, ∃ s, draw l.basis.asPositionBasis v = some s ∧ P (expand l.basis.asPositionBasis v) s)
    (hP : ∀ E F s, (∀ x < l.basis.fundamentalShape.prod, E x = F x) → P E s → P F s) :
    OneForEach (size l.listBasis) ((convertStateVectorList same l l.basis.asPositionBasis).bind fun c =>
      animateList c.listBasis.n c.basis.n c.data fun row => draw c.basis row) fun i s => P (listedState l i) s := by
  obtain ⟨c, hc, c1, c2, c3⟩ := convertList_states same hs l hb ho l.basis.asPositionBasis (valid_position _) (orthonormalParts_position _)
    (compatible_asPosition _) ((size_asPosition _).trans (points_asPosition _).symm)
  rw [hc, Option.bind_some]
  unfold animateList
  rw [c1, Basis.n_eq l.listBasis]
  refine oneForEach_range _ _ _ fun i _ => ?_
  obtain ⟨s, s1, s2⟩ := hdraw (block c.basis.n c.data i)
  refine ⟨s, by rw [← s1, c2], hP _ _ s (fun x hx => ?_) s2⟩
  rw [fundamentalShape_prod] at hx
  rw [← c3 i x hx, Basis.n_eq, c2]

/-- The frames of the list converted to the momentum basis. -/
theorem frames_momentum {β : Type} (same : Basis → Basis → Bool) (hs : Sound same) (l : StateVectorList) (hb : Valid l.basis)
    (ho : OrthonormalParts l.basis) (draw : Basis → (ℕ → ℂ) → Option β) (P : (ℕ → ℂ) → β → Prop)
    (hdraw : ∀ v, ∃ s, draw l.basis.asTransformedBasis v = some s ∧ P (expand l.basis.asTransformedBasis v) s)
    (hP : ∀ E F s, (∀ x < l.basis.fundamentalShape.prod, E x = F x) → P E s → P F s) :
    OneForEach (size l.listBasis) ((convertStateVectorList same l l.basis.asTransformedBasis).bind fun c =>
      animateList c.listBasis.n c.basis.n c.data fun row => draw c.basis row) fun i s => P (listedState l i) s := by
  obtain ⟨c, hc, c1, c2, c3⟩ := convertList_states same hs l hb ho l.basis.asTransformedBasis (valid_transformed _) (orthonormalParts_transformed _)
    (compatible_asTransformed _) ((size_asTransformed _).trans (points_asTransformed _).symm)
  rw [hc, Option.bind_some]
  unfold animateList
  rw [c1, Basis.n_eq l.listBasis]
  refine oneForEach_range _ _ _ fun i _ => ?_
  obtain ⟨s, s1, s2⟩ := hdraw (block c.basis.n c.data i)
  refine ⟨s, by rw [← s1, c2], hP _ _ s (fun x hx => ?_) s2⟩
  rw [fundamentalShape_prod] at hx
  rw [← c3 i x hx, Basis.n_eq, c2]

theorem plotLineX_isLine (same : Basis → Basis → Bool) (hs : Sound same) (A : Matrix (Fin d) (Fin d) ℝ) (b : Basis) (hb : Valid b)
    (ho : OrthonormalParts b) (hd : b.fundamentalShape.length = d) (a : Fin d) (h2 : 2 ≤ b.fundamentalShape.getD a 0) (measure : Measure)
    (top : List ℕ) (htop : InShape b.fundamentalShape top) (v : ℕ → ℂ) :
    ∃ s, plotLineX same A b v a (some (offAxes [(a : ℕ)] top)) measure = some s ∧ IsLineX A b.fundamentalShape a top measure (expand b v) s := by
  obtain ⟨s, s1, s2, s3, s4, s5⟩ := C126_line_x same hs A b hb ho hd a v measure top htop _ rfl h2
  exact ⟨s, s1, s2, s3, s4, s5⟩

theorem plotLineK_isLine (same : Basis → Basis → Bool) (hs : Sound same) (A : Matrix (Fin d) (Fin d) ℝ) (b : Basis) (hb : Valid b)
    (ho : OrthonormalParts b) (hd : b.fundamentalShape.length = d) (a : Fin d) (h2 : 2 ≤ b.fundamentalShape.getD a 0) (measure : Measure)
    (top : List ℕ) (htop : InShape b.fundamentalShape top) (v : ℕ → ℂ) :
    ∃ s, plotLineK same A b v a (some (offAxes [(a : ℕ)] top)) measure = some s ∧ IsLineK A b.fundamentalShape a top measure (expand b v) s := by
  obtain ⟨s, s1, s2, s3, s4, s5⟩ := C126_line_k same hs A b hb ho hd a v measure top htop _ rfl h2
  exact ⟨s, s1, s2, s3, s4, s5⟩

/-! ## Theorems -/

/-- **C154.** `animate_state_over_list_1d_x` with a given index has one frame for each state, and `plot_states_1d_x` draws one line for each state,
in the order of the list; line `i` is the line of state `i` along the axis through the given index, whatever the basis of the states. -/
theorem C154_lines_x (same : Basis → Basis → Bool) (hs : Sound same) (A : Matrix (Fin d) (Fin d) ℝ) (l : StateVectorList) (hb : Valid l.basis)
    (ho : OrthonormalParts l.basis) (hd : l.basis.fundamentalShape.length = d) (a : Fin d) (h2 : 2 ≤ l.basis.fundamentalShape.getD a 0)
    (measure : Measure) (top : List ℕ) (htop : InShape l.basis.fundamentalShape top) :
    OneForEach (size l.listBasis) (animateStates1dX same A l a (some (offAxes [(a : ℕ)] top)) measure)
        (fun i => IsLineX A l.basis.fundamentalShape a top measure (listedState l i)) ∧
      OneForEach (size l.listBasis) (plotStates1dX same A l a (some (offAxes [(a : ℕ)] top)) measure)
        (fun i => IsLineX A l.basis.fundamentalShape a top measure (listedState l i)) := by
  have hfs := fundamentalShape_asPosition l.basis
  refine ⟨frames_position same hs l hb ho (fun b row => plotLineX same A b row a (some (offAxes [(a : ℕ)] top)) measure)
    (IsLineX A l.basis.fundamentalShape a top measure) (fun v => ?_) fun E F s h => isLineX_congr A _ a top htop measure E F h s,
    oneForEach_iter l _ _ fun i _ => plotLineX_isLine same hs A l.basis hb ho hd a h2 measure top htop _⟩
  have := plotLineX_isLine same hs A l.basis.asPositionBasis (valid_position _) (orthonormalParts_position _) (by rw [hfs]; exact hd) a
    (by rw [hfs]; exact h2) measure top (by rw [hfs]; exact htop) v
  rwa [hfs] at this

/-- **C154.** The same in momentum space: `animate_state_over_list_1d_k` and `plot_states_1d_k` with a given index have one line for each state, with
the coefficients of the plane waves of state `i` along the axis. -/
theorem C154_lines_k (same : Basis → Basis → Bool) (hs : Sound same) (A : Matrix (Fin d) (Fin d) ℝ) (l : StateVectorList) (hb : Valid l.basis)
    (ho : OrthonormalParts l.basis) (hd : l.basis.fundamentalShape.length = d) (a : Fin d) (h2 : 2 ≤ l.basis.fundamentalShape.getD a 0)
    (measure : Measure) (top : List ℕ) (htop : InShape l.basis.fundamentalShape top) :
    OneForEach (size l.listBasis) (animateStates1dK same A l a (some (offAxes [(a : ℕ)] top)) measure)
        (fun i => IsLineK A l.basis.fundamentalShape a top measure (listedState l i)) ∧
      OneForEach (size l.listBasis) (plotStates1dK same A l a (some (offAxes [(a : ℕ)] top)) measure)
        (fun i => IsLineK A l.basis.fundamentalShape a top measure (listedState l i)) := by
  have hfs := fundamentalShape_asTransformed l.basis
  refine ⟨frames_momentum same hs l hb ho (fun b row => plotLineK same A b row a (some (offAxes [(a : ℕ)] top)) measure)
    (IsLineK A l.basis.fundamentalShape a top measure) (fun v => ?_) fun E F s h => isLineK_congr A _ a top measure E F h s,
    oneForEach_iter l _ _ fun i _ => plotLineK_isLine same hs A l.basis hb ho hd a h2 measure top htop _⟩
  have := plotLineK_isLine same hs A l.basis.asTransformedBasis (valid_transformed _) (orthonormalParts_transformed _) (by rw [hfs]; exact hd) a
    (by rw [hfs]; exact h2) measure top (by rw [hfs]; exact htop) v
  rwa [hfs] at this

/-- **C154.** `animate_state_over_list_2d_x` and `animate_state_over_list_2d_k` with a given index have one frame for each state: the slice of state
`i`, or of the coefficients of its plane waves, through the given index. -/
theorem C154_slices (same : Basis → Basis → Bool) (hs : Sound same) (A : Matrix (Fin d) (Fin d) ℝ) (l : StateVectorList) (hb : Valid l.basis)
    (ho : OrthonormalParts l.basis) (hd : l.basis.fundamentalShape.length = d) (axes : List (Fin d)) (hnd : axes.Nodup)
    (top : List ℕ) (htop : InShape l.basis.fundamentalShape top) :
    OneForEach (size l.listBasis) (animateStates2dX same A l axes (some (offAxes (axes.map Fin.val) top)))
        (fun i => IsSliceX A l.basis.fundamentalShape axes top (listedState l i)) ∧
      OneForEach (size l.listBasis) (animateStates2dK same A l axes (some (offAxes (axes.map Fin.val) top)))
        (fun i => IsSliceK A l.basis.fundamentalShape axes top (listedState l i)) := by
  have hfp := fundamentalShape_asPosition l.basis
  have hft := fundamentalShape_asTransformed l.basis
  refine ⟨frames_position same hs l hb ho (fun b row => plotDataX same A b row axes (some (offAxes (axes.map Fin.val) top)))
    (IsSliceX A l.basis.fundamentalShape axes top) (fun v => ?_) fun E F s h => isSliceX_congr A _ axes top E F h s,
    frames_momentum same hs l hb ho (fun b row => plotData2dK same A b row axes (some (offAxes (axes.map Fin.val) top)))
    (IsSliceK A l.basis.fundamentalShape axes top) (fun v => ?_) fun E F s h => isSliceK_congr A _ axes top E F h s⟩
  · obtain ⟨s, s1, s2, s3⟩ := C126_position same hs A l.basis.asPositionBasis (valid_position _) (orthonormalParts_position _) (by rw [hfp]; exact hd)
      axes hnd v top (by rw [hfp]; exact htop)
    rw [hfp] at s2 s3
    exact ⟨s, s1, s2, s3⟩
  · obtain ⟨s, _, s1, s2, s3⟩ := C126_momentum same hs A l.basis.asTransformedBasis (valid_transformed _) (orthonormalParts_transformed _)
      (by rw [hft]; exact hd) axes hnd v top (by rw [hft]; exact htop)
    rw [hft] at s2 s3
    exact ⟨s, s1, s2, s3⟩

/-- **C154.** Without an index, each frame of `animate_state_over_list_1d_x` and each line of `plot_states_1d_x` is one through a point at which
the absolute value of *its* state is largest. Missing: that all show the same line, which is false (`C154_default_negation`). -/
theorem C154_default_x_partial (same : Basis → Basis → Bool) (hs : Sound same) (A : Matrix (Fin d) (Fin d) ℝ) (l : StateVectorList) (hb : Valid l.basis)
    (ho : OrthonormalParts l.basis) (hd : l.basis.fundamentalShape.length = d) (hne : 0 < points l.basis) (a : Fin d)
    (h2 : 2 ≤ l.basis.fundamentalShape.getD a 0) (measure : Measure) :
    OneForEach (size l.listBasis) (animateStates1dX same A l a none measure)
        (fun i line => ∃ top, InShape l.basis.fundamentalShape top ∧
          (∀ x < points l.basis, ‖listedState l i x‖ ≤ ‖listedState l i (ravel l.basis.fundamentalShape top)‖) ∧
          IsLineX A l.basis.fundamentalShape a top measure (listedState l i) line) ∧
      OneForEach (size l.listBasis) (plotStates1dX same A l a none measure)
        (fun i line => ∃ top, InShape l.basis.fundamentalShape top ∧
          (∀ x < points l.basis, ‖listedState l i x‖ ≤ ‖listedState l i (ravel l.basis.fundamentalShape top)‖) ∧
          IsLineX A l.basis.fundamentalShape a top measure (listedState l i) line) := by
  have hfs := fundamentalShape_asPosition l.basis
  have hpp := fundamentalShape_prod l.basis
  have key : ∀ b : Basis, Valid b → OrthonormalParts b → b.fundamentalShape = l.basis.fundamentalShape → points b = points l.basis → ∀ v,
      ∃ s, plotLineX same A b v a none measure = some s ∧ ∃ top, InShape l.basis.fundamentalShape top ∧
        (∀ x < points l.basis, ‖expand b v x‖ ≤ ‖expand b v (ravel l.basis.fundamentalShape top)‖) ∧
        IsLineX A l.basis.fundamentalShape a top measure (expand b v) s := by
    intro b hv hob hf hp v
    obtain ⟨top, t1, t2, t3⟩ := C126_position_default same hs A b hv hob (hp ▸ hne) [a] v
    obtain ⟨s, s1, s2⟩ := plotLineX_isLine same hs A b hv hob (by rw [hf]; exact hd) a (by rw [hf]; exact h2) measure top t1 v
    rw [hf] at s2 t1 t2
    rw [hp] at t2
    refine ⟨s, ?_, top, t1, t2, s2⟩
    rw [← s1]
    unfold plotLineX
    rw [t3]
    rfl
  refine ⟨frames_position same hs l hb ho (fun b row => plotLineX same A b row a none measure)
    (fun E s => ∃ top, InShape l.basis.fundamentalShape top ∧ (∀ x < points l.basis, ‖E x‖ ≤ ‖E (ravel l.basis.fundamentalShape top)‖) ∧
      IsLineX A l.basis.fundamentalShape a top measure E s)
    (fun v => key _ (valid_position _) (orthonormalParts_position _) hfs (points_asPosition _) v) fun E F s h => ?_,
    oneForEach_iter l _ _ fun i _ => key l.basis hb ho rfl rfl _⟩
  rintro ⟨top, t1, t2, t3⟩
  refine ⟨top, t1, fun x hx => ?_, isLineX_congr A _ a top t1 measure E F h s t3⟩
  rw [← h x (hpp ▸ hx), ← h _ (ravel_lt _ _ t1)]
  exact t2 x hx

/-- **C154.** Without an index, each frame of `animate_state_over_list_1d_k` is one through a plane wave with the largest coefficient of its state, since
the states are converted first (unlike those of `plot_states_1d_k`, see `C126_line_negation`). Missing: that all frames show the same line. -/
theorem C154_default_k_partial (same : Basis → Basis → Bool) (hs : Sound same) (A : Matrix (Fin d) (Fin d) ℝ) (l : StateVectorList) (hb : Valid l.basis)
    (ho : OrthonormalParts l.basis) (hd : l.basis.fundamentalShape.length = d) (hne : 0 < points l.basis) (a : Fin d)
    (h2 : 2 ≤ l.basis.fundamentalShape.getD a 0) (measure : Measure) :
    OneForEach (size l.listBasis) (animateStates1dK same A l a none measure)
        (fun i line => ∃ top, InShape l.basis.fundamentalShape top ∧
          (∀ k < points l.basis, ‖planeCoefficient l.basis.fundamentalShape (listedState l i) k‖ ≤
            ‖planeCoefficient l.basis.fundamentalShape (listedState l i) (ravel l.basis.fundamentalShape top)‖) ∧
          IsLineK A l.basis.fundamentalShape a top measure (listedState l i) line) := by
  have hfs := fundamentalShape_asTransformed l.basis
  have hpp := fundamentalShape_prod l.basis
  have hsz := size_asTransformed l.basis
  refine frames_momentum same hs l hb ho (fun b row => plotLineK same A b row a none measure)
    (fun E s => ∃ top, InShape l.basis.fundamentalShape top ∧
      (∀ k < points l.basis, ‖planeCoefficient l.basis.fundamentalShape E k‖ ≤
        ‖planeCoefficient l.basis.fundamentalShape E (ravel l.basis.fundamentalShape top)‖) ∧
      IsLineK A l.basis.fundamentalShape a top measure E s) (fun v => ?_) fun E F s h => ?_
  · set b := l.basis.asTransformedBasis with hbdef
    have hv : Valid b := valid_transformed _
    have hob : OrthonormalParts b := orthonormalParts_transformed _
    have hcoef : ∀ k < points l.basis, planeCoefficient l.basis.fundamentalShape (expand b v) k = v k := by
      intro k hk
      have ob := state_orthonormal b hv hob
      have e : planeCoefficient l.basis.fundamentalShape (expand b v) k = ∑ x ∈ range (points b), (starRingEnd ℂ) (state b k x) * expand b v x := by
        unfold planeCoefficient
        rw [hpp, hbdef, points_asTransformed]
        rfl
      rw [e]
      unfold expand
      rw [hsz]
      simp_rw [mul_sum]
      rw [sum_comm, sum_eq_single k]
      · have := ob k (by rw [hsz]; exact hk) k (by rw [hsz]; exact hk)
        rw [if_pos rfl] at this
        trans v k * ∑ x ∈ range (points b), (starRingEnd ℂ) (state b k x) * state b k x
        · rw [mul_sum]; exact sum_congr rfl fun x _ => by ring
        · rw [this, mul_one]
      · intro j hj hne'
        have := ob k (by rw [hsz]; exact hk) j (by rw [hsz]; exact mem_range.1 hj)
        rw [if_neg (Ne.symm hne')] at this
        trans v j * ∑ x ∈ range (points b), (starRingEnd ℂ) (state b k x) * state b j x
        · rw [mul_sum]; exact sum_congr rfl fun x _ => by ring
        · rw [this, mul_zero]
      · intro h; exact absurd (mem_range.2 hk) h
    obtain ⟨top, t1, t2, t3⟩ := C126_line_default_partial same A b (by rw [Basis.n_eq, hsz]; exact hne)
      (by rw [Basis.n_eq, hsz, hfs, hpp]) [a] v
    obtain ⟨s, s1, s2⟩ := plotLineK_isLine same hs A b hv hob (by rw [hfs]; exact hd) a (by rw [hfs]; exact h2) measure top t1 v
    rw [hfs] at s2 t1 t2
    rw [Basis.n_eq, hsz] at t2
    refine ⟨s, ?_, top, t1, fun k hk => ?_, s2⟩
    · rw [← s1]
      show plotLineK same A b v a none measure = _
      unfold plotLineK
      rw [t3]
      rfl
    · rw [hcoef k hk, hcoef _ (hpp ▸ ravel_lt _ _ t1)]
      exact t2 k hk
  · rintro ⟨top, t1, t2, t3⟩
    refine ⟨top, t1, fun k hk => ?_, isLineK_congr A _ a top measure E F h s t3⟩
    rw [← planeCoefficient_congr _ E F h, ← planeCoefficient_congr _ E F h]
    exact t2 k hk

/-- **C154.** Without an index, each frame of `animate_state_over_list_2d_x` and `animate_state_over_list_2d_k` is a slice through a point at which
its state, or through a plane wave at which the coefficient of its state, is largest. Missing: that all frames show the same plane. -/
theorem C154_default_slices_partial (same : Basis → Basis → Bool) (hs : Sound same) (A : Matrix (Fin d) (Fin d) ℝ) (l : StateVectorList) (hb : Valid l.basis)
    (ho : OrthonormalParts l.basis) (hd : l.basis.fundamentalShape.length = d) (hne : 0 < points l.basis) (axes : List (Fin d)) (hnd : axes.Nodup) :
    OneForEach (size l.listBasis) (animateStates2dX same A l axes none)
        (fun i s => ∃ top, InShape l.basis.fundamentalShape top ∧
          (∀ x < points l.basis, ‖listedState l i x‖ ≤ ‖listedState l i (ravel l.basis.fundamentalShape top)‖) ∧
          IsSliceX A l.basis.fundamentalShape axes top (listedState l i) s) ∧
      OneForEach (size l.listBasis) (animateStates2dK same A l axes none)
        (fun i s => ∃ top, InShape l.basis.fundamentalShape top ∧
          (∀ k < points l.basis, ‖planeCoefficient l.basis.fundamentalShape (listedState l i) k‖ ≤
            ‖planeCoefficient l.basis.fundamentalShape (listedState l i) (ravel l.basis.fundamentalShape top)‖) ∧
          IsSliceK A l.basis.fundamentalShape axes top (listedState l i) s) := by
  have hfp := fundamentalShape_asPosition l.basis
  have hft := fundamentalShape_asTransformed l.basis
  have hpp := fundamentalShape_prod l.basis
  refine ⟨frames_position same hs l hb ho (fun b row => plotDataX same A b row axes none)
    (fun E s => ∃ top, InShape l.basis.fundamentalShape top ∧ (∀ x < points l.basis, ‖E x‖ ≤ ‖E (ravel l.basis.fundamentalShape top)‖) ∧
      IsSliceX A l.basis.fundamentalShape axes top E s) (fun v => ?_) fun E F s h => ?_,
    frames_momentum same hs l hb ho (fun b row => plotData2dK same A b row axes none)
    (fun E s => ∃ top, InShape l.basis.fundamentalShape top ∧
      (∀ k < points l.basis, ‖planeCoefficient l.basis.fundamentalShape E k‖ ≤
        ‖planeCoefficient l.basis.fundamentalShape E (ravel l.basis.fundamentalShape top)‖) ∧
      IsSliceK A l.basis.fundamentalShape axes top E s) (fun v => ?_) fun E F s h => ?_⟩
  · obtain ⟨top, t1, t2, t3⟩ := C126_position_default same hs A l.basis.asPositionBasis (valid_position _) (orthonormalParts_position _)
      (by rw [points_asPosition]; exact hne) axes v
    obtain ⟨s, s1, s2, s3⟩ := C126_position same hs A l.basis.asPositionBasis (valid_position _) (orthonormalParts_position _) (by rw [hfp]; exact hd)
      axes hnd v top t1
    rw [hfp] at t1 t2 s2 s3
    rw [points_asPosition] at t2
    exact ⟨s, t3.trans s1, top, t1, t2, s2, s3⟩
  · rintro ⟨top, t1, t2, t3⟩
    refine ⟨top, t1, fun x hx => ?_, isSliceX_congr A _ axes top E F h s t3⟩
    rw [← h x (hpp ▸ hx), ← h _ (ravel_lt _ _ t1)]
    exact t2 x hx
  · obtain ⟨top, t1, t2, t3⟩ := C126_momentum_default same hs A l.basis.asTransformedBasis (valid_transformed _) (orthonormalParts_transformed _)
      (by rw [points_asTransformed]; exact hne) axes v
    obtain ⟨s, _, s1, s2, s3⟩ := C126_momentum same hs A l.basis.asTransformedBasis (valid_transformed _) (orthonormalParts_transformed _)
      (by rw [hft]; exact hd) axes hnd v top t1
    rw [hft] at t1 t2 s2 s3
    rw [points_asTransformed] at t2
    exact ⟨s, t3.trans s1, top, t1, t2, s2, s3⟩
  · rintro ⟨top, t1, t2, t3⟩
    refine ⟨top, t1, fun k hk => ?_, isSliceK_congr A _ axes top E F h s t3⟩
    rw [← planeCoefficient_congr _ E F h, ← planeCoefficient_congr _ E F h]
    exact t2 k hk

/-- **C154.** Hence the frames of an animation without an index need not show the same line: for two states on a grid of 2 × 2 points, the first at the point
(0, 0) and the second at (0, 1), both frames along the first axis start with the value 1, whereas with any given index through a point of the grid one
of the frames starts with 0. -/
theorem C154_default_negation (same : Basis → Basis → Bool) (hs : Sound same) (A : Matrix (Fin 2) (Fin 2) ℝ) :
    ∃ l : StateVectorList, size l.listBasis = 2 ∧ l.basis.fundamentalShape = [2, 2] ∧
      OneForEach 2 (animateStates1dX same A l 0 none .abs) (fun _ line => line.values 0 = 1) ∧
      ∀ top, InShape [2, 2] top → ∃ i < 2, ∀ frames, animateStates1dX same A l 0 (some (offAxes [0] top)) .abs = some frames →
        ∃ line, frames[i]? = some line ∧ line.values 0 = 0 := by
  set b : Basis := .tuple [.fundamental 2, .fundamental 2] with hb
  have hv : Valid b := ⟨trivial, trivial, trivial⟩
  have hob : OrthonormalParts b := orthonormalParts_fundamental [2, 2]
  have hfs : b.fundamentalShape = [2, 2] := rfl
  let l : StateVectorList := ⟨.fundamental 2, b, flatten 4 fun i x => if x = i then 1 else 0⟩
  have hst : ∀ i, ∀ x < 4, listedState l i x = if x = i then 1 else 0 := fun i x hx => by
    show expand b (block 4 l.data i) x = _
    rw [show expand b (block 4 l.data i) x = block 4 l.data i x from expand_position [2, 2] _ hx]
    exact block_flatten (fun i x => if x = i then 1 else 0) i hx
  refine ⟨l, rfl, rfl, ?_, fun top htop => ?_⟩
  · obtain ⟨frames, f1, f2, f3⟩ := (C154_default_x_partial same hs A l hv hob rfl (by decide) 0 (by rw [hfs]; decide) .abs).1
    refine ⟨frames, f1, f2, fun i hi => ?_⟩
    obtain ⟨line, g1, top, t1, t2, t3⟩ := f3 i hi
    refine ⟨line, g1, ?_⟩
    rw [hfs] at t1 t2 t3
    have hlt : ravel [2, 2] top < 4 := ravel_lt _ _ t1
    have e : ravel [2, 2] top = i := by
      by_contra hne
      have := t2 i (show i < 4 by omega)
      rw [hst i i (by omega), hst i _ hlt, if_pos rfl, if_neg hne] at this
      norm_num at this
    obtain ⟨t, u, rfl⟩ : ∃ t u, top = [t, u] := by
      match top, t1 with
      | [t, u], _ => exact ⟨t, u, rfl⟩
    obtain ⟨ht, hu, _⟩ := t1
    have e' : ravel [2, 2] [t, u] = t * 2 + u := by simp [ravel]
    rw [e'] at e
    obtain ⟨rfl, rfl⟩ : t = 0 ∧ u = i := by constructor <;> omega
    rw [t3.2.2.1 0 (by decide)]
    show ‖listedState l u (ravel [2, 2] [0, u])‖ = 1
    rw [show ravel [2, 2] [0, u] = u by simp [ravel], hst u u (by omega), if_pos rfl, norm_one]
  · obtain ⟨t, u, rfl⟩ : ∃ t u, top = [t, u] := by
      match top, htop with
      | [t, u], _ => exact ⟨t, u, rfl⟩
    have hu : u < 2 := htop.2.1
    obtain ⟨frames, f1, f2, f3⟩ := (C154_lines_x same hs A l hv hob rfl 0 (by rw [hfs]; decide) .abs [t, u] (by rw [hfs]; exact htop)).1
    refine ⟨1 - u, by omega, fun frames' h' => ?_⟩
    have : frames' = frames := Option.some.inj (h'.symm.trans f1)
    subst this
    obtain ⟨line, g1, g2⟩ := f3 (1 - u) (show 1 - u < 2 by omega)
    refine ⟨line, g1, ?_⟩
    rw [hfs] at g2
    rw [g2.2.2.1 0 (by decide)]
    show ‖listedState l (1 - u) (ravel [2, 2] [0, u])‖ = 0
    rw [show ravel [2, 2] [0, u] = u by simp [ravel], hst _ u (by omega), if_neg (by omega), norm_zero]

-- two states on a grid of 2 × 3 points
example : ∃ l : StateVectorList, size l.listBasis = 2 ∧ Valid l.basis ∧ OrthonormalParts l.basis ∧ l.basis.fundamentalShape.length = 2 ∧
    2 ≤ l.basis.fundamentalShape.getD 1 0 ∧ InShape l.basis.fundamentalShape [1, 2] ∧ 0 < points l.basis ∧ [(0 : Fin 2), 1].Nodup :=
  ⟨⟨.fundamental 2, .tuple [.fundamental 2, .fundamental 3], fun i => i⟩, rfl, ⟨trivial, trivial, trivial⟩, orthonormalParts_fundamental [2, 3], rfl,
    by decide, ⟨by decide, by decide, trivial⟩, by decide, by decide⟩

end Verif
