import Verif.Model.PlotOperators
import Verif.Props.C140_TemperatureGaussian
import Verif.Props.C154_PlotStateLists

/-!
# C155: operators drawn along their diagonal
-/

set_option autoImplicit false

namespace Verif

open Finset Spec Matrix

variable {d : ℕ}

namespace Spec

/-- The diagonal `⟨x|O|x⟩` in position space of the operator `∑ O_ij |i⟩⟨j|` between the states of a basis. -/
noncomputable def positionElement (b : Basis) (entries : ℕ → ℕ → ℂ) (x : ℕ) : ℂ :=
  ∑ i ∈ range (size b), ∑ j ∈ range (size b), state b i x * entries i j * (starRingEnd ℂ) (state b j x)

/-- The line of the function `E` on the grid along axis `a`, through the point `top`, against the index along the axis. -/
def IsLineN (ns : List ℕ) (a : ℕ) (top : List ℕ) (measure : Measure) (E : ℕ → ℂ) (line : DrawnLine) : Prop :=
  line.n = ns.getD a 0 ∧ (∀ j < ns.getD a 0, line.coordinates j = j) ∧
    ∀ j < ns.getD a 0, line.values j = getMeasuredData (fun i => E (ravel ns (top.set a i))) measure j

/-- The same with the first value repeated at the end. -/
def IsClosedLineN (ns : List ℕ) (a : ℕ) (top : List ℕ) (measure : Measure) (E : ℕ → ℂ) (line : DrawnLine) : Prop :=
  line.n = ns.getD a 0 + 1 ∧ (∀ j ≤ ns.getD a 0, line.coordinates j = j) ∧
    (∀ j < ns.getD a 0, line.values j = getMeasuredData (fun i => E (ravel ns (top.set a i))) measure j) ∧
    line.values (ns.getD a 0) = line.values 0

end Spec

/-! ## Helpers -/

theorem read_line {β : Type*} (data : List ℕ → β) (ns top : List ℕ) (htop : InShape ns top) (a : ℕ) (ha : a < ns.length) (j : ℕ) :
    getDataInAxes data [a] (offAxes [a] top) [j] = data (top.set a j) := by
  have hal : a < top.length := by rw [← inShape_length _ _ htop]; exact ha
  have hon : onAxes [a] (top.set a j) = [j] := by
    simp only [onAxes, List.map_cons, List.map_nil]
    rw [getD_set_self _ _ _ hal]
  have := read_slice data [a] (top.set a j) top (by simp) (by simpa using hal) (by simp) fun i hi => by
    have hne : a ≠ i := fun h => hi (by simp [h])
    simp [List.getD_eq_getElem?_getD, List.getElem?_set_ne hne]
  rwa [hon] at this

theorem plotLineN_eq (same : Basis → Basis → Bool) (hs : Sound same) (b : Basis) (hb : Valid b) (ho : OrthonormalParts b) (a : ℕ)
    (ha : a < b.fundamentalShape.length) (top : List ℕ) (htop : InShape b.fundamentalShape top) (measure : Measure) (periodic : Bool) (v : ℕ → ℂ) :
    ∃ w : ℕ → ℂ, (∀ j < b.fundamentalShape.getD a 0, w j = expand b v (ravel b.fundamentalShape (top.set a j))) ∧
      plotLineN same b v a (some (offAxes [a] top)) measure periodic = plotData1d (b.fundamentalShape.getD a 0) w (fun j => j) measure periodic := by
  obtain ⟨f, hf, kf⟩ := convert_position same hs b hb ho b.fundamentalShape (compatible_symm _ _ (compatible_asPosition' b))
  refine ⟨fun j => getDataInAxes (fun full => f v (ravel b.fundamentalShape full)) [a] (offAxes [a] top) [j], fun j hj => ?_, ?_⟩
  · dsimp only
    rw [read_line _ _ top htop a ha]
    exact kf v _ (ravel_lt _ _ (set_inShape _ _ _ _ htop hj))
  · unfold plotLineN
    rw [show b.asPositionBasis = .tuple (b.fundamentalShape.map .fundamental) from rfl, hf]
    rfl

theorem positionDiagonal_eq (same : Basis → Basis → Bool) (hs : Sound same) (b : Basis) (hb : Valid b) (ho : OrthonormalParts b) (O : Operator)
    (h0 : O.b0 = b) (h1 : O.b1 = b) :
    ∃ D, positionDiagonal same O = some D ∧ D.b0 = b.asPositionBasis ∧
      ∀ x < points b, D.data x = positionElement b (fun i j => O.data (i * size b + j)) x := by
  obtain ⟨⟨f, hf, kf⟩, -⟩ := position_units same hs b hb ho
  have h4 : Valid b.asPositionBasis := valid_position b
  have hc := compatible_asPosition b
  obtain ⟨C, f1, f2, hC, hf1, hf2, kC⟩ := C17_matrix same hs b b.asPositionBasis b b.asPositionBasis hb h4 ho hc hb h4 ho hc
  obtain rfl : f = f1 := Option.some.inj (hf.symm.trans hf1)
  obtain rfl : f = f2 := Option.some.inj (hf.symm.trans hf2)
  have hsz := size_asPosition b
  refine ⟨asDiagonalOperator ⟨b.asPositionBasis, b.asPositionBasis, [b.asPositionBasis.n * b.asPositionBasis.n],
    flatten b.asPositionBasis.n (C O.entry)⟩, ?_, rfl, fun x hx => ?_⟩
  · unfold positionDiagonal convertOperator
    rw [h0, h1, hC]
    rfl
  · have hx' : x < b.asPositionBasis.n := by rw [Basis.n_eq, hsz]; exact hx
    simp only [asDiagonalOperator, Operator.entry]
    rw [flatten_entry _ _ hx', kC _ x (by rw [hsz]; exact hx) x (by rw [hsz]; exact hx)]
    unfold positionElement
    refine sum_congr rfl fun i hi => sum_congr rfl fun j hj => ?_
    rw [kf i (mem_range.1 hi) x hx, kf j (mem_range.1 hj) x hx]
    simp only [Operator.entry, h1, Basis.n_eq]

theorem positionElement_diagonal (b : Basis) (diagonal : ℕ → ℂ) (entries : ℕ → ℕ → ℂ)
    (h : ∀ i < size b, ∀ j < size b, entries i j = if i = j then diagonal i else 0) (x : ℕ) :
    positionElement b entries x = ∑ i ∈ range (size b), diagonal i * ((‖state b i x‖ ^ 2 : ℝ) : ℂ) := by
  unfold positionElement
  refine sum_congr rfl fun i hi => ?_
  rw [sum_eq_single i]
  · rw [h i (mem_range.1 hi) i (mem_range.1 hi), if_pos rfl, Complex.ofReal_pow, ← Complex.mul_conj']
    ring
  · intro j hj hne
    rw [h i (mem_range.1 hi) j (mem_range.1 hj), if_neg (Ne.symm hne)]
    ring
  · intro hn; exact absurd hi hn

/-! ## Theorems -/

/-- **C155.** `plot_operator_along_diagonal_1d_x` and `plot_operator_along_diagonal_2d_x` with a given index draw the diagonal `⟨x|O|x⟩` of the operator in
position space, whatever the basis of the operator, along the axes through this index at the coordinates of the points. -/
theorem C155_position (same : Basis → Basis → Bool) (hs : Sound same) (A : Matrix (Fin d) (Fin d) ℝ) (b : Basis) (hb : Valid b)
    (ho : OrthonormalParts b) (hd : b.fundamentalShape.length = d) (O : Operator) (h0 : O.b0 = b) (h1 : O.b1 = b) (measure : Measure) (top : List ℕ)
    (htop : InShape b.fundamentalShape top) :
    (∀ a : Fin d, 2 ≤ b.fundamentalShape.getD a 0 → ∃ line, plotOperator1dX same A O a (some (offAxes [(a : ℕ)] top)) measure = some line ∧
      IsLineX A b.fundamentalShape a top measure (positionElement b fun i j => O.data (i * size b + j)) line) ∧
    ∀ axes : List (Fin d), axes.Nodup → ∃ s, plotOperator2dX same A O axes (some (offAxes (axes.map Fin.val) top)) = some s ∧
      IsSliceX A b.fundamentalShape axes top (positionElement b fun i j => O.data (i * size b + j)) s := by
  obtain ⟨D, hD, d0, kD⟩ := positionDiagonal_eq same hs b hb ho O h0 h1
  have hfs := fundamentalShape_asPosition b
  have hpp := fundamentalShape_prod b
  have hE : ∀ x < b.fundamentalShape.prod, expand b.asPositionBasis D.data x = positionElement b (fun i j => O.data (i * size b + j)) x := fun x hx => by
    rw [hpp] at hx
    rw [expand_asPosition b _ hx, kD x hx]
  refine ⟨fun a h2 => ?_, fun axes hnd => ?_⟩
  · obtain ⟨s, s1, s2⟩ := plotLineX_isLine same hs A b.asPositionBasis (valid_position _) (orthonormalParts_position _) (by rw [hfs]; exact hd) a
      (by rw [hfs]; exact h2) measure top (by rw [hfs]; exact htop) D.data
    rw [hfs] at s2
    refine ⟨s, ?_, isLineX_congr A _ a top htop measure _ _ hE s s2⟩
    unfold plotOperator1dX
    rw [hD, Option.bind_some, d0]
    exact s1
  · obtain ⟨s, s1, s2, s3⟩ := C126_position same hs A b.asPositionBasis (valid_position _) (orthonormalParts_position _) (by rw [hfs]; exact hd)
      axes hnd D.data top (by rw [hfs]; exact htop)
    rw [hfs] at s2 s3
    refine ⟨s, ?_, isSliceX_congr A _ axes top _ _ hE s ⟨s2, s3⟩⟩
    unfold plotOperator2dX
    rw [hD, Option.bind_some, d0]
    exact s1

/-- **C155.** For a diagonal operator `∑ d_i |i⟩⟨i|` (`plot_diagonal_operator_along_diagonal_1d_x` and `…_2d_x`) these values are `∑ d_i |⟨x|i⟩|²`. -/
theorem C155_position_diagonal (same : Basis → Basis → Bool) (hs : Sound same) (A : Matrix (Fin d) (Fin d) ℝ) (b : Basis) (hb : Valid b)
    (ho : OrthonormalParts b) (hd : b.fundamentalShape.length = d) (D : DiagonalOperator) (h0 : D.b0 = b) (h1 : D.b1 = b) (measure : Measure)
    (top : List ℕ) (htop : InShape b.fundamentalShape top) :
    (∀ a : Fin d, 2 ≤ b.fundamentalShape.getD a 0 → ∃ line, plotDiagonal1dX same A D a (some (offAxes [(a : ℕ)] top)) measure = some line ∧
      IsLineX A b.fundamentalShape a top measure (fun x => ∑ i ∈ range (size b), D.data i * ((‖state b i x‖ ^ 2 : ℝ) : ℂ)) line) ∧
    ∀ axes : List (Fin d), axes.Nodup → ∃ s, plotDiagonal2dX same A D axes (some (offAxes (axes.map Fin.val) top)) = some s ∧
      IsSliceX A b.fundamentalShape axes top (fun x => ∑ i ∈ range (size b), D.data i * ((‖state b i x‖ ^ 2 : ℝ) : ℂ)) s := by
  have key := C155_position same hs A b hb ho hd (asOperator D) h0 h1 measure top htop
  have hE : (positionElement b fun i j => (asOperator D).data (i * size b + j)) =
      fun x => ∑ i ∈ range (size b), D.data i * ((‖state b i x‖ ^ 2 : ℝ) : ℂ) := by
    funext x
    refine positionElement_diagonal b D.data _ (fun i _ j hj => ?_) x
    simp only [asOperator, h0, Basis.n_eq]
    rw [flatten_entry _ _ hj]
  rw [hE] at key
  exact key

/-- **C155.** Without an index the line is one through a point at which the absolute value of the diagonal in position space is largest. -/
theorem C155_position_default (same : Basis → Basis → Bool) (hs : Sound same) (A : Matrix (Fin d) (Fin d) ℝ) (b : Basis) (hb : Valid b)
    (ho : OrthonormalParts b) (hne : 0 < points b) (O : Operator) (h0 : O.b0 = b) (h1 : O.b1 = b) :
    (∀ (a : Fin d) (measure : Measure), ∃ top, InShape b.fundamentalShape top ∧
      (∀ x < points b, ‖positionElement b (fun i j => O.data (i * size b + j)) x‖ ≤
        ‖positionElement b (fun i j => O.data (i * size b + j)) (ravel b.fundamentalShape top)‖) ∧
      plotOperator1dX same A O a none measure = plotOperator1dX same A O a (some (offAxes [(a : ℕ)] top)) measure) ∧
    ∀ axes : List (Fin d), ∃ top, InShape b.fundamentalShape top ∧
      (∀ x < points b, ‖positionElement b (fun i j => O.data (i * size b + j)) x‖ ≤
        ‖positionElement b (fun i j => O.data (i * size b + j)) (ravel b.fundamentalShape top)‖) ∧
      plotOperator2dX same A O axes none = plotOperator2dX same A O axes (some (offAxes (axes.map Fin.val) top)) := by
  obtain ⟨D, hD, d0, kD⟩ := positionDiagonal_eq same hs b hb ho O h0 h1
  have hfs := fundamentalShape_asPosition b
  have hpp := fundamentalShape_prod b
  have key : ∀ axes : List (Fin d), ∃ top, InShape b.fundamentalShape top ∧
      (∀ x < points b, ‖positionElement b (fun i j => O.data (i * size b + j)) x‖ ≤
        ‖positionElement b (fun i j => O.data (i * size b + j)) (ravel b.fundamentalShape top)‖) ∧
      plotDataX same A D.b0 D.data axes none = plotDataX same A D.b0 D.data axes (some (offAxes (axes.map Fin.val) top)) := by
    intro axes
    obtain ⟨top, t1, t2, t3⟩ := C126_position_default same hs A b.asPositionBasis (valid_position _) (orthonormalParts_position _)
      (by rw [points_asPosition]; exact hne) axes D.data
    rw [hfs] at t1 t2
    rw [points_asPosition] at t2
    refine ⟨top, t1, fun x hx => ?_, by rw [d0]; exact t3⟩
    have hr : ravel b.fundamentalShape top < points b := hpp ▸ ravel_lt _ _ t1
    have := t2 x hx
    rwa [expand_asPosition b _ hx, expand_asPosition b _ hr, kD x hx, kD _ hr] at this
  refine ⟨fun a measure => ?_, fun axes => ?_⟩
  · obtain ⟨top, t1, t2, t3⟩ := key [a]
    refine ⟨top, t1, t2, ?_⟩
    unfold plotOperator1dX plotLineX
    rw [hD, Option.bind_some, Option.bind_some, t3]
    rfl
  · obtain ⟨top, t1, t2, t3⟩ := key axes
    refine ⟨top, t1, t2, ?_⟩
    unfold plotOperator2dX
    rw [hD, Option.bind_some, Option.bind_some, t3]

/-- **C155.** `plot_data_1d_n` with a given index draws the values of the function represented by the data against the index along the axis; with
`periodic` the first value is repeated at the end. -/
theorem C155_line_n (same : Basis → Basis → Bool) (hs : Sound same) (b : Basis) (hb : Valid b) (ho : OrthonormalParts b) (a : ℕ)
    (ha : a < b.fundamentalShape.length) (top : List ℕ) (htop : InShape b.fundamentalShape top) (measure : Measure) (v : ℕ → ℂ) :
    (∃ line, plotLineN same b v a (some (offAxes [a] top)) measure false = some line ∧
      IsLineN b.fundamentalShape a top measure (expand b v) line) ∧
    (2 ≤ b.fundamentalShape.getD a 0 → ∃ line, plotLineN same b v a (some (offAxes [a] top)) measure true = some line ∧
      IsClosedLineN b.fundamentalShape a top measure (expand b v) line) := by
  refine ⟨?_, fun h2 => ?_⟩
  · obtain ⟨w, hw, e⟩ := plotLineN_eq same hs b hb ho a ha top htop measure false v
    refine ⟨⟨b.fundamentalShape.getD a 0, fun j => j, getMeasuredData w measure⟩, by rw [e]; rfl, rfl, fun _ _ => rfl, fun j hj => ?_⟩
    exact measured_congr _ _ _ _ fun i hi => hw i (by omega)
  · obtain ⟨w, hw, e⟩ := plotLineN_eq same hs b hb ho a ha top htop measure true v
    obtain ⟨line, l1, l2, l3, l4, l5⟩ := plotData1d_line _ h2 w (fun i => expand b v (ravel b.fundamentalShape (top.set a i))) (fun j => j) 0 1 measure
      (fun i _ => by simp) hw
    exact ⟨line, by rw [e, l1], l2, fun j hj => by rw [l3 j hj]; simp, l4, l5⟩

theorem plotLineN_fundamental (same : Basis → Basis → Bool) (hs : Sound same) (n : ℕ) (hn : 0 < n) (measure : Measure) (v : ℕ → ℂ) :
    (∃ line, plotLineN same (.tuple [.fundamental n]) v 0 none measure false = some line ∧ line.n = n ∧ (∀ j < n, line.coordinates j = j) ∧
      ∀ j < n, line.values j = getMeasuredData v measure j) ∧
    (2 ≤ n → ∃ line, plotLineN same (.tuple [.fundamental n]) v 0 none measure true = some line ∧ line.n = n + 1 ∧
      (∀ j ≤ n, line.coordinates j = j) ∧ (∀ j < n, line.values j = getMeasuredData v measure j) ∧ line.values n = line.values 0) := by
  set b : Basis := .tuple [.fundamental n] with hb
  have hv : Valid b := ⟨trivial, trivial⟩
  have ho : OrthonormalParts b := orthonormalParts_fundamental [n]
  have hfs : b.fundamentalShape = [n] := rfl
  obtain ⟨f, hf, kf⟩ := convert_position same hs b hv ho b.fundamentalShape (compatible_symm _ _ (compatible_asPosition' b))
  obtain ⟨top, t1, t2, t3, t4⟩ := getMaxIdx_eq b.fundamentalShape b.fundamentalShape.prod (by rw [hfs]; simpa using hn) (le_refl _) (f v) [0]
  have hdef : ∀ p, plotLineN same b v 0 none measure p = plotLineN same b v 0 (some (offAxes [0] top)) measure p := by
    intro p
    unfold plotLineN
    rw [show b.asPositionBasis = .tuple (b.fundamentalShape.map .fundamental) from rfl, hf]
    dsimp only
    rw [Option.bind_some, Option.bind_some, t4]
  obtain ⟨t, rfl⟩ : ∃ t, top = [t] := by
    rw [hfs] at t1
    match top, t1 with
    | [t], _ => exact ⟨t, rfl⟩
  have hval : ∀ j < n, expand b v (ravel [n] ([t].set 0 j)) = v j := fun j hj => by
    rw [show ravel [n] ([t].set 0 j) = j by simp [ravel]]
    exact expand_position [n] v (by simpa using hj)
  obtain ⟨l1, l2⟩ := C155_line_n same hs b hv ho 0 (by rw [hfs]; simp) [t] t1 measure v
  refine ⟨?_, fun h2 => ?_⟩
  · obtain ⟨line, e, e1, e2, e3⟩ := l1
    rw [hfs] at e1 e2 e3
    refine ⟨line, (hdef _).trans e, e1, e2, fun j hj => ?_⟩
    rw [e3 j hj]
    exact measured_congr _ _ _ _ fun i hi => hval i (by omega)
  · obtain ⟨line, e, e1, e2, e3, e4⟩ := l2 (by rw [hfs]; exact h2)
    rw [hfs] at e1 e2 e3 e4
    refine ⟨line, (hdef _).trans e, e1, e2, fun j hj => ?_, e4⟩
    rw [e3 j hj]
    exact measured_congr _ _ _ _ fun i hi => hval i (by omega)

/-- **C155.** `plot_operator_along_diagonal` and `plot_diagonal_operator_along_diagonal` draw the diagonal entries against their index, and
`animate_diagonal_operator_list_along_diagonal` has a frame for each operator with its diagonal entries, if the basis is a fundamental basis. Missing: other
bases, for which it is false (`C155_diagonal_negation`). -/
theorem C155_diagonal_partial (same : Basis → Basis → Bool) (hs : Sound same) (n : ℕ) (hn : 0 < n) (measure : Measure) :
    (∀ O : Operator, O.b0 = .fundamental n → O.b1 = .fundamental n → ∃ line, plotOperatorAlongDiagonal same O measure = some line ∧ line.n = n ∧
      (∀ j < n, line.coordinates j = j) ∧ ∀ j < n, line.values j = getMeasuredData (fun i => O.data (i * n + i)) measure j) ∧
    (∀ D : DiagonalOperator, D.b0 = .fundamental n → ∃ line, plotDiagonalAlongDiagonal same D measure = some line ∧ line.n = n ∧
      (∀ j < n, line.coordinates j = j) ∧ ∀ j < n, line.values j = getMeasuredData D.data measure j) ∧
    ∀ L : DiagonalOperatorList, L.b0 = .fundamental n →
      OneForEach (size L.listBasis) (animateDiagonalList same L measure false) (fun m line => line.n = n ∧ (∀ j < n, line.coordinates j = j) ∧
        ∀ j < n, line.values j = getMeasuredData (fun i => L.data (m * n + i)) measure j) ∧
      (2 ≤ n → OneForEach (size L.listBasis) (animateDiagonalList same L measure true) (fun m line => line.n = n + 1 ∧
        (∀ j ≤ n, line.coordinates j = j) ∧ (∀ j < n, line.values j = getMeasuredData (fun i => L.data (m * n + i)) measure j) ∧
        line.values n = line.values 0)) := by
  refine ⟨fun O h0 h1 => ?_, fun D h0 => ?_, fun L h0 => ⟨?_, fun h2 => ?_⟩⟩
  · obtain ⟨line, e, e1, e2, e3⟩ := (plotLineN_fundamental same hs n hn measure (asDiagonalOperator O).data).1
    refine ⟨line, ?_, e1, e2, fun j hj => ?_⟩
    · unfold plotOperatorAlongDiagonal plotDiagonalAlongDiagonal
      rw [show (asDiagonalOperator O).b0 = .fundamental n from h0]
      exact e
    · rw [e3 j hj]
      simp only [asDiagonalOperator, Operator.entry, h1, Basis.n_eq, size]
  · obtain ⟨line, e, e1, e2, e3⟩ := (plotLineN_fundamental same hs n hn measure D.data).1
    refine ⟨line, ?_, e1, e2, e3⟩
    unfold plotDiagonalAlongDiagonal
    rw [h0]
    exact e
  · unfold animateDiagonalList animateList
    rw [h0, Basis.n_eq, Basis.n_eq]
    exact oneForEach_range _ _ _ fun m _ => (plotLineN_fundamental same hs n hn measure (block n L.data m)).1
  · unfold animateDiagonalList animateList
    rw [h0, Basis.n_eq, Basis.n_eq]
    exact oneForEach_range _ _ _ fun m _ => (plotLineN_fundamental same hs n hn measure (block n L.data m)).2 h2

/-- **C155.** In other bases the diagonal is converted like a vector: the line drawn for the identity between two momentum states has the values `√2` and 0. -/
theorem C155_diagonal_negation (same : Basis → Basis → Bool) (hs : Sound same) :
    ∃ O : Operator, O.b0 = .fundamentalTransformed 2 ∧ O.b1 = .fundamentalTransformed 2 ∧
      (∀ i < 2, ∀ j < 2, O.data (i * 2 + j) = if i = j then 1 else 0) ∧
      ∃ line, plotOperatorAlongDiagonal same O .abs = some line ∧ line.n = 2 ∧ line.values 0 = Real.sqrt 2 ∧ line.values 1 = 0 := by
  set b : Basis := fT [2] with hb
  have hv : Valid b := valids_fT _
  have ho : OrthonormalParts b := orthonormalPartss_fT _
  have hfs : b.fundamentalShape = [2] := fundamentalShape_fT _
  let O : Operator := ⟨.fundamentalTransformed 2, .fundamentalTransformed 2, [2, 2], flatten 2 fun i j => if i = j then 1 else 0⟩
  have hO : ∀ i < 2, ∀ j < 2, O.data (i * 2 + j) = if i = j then 1 else 0 := fun i _ j hj => flatten_entry (fun i j => if i = j then 1 else 0) i hj
  obtain ⟨f, hf, kf⟩ := convert_position same hs b hv ho b.fundamentalShape (compatible_symm _ _ (compatible_asPosition' b))
  set v : ℕ → ℂ := (asDiagonalOperator O).data with hvdef
  have hv1 : ∀ i < 2, v i = 1 := fun i hi => by
    have := hO i hi i hi
    rw [if_pos rfl] at this
    rw [← this]
    simp only [hvdef, asDiagonalOperator, Operator.entry, Basis.n_eq]
    rfl
  obtain ⟨top, t1, t2, t3, t4⟩ := getMaxIdx_eq b.fundamentalShape b.fundamentalShape.prod (by rw [hfs]; decide) (le_refl _) (f v) [0]
  have hdef : plotLineN same b v 0 none .abs false = plotLineN same b v 0 (some (offAxes [0] top)) .abs false := by
    unfold plotLineN
    rw [show b.asPositionBasis = .tuple (b.fundamentalShape.map .fundamental) from rfl, hf]
    dsimp only
    rw [Option.bind_some, Option.bind_some, t4]
  obtain ⟨line, e, e1, e2, e3⟩ := (C155_line_n same hs b hv ho 0 (by rw [hfs]; decide) top t1 .abs v).1
  rw [hfs] at e1 e3 t1
  obtain ⟨t, rfl⟩ : ∃ t, top = [t] := by
    match top, t1 with
    | [t], _ => exact ⟨t, rfl⟩
  have hst : ∀ k x, state b k x = planeWave 2 (k : ℤ) x := fun k x => by
    rw [hb]
    show planeWave 2 ((k / 1 : ℕ) : ℤ) (x / 1) * 1 = _
    rw [Nat.div_one, Nat.div_one, mul_one]
  have hE : ∀ x, expand b v x = planeWave 2 (0 : ℕ) x + planeWave 2 (1 : ℕ) x := fun x => by
    unfold expand
    rw [show size b = 2 from rfl, sum_range_succ, sum_range_succ, sum_range_zero, zero_add, hv1 0 (by norm_num), hv1 1 (by norm_num), hst, hst, one_mul, one_mul]
  refine ⟨O, rfl, rfl, hO, line, hdef.trans e, e1, ?_, ?_⟩
  · rw [e3 0 (by decide)]
    show ‖expand b v (ravel [2] ([t].set 0 0))‖ = _
    rw [show ravel [2] ([t].set 0 0) = 0 by simp [ravel], hE, planeWave_two 0 0 (by norm_num) (by norm_num), planeWave_two 1 0 (by norm_num) (by norm_num)]
    norm_num
    rw [← Complex.ofReal_inv, ← Complex.ofReal_add, Complex.norm_real, Real.norm_of_nonneg (by positivity)]
    have h2 : Real.sqrt 2 * Real.sqrt 2 = 2 := Real.mul_self_sqrt (by norm_num)
    have h0 : Real.sqrt 2 ≠ 0 := by positivity
    field_simp
    nlinarith [h2]
  · rw [e3 1 (by decide)]
    show ‖expand b v (ravel [2] ([t].set 0 1))‖ = _
    rw [show ravel [2] ([t].set 0 1) = 1 by simp [ravel], hE, planeWave_two 0 1 (by norm_num) (by norm_num), planeWave_two 1 1 (by norm_num) (by norm_num)]
    norm_num
    ring

-- the identity between the two momentum states of a grid of two points, and two points along a single axis
example : ∃ (b : Basis) (O : Operator), Valid b ∧ OrthonormalParts b ∧ b.fundamentalShape = [2] ∧ O.b0 = b ∧ O.b1 = b ∧
    InShape b.fundamentalShape [1] ∧ 2 ≤ b.fundamentalShape.getD 0 0 ∧ 0 < points b :=
  ⟨fT [2], ⟨fT [2], fT [2], [4], fun k => if k % 3 = 0 then 1 else 0⟩, valids_fT _, orthonormalPartss_fT _, fundamentalShape_fT _, rfl, rfl,
    by rw [fundamentalShape_fT]; exact ⟨by decide, trivial⟩, by rw [fundamentalShape_fT]; decide, by decide⟩

end Verif
