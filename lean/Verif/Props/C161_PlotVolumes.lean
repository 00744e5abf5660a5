import Verif.Model.PlotVolumes
import Verif.Props.C131_Paths
import Verif.Props.C143_PlotWavepackets

/-!
# C161: animations of a state and of a wavepacket in three dimensions
-/

set_option autoImplicit false

namespace Verif

open Finset Spec Matrix

variable {d : ℕ}

namespace Spec

/-- The frame at position `i` along the axis `c` of the function `E` on a grid with the number of points `ns`, in the plane of the axes `a` and `b` through the
point `top`: the value at each point is the measured value of `E` (an angle is unwrapped along `c`), its coordinates are the first two projections
of the position `place` of the point on the vectors `A`. -/
def IsFrame (A : Matrix (Fin d) (Fin d) ℝ) (ns : List ℕ) (a b c : Fin d) (top : List ℕ) (measure : Measure) (E : List ℕ → ℂ)
    (place : List ℕ → Fin d → ℝ) (i : ℕ) (f : DrawnFrame) : Prop :=
  f.rows = ns.getD a 0 ∧ f.cols = ns.getD b 0 ∧
    ∀ full, InShape ns full → AgreeOff [(a : ℕ), (b : ℕ), (c : ℕ)] full top → full.getD c 0 = i →
      f.values (full.getD a 0) (full.getD b 0) = getMeasuredData (fun z => E (full.set c z)) measure i ∧
      f.coordinates (full.getD a 0) (full.getD b 0) = (projectPoint [A a, A b, A c] (place full)).take 2

end Spec

/-! ## Helpers -/

theorem surfaceFrames (A : Matrix (Fin d) (Fin d) ℝ) (ns : List ℕ) (hd : ns.length = d) (data : ℕ → ℂ) (a b c : Fin d) (hnd : [a, b, c].Nodup)
    (measure : Measure) (top : List ℕ) (htop : InShape ns top) (n : ℕ) (hn : ns[2]? = some n) (hc : n ≤ ns.getD c 0) :
    ∃ frames, animateSurfaceFrames A ns data a b c (some (offAxes [(a : ℕ), (b : ℕ), (c : ℕ)] top)) measure = some frames ∧ frames.length = n ∧
      ∀ i < n, ∃ f, frames[i]? = some f ∧ IsFrame A ns a b c top measure (fun full => data (ravel ns full)) (gridPoint A ns) i f := by
  have hsh : getDataInAxesShape ns [(a : ℕ), (b : ℕ), (c : ℕ)] (offAxes [(a : ℕ), (b : ℕ), (c : ℕ)] top) =
      [ns.getD a 0, ns.getD b 0, ns.getD c 0] :=
    C07_shape _ _ _ (axes_nodup [a, b, c] hnd) (by rw [hd]; exact axes_lt [a, b, c]) top (inShape_length _ _ htop).symm rfl
  unfold animateSurfaceFrames
  dsimp only
  rw [Option.getD_some, hsh, hn, Option.bind_some, if_neg (show ¬ [ns.getD a 0, ns.getD b 0, ns.getD c 0].getD 2 0 < n from not_lt.2 hc)]
  refine ⟨_, rfl, by simp, fun i hi => ⟨_, by rw [List.getElem?_map, List.getElem?_range hi]; rfl, rfl, rfl, fun full hf ha hi' => ⟨?_, ?_⟩⟩⟩
  · have key : ∀ z < ns.getD c 0, getDataInAxes (fun full => data (ravel ns full)) [(a : ℕ), (b : ℕ), (c : ℕ)]
        (offAxes [(a : ℕ), (b : ℕ), (c : ℕ)] top) [full.getD a 0, full.getD b 0, z] = data (ravel ns (full.set c z)) := by
      intro z hz
      have hcl : (c : ℕ) < full.length := by rw [← inShape_length _ _ hf, hd]; exact c.2
      have hac : (c : ℕ) ≠ a := fun e => by
        have : c = a := Fin.ext e
        simp [this] at hnd
      have hbc : (c : ℕ) ≠ b := fun e => by
        have : c = b := Fin.ext e
        simp [this] at hnd
      have hon : onAxes [(a : ℕ), (b : ℕ), (c : ℕ)] (full.set c z) = [full.getD a 0, full.getD b 0, z] := by
        simp only [onAxes, List.map_cons, List.map_nil]
        rw [getD_set_self _ _ _ hcl, getD_set_other _ _ _ _ hac, getD_set_other _ _ _ _ hbc]
      rw [← hon]
      refine read_slice _ _ _ top (axes_nodup [a, b, c] hnd) ?_ ?_ ?_
      · rw [List.length_set, ← inShape_length _ _ hf, hd]; exact axes_lt [a, b, c]
      · rw [List.length_set]; exact (inShape_length _ _ hf).symm.trans (inShape_length _ _ htop)
      · intro p hp
        rw [getD_set_other _ _ _ _ (fun e => hp (by simp [← e]))]
        exact ha p hp
    exact measured_congr _ _ _ _ fun z hz => key z (by omega)
  · dsimp only
    have hon : onAxes ([a, b, c].map Fin.val) full = [full.getD a 0, full.getD b 0, i] := by rw [← hi']; rfl
    unfold getXCoordinatesInAxes
    rw [Option.getD_some, ← hon, show [(a : ℕ), (b : ℕ), (c : ℕ)] = [a, b, c].map Fin.val from rfl]
    rw [read_slice _ _ full top (axes_nodup [a, b, c] hnd) (by rw [← inShape_length _ _ hf, hd]; exact axes_lt [a, b, c])
      ((inShape_length _ _ hf).symm.trans (inShape_length _ _ htop)) ha, drawnPoint_eq A _ full hf]
    rfl

theorem state3d_eq (same : Basis → Basis → Bool) (hs : Sound same) (A : Matrix (Fin d) (Fin d) ℝ) (s : StateVector) (hb : Valid s.basis)
    (ho : OrthonormalParts s.basis) (a b c : Fin d) (idx : Option (List ℕ)) (measure : Measure) :
    ∃ g, (∀ x < s.basis.fundamentalShape.prod, g x = expand s.basis s.data x) ∧
      animateState3dX same A s a b c idx measure = animateSurfaceFrames A s.basis.fundamentalShape g a b c idx measure := by
  obtain ⟨f, hf, kf⟩ := convert_position same hs s.basis hb ho s.basis.fundamentalShape (compatible_symm _ _ (compatible_asPosition' s.basis))
  refine ⟨f s.data, fun x hx => kf _ _ hx, ?_⟩
  unfold animateState3dX convertStateVector
  rw [show s.basis.asPositionBasis = .tuple (s.basis.fundamentalShape.map .fundamental) from rfl, hf, Option.map_some, Option.bind_some]
  dsimp only
  rw [(shape_position _).1]

theorem isFrame_congr (A : Matrix (Fin d) (Fin d) ℝ) (ns : List ℕ) (hd : ns.length = d) (a b c : Fin d) (top : List ℕ) (measure : Measure) (E F : List ℕ → ℂ)
    (h : ∀ full, InShape ns full → E full = F full) (place : List ℕ → Fin d → ℝ) (i : ℕ) (f : DrawnFrame)
    (hf : IsFrame A ns a b c top measure E place i f) : IsFrame A ns a b c top measure F place i f := by
  obtain ⟨h1, h2, h3⟩ := hf
  refine ⟨h1, h2, fun full hfull ha hi => ?_⟩
  obtain ⟨v, w⟩ := h3 full hfull ha hi
  refine ⟨v.trans (measured_congr _ _ _ _ fun z hz => h _ (set_inShape _ _ _ _ hfull ?_)), w⟩
  have := axis_lt (ravel_lt ns full hfull) (show (c : ℕ) < ns.length by rw [hd]; exact c.2)
  rw [unravel_ravel ns full hfull] at this
  omega

/-! ## Theorems -/

/-- **C161.** `animate_state_3d_x` with a given index, along an axis which has as many points as the third axis of the basis: there is one frame for each
point of the axis, in ascending order, and the frame shows the state in the plane of the other two axes, whatever the basis of the state. -/
theorem C161_state_partial (same : Basis → Basis → Bool) (hs : Sound same) (A : Matrix (Fin d) (Fin d) ℝ) (s : StateVector) (hb : Valid s.basis)
    (ho : OrthonormalParts s.basis) (hd : s.basis.fundamentalShape.length = d) (a b c : Fin d) (hnd : [a, b, c].Nodup) (measure : Measure)
    (top : List ℕ) (htop : InShape s.basis.fundamentalShape top)
    (hc : s.basis.fundamentalShape[2]? = some (s.basis.fundamentalShape.getD c 0)) :
    ∃ frames, animateState3dX same A s a b c (some (offAxes [(a : ℕ), (b : ℕ), (c : ℕ)] top)) measure = some frames ∧
      frames.length = s.basis.fundamentalShape.getD c 0 ∧
      ∀ i < s.basis.fundamentalShape.getD c 0, ∃ f, frames[i]? = some f ∧
        IsFrame A s.basis.fundamentalShape a b c top measure (fun full => expand s.basis s.data (ravel s.basis.fundamentalShape full))
          (gridPoint A s.basis.fundamentalShape) i f := by
  obtain ⟨g, hg, e⟩ := state3d_eq same hs A s hb ho a b c (some (offAxes [(a : ℕ), (b : ℕ), (c : ℕ)] top)) measure
  obtain ⟨frames, h1, h2, h3⟩ := surfaceFrames A _ hd g a b c hnd measure top htop _ hc le_rfl
  refine ⟨frames, e.trans h1, h2, fun i hi => ?_⟩
  obtain ⟨f, f1, f2⟩ := h3 i hi
  exact ⟨f, f1, isFrame_congr A _ hd a b c top measure _ _ (fun full hfull => hg _ (ravel_lt _ _ hfull)) _ i f f2⟩

/-- **C161.** Without an index the animation is the one through the first point of the axes which are not drawn. -/
theorem C161_default (same : Basis → Basis → Bool) (hs : Sound same) (A : Matrix (Fin d) (Fin d) ℝ) (s : StateVector) (hb : Valid s.basis)
    (ho : OrthonormalParts s.basis) (hd : s.basis.fundamentalShape.length = d) (a b c : Fin d) (hnd : [a, b, c].Nodup) (measure : Measure) :
    animateState3dX same A s a b c none measure =
      animateState3dX same A s a b c (some (offAxes [(a : ℕ), (b : ℕ), (c : ℕ)] (List.replicate d 0))) measure := by
  have key : ∀ shape : List ℕ, shape.length = d → ∀ data : ℕ → ℂ, animateSurfaceFrames A shape data a b c none measure =
      animateSurfaceFrames A shape data a b c (some (offAxes [(a : ℕ), (b : ℕ), (c : ℕ)] (List.replicate d 0))) measure := by
    intro shape hshape data
    have e : offAxes [(a : ℕ), (b : ℕ), (c : ℕ)] (List.replicate d 0) = List.replicate (shape.length - 3) 0 := by
      rw [hshape]
      apply List.eq_replicate_iff.2
      refine ⟨?_, fun x hx => ?_⟩
      · unfold offAxes
        rw [List.length_map, List.length_replicate]
        have hperm : ((List.range d).filter fun p => decide (p ∈ [(a : ℕ), (b : ℕ), (c : ℕ)])).length = 3 := by
          rw [← List.toFinset_card_of_nodup (List.Nodup.filter _ List.nodup_range)]
          have : ((List.range d).filter fun p => decide (p ∈ [(a : ℕ), (b : ℕ), (c : ℕ)])).toFinset = [(a : ℕ), (b : ℕ), (c : ℕ)].toFinset := by
            ext p
            simp only [List.mem_toFinset, List.mem_filter, List.mem_range, decide_eq_true_eq]
            exact ⟨fun h => h.2, fun h => ⟨axes_lt [a, b, c] p h, h⟩⟩
          rw [this, List.toFinset_card_of_nodup (show [(a : ℕ), (b : ℕ), (c : ℕ)].Nodup from axes_nodup [a, b, c] hnd)]
          rfl
        have hsum := List.length_eq_length_filter_add (l := List.range d) fun p => decide (p ∈ [(a : ℕ), (b : ℕ), (c : ℕ)])
        rw [hperm, List.length_range] at hsum
        have : ((List.range d).filter fun p => decide (p ∉ [(a : ℕ), (b : ℕ), (c : ℕ)])).length =
            ((List.range d).filter fun p => !decide (p ∈ [(a : ℕ), (b : ℕ), (c : ℕ)])).length := by
          congr 2
          funext p
          rw [decide_not]
        omega
      · unfold offAxes at hx
        obtain ⟨p, _, rfl⟩ := List.mem_map.1 hx
        by_cases hp : p < d
        · simp [List.getD, hp]
        · simp [List.getD, hp]
    unfold animateSurfaceFrames
    rw [e, Option.getD_none, Option.getD_some]
  obtain ⟨g, _, e⟩ := state3d_eq same hs A s hb ho a b c none measure
  obtain ⟨f, hf, _⟩ := convert_position same hs s.basis hb ho s.basis.fundamentalShape (compatible_symm _ _ (compatible_asPosition' s.basis))
  unfold animateState3dX convertStateVector
  rw [show s.basis.asPositionBasis = .tuple (s.basis.fundamentalShape.map .fundamental) from rfl, hf, Option.map_some, Option.bind_some, Option.bind_some]
  dsimp only
  rw [(shape_position _).1]
  exact key _ hd _

/-- **C161.** `animate_wavepacket_3d_x` with a given index: the frames show the sum of the Bloch waves at the points of a crystal with as many unit
cells as there are samples, one frame for each point of the axis. -/
theorem C161_wavepacket_partial (same : Basis → Basis → Bool) (hs : Sound same) (A : Matrix (Fin d) (Fin d) ℝ) (axes : List (ℕ × ℕ))
    (hd : axes.length = d) (h0 : 0 ∉ sampleShape axes) (basis : Basis) (hb : Valid basis) (ho : OrthonormalParts basis)
    (hshape : basis.fundamentalShape = stateShape axes) (data : ℕ → ℂ) (a b c : Fin d) (hnd : [a, b, c].Nodup) (measure : Measure)
    (top : List ℕ) (htop : InShape (unfurledShape axes) top) (hc : (unfurledShape axes)[2]? = some ((unfurledShape axes).getD c 0)) :
    ∃ frames, animateWavepacket3dX same A ⟨fT (sampleShape axes), basis, data⟩ a b c (some (offAxes [(a : ℕ), (b : ℕ), (c : ℕ)] top)) measure =
        some frames ∧
      frames.length = (sampleShape axes).getD c 0 * (stateShape axes).getD c 0 ∧
      ∀ i < (sampleShape axes).getD c 0 * (stateShape axes).getD c 0, ∃ f, frames[i]? = some f ∧
        IsFrame A (unfurledShape axes) a b c top measure (packetValue axes basis data) (crystalPoint A axes) i f := by
  obtain ⟨u, h1, h2, h3⟩ := C45_bloch same hs axes basis hb ho hshape data
  have hsh : u.basis.fundamentalShape = unfurledShape axes := by rw [h2]; exact fundamentalShape_fT _
  obtain ⟨frames, e1, e2, e3⟩ := C161_state_partial same hs (sampleVectors A (fT (sampleShape axes))) u (by rw [h2]; exact valids_fT _)
    (by rw [h2]; exact orthonormalPartss_fT _) (by rw [hsh, length_unfurled, hd]) a b c hnd measure top (by rw [hsh]; exact htop)
    (by rw [hsh]; exact hc)
  rw [hsh] at e2 e3
  rw [unfurled_getD] at e2 e3
  refine ⟨frames, ?_, e2, fun i hi => ?_⟩
  · unfold animateWavepacket3dX
    rw [show fT (sampleShape axes) = .tuple ((sampleShape axes).map .fundamentalTransformed) from rfl, h1]
    exact e1
  · obtain ⟨f, f1, f2⟩ := e3 i hi
    obtain ⟨g1, g2, g3⟩ := isFrame_congr _ _ (by rw [length_unfurled, hd]) a b c top measure _ _ (fun full hfull => h3 full hfull) _ i f f2
    refine ⟨f, f1, g1, g2, fun full hfull ha hi' => ?_⟩
    obtain ⟨v, w⟩ := g3 full hfull ha hi'
    refine ⟨v, ?_⟩
    rw [w]
    congr 1
    have := project_unfurled A axes hd h0 [a, b, c] (crystalPoint A axes full)
    rw [gridPoint_unfurled A axes hd h0]
    exact this

/-- A state on a grid of 2 × 3 × 3 points animated along the second axis, and a wavepacket with two samples along the first axis. -/
example : ([2, 3, 3] : List ℕ)[2]? = some (([2, 3, 3] : List ℕ).getD ((1 : Fin 3) : ℕ) 0) ∧ [(0 : Fin 3), 2, 1].Nodup ∧
    InShape [2, 3, 3] [1, 0, 2] ∧ unfurledShape [(2, 2), (1, 3), (1, 3)] = [4, 3, 3] ∧ 0 ∉ sampleShape [(2, 2), (1, 3), (1, 3)] := by
  refine ⟨rfl, by decide, by simp [InShape], rfl, by decide⟩

/-- **C161 (negation).** The number of frames is that of the third axis of the basis, not that of the axis of the animation: along a shorter axis the
animation raises, and along a longer axis the last points are not shown. -/
theorem C161_state_negation (same : Basis → Basis → Bool) (hs : Sound same) (A : Matrix (Fin d) (Fin d) ℝ) (s : StateVector) (hb : Valid s.basis)
    (ho : OrthonormalParts s.basis) (hd : s.basis.fundamentalShape.length = d) (a b c : Fin d) (hnd : [a, b, c].Nodup) (measure : Measure)
    (top : List ℕ) (htop : InShape s.basis.fundamentalShape top) (n : ℕ) (hn : s.basis.fundamentalShape[2]? = some n) :
    (s.basis.fundamentalShape.getD c 0 < n →
      animateState3dX same A s a b c (some (offAxes [(a : ℕ), (b : ℕ), (c : ℕ)] top)) measure = none) ∧
    (n < s.basis.fundamentalShape.getD c 0 →
      ∃ frames, animateState3dX same A s a b c (some (offAxes [(a : ℕ), (b : ℕ), (c : ℕ)] top)) measure = some frames ∧
        frames.length < s.basis.fundamentalShape.getD c 0) := by
  obtain ⟨g, hg, e⟩ := state3d_eq same hs A s hb ho a b c (some (offAxes [(a : ℕ), (b : ℕ), (c : ℕ)] top)) measure
  refine ⟨fun h => ?_, fun h => ?_⟩
  · rw [e]
    have hsh : getDataInAxesShape s.basis.fundamentalShape [(a : ℕ), (b : ℕ), (c : ℕ)] (offAxes [(a : ℕ), (b : ℕ), (c : ℕ)] top) =
        [s.basis.fundamentalShape.getD a 0, s.basis.fundamentalShape.getD b 0, s.basis.fundamentalShape.getD c 0] :=
      C07_shape _ _ _ (axes_nodup [a, b, c] hnd) (by rw [hd]; exact axes_lt [a, b, c]) top (inShape_length _ _ htop).symm rfl
    unfold animateSurfaceFrames
    dsimp only
    rw [Option.getD_some, hsh, hn, Option.bind_some]
    exact if_pos h
  · obtain ⟨frames, h1, h2, _⟩ := surfaceFrames A _ hd g a b c hnd measure top htop n hn h.le
    exact ⟨frames, e.trans h1, by omega⟩

/-- A grid of 2 × 3 × 4 points, animated along the axis of 3 points. -/
example : ([2, 3, 4] : List ℕ)[2]? = some 4 ∧ ([2, 3, 4] : List ℕ).getD ((1 : Fin 3) : ℕ) 0 < 4 ∧ [(0 : Fin 3), 2, 1].Nodup ∧ InShape [2, 3, 4] [1, 0, 2] := by
  refine ⟨rfl, by decide, by decide, by simp [InShape]⟩

end Verif
