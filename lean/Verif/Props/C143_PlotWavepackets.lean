import Verif.Model.PlotWavepackets
import Verif.Props.C138_Bands
import Verif.Props.C137_PlotStates
import Verif.Props.C136_EigenOccupations
import Verif.Props.C48_Bloch

/-!
C143: plots of wavepackets draw the function obtained by adding the Bloch waves of all samples, in a cell with as many unit cells as there are
samples.
-/

set_option autoImplicit false

namespace Verif

open Finset Matrix Spec

variable {d : ℕ}

namespace Spec

/-- The value of a wavepacket at a point of the large cell: the average over the samples of its Bloch states, each the periodic part at the point
below times the Bloch phase. -/
noncomputable def packetValue (axes : List (ℕ × ℕ)) (b : Basis) (data : ℕ → ℂ) (X : List ℕ) : ℂ :=
  (∑ a ∈ range (axes.map Prod.fst).prod, blochPhase axes (unravel (axes.map Prod.fst) a) X *
    expand b (block (size b) data a) (ravel (axes.map Prod.snd) (reduce axes X))) / ((axes.map Prod.fst).prod : ℕ)

/-- The point of the crystal with the given index of the grid, `n` points for each unit cell: steps of `1 / n[i]` of the vectors of the unit cell. -/
noncomputable def crystalPoint {d : ℕ} (A : Matrix (Fin d) (Fin d) ℝ) (axes : List (ℕ × ℕ)) (full : List ℕ) : Fin d → ℝ :=
  ∑ i : Fin d, ((full.getD i 0 : ℝ) / ((axes.map Prod.snd).getD i 0 : ℝ)) • A i

/-- The wave vector at a slot of the large cell: multiples of `1 / N[i]` of the reciprocal vectors of the unit cell, for `N` samples. -/
noncomputable def crystalMomentum {d : ℕ} (A : Matrix (Fin d) (Fin d) ℝ) (axes : List (ℕ × ℕ)) (full : List ℕ) : Fin d → ℝ :=
  ∑ i : Fin d, ((freq ((axes.map fun a => a.1 * a.2).getD i 0) (full.getD i 0) : ℝ) / ((axes.map Prod.fst).getD i 0 : ℝ)) •
    ((2 * Real.pi) • (A⁻¹)ᵀ) i

end Spec

/-! ## Helpers: directions of the projection do not depend on the lengths of the vectors -/

theorem subtractProjections_smul (c : ℝ) : ∀ (es : List (Fin d → ℝ)) (v : Fin d → ℝ),
    subtractProjections es (c • v) = c • subtractProjections es v
  | [], _ => rfl
  | e :: es, v => by
    have := subtractProjections_smul c es (fun k => v k - e k * (e ⬝ᵥ v))
    unfold subtractProjections at this ⊢
    rw [List.foldl_cons, List.foldl_cons, ← this]
    congr 1
    funext k
    rw [dotProduct_smul]
    show c * v k - e k * (c * _) = c * (v k - e k * _)
    ring

theorem projectedAxes_scale {ι : Type*} (s : ι → ℝ) (hs : ∀ i, 0 < s i) (V : ι → Fin d → ℝ) (l : List ι) :
    projectedAxes (l.map fun i => s i • V i) = projectedAxes (l.map V) := by
  have key : ∀ (acc : List (Fin d → ℝ)), (l.map fun i => s i • V i).foldl (fun es v =>
      let p := subtractProjections es v
      es ++ [fun c => p c / vnorm p]) acc = (l.map V).foldl (fun es v =>
      let p := subtractProjections es v
      es ++ [fun c => p c / vnorm p]) acc := by
    induction l with
    | nil => intro acc; rfl
    | cons i l ih =>
      intro acc
      rw [List.map_cons, List.map_cons, List.foldl_cons, List.foldl_cons, ih]
      congr 1
      dsimp only
      rw [subtractProjections_smul, vnorm_smul_nonneg _ (hs i).le]
      congr 2
      funext c
      show s i * _ / _ = _
      rw [mul_div_mul_left _ _ (hs i).ne']
  exact key []

theorem projectPoint_scale {ι : Type*} (s : ι → ℝ) (hs : ∀ i, 0 < s i) (V : ι → Fin d → ℝ) (l : List ι) (p : Fin d → ℝ) :
    projectPoint (l.map fun i => s i • V i) p = projectPoint (l.map V) p := by
  unfold projectPoint
  rw [projectedAxes_scale s hs]

theorem getD_map_pair (axes : List (ℕ × ℕ)) (f : ℕ × ℕ → ℕ) (i : ℕ) (hi : i < axes.length) : (axes.map f).getD i 0 = f axes[i] := by
  simp [List.getD, hi]

theorem unfurled_getD (axes : List (ℕ × ℕ)) (i : ℕ) :
    (unfurledShape axes).getD i 0 = (sampleShape axes).getD i 0 * (stateShape axes).getD i 0 := by
  unfold unfurledShape sampleShape stateShape
  by_cases hi : i < axes.length
  · rw [getD_map_pair _ _ _ hi, getD_map_pair _ _ _ hi, getD_map_pair _ _ _ hi]
  · simp [List.getD, List.getElem?_eq_none (not_lt.1 hi)]

theorem gridPoint_unfurled (A : Matrix (Fin d) (Fin d) ℝ) (axes : List (ℕ × ℕ)) (hd : axes.length = d) (h0 : 0 ∉ sampleShape axes)
    (full : List ℕ) :
    gridPoint (sampleVectors A (fT (sampleShape axes))) (unfurledShape axes) full = crystalPoint A axes full := by
  unfold gridPoint crystalPoint
  refine sum_congr rfl fun i _ => ?_
  have h := getD_pos h0 (i := i) (by unfold sampleShape; rw [List.length_map, hd]; exact i.2)
  rw [sampleVectors_row, fundamentalShape_fT, smul_smul, unfurled_getD]
  congr 1
  push_cast
  have h' : ((sampleShape axes).getD i 0 : ℝ) ≠ 0 := by exact_mod_cast h.ne'
  rw [div_mul_eq_mul_div, mul_comm ((sampleShape axes).getD i 0 : ℝ), mul_div_mul_right _ _ h']
  rfl

theorem waveVector_unfurled (A : Matrix (Fin d) (Fin d) ℝ) (axes : List (ℕ × ℕ)) (hd : axes.length = d) (h0 : 0 ∉ sampleShape axes)
    (full : List ℕ) :
    waveVector (sampleVectors A (fT (sampleShape axes))) (unfurledShape axes) full = crystalMomentum A axes full := by
  unfold waveVector crystalMomentum
  refine sum_congr rfl fun i _ => ?_
  rw [sampleVectors_inv A _ (sampleShape axes) (fundamentalShape_fT _) (by unfold sampleShape; rw [List.length_map, hd]) h0, smul_smul,
    mul_one_div]
  rfl

theorem project_unfurled (A : Matrix (Fin d) (Fin d) ℝ) (axes : List (ℕ × ℕ)) (hd : axes.length = d) (h0 : 0 ∉ sampleShape axes)
    (l : List (Fin d)) (p : Fin d → ℝ) :
    projectPoint (l.map fun a => sampleVectors A (fT (sampleShape axes)) a) p = projectPoint (l.map fun a => A a) p := by
  rw [← projectPoint_scale (fun a : Fin d => ((sampleShape axes).getD a 0 : ℝ)) (fun i => by
    exact_mod_cast getD_pos h0 (i := i) (by unfold sampleShape; rw [List.length_map, hd]; exact i.2)) (fun a => A a)]
  congr 1
  refine List.map_congr_left fun a _ => ?_
  rw [sampleVectors_row, fundamentalShape_fT]

theorem project_unfurled_k (A : Matrix (Fin d) (Fin d) ℝ) (axes : List (ℕ × ℕ)) (hd : axes.length = d) (h0 : 0 ∉ sampleShape axes)
    (h1 : 0 ∉ stateShape axes) (l : List (Fin d)) (p : Fin d → ℝ) :
    projectPoint (l.map fun a : Fin d => (((unfurledShape axes).getD a 0 : ℝ) •
      ((2 * Real.pi) • ((sampleVectors A (fT (sampleShape axes)))⁻¹)ᵀ) a)) p =
    projectPoint (l.map fun a : Fin d => ((2 * Real.pi) • (A⁻¹)ᵀ) a) p := by
  rw [← projectPoint_scale (fun a : Fin d => ((stateShape axes).getD a 0 : ℝ)) (fun i => by
    exact_mod_cast getD_pos h1 (i := i) (by unfold stateShape; rw [List.length_map, hd]; exact i.2))
    (fun a : Fin d => ((2 * Real.pi) • (A⁻¹)ᵀ) a)]
  congr 1
  refine List.map_congr_left fun a _ => ?_
  have h := getD_pos h0 (i := a) (by unfold sampleShape; rw [List.length_map, hd]; exact a.2)
  have h' : ((sampleShape axes).getD a 0 : ℝ) ≠ 0 := by exact_mod_cast h.ne'
  rw [sampleVectors_inv A _ (sampleShape axes) (fundamentalShape_fT _) (by unfold sampleShape; rw [List.length_map, hd]) h0, smul_smul,
    unfurled_getD]
  congr 1
  push_cast
  field_simp

theorem length_unfurled (axes : List (ℕ × ℕ)) : (unfurledShape axes).length = axes.length := List.length_map ..

/-! ## Position space -/

/-- **C143.** A wavepacket drawn in position space with a given index: the points drawn belong to a cell with as many unit cells along each vector as
there are samples; the value at each is the sum of the Bloch waves, and the coordinates are those of the point of the crystal. -/
theorem C143_position (same : Basis → Basis → Bool) (hs : Sound same) (A : Matrix (Fin d) (Fin d) ℝ) (axes : List (ℕ × ℕ))
    (hd : axes.length = d) (h0 : 0 ∉ sampleShape axes) (b : Basis) (hb : Valid b) (ho : OrthonormalParts b)
    (hshape : b.fundamentalShape = stateShape axes) (data : ℕ → ℂ) (drawn : List (Fin d)) (hnd : drawn.Nodup) (top : List ℕ)
    (htop : InShape (unfurledShape axes) top) :
    ∃ s, plotWavepacketX same A ⟨fT (sampleShape axes), b, data⟩ drawn (some (offAxes (drawn.map Fin.val) top)) = some s ∧
      s.shape = drawn.map (fun a : Fin d => (sampleShape axes).getD a 0 * (stateShape axes).getD a 0) ∧
      ∀ full, InShape (unfurledShape axes) full → AgreeOff (drawn.map Fin.val) full top →
        s.values (onAxes (drawn.map Fin.val) full) = packetValue axes b data full ∧
        s.coordinates (onAxes (drawn.map Fin.val) full) = projectPoint (drawn.map fun a => A a) (crystalPoint A axes full) := by
  obtain ⟨u, h1, h2, h3⟩ := C45_bloch same hs axes b hb ho hshape data
  have hsh : u.basis.fundamentalShape = unfurledShape axes := by rw [h2]; exact fundamentalShape_fT _
  obtain ⟨s, e1, e2, e3⟩ := C126_position same hs (sampleVectors A (fT (sampleShape axes))) u.basis (by rw [h2]; exact valids_fT _)
    (by rw [h2]; exact orthonormalPartss_fT _) (by rw [hsh, length_unfurled, hd]) drawn hnd u.data top (by rw [hsh]; exact htop)
  rw [hsh] at e2 e3
  refine ⟨s, ?_, ?_, fun full hf ha => ?_⟩
  · unfold plotWavepacketX
    rw [show fT (sampleShape axes) = .tuple ((sampleShape axes).map .fundamentalTransformed) from rfl, h1]
    exact e1
  · rw [e2]
    exact List.map_congr_left fun a _ => unfurled_getD axes a
  · obtain ⟨v, c⟩ := e3 full hf ha
    refine ⟨v.trans (h3 full hf), ?_⟩
    rw [c, project_unfurled A axes hd h0, gridPoint_unfurled A axes hd h0]

/-- **C143.** The difference of two wavepackets with the same samples, in any bases of the unit cell: the relative difference of the two sums of
Bloch waves at each point. -/
theorem C143_difference (same : Basis → Basis → Bool) (hs : Sound same) (A : Matrix (Fin d) (Fin d) ℝ) (axes : List (ℕ × ℕ))
    (hd : axes.length = d) (h0 : 0 ∉ sampleShape axes) (b b' : Basis) (hb : Valid b) (hb' : Valid b') (ho : OrthonormalParts b)
    (ho' : OrthonormalParts b') (hshape : b.fundamentalShape = stateShape axes) (hshape' : b'.fundamentalShape = stateShape axes)
    (data data' : ℕ → ℂ) (drawn : List (Fin d)) (hnd : drawn.Nodup) (top : List ℕ) (htop : InShape (unfurledShape axes) top) :
    ∃ s, plotWavepacketDifference2dX same A ⟨fT (sampleShape axes), b, data⟩ ⟨fT (sampleShape axes), b', data'⟩ drawn
        (some (offAxes (drawn.map Fin.val) top)) = some s ∧
      s.shape = drawn.map (fun a : Fin d => (sampleShape axes).getD a 0 * (stateShape axes).getD a 0) ∧
      ∀ full, InShape (unfurledShape axes) full → AgreeOff (drawn.map Fin.val) full top →
        IsRelativeDifference (packetValue axes b data full) (packetValue axes b' data' full)
          (s.values (onAxes (drawn.map Fin.val) full)) ∧
        s.coordinates (onAxes (drawn.map Fin.val) full) = projectPoint (drawn.map fun a => A a) (crystalPoint A axes full) := by
  obtain ⟨u, h1, h2, h3⟩ := C45_bloch same hs axes b hb ho hshape data
  obtain ⟨u', h1', h2', h3'⟩ := C45_bloch same hs axes b' hb' ho' hshape' data'
  have hsh : u.basis.fundamentalShape = unfurledShape axes := by rw [h2]; exact fundamentalShape_fT _
  have hsh' : u'.basis.fundamentalShape = unfurledShape axes := by rw [h2']; exact fundamentalShape_fT _
  obtain ⟨s, e1, e2, e3⟩ := C137_position same hs (sampleVectors A (fT (sampleShape axes))) u u' (by rw [h2]; exact valids_fT _)
    (by rw [h2']; exact valids_fT _) (by rw [h2]; exact orthonormalPartss_fT _) (by rw [h2']; exact orthonormalPartss_fT _)
    (unfurledShape axes) hsh hsh' (by rw [length_unfurled, hd]) drawn hnd top htop
  refine ⟨s, ?_, ?_, fun full hf ha => ?_⟩
  · unfold plotWavepacketDifference2dX
    rw [show fT (sampleShape axes) = .tuple ((sampleShape axes).map .fundamentalTransformed) from rfl, h1, h1']
    exact e1
  · rw [e2]
    exact List.map_congr_left fun a _ => unfurled_getD axes a
  · obtain ⟨v, c⟩ := e3 full hf ha
    rw [h3 full hf, h3' full hf] at v
    refine ⟨v, ?_⟩
    rw [c, project_unfurled A axes hd h0, gridPoint_unfurled A axes hd h0]

theorem fundamentalShape_sampled : ∀ (axes : List (ℕ × ℕ)) (os : List ℤ), os.length = axes.length →
    (Basis.tuple (sampleAxes axes os)).fundamentalShape = unfurledShape axes := by
  intro axes os h
  have : ∀ (axes : List (ℕ × ℕ)) (os : List ℤ), os.length = axes.length →
      (Basis.methodsList (sampleAxes axes os)).map Methods.fn = unfurledShape axes := by
    intro axes
    induction axes with
    | nil => intro os h; cases os <;> simp_all [sampleAxes, unfurledShape, Basis.methodsList]
    | cons a axes ih =>
      intro os h
      match os, h with
      | o :: os, h =>
        show _ :: _ = a.1 * a.2 :: unfurledShape axes
        rw [← ih os (by simpa using h)]
        congr 1
        show a.2 * a.1 = a.1 * a.2
        exact mul_comm _ _
  exact this axes os h

theorem mapM_of_each {α β : Type*} (l : List α) (f : α → Option β) (h : ∀ i, (hi : i < l.length) → ∃ s, f l[i] = some s) :
    ∃ r, l.mapM f = some r ∧ r.length = l.length ∧ ∀ i, (hi : i < l.length) → r[i]? = f l[i] := by
  induction l with
  | nil => exact ⟨[], rfl, rfl, fun i hi => absurd hi (by simp)⟩
  | cons x l ih =>
    obtain ⟨s, hs⟩ := h 0 (by simp)
    obtain ⟨r, r1, r2, r3⟩ := ih fun i hi => h (i + 1) (by simpa using hi)
    have hs' : f x = some s := hs
    refine ⟨s :: r, by rw [List.mapM_cons, hs', r1]; rfl, by simp [r2], fun i hi => ?_⟩
    match i, hi with
    | 0, _ => exact hs'.symm
    | i + 1, hi => exact r3 i (by simpa using hi)

/-- The states of all samples are valid states of the large cell. -/
theorem all_states (same : Basis → Basis → Bool) (hs : Sound same) (axes : List (ℕ × ℕ)) (b : Basis) (hb : Valid b) (ho : OrthonormalParts b)
    (hshape : b.fundamentalShape = stateShape axes) (data : ℕ → ℂ) :
    ∃ l : List StateVector, getAllWavepacketStates same ⟨fT (sampleShape axes), b, data⟩ = some l ∧ l.length = (sampleShape axes).prod ∧
      ∀ i, (h : i < l.length) → Valid l[i].basis ∧ OrthonormalParts l[i].basis ∧ l[i].basis.fundamentalShape = unfurledShape axes ∧
        ∀ X, InShape (unfurledShape axes) X → expand l[i].basis l[i].data (ravel (unfurledShape axes) X) =
          blochWave axes b (block (size b) data i) (unravel (sampleShape axes) i) X := by
  obtain ⟨l, h1, h2, h3⟩ := C54_wavepacket_states_partial same hs axes b hb ho hshape data
  refine ⟨l, h1, h2, fun i hi => ?_⟩
  have hi' : i < (sampleShape axes).prod := h2 ▸ hi
  have ha := unravel_inShape _ i hi'
  obtain ⟨os, e1, e2⟩ := sampledBasis_eq axes _ _ ha (labels_nk axes _ ha)
  have hbasis : l[i].basis = .tuple (sampleAxes axes os) := by
    obtain ⟨g1, c, g2, -⟩ := momentum_data same hs axes b hb ho hshape data
    have h1' := h1
    unfold getAllWavepacketStates at h1'
    rw [g1, g2] at h1'
    simp only [Option.bind_some, Option.map_some, Option.some.injEq] at h1'
    subst h1'
    simp only [List.getElem_map, List.getElem_range]
    exact e1
  obtain ⟨v1, v2, -⟩ := sampled_valid axes os _ ha e2
  have hlen : ∀ (axes : List (ℕ × ℕ)) (os : List ℤ) (a : List ℕ), IsOffset axes os a → os.length = axes.length := by
    intro axes
    induction axes with
    | nil => intro os a h; cases os <;> cases a <;> simp_all [IsOffset]
    | cons p axes ih => intro os a h; cases os <;> cases a <;> simp_all [IsOffset]; exact ih _ _ h.2
  refine ⟨hbasis ▸ v1, hbasis ▸ v2, ?_, fun X hX => h3 i hi X hX⟩
  rw [hbasis]
  exact fundamentalShape_sampled axes os (hlen _ _ _ e2)

/-- **C143.** All the states of a wavepacket drawn in position space: one slice for each sample, with the values of the Bloch wave of the sample in
the large cell. -/
theorem C143_states_position (same : Basis → Basis → Bool) (hs : Sound same) (A : Matrix (Fin d) (Fin d) ℝ) (axes : List (ℕ × ℕ))
    (hd : axes.length = d) (h0 : 0 ∉ sampleShape axes) (b : Basis) (hb : Valid b) (ho : OrthonormalParts b)
    (hshape : b.fundamentalShape = stateShape axes) (data : ℕ → ℂ) (drawn : List (Fin d)) (hnd : drawn.Nodup) (top : List ℕ)
    (htop : InShape (unfurledShape axes) top) :
    ∃ l, plotAllWavepacketStates2dX same A ⟨fT (sampleShape axes), b, data⟩ drawn (some (offAxes (drawn.map Fin.val) top)) = some l ∧
      l.length = (sampleShape axes).prod ∧
      ∀ (i : ℕ) (s : DrawnSlice), l[i]? = some s →
        s.shape = drawn.map (fun a : Fin d => (sampleShape axes).getD a 0 * (stateShape axes).getD a 0) ∧
        ∀ full, InShape (unfurledShape axes) full → AgreeOff (drawn.map Fin.val) full top →
          s.values (onAxes (drawn.map Fin.val) full) = blochWave axes b (block (size b) data i) (unravel (sampleShape axes) i) full ∧
          s.coordinates (onAxes (drawn.map Fin.val) full) = projectPoint (drawn.map fun a => A a) (crystalPoint A axes full) := by
  obtain ⟨l, h1, h2, h3⟩ := all_states same hs axes b hb ho hshape data
  have key : ∀ i, (h : i < l.length) → ∃ s, plotDataX same (sampleVectors A (fT (sampleShape axes))) l[i].basis l[i].data drawn
      (some (offAxes (drawn.map Fin.val) top)) = some s ∧
        s.shape = drawn.map (fun a : Fin d => (sampleShape axes).getD a 0 * (stateShape axes).getD a 0) ∧
        ∀ full, InShape (unfurledShape axes) full → AgreeOff (drawn.map Fin.val) full top →
          s.values (onAxes (drawn.map Fin.val) full) = blochWave axes b (block (size b) data i) (unravel (sampleShape axes) i) full ∧
          s.coordinates (onAxes (drawn.map Fin.val) full) = projectPoint (drawn.map fun a => A a) (crystalPoint A axes full) := by
    intro i hi
    obtain ⟨v, o, f, e⟩ := h3 i hi
    obtain ⟨s, e1, e2, e3⟩ := C126_position same hs (sampleVectors A (fT (sampleShape axes))) l[i].basis v o
      (by rw [f, length_unfurled, hd]) drawn hnd l[i].data top (by rw [f]; exact htop)
    rw [f] at e2 e3
    refine ⟨s, e1, ?_, fun full hf ha => ?_⟩
    · rw [e2]
      exact List.map_congr_left fun a _ => unfurled_getD axes a
    · obtain ⟨v, c⟩ := e3 full hf ha
      refine ⟨v.trans (e full hf), ?_⟩
      rw [c, project_unfurled A axes hd h0, gridPoint_unfurled A axes hd h0]
  obtain ⟨r, r1, r2, r3⟩ := mapM_of_each l (fun s => plotDataX same (sampleVectors A (fT (sampleShape axes))) s.basis s.data drawn
    (some (offAxes (drawn.map Fin.val) top))) (fun i h => (key i h).imp fun _ k => k.1)
  refine ⟨r, ?_, r2.trans h2, fun i s hi => ?_⟩
  · unfold plotAllWavepacketStates2dX
    rw [h1]
    exact r1
  · have hil : i < l.length := by
      rw [← r2]
      exact (List.getElem?_eq_some_iff.1 hi).1
    obtain ⟨s', k1, k2⟩ := key i hil
    rw [r3 i hil, k1] at hi
    cases hi
    exact k2

/-! ## Momentum space -/

theorem packet_coefficients (same : Basis → Basis → Bool) (hs : Sound same) (axes : List (ℕ × ℕ)) (b : Basis) (hb : Valid b)
    (ho : OrthonormalParts b) (hshape : b.fundamentalShape = stateShape axes) (data : ℕ → ℂ) :
    ∃ u : ℕ → ℂ, unfurlWavepacket same ⟨fT (sampleShape axes), b, data⟩ = some ⟨fT (unfurledShape axes), u⟩ ∧
      ∀ a j p : List ℕ, InShape (sampleShape axes) a → InShape (stateShape axes) j → InShape (unfurledShape axes) p →
        AtMomentum axes a j p → planeCoefficient (unfurledShape axes) (expand (fT (unfurledShape axes)) u) (ravel (unfurledShape axes) p) =
          planeCoefficient (stateShape axes) (expand b (block (size b) data (ravel (sampleShape axes) a))) (ravel (stateShape axes) j) /
            (Real.sqrt ((sampleShape axes).prod : ℕ) : ℂ) := by
  obtain ⟨c, h1, h2⟩ := unfurl_data same hs axes b hb ho hshape data
  refine ⟨_, h1, fun a j p ha hj hp hm => ?_⟩
  have hpts : points b = (stateShape axes).prod := by rw [← fundamentalShape_prod, hshape]
  have coef : ∀ (ns : List ℕ) (v : ℕ → ℂ) (k : ℕ), k < ns.prod → planeCoefficient ns (expand (fT ns) v) k = v k := by
    intro ns v k hk
    have o := state_orthonormal (fT ns) (valids_fT _) (orthonormalPartss_fT _)
    have := dot_state_expand o v (j := k) (by rw [(fT_facts _).1]; exact hk)
    rw [(fT_facts ns).2.1] at this
    exact this
  rw [coef _ _ _ (ravel_lt _ _ hp), unfurlMomentum_place axes c a j p ha hj hp hm]
  congr 1
  have e : planeCoefficient (stateShape axes) (expand b (block (size b) data (ravel (sampleShape axes) a))) (ravel (stateShape axes) j) =
      planeCoefficient (stateShape axes) (expand (fT (stateShape axes)) (block (stateShape axes).prod c (ravel (sampleShape axes) a)))
        (ravel (stateShape axes) j) := by
    unfold planeCoefficient
    refine sum_congr rfl fun x hx => ?_
    rw [show expand (fT (stateShape axes)) (block (stateShape axes).prod c (ravel (sampleShape axes) a)) x = _ from
      h2 _ (ravel_lt _ _ ha) x (by rw [hpts]; exact mem_range.1 hx)]
  rw [e, coef _ _ _ (ravel_lt _ _ hj)]

/-- **C143.** A wavepacket drawn in momentum space with a given index: a point for each wave vector of the large cell; where the wave vector is that of
plane wave `j` of the periodic part of sample `a`, the value is the coefficient of the periodic part at this plane wave, over the root of the number of
samples. By `C45_unique` each point belongs to exactly one `a` and `j`. -/
theorem C143_momentum (same : Basis → Basis → Bool) (hs : Sound same) (A : Matrix (Fin d) (Fin d) ℝ) (axes : List (ℕ × ℕ))
    (hd : axes.length = d) (h0 : 0 ∉ sampleShape axes) (hz : 0 ∉ stateShape axes) (b : Basis) (hb : Valid b) (ho : OrthonormalParts b)
    (hshape : b.fundamentalShape = stateShape axes) (data : ℕ → ℂ) (drawn : List (Fin d)) (hnd : drawn.Nodup) (top : List ℕ)
    (htop : InShape (unfurledShape axes) top) :
    ∃ s, plotWavepacket1dK same A ⟨fT (sampleShape axes), b, data⟩ drawn (some (offAxes (drawn.map Fin.val) top)) = some s ∧
      plotWavepacket2dK same A ⟨fT (sampleShape axes), b, data⟩ drawn (some (offAxes (drawn.map Fin.val) top)) = some s ∧
      s.shape = drawn.map (fun a : Fin d => (sampleShape axes).getD a 0 * (stateShape axes).getD a 0) ∧
      ∀ a j p, InShape (sampleShape axes) a → InShape (stateShape axes) j → InShape (unfurledShape axes) p → AtMomentum axes a j p →
        AgreeOff (drawn.map Fin.val) p top →
        ∀ position, position = drawn.map (fun a : Fin d => (freq ((sampleShape axes).getD a 0 * (stateShape axes).getD a 0) (p.getD a 0) +
          (((sampleShape axes).getD a 0 * (stateShape axes).getD a 0 : ℕ) : ℤ) / 2).toNat) →
        s.values position = planeCoefficient (stateShape axes) (expand b (block (size b) data (ravel (sampleShape axes) a)))
          (ravel (stateShape axes) j) / (Real.sqrt ((sampleShape axes).prod : ℕ) : ℂ) ∧
        s.coordinates position = projectPoint (drawn.map fun a : Fin d => ((2 * Real.pi) • (A⁻¹)ᵀ) a) (crystalMomentum A axes p) := by
  obtain ⟨u, h1, h2⟩ := packet_coefficients same hs axes b hb ho hshape data
  have hsh : (fT (unfurledShape axes)).fundamentalShape = unfurledShape axes := fundamentalShape_fT _
  obtain ⟨s, e1, e1', e2, e3⟩ := C126_momentum same hs (sampleVectors A (fT (sampleShape axes))) (fT (unfurledShape axes)) (valids_fT _)
    (orthonormalPartss_fT _) (by rw [hsh, length_unfurled, hd]) drawn hnd u top (by rw [hsh]; exact htop)
  rw [hsh] at e2 e3
  refine ⟨s, ?_, ?_, ?_, fun a j p ha hj hp hm hag position hpos => ?_⟩
  · unfold plotWavepacket1dK
    rw [h1]
    exact e1
  · unfold plotWavepacket2dK
    rw [h1]
    exact e1'
  · rw [e2]
    exact List.map_congr_left fun a _ => unfurled_getD axes a
  · obtain ⟨v, c⟩ := e3 p hp hag position (by
      rw [hpos]
      refine List.map_congr_left fun a _ => ?_
      rw [unfurled_getD])
    refine ⟨v.trans (h2 a j p ha hj hp hm), ?_⟩
    rw [c, project_unfurled_k A axes hd h0 hz, waveVector_unfurled A axes hd h0]

/-- **C143.** The wave vector drawn is the momentum of the sample plus the reciprocal lattice vector of the plane wave, up to multiples of the number of
points times the reciprocal lattice vectors, which do not change a function on the grid. -/
theorem C143_wave_vector (A : Matrix (Fin d) (Fin d) ℝ) (axes : List (ℕ × ℕ)) (hd : axes.length = d) (h0 : 0 ∉ sampleShape axes)
    (a j p : List ℕ) (hp : InShape (unfurledShape axes) p) (hm : AtMomentum axes a j p) :
    ∃ m : Fin d → ℤ, crystalMomentum A axes p = sampleMomentum A (sampleShape axes) a + waveVector A (stateShape axes) j +
      ∑ i : Fin d, (m i * (stateShape axes).getD i 0 : ℝ) • ((2 * Real.pi) • (A⁻¹)ᵀ) i := by
  have key : ∀ i : Fin d, ∃ m : ℤ, (freq ((unfurledShape axes).getD i 0) (p.getD i 0) : ℤ) =
      (sampleShape axes).getD i 0 * freq ((stateShape axes).getD i 0) (j.getD i 0) + freq ((sampleShape axes).getD i 0) (a.getD i 0) +
        m * ((unfurledShape axes).getD i 0 : ℤ) := by
    have gen : ∀ (axes : List (ℕ × ℕ)) (a j p : List ℕ), InShape (unfurledShape axes) p → AtMomentum axes a j p → ∀ i < axes.length,
        ∃ m : ℤ, (freq ((unfurledShape axes).getD i 0) (p.getD i 0) : ℤ) =
        (sampleShape axes).getD i 0 * freq ((stateShape axes).getD i 0) (j.getD i 0) + freq ((sampleShape axes).getD i 0) (a.getD i 0) +
          m * ((unfurledShape axes).getD i 0 : ℤ) := by
      intro axes
      induction axes with
      | nil => intro a j p _ _ i hi; exact absurd hi (by simp)
      | cons q axes ih =>
        intro a j p hp h i hi
        match a, j, p, hp, h with
        | a :: as, j :: js, p :: ps, hp, h =>
          match i, hi with
          | 0, _ =>
            obtain ⟨m, hm⟩ := h.1
            obtain ⟨m', hm'⟩ : ((q.1 * q.2 : ℕ) : ℤ) ∣ freq (q.1 * q.2) p - p := by
              unfold freq
              split_ifs
              · simp
              · exact ⟨-1, by ring⟩
            refine ⟨m + m', ?_⟩
            show (freq (q.1 * q.2) p : ℤ) = q.1 * freq q.2 j + freq q.1 a + (m + m') * ((q.1 * q.2 : ℕ) : ℤ)
            linarith
          | i + 1, hi => exact ih as js ps hp.2 h.2 i (by simpa using hi)
    exact fun i => gen axes a j p hp hm i (by rw [hd]; exact i.2)
  choose m hm' using key
  refine ⟨m, ?_⟩
  unfold crystalMomentum sampleMomentum waveVector
  rw [← sum_add_distrib, ← sum_add_distrib]
  refine sum_congr rfl fun i _ => ?_
  rw [← add_smul, ← add_smul]
  congr 1
  have hN := getD_pos h0 (i := i) (by unfold sampleShape; rw [List.length_map, hd]; exact i.2)
  have hN' : ((sampleShape axes).getD i 0 : ℝ) ≠ 0 := by exact_mod_cast hN.ne'
  have e := congrArg (fun z : ℤ => (z : ℝ)) (hm' i)
  push_cast at e
  rw [unfurled_getD] at e
  push_cast at e
  show (freq ((unfurledShape axes).getD i 0) (p.getD i 0) : ℝ) / ((sampleShape axes).getD i 0 : ℝ) = _
  rw [unfurled_getD, e]
  field_simp
  ring

/-- The plane waves in a Bloch wave: those of its sample, with the coefficients of the periodic part. -/
theorem bloch_coefficients (same : Basis → Basis → Bool) (hs : Sound same) (axes : List (ℕ × ℕ)) (h0 : 0 < (sampleShape axes).prod) (b : Basis)
    (hb : Valid b) (ho : OrthonormalParts b) (hshape : b.fundamentalShape = stateShape axes) (v : ℕ → ℂ) (c a j p : List ℕ)
    (hc : InShape (sampleShape axes) c) (ha : InShape (sampleShape axes) a) (hj : InShape (stateShape axes) j)
    (hp : InShape (unfurledShape axes) p) (hm : AtMomentum axes a j p) :
    planeCoefficient (unfurledShape axes) (fun x => blochWave axes b v c (unravel (unfurledShape axes) x)) (ravel (unfurledShape axes) p) =
      if a = c then planeCoefficient (stateShape axes) (expand b v) (ravel (stateShape axes) j) else 0 := by
  set data : ℕ → ℂ := flatten (size b) fun k => if k = ravel (sampleShape axes) c then v else 0 with hdata
  have hblock : ∀ k x, expand b (block (size b) data k) x = if k = ravel (sampleShape axes) c then expand b v x else 0 := by
    intro k x
    have : expand b (block (size b) data k) x = expand b (if k = ravel (sampleShape axes) c then v else 0) x := by
      refine expand_congr _ (fun m hm => ?_) x
      exact flatten_entry (fun k => if k = ravel (sampleShape axes) c then v else 0) k hm
    rw [this]
    split_ifs
    · rfl
    · unfold expand
      simp
  obtain ⟨u, h1, h2⟩ := packet_coefficients same hs axes b hb ho hshape data
  obtain ⟨u', h1', h2', h3'⟩ := C45_bloch same hs axes b hb ho hshape data
  have hu : u' = ⟨fT (unfurledShape axes), u⟩ := Option.some.inj (h1'.symm.trans h1)
  have hN : (Real.sqrt ((sampleShape axes).prod : ℕ) : ℂ) ≠ 0 := by
    have : Real.sqrt ((sampleShape axes).prod : ℕ) ≠ 0 := Real.sqrt_ne_zero'.2 (by exact_mod_cast h0)
    exact_mod_cast this
  have hN2 : (Real.sqrt ((sampleShape axes).prod : ℕ) : ℂ) * (Real.sqrt ((sampleShape axes).prod : ℕ) : ℂ) = ((sampleShape axes).prod : ℕ) := by
    rw [← Complex.ofReal_mul, Real.mul_self_sqrt (Nat.cast_nonneg _), Complex.ofReal_natCast]
  have hval : ∀ x < (unfurledShape axes).prod, blochWave axes b v c (unravel (unfurledShape axes) x) =
      (Real.sqrt ((sampleShape axes).prod : ℕ) : ℂ) * expand (fT (unfurledShape axes)) u x := by
    intro x hx
    have hX := unravel_inShape (unfurledShape axes) x hx
    have e := h3' _ hX
    rw [hu, ravel_unravel _ _ hx] at e
    simp only [hblock] at e
    rw [e, sum_eq_single (ravel (sampleShape axes) c)]
    · rw [if_pos rfl, unravel_ravel _ _ hc]
      unfold blochWave
      rw [show (axes.map Prod.fst) = sampleShape axes from rfl, show (axes.map Prod.snd) = stateShape axes from rfl, ← hN2]
      field_simp
    · intro k _ hk
      rw [if_neg hk, mul_zero]
    · intro h
      exact absurd (mem_range.2 (ravel_lt _ _ hc)) h
  have e := h2 a j p ha hj hp hm
  have e1 : planeCoefficient (unfurledShape axes) (fun x => blochWave axes b v c (unravel (unfurledShape axes) x)) (ravel (unfurledShape axes) p) =
      (Real.sqrt ((sampleShape axes).prod : ℕ) : ℂ) *
        planeCoefficient (unfurledShape axes) (expand (fT (unfurledShape axes)) u) (ravel (unfurledShape axes) p) := by
    unfold planeCoefficient
    rw [mul_sum]
    refine sum_congr rfl fun x hx => ?_
    beta_reduce
    rw [hval x (mem_range.1 hx)]
    ring
  rw [e1, e, mul_div_cancel₀ _ hN]
  unfold planeCoefficient
  simp only [hblock]
  by_cases hac : a = c
  · rw [if_pos hac, hac]
    simp
  · rw [if_neg hac]
    have : ravel (sampleShape axes) a ≠ ravel (sampleShape axes) c := fun h => hac (ravel_inj _ _ _ ha hc h)
    simp [this]

/-- **C143.** All the states of a wavepacket drawn in momentum space: one slice for each sample, whose values are the coefficients of the periodic part at
the wave vectors of this sample, and zero at the wave vectors of all other samples. -/
theorem C143_states_momentum (same : Basis → Basis → Bool) (hs : Sound same) (A : Matrix (Fin d) (Fin d) ℝ) (axes : List (ℕ × ℕ))
    (hd : axes.length = d) (h0 : 0 ∉ sampleShape axes) (hz : 0 ∉ stateShape axes) (b : Basis) (hb : Valid b) (ho : OrthonormalParts b)
    (hshape : b.fundamentalShape = stateShape axes) (data : ℕ → ℂ) (drawn : List (Fin d)) (hnd : drawn.Nodup) (top : List ℕ)
    (htop : InShape (unfurledShape axes) top) :
    ∃ l, plotAllWavepacketStates2dK same A ⟨fT (sampleShape axes), b, data⟩ drawn (some (offAxes (drawn.map Fin.val) top)) = some l ∧
      l.length = (sampleShape axes).prod ∧
      ∀ (i : ℕ) (s : DrawnSlice), l[i]? = some s →
        s.shape = drawn.map (fun a : Fin d => (sampleShape axes).getD a 0 * (stateShape axes).getD a 0) ∧
        ∀ a j p, InShape (sampleShape axes) a → InShape (stateShape axes) j → InShape (unfurledShape axes) p → AtMomentum axes a j p →
          AgreeOff (drawn.map Fin.val) p top →
          ∀ position, position = drawn.map (fun a : Fin d => (freq ((sampleShape axes).getD a 0 * (stateShape axes).getD a 0) (p.getD a 0) +
            (((sampleShape axes).getD a 0 * (stateShape axes).getD a 0 : ℕ) : ℤ) / 2).toNat) →
          s.values position = (if ravel (sampleShape axes) a = i then
            planeCoefficient (stateShape axes) (expand b (block (size b) data i)) (ravel (stateShape axes) j) else 0) ∧
          s.coordinates position = projectPoint (drawn.map fun a : Fin d => ((2 * Real.pi) • (A⁻¹)ᵀ) a) (crystalMomentum A axes p) := by
  obtain ⟨l, h1, h2, h3⟩ := all_states same hs axes b hb ho hshape data
  have hpos : 0 < (sampleShape axes).prod := Nat.pos_of_ne_zero fun h => h0 (List.prod_eq_zero_iff.1 h)
  have key : ∀ i, (h : i < l.length) → ∃ s, plotData2dK same (sampleVectors A (fT (sampleShape axes))) l[i].basis l[i].data drawn
      (some (offAxes (drawn.map Fin.val) top)) = some s ∧
        s.shape = drawn.map (fun a : Fin d => (sampleShape axes).getD a 0 * (stateShape axes).getD a 0) ∧
        ∀ a j p, InShape (sampleShape axes) a → InShape (stateShape axes) j → InShape (unfurledShape axes) p → AtMomentum axes a j p →
          AgreeOff (drawn.map Fin.val) p top →
          ∀ position, position = drawn.map (fun a : Fin d => (freq ((sampleShape axes).getD a 0 * (stateShape axes).getD a 0) (p.getD a 0) +
            (((sampleShape axes).getD a 0 * (stateShape axes).getD a 0 : ℕ) : ℤ) / 2).toNat) →
          s.values position = (if ravel (sampleShape axes) a = i then
            planeCoefficient (stateShape axes) (expand b (block (size b) data i)) (ravel (stateShape axes) j) else 0) ∧
          s.coordinates position = projectPoint (drawn.map fun a : Fin d => ((2 * Real.pi) • (A⁻¹)ᵀ) a) (crystalMomentum A axes p) := by
    intro i hi
    obtain ⟨v, o, f, e⟩ := h3 i hi
    obtain ⟨s, -, e1, e2, e3⟩ := C126_momentum same hs (sampleVectors A (fT (sampleShape axes))) l[i].basis v o
      (by rw [f, length_unfurled, hd]) drawn hnd l[i].data top (by rw [f]; exact htop)
    rw [f] at e2 e3
    refine ⟨s, e1, ?_, fun a j p ha hj hp hm hag position hposition => ?_⟩
    · rw [e2]
      exact List.map_congr_left fun a _ => unfurled_getD axes a
    · obtain ⟨v, c⟩ := e3 p hp hag position (by
        rw [hposition]
        refine List.map_congr_left fun a _ => ?_
        rw [unfurled_getD])
      have hi' : i < (sampleShape axes).prod := h2 ▸ hi
      have hc := unravel_inShape (sampleShape axes) i hi'
      have := bloch_coefficients same hs axes hpos b hb ho hshape (block (size b) data i) _ a j p hc ha hj hp hm
      refine ⟨?_, ?_⟩
      · rw [v]
        have e' : planeCoefficient (unfurledShape axes) (expand l[i].basis l[i].data) (ravel (unfurledShape axes) p) =
            planeCoefficient (unfurledShape axes) (fun x => blochWave axes b (block (size b) data i) (unravel (sampleShape axes) i)
              (unravel (unfurledShape axes) x)) (ravel (unfurledShape axes) p) := by
          unfold planeCoefficient
          refine sum_congr rfl fun x hx => ?_
          have hX := unravel_inShape (unfurledShape axes) x (mem_range.1 hx)
          beta_reduce
          rw [← e _ hX, ravel_unravel _ _ (mem_range.1 hx)]
        rw [e', this]
        by_cases h : ravel (sampleShape axes) a = i
        · rw [if_pos h, if_pos (by rw [← h, unravel_ravel _ _ ha])]
        · rw [if_neg h, if_neg fun h' => h (by rw [h', ravel_unravel _ _ hi'])]
      · rw [c, project_unfurled_k A axes hd h0 hz, waveVector_unfurled A axes hd h0]
  obtain ⟨r, r1, r2, r3⟩ := mapM_of_each l (fun s => plotData2dK same (sampleVectors A (fT (sampleShape axes))) s.basis s.data drawn
    (some (offAxes (drawn.map Fin.val) top))) (fun i h => (key i h).imp fun _ k => k.1)
  refine ⟨r, ?_, r2.trans h2, fun i s hi => ?_⟩
  · unfold plotAllWavepacketStates2dK
    rw [h1]
    exact r1
  · have hil : i < l.length := by
      rw [← r2]
      exact (List.getElem?_eq_some_iff.1 hi).1
    obtain ⟨s', k1, k2⟩ := key i hil
    rw [r3 i hil, k1] at hi
    cases hi
    exact k2

/-! ## Along a path -/

theorem pathPoint_unfurled (A : Matrix (Fin d) (Fin d) ℝ) (axes : List (ℕ × ℕ)) (hd : axes.length = d) (h0 : 0 ∉ sampleShape axes)
    (p : Fin d → ℤ) : pathPoint (sampleVectors A (fT (sampleShape axes))) (fun i => (unfurledShape axes).getD i 0) p =
      pathPoint A (fun i => (stateShape axes).getD i 0) p := by
  unfold pathPoint
  refine sum_congr rfl fun i _ => ?_
  have h := getD_pos h0 (i := i) (by unfold sampleShape; rw [List.length_map, hd]; exact i.2)
  have h' : ((sampleShape axes).getD i 0 : ℝ) ≠ 0 := by exact_mod_cast h.ne'
  beta_reduce
  rw [sampleVectors_row, fundamentalShape_fT, smul_smul, unfurled_getD]
  congr 1
  push_cast
  rw [div_mul_eq_mul_div, mul_comm ((sampleShape axes).getD i 0 : ℝ), mul_div_mul_right _ _ h']

/-- **C143 (partial).** A wavepacket drawn along a path: at each point of the path the sum of the Bloch waves there, against the length of the path in
the crystal up to this point. Missing: paths which leave the large cell, for which the code raises, see `C137_path_negation`. -/
theorem C143_path_partial (same : Basis → Basis → Bool) (hs : Sound same) (A : Matrix (Fin d) (Fin d) ℝ) (axes : List (ℕ × ℕ))
    (hd : axes.length = d) (h0 : 0 ∉ sampleShape axes) (b : Basis) (hb : Valid b) (ho : OrthonormalParts b)
    (hshape : b.fundamentalShape = stateShape axes) (data : ℕ → ℂ) (path : List (List ℤ)) (hne : path ≠ [])
    (hpath : ∀ p ∈ path, p.length = d ∧ ∀ q ∈ (unfurledShape axes).zip p, -(q.1 : ℤ) ≤ q.2 ∧ q.2 < q.1) (measure : Measure) :
    ∃ distances values, plotWavepacketAlongPath same A ⟨fT (sampleShape axes), b, data⟩ path measure = some (distances, values) ∧
      values.length = path.length ∧
      IsCumulative path.length (fun i => if h : i + 1 < path.length then
        vnorm (pathPoint A (fun i => (stateShape axes).getD i 0) (fun c => path[i + 1].getD c 0) -
          pathPoint A (fun i => (stateShape axes).getD i 0) fun c => path[i].getD c 0) else 0) distances ∧
      ∀ (q : ℕ) (p : List ℤ) (v : ℝ), path[q]? = some p → values[q]? = some v →
        DrawnAs measure (packetValue axes b data (List.zipWith (fun (n : ℕ) i => (i % (n : ℤ)).toNat) (unfurledShape axes) p)) v := by
  obtain ⟨u, h1, h2, h3⟩ := C45_bloch same hs axes b hb ho hshape data
  have hsh : u.basis.fundamentalShape = unfurledShape axes := by rw [h2]; exact fundamentalShape_fT _
  obtain ⟨ds, vs, e1, e2, e3, e4⟩ := C137_path_partial same hs (sampleVectors A (fT (sampleShape axes))) u (by rw [h2]; exact valids_fT _)
    (by rw [h2]; exact orthonormalPartss_fT _) (unfurledShape axes) hsh path hne
    (fun p hp => ⟨by rw [length_unfurled, hd]; exact (hpath p hp).1, (hpath p hp).2⟩) measure
  refine ⟨ds, vs, ?_, e2, ?_, fun q p v hq hv => ?_⟩
  · unfold plotWavepacketAlongPath
    rw [show fT (sampleShape axes) = .tuple ((sampleShape axes).map .fundamentalTransformed) from rfl, h1]
    exact e1
  · simp only [pathPoint_unfurled A axes hd h0] at e3
    exact e3
  · have := e4 q p v hq hv
    unfold valueAt at this
    have hp := hpath p (List.mem_of_getElem? hq)
    rwa [h3 _ (inShape_wrapped _ p (by rw [length_unfurled, hd]; exact hp.1) hp.2)] at this

/-! ## Energies -/

theorem waves_exp : ∀ (ns js xs : List ℕ), InShape ns js → InShape ns xs → waves ns js xs =
    Complex.exp (2 * Real.pi * Complex.I * ∑ i ∈ range ns.length, (freq (ns.getD i 0) (js.getD i 0) : ℂ) * (xs.getD i 0 : ℂ) / (ns.getD i 0 : ℂ)) /
      (Real.sqrt (ns.prod : ℕ) : ℂ)
  | [], [], [], _, _ => by simp [waves]
  | n :: ns, j :: js, x :: xs, hj, hx => by
    have hn : (n : ℂ) ≠ 0 := by
      have : 0 < n := Nat.zero_lt_of_lt hj.1
      exact_mod_cast this.ne'
    rw [waves, waves_exp ns js xs hj.2 hx.2, List.length_cons, sum_range_succ', List.prod_cons, Nat.cast_mul, Real.sqrt_mul (by positivity)]
    simp only [List.getD_cons_succ, List.getD_cons_zero]
    rw [mul_add, Complex.exp_add]
    have : planeWave n j x = Complex.exp (2 * Real.pi * Complex.I * ((freq n j : ℂ) * (x : ℂ) / (n : ℂ))) / (Real.sqrt n : ℂ) := by
      unfold planeWave freq
      congr 1
      split_ifs
      · push_cast
        congr 1
        ring
      · push_cast
        rw [show 2 * Real.pi * Complex.I * (((j : ℂ) - n) * x / n) = 2 * Real.pi * Complex.I * j * x / n - x * (2 * Real.pi * Complex.I) by
          field_simp, Complex.exp_sub, Complex.exp_nat_mul_two_pi_mul_I, div_one]
    rw [this]
    push_cast
    ring
  | [], [], _ :: _, _, h => h.elim
  | [], _ :: _, _, h, _ => h.elim
  | _ :: _, [], _, h, _ => h.elim
  | _ :: _, _ :: _, [], _, h => h.elim

/-- The energies in the basis of the samples at a lattice vector: the Fourier sum `Σ_K e^{i K·R} E(K) / √N`. -/
theorem expand_samples (A : Matrix (Fin d) (Fin d) ℝ) (hA : A.det ≠ 0) (ns : List ℕ) (hd : ns.length = d) (E : ℕ → ℂ) (r : List ℕ)
    (hr : InShape ns r) : expand (fT ns) E (ravel ns r) = (∑ k ∈ range ns.prod, E k *
      Complex.exp (Complex.I * (sampleMomentum A ns (unravel ns k) ⬝ᵥ ∑ i : Fin d, (r.getD i 0 : ℝ) • A i : ℝ))) /
        (Real.sqrt (ns.prod : ℕ) : ℂ) := by
  have hu : IsUnit A.det := isUnit_iff_ne_zero.2 hA
  have dual : ∀ i j : Fin d, ((2 * Real.pi) • (A⁻¹)ᵀ) i ⬝ᵥ A j = if i = j then 2 * Real.pi else 0 := by
    intro i j
    have : ((2 * Real.pi) • (A⁻¹)ᵀ) i ⬝ᵥ A j = 2 * Real.pi * (A * A⁻¹) j i := by
      rw [show ((2 * Real.pi) • (A⁻¹)ᵀ) i = (2 * Real.pi) • (A⁻¹)ᵀ i from rfl, smul_dotProduct, dotProduct_comm]
      rfl
    rw [this, Matrix.mul_nonsing_inv _ hu, Matrix.one_apply]
    by_cases h : i = j
    · rw [if_pos h, if_pos h.symm, mul_one]
    · rw [if_neg h, if_neg (fun e => h e.symm), mul_zero]
  show ∑ k ∈ range (sizes _), E k * states _ k _ = _
  rw [sizes_fT, sum_div]
  refine sum_congr rfl fun k hk => ?_
  have hin := unravel_inShape ns k (mem_range.1 hk)
  conv_lhs => rw [← ravel_unravel ns k (mem_range.1 hk)]
  rw [states_fT _ _ _ hin hr, waves_exp _ _ _ hin hr, ravel_unravel ns k (mem_range.1 hk), mul_div_assoc]
  congr 3
  unfold sampleMomentum
  rw [sum_dotProduct, ← Fin.sum_univ_eq_sum_range (fun i => (freq (ns.getD i 0) ((unravel ns k).getD i 0) : ℂ) * (r.getD i 0 : ℂ) / (ns.getD i 0 : ℂ))]
  subst hd
  rw [mul_comm (2 * (Real.pi : ℂ)), mul_assoc]
  congr 1
  push_cast
  rw [mul_sum]
  refine sum_congr rfl fun i _ => ?_
  rw [smul_dotProduct, dotProduct_sum, sum_eq_single i]
  · rw [dotProduct_smul, dual i i, if_pos rfl]
    simp only [smul_eq_mul]
    push_cast
    ring
  · intro j _ hj
    rw [dotProduct_smul, dual i j, if_neg fun e => hj e.symm, smul_zero]
  · exact fun h => absurd (mem_univ _) h

/-- **C143.** The energies of a wavepacket drawn in position space: at each lattice vector `R` of the large cell the Fourier sum
`Σ_K e^{i K·R} E(K) / √N` over the momenta of the samples. -/
theorem C143_energies (same : Basis → Basis → Bool) (hs : Sound same) (A : Matrix (Fin d) (Fin d) ℝ) (hA : A.det ≠ 0) (ns : List ℕ)
    (hd : ns.length = d) (h0 : 0 ∉ ns) (E : ℕ → ℂ) (drawn : List (Fin d)) (hnd : drawn.Nodup) (top : List ℕ) (htop : InShape ns top) :
    ∃ s, plotWavepacketEigenvalues2dX same A (fT ns) E drawn (some (offAxes (drawn.map Fin.val) top)) = some s ∧
      s.shape = drawn.map (fun a : Fin d => ns.getD a 0) ∧
      ∀ r, InShape ns r → AgreeOff (drawn.map Fin.val) r top →
        s.values (onAxes (drawn.map Fin.val) r) = (∑ k ∈ range ns.prod, E k *
          Complex.exp (Complex.I * (sampleMomentum A ns (unravel ns k) ⬝ᵥ ∑ i : Fin d, (r.getD i 0 : ℝ) • A i : ℝ))) /
            (Real.sqrt (ns.prod : ℕ) : ℂ) ∧
        s.coordinates (onAxes (drawn.map Fin.val) r) = projectPoint (drawn.map fun a => A a) (∑ i : Fin d, (r.getD i 0 : ℝ) • A i) := by
  have hS : getFundamentalSampleBasis (fT ns) = fT ns := by
    unfold getFundamentalSampleBasis; rw [show (fT ns).fundamentalShape = ns from fundamentalShape_fT ns]
  have hsh : (fT ns).fundamentalShape = ns := fundamentalShape_fT ns
  obtain ⟨s, e1, e2, e3⟩ := C126_position same hs (sampleVectors A (fT ns)) (fT ns) (valids_fT _) (orthonormalPartss_fT _)
    (by rw [hsh, hd]) drawn hnd E top (by rw [hsh]; exact htop)
  rw [hsh] at e2 e3
  refine ⟨s, ?_, e2, fun r hr hag => ?_⟩
  · unfold plotWavepacketEigenvalues2dX
    rw [hS]
    exact e1
  · obtain ⟨v, c⟩ := e3 r hr hag
    refine ⟨v.trans (expand_samples A hA ns hd E r hr), ?_⟩
    rw [c, ← projectPoint_scale (fun a : Fin d => (ns.getD a 0 : ℝ)) (fun i => by
      exact_mod_cast getD_pos h0 (i := i) (by rw [hd]; exact i.2)) (fun a => A a)]
    congr 1
    · refine List.map_congr_left fun a _ => ?_
      rw [sampleVectors_row, hsh]
    · unfold gridPoint
      refine sum_congr rfl fun i _ => ?_
      rw [sampleVectors_row, hsh, smul_smul]
      congr 1
      have := getD_pos h0 (i := i) (by rw [hd]; exact i.2)
      have : (ns.getD i 0 : ℝ) ≠ 0 := by exact_mod_cast this.ne'
      field_simp

/-- **C143 (partial).** `plot_eigenvalues_1d_x` draws the energies of the samples along one axis at which the other indices are those given, in the order
in which they are stored. Missing: an order by Bloch phase, see `C143_phase_negation`. -/
theorem C143_samples_partial (ns : List ℕ) (E : ℕ → ℂ) (axis : ℕ) (haxis : axis < ns.length) (top : List ℕ) (htop : InShape ns top) :
    (plotEigenvalues1dX ns E axis (some (offAxes [axis] top))).1 = ns.getD axis 0 ∧
    ∀ i < ns.getD axis 0, (plotEigenvalues1dX ns E axis (some (offAxes [axis] top))).2 i = E (ravel ns (top.set axis i)) := by
  refine ⟨rfl, fun i hi => ?_⟩
  unfold plotEigenvalues1dX
  dsimp only
  have hal : axis < top.length := by rw [← inShape_length _ _ htop]; exact haxis
  have := read_slice (fun full => E (ravel ns full)) [axis] (top.set axis i) top (by simp)
    (by intro x hx; rw [List.mem_singleton.1 hx, List.length_set]; exact hal) (List.length_set ..)
    (fun q hq => getD_set_other top axis q i (fun e => hq (by simp [e])))
  rw [show onAxes [axis] (top.set axis i) = [i] by
    show [(top.set axis i).getD axis 0] = [i]
    rw [getD_set_self top axis i hal]] at this
  exact this

/-- **C143 (partial).** Without an index the samples with index zero along all other axes are drawn. -/
theorem C143_samples_default_partial (ns : List ℕ) (E : ℕ → ℂ) (axis : ℕ) (haxis : axis < ns.length) (h0 : 0 ∉ ns) (i : ℕ)
    (hi : i < ns.getD axis 0) :
    (plotEigenvalues1dX ns E axis none).2 i = E (ravel ns ((List.replicate ns.length 0).set axis i)) := by
  have hz : InShape ns (List.replicate ns.length 0) := by
    clear haxis hi
    induction ns with
    | nil => exact trivial
    | cons n ns ih => exact ⟨Nat.pos_of_ne_zero fun h => h0 (by simp [h]), ih fun h => h0 (by simp [h])⟩
  have e : offAxes [axis] (List.replicate ns.length 0) = List.replicate (ns.length - 1) 0 := by
    rw [List.eq_replicate_iff]
    constructor
    · unfold offAxes
      rw [List.length_map, List.length_replicate]
      have hc : ∀ n, axis < n → ((List.range n).filter fun p => decide (p ∉ [axis])).length = n - 1 := by
        intro n hn
        have h1 := List.length_eq_length_filter_add (l := List.range n) (fun p => decide (p ∉ [axis]))
        have h2 : ((List.range n).filter fun p => !decide (p ∉ [axis])).length = 1 := by
          have : ((List.range n).filter fun p => !decide (p ∉ [axis])) = (List.range n).filter (fun p => p == axis) := by
            refine List.filter_congr fun p _ => ?_
            by_cases h : p = axis <;> simp [h]
          rw [this, List.filter_beq, List.length_replicate]
          exact List.count_eq_one_of_mem List.nodup_range (List.mem_range.2 hn)
        rw [List.length_range] at h1
        omega
      exact hc _ haxis
    · intro x hx
      unfold offAxes at hx
      obtain ⟨p, -, rfl⟩ := List.mem_map.1 hx
      by_cases hp : p < ns.length
      · simp [List.getD, hp]
      · simp [List.getD, List.getElem?_eq_none (by simpa using not_lt.1 hp : (List.replicate ns.length 0).length ≤ p)]
  have := (C143_samples_partial ns E axis haxis _ hz).2 i hi
  rw [e] at this
  exact this

/-- **C143, negation.** The axis is labelled `Bloch Phase`, but the samples are not drawn in the order of their Bloch phases: for at least two samples the
phase of the last point is below that of the first. -/
theorem C143_phase_negation (same : Basis → Basis → Bool) (hs : Sound same) (n : ℕ) (hn : 2 ≤ n) (E : ℕ → ℂ) :
    ∃ φ, sampleFractions same (fT [n]) = some φ ∧ φ 0 (n - 1) < φ 0 0 ∧
      (plotEigenvalues1dX [n] E 0 none).2 0 = E 0 ∧ (plotEigenvalues1dX [n] E 0 none).2 (n - 1) = E (n - 1) := by
  obtain ⟨φ, h1, h2⟩ := C90_fractions_partial same hs [n]
  have e0 := h2 [0] ⟨by omega, trivial⟩ 0 (by simp)
  have e1 := h2 [n - 1] ⟨by omega, trivial⟩ 0 (by simp)
  have r : ∀ k, ravel [n] [k] = k := fun k => by simp [ravel]
  rw [r] at e0 e1
  refine ⟨φ, h1, ?_, ?_, ?_⟩
  · rw [e0, e1]
    have hpos : (0 : ℝ) < n := by positivity
    have f0 : freq n 0 = 0 := by unfold freq; rw [if_pos (by omega)]; rfl
    have f1 : freq n (n - 1) = -1 := by
      unfold freq
      rw [if_neg (by omega)]
      push_cast [show 1 ≤ n by omega]
      ring
    show (freq n (n - 1) : ℝ) / (n : ℝ) < (freq n 0 : ℝ) / (n : ℝ)
    rw [f0, f1]
    push_cast
    rw [zero_div]
    exact div_neg_of_neg_of_pos (by norm_num) hpos
  · rw [C143_samples_default_partial [n] E 0 (by simp) (by simp; omega) 0 (by show 0 < n; omega)]
    congr 1
  · rw [C143_samples_default_partial [n] E 0 (by simp) (by simp; omega) (n - 1) (by show n - 1 < n; omega)]
    congr 1
    exact r (n - 1)

/-! ## Occupations -/

/-- **C143.** The occupations of bands drawn against the number of the band: with the measures `abs` and `real` the numbers drawn add up to one, none is
negative, and the number drawn at band `b` is the sum over its samples of probabilities in the ratios of the Boltzmann factors. -/
theorem C143_occupation (kB temperature : ℝ) (bands samples : ℕ) (hpos : 0 < bands * samples) (E : ℕ → ℝ) (measure : Measure)
    (hm : measure = .abs ∨ measure = .real) :
    ∃ p : ℕ → ℝ, (∀ k, 0 < p k) ∧ ∑ k ∈ range (bands * samples), p k = 1 ∧
      (∀ k l, p k / p l = Real.exp ((E l - E k) / (temperature * kB))) ∧
      plotOccupationAgainstBand kB temperature bands samples (fun k => (E k : ℂ)) measure =
        (List.range bands).map fun b : ℕ => (b, ∑ j ∈ range samples, p (b * samples + j)) := by
  obtain ⟨⟨p, h1, h2, h3, h4⟩, -⟩ := C136_thermal kB temperature bands samples hpos E
  refine ⟨p, h1, h2, h3, ?_⟩
  unfold plotOccupationAgainstBand plotValueListAgainstNx
  refine List.map_congr_left fun b _ => ?_
  congr 1
  rcases hm with rfl | rfl
  · show ‖getBandOccupation kB temperature bands samples (fun k => (E k : ℂ)) b‖ = _
    rw [h4, Complex.norm_real, Real.norm_eq_abs, abs_of_nonneg (sum_nonneg fun j _ => (h1 _).le)]
  · show (getBandOccupation kB temperature bands samples (fun k => (E k : ℂ)) b).re = _
    rw [h4, Complex.ofReal_re]

-- the hypotheses: six samples (3 × 2) of states with 4 × 5 points, drawn along both axes; the last point of the large cell
example : [(3, 4), (2, 5)].length = 2 ∧ 0 ∉ sampleShape [(3, 4), (2, 5)] ∧ 0 ∉ stateShape [(3, 4), (2, 5)] ∧
    (Basis.tuple [.fundamental 4, .fundamentalTransformed 5]).fundamentalShape = stateShape [(3, 4), (2, 5)] ∧
    InShape (unfurledShape [(3, 4), (2, 5)]) [11, 9] ∧ ([0, 1] : List (Fin 2)).Nodup ∧
    AgreeOff (([1] : List (Fin 2)).map Fin.val) [11, 3] [11, 9] :=
  ⟨rfl, by decide, by decide, rfl, ⟨by decide, by decide, trivial⟩, by decide, fun i hi => by
    match i with
    | 0 => rfl
    | 1 => simp at hi
    | i + 2 => rfl⟩

-- the momentum: plane wave 3 of sample 2 of three samples with four points is slot 8 of twelve (wave number 3 * (-1) + (-1) = -4)
example : AtMomentum [(3, 4)] [2] [3] [8] := ⟨⟨1, by decide⟩, trivial⟩

-- a path through the large cell, also to negative points
example : ∀ p ∈ ([[0, 0], [5, -2], [11, 9]] : List (List ℤ)), p.length = 2 ∧
    ∀ q ∈ (unfurledShape [(3, 4), (2, 5)]).zip p, -(q.1 : ℤ) ≤ q.2 ∧ q.2 < q.1 := by decide

end Verif
