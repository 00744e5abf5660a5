import Verif.Model.Wannier90
import Verif.Props.C50_Localization
import Verif.Props.C53_TightBinding
import Verif.Props.C111_BlochOperator

/-!
# C123, C124: Projections, samples and symmetry for wannier90
-/

set_option autoImplicit false

namespace Verif

open Finset Spec

/-- **C123.** `spa.amn` has the numbers of bands, samples and projections in the first line, and for every sample, band and projection (the last fastest) the numbers of
band, projection and sample, counted from one, and the overlap of the Bloch state with the projection. -/
theorem C123_projections (same : Basis → Basis → Bool) (hs : Sound same) (axes : List (ℕ × ℕ)) (bands : ℕ) (b : Basis)
    (hb : Valid b) (ho : OrthonormalParts b) (hshape : b.fundamentalShape = stateShape axes) (data : ℕ → ℂ)
    (bp : Basis) (hbp : Valid bp) (hop : OrthonormalParts bp) (hcp : Compatible bp (fT (unfurledShape axes))) (q : ℕ) (P : ℕ → ℂ) :
    amnFile same ⟨bands, sampleShape axes, b, data⟩ bp q P = some ((bands, (sampleShape axes).prod, q),
      (List.range (sampleShape axes).prod).flatMap fun k => (List.range bands).flatMap fun m => (List.range q).map fun n => (m + 1, n + 1, k + 1,
        ∑ X ∈ range (unfurledShape axes).prod, (starRingEnd ℂ) (blochWave axes b (fun j => data ((m * (sampleShape axes).prod + k) * size b + j))
          (unravel (sampleShape axes) k) (unravel (unfurledShape axes) X)) * expand bp (fun j => P (n * size bp + j)) X)) := by
  have h := stateProjections_eq same hs axes bands b hb ho hshape data bp hbp hop hcp q P
  unfold amnFile
  dsimp only
  rw [if_pos fun a ha => by rw [h a ha]; rfl]
  congr 2
  rw [List.flatMap_def, List.flatMap_def]
  congr 1
  refine List.map_congr_left fun k hk => ?_
  rw [List.flatMap_def, List.flatMap_def]
  congr 1
  refine List.map_congr_left fun m hm => List.map_congr_left fun n hn => ?_
  rw [dif_pos ⟨List.mem_range.1 hm, List.mem_range.1 hn⟩, h k (List.mem_range.1 hk)]
  rfl

/-- One band on two samples of a cell of three points, and one projection. -/
example (same : Basis → Basis → Bool) (hs : Sound same) (data P : ℕ → ℂ) :
    ∃ r, amnFile same ⟨1, [2], .fundamentalTransformed 3, data⟩ (.tuple [.fundamental 6]) 1 P = some ((1, 2, 1), r) ∧ r.length = 2 :=
  ⟨_, C123_projections same hs [(2, 3)] 1 (.fundamentalTransformed 3) trivial trivial rfl data (.tuple [.fundamental 6]) ⟨trivial, trivial⟩ ⟨trivial, trivial⟩
    ⟨rfl, trivial⟩ 1 P, by simp [sampleShape]⟩

/-- **C123.** The block of samples in `spa.win`, for the fundamental transformed list basis with at most three axes: the grid with ones for missing axes, and for each sample
in order its momentum as fractions of the Brillouin zone, with zeros for missing axes. -/
theorem C123_samples_partial (same : Basis → Basis → Bool) (hs : Sound same) (ns : List ℕ) (h3 : ns.length ≤ 3) :
    ∃ grid rows, kPointsBlock same (fT ns) = some (grid, rows) ∧ grid.length = 3 ∧ rows.length = ns.prod ∧ (∀ ax < 3, grid.getD ax 0 = ns.getD ax 1) ∧
      ∀ a, InShape ns a → rows.getD (ravel ns a) [] = (List.range 3).map fun ax =>
        if ax < ns.length then (freq (ns.getD ax 0) (a.getD ax 0) : ℝ) / (ns.getD ax 0 : ℕ) else 0 := by
  obtain ⟨φ, hφ, kφ⟩ := C90_fractions_partial same hs ns
  have hn : (fT ns).n = ns.prod := by rw [Basis.n_eq]; exact size_fT ns
  refine ⟨ns ++ List.replicate (3 - ns.length) 1, (List.range ns.prod).map fun i => (List.range 3).map fun ax => if ax < ns.length then φ ax i else 0, ?_, ?_, by simp, ?_, ?_⟩
  · unfold kPointsBlock
    rw [shape_fT, if_pos h3, hφ, Option.map_some, hn]
  · rw [List.length_append, List.length_replicate]; omega
  · intro ax hax
    rw [List.getD_eq_getElem?_getD, List.getD_eq_getElem?_getD]
    rcases Nat.lt_or_ge ax ns.length with h | h
    · rw [List.getElem?_append_left h]
      simp [h]
    · rw [List.getElem?_append_right h, List.getElem?_replicate, if_pos (by omega), List.getElem?_eq_none h]
      rfl
  · intro a ha
    rw [List.getD_eq_getElem?_getD, List.getElem?_map, List.getElem?_range (ravel_lt _ _ ha)]
    refine List.map_congr_left fun ax _ => ?_
    split
    · rename_i h
      exact kφ a ha ax h
    · rfl

example (same : Basis → Basis → Bool) (hs : Sound same) : ∃ rows, kPointsBlock same (fT [3]) = some ([3, 1, 1], rows) ∧ rows.getD 2 [] = [-1 / 3, 0, 0] := by
  obtain ⟨φ, hφ, kφ⟩ := C90_fractions_partial same hs [3]
  refine ⟨(List.range 3).map fun i => (List.range 3).map fun ax => if ax < 1 then φ ax i else 0, ?_, ?_⟩
  · unfold kPointsBlock
    rw [shape_fT, if_pos (by decide), hφ, Option.map_some, Basis.n_eq, show size (fT [3]) = [3].prod from size_fT [3]]
    rfl
  · have := kφ [2] ⟨by decide, trivial⟩ 0 (by decide)
    have h2 : φ 0 2 = -1 / 3 := by
      rw [show ravel [3] [2] = 2 from rfl] at this
      rw [this, show freq (([3] : List ℕ).getD 0 0) (([2] : List ℕ).getD 0 0) = -1 from rfl]
      norm_num
    show [if 0 < 1 then φ 0 2 else 0, if 1 < 1 then φ 1 2 else 0, if 2 < 1 then φ 2 2 else 0] = _
    rw [h2]
    norm_num

/-! ## C124 -/

theorem wrap_flat (shape : List ℕ) (idx : List ℤ) (hlen : idx.length = shape.length) (hpos : ∀ n ∈ shape, 0 < n) :
    ∃ j, getFlatIndex .wrap shape idx = some j ∧ j < shape.prod ∧ ∀ ax < shape.length,
      (((unravel shape j).getD ax 0 : ℕ) : ℤ) = idx.getD ax 0 % (shape.getD ax 0 : ℕ) := by
  have hw := wrapSample_inShape shape idx hlen hpos
  refine ⟨_, getFlatIndex_wrap shape idx hlen hpos, ravel_lt _ _ hw, fun ax hax => ?_⟩
  rw [unravel_ravel _ _ hw]
  unfold wrapSample
  have h1 : ax < idx.length := by omega
  have hp : (0 : ℤ) < (shape[ax] : ℕ) := by exact_mod_cast hpos _ (List.getElem_mem hax)
  have h2 := Int.emod_nonneg idx[ax] hp.ne'
  simp [List.getD_eq_getElem?_getD, List.getElem?_zipWith, hax, h1]
  omega

theorem flat_ext {shape : List ℕ} {i j : ℕ} (hi : i < shape.prod) (hj : j < shape.prod)
    (h : ∀ ax < shape.length, (unravel shape i).getD ax 0 = (unravel shape j).getD ax 0) : i = j := by
  rw [← ravel_unravel shape i hi, ← ravel_unravel shape j hj]
  congr 1
  have l1 := inShape_length _ _ (unravel_inShape shape i hi)
  have l2 := inShape_length _ _ (unravel_inShape shape j hj)
  refine List.ext_getElem (by omega) fun ax h1 h2 => ?_
  have := h ax (by omega)
  simpa [List.getD_eq_getElem?_getD, h1, h2] using this

theorem getD_cast (l : List ℕ) (ax : ℕ) : (l.map fun i : ℕ => (i : ℤ)).getD ax 0 = ((l.getD ax 0 : ℕ) : ℤ) := by
  rw [List.getD_eq_getElem?_getD, List.getD_eq_getElem?_getD, List.getElem?_map]
  cases l[ax]? <;> rfl

theorem getD_set {l : List ℤ} {ax : ℕ} (i : ℕ) (v : ℤ) (h : ax < l.length) : (l.set i v).getD ax 0 = if ax = i then v else l.getD ax 0 := by
  rw [List.getD_eq_getElem?_getD, List.getD_eq_getElem?_getD, List.getElem?_set]
  by_cases e : i = ax
  · subst e; simp [h]
  · rw [if_neg e, if_neg fun h => e h.symm]

/-- **C124.** The reflection of one axis: the momentum along this axis changes its sign, up to a reciprocal lattice vector, those along the others do not change. -/
theorem C124_reflection (shape : List ℕ) (hpos : ∀ n ∈ shape, 0 < n) (axis : ℕ) (ha : axis < shape.length) (idx : ℕ) (hi : idx < shape.prod) :
    ∃ j, x0SymmetryOp shape axis idx = some j ∧ j < shape.prod ∧
      ((shape.getD axis 0 : ℕ) : ℤ) ∣ (unravel shape j).getD axis 0 + (unravel shape idx).getD axis 0 ∧
      (∀ ax < shape.length, ax ≠ axis → (unravel shape j).getD ax 0 = (unravel shape idx).getD ax 0) ∧ x0SymmetryOp shape axis j = some idx := by
  have step : ∀ idx < shape.prod, ∃ j, x0SymmetryOp shape axis idx = some j ∧ j < shape.prod ∧ ∀ ax < shape.length,
      (((unravel shape j).getD ax 0 : ℕ) : ℤ) = (if ax = axis then -(((unravel shape idx).getD ax 0 : ℕ) : ℤ) else ((unravel shape idx).getD ax 0 : ℕ)) % (shape.getD ax 0 : ℕ) := by
    intro idx hi
    have hin := unravel_inShape shape idx hi
    have hl := inShape_length _ _ hin
    obtain ⟨j, h1, h2, h3⟩ := wrap_flat shape (((unravel shape idx).map fun i : ℕ => (i : ℤ)).set axis (-(((unravel shape idx).map fun i : ℕ => (i : ℤ)).getD axis 0)))
      (by simpa using hl.symm) hpos
    refine ⟨j, h1, h2, fun ax hax => ?_⟩
    rw [h3 ax hax, getD_set _ _ (by rw [List.length_map]; omega), getD_cast, getD_cast]
    by_cases e : ax = axis
    · subst e; rw [if_pos rfl]
    · rw [if_neg e, if_neg e]
  have hin := unravel_inShape shape idx hi
  have hlt : ∀ idx < shape.prod, ∀ ax < shape.length, (unravel shape idx).getD ax 0 < shape.getD ax 0 := fun idx hi ax hax =>
    inShape_getD shape _ (unravel_inShape shape idx hi) ax hax
  obtain ⟨j, h1, h2, h3⟩ := step idx hi
  obtain ⟨i', g1, g2, g3⟩ := step j h2
  refine ⟨j, h1, h2, ?_, fun ax hax hne => ?_, ?_⟩
  · have := h3 axis ha
    rw [if_pos rfl] at this
    rw [this]
    refine Int.dvd_of_emod_eq_zero ?_
    rw [Int.emod_add_emod]
    simp
  · have := h3 ax hax
    rw [if_neg hne, Int.emod_eq_of_lt (by omega) (by exact_mod_cast hlt idx hi ax hax)] at this
    exact_mod_cast this
  · rw [g1]
    refine congrArg some (flat_ext g2 hi fun ax hax => ?_)
    have e1 := g3 ax hax
    have e2 := h3 ax hax
    have e3 := hlt idx hi ax hax
    by_cases e : ax = axis
    · rw [if_pos e] at e1 e2
      rw [e2] at e1
      have : (-(-(((unravel shape idx).getD ax 0 : ℕ) : ℤ) % (shape.getD ax 0 : ℕ))) % (shape.getD ax 0 : ℕ) = ((unravel shape idx).getD ax 0 : ℕ) := by
        rw [← zero_sub, Int.sub_emod_emod, zero_sub, neg_neg]
        exact Int.emod_eq_of_lt (by omega) (by exact_mod_cast e3)
      rw [this] at e1
      exact_mod_cast e1
    · rw [if_neg e] at e1 e2
      rw [e2, Int.emod_emod_of_dvd _ dvd_rfl, Int.emod_eq_of_lt (by omega) (by exact_mod_cast e3)] at e1
      exact_mod_cast e1

/-- Three by two samples: the sample with labels `(1, 1)` becomes that with labels `(2, 1)`. -/
example : x0SymmetryOp [3, 2] 0 3 = some 5 := by decide

/-- **C124.** Exchanging two axes with equally many samples exchanges the momenta along them. -/
theorem C124_exchange_partial (shape : List ℕ) (hpos : ∀ n ∈ shape, 0 < n) (a0 a1 : ℕ) (h0 : a0 < shape.length) (h1 : a1 < shape.length)
    (heq : shape.getD a0 0 = shape.getD a1 0) (idx : ℕ) (hi : idx < shape.prod) :
    ∃ j, x0x1SymmetryOp shape (a0, a1) idx = some j ∧ j < shape.prod ∧
      (∀ ax < shape.length, (unravel shape j).getD ax 0 = (unravel shape idx).getD (if ax = a0 then a1 else if ax = a1 then a0 else ax) 0) ∧
      x0x1SymmetryOp shape (a0, a1) j = some idx := by
  have hlt : ∀ idx < shape.prod, ∀ ax < shape.length, (unravel shape idx).getD ax 0 < shape.getD ax 0 := fun idx hi ax hax =>
    inShape_getD shape _ (unravel_inShape shape idx hi) ax hax
  have step : ∀ idx < shape.prod, ∃ j, x0x1SymmetryOp shape (a0, a1) idx = some j ∧ j < shape.prod ∧ ∀ ax < shape.length,
      (unravel shape j).getD ax 0 = (unravel shape idx).getD (if ax = a0 then a1 else if ax = a1 then a0 else ax) 0 := by
    intro idx hi
    have hl := inShape_length _ _ (unravel_inShape shape idx hi)
    obtain ⟨j, g1, g2, g3⟩ := wrap_flat shape ((((unravel shape idx).map fun i : ℕ => (i : ℤ)).set a0 (((unravel shape idx).map fun i : ℕ => (i : ℤ)).getD a1 0)).set a1
      (((unravel shape idx).map fun i : ℕ => (i : ℤ)).getD a0 0)) (by simpa using hl.symm) hpos
    refine ⟨j, g1, g2, fun ax hax => ?_⟩
    have := g3 ax hax
    rw [getD_set _ _ (by rw [List.length_set, List.length_map]; omega), getD_set _ _ (by rw [List.length_map]; omega), getD_cast, getD_cast, getD_cast] at this
    by_cases e1 : ax = a1
    · rw [if_pos e1, Int.emod_eq_of_lt (by omega) (by rw [e1, ← heq]; exact_mod_cast hlt idx hi a0 h0)] at this
      by_cases e0 : ax = a0
      · rw [if_pos e0, ← e1, e0]; rw [← e0] at this ⊢; exact_mod_cast this
      · rw [if_neg e0, if_pos e1]; exact_mod_cast this
    · rw [if_neg e1] at this
      by_cases e0 : ax = a0
      · rw [if_pos e0, Int.emod_eq_of_lt (by omega) (by rw [e0, heq]; exact_mod_cast hlt idx hi a1 h1)] at this
        rw [if_pos e0]
        exact_mod_cast this
      · rw [if_neg e0, Int.emod_eq_of_lt (by omega) (by exact_mod_cast hlt idx hi ax hax)] at this
        rw [if_neg e0, if_neg e1]
        exact_mod_cast this
  obtain ⟨j, g1, g2, g3⟩ := step idx hi
  obtain ⟨i', f1, f2, f3⟩ := step j g2
  refine ⟨j, g1, g2, g3, ?_⟩
  rw [f1]
  refine congrArg some (flat_ext f2 hi fun ax hax => ?_)
  rw [f3 ax hax]
  by_cases e0 : ax = a0
  · rw [if_pos e0, g3 a1 h1, if_pos rfl]
    by_cases e : a1 = a0
    · rw [if_pos e, e0, e]
    · rw [if_neg e, e0]
  · rw [if_neg e0]
    by_cases e1 : ax = a1
    · rw [if_pos e1, g3 a0 h0, if_pos rfl, e1]
    · rw [if_neg e1, g3 ax hax, if_neg e0, if_neg e1]

/-- **C124, negation.** With different numbers of samples, different samples become the same. -/
theorem C124_exchange_negation : x0x1SymmetryOp [2, 3] (0, 1) 2 = some 0 ∧ x0x1SymmetryOp [2, 3] (0, 1) 0 = some 0 := by decide

example : x0x1SymmetryOp [3, 3] (0, 1) 5 = some 7 := by decide

/-- **C124.** With one symmetry operation, which applied twice changes nothing, the sample found is the smaller of the two equivalent ones: two samples have the same one
exactly if the operation takes one to the other, or they are equal. -/
theorem C124_representative_partial (N : ℕ) (op : ℕ → Option ℕ) (hop : ∀ i < N, ∃ j < N, op i = some j ∧ op j = some i) (i j : ℕ) (hi : i < N) (hj : j < N) :
    (∃ k ≤ i, symmetrySample [op] i = some k ∧ (k = i ∨ op i = some k)) ∧
      (symmetrySample [op] i = symmetrySample [op] j ↔ i = j ∨ op i = some j) := by
  obtain ⟨i', hi', e1, e2⟩ := hop i hi
  obtain ⟨j', hj', f1, f2⟩ := hop j hj
  have h1 : symmetrySample [op] i = some (min i' i) := by
    show (some i).bind (fun i => (op i).map fun b => min b i) = _
    rw [Option.bind_some, e1, Option.map_some]
  have h2 : symmetrySample [op] j = some (min j' j) := by
    show (some j).bind (fun i => (op i).map fun b => min b i) = _
    rw [Option.bind_some, f1, Option.map_some]
  refine ⟨⟨min i' i, min_le_right _ _, h1, ?_⟩, ?_⟩
  · rcases le_total i' i with h | h
    · right; rw [min_eq_left h, e1]
    · left; exact min_eq_right h
  · rw [h1, h2, Option.some.injEq, e1, Option.some.injEq]
    constructor
    · intro h
      by_cases c : i = j
      · exact .inl c
      right
      rcases min_choice i' i with a | a <;> rcases min_choice j' j with b | b
      · rw [a, b] at h
        rw [h, f2, Option.some.injEq] at e2
        exact absurd e2.symm c
      · rw [a, b] at h; exact h
      · rw [a, b] at h
        rw [h, f2, Option.some.injEq] at e1
        exact e1.symm
      · rw [a, b] at h; exact absurd h c
    · rintro (rfl | rfl)
      · rw [e1, Option.some.injEq] at f1
        rw [f1]
      · rw [e2, Option.some.injEq] at f1
        rw [← f1, min_comm]

/-- The hypothesis for the reflection of the second axis of three by four samples. -/
example : ∀ i < 12, ∃ j < 12, x0SymmetryOp [3, 4] 1 i = some j ∧ x0SymmetryOp [3, 4] 1 j = some i := fun i hi => by
  obtain ⟨j, h1, h2, _, _, h5⟩ := C124_reflection [3, 4] (by decide) 1 (by decide) i hi
  exact ⟨j, h2, h1, h5⟩

/-- **C124, negation.** With two operations equivalent samples may get different representatives: on three by three samples, the reflection of the first axis and the
exchange of the axes take sample 2 to 6, then to 3 and then to 1, but samples 1 and 2 are not given the same representative. -/
theorem C124_representative_negation :
    x0x1SymmetryOp [3, 3] (0, 1) 2 = some 6 ∧ x0SymmetryOp [3, 3] 0 6 = some 3 ∧ x0x1SymmetryOp [3, 3] (0, 1) 3 = some 1 ∧
      symmetrySample [x0SymmetryOp [3, 3] 0, x0x1SymmetryOp [3, 3] (0, 1)] 1 = some 1 ∧
      symmetrySample [x0SymmetryOp [3, 3] 0, x0x1SymmetryOp [3, 3] (0, 1)] 2 = some 2 := by decide

end Verif
