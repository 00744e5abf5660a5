import Verif.Model.PlotStates
import Verif.Props.C126_PlotSlices
import Verif.Props.C131_Paths
import Verif.Props.C132_Collapse

/-!
# C137: differences of states and states along paths drawn
-/

set_option autoImplicit false

namespace Verif

open Finset Spec Matrix

variable {d : ℕ}

namespace Spec

/-- The drawn difference of two values: the difference relative to the larger modulus. It is zero only for equal values, has a modulus of at most two,
and turns to its negative when the values are exchanged. -/
structure IsRelativeDifference (a b r : ℂ) : Prop where
  value : (max ‖a‖ ‖b‖ : ℝ) * r = a - b
  zero : r = 0 ↔ a = b
  bound : ‖r‖ ≤ 2

end Spec

theorem relativeDifference_spec (a b : ℂ) : IsRelativeDifference a b (relativeDifference a b) := by
  have hmax : 0 ≤ max ‖a‖ ‖b‖ := (norm_nonneg a).trans (le_max_left _ _)
  rcases hmax.eq_or_lt with h | h
  · have ha : a = 0 := norm_le_zero_iff.1 ((le_max_left _ _).trans h.symm.le)
    have hb : b = 0 := norm_le_zero_iff.1 ((le_max_right _ _).trans h.symm.le)
    subst ha hb
    exact ⟨by simp, by simp [relativeDifference], by simp [relativeDifference]⟩
  · have hne : ((max ‖a‖ ‖b‖ : ℝ) : ℂ) ≠ 0 := by exact_mod_cast h.ne'
    refine ⟨by rw [relativeDifference, mul_div_cancel₀ _ hne], ?_, ?_⟩
    · rw [relativeDifference, div_eq_zero_iff, sub_eq_zero]
      exact ⟨fun e => e.resolve_right hne, Or.inl⟩
    · rw [relativeDifference, norm_div, Complex.norm_real, Real.norm_of_nonneg hmax, div_le_iff₀ h]
      have := norm_sub_le a b
      linarith [le_max_left ‖a‖ ‖b‖, le_max_right ‖a‖ ‖b‖]

/-- **C137.** The difference of two states in any two bases of the same space drawn in position space: at each point of the slice the relative difference of the two wavefunctions. -/
theorem C137_position (same : Basis → Basis → Bool) (hs : Sound same) (A : Matrix (Fin d) (Fin d) ℝ) (s0 s1 : StateVector)
    (h0 : Valid s0.basis) (h1 : Valid s1.basis) (o0 : OrthonormalParts s0.basis) (o1 : OrthonormalParts s1.basis) (ns : List ℕ)
    (hns : s0.basis.fundamentalShape = ns) (hns' : s1.basis.fundamentalShape = ns) (hd : ns.length = d)
    (axes : List (Fin d)) (hnd : axes.Nodup) (top : List ℕ) (htop : InShape ns top) :
    ∃ s, plotStateDifference2dX same A s0 s1 axes (some (offAxes (axes.map Fin.val) top)) = some s ∧
      s.shape = axes.map (fun a : Fin d => ns.getD a 0) ∧
      ∀ full, InShape ns full → AgreeOff (axes.map Fin.val) full top →
        IsRelativeDifference (expand s0.basis s0.data (ravel ns full)) (expand s1.basis s1.data (ravel ns full))
          (s.values (onAxes (axes.map Fin.val) full)) ∧
        s.coordinates (onAxes (axes.map Fin.val) full) = projectPoint (axes.map fun a => A a) (gridPoint A ns full) := by
  have hx : s0.basis.asPositionBasis = .tuple (ns.map .fundamental) := by rw [← hns]; rfl
  obtain ⟨f0, hf0, kf0⟩ := convert_position same hs s0.basis h0 o0 ns (hx ▸ compatible_symm _ _ (compatible_asPosition' s0.basis))
  have hx1 : s1.basis.asPositionBasis = .tuple (ns.map .fundamental) := by rw [← hns']; rfl
  obtain ⟨f1, hf1, kf1⟩ := convert_position same hs s1.basis h1 o1 ns (hx1 ▸ compatible_symm _ _ (compatible_asPosition' s1.basis))
  set b : Basis := .tuple (ns.map .fundamental) with hb
  set data : ℕ → ℂ := fun x => relativeDifference (f0 s0.data x) (f1 s1.data x) with hdata
  have hv : Valid b := (fund_facts ns).2.2.2
  have ho : OrthonormalParts b := orthonormalParts_fundamental ns
  have hsh : b.fundamentalShape = ns := (shape_position ns).2
  obtain ⟨s, e1, e2, e3⟩ := C126_position same hs A b hv ho (by rw [hsh]; exact hd) axes hnd data top (by rw [hsh]; exact htop)
  rw [hsh] at e2 e3
  refine ⟨s, ?_, e2, fun full hfull hag => ?_⟩
  · unfold plotStateDifference2dX stateDifference convertStateVector
    dsimp only
    rw [hx, hf0, hf1]
    exact e1
  · obtain ⟨g1, g2⟩ := e3 full hfull hag
    refine ⟨?_, g2⟩
    have hlt := ravel_lt ns full hfull
    rw [g1, expand_position ns data hlt, ← kf0 _ _ hlt, ← kf1 _ _ hlt]
    exact relativeDifference_spec _ _

/-- **C137.** The difference drawn in momentum space: at each wave vector the relative difference of the two coefficients. -/
theorem C137_momentum (same : Basis → Basis → Bool) (hs : Sound same) (A : Matrix (Fin d) (Fin d) ℝ) (s0 s1 : StateVector)
    (h0 : Valid s0.basis) (h1 : Valid s1.basis) (o0 : OrthonormalParts s0.basis) (o1 : OrthonormalParts s1.basis) (ns : List ℕ)
    (hns : s0.basis.fundamentalShape = ns) (hns' : s1.basis.fundamentalShape = ns) (hd : ns.length = d)
    (axes : List (Fin d)) (hnd : axes.Nodup) (top : List ℕ) (htop : InShape ns top) :
    ∃ s, plotStateDifference1dK same A s0 s1 axes (some (offAxes (axes.map Fin.val) top)) = some s ∧
      plotStateDifference2dK same A s0 s1 axes (some (offAxes (axes.map Fin.val) top)) = some s ∧
      s.shape = axes.map (fun a : Fin d => ns.getD a 0) ∧
      ∀ full, InShape ns full → AgreeOff (axes.map Fin.val) full top →
        ∀ position, position = axes.map (fun a : Fin d => (freq (ns.getD a 0) (full.getD a 0) + (ns.getD a 0 : ℤ) / 2).toNat) →
        IsRelativeDifference (planeCoefficient ns (expand s0.basis s0.data) (ravel ns full))
          (planeCoefficient ns (expand s1.basis s1.data) (ravel ns full)) (s.values position) ∧
        s.coordinates position = projectPoint (axes.map fun a : Fin d => ((ns.getD a 0 : ℝ) • ((2 * Real.pi) • (A⁻¹)ᵀ) a))
          (waveVector A ns full) := by
  have hx : s0.basis.asTransformedBasis = fT ns := by rw [← hns]; rfl
  have hx1 : s1.basis.asTransformedBasis = fT ns := by rw [← hns']; rfl
  obtain ⟨f0, hf0, kf0⟩ := convert_momentum same hs s0.basis h0 o0
  obtain ⟨f1, hf1, kf1⟩ := convert_momentum same hs s1.basis h1 o1
  rw [hx] at hf0
  rw [hx1] at hf1
  rw [hns] at kf0
  rw [hns'] at kf1
  set data : ℕ → ℂ := fun x => relativeDifference (f0 s0.data x) (f1 s1.data x) with hdata
  have hv : Valid (fT ns) := valids_fT ns
  have ho : OrthonormalParts (fT ns) := orthonormalPartss_fT ns
  have hsh : (fT ns).fundamentalShape = ns := fundamentalShape_fT ns
  obtain ⟨s, e1, e1', e2, e3⟩ := C126_momentum same hs A (fT ns) hv ho (by rw [hsh]; exact hd) axes hnd data top (by rw [hsh]; exact htop)
  rw [hsh] at e2 e3
  refine ⟨s, ?_, ?_, e2, fun full hfull hag position hposition => ?_⟩
  · unfold plotStateDifference1dK stateDifference convertStateVector
    dsimp only
    rw [hx, hf0, hf1]
    exact e1
  · unfold plotStateDifference2dK stateDifference convertStateVector
    dsimp only
    rw [hx, hf0, hf1]
    exact e1'
  · obtain ⟨g1, g2⟩ := e3 full hfull hag position hposition
    refine ⟨?_, g2⟩
    have hlt := ravel_lt ns full hfull
    obtain ⟨t1, t2, t3⟩ := fT_facts ns
    have hpc : planeCoefficient ns (expand (fT ns) data) (ravel ns full) = data (ravel ns full) := by
      have o := state_orthonormal (fT ns) hv ho
      have := dot_state_expand o data (j := ravel ns full) (by rw [t1]; exact hlt)
      rw [t2] at this
      exact this
    rw [g1, hpc, ← kf0 _ _ hlt, ← kf1 _ _ hlt]
    exact relativeDifference_spec _ _

/-- **C137.** Exchanging the states changes the sign of the difference. -/
theorem C137_exchange (same : Basis → Basis → Bool) (s0 s1 : StateVector) (basis : Basis) (data : ℕ → ℂ)
    (h : stateDifference same s0 s1 basis = some data) : stateDifference same s1 s0 basis = some fun x => -data x := by
  unfold stateDifference at h ⊢
  rcases h0 : convertStateVector same s0 basis with _ | c0
  · rw [h0] at h; cases h
  · rcases h1 : convertStateVector same s1 basis with _ | c1
    · rw [h0, h1] at h; cases h
    · rw [h0, h1, Option.bind_some, Option.map_some, Option.some.injEq] at h
      rw [Option.bind_some, Option.map_some, ← h]
      congr 1
      funext x
      unfold relativeDifference
      rw [max_comm, ← neg_div, neg_sub]

/-! ## Along a path -/

theorem numpyIndex_eq (n : ℕ) (i : ℤ) (h : -(n : ℤ) ≤ i ∧ i < n) : numpyIndex n i = some (i % (n : ℤ)).toNat := by
  unfold numpyIndex
  by_cases h0 : 0 ≤ i
  · rw [if_pos ⟨h0, h.2⟩, Int.emod_eq_of_lt h0 h.2]
  · rw [if_neg (by omega), if_pos ⟨h.1, by omega⟩, ← Int.add_emod_right, Int.emod_eq_of_lt (by omega) (by omega)]

theorem inShape_wrapped : ∀ (ns : List ℕ) (p : List ℤ), p.length = ns.length → (∀ q ∈ ns.zip p, -(q.1 : ℤ) ≤ q.2 ∧ q.2 < q.1) →
    InShape ns (List.zipWith (fun (n : ℕ) i => (i % (n : ℤ)).toNat) ns p)
  | [], [], _, _ => trivial
  | [], _ :: _, h, _ => by simp at h
  | _ :: _, [], h, _ => by simp at h
  | n :: ns, i :: p, h, hq => by
    have h1 := hq (n, i) (by simp)
    have hn : (0 : ℤ) < n := by dsimp only at h1; omega
    refine ⟨?_, inShape_wrapped ns p (by simpa using h) fun q hq' => hq q (by simp [hq'])⟩
    have h2 := Int.emod_nonneg i hn.ne'
    have h3 := Int.emod_lt_of_pos i hn
    show (i % (n : ℤ)).toNat < n
    omega

/-- **C137 (partial).** A state drawn along a path: at each point of the path the wavefunction there, against the length of the path up to this point. Entries of the path may be negative, but not less
than minus the number of points, and must be less than it. Missing: other points, see `C137_path_negation`. -/
theorem C137_path_partial (same : Basis → Basis → Bool) (hs : Sound same) (A : Matrix (Fin d) (Fin d) ℝ) (s : StateVector) (hb : Valid s.basis) (ho : OrthonormalParts s.basis)
    (ns : List ℕ) (hns : s.basis.fundamentalShape = ns) (path : List (List ℤ)) (hne : path ≠ [])
    (hpath : ∀ p ∈ path, p.length = ns.length ∧ ∀ q ∈ ns.zip p, -(q.1 : ℤ) ≤ q.2 ∧ q.2 < q.1) (measure : Measure) :
    ∃ distances values, plotStateAlongPath same A s path measure = some (distances, values) ∧ values.length = path.length ∧
      IsCumulative path.length (fun i => if h : i + 1 < path.length then
        vnorm (pathPoint A (fun i => ns.getD i 0) (fun c => path[i + 1].getD c 0) - pathPoint A (fun i => ns.getD i 0) fun c => path[i].getD c 0) else 0) distances ∧
      ∀ (q : ℕ) (p : List ℤ) (v : ℝ), path[q]? = some p → values[q]? = some v → DrawnAs measure (valueAt ns (expand s.basis s.data) p) v := by
  have hx : s.basis.asPositionBasis = .tuple (ns.map .fundamental) := by rw [← hns]; rfl
  have hc : Compatible s.basis (.tuple (ns.map .fundamental)) := hx ▸ compatible_symm _ _ (compatible_asPosition' s.basis)
  obtain ⟨f, hf, kf⟩ := convert_position same hs s.basis hb ho ns hc
  have hidx : ∀ p ∈ path, (ns.zip p).mapM (fun q => numpyIndex q.1 q.2) = some (List.zipWith (fun (n : ℕ) i => (i % (n : ℤ)).toNat) ns p) := by
    intro p hp
    rw [mapM_some_map (ns.zip p) _ (fun q => (q.2 % (q.1 : ℤ)).toNat) fun q hq => numpyIndex_eq q.1 q.2 ((hpath p hp).2 q hq)]
    rw [List.zip, List.map_zipWith]
  have hlt : ∀ p ∈ path, ravel ns (List.zipWith (fun (n : ℕ) i => (i % (n : ℤ)).toNat) ns p) < ns.prod := by
    intro p hp
    refine ravel_lt _ _ ?_
    exact inShape_wrapped ns p (hpath p hp).1 (hpath p hp).2
  refine ⟨cumulativeXDistances A (fun i => ns.getD i 0) (fun i => ns.getD i 0) false (path.map fun p => fun i => p.getD i 0),
    path.map fun p => getMeasuredData (fun _ => f s.data (ravel ns (List.zipWith (fun (n : ℕ) i => (i % (n : ℤ)).toNat) ns p))) measure 0, ?_, by simp, ?_, fun q p v hp hv => ?_⟩
  · unfold plotStateAlongPath convertStateVector
    dsimp only
    rw [hns, hx, hf, Option.map_some, Option.bind_some,
      mapM_some_map path _ (fun p => getMeasuredData (fun _ => f s.data (ravel ns (List.zipWith (fun (n : ℕ) i => (i % (n : ℤ)).toNat) ns p))) measure 0)]
    · rfl
    · intro p hp
      rw [hidx p hp, Option.map_some]
  · have := C08_cumulative_x A (fun i => ns.getD i 0) (fun i => ns.getD i 0) (path.map fun p => fun i : Fin d => p.getD i 0) (by simpa using hne)
    simpa using this
  · rw [List.getElem?_map, hp] at hv
    rw [Option.map_some, Option.some.injEq] at hv
    rw [← hv, valueAt, ← kf _ _ (hlt p (List.mem_of_getElem? hp))]
    exact drawnAs_measured (fun _ => _) measure 0

/-- **C137 (negation).** A path which leaves the cell raises, although the same path is drawn for a potential: the end of a path once around a cell in one dimension. -/
theorem C137_path_negation (same : Basis → Basis → Bool) (hs : Sound same) (A : Matrix (Fin 1) (Fin 1) ℝ) (n : ℕ) (hn : 0 < n) (data : ℕ → ℂ) (measure : Measure) :
    plotStateAlongPath same A ⟨.tuple [.fundamental n], data⟩ ((List.range (n + 1)).map fun i : ℕ => [(i : ℤ)]) measure = none ∧
    ∃ r, plotPotentialAlongPath same A (.tuple [.fundamental n]) data ((List.range (n + 1)).map fun i : ℕ => [(i : ℤ)]) measure = some r := by
  constructor
  · unfold plotStateAlongPath
    dsimp only
    rcases convertStateVector same ⟨.tuple [.fundamental n], data⟩ (Basis.tuple [.fundamental n]).asPositionBasis with _ | c
    · rfl
    · rw [Option.bind_some, mapM_eq_none _ _ [(n : ℤ)] (List.mem_map.2 ⟨n, by simp, rfl⟩)]
      · rfl
      · have h : numpyIndex n n = none := by
          unfold numpyIndex
          rw [if_neg (by omega), if_neg (by omega)]
        have hsh : (Basis.tuple [.fundamental n]).fundamentalShape = [n] := rfl
        rw [hsh]
        simp [h]
  · obtain ⟨distances, values, h, -⟩ := C131_along same hs A (.tuple [.fundamental n]) ⟨trivial, trivial⟩ (orthonormalParts_fundamental [n]) [n] rfl
      (by simpa using hn) data ((List.range (n + 1)).map fun i : ℕ => [(i : ℤ)]) (by simp [List.range_succ]) (by
        intro p hp
        obtain ⟨i, -, rfl⟩ := List.mem_map.1 hp
        rfl) measure
    exact ⟨_, h⟩

/-- The hypotheses can be met: two states on four points, one in momentum space. -/
example (same : Basis → Basis → Bool) (hs : Sound same) (v w : ℕ → ℂ) :
    ∃ s, plotStateDifference2dX same (1 : Matrix (Fin 2) (Fin 2) ℝ) ⟨.tuple [.fundamental 2, .fundamental 2], v⟩
      ⟨.tuple [.fundamentalTransformed 2, .fundamental 2], w⟩ [0, 1] (some []) = some s ∧ s.shape = [2, 2] := by
  obtain ⟨s, h1, h2, -⟩ := C137_position same hs (1 : Matrix (Fin 2) (Fin 2) ℝ) ⟨.tuple [.fundamental 2, .fundamental 2], v⟩
    ⟨.tuple [.fundamentalTransformed 2, .fundamental 2], w⟩ ⟨trivial, trivial, trivial⟩ ⟨trivial, trivial, trivial⟩
    (orthonormalParts_fundamental [2, 2]) (by simp [OrthonormalParts, OrthonormalPartss]) [2, 2] rfl rfl rfl [0, 1] (by decide) [0, 0]
    ⟨by norm_num, by norm_num, trivial⟩
  exact ⟨s, h1, h2⟩

end Verif
