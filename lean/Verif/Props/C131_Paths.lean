import Verif.Model.PlotLists
import Verif.Props.C08_Paths
import Verif.Props.C104_Position
import Verif.Props.C110_BlochTheorem
import Verif.Props.C111_BlochOperator
import Verif.Props.C121_Overlaps
import Verif.Props.C128_Occupations
import Verif.Props.C129_ValueLists

/-!
# C131: potentials drawn along a path
-/

set_option autoImplicit false

namespace Verif

open Finset Spec Matrix

namespace Spec

/-- The value at a point given by integers, which are counted modulo the number of points of each axis. -/
def valueAt (shape : List ℕ) (data : ℕ → ℂ) (point : List ℤ) : ℂ :=
  data (ravel shape (List.zipWith (fun (n : ℕ) i => (i % (n : ℤ)).toNat) shape point))

end Spec

theorem wrapSample_insert : ∀ (shape : List ℕ) (a : ℕ) (p : List ℤ) (m : ℕ), a < shape.length → p.length + 1 = shape.length → m < shape.getD a 0 →
    wrapSample shape (p.insertIdx a (m : ℤ)) = (wrapSample (shape.eraseIdx a) p).insertIdx a m
  | n :: ns, 0, p, m, _, _, hm => by
    have hm' : m < n := hm
    show ((m : ℤ) % (n : ℤ)).toNat :: wrapSample ns p = m :: wrapSample ns p
    rw [Int.emod_eq_of_lt (by positivity) (by exact_mod_cast hm'), Int.toNat_natCast]
  | n :: ns, a + 1, [], m, ha, hp, hm => by
    simp at ha hp
    subst hp
    simp at ha
  | n :: ns, a + 1, i :: p, m, ha, hp, hm => by
    have := wrapSample_insert ns a p m (by simpa using ha) (by simpa using hp) hm
    show (i % (n : ℤ)).toNat :: wrapSample ns (p.insertIdx a (m : ℤ)) = (i % (n : ℤ)).toNat :: (wrapSample (ns.eraseIdx a) p).insertIdx a m
    rw [this]

/-- **C131.** The completed path follows the given path and at each of its points passes through the least value along the chosen axis (counted from the end if
negative); the potential is repeated in all directions. -/
theorem C131_minimum (shape : List ℕ) (hpos : ∀ n ∈ shape, 0 < n) (data : ℕ → ℂ) (a : ℕ) (ha : a < shape.length) (axis : ℤ)
    (hax : axis = a ∨ axis = (a : ℤ) - shape.length) (path : List (List ℤ)) (hpath : ∀ p ∈ path, p.length + 1 = shape.length) :
    ∃ out, getMinimumPath shape data path axis = some out ∧ out.length = path.length ∧
      ∀ (q : ℕ) (p r : List ℤ), path[q]? = some p → out[q]? = some r → ∃ m0 < shape.getD a 0, r = p.insertIdx a (m0 : ℤ) ∧
        ∀ m < shape.getD a 0, (valueAt shape data r).re ≤ (valueAt shape data (p.insertIdx a (m : ℤ))).re := by
  have haxis : (axis % (shape.length : ℤ)).toNat = a := by
    have h1 : ((a : ℤ) % (shape.length : ℤ)).toNat = a := by
      rw [Int.emod_eq_of_lt (by positivity) (by exact_mod_cast ha), Int.toNat_natCast]
    rcases hax with rfl | rfl
    · exact h1
    · rw [Int.sub_emod_right]
      exact h1
  have hna : 0 < shape.getD a 0 := by
    rw [List.getD_eq_getElem?_getD, List.getElem?_eq_getElem ha]
    exact hpos _ (List.getElem_mem ha)
  have hpos' : ∀ n ∈ shape.eraseIdx a, 0 < n := fun n hn => hpos n (List.mem_of_mem_eraseIdx hn)
  set minIdx : List ℕ → ℕ := fun js => argminLex (fun m => data (ravel shape (js.insertIdx a m))) (shape.getD a 0 - 1) with hmin
  refine ⟨path.map fun p => p.insertIdx a (minIdx (wrapSample (shape.eraseIdx a) p) : ℤ), ?_, by simp, fun q p r hp hr => ?_⟩
  · unfold getMinimumPath
    rw [if_neg (by omega)]
    dsimp only
    rw [haxis, if_neg hna.ne']
    refine mapM_some_map _ _ _ fun p hp => ?_
    have hlen : p.length = (shape.eraseIdx a).length := by
      rw [List.length_eraseIdx_of_lt ha]
      have := hpath p hp
      omega
    rw [getFlatIndex_wrap _ _ hlen hpos', Option.map_some, unravel_ravel _ _ (wrapSample_inShape _ _ hlen hpos')]
  · rw [List.getElem?_map, hp] at hr
    cases hr
    have hl := hpath p (List.mem_of_getElem? hp)
    obtain ⟨h1, h2⟩ := argminLex_spec (fun m => data (ravel shape ((wrapSample (shape.eraseIdx a) p).insertIdx a m))) (shape.getD a 0 - 1)
    refine ⟨minIdx (wrapSample (shape.eraseIdx a) p), by show argminLex _ _ < _; omega, rfl, fun m hm => ?_⟩
    have e : ∀ m < shape.getD a 0, valueAt shape data (p.insertIdx a (m : ℤ)) = data (ravel shape ((wrapSample (shape.eraseIdx a) p).insertIdx a m)) :=
      fun m hm => congrArg (fun l => data (ravel shape l)) (wrapSample_insert shape a p m ha hl hm)
    rw [e m hm, e _ (by show argminLex _ _ < _; omega)]
    exact h2 m (by omega)

/-- **C131.** A potential drawn along a path: at each point of the path the potential there is drawn (the first `d` entries of a point, repeated in all directions), against the length of the
path up to this point. -/
theorem C131_along {d : ℕ} (same : Basis → Basis → Bool) (hs : Sound same) (A : Matrix (Fin d) (Fin d) ℝ) (b : Basis) (hb : Valid b) (ho : OrthonormalParts b)
    (ns : List ℕ) (hns : b.fundamentalShape = ns) (hpos : ∀ n ∈ ns, 0 < n) (data : ℕ → ℂ) (path : List (List ℤ)) (hne : path ≠ []) (hpath : ∀ p ∈ path, p.length = ns.length)
    (measure : Measure) :
    ∃ distances values, plotPotentialAlongPath same A b data path measure = some (distances, values) ∧ values.length = path.length ∧
      IsCumulative path.length (fun i => if h : i + 1 < path.length then
        vnorm (pathPoint A (fun i => ns.getD i 0) (fun c => path[i + 1].getD c 0) - pathPoint A (fun i => ns.getD i 0) fun c => path[i].getD c 0) else 0) distances ∧
      ∀ (q : ℕ) (p : List ℤ) (v : ℝ), path[q]? = some p → values[q]? = some v → DrawnAs measure (valueAt ns (expand b data) p) v := by
  have hx : b.asPositionBasis = .tuple (ns.map .fundamental) := by rw [← hns]; rfl
  have hc : Compatible b (.tuple (ns.map .fundamental)) := hx ▸ compatible_symm _ _ (compatible_asPosition' b)
  obtain ⟨f, hf, kf⟩ := convert_position same hs b hb ho ns hc
  refine ⟨cumulativeXDistances A (fun i => ns.getD i 0) (fun i => ns.getD i 0) false (path.map fun p => fun i => p.getD i 0),
    path.map fun p => getMeasuredData (fun _ => f data (ravel ns (wrapSample ns p))) measure 0, ?_, by simp, ?_, fun q p v hp hv => ?_⟩
  · unfold plotPotentialAlongPath
    dsimp only
    rw [hns, hx, hf, Option.bind_some, mapM_some_map path _ (fun p => getMeasuredData (fun _ => f data (ravel ns (wrapSample ns p))) measure 0)]
    · rfl
    · intro p hp
      rw [getFlatIndex_wrap _ _ (hpath p hp) hpos, Option.map_some]
  · have := C08_cumulative_x A (fun i => ns.getD i 0) (fun i => ns.getD i 0) (path.map fun p => fun i : Fin d => p.getD i 0) (by simpa using hne)
    simpa using this
  · rw [List.getElem?_map, hp] at hv
    cases hv
    beta_reduce
    rw [kf data _ (ravel_lt _ _ (wrapSample_inShape _ _ (hpath p (List.mem_of_getElem? hp)) hpos))]
    exact drawnAs_measured (fun _ => expand b data (ravel ns (wrapSample ns p))) measure 0

theorem shape_position (ns : List ℕ) : (Basis.tuple (ns.map .fundamental)).shape = ns ∧ (Basis.tuple (ns.map .fundamental)).fundamentalShape = ns := by
  constructor
  · rw [shape_tuple, List.map_map]
    exact List.map_id' ns
  · rw [Basis.fundamentalShape]
    induction ns with
    | nil => rfl
    | cons n ns ih => exact congrArg (n :: ·) ih

/-- **C131.** The plot of the minimum along a path, for a potential stored by its values on the grid: at each point of the path the least value along the chosen axis is
drawn. -/
theorem C131_drawn_partial {d : ℕ} (same : Basis → Basis → Bool) (hs : Sound same) (A : Matrix (Fin d) (Fin d) ℝ) (ns : List ℕ) (hpos : ∀ n ∈ ns, 0 < n)
    (data : ℕ → ℂ) (a : ℕ) (ha : a < ns.length) (axis : ℤ) (hax : axis = a ∨ axis = (a : ℤ) - ns.length) (path : List (List ℤ)) (hne : path ≠ [])
    (hpath : ∀ p ∈ path, p.length + 1 = ns.length) :
    ∃ distances values, plotPotentialMinimumAlongPath same A (.tuple (ns.map .fundamental)) data path axis = some (distances, values) ∧
      values.length = path.length ∧ ∀ (q : ℕ) (p : List ℤ) (v : ℝ), path[q]? = some p → values[q]? = some v →
        (∃ m < ns.getD a 0, v = (valueAt ns data (p.insertIdx a (m : ℤ))).re) ∧
        ∀ m < ns.getD a 0, v ≤ (valueAt ns data (p.insertIdx a (m : ℤ))).re := by
  obtain ⟨h1, h2⟩ := shape_position ns
  obtain ⟨out, ho, hl, hm⟩ := C131_minimum ns hpos data a ha axis hax path hpath
  have hout : ∀ r ∈ out, r.length = ns.length := by
    intro r hr
    obtain ⟨q, hq, rfl⟩ := List.getElem_of_mem hr
    obtain ⟨m0, _, hr, _⟩ := hm q path[q] out[q] (List.getElem?_eq_getElem (by omega)) (List.getElem?_eq_getElem hq)
    have := hpath _ (List.getElem_mem (by omega : q < path.length))
    rw [hr, List.length_insertIdx_of_le_length (by omega)]
    exact this
  obtain ⟨distances, values, hv, hvl, -, hd⟩ := C131_along same hs A (.tuple (ns.map .fundamental)) (fund_facts ns).2.2.2
    (orthonormalParts_fundamental ns) ns h2 hpos data out (fun h => hne (by rw [h] at hl; exact List.length_eq_zero_iff.1 hl.symm)) hout .real
  refine ⟨distances, values, by unfold plotPotentialMinimumAlongPath; rw [h1, ho]; exact hv, by rw [hvl, hl], fun q p v hp hv' => ?_⟩
  have hq : q < out.length := by
    have := (List.getElem?_eq_some_iff.1 hp).1
    omega
  have hr := List.getElem?_eq_getElem hq
  obtain ⟨m0, hm0, er, hmin⟩ := hm q p out[q] hp hr
  have hval : v = (valueAt ns (expand (.tuple (ns.map .fundamental)) data) out[q]).re := hd q _ v hr hv'
  have e : valueAt ns (expand (.tuple (ns.map .fundamental)) data) out[q] = valueAt ns data out[q] :=
    expand_position ns data (ravel_lt _ _ (wrapSample_inShape ns _ (hout _ (List.getElem_mem hq)) hpos))
  rw [hval, e]
  exact ⟨⟨m0, hm0, by rw [er]⟩, hmin⟩

/-- **C131** (negation). For a potential stored by its plane waves the minimum is searched for among the coefficients: the potential `e^{i π x} / √2` of two points, with the
coefficients 0 and 1, is drawn at the point 0, where it is largest. -/
theorem C131_drawn_negation (same : Basis → Basis → Bool) (hs : Sound same) (A : Matrix (Fin 2) (Fin 2) ℝ) :
    ∃ distances v, plotPotentialMinimumAlongPath same A (.tuple [.fundamentalTransformed 2, .fundamental 1]) (fun k => if k = 1 then 1 else 0) [[0]] 0 =
        some (distances, [v]) ∧
      (valueAt [2, 1] (expand (.tuple [.fundamentalTransformed 2, .fundamental 1]) fun k => if k = 1 then 1 else 0) [1, 0]).re < v := by
  set b : Basis := .tuple [.fundamentalTransformed 2, .fundamental 1] with hb
  set data : ℕ → ℂ := fun k => if k = 1 then 1 else 0 with hdata
  have hshape : b.shape = [2, 1] := by rw [hb, shape_tuple]; rfl
  have hfs : b.fundamentalShape = [2, 1] := by rw [hb]; rfl
  have hmin : getMinimumPath [2, 1] data [[0]] 0 = some [[0, 0]] := by
    obtain ⟨out, h1, h2, h3⟩ := C131_minimum [2, 1] (by decide) data 0 (by decide) 0 (Or.inl rfl) [[0]] (by decide)
    obtain ⟨r, rfl⟩ := List.length_eq_one_iff.1 h2
    obtain ⟨m0, hm0, hr, hle⟩ := h3 0 [0] r rfl rfl
    have hm0' : m0 < 2 := hm0
    rw [h1, hr]
    rcases Nat.lt_or_ge m0 1 with h | h
    · rw [show m0 = 0 by omega]
      rfl
    · exfalso
      have hm1 : m0 = 1 := by omega
      have := hle 0 (by decide)
      rw [hr, hm1] at this
      have e1 : valueAt [2, 1] data (List.insertIdx [0] 0 ((1 : ℕ) : ℤ)) = 1 := rfl
      have e0 : valueAt [2, 1] data (List.insertIdx [0] 0 ((0 : ℕ) : ℤ)) = 0 := rfl
      rw [e1, e0, Complex.one_re, Complex.zero_re] at this
      linarith
  obtain ⟨distances, values, hv, hvl, -, hd⟩ := C131_along same hs A b ⟨trivial, trivial, trivial⟩ ⟨trivial, trivial, trivial⟩ [2, 1] hfs (by decide) data
    [[0, 0]] (by simp) (by decide) .real
  obtain ⟨v, rfl⟩ := List.length_eq_one_iff.1 hvl
  have hval := hd 0 [0, 0] v rfl rfl
  refine ⟨distances, v, by unfold plotPotentialMinimumAlongPath; rw [hshape, hmin]; exact hv, ?_⟩
  have hexp : ∀ x < 2, expand b data x = planeWave 2 1 x := by
    intro x hx
    unfold expand
    rw [show size b = 2 from rfl]
    simp only [hdata, sum_range_succ, range_zero, sum_empty]
    have : state b 1 x = planeWave 2 1 x := by
      show states _ 1 x = _
      simp [states, state, sizes, pointss, size, points]
      intro h
      omega
    simp [this]
  have h0 : (valueAt [2, 1] (expand b data) [0, 0]).re = 1 / Real.sqrt 2 := by
    show (expand b data 0).re = _
    rw [hexp 0 (by decide)]
    have : planeWave 2 1 0 = ((1 / Real.sqrt 2 : ℝ) : ℂ) := by simp [planeWave]
    rw [this, Complex.ofReal_re]
  have h1 : (valueAt [2, 1] (expand b data) [1, 0]).re = -(1 / Real.sqrt 2) := by
    show (expand b data 1).re = _
    rw [hexp 1 (by decide)]
    unfold planeWave
    rw [show 2 * (Real.pi : ℂ) * Complex.I * ((1 : ℤ) : ℂ) * ((1 : ℕ) : ℂ) / ((2 : ℕ) : ℂ) = Real.pi * Complex.I by push_cast; ring, Complex.exp_pi_mul_I,
      show (-1 : ℂ) / ((Real.sqrt ((2 : ℕ) : ℝ) : ℝ) : ℂ) = ((-(1 / Real.sqrt 2) : ℝ) : ℂ) by push_cast; ring, Complex.ofReal_re]
  have hval' : v = 1 / Real.sqrt 2 := hval.trans h0
  rw [h1, hval']
  have : 0 < 1 / Real.sqrt 2 := by positivity
  linarith

/-- A path of two points in two of the three directions of a grid of 4 × 3 × 2 points, completed in the last direction. -/
example : (2 : ℕ) < [4, 3, 2].length ∧ ((-1 : ℤ) = (2 : ℕ) ∨ (-1 : ℤ) = ((2 : ℕ) : ℤ) - [4, 3, 2].length) ∧
    ∀ p ∈ [[0, 0], [1, -1]], p.length + 1 = [4, 3, 2].length := by decide

end Verif
