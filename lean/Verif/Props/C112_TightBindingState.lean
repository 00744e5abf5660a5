import Verif.Model.TightBinding
import Verif.Props.C48_Bloch
import Verif.Props.C53_TightBinding
import Verif.Props.C111_BlochOperator

/-!
# C112: Tight binding states
-/

set_option autoImplicit false

namespace Verif

open Finset Spec

theorem argmaxReal_spec (f : ℕ → ℝ) (m : ℕ) : argmaxReal f m ≤ m ∧ ∀ x ≤ m, f x ≤ f (argmaxReal f m) := by
  induction m with
  | zero => exact ⟨le_refl _, fun x hx => by rw [Nat.le_zero.1 hx]; exact le_refl _⟩
  | succ m ih =>
    unfold argmaxReal
    split_ifs with h
    · refine ⟨le_refl _, fun x hx => ?_⟩
      rcases Nat.lt_or_ge m x with h' | h'
      · rw [show x = m + 1 by omega]
      · exact (ih.2 x h').trans h.le
    · refine ⟨ih.1.trans (Nat.le_succ m), fun x hx => ?_⟩
      rcases Nat.lt_or_ge m x with h' | h'
      · rw [show x = m + 1 by omega]; exact not_lt.1 h
      · exact ih.2 x h'

theorem sampled_list (axes : List (ℕ × ℕ)) (os : List ℤ) (hl : os.length = axes.length) (hpos : ∀ n ∈ sampleShape axes, 0 < n) :
    (sampledBasis axes os).fundamentalShape = unfurledShape axes ∧ Valid (sampledBasis axes os) ∧ OrthonormalParts (sampledBasis axes os) := by
  unfold sampledBasis
  induction axes generalizing os with
  | nil => exact ⟨by simp [Basis.fundamentalShape, Basis.methodsList, unfurledShape], trivial, trivial⟩
  | cons p axes ih =>
    cases os with
    | nil => simp at hl
    | cons o os =>
      obtain ⟨h1, h2, h3⟩ := ih os (by simpa using hl) fun n hn => hpos n (List.mem_cons_of_mem _ hn)
      refine ⟨?_, ⟨hpos p.1 (by simp [sampleShape]), h2⟩, ⟨trivial, h3⟩⟩
      simp only [List.zipWith_cons_cons, Basis.fundamentalShape, Basis.methodsList, List.map_cons, unfurledShape] at h1 ⊢
      rw [h1]
      congr 1
      exact Nat.mul_comm _ _

/-- The state of a sample on the points of the large cell. -/
theorem sample_position (same : Basis → Basis → Bool) (hs : Sound same) (axes : List (ℕ × ℕ)) (b : Basis)
    (hb : Valid b) (ho : OrthonormalParts b) (hshape : b.fundamentalShape = stateShape axes) (data : ℕ → ℂ) (a : ℕ)
    (ha : a < (sampleShape axes).prod) : ∃ s p, getWavepacketStateVector same ⟨fT (sampleShape axes), b, data⟩ a = some s ∧
      s.basis.fundamentalShape = unfurledShape axes ∧ convertStateVector same s s.basis.asPositionBasis = some p ∧
      p.basis = .tuple ((unfurledShape axes).map .fundamental) ∧
      ∀ X < (unfurledShape axes).prod, p.data X = blochCoeff axes b (block (size b) data a) a X := by
  obtain ⟨s, h1, h2⟩ := (C54_wavepacket_state_partial same hs axes b hb ho hshape data a).1 ha
  have hbs : s.basis = sampledBasis axes ((unravel (sampleShape axes) a).map fun i : ℕ => (i : ℤ)) := by
    unfold getWavepacketStateVector at h1
    obtain ⟨ax, e1, e2⟩ := Option.bind_eq_some_iff.1 h1
    obtain ⟨c, e3, e4⟩ := Option.bind_eq_some_iff.1 e2
    have : ax = axes := by
      unfold wavepacketAxes at e1
      split at e1
      · cases e1
        dsimp only
        rw [fundamentalShape_fT, hshape, zip_axes]
      · cases e1
    subst this
    split at e4
    · cases e4; rfl
    · exact absurd ha ‹_›
  have hlen := (inShape_zip _ _ (unravel_inShape _ a ha)).1
  have hpos : ∀ n ∈ sampleShape axes, 0 < n := fun n hn => Nat.pos_of_ne_zero fun h => by
    rw [List.prod_eq_zero (h ▸ hn)] at ha; omega
  obtain ⟨f1, f2, f3⟩ := sampled_list axes ((unravel (sampleShape axes) a).map fun i : ℕ => (i : ℤ)) (by
    rw [List.length_map, ← hlen]; simp [sampleShape]) hpos
  rw [← hbs] at f1 f2 f3
  obtain ⟨f, hf, kf⟩ := convert_position same hs s.basis f2 f3 (unfurledShape axes) (f1 ▸ compatible_asPosition s.basis)
  refine ⟨s, ⟨_, f s.data⟩, h1, f1, by rw [convertStateVector, Basis.asPositionBasis, f1, hf, Option.map_some], rfl, fun X hX => ?_⟩
  dsimp only
  rw [kf _ X hX]
  have := h2 _ (unravel_inShape _ X hX)
  rw [ravel_unravel _ X hX] at this
  rw [this]
  rfl

/-- The tight binding state in terms of the points it keeps. -/
theorem tight_core (same : Basis → Basis → Bool) (hs : Sound same) (axes : List (ℕ × ℕ)) (b : Basis)
    (hb : Valid b) (ho : OrthonormalParts b) (hshape : b.fundamentalShape = stateShape axes) (hfull : b.shape = stateShape axes)
    (h2 : axes.length ≤ 2) (data : ℕ → ℂ) (a : ℕ) (ha : a < (sampleShape axes).prod) (o : List ℤ) (hol : axes.length ≤ o.length) :
    ∃ s, getTightBindingState same ⟨fT (sampleShape axes), b, data⟩ a (some o) = some s ∧ s.basis = .tuple ((unfurledShape axes).map .fundamental) ∧
      ∀ X < (unfurledShape axes).prod, ((∃ q < (sampleShape axes).prod * (stateShape axes).prod,
          tightBindingPoint (stateShape axes) (unfurledShape axes) (sampleShape axes).prod (stateShape axes).prod o q = some X) →
            s.data X = blochCoeff axes b (block (size b) data a) a X) ∧
        (¬(∃ q < (sampleShape axes).prod * (stateShape axes).prod,
          tightBindingPoint (stateShape axes) (unfurledShape axes) (sampleShape axes).prod (stateShape axes).prod o q = some X) → s.data X = 0) := by
  obtain ⟨s, p, e1, e2, e3, e4, e5⟩ := sample_position same hs axes b hb ho hshape data a ha
  have hf1 : (fT (sampleShape axes)).methods.fn = (sampleShape axes).prod := ((methods_sizes _).2).trans (fT_facts _).2.1
  have hf2 : b.methods.fn = (stateShape axes).prod := by rw [(methods_sizes _).2, ← fundamentalShape_prod, hshape]
  have hlen : (stateShape axes).length = axes.length := by simp [stateShape]
  classical
  refine ⟨⟨p.basis, fun X => if ∃ q < (sampleShape axes).prod * (stateShape axes).prod,
    tightBindingPoint (stateShape axes) (unfurledShape axes) (sampleShape axes).prod (stateShape axes).prod o q = some X then p.data X else 0⟩,
    ?_, e4, fun X hX => ⟨fun h => ?_, fun h => ?_⟩⟩
  · unfold getTightBindingState
    rw [e1, Option.bind_some, e3, Option.bind_some]
    dsimp only
    rw [hfull, e2, hf1, hf2, Option.getD_some, hlen, if_pos ⟨h2, hol⟩]
  · dsimp only
    rw [if_pos h]
    exact e5 X hX
  · dsimp only
    rw [if_neg h]

/-- Point `X` of a periodic axis with `N` points is one of the `n` points around `o`. -/
def InCell (N n : ℕ) (o : ℤ) (X : ℕ) : Prop := ∃ z : ℤ, z % N = X ∧ o - n / 2 ≤ z ∧ z < o - n / 2 + n

theorem inCell_iff {N n m : ℕ} (hn : 0 < n) (o : ℤ) (X : ℕ) (hm : n ≤ m) :
    (∃ a < m, wrapIndex (a : ℕ) n o % N = X) ↔ InCell N n o X := by
  have hn' : (0 : ℤ) < n := by exact_mod_cast hn
  constructor
  · rintro ⟨a, -, h⟩
    obtain ⟨-, h2, h3⟩ := C05_wrap_index_window (a : ℤ) n o hn'
    exact ⟨_, h, h2, h3⟩
  · rintro ⟨z, h1, h2, h3⟩
    have hz0 := Int.emod_nonneg z hn'.ne'
    have hz1 := Int.emod_lt_of_pos z hn'
    refine ⟨(z % n).toNat, by omega, ?_⟩
    rw [Int.toNat_of_nonneg hz0, ← C05_wrap_index_unique (z % n) n o z hn' (Int.mod_modEq z n).symm h2 h3, h1]

theorem flat_one {N : ℕ} (hN : 0 < N) (z : ℤ) (X : ℕ) : getFlatIndex .wrap [N] [z] = some X ↔ z % N = X := by
  have h := Int.emod_nonneg z (by exact_mod_cast hN.ne' : (N : ℤ) ≠ 0)
  rw [getFlatIndex_wrap [N] [z] rfl (by simpa using hN)]
  simp [wrapSample, ravel]
  omega

theorem flat_two {N M : ℕ} (hN : 0 < N) (hM : 0 < M) (z y : ℤ) (X Y : ℕ) (hY : Y < M) :
    getFlatIndex .wrap [N, M] [z, y] = some (ravel [N, M] [X, Y]) ↔ z % N = X ∧ y % M = Y := by
  have h := Int.emod_nonneg z (by exact_mod_cast hN.ne' : (N : ℤ) ≠ 0)
  have h' := Int.emod_nonneg y (by exact_mod_cast hM.ne' : (M : ℤ) ≠ 0)
  have h2 := Int.emod_lt_of_pos y (by exact_mod_cast hM : (0 : ℤ) < M)
  rw [getFlatIndex_wrap [N, M] [z, y] rfl (by simp [hN, hM])]
  simp only [wrapSample, ravel, List.zipWith_cons_cons, List.zipWith_nil_left, List.prod_cons, List.prod_nil, mul_one, add_zero, Option.some.injEq]
  constructor
  · intro e
    have e1 : (z % N).toNat = X := by
      have := congrArg (fun t => t / M) e
      beta_reduce at this
      rwa [Nat.mul_comm, Nat.mul_comm X, Nat.mul_add_div hM, Nat.mul_add_div hM, Nat.div_eq_of_lt hY, Nat.div_eq_of_lt (by omega), Nat.add_zero, Nat.add_zero] at this
    rw [e1] at e
    exact ⟨by omega, by omega⟩
  · rintro ⟨e1, e2⟩
    rw [e1, e2]
    rfl

theorem wrap_two (n m : ℕ) (o p : ℤ) (x y : ℤ) : wrapIndexAroundOrigin [n, m] none (some [o, p]) [x, y] = [wrapIndex x n o, wrapIndex y m p] := rfl

theorem unravel_pair {L S a k : ℕ} (ha : a < L) (hk : k < S) : unravel [L, S] (a * S + k) = [a, k] := by
  have := unravel_ravel [L, S] [a, k] ⟨ha, hk, trivial⟩
  simpa [ravel] using this

/-- **C112.** With one axis and at least as many samples as points, the tight binding state is the state of the sample in the unit cell around the origin,
and zero outside of it. -/
theorem C112_one_partial (same : Basis → Basis → Bool) (hs : Sound same) (ns nx : ℕ) (b : Basis)
    (hb : Valid b) (ho : OrthonormalParts b) (hshape : b.fundamentalShape = [nx]) (hfull : b.shape = [nx]) (hnx : 0 < nx) (hle : nx ≤ ns)
    (data : ℕ → ℂ) (a : ℕ) (ha : a < ns) (o : ℤ) :
    ∃ s, getTightBindingState same ⟨fT [ns], b, data⟩ a (some [o]) = some s ∧ s.basis = .tuple [.fundamental (ns * nx)] ∧
      ∀ X < ns * nx, (InCell (ns * nx) nx o X → s.data X = blochWave [(ns, nx)] b (block (size b) data a) [a] [X]) ∧
        (¬InCell (ns * nx) nx o X → s.data X = 0) := by
  have hp1 : (sampleShape [(ns, nx)]).prod = ns := by simp [sampleShape]
  have hp2 : (stateShape [(ns, nx)]).prod = nx := by simp [stateShape]
  have hp3 : (unfurledShape [(ns, nx)]).prod = ns * nx := by simp [unfurledShape]
  obtain ⟨s, h1, h2, h3⟩ := tight_core same hs [(ns, nx)] b hb ho hshape hfull (by simp) data a (by rw [hp1]; exact ha) [o] (by simp)
  rw [hp1, hp2, hp3] at h3
  have hN : 0 < ns * nx := Nat.mul_pos (by omega) hnx
  have key : ∀ X, (∃ q < ns * nx, tightBindingPoint (stateShape [(ns, nx)]) (unfurledShape [(ns, nx)]) ns nx [o] q = some X) ↔ InCell (ns * nx) nx o X := by
    intro X
    rw [← inCell_iff hnx o X hle]
    constructor
    · rintro ⟨q, hq, e⟩
      refine ⟨q / nx % ns, Nat.mod_lt _ (by omega), ?_⟩
      have e' := (flat_one hN _ X).1 (show getFlatIndex .wrap [ns * nx] [wrapIndex ((q / [nx].prod % ns : ℕ) : ℤ) nx o] = some X from e)
      simpa using e'
    · rintro ⟨a, ha, e⟩
      refine ⟨a * nx + 0, by nlinarith, ?_⟩
      unfold tightBindingPoint
      rw [unravel_pair ha hnx]
      exact (flat_one hN _ X).2 e
  refine ⟨s, h1, h2, fun X hX => ⟨fun h => ?_, fun h => (h3 X hX).2 fun q => h ((key X).1 q)⟩⟩
  rw [(h3 X hX).1 ((key X).2 h)]
  unfold blochCoeff
  rw [show unravel (sampleShape [(ns, nx)]) a = [a] by simp [sampleShape, unravel, Nat.mod_eq_of_lt ha],
    show unravel (unfurledShape [(ns, nx)]) X = [X] by simp [unfurledShape, unravel, Nat.mod_eq_of_lt hX]]

/-- **C112.** With two axes and at least as many samples as there are points along the first axis. -/
theorem C112_two_partial (same : Basis → Basis → Bool) (hs : Sound same) (ns ms nx mx : ℕ) (b : Basis)
    (hb : Valid b) (ho : OrthonormalParts b) (hshape : b.fundamentalShape = [nx, mx]) (hfull : b.shape = [nx, mx]) (hnx : 0 < nx) (hmx : 0 < mx)
    (hle : nx ≤ ns * ms) (data : ℕ → ℂ) (a c : ℕ) (ha : a < ns) (hc : c < ms) (o p : ℤ) :
    ∃ s, getTightBindingState same ⟨fT [ns, ms], b, data⟩ (a * ms + c) (some [o, p]) = some s ∧
      s.basis = .tuple [.fundamental (ns * nx), .fundamental (ms * mx)] ∧
      ∀ X < ns * nx, ∀ Y < ms * mx, (InCell (ns * nx) nx o X ∧ InCell (ms * mx) mx p Y →
          s.data (X * (ms * mx) + Y) = blochWave [(ns, nx), (ms, mx)] b (block (size b) data (a * ms + c)) [a, c] [X, Y]) ∧
        (¬(InCell (ns * nx) nx o X ∧ InCell (ms * mx) mx p Y) → s.data (X * (ms * mx) + Y) = 0) := by
  have hp1 : (sampleShape [(ns, nx), (ms, mx)]).prod = ns * ms := by simp [sampleShape]
  have hp2 : (stateShape [(ns, nx), (ms, mx)]).prod = nx * mx := by simp [stateShape]
  have hp3 : (unfurledShape [(ns, nx), (ms, mx)]).prod = ns * nx * (ms * mx) := by simp [unfurledShape]
  have hlt : a * ms + c < ns * ms := by nlinarith
  obtain ⟨s, h1, h2, h3⟩ := tight_core same hs [(ns, nx), (ms, mx)] b hb ho hshape hfull (by simp) data (a * ms + c) (by rw [hp1]; exact hlt) [o, p] (by simp)
  rw [hp1, hp2, hp3] at h3
  have hN : 0 < ns * nx := Nat.mul_pos (by omega) hnx
  have hM : 0 < ms * mx := Nat.mul_pos (by omega) hmx
  have hS : 0 < nx * mx := Nat.mul_pos hnx hmx
  have key : ∀ X, ∀ Y < ms * mx, (∃ q < ns * ms * (nx * mx), tightBindingPoint (stateShape [(ns, nx), (ms, mx)]) (unfurledShape [(ns, nx), (ms, mx)])
      (ns * ms) (nx * mx) [o, p] q = some (X * (ms * mx) + Y)) ↔ InCell (ns * nx) nx o X ∧ InCell (ms * mx) mx p Y := by
    intro X Y hY
    have hr : X * (ms * mx) + Y = ravel [ns * nx, ms * mx] [X, Y] := by simp [ravel]
    rw [← inCell_iff hnx o X hle, ← inCell_iff hmx p Y (Nat.le_mul_of_pos_left mx hnx), hr]
    constructor
    · rintro ⟨q, hq, e⟩
      have e' := (flat_two hN hM _ _ X Y hY).1 (show getFlatIndex .wrap [ns * nx, ms * mx]
        [wrapIndex ((q / [nx * mx].prod % (ns * ms) : ℕ) : ℤ) nx o, wrapIndex ((q / ([] : List ℕ).prod % (nx * mx) : ℕ) : ℤ) mx p] = some _ from e)
      exact ⟨⟨_, Nat.mod_lt _ (by omega), e'.1⟩, ⟨_, Nat.mod_lt _ hS, e'.2⟩⟩
    · rintro ⟨⟨a, ha, e⟩, ⟨k, hk, e'⟩⟩
      refine ⟨a * (nx * mx) + k, by nlinarith, ?_⟩
      unfold tightBindingPoint
      rw [unravel_pair ha hk]
      exact (flat_two hN hM _ _ X Y hY).2 ⟨e, e'⟩
  refine ⟨s, h1, h2, fun X hX Y hY => ?_⟩
  have hXY : X * (ms * mx) + Y < ns * nx * (ms * mx) := by nlinarith
  refine ⟨fun h => ?_, fun h => (h3 _ hXY).2 fun q => h ((key X Y hY).1 q)⟩
  rw [(h3 _ hXY).1 ((key X Y hY).2 h)]
  unfold blochCoeff
  rw [show sampleShape [(ns, nx), (ms, mx)] = [ns, ms] from rfl, unravel_pair ha hc, show unfurledShape [(ns, nx), (ms, mx)] = [ns * nx, ms * mx] from rfl,
    unravel_pair hX hY]

/-- **C112, negation.** With one axis and fewer samples than points, for every state and every origin a point of the unit cell is lost: the result is zero there,
whatever the state is. -/
theorem C112_one_negation (same : Basis → Basis → Bool) (hs : Sound same) (ns nx : ℕ) (b : Basis)
    (hb : Valid b) (ho : OrthonormalParts b) (hshape : b.fundamentalShape = [nx]) (hfull : b.shape = [nx]) (hlt : ns < nx)
    (data : ℕ → ℂ) (a : ℕ) (ha : a < ns) (o : ℤ) :
    ∃ s, getTightBindingState same ⟨fT [ns], b, data⟩ a (some [o]) = some s ∧ ∃ X < ns * nx, InCell (ns * nx) nx o X ∧ s.data X = 0 := by
  have hp1 : (sampleShape [(ns, nx)]).prod = ns := by simp [sampleShape]
  have hp2 : (stateShape [(ns, nx)]).prod = nx := by simp [stateShape]
  have hp3 : (unfurledShape [(ns, nx)]).prod = ns * nx := by simp [unfurledShape]
  obtain ⟨s, h1, h2, h3⟩ := tight_core same hs [(ns, nx)] b hb ho hshape hfull (by simp) data a (by rw [hp1]; exact ha) [o] (by simp)
  rw [hp1, hp2, hp3] at h3
  have hnx : 0 < nx := by omega
  have hN : 0 < ns * nx := Nat.mul_pos (by omega) hnx
  have hN' : (0 : ℤ) < ((ns * nx : ℕ) : ℤ) := by exact_mod_cast hN
  have hnx' : (0 : ℤ) < nx := by exact_mod_cast hnx
  have hz0 := Int.emod_nonneg (wrapIndex ns nx o) hN'.ne'
  have hz1 := Int.emod_lt_of_pos (wrapIndex ns nx o) hN'
  refine ⟨s, h1, (wrapIndex ns nx o % ((ns * nx : ℕ) : ℤ)).toNat, by omega, ?_, ?_⟩
  · obtain ⟨-, w2, w3⟩ := C05_wrap_index_window (ns : ℤ) nx o hnx'
    exact ⟨_, by rw [Int.toNat_of_nonneg hz0], w2, w3⟩
  · refine (h3 _ (by omega)).2 ?_
    rintro ⟨q, hq, e⟩
    have e' := (flat_one hN _ _).1 (show getFlatIndex .wrap [ns * nx] [wrapIndex ((q / [nx].prod % ns : ℕ) : ℤ) nx o] = some _ from e)
    rw [Int.toNat_of_nonneg hz0] at e'
    have hd : (nx : ℤ) ∣ ((ns * nx : ℕ) : ℤ) := ⟨ns, by push_cast; ring⟩
    have m1 : wrapIndex ((q / [nx].prod % ns : ℕ) : ℤ) nx o ≡ wrapIndex ns nx o [ZMOD nx] := Int.ModEq.of_dvd hd e'
    have m2 := ((C05_wrap_index_window ((q / [nx].prod % ns : ℕ) : ℤ) nx o hnx').1.symm.trans m1).trans (C05_wrap_index_window (ns : ℤ) nx o hnx').1
    have l1 : q / [nx].prod % ns < ns := Nat.mod_lt _ (by omega)
    generalize q / [nx].prod % ns = t at *
    have m3 : t % nx = ns % nx := by exact_mod_cast m2
    rw [Nat.mod_eq_of_lt (by omega), Nat.mod_eq_of_lt hlt] at m3
    omega

/-- **C112, negation.** With three or more axes the function always raises. -/
theorem C112_many_axes_negation (same : Basis → Basis → Bool) (w : StateVectorList) (idx : ℕ) (origin : Option (List ℤ)) (h : 3 ≤ w.basis.shape.length) :
    getTightBindingState same w idx origin = none := by
  unfold getTightBindingState
  cases getWavepacketStateVector same w idx with
  | none => rfl
  | some s =>
    rw [Option.bind_some]
    cases convertStateVector same s s.basis.asPositionBasis with
    | none => rfl
    | some p =>
      rw [Option.bind_some]
      exact if_neg fun q => by have := q.1; omega

/-- Cases which meet the hypotheses: the points around the origin `-1` of three points in a cell of twelve. -/
example : InCell 12 3 (-1) 11 ∧ InCell 12 3 (-1) 0 ∧ ¬InCell 12 3 (-1) 1 := by
  refine ⟨⟨-1, by decide, by decide, by decide⟩, ⟨0, by decide, by decide, by decide⟩, ?_⟩
  rintro ⟨z, h1, h2, h3⟩
  norm_num at h2 h3
  omega

/-- The modulus of a Bloch state has the period of the unit cell. -/
theorem bloch_norm_periodic (ns nx : ℕ) (b : Basis) (v : ℕ → ℂ) (a X Y : ℕ) (h : X % nx = Y % nx) :
    ‖blochWave [(ns, nx)] b v [a] [X]‖ = ‖blochWave [(ns, nx)] b v [a] [Y]‖ := by
  have hp : ∀ Z : ℕ, ‖blochPhase [(ns, nx)] [a] [Z]‖ = 1 := by
    intro Z
    have : blochPhase [(ns, nx)] [a] [Z] = Complex.exp (((2 * Real.pi * (freq ns a : ℝ) * Z / ((ns * nx : ℕ) : ℝ) : ℝ) : ℂ) * Complex.I) := by
      simp only [blochPhase, mul_one]
      congr 1
      push_cast
      ring
    rw [this, Complex.norm_exp_ofReal_mul_I]
  unfold blochWave
  rw [norm_div, norm_div, norm_mul, norm_mul, hp, hp]
  simp only [reduce, h]

/-- **C112.** Without an origin the unit cell is around a point where the modulus of the state is largest: a largest value of the whole state is kept. -/
theorem C112_default_origin_partial (same : Basis → Basis → Bool) (hs : Sound same) (ns nx : ℕ) (b : Basis)
    (hb : Valid b) (ho : OrthonormalParts b) (hshape : b.fundamentalShape = [nx]) (hfull : b.shape = [nx]) (hnx : 0 < nx) (hle : nx ≤ ns)
    (data : ℕ → ℂ) (a : ℕ) (ha : a < ns) :
    ∃ (o : ℤ) (s : StateVector), getTightBindingState same ⟨fT [ns], b, data⟩ a none = some s ∧ -((nx / 2 : ℕ) : ℤ) ≤ o ∧ o < -((nx / 2 : ℕ) : ℤ) + nx ∧
      (∀ X < ns * nx, (InCell (ns * nx) nx o X → s.data X = blochWave [(ns, nx)] b (block (size b) data a) [a] [X]) ∧
        (¬InCell (ns * nx) nx o X → s.data X = 0)) ∧
      ∃ M < ns * nx, (M : ℤ) = o % (ns * nx : ℕ) ∧ ∀ Y < ns * nx, ‖blochWave [(ns, nx)] b (block (size b) data a) [a] [Y]‖ ≤ ‖s.data M‖ := by
  have hp1 : (sampleShape [(ns, nx)]).prod = ns := by simp [sampleShape]
  have hp3 : (unfurledShape [(ns, nx)]).prod = ns * nx := by simp [unfurledShape]
  have hN : 0 < ns * nx := Nat.mul_pos (by omega) hnx
  have hN' : (0 : ℤ) < ((ns * nx : ℕ) : ℤ) := by exact_mod_cast hN
  have hnx' : (0 : ℤ) < nx := by exact_mod_cast hnx
  obtain ⟨s, p, e1, e2, e3, e4, e5⟩ := sample_position same hs [(ns, nx)] b hb ho hshape data a (by rw [hp1]; exact ha)
  rw [hp3] at e5
  have hcoeff : ∀ X < ns * nx, p.data X = blochWave [(ns, nx)] b (block (size b) data a) [a] [X] := by
    intro X hX
    rw [e5 X hX]
    unfold blochCoeff
    rw [show unravel (sampleShape [(ns, nx)]) a = [a] by simp [sampleShape, unravel, Nat.mod_eq_of_lt ha],
      show unravel (unfurledShape [(ns, nx)]) X = [X] by simp [unfurledShape, unravel, Nat.mod_eq_of_lt hX]]
  obtain ⟨m1, m2⟩ := argmaxReal_spec (fun X => ‖p.data X‖) (ns * nx - 1)
  generalize hm : argmaxReal (fun X => ‖p.data X‖) (ns * nx - 1) = m at m1 m2
  have hmN : m < ns * nx := by omega
  have hun : unravel (unfurledShape [(ns, nx)]) m = [m] := by simp [unfurledShape, unravel, Nat.mod_eq_of_lt hmN]
  have hdef : getTightBindingState same ⟨fT [ns], b, data⟩ a none = getTightBindingState same ⟨fT [ns], b, data⟩ a (some [wrapIndex m nx 0]) := by
    have e1' : getWavepacketStateVector same ⟨fT [ns], b, data⟩ a = some s := e1
    unfold getTightBindingState
    rw [e1', Option.bind_some, e3, Option.bind_some, Option.bind_some, e3, Option.bind_some]
    dsimp only
    rw [e2, hp3, hm, hun, hfull]
    rfl
  obtain ⟨s', h1, -, h3⟩ := C112_one_partial same hs ns nx b hb ho hshape hfull hnx hle data a ha (wrapIndex m nx 0)
  obtain ⟨w1, w2, w3⟩ := C05_wrap_index_window (m : ℤ) nx 0 hnx'
  have hz0 := Int.emod_nonneg (wrapIndex m nx 0) hN'.ne'
  have hz1 := Int.emod_lt_of_pos (wrapIndex m nx 0) hN'
  refine ⟨wrapIndex m nx 0, s', hdef.trans h1, by push_cast; omega, by push_cast; omega, h3, (wrapIndex m nx 0 % ((ns * nx : ℕ) : ℤ)).toNat, by omega,
    Int.toNat_of_nonneg hz0, fun Y hY => ?_⟩
  have hcell : InCell (ns * nx) nx (wrapIndex m nx 0) (wrapIndex m nx 0 % ((ns * nx : ℕ) : ℤ)).toNat :=
    ⟨_, by rw [Int.toNat_of_nonneg hz0], by omega, by omega⟩
  rw [(h3 _ (by omega)).1 hcell, bloch_norm_periodic ns nx b _ a (wrapIndex m nx 0 % ((ns * nx : ℕ) : ℤ)).toNat m ?_, ← hcoeff Y hY, ← hcoeff m hmN]
  · exact m2 Y (by omega)
  · have hd : (nx : ℤ) ∣ ((ns * nx : ℕ) : ℤ) := ⟨ns, by push_cast; ring⟩
    have q1 : ((wrapIndex m nx 0 % ((ns * nx : ℕ) : ℤ)).toNat : ℤ) % nx = (m : ℤ) % nx := by
      rw [Int.toNat_of_nonneg hz0, Int.emod_emod_of_dvd _ hd]
      exact w1
    exact_mod_cast q1

/-- A function of each wavepacket of a list, collected in a list of states. -/
theorem collect_bands (F : StateVectorList → Option StateVector) (w : WavepacketList) (f : ℕ → StateVector) (B : Basis)
    (h0 : 0 < size w.band) (h : ∀ c < size w.band, F ⟨w.list, w.basis, fun k => w.data (c * (size w.list * size w.basis) + k)⟩ = some (f c) ∧ (f c).basis = B) :
    ∃ r, (((wavepacketListIntoIter w).mapM F).bind fun l => (asStateVectorList l).map fun r => (⟨w.band, r.basis, r.data⟩ : StateVectorList)) = some r ∧
      r.listBasis = w.band ∧ r.basis = B ∧ ∀ c < size w.band, ∀ X < size B, r.data (c * size B + X) = (f c).data X := by
  have hrow : w.row = size w.list * size w.basis := by unfold WavepacketList.row; rw [Basis.n_eq, Basis.n_eq]
  have hm : ((List.range (size w.band)).map fun b => (⟨w.list, w.basis, block w.row w.data b⟩ : StateVectorList)).mapM F =
      some ((List.range (size w.band)).map f) := by
    have : ∀ L : List ℕ, (∀ c ∈ L, c < size w.band) → (L.map fun b => (⟨w.list, w.basis, block w.row w.data b⟩ : StateVectorList)).mapM F = some (L.map f) := by
      intro L hL
      induction L with
      | nil => rfl
      | cons c L ih =>
        rw [List.map_cons, List.mapM_cons, ih fun d hd => hL d (List.mem_cons_of_mem _ hd)]
        have := (h c (hL c (by simp))).1
        rw [← hrow] at this
        rw [show F ⟨w.list, w.basis, block w.row w.data c⟩ = some (f c) from this]
        rfl
    exact this _ fun c hc => List.mem_range.1 hc
  obtain ⟨n, hn⟩ : ∃ n, size w.band = n + 1 := ⟨size w.band - 1, by omega⟩
  unfold wavepacketListIntoIter
  rw [Basis.n_eq, hm, Option.bind_some, hn, List.range_succ_eq_map, List.map_cons]
  unfold asStateVectorList
  dsimp only
  rw [if_pos ?_]
  · refine ⟨_, rfl, rfl, (h 0 h0).2, fun c hc X hX => ?_⟩
    dsimp only
    rw [Basis.n_eq, (h 0 h0).2, flatten_entry _ _ hX]
    congr 1
    cases c with
    | zero => rfl
    | succ c => simp [List.getD_eq_getElem?_getD, Nat.lt_of_succ_lt_succ hc]
  · intro t ht
    simp only [List.map_map, List.mem_map, List.mem_range, Function.comp] at ht
    obtain ⟨c, hc, rfl⟩ := ht
    rw [(h (c + 1) (by omega)).2, (h 0 h0).2]

/-- **C112.** The states of all bands: row `c` is the tight binding state of band `c`. -/
theorem C112_bands (same : Basis → Basis → Bool) (w : WavepacketList) (idx : ℕ) (origin : Option (List ℤ)) (f : ℕ → StateVector) (B : Basis)
    (h0 : 0 < size w.band) (h : ∀ c < size w.band, getTightBindingState same ⟨w.list, w.basis, fun k => w.data (c * (size w.list * size w.basis) + k)⟩ idx origin = some (f c) ∧ (f c).basis = B) :
    ∃ r, getTightBindingStates same w idx origin = some r ∧ r.listBasis = w.band ∧ r.basis = B ∧
      ∀ c < size w.band, ∀ X < size B, r.data (c * size B + X) = (f c).data X :=
  collect_bands (fun s => getTightBindingState same s idx origin) w f B h0 h

/-- Bases which meet the hypotheses: two points and three samples with one axis, and (2, 2) points and (1, 2) samples with two. -/
example : (2 : ℕ) ≤ 3 ∧ Valid (.tuple [.fundamental 2]) ∧ OrthonormalParts (.tuple [.fundamental 2]) ∧ (Basis.tuple [.fundamental 2]).fundamentalShape = [2] ∧
    (Basis.tuple [.fundamental 2]).shape = [2] ∧ (2 : ℕ) ≤ 1 * 2 ∧ Valid (.tuple [.fundamental 2, .fundamental 2]) ∧
    (Basis.tuple [.fundamental 2, .fundamental 2]).fundamentalShape = [2, 2] ∧ (Basis.tuple [.fundamental 2, .fundamental 2]).shape = [2, 2] :=
  ⟨by decide, ⟨trivial, trivial⟩, ⟨trivial, trivial⟩, rfl, rfl, by decide, ⟨trivial, trivial, trivial⟩, rfl, rfl⟩

end Verif
