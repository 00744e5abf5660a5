import Verif.Model.InitialStates
import Verif.Props.C30_Averages
import Verif.Props.C48_Bloch
import Verif.Props.C107_Generate
import Verif.Props.C57_KernelFftStacked
import Verif.Props.C112_TightBindingState

/-!
# C113, C114, C115: States used as a first guess for localized states
-/

set_option autoImplicit false

namespace Verif

open Finset Spec

/-! ## C113: states at single points -/

/-- **C113.** The state at an index is that state of the basis, negative indices count from the end, other indices raise. -/
theorem C113_exact (basis : Basis) (idx : ℤ) :
    (-(size basis : ℤ) ≤ idx ∧ idx < size basis → ∃ s, singlePointState basis idx = some s ∧ s.basis = basis ∧
      ∃ j < size basis, ((j : ℤ) = idx ∨ (j : ℤ) = idx + size basis) ∧ (∀ x, expand basis s.data x = state basis j x) ∧
        dot (size basis) s.data s.data = 1) ∧
    (¬(-(size basis : ℤ) ≤ idx ∧ idx < size basis) → singlePointState basis idx = none) := by
  unfold singlePointState
  rw [Basis.n_eq]
  refine ⟨fun h => ?_, fun h => if_neg h⟩
  have h0 : (0 : ℤ) < size basis := by omega
  have h1 := Int.emod_nonneg idx h0.ne'
  have h2 := Int.emod_lt_of_pos idx h0
  obtain ⟨j, hj⟩ : ∃ j : ℕ, (j : ℤ) = idx % size basis := ⟨(idx % size basis).toNat, Int.toNat_of_nonneg h1⟩
  have hjn : j < size basis := by omega
  rw [if_pos h]
  refine ⟨_, rfl, rfl, j, hjn, ?_, fun x => ?_, ?_⟩
  · rcases lt_or_ge idx 0 with hneg | hpos
    · right
      rw [hj, ← Int.add_emod_right, Int.emod_eq_of_lt (by omega) (by omega)]
    · left
      rw [hj, Int.emod_eq_of_lt hpos h.2]
  · unfold expand
    dsimp only
    rw [sum_eq_single j]
    · rw [if_pos hj, one_mul]
    · intro k _ hk
      rw [if_neg (by omega), zero_mul]
    · intro hk
      exact absurd (mem_range.2 hjn) hk
  · unfold dot
    dsimp only
    rw [sum_eq_single j]
    · rw [if_pos hj]; simp
    · intro k _ hk
      rw [if_neg (by omega)]; simp
    · intro hk
      exact absurd (mem_range.2 hjn) hk

example : ∃ s, singlePointState (.fundamental 3) (-1) = some s ∧ s.data 2 = 1 := by
  obtain ⟨s, h1, -, j, hj, h2, h3, -⟩ := (C113_exact (.fundamental 3) (-1)).1 ⟨by decide, by decide⟩
  refine ⟨s, h1, ?_⟩
  have e : j = 2 := by
    rcases h2 with h | h
    · omega
    · have : ((size (.fundamental 3) : ℕ) : ℤ) = 3 := rfl
      omega
  have := h3 2
  rw [e] at this
  simpa [expand, size, state, Finset.sum_range_succ] using this

theorem ceil_le_iff {S n : ℕ} (hn : 0 < n) : ¬n < (S + n - 1) / n ↔ S ≤ n * n := by
  rw [not_lt, Nat.div_le_iff_le_mul_add_pred hn]
  omega

/-- **C113.** If the number of states of the basis is in the range given, one state is returned for every band, each of them nonzero at one point,
with different points for different bands. -/
theorem C113_points_partial (S : ℕ) (unfurled : List ℕ) (n : ℕ) (hle : S ≤ n * n) (hlt : (n - 1) * n < S) (hS : S ≤ unfurled.prod) :
    ∃ s, singlePointStates S unfurled n = some s ∧ s.listBasis = .fundamental n ∧ s.basis = .tuple (unfurled.map .fundamental) ∧
      ∃ f : ℕ → ℕ, (∀ i < n, f i < unfurled.prod) ∧ (∀ i < n, ∀ j < n, f i = f j → i = j) ∧
        ∀ i < n, ∀ x < unfurled.prod, s.data (i * unfurled.prod + x) = if x = f i then 1 else 0 := by
  have hn : 0 < n := Nat.pos_of_ne_zero fun h => by subst h; omega
  have hb : ∀ i < n, i * n < S := fun i hi => lt_of_le_of_lt (Nat.mul_le_mul_right n (by omega : i ≤ n - 1)) hlt
  unfold singlePointStates
  rw [if_neg hn.ne', if_neg ((ceil_le_iff hn).2 hle)]
  refine ⟨_, rfl, rfl, rfl, fun i => i * n, fun i hi => (hb i hi).trans_le hS, fun i _ j _ h => Nat.eq_of_mul_eq_mul_right hn h, fun i hi x hx => ?_⟩
  dsimp only
  rw [flatten_entry _ _ hx]
  simp [hb i hi]

example : 4 ≤ 2 * 2 ∧ (2 - 1) * 2 < 4 ∧ 4 ≤ [3, 4].prod := by decide

/-- **C113, negation.** With fewer bands than the square root of the number of states the function raises. -/
theorem C113_points_raise_negation (S : ℕ) (unfurled : List ℕ) (n : ℕ) (h : n * n < S) : singlePointStates S unfurled n = none := by
  unfold singlePointStates
  rcases Nat.eq_zero_or_pos n with h0 | h0
  · rw [if_pos h0]
  · rw [if_neg h0.ne', if_pos (not_not.1 fun q => by have := (ceil_le_iff h0).1 q; omega)]

/-- **C113, negation.** With many bands the state of the last band is zero. -/
theorem C113_points_zero_negation (S : ℕ) (unfurled : List ℕ) (n : ℕ) (h0 : 0 < n) (h : S ≤ (n - 1) * n) :
    ∃ s, singlePointStates S unfurled n = some s ∧ ∀ x < unfurled.prod, s.data ((n - 1) * unfurled.prod + x) = 0 := by
  unfold singlePointStates
  rw [if_neg h0.ne', if_neg ((ceil_le_iff h0).2 (h.trans (Nat.mul_le_mul_right n (by omega))))]
  refine ⟨_, rfl, fun x hx => ?_⟩
  dsimp only
  rw [flatten_entry _ _ hx, if_neg]
  omega

example : 2 * 2 < 5 ∧ 5 ≤ (3 - 1) * 3 := by decide

/-! ## C114: the most localized free states -/

theorem phaseFactor_cons (a b : ℝ) (as bs : List ℝ) :
    phaseFactor (a :: as) (b :: bs) = Complex.exp (-2 * Complex.I * Real.pi * ((a * b : ℝ) : ℂ)) * phaseFactor as bs := by
  unfold phaseFactor
  rw [← Complex.exp_add]
  congr 1
  simp only [List.zipWith_cons_cons, List.sum_cons]
  push_cast
  ring

theorem phaseFactor_norm (as bs : List ℝ) : ‖phaseFactor as bs‖ = 1 := by
  have : phaseFactor as bs = Complex.exp (((-2 * Real.pi * (List.zipWith (· * ·) as bs).sum : ℝ) : ℂ) * Complex.I) := by
    unfold phaseFactor
    congr 1
    push_cast
    ring
  rw [this, Complex.norm_exp_ofReal_mul_I]

theorem phaseFactor_axis {n : ℕ} (m : ℤ) (p : ℕ) : Complex.exp (-2 * Complex.I * Real.pi * ((m * ((p : ℝ) / n) : ℝ) : ℂ)) = phase n (-(m * p)) := by
  unfold phase
  congr 1
  push_cast
  ring

/-- The phase of momentum `ps` in the state of band `ms`. -/
noncomputable def freePhase : List (ℕ × ℕ) → List ℕ → List ℕ → List ℕ → ℂ
  | (ns, _) :: axes, s :: shape, m :: ms, p :: ps => phase (ns * s) (-(freq s m * p)) * freePhase axes shape ms ps
  | _, _, _, _ => 1

theorem phaseFactor_eq : ∀ (axes : List (ℕ × ℕ)) (shape ms ps : List ℕ), axes.length = shape.length → InShape shape ms → InShape (freeSamples axes shape) ps →
    phaseFactor (List.zipWith (fun s i => (nkPoints s i : ℝ)) shape ms) (fractionsOf ps (freeSamples axes shape)) = freePhase axes shape ms ps
  | [], [], [], [], _, _, _ => by simp [phaseFactor, freePhase]
  | (ns, nx) :: axes, s :: shape, m :: ms, p :: ps, hl, hm, hp => by
    have ih := phaseFactor_eq axes shape ms ps (by simpa using hl) hm.2 hp.2
    unfold fractionsOf freeSamples at ih ⊢
    simp only [List.zipWith_cons_cons]
    rw [phaseFactor_cons, ih, freePhase, nkPoints_eq_freq hm.1]
    congr 1
    exact phaseFactor_axis _ _
  | [], [], [], _ :: _, _, _, h => by simp [freeSamples, InShape] at h
  | [], [], _ :: _, _, _, h, _ => by simp [InShape] at h
  | _ :: _, _ :: _, [], _, _, h, _ => by simp [InShape] at h
  | _ :: _, _ :: _, _ :: _, [], _, _, h => by simp [freeSamples, InShape] at h
  | [], _ :: _, _, _, h, _, _ => by simp at h
  | _ :: _, [], _, _, h, _, _ => by simp at h

theorem sizes_free : ∀ (axes : List (ℕ × ℕ)) (shape : List ℕ),
    sizes (List.zipWith (fun (a : ℕ × ℕ) s => Basis.transformed (a.1 * s) (a.1 * a.2)) axes shape) = (freeSamples axes shape).prod
  | [], _ => by simp [sizes, freeSamples]
  | _ :: _, [] => by simp [sizes, freeSamples]
  | a :: axes, s :: shape => by
    have := sizes_free axes shape
    simp only [List.zipWith_cons_cons, sizes, size, freeSamples, List.prod_cons] at this ⊢
    rw [this]

theorem pointss_free : ∀ (axes : List (ℕ × ℕ)) (shape : List ℕ), axes.length = shape.length →
    pointss (List.zipWith (fun (a : ℕ × ℕ) s => Basis.transformed (a.1 * s) (a.1 * a.2)) axes shape) = (unfurledShape axes).prod
  | [], [], _ => by simp [pointss, unfurledShape]
  | a :: axes, s :: shape, h => by
    have := pointss_free axes shape (by simpa using h)
    simp only [List.zipWith_cons_cons, pointss, points, unfurledShape, List.map_cons, List.prod_cons] at this ⊢
    rw [this]
  | [], _ :: _, h => by simp at h
  | _ :: _, [], h => by simp at h

/-- `X` is the point `Y` moved by `m / s` of the unit cell along each axis. -/
def Shifted : List (ℕ × ℕ) → List ℕ → List ℕ → List ℕ → List ℕ → Prop
  | [], [], [], [], [] => True
  | (ns, nx) :: axes, s :: shape, m :: ms, x :: xs, y :: ys =>
    ((ns * nx : ℕ) : ℤ) ∣ (x : ℤ) - (y + freq s m * (nx / s : ℕ)) ∧ Shifted axes shape ms xs ys
  | _, _, _, _, _ => False

/-- The product of the phase and the plane wave. -/
noncomputable def freeTerm : List (ℕ × ℕ) → List ℕ → List ℕ → List ℕ → List ℕ → ℂ
  | (ns, nx) :: axes, s :: shape, m :: ms, p :: ps, x :: xs =>
    phase (ns * s) (-(freq s m * p)) * planeWave (ns * nx) (freq (ns * s) p) x * freeTerm axes shape ms ps xs
  | _, _, _, _, _ => 1

theorem freeTerm_eq : ∀ (axes : List (ℕ × ℕ)) (shape ms ps xs : List ℕ), axes.length = shape.length → InShape shape ms → InShape (freeSamples axes shape) ps →
    InShape (unfurledShape axes) xs →
    freePhase axes shape ms ps * states (List.zipWith (fun (a : ℕ × ℕ) s => Basis.transformed (a.1 * s) (a.1 * a.2)) axes shape)
      (ravel (freeSamples axes shape) ps) (ravel (unfurledShape axes) xs) = freeTerm axes shape ms ps xs
  | [], [], [], [], [], _, _, _, _ => by simp [freePhase, freeTerm, states]
  | (ns, nx) :: axes, s :: shape, m :: ms, p :: ps, x :: xs, hl, hm, hp, hx => by
    have hl' : axes.length = shape.length := by simpa using hl
    have ih := freeTerm_eq axes shape ms ps xs hl' hm.2 hp.2 hx.2
    have h1 := ravel_lt _ _ hp.2
    have h2 := ravel_lt _ _ hx.2
    have h1' : ravel (freeSamples axes shape) ps < (freeSamples axes shape).prod := h1
    have h2' : ravel (unfurledShape axes) xs < (unfurledShape axes).prod := h2
    simp only [List.zipWith_cons_cons, states, sizes_free, pointss_free axes shape hl']
    have e1 : ravel (freeSamples ((ns, nx) :: axes) (s :: shape)) (p :: ps) = p * (freeSamples axes shape).prod + ravel (freeSamples axes shape) ps := rfl
    have e2 : ravel (unfurledShape ((ns, nx) :: axes)) (x :: xs) = x * (unfurledShape axes).prod + ravel (unfurledShape axes) xs := rfl
    rw [e1, e2, Nat.mul_comm p, Nat.mul_comm x, Nat.mul_add_div (by omega), Nat.mul_add_div (by omega), Nat.div_eq_of_lt h1', Nat.div_eq_of_lt h2',
      Nat.mul_add_mod, Nat.mul_add_mod, Nat.mod_eq_of_lt h1', Nat.mod_eq_of_lt h2', freeTerm, freePhase, ← ih, add_zero, add_zero]
    simp only [state]
    ring
  | [], [], [], [], _ :: _, _, _, _, h => by simp [unfurledShape, InShape] at h
  | _ :: _, _ :: _, _ :: _, _ :: _, [], _, _, _, h => by simp [unfurledShape, InShape] at h
  | [], [], [], _ :: _, _, _, _, h, _ => by simp [freeSamples, InShape] at h
  | [], [], _ :: _, _, _, _, h, _, _ => by simp [InShape] at h
  | _ :: _, _ :: _, [], _, _, _, h, _, _ => by simp [InShape] at h
  | _ :: _, _ :: _, _ :: _, [], _, _, _, h, _ => by simp [freeSamples, InShape] at h
  | [], _ :: _, _, _, _, h, _, _, _ => by simp at h
  | _ :: _, [], _, _, _, h, _, _, _ => by simp at h

/-- Moving the point is the same as changing the band. -/
theorem freeTerm_shift : ∀ (axes : List (ℕ × ℕ)) (shape ms ps xs ys : List ℕ), InShape (freeSamples axes shape) ps →
    (∀ q ∈ axes.zip shape, q.2 ∣ q.1.2 ∧ 0 < q.1.1 * q.1.2) → Shifted axes shape ms xs ys →
    freeTerm axes shape ms ps xs = freeTerm axes shape (shape.map fun _ => 0) ps ys
  | [], [], [], _, [], [], _, _, _ => by simp [freeTerm]
  | (ns, nx) :: axes, s :: shape, m :: ms, p :: ps, x :: xs, y :: ys, hp, hd, h => by
    have ih := freeTerm_shift axes shape ms ps xs ys hp.2 (fun q hq => hd q (List.mem_cons_of_mem _ hq)) h.2
    obtain ⟨⟨r, hr⟩, h0⟩ := hd ((ns, nx), s) (by simp)
    dsimp only at hr h0
    subst hr
    have hs : 0 < s := Nat.pos_of_ne_zero fun q => by subst q; simp at h0
    have hr0 : 0 < r := Nat.pos_of_ne_zero fun q => by subst q; simp at h0
    have hns : 0 < ns := Nat.pos_of_ne_zero fun q => by subst q; simp at h0
    have hn : 0 < ns * s := Nat.mul_pos hns hs
    simp only [List.map_cons, freeTerm]
    rw [ih]
    congr 1
    rw [planeWave_eq, planeWave_eq]
    have hN : ns * (s * r) = r * (ns * s) := by ring
    have hx := h.1
    rw [Nat.mul_div_cancel_left r hs] at hx
    have z0 : freq s 0 = 0 := by unfold freq; rw [if_pos (by omega)]; rfl
    rw [z0, zero_mul, neg_zero, phase_zero, one_mul]
    have e1 : phase (ns * s) (-(freq s m * p)) = phase (ns * (s * r)) (freq (ns * s) p * (-(freq s m * r))) := by
      rw [hN, show freq (ns * s) p * (-(freq s m * r)) = (r : ℤ) * (freq (ns * s) p * (-(freq s m))) by ring, phase_mul_scale _ _ hr0]
      refine phase_congr hn ?_
      have : ((ns * s : ℕ) : ℤ) ∣ (freq (ns * s) p) - p := Int.ModEq.dvd (by
        show (p : ℤ) % ((ns * s : ℕ) : ℤ) = _
        exact freq_emod.symm)
      obtain ⟨t, ht⟩ := this
      exact ⟨freq s m * t, by linear_combination (freq s m) * ht⟩
    rw [e1, mul_left_comm, ← phase_add]
    congr 1
    refine phase_congr h0 ?_
    obtain ⟨t, ht⟩ := hx
    exact ⟨freq (ns * s) p * t, by linear_combination (freq (ns * s) p) * ht⟩
  | [], [], [], _, [], _ :: _, _, _, h => by simp [Shifted] at h
  | [], [], [], _, _ :: _, _, _, _, h => by simp [Shifted] at h
  | [], [], _ :: _, _, _, _, _, _, h => by simp [Shifted] at h
  | [], _ :: _, _, _, _, _, _, _, h => by simp [Shifted] at h
  | _ :: _, [], _, _, _, _, _, _, h => by simp [Shifted] at h
  | _ :: _, _ :: _, [], _, _, _, _, _, h => by simp [Shifted] at h
  | _ :: _, _ :: _, _ :: _, _, [], _, _, _, h => by simp [Shifted] at h
  | _ :: _, _ :: _, _ :: _, _, _ :: _, [], _, _, h => by simp [Shifted] at h
  | _ :: _, _ :: _, _ :: _, [], _ :: _, _ :: _, h, _, _ => by simp [freeSamples, InShape] at h

theorem phase_norm (n : ℕ) (z : ℤ) : ‖phase n z‖ = 1 := by
  have : phase n z = Complex.exp (((2 * Real.pi * z / n : ℝ) : ℂ) * Complex.I) := by
    unfold phase
    congr 1
    push_cast
    ring
  rw [this, Complex.norm_exp_ofReal_mul_I]

theorem planeWave_norm (n : ℕ) (k : ℤ) (x : ℕ) : ‖planeWave n k x‖ = ‖planeWave n 0 0‖ := by
  rw [planeWave_eq, planeWave_eq, norm_mul, norm_mul, phase_norm, phase_norm]

/-- The modulus of a term does not depend on the band and the point. -/
theorem freeTerm_norm : ∀ (axes : List (ℕ × ℕ)) (shape ms ms' ps xs xs' : List ℕ), axes.length = shape.length → ms.length = shape.length → ms'.length = shape.length →
    xs.length = shape.length → xs'.length = shape.length → ‖freeTerm axes shape ms ps xs‖ = ‖freeTerm axes shape ms' ps xs'‖
  | [], [], [], [], _, [], [], _, _, _, _, _ => by simp [freeTerm]
  | (ns, nx) :: axes, s :: shape, m :: ms, m' :: ms', [], x :: xs, x' :: xs', _, _, _, _, _ => by simp [freeTerm]
  | (ns, nx) :: axes, s :: shape, m :: ms, m' :: ms', p :: ps, x :: xs, x' :: xs', h1, h2, h3, h4, h5 => by
    have ih := freeTerm_norm axes shape ms ms' ps xs xs' (by simpa using h1) (by simpa using h2) (by simpa using h3) (by simpa using h4) (by simpa using h5)
    simp only [freeTerm, norm_mul, phase_norm, ih]
    rw [planeWave_norm, planeWave_norm _ _ x']

/-- At the origin the terms of band zero are positive numbers. -/
theorem freeTerm_origin : ∀ (axes : List (ℕ × ℕ)) (shape ps : List ℕ), axes.length = shape.length → (∀ s ∈ shape, 0 < s) →
    freeTerm axes shape (shape.map fun _ => 0) ps (shape.map fun _ => 0) = (‖freeTerm axes shape (shape.map fun _ => 0) ps (shape.map fun _ => 0)‖ : ℝ)
  | [], [], _, _, _ => by simp [freeTerm]
  | (ns, nx) :: axes, s :: shape, [], _, _ => by simp [freeTerm]
  | (ns, nx) :: axes, s :: shape, p :: ps, h, hs => by
    have ih := freeTerm_origin axes shape ps (by simpa using h) fun t ht => hs t (List.mem_cons_of_mem _ ht)
    have hs' := hs s (by simp)
    have z0 : freq s 0 = 0 := by unfold freq; rw [if_pos (by omega)]; rfl
    simp only [List.map_cons, freeTerm, norm_mul, Complex.ofReal_mul]
    rw [← ih, z0, zero_mul, neg_zero, phase_zero]
    congr 1
    have : planeWave (ns * nx) (freq (ns * s) p) 0 = ((1 / Real.sqrt (ns * nx : ℕ) : ℝ) : ℂ) := by
      unfold planeWave
      simp
    rw [this, Complex.norm_real, norm_one, Complex.ofReal_one, Real.norm_of_nonneg (by positivity)]

theorem freePhase_norm : ∀ (axes : List (ℕ × ℕ)) (shape ms ps : List ℕ), ‖freePhase axes shape ms ps‖ = 1
  | [], _, _, _ => by simp [freePhase]
  | _ :: _, [], _, _ => by simp [freePhase]
  | _ :: _, _ :: _, [], _ => by simp [freePhase]
  | _ :: _, _ :: _, _ :: _, [] => by simp [freePhase]
  | (ns, _) :: axes, s :: shape, m :: ms, p :: ps => by
    simp only [freePhase, norm_mul, phase_norm, freePhase_norm axes shape ms ps, one_mul]

/-- The data of the free states. -/
theorem free_data (axes : List (ℕ × ℕ)) (shape : List ℕ) (hl : axes.length = shape.length) (hle : ∀ p ∈ axes.zip shape, p.2 ≤ p.1.2) :
    ∃ s, mostLocalizedFreeStates axes shape = some s ∧ s.listBasis = .tuple (shape.map .fundamental) ∧ s.basis = freeSampleBasis axes shape ∧
      size s.basis = (freeSamples axes shape).prod ∧
      ∀ m < shape.prod, ∀ p < (freeSamples axes shape).prod, s.data (m * (freeSamples axes shape).prod + p) =
        freePhase axes shape (unravel shape m) (unravel (freeSamples axes shape) p) / (Real.sqrt ((freeSamples axes shape).prod : ℕ) : ℂ) := by
  unfold mostLocalizedFreeStates
  dsimp only
  rw [if_pos ⟨hl.ge, fun p hp => Nat.mul_le_mul_left _ (hle p hp)⟩]
  refine ⟨_, rfl, rfl, rfl, sizes_free axes shape, fun m hm p hp => ?_⟩
  dsimp only
  rw [flatten_entry _ _ hp]
  unfold normalizeRow
  have hm' := unravel_inShape shape m hm
  have key : ∀ q < (freeSamples axes shape).prod, phaseFactor (List.zipWith (fun s i => (nkPoints s i : ℝ)) shape (unravel shape m))
      (fractionsOf (unravel (freeSamples axes shape) q) (freeSamples axes shape)) = freePhase axes shape (unravel shape m) (unravel (freeSamples axes shape) q) :=
    fun q hq => phaseFactor_eq axes shape _ _ hl hm' (unravel_inShape _ q hq)
  change phaseFactor _ (fractionsOf (unravel (freeSamples axes shape) p) (freeSamples axes shape)) / (Real.sqrt (∑ q ∈ range (freeSamples axes shape).prod,
    ‖phaseFactor _ (fractionsOf (unravel (freeSamples axes shape) q) (freeSamples axes shape))‖ ^ 2) : ℂ) = _
  rw [key p hp, sum_congr rfl fun q hq => by rw [phaseFactor_norm]]
  simp

theorem freePhase_orthogonal : ∀ (axes : List (ℕ × ℕ)) (shape ms ms' : List ℕ), axes.length = shape.length → (∀ p ∈ axes, 0 < p.1) → InShape shape ms → InShape shape ms' →
    nsum (freeSamples axes shape) (fun ps => (starRingEnd ℂ) (freePhase axes shape ms ps) * freePhase axes shape ms' ps) =
      if ms = ms' then ((freeSamples axes shape).prod : ℂ) else 0
  | [], [], [], [], _, _, _, _ => by simp [freeSamples, nsum, freePhase]
  | (ns, nx) :: axes, s :: shape, m :: ms, m' :: ms', hl, hpos, h, h' => by
    have ih := freePhase_orthogonal axes shape ms ms' (by simpa using hl) (fun p hp => hpos p (List.mem_cons_of_mem _ hp)) h.2 h'.2
    have hns : 0 < ns := hpos (ns, nx) (by simp)
    have hs : 0 < s := by have := h.1; omega
    have hn : 0 < ns * s := Nat.mul_pos hns hs
    have e : ∀ p : ℕ, nsum (freeSamples axes shape) (fun ps => (starRingEnd ℂ) (freePhase ((ns, nx) :: axes) (s :: shape) (m :: ms) (p :: ps)) *
        freePhase ((ns, nx) :: axes) (s :: shape) (m' :: ms') (p :: ps)) =
        phase (ns * s) ((freq s m - freq s m') * p) * (if ms = ms' then ((freeSamples axes shape).prod : ℂ) else 0) := by
      intro p
      rw [← ih, ← nsum_mul_left]
      refine nsum_congr _ _ _ fun ps _ => ?_
      beta_reduce
      simp only [freePhase, map_mul]
      rw [phase_conj, neg_neg, show (freq s m - freq s m') * (p : ℤ) = freq s m * p + -(freq s m' * p) by ring, phase_add]
      ring
    have hsum : nsum (freeSamples ((ns, nx) :: axes) (s :: shape)) (fun ps => (starRingEnd ℂ) (freePhase ((ns, nx) :: axes) (s :: shape) (m :: ms) ps) *
        freePhase ((ns, nx) :: axes) (s :: shape) (m' :: ms') ps) = ∑ p ∈ range (ns * s), phase (ns * s) ((freq s m - freq s m') * p) *
          (if ms = ms' then ((freeSamples axes shape).prod : ℂ) else 0) := sum_congr rfl fun p _ => e p
    rw [hsum, ← sum_mul]
    have hc : ∑ p ∈ range (ns * s), phase (ns * s) ((freq s m - freq s m') * p) = if m = m' then ((ns * s : ℕ) : ℂ) else 0 := by
      rw [sum_phase hn]
      refine if_congr ?_ rfl rfl
      constructor
      · intro hd
        have g1 := freq_onGrid h.1
        have g2 := freq_onGrid h'.1
        have hd' : ((s : ℕ) : ℤ) ∣ freq s m - freq s m' := (Dvd.intro_left (ns : ℤ) (by push_cast; ring)).trans hd
        have : freq s m = freq s m' := onGrid_unique g1 g2 (Int.modEq_iff_dvd.2 hd').symm
        rw [← slot_freq h.1, this, slot_freq h'.1]
      · rintro rfl
        simp
    rw [hc]
    have hprod : (freeSamples ((ns, nx) :: axes) (s :: shape)).prod = ns * s * (freeSamples axes shape).prod := by simp [freeSamples]
    rw [hprod]
    by_cases h1 : m = m' <;> by_cases h2 : ms = ms' <;> simp [h1, h2]
  | [], [], [], _ :: _, _, _, _, h => by simp [InShape] at h
  | [], [], _ :: _, _, _, _, h, _ => by simp [InShape] at h
  | [], _ :: _, _, _, h, _, _, _ => by simp at h
  | _ :: _, [], _, _, h, _, _, _ => by simp at h
  | _ :: _, _ :: _, [], _, _, _, h, _ => by simp [InShape] at h
  | _ :: _, _ :: _, _ :: _, [], _, _, _, h => by simp [InShape] at h

/-- **C114.** The most localized free states of different bands are orthonormal. -/
theorem C114_orthonormal (axes : List (ℕ × ℕ)) (shape : List ℕ) (hl : axes.length = shape.length) (hpos : ∀ p ∈ axes, 0 < p.1)
    (hle : ∀ p ∈ axes.zip shape, p.2 ≤ p.1.2) :
    ∃ s, mostLocalizedFreeStates axes shape = some s ∧ ∀ m < shape.prod, ∀ m' < shape.prod,
      dot (unfurledShape axes).prod (expand s.basis fun p => s.data (m * size s.basis + p)) (expand s.basis fun p => s.data (m' * size s.basis + p)) =
        if m = m' then 1 else 0 := by
  obtain ⟨s, h1, -, h3, h4, h5⟩ := free_data axes shape hl hle
  refine ⟨s, h1, fun m hm m' hm' => ?_⟩
  have hval : Valids (List.zipWith (fun (a : ℕ × ℕ) s => Basis.transformed (a.1 * s) (a.1 * a.2)) axes shape) ∧
      OrthonormalPartss (List.zipWith (fun (a : ℕ × ℕ) s => Basis.transformed (a.1 * s) (a.1 * a.2)) axes shape) := by
    clear h1 h3 h4 h5 hm hm' hpos
    induction axes generalizing shape with
    | nil => exact ⟨trivial, trivial⟩
    | cons a axes ih =>
      cases shape with
      | nil => exact ⟨trivial, trivial⟩
      | cons t shape =>
        obtain ⟨i1, i2⟩ := ih shape (by simpa using hl) fun p hp => hle p (List.mem_cons_of_mem _ hp)
        exact ⟨⟨Nat.mul_le_mul_left _ (hle (a, t) (by simp)), i1⟩, ⟨trivial, i2⟩⟩
  have hp : (unfurledShape axes).prod = points s.basis := by rw [h3]; exact (pointss_free axes shape hl).symm
  rw [hp, dot_expand_expand (state_orthonormal s.basis (by rw [h3]; exact hval.1) (by rw [h3]; exact hval.2)), h4]
  unfold dot
  beta_reduce
  rw [sum_congr rfl fun p hp' => by rw [h5 m hm p (mem_range.1 hp'), h5 m' hm' p (mem_range.1 hp')]]
  have hS : 0 < (freeSamples axes shape).prod ∨ (freeSamples axes shape).prod = 0 := by omega
  have hpos' : 0 < (freeSamples axes shape).prod := by
    have hsh : ∀ t ∈ shape, 0 < t := fun t ht => Nat.pos_of_ne_zero fun h => by
      rw [List.prod_eq_zero (h ▸ ht)] at hm; omega
    clear h1 h3 h4 h5 hm hm' hval hp hS hle
    induction axes generalizing shape with
    | nil => simp [freeSamples]
    | cons a axes ih =>
      cases shape with
      | nil => simp at hl
      | cons t shape =>
        have := ih shape (by simpa using hl) (fun p hp => hpos p (List.mem_cons_of_mem _ hp)) fun q hq => hsh q (List.mem_cons_of_mem _ hq)
        show 0 < (a.1 * t :: freeSamples axes shape).prod
        rw [List.prod_cons]
        exact Nat.mul_pos (Nat.mul_pos (hpos a (by simp)) (hsh t (by simp))) this
  have hterm : ∀ p ∈ range (freeSamples axes shape).prod,
      (starRingEnd ℂ) (freePhase axes shape (unravel shape m) (unravel (freeSamples axes shape) p) / (Real.sqrt ((freeSamples axes shape).prod : ℕ) : ℂ)) *
        (freePhase axes shape (unravel shape m') (unravel (freeSamples axes shape) p) / (Real.sqrt ((freeSamples axes shape).prod : ℕ) : ℂ)) =
      (starRingEnd ℂ) (freePhase axes shape (unravel shape m) (unravel (freeSamples axes shape) p)) *
        freePhase axes shape (unravel shape m') (unravel (freeSamples axes shape) p) / ((freeSamples axes shape).prod : ℂ) := by
    intro p _
    rw [map_div₀, Complex.conj_ofReal, div_mul_div_comm]
    congr 1
    rw [← Complex.ofReal_mul, Real.mul_self_sqrt (by positivity)]
    exact Complex.ofReal_natCast _
  have hn := freePhase_orthogonal axes shape (unravel shape m) (unravel shape m') hl hpos (unravel_inShape _ m hm) (unravel_inShape _ m' hm')
  have hr : ∑ p ∈ range (freeSamples axes shape).prod, (starRingEnd ℂ) (freePhase axes shape (unravel shape m) (unravel (freeSamples axes shape) p)) *
      freePhase axes shape (unravel shape m') (unravel (freeSamples axes shape) p) =
      nsum (freeSamples axes shape) (fun ps => (starRingEnd ℂ) (freePhase axes shape (unravel shape m) ps) * freePhase axes shape (unravel shape m') ps) := by
    rw [← nsum_ravel (freeSamples axes shape) fun p => (starRingEnd ℂ) (freePhase axes shape (unravel shape m) (unravel (freeSamples axes shape) p)) *
      freePhase axes shape (unravel shape m') (unravel (freeSamples axes shape) p)]
    exact nsum_congr _ _ _ fun ps hps => by beta_reduce; rw [unravel_ravel _ ps hps]
  rw [sum_congr rfl hterm, ← sum_div, hr, hn]
  have hne : ((freeSamples axes shape).prod : ℂ) ≠ 0 := by exact_mod_cast hpos'.ne'
  by_cases h : m = m'
  · subst h
    rw [if_pos rfl, if_pos rfl, div_self hne]
  · rw [if_neg fun q => h ?_, if_neg h, zero_div]
    rw [← ravel_unravel shape m hm, q, ravel_unravel shape m' hm']

/-- The free states on the points of the large cell. -/
theorem free_expand (axes : List (ℕ × ℕ)) (shape : List ℕ) (hl : axes.length = shape.length) (hle : ∀ p ∈ axes.zip shape, p.2 ≤ p.1.2) :
    ∃ s, mostLocalizedFreeStates axes shape = some s ∧ ∀ ms xs, InShape shape ms → InShape (unfurledShape axes) xs →
      expand s.basis (fun p => s.data (ravel shape ms * size s.basis + p)) (ravel (unfurledShape axes) xs) =
        (∑ p ∈ range (freeSamples axes shape).prod, freeTerm axes shape ms (unravel (freeSamples axes shape) p) xs) / (Real.sqrt ((freeSamples axes shape).prod : ℕ) : ℂ) := by
  obtain ⟨s, h1, -, h3, h4, h5⟩ := free_data axes shape hl hle
  refine ⟨s, h1, fun ms xs hms hxs => ?_⟩
  unfold expand
  rw [h4, sum_div]
  refine sum_congr rfl fun p hp => ?_
  have hp' := mem_range.1 hp
  have hu := unravel_inShape _ p hp'
  beta_reduce
  rw [h5 _ (ravel_lt _ _ hms) p hp', unravel_ravel _ _ hms, ← freeTerm_eq axes shape ms _ xs hl hms hu hxs, ravel_unravel _ p hp', h3]
  show _ * states _ p _ = _
  ring

/-- **C114.** If the number of bands divides the number of points on each axis, the state of band `m` is the state of band zero moved by the fraction
`m / s` of the unit cell. -/
theorem C114_translate (axes : List (ℕ × ℕ)) (shape : List ℕ) (hl : axes.length = shape.length) (hd : ∀ q ∈ axes.zip shape, q.2 ∣ q.1.2 ∧ 0 < q.1.1 * q.1.2) :
    ∃ s, mostLocalizedFreeStates axes shape = some s ∧ ∀ ms xs ys, InShape shape ms → InShape (unfurledShape axes) xs → InShape (unfurledShape axes) ys →
      Shifted axes shape ms xs ys →
      expand s.basis (fun p => s.data (ravel shape ms * size s.basis + p)) (ravel (unfurledShape axes) xs) =
        expand s.basis (fun p => s.data (ravel shape (shape.map fun _ => 0) * size s.basis + p)) (ravel (unfurledShape axes) ys) := by
  obtain ⟨s, h1, h2⟩ := free_expand axes shape hl fun p hp => Nat.le_of_dvd (Nat.pos_of_ne_zero fun h => by have := (hd p hp).2; rw [h] at this; omega) (hd p hp).1
  refine ⟨s, h1, fun ms xs ys hms hxs hys hsh => ?_⟩
  rw [h2 ms xs hms hxs, h2 _ ys (inShape_zeros hms) hys]
  congr 1
  exact sum_congr rfl fun p hp => freeTerm_shift axes shape ms _ xs ys (unravel_inShape _ p (mem_range.1 hp)) hd hsh

/-- **C114.** The modulus of the state of band `m` is largest at the fraction `m / s` of the unit cell. -/
theorem C114_peak (axes : List (ℕ × ℕ)) (shape : List ℕ) (hl : axes.length = shape.length) (hd : ∀ q ∈ axes.zip shape, q.2 ∣ q.1.2 ∧ 0 < q.1.1 * q.1.2) :
    ∃ s, mostLocalizedFreeStates axes shape = some s ∧ ∀ ms xs ys, InShape shape ms → InShape (unfurledShape axes) xs → InShape (unfurledShape axes) ys →
      Shifted axes shape ms ys (shape.map fun _ => 0) →
      ‖expand s.basis (fun p => s.data (ravel shape ms * size s.basis + p)) (ravel (unfurledShape axes) xs)‖ ≤
        ‖expand s.basis (fun p => s.data (ravel shape ms * size s.basis + p)) (ravel (unfurledShape axes) ys)‖ := by
  obtain ⟨s, h1, h2⟩ := free_expand axes shape hl fun p hp => Nat.le_of_dvd (Nat.pos_of_ne_zero fun h => by have := (hd p hp).2; rw [h] at this; omega) (hd p hp).1
  refine ⟨s, h1, fun ms xs ys hms hxs hys hsh => ?_⟩
  have hs : ∀ t ∈ shape, 0 < t := fun t ht => Nat.pos_of_ne_zero fun h => by
    have := ravel_lt _ _ hms
    rw [List.prod_eq_zero (h ▸ ht)] at this; omega
  have l1 := inShape_length _ _ hms
  have l2 : xs.length = shape.length := by rw [← inShape_length _ _ hxs, ← hl]; simp [unfurledShape]
  have l3 : ys.length = shape.length := by rw [← inShape_length _ _ hys, ← hl]; simp [unfurledShape]
  rw [h2 ms xs hms hxs, h2 ms ys hms hys, norm_div, norm_div]
  refine div_le_div_of_nonneg_right ?_ (norm_nonneg _)
  rw [sum_congr rfl fun p hp => freeTerm_shift axes shape ms _ ys _ (unravel_inShape _ p (mem_range.1 hp)) hd hsh,
    sum_congr rfl fun p _ => freeTerm_origin axes shape (unravel (freeSamples axes shape) p) hl hs, ← Complex.ofReal_sum, Complex.norm_real,
    Real.norm_of_nonneg (sum_nonneg fun p _ => norm_nonneg _)]
  refine (norm_sum_le _ _).trans (sum_le_sum fun p _ => le_of_eq ?_)
  exact freeTerm_norm axes shape _ _ _ _ _ hl l1.symm (by simp) l2 (by simp)

/-- A case which meets the hypotheses: two axes with (2, 3) samples and (4, 3) points, (2, 1) bands; the state of band (1, 0) is around the points `-2` of
the first axis, half a unit cell from the origin. -/
example : (∀ q ∈ ([(2, 4), (3, 3)] : List (ℕ × ℕ)).zip [2, 1], q.2 ∣ q.1.2 ∧ 0 < q.1.1 * q.1.2) ∧ InShape [2, 1] [1, 0] ∧
    Shifted [(2, 4), (3, 3)] [2, 1] [1, 0] [6, 0] [0, 0] ∧ Shifted [(2, 4), (3, 3)] [2, 1] [1, 0] [7, 5] [1, 5] := by
  refine ⟨by decide, ⟨by decide, by decide, trivial⟩, ⟨⟨1, by decide⟩, ⟨0, by decide⟩, trivial⟩, ⟨⟨1, by decide⟩, ⟨0, by decide⟩, trivial⟩⟩

/-! ## C115: localized states from the probability of the momenta -/

theorem range_filter_lt (n k : ℕ) : (List.range n).filter (fun i => i < k) = List.range (min k n) := by
  induction n with
  | zero => simp
  | succ n ih =>
    rw [List.range_succ, List.filter_append, ih]
    rcases Nat.lt_or_ge n k with h | h
    · rw [List.filter_singleton, decide_eq_true h, cond_true, Nat.min_eq_right h.le, Nat.min_eq_right (by omega : n + 1 ≤ k), List.range_succ]
    · rw [List.filter_singleton, decide_eq_false (not_lt.2 h), cond_false, Nat.min_eq_left h, Nat.min_eq_left (by omega : k ≤ n + 1), List.append_nil]

theorem slice_first (n k : ℕ) : sliceIndices n none (some (k : ℤ)) 1 = List.range (min k n) := by
  rw [← range_filter_lt]
  unfold sliceIndices
  refine List.filter_congr fun i hi => ?_
  have hi' := List.mem_range.1 hi
  have hk : ¬((k : ℤ) < 0) := by omega
  simp [Nat.mod_one, hk]
  omega

/-- Number `t` of points by which the state is moved on each axis: `X` is `Y` moved by `ts`. -/
def MovedBy : List ℕ → List ℤ → List ℕ → List ℕ → Prop
  | [], [], [], [] => True
  | N :: Ns, t :: ts, x :: xs, y :: ys => (N : ℤ) ∣ (x : ℤ) - (y + t) ∧ MovedBy Ns ts xs ys
  | _, _, _, _ => False

/-- On each axis the fraction `g` is `t` points of the unit cell from the fraction `f`. -/
def ApartBy : List (ℕ × ℕ) → List ℤ → List ℝ → List ℝ → Prop
  | [], [], [], [] => True
  | (_, nx) :: axes, t :: ts, f :: fs, g :: gs => g * nx = f * nx + t ∧ ApartBy axes ts fs gs
  | _, _, _, _ => False

theorem move_state : ∀ (axes : List (ℕ × ℕ)) (ts : List ℤ) (fs gs : List ℝ) (ps xs ys : List ℕ), (∀ a ∈ axes, 0 < a.1 * a.2) → ApartBy axes ts fs gs →
    InShape (unfurledShape axes) ps → InShape (unfurledShape axes) xs → InShape (unfurledShape axes) ys → MovedBy (unfurledShape axes) ts xs ys →
    phaseFactor gs (fractionsOf ps (sampleShape axes)) * states ((unfurledShape axes).map .fundamentalTransformed) (ravel (unfurledShape axes) ps) (ravel (unfurledShape axes) xs) =
      phaseFactor fs (fractionsOf ps (sampleShape axes)) * states ((unfurledShape axes).map .fundamentalTransformed) (ravel (unfurledShape axes) ps) (ravel (unfurledShape axes) ys)
  | [], [], [], [], [], [], [], _, _, _, _, _, _ => rfl
  | (ns, nx) :: axes, t :: ts, f :: fs, g :: gs, p :: ps, x :: xs, y :: ys, h0, ha, hp, hx, hy, hm => by
    have ih := move_state axes ts fs gs ps xs ys (fun a h => h0 a (List.mem_cons_of_mem _ h)) ha.2 hp.2 hx.2 hy.2 hm.2
    have hN : 0 < ns * nx := h0 (ns, nx) (by simp)
    have hns : 0 < ns := Nat.pos_of_ne_zero fun q => by subst q; simp at hN
    have hnx : 0 < nx := Nat.pos_of_ne_zero fun q => by subst q; simp at hN
    have e : ∀ (z : ℕ) (zs : List ℕ), InShape (unfurledShape axes) zs →
        states ((unfurledShape ((ns, nx) :: axes)).map .fundamentalTransformed) (ravel (unfurledShape ((ns, nx) :: axes)) (p :: ps)) (ravel (unfurledShape ((ns, nx) :: axes)) (z :: zs)) =
          planeWave (ns * nx) p z * states ((unfurledShape axes).map .fundamentalTransformed) (ravel (unfurledShape axes) ps) (ravel (unfurledShape axes) zs) := by
      intro z zs hzs
      have h1 := ravel_lt _ _ hp.2
      have h2 := ravel_lt _ _ hzs
      have h1' : ravel (unfurledShape axes) ps < (unfurledShape axes).prod := h1
      have s1 : sizes ((unfurledShape axes).map .fundamentalTransformed) = (unfurledShape axes).prod := (fT_facts (unfurledShape axes)).1
      have s2 : pointss ((unfurledShape axes).map .fundamentalTransformed) = (unfurledShape axes).prod := (fT_facts (unfurledShape axes)).2.1
      have e1 : ravel (unfurledShape ((ns, nx) :: axes)) (p :: ps) = p * (unfurledShape axes).prod + ravel (unfurledShape axes) ps := rfl
      have e2 : ravel (unfurledShape ((ns, nx) :: axes)) (z :: zs) = z * (unfurledShape axes).prod + ravel (unfurledShape axes) zs := rfl
      rw [e1, e2, show (unfurledShape ((ns, nx) :: axes)).map Basis.fundamentalTransformed = .fundamentalTransformed (ns * nx) :: (unfurledShape axes).map .fundamentalTransformed from rfl]
      simp only [states, s1, s2]
      rw [Nat.mul_comm p, Nat.mul_comm z, Nat.mul_add_div (by omega), Nat.mul_add_div (by omega), Nat.div_eq_of_lt h1', Nat.div_eq_of_lt h2,
        Nat.mul_add_mod, Nat.mul_add_mod, Nat.mod_eq_of_lt h1', Nat.mod_eq_of_lt h2, add_zero, add_zero]
      rfl
    rw [e x xs hx.2, e y ys hy.2]
    have hf : ∀ (u : ℝ) (us : List ℝ), phaseFactor (u :: us) (fractionsOf (p :: ps) (sampleShape ((ns, nx) :: axes))) =
        Complex.exp (-2 * Complex.I * Real.pi * ((u * ((p : ℝ) / ns) : ℝ) : ℂ)) * phaseFactor us (fractionsOf ps (sampleShape axes)) := fun u us => phaseFactor_cons _ _ _ _
    rw [hf, hf]
    have hphase : Complex.exp (-2 * Complex.I * Real.pi * ((g * ((p : ℝ) / ns) : ℝ) : ℂ)) * planeWave (ns * nx) p x =
        Complex.exp (-2 * Complex.I * Real.pi * ((f * ((p : ℝ) / ns) : ℝ) : ℂ)) * planeWave (ns * nx) p y := by
      have hg : g = f + t / nx := by
        have := ha.1
        field_simp
        linarith
      have e3 : Complex.exp (-2 * Complex.I * Real.pi * ((g * ((p : ℝ) / ns) : ℝ) : ℂ)) =
          Complex.exp (-2 * Complex.I * Real.pi * ((f * ((p : ℝ) / ns) : ℝ) : ℂ)) * phase (ns * nx) (-(t * p)) := by
        rw [hg]
        unfold phase
        rw [← Complex.exp_add]
        congr 1
        have hns' : (ns : ℂ) ≠ 0 := by exact_mod_cast hns.ne'
        have hnx' : (nx : ℂ) ≠ 0 := by exact_mod_cast hnx.ne'
        push_cast
        field_simp
        ring
      rw [e3, planeWave_eq, planeWave_eq, mul_assoc]
      congr 1
      rw [mul_left_comm, ← phase_add]
      congr 1
      refine phase_congr hN ?_
      obtain ⟨c, hc⟩ := hm.1
      exact ⟨p * c, by linear_combination (p : ℤ) * hc⟩
    linear_combination (phaseFactor gs (fractionsOf ps (sampleShape axes)) * states ((unfurledShape axes).map .fundamentalTransformed) (ravel (unfurledShape axes) ps) (ravel (unfurledShape axes) xs)) * hphase +
      (Complex.exp (-2 * Complex.I * Real.pi * ((f * ((p : ℝ) / ns) : ℝ) : ℂ)) * planeWave (ns * nx) p y) * ih
  | [], [], [], [], _ :: _, _, _, _, _, h, _, _, _ => by simp [unfurledShape, InShape] at h
  | [], [], [], [], [], _ :: _, _, _, _, _, h, _, _ => by simp [unfurledShape, InShape] at h
  | [], [], [], [], [], [], _ :: _, _, _, _, _, h, _ => by simp [unfurledShape, InShape] at h
  | [], [], [], _ :: _, _, _, _, _, h, _, _, _, _ => by simp [ApartBy] at h
  | [], [], _ :: _, _, _, _, _, _, h, _, _, _, _ => by simp [ApartBy] at h
  | [], _ :: _, _, _, _, _, _, _, h, _, _, _, _ => by simp [ApartBy] at h
  | _ :: _, [], _, _, _, _, _, _, h, _, _, _, _ => by simp [ApartBy] at h
  | _ :: _, _ :: _, [], _, _, _, _, _, h, _, _, _, _ => by simp [ApartBy] at h
  | _ :: _, _ :: _, _ :: _, [], _, _, _, _, h, _, _, _, _ => by simp [ApartBy] at h
  | _ :: _, _ :: _, _ :: _, _ :: _, [], _, _, _, _, h, _, _, _ => by simp [unfurledShape, InShape] at h
  | _ :: _, _ :: _, _ :: _, _ :: _, _ :: _, [], _, _, _, _, h, _, _ => by simp [unfurledShape, InShape] at h
  | _ :: _, _ :: _, _ :: _, _ :: _, _ :: _, _ :: _, [], _, _, _, _, h, _ => by simp [unfurledShape, InShape] at h

/-- **C115.** The probability of each momentum in every one of the states is the mean over the first bands of its probability in the Wannier function of the band,
divided by the sum of these; if two fractions are a whole number of points apart, the state of one is the state of the other moved by this number of points. -/
theorem C115_probability_partial (same : Basis → Basis → Bool) (hs : Sound same) (axes : List (ℕ × ℕ)) (w : WavepacketList) (hlist : w.list = fT (sampleShape axes))
    (hb : Valid w.basis) (ho : OrthonormalParts w.basis) (hshape : w.basis.fundamentalShape = stateShape axes) (hband : 0 < size w.band)
    (h0 : ∀ a ∈ axes, 0 < a.1 * a.2) (fractions : List (List ℝ)) (hf : fractions ≠ []) :
    ∃ (s : StateVectorList) (unf : ℕ → StateVector) (avg : ℕ → ℝ), mostLocalizedFromProbability same w fractions = some s ∧ s.listBasis = .fundamental fractions.length ∧
      s.basis = fT (unfurledShape axes) ∧
      (∀ c < size w.band, unfurlWavepacket same ⟨w.list, w.basis, fun k => w.data (c * (size w.list * size w.basis) + k)⟩ = some (unf c)) ∧
      (∀ p < (unfurledShape axes).prod, avg p = (∑ c ∈ range (min fractions.length (size w.band)), ‖(unf c).data p‖ ^ 2) / (min fractions.length (size w.band) : ℕ)) ∧
      (∀ m < fractions.length, ∀ p < (unfurledShape axes).prod, ‖s.data (m * (unfurledShape axes).prod + p)‖ ^ 2 = avg p / ∑ q ∈ range (unfurledShape axes).prod, avg q) ∧
      ∀ m < fractions.length, ∀ m' < fractions.length, ∀ ts xs ys, ApartBy axes ts (fractions.getD m []) (fractions.getD m' []) →
        InShape (unfurledShape axes) xs → InShape (unfurledShape axes) ys → MovedBy (unfurledShape axes) ts xs ys →
        expand s.basis (fun p => s.data (m' * (unfurledShape axes).prod + p)) (ravel (unfurledShape axes) xs) =
          expand s.basis (fun p => s.data (m * (unfurledShape axes).prod + p)) (ravel (unfurledShape axes) ys) := by
  obtain ⟨wband, wlist, wbasis, wdata⟩ := w
  dsimp only at hlist hb ho hshape hband
  subst hlist
  have hpos : 0 < fractions.length := List.length_pos_iff.2 hf
  have hun : ∀ data : ℕ → ℂ, ∃ s : StateVector, unfurlWavepacket same ⟨fT (sampleShape axes), wbasis, data⟩ = some s ∧ s.basis = fT (unfurledShape axes) := fun data => by
    obtain ⟨s, h1, h2, -⟩ := C45_bloch same hs axes wbasis hb ho hshape data
    exact ⟨s, h1, h2⟩
  choose U hU1 hU2 using hun
  have hLS : size (fT (sampleShape axes)) = (sampleShape axes).prod := (fT_facts _).1
  have hcongr : ∀ data data' : ℕ → ℂ, (∀ k < size (fT (sampleShape axes)) * size wbasis, data k = data' k) → ∀ p < (unfurledShape axes).prod, (U data).data p = (U data').data p := by
    intro data data' h p hp
    have hex : ∀ X < (unfurledShape axes).prod, expand (fT (unfurledShape axes)) (U data).data X = expand (fT (unfurledShape axes)) (U data').data X := by
      intro X hX
      obtain ⟨s, h1, h2, h3⟩ := C45_bloch same hs axes wbasis hb ho hshape data
      obtain ⟨s', h1', h2', h3'⟩ := C45_bloch same hs axes wbasis hb ho hshape data'
      have e1 : U data = s := Option.some.inj ((hU1 data).symm.trans h1)
      have e2 : U data' = s' := Option.some.inj ((hU1 data').symm.trans h1')
      have q := h3 _ (unravel_inShape _ X hX)
      have q' := h3' _ (unravel_inShape _ X hX)
      rw [ravel_unravel _ X hX] at q q'
      rw [e1, e2, show fT (unfurledShape axes) = s.basis from h2.symm, q, h2, ← h2', q']
      congr 1
      refine sum_congr rfl fun a ha => ?_
      congr 1
      unfold expand
      refine sum_congr rfl fun k hk => ?_
      unfold block
      rw [h]
      rw [hLS]
      exact add_mul_lt (mem_range.1 ha) (mem_range.1 hk)
    have hv : Valid (fT (unfurledShape axes)) := valids_fT _
    have ho' : OrthonormalParts (fT (unfurledShape axes)) := orthonormalPartss_fT _
    have hpt : points (fT (unfurledShape axes)) = (unfurledShape axes).prod := (fT_facts _).2.1
    have hsz : size (fT (unfurledShape axes)) = (unfurledShape axes).prod := (fT_facts _).1
    have d := dot_state_expand (state_orthonormal _ hv ho') (U data).data (j := p) (by rw [hsz]; exact hp)
    have d' := dot_state_expand (state_orthonormal _ hv ho') (U data').data (j := p) (by rw [hsz]; exact hp)
    rw [← d, ← d', hpt]
    exact sum_congr rfl fun X hX => by rw [hex X (mem_range.1 hX)]
  set M := min fractions.length (size wband) with hM
  have hM0 : 0 < M := by omega
  have hg : getWavepackets ⟨wband, fT (sampleShape axes), wbasis, wdata⟩ none (some (fractions.length : ℤ)) 1 =
      ⟨.fundamental M, fT (sampleShape axes), wbasis, flatten (size (fT (sampleShape axes)) * size wbasis) fun b =>
        block (size (fT (sampleShape axes)) * size wbasis) wdata ((List.range M).getD b 0)⟩ := by
    unfold getWavepackets WavepacketList.row
    dsimp only
    rw [slice_first, Basis.n_eq, Basis.n_eq, Basis.n_eq, List.length_range]
  have hagree : ∀ c < M, ∀ k < size (fT (sampleShape axes)) * size wbasis,
      flatten (size (fT (sampleShape axes)) * size wbasis) (fun b => block (size (fT (sampleShape axes)) * size wbasis) wdata ((List.range M).getD b 0))
        (c * (size (fT (sampleShape axes)) * size wbasis) + k) = wdata (c * (size (fT (sampleShape axes)) * size wbasis) + k) := by
    intro c hc k hk
    rw [flatten_entry _ _ hk]
    simp [List.getD_eq_getElem?_getD, hc, block]
  have hsz : size (fT (unfurledShape axes)) = (unfurledShape axes).prod := (fT_facts _).1
  obtain ⟨u, hu1, hu2, hu3, hu4⟩ := collect_bands (fun s => unfurlWavepacket same s) ⟨.fundamental M, fT (sampleShape axes), wbasis,
    flatten (size (fT (sampleShape axes)) * size wbasis) fun b => block (size (fT (sampleShape axes)) * size wbasis) wdata ((List.range M).getD b 0)⟩
    (fun c => U fun k => flatten (size (fT (sampleShape axes)) * size wbasis) (fun b => block (size (fT (sampleShape axes)) * size wbasis) wdata ((List.range M).getD b 0))
      (c * (size (fT (sampleShape axes)) * size wbasis) + k)) (fT (unfurledShape axes)) hM0 fun c _ => ⟨hU1 _, hU2 _⟩
  dsimp only at hu1 hu2 hu4
  have hu4' : ∀ c < M, ∀ X < (unfurledShape axes).prod, u.data (c * (unfurledShape axes).prod + X) =
      (U fun k => wdata (c * (size (fT (sampleShape axes)) * size wbasis) + k)).data X := by
    intro c hc X hX
    have := hu4 c hc X (by rw [hsz]; exact hX)
    rw [hsz] at this
    rw [this]
    exact hcongr _ _ (fun k hk => hagree c hc k hk) X hX
  obtain ⟨avg, ha1, ha2⟩ := C76_average u.listBasis u.basis fun k => ‖u.data k‖ ^ 2
  have hshapeU : (fT (unfurledShape axes)).shape = unfurledShape axes := shape_fT _
  have hshapeS : (fT (sampleShape axes)).shape = sampleShape axes := shape_fT _
  have havg : ∀ p < (unfurledShape axes).prod, avg p = (∑ c ∈ range M, ‖(U fun k => wdata (c * (size (fT (sampleShape axes)) * size wbasis) + k)).data p‖ ^ 2) / (M : ℕ) := by
    intro p hp
    rw [ha2 p (by rw [hu3, hsz]; exact hp), hu2, hu3, hsz]
    show (∑ i ∈ range M, _) / _ = _
    congr 1
    exact sum_congr rfl fun c hc => by rw [hu4' c (mem_range.1 hc) p hp]
  have havg0 : ∀ p < (unfurledShape axes).prod, 0 ≤ avg p := fun p hp => by
    rw [havg p hp]
    exact div_nonneg (sum_nonneg fun _ _ => by positivity) (by positivity)
  have hnorm : ∀ m p, p < (unfurledShape axes).prod → ‖phaseFactor (fractions.getD m []) (fractionsOf (unravel (unfurledShape axes) p) (sampleShape axes)) * (Real.sqrt (avg p) : ℂ)‖ ^ 2 = avg p := by
    intro m p hp
    rw [norm_mul, phaseFactor_norm, one_mul, Complex.norm_real, Real.norm_of_nonneg (Real.sqrt_nonneg _), Real.sq_sqrt (havg0 p hp)]
  have hdata : ∀ m, ∀ p < (unfurledShape axes).prod, flatten (unfurledShape axes).prod (fun m => normalizeRow (unfurledShape axes).prod fun p =>
      phaseFactor (fractions.getD m []) (fractionsOf (unravel (unfurledShape axes) p) (sampleShape axes)) * (Real.sqrt (avg p) : ℂ)) (m * (unfurledShape axes).prod + p) =
      phaseFactor (fractions.getD m []) (fractionsOf (unravel (unfurledShape axes) p) (sampleShape axes)) * (Real.sqrt (avg p) : ℂ) /
        (Real.sqrt (∑ q ∈ range (unfurledShape axes).prod, avg q) : ℂ) := by
    intro m p hp
    rw [flatten_entry _ _ hp]
    unfold normalizeRow
    rw [sum_congr rfl fun q hq => hnorm m q (mem_range.1 hq)]
  refine ⟨⟨.fundamental fractions.length, fT (unfurledShape axes), flatten (unfurledShape axes).prod fun m => normalizeRow (unfurledShape axes).prod fun p =>
    phaseFactor (fractions.getD m []) (fractionsOf (unravel (unfurledShape axes) p) (sampleShape axes)) * (Real.sqrt (avg p) : ℂ)⟩,
    fun c => U fun k => wdata (c * (size (fT (sampleShape axes)) * size wbasis) + k), avg, ?_, rfl, rfl, fun c _ => hU1 _, havg, fun m _ p hp => ?_, ?_⟩
  · unfold mostLocalizedFromProbability unfurlWavepacketList
    rw [hg, hu1, Option.bind_some, ha1, Option.map_some]
    dsimp only
    rw [hu3, hshapeU, hshapeS, Basis.n_eq, hsz]
  · dsimp only
    rw [hdata m p hp, norm_div, div_pow, hnorm m p hp, Complex.norm_real, Real.norm_of_nonneg (Real.sqrt_nonneg _), Real.sq_sqrt (sum_nonneg fun q hq => havg0 q (mem_range.1 hq))]
  · intro m _ m' _ ts xs ys hap hx hy hmv
    dsimp only
    unfold expand
    rw [hsz]
    refine sum_congr rfl fun p hp => ?_
    have hp' := mem_range.1 hp
    beta_reduce
    rw [hdata m p hp', hdata m' p hp']
    have := move_state axes ts _ _ (unravel (unfurledShape axes) p) xs ys h0 hap (unravel_inShape _ p hp') hx hy hmv
    rw [ravel_unravel _ p hp'] at this
    show _ * states _ p _ = _ * states _ p _
    linear_combination ((Real.sqrt (avg p) : ℂ) / (Real.sqrt (∑ q ∈ range (unfurledShape axes).prod, avg q) : ℂ)) * this

/-- Case: 3 samples of 2 points, two bands of which the fractions 0 and 1/2 ask for both; the second state is the first moved by one of the 6 points. -/
example (same : Basis → Basis → Bool) (hs : Sound same) (data : ℕ → ℂ) :
    ∃ s : StateVectorList, mostLocalizedFromProbability same ⟨.fundamental 2, fT [3], fT [2], data⟩ [[0], [1 / 2]] = some s ∧
      ∀ y < 5, expand s.basis (fun p => s.data (6 + p)) (y + 1) = expand s.basis s.data y := by
  obtain ⟨s, _, _, h1, _, _, _, _, _, h2⟩ := C115_probability_partial same hs [(3, 2)] ⟨.fundamental 2, fT [3], fT [2], data⟩ rfl
    (valids_fT [2]) (orthonormalPartss_fT [2]) rfl (show 0 < 2 by decide) (by simp) [[0], [1 / 2]] (by simp)
  refine ⟨s, h1, fun y hy => ?_⟩
  have := h2 0 (by simp) 1 (by simp) [1] [y + 1] [y] (by simp [ApartBy]) ⟨by simp; omega, trivial⟩ ⟨by simp; omega, trivial⟩ ⟨by simp, trivial⟩
  simpa [unfurledShape, ravel] using this

end Verif
