import Verif.Props.C104_Position
import Verif.Lemmas.Vnorm

/-!
C104 (trajectories), C105: width of a state. C106: expectation of position and momentum.
-/

set_option autoImplicit false

namespace Verif

open Finset Spec

/-! ## C104: trajectories -/

theorem restoredX_one (same : Basis → Basis → Bool) (hs : Sound same) (n : ℕ) (b : Basis) (hb : Valid b) (hob : OrthonormalParts b)
    (hshape : b.fundamentalShape = [n]) (A : Matrix (Fin 1) (Fin 1) ℝ) (lb : Basis) (data : ℕ → ℂ) (nt : ℕ) :
    ∃ f, getRestoredX same A nt ⟨lb, b, data⟩ 0 = some f ∧
      ∀ r, ∀ t < nt, f (r * nt + t) = getMeasuredData (fun t => circularMean n (weights b data (r * nt + t))) .angle t * A 0 0 / (2 * Real.pi) := by
  obtain ⟨z, hz, k⟩ := periodicX_one same hs n b hb hob hshape lb data
  have hl : (List.ofFn (A 0)).length = 1 := List.length_ofFn
  have hv : (List.ofFn (A 0)).getD 0 0 = A 0 0 := by simp
  refine ⟨fun kk => (unwrapAngles (fun i => (z (kk / nt * nt + i)).arg) (kk % nt)) * A 0 0 / (2 * Real.pi), ?_, ?_⟩
  · unfold getRestoredX
    rw [hz, Option.bind_some]
    simp only [mulBroadcast, hl, if_true, Option.map_some, hv]
  · intro r t ht
    have hn : 0 < nt := by omega
    beta_reduce
    rw [show (r * nt + t) / nt = r by rw [add_comm, Nat.add_mul_div_right _ _ hn, Nat.div_eq_of_lt ht, zero_add],
      show (r * nt + t) % nt = t by rw [add_comm, Nat.add_mul_mod_self_right, Nat.mod_eq_of_lt ht]]
    simp only [k, getMeasuredData]

/-- **C104** (one axis), trajectories: the restored positions have the phases of the expectations, and follow each other within half a cell. -/
theorem C104_restored_partial (same : Basis → Basis → Bool) (hs : Sound same) (n : ℕ) (b : Basis) (hb : Valid b) (hob : OrthonormalParts b)
    (hshape : b.fundamentalShape = [n]) (A : Matrix (Fin 1) (Fin 1) ℝ) (hL : 0 < A 0 0) (lb : Basis) (data : ℕ → ℂ) (nt : ℕ) :
    ∃ f, getRestoredX same A nt ⟨lb, b, data⟩ 0 = some f ∧ ∀ r, ∀ t < nt,
      circularMean n (weights b data (r * nt + t)) = ‖circularMean n (weights b data (r * nt + t))‖ *
        Complex.exp (2 * Real.pi * Complex.I * (f (r * nt + t) / A 0 0 : ℝ)) ∧
      (t + 1 < nt → |f (r * nt + (t + 1)) - f (r * nt + t)| ≤ A 0 0 / 2) := by
  obtain ⟨f, hf, k⟩ := restoredX_one same hs n b hb hob hshape A lb data nt
  have hpi := Real.pi_pos
  refine ⟨f, hf, fun r t ht => ⟨?_, fun ht' => ?_⟩⟩
  · obtain ⟨-, h, -⟩ := C80_measured (fun t => circularMean n (weights b data (r * nt + t))) t
    rw [k r t ht]
    refine h.trans ?_
    congr 2
    have : (A 0 0 : ℂ) ≠ 0 := by exact_mod_cast hL.ne'
    have : (Real.pi : ℂ) ≠ 0 := by exact_mod_cast hpi.ne'
    push_cast
    field_simp
  · obtain ⟨-, -, -, -, -, h⟩ := C80_measured (fun t => circularMean n (weights b data (r * nt + t))) t
    rw [k r t ht, k r (t + 1) ht', ← sub_div, ← sub_mul, abs_div, abs_mul, abs_of_pos hL, abs_of_pos (by positivity : (0 : ℝ) < 2 * Real.pi),
      div_le_iff₀ (by positivity)]
    nlinarith

theorem unwrapAngles_congr (p q : ℕ → ℝ) (i : ℕ) (h : ∀ j ≤ i, p j = q j) : unwrapAngles p i = unwrapAngles q i := by
  unfold unwrapAngles
  rw [h i le_rfl]
  congr 1
  refine sum_congr rfl fun j hj => ?_
  rw [mem_range] at hj
  unfold unwrapCorrection
  rw [h j (by omega), h (j + 1) (by omega)]

/-- **C104** (one axis), trajectories: positions which start in the centred cell and move by less than half a cell between two times are restored, also when
they leave the cell. -/
theorem C104_followed_partial (same : Basis → Basis → Bool) (hs : Sound same) (n : ℕ) (b : Basis) (hb : Valid b) (hob : OrthonormalParts b)
    (hshape : b.fundamentalShape = [n]) (A : Matrix (Fin 1) (Fin 1) ℝ) (hL : 0 < A 0 0) (lb : Basis) (data : ℕ → ℂ) (nt r : ℕ) (x ρ : ℕ → ℝ)
    (hρ : ∀ t, 0 < ρ t) (hx : ∀ t < nt, circularMean n (weights b data (r * nt + t)) = ρ t * Complex.exp (2 * Real.pi * Complex.I * (x t / A 0 0 : ℝ)))
    (h0 : -(A 0 0 / 2) < x 0 ∧ x 0 ≤ A 0 0 / 2) (hstep : ∀ t, t + 1 < nt → |x (t + 1) - x t| < A 0 0 / 2) :
    ∃ f, getRestoredX same A nt ⟨lb, b, data⟩ 0 = some f ∧ ∀ t < nt, f (r * nt + t) = x t := by
  obtain ⟨f, hf, k⟩ := restoredX_one same hs n b hb hob hshape A lb data nt
  have hpi := Real.pi_pos
  refine ⟨f, hf, fun t ht => ?_⟩
  rw [k r t ht]
  have key := C80_follows (fun j => 2 * Real.pi * (x (min j t) / A 0 0)) (by
    simp only [Nat.zero_min]
    obtain ⟨a, c⟩ := h0
    constructor
    · have : -(1 / 2) < x 0 / A 0 0 := by rw [lt_div_iff₀ hL]; linarith
      nlinarith
    · have : x 0 / A 0 0 ≤ 1 / 2 := by rw [div_le_iff₀ hL]; linarith
      nlinarith) (by
    intro j
    by_cases hj : j < t
    · rw [show min (j + 1) t = j + 1 by omega, show min j t = j by omega]
      have := hstep j (by omega)
      rw [← mul_sub, ← sub_div, abs_mul, abs_div, abs_of_pos hL, abs_of_pos (by positivity : (0 : ℝ) < 2 * Real.pi)]
      have h' : |x (j + 1) - x j| / A 0 0 < 1 / 2 := by rw [div_lt_iff₀ hL]; linarith
      nlinarith
    · rw [show min (j + 1) t = t by omega, show min j t = t by omega, sub_self, abs_zero]
      exact hpi) (fun j => ρ (min j t)) (fun j => hρ _) t
  have e : getMeasuredData (fun t => circularMean n (weights b data (r * nt + t))) .angle t =
      getMeasuredData (fun j => ((ρ (min j t) : ℝ) : ℂ) * Complex.exp (((2 * Real.pi * (x (min j t) / A 0 0) : ℝ) : ℂ) * Complex.I)) .angle t := by
    simp only [getMeasuredData]
    refine unwrapAngles_congr _ _ t fun j hj => ?_
    rw [hx j (by omega), show min j t = j by omega]
    congr 3
    push_cast
    ring
  rw [e, key, min_self]
  field_simp

/-! ## C105 -/

/-- The phases of the points of a grid along one axis, weighted with the squared modulus of a function. -/
noncomputable def axisMean (ns : List ℕ) (axis : ℕ) (w : ℕ → ℝ) : ℂ :=
  ∑ p ∈ range ns.prod, Complex.exp (2 * Real.pi * Complex.I * ((unravel ns p).getD axis 0 : ℕ) / (ns.getD axis 0 : ℕ)) * (w p : ℂ)

theorem directionPhase_axis {d : ℕ} (ns : List ℕ) (hd : ns.length = d) (axis : Fin d) (p : ℕ) :
    directionPhase ns (axisDirection d axis) p = 2 * Real.pi * (((unravel ns p).getD axis 0 : ℕ) / (ns.getD axis 0 : ℕ)) := by
  unfold directionPhase
  rw [hd, sum_eq_single (axis : ℕ)]
  · simp [axisDirection, List.getD_eq_getElem?_getD]
  · intro i hi hne
    rw [mem_range] at hi
    have : (axisDirection d axis).getD i 0 = 0 := by
      simp [axisDirection, List.getD_eq_getElem?_getD, List.getElem?_range hi, hne]
    rw [this]
    simp
  · intro h; exact absurd (mem_range.2 axis.2) h

theorem total_weight (b : Basis) (hb : Valid b) (hob : OrthonormalParts b) (data : ℕ → ℂ) (i : ℕ) :
    ∑ p ∈ range (points b), weights b data i p = ∑ j ∈ range (size b), ‖block (size b) data i j‖ ^ 2 := by
  have o := state_orthonormal b hb hob
  have h := dot_expand_expand o (block (size b) data i) (block (size b) data i)
  unfold dot at h
  simp only [Complex.conj_mul'] at h
  unfold weights
  exact_mod_cast h

theorem normalizeStates_block (lb b : Basis) (data : ℕ → ℂ) (i j : ℕ) (hj : j < size b) :
    block (size b) (normalizeStates ⟨lb, b, data⟩).data i j =
      block (size b) data i j / (Real.sqrt (∑ k ∈ range (size b), ‖block (size b) data i k‖ ^ 2) : ℂ) := by
  unfold normalizeStates
  simp only [Basis.n_eq]
  unfold block
  rw [flatten_entry _ _ hj]

theorem weights_normalized (lb b : Basis) (data : ℕ → ℂ) (i p : ℕ) :
    weights b (normalizeStates ⟨lb, b, data⟩).data i p = weights b data i p / ∑ k ∈ range (size b), ‖block (size b) data i k‖ ^ 2 := by
  have hnn : 0 ≤ ∑ k ∈ range (size b), ‖block (size b) data i k‖ ^ 2 := sum_nonneg fun _ _ => by positivity
  unfold weights
  have : expand b (block (size b) (normalizeStates ⟨lb, b, data⟩).data i) p =
      expand b (block (size b) data i) p / (Real.sqrt (∑ k ∈ range (size b), ‖block (size b) data i k‖ ^ 2) : ℂ) := by
    unfold expand
    rw [sum_div]
    refine sum_congr rfl fun j hj => ?_
    rw [normalizeStates_block lb b data i j (mem_range.1 hj)]
    ring
  rw [this, norm_div, Complex.norm_real, div_pow, Real.norm_of_nonneg (Real.sqrt_nonneg _), Real.sq_sqrt hnn]

theorem norm_axis_phase (ns : List ℕ) (axis p : ℕ) :
    ‖Complex.exp (2 * Real.pi * Complex.I * ((unravel ns p).getD axis 0 : ℕ) / (ns.getD axis 0 : ℕ))‖ = 1 := by
  rw [show (2 * Real.pi * Complex.I * ((unravel ns p).getD axis 0 : ℕ) / (ns.getD axis 0 : ℕ) : ℂ) =
    ((2 * Real.pi * ((unravel ns p).getD axis 0 : ℕ) / (ns.getD axis 0 : ℕ) : ℝ) : ℂ) * Complex.I by push_cast; ring]
  exact Complex.norm_exp_ofReal_mul_I _

theorem axisMean_le (ns : List ℕ) (axis : ℕ) (w : ℕ → ℝ) (hw : ∀ p, 0 ≤ w p) : ‖axisMean ns axis w‖ ≤ ∑ p ∈ range ns.prod, w p := by
  refine (norm_sum_le _ _).trans (sum_le_sum fun p _ => ?_)
  rw [norm_mul, norm_axis_phase, one_mul, Complex.norm_real, Real.norm_of_nonneg (hw p)]

/-- **C105**: the width satisfies the documented relation to the modulus of the expectation in the normalised state, for all bases and numbers of axes; the
states are normalised in place. -/
theorem C105_spread {d : ℕ} (same : Basis → Basis → Bool) (hs : Sound same) (b : Basis) (hb : Valid b) (hob : OrthonormalParts b)
    (hd : b.fundamentalShape.length = d) (A : Matrix (Fin d) (Fin d) ℝ) (axis : Fin d) (hA : A axis ≠ 0) (lb : Basis) (data : ℕ → ℂ) :
    ∃ σ l, getXSpread same A ⟨lb, b, data⟩ axis = some (σ, l) ∧ l.basis = b ∧ l.listBasis = lb ∧
      ∀ i, (∃ j < size b, block (size b) data i j ≠ 0) →
        (dot (size b) (block (size b) l.data i) (block (size b) l.data i) = 1 ∧
          ∃ c : ℝ, 0 < c ∧ ∀ j < size b, block (size b) data i j = c * block (size b) l.data i j) ∧
        0 ≤ σ i ∧
        (axisMean b.fundamentalShape axis (weights b data i) ≠ 0 →
          ‖axisMean b.fundamentalShape axis (weights b data i)‖ =
            Real.exp (-(σ i ^ 2 * (2 * Real.pi / vnorm (A axis)) ^ 2) / 4) * ∑ p ∈ range (points b), weights b data i p) := by
  obtain ⟨z, hz, k⟩ := C104_periodic same hs b hb hob (axisDirection d axis) (by rw [hd]; simp [axisDirection]) lb (normalizeStates ⟨lb, b, data⟩).data
  refine ⟨fun i => Real.sqrt (-(4 / (2 * Real.pi / vnorm (A axis)) ^ 2) * Real.log ‖z i‖), normalizeStates ⟨lb, b, data⟩, ?_, rfl, rfl, ?_⟩
  · unfold getXSpread
    have : normalizeStates ⟨lb, b, data⟩ = ⟨lb, b, (normalizeStates ⟨lb, b, data⟩).data⟩ := rfl
    dsimp only
    rw [this, hz]
    rfl
  · intro i hi
    have hS : 0 < ∑ k ∈ range (size b), ‖block (size b) data i k‖ ^ 2 := by
      obtain ⟨j, hj, hne⟩ := hi
      refine sum_pos' (fun _ _ => by positivity) ⟨j, mem_range.2 hj, ?_⟩
      have := norm_pos_iff.2 hne
      positivity
    have hsq := Real.sqrt_pos.2 hS
    have hT := total_weight b hb hob data i
    have hv : 0 < vnorm (A axis) := by
      rw [vnorm_eq_norm, norm_pos_iff]
      intro h
      exact hA (congrArg WithLp.ofLp h)
    have hq : 0 < 2 * Real.pi / vnorm (A axis) := div_pos (by have := Real.pi_pos; positivity) hv
    refine ⟨⟨?_, ⟨_, hsq, fun j hj => ?_⟩⟩, Real.sqrt_nonneg _, fun hne => ?_⟩
    · unfold dot
      have : ∀ j ∈ range (size b), (starRingEnd ℂ) (block (size b) (normalizeStates ⟨lb, b, data⟩).data i j) *
          block (size b) (normalizeStates ⟨lb, b, data⟩).data i j =
          ((‖block (size b) data i j‖ ^ 2 / ∑ k ∈ range (size b), ‖block (size b) data i k‖ ^ 2 : ℝ) : ℂ) := by
        intro j hj
        rw [Complex.conj_mul', normalizeStates_block lb b data i j (mem_range.1 hj), norm_div, Complex.norm_real,
          Real.norm_of_nonneg hsq.le, ← Complex.ofReal_pow, div_pow, Real.sq_sqrt hS.le]
      rw [sum_congr rfl this, ← Complex.ofReal_sum, ← sum_div, div_self hS.ne', Complex.ofReal_one]
    · rw [normalizeStates_block lb b data i j hj]
      have : (Real.sqrt (∑ k ∈ range (size b), ‖block (size b) data i k‖ ^ 2) : ℂ) ≠ 0 := by exact_mod_cast hsq.ne'
      field_simp
    · have hzi : z i = axisMean b.fundamentalShape axis (weights b data i) / ((∑ k ∈ range (size b), ‖block (size b) data i k‖ ^ 2 : ℝ) : ℂ) := by
        rw [k i, axisMean, sum_div, fundamentalShape_prod]
        refine sum_congr rfl fun p _ => ?_
        rw [directionPhase_axis _ hd]
        change _ * ((weights b (normalizeStates ⟨lb, b, data⟩).data i p : ℝ) : ℂ) = _
        rw [weights_normalized, Complex.ofReal_div, mul_div_assoc]
        congr 2
        push_cast
        ring
      have hzn : ‖z i‖ = ‖axisMean b.fundamentalShape axis (weights b data i)‖ / ∑ k ∈ range (size b), ‖block (size b) data i k‖ ^ 2 := by
        rw [hzi, norm_div, Complex.norm_real, Real.norm_of_nonneg hS.le]
      have hz0 : 0 < ‖z i‖ := by
        rw [hzn]
        exact div_pos (norm_pos_iff.2 hne) hS
      have hz1 : ‖z i‖ ≤ 1 := by
        rw [hzn, div_le_one hS, ← hT, ← fundamentalShape_prod]
        exact axisMean_le _ _ _ fun p => by unfold weights; positivity
      have hlog : Real.log ‖z i‖ ≤ 0 := Real.log_nonpos hz0.le hz1
      beta_reduce
      rw [Real.sq_sqrt (by
        have : 0 < 4 / (2 * Real.pi / vnorm (A axis)) ^ 2 := by positivity
        nlinarith), hT]
      have e : -(-(4 / (2 * Real.pi / vnorm (A axis)) ^ 2) * Real.log ‖z i‖ * (2 * Real.pi / vnorm (A axis)) ^ 2) / 4 = Real.log ‖z i‖ := by
        generalize 2 * Real.pi / vnorm (A axis) = q at hq
        have := hq.ne'
        field_simp
      rw [e, Real.exp_log hz0, hzn]
      field_simp

theorem axis_lt {ns : List ℕ} {p axis : ℕ} (hp : p < ns.prod) (ha : axis < ns.length) : (unravel ns p).getD axis 0 < ns.getD axis 0 := by
  exact inShape_getD _ _ (unravel_inShape ns p hp) axis ha

/-- Two unit phases along an axis agree only for the same coordinate. -/
theorem axis_phase_inj {n a c : ℕ} (ha : a < n) (hc : c < n)
    (h : Complex.exp (2 * Real.pi * Complex.I * a / n) = Complex.exp (2 * Real.pi * Complex.I * c / n)) : a = c := by
  rw [Complex.exp_eq_exp_iff_exists_int] at h
  obtain ⟨m, hm⟩ := h
  have hn : (n : ℂ) ≠ 0 := by
    have : 0 < n := by omega
    exact_mod_cast this.ne'
  have h2 : (2 * Real.pi * Complex.I : ℂ) ≠ 0 := Complex.two_pi_I_ne_zero
  have hm' : (2 * Real.pi * Complex.I) * (a : ℂ) = (2 * Real.pi * Complex.I) * ((c : ℂ) + m * n) := by
    have := congrArg (· * (n : ℂ)) hm
    field_simp at this
    linear_combination (2 * Real.pi * Complex.I) * this
  have := mul_left_cancel₀ h2 hm'
  have this' : (a : ℤ) = c + m * n := by exact_mod_cast this
  have h3 : m * n < 1 * n := by omega
  have h4 : -1 * (n : ℤ) < m * n := by omega
  have h5 := lt_of_mul_lt_mul_right h3 (by omega)
  have h6 := lt_of_mul_lt_mul_right h4 (by omega)
  have : m = 0 := by omega
  subst this
  omega

/-- Equality in the triangle inequality of the phases. -/
theorem axisMean_eq_iff (ns : List ℕ) (axis : ℕ) (ha : axis < ns.length) (w : ℕ → ℝ) (hw : ∀ p, 0 ≤ w p) (hne : axisMean ns axis w ≠ 0) :
    ‖axisMean ns axis w‖ = ∑ p ∈ range ns.prod, w p ↔
      ∀ p < ns.prod, ∀ p' < ns.prod, w p ≠ 0 → w p' ≠ 0 → (unravel ns p).getD axis 0 = (unravel ns p').getD axis 0 := by
  set e : ℕ → ℂ := fun p => Complex.exp (2 * Real.pi * Complex.I * ((unravel ns p).getD axis 0 : ℕ) / (ns.getD axis 0 : ℕ)) with he
  have hen : ∀ p, ‖e p‖ = 1 := fun p => norm_axis_phase ns axis p
  have hz : axisMean ns axis w = ∑ p ∈ range ns.prod, e p * (w p : ℂ) := rfl
  constructor
  · intro h p hp p' hp' h1 h2
    set z := axisMean ns axis w
    set u : ℂ := z / ‖z‖
    have hz0 : (‖z‖ : ℂ) ≠ 0 := by exact_mod_cast (norm_pos_iff.2 hne).ne'
    have hu : ‖u‖ = 1 := by simp [u, norm_div, hne]
    have huz : (starRingEnd ℂ) u * z = ‖z‖ := by
      simp only [u, map_div₀, Complex.conj_ofReal, div_mul_eq_mul_div, Complex.conj_mul']
      field_simp
    have hre : ∀ q, ((starRingEnd ℂ) u * e q).re ≤ 1 := by
      intro q
      refine (Complex.re_le_norm _).trans ?_
      rw [norm_mul, hen, mul_one, Complex.norm_conj, hu]
    have hsum : ∑ q ∈ range ns.prod, w q * (1 - ((starRingEnd ℂ) u * e q).re) = 0 := by
      have hr := congrArg Complex.re huz
      rw [Complex.ofReal_re, h, hz, mul_sum, Complex.re_sum] at hr
      rw [sum_congr rfl fun q _ => (mul_sub (w q) 1 _), sum_sub_distrib, sub_eq_zero]
      simp only [mul_one]
      rw [← hr]
      refine sum_congr rfl fun q _ => ?_
      rw [← mul_assoc, Complex.re_mul_ofReal, mul_comm]
    have hq : ∀ q < ns.prod, w q ≠ 0 → e q = u := by
      intro q hq hwq
      have h0 := (sum_eq_zero_iff_of_nonneg (fun q _ => mul_nonneg (hw q) (sub_nonneg.2 (hre q)))).1 hsum q (mem_range.2 hq)
      rcases mul_eq_zero.1 h0 with h0 | h0
      · exact absurd h0 hwq
      · have h1 : ((starRingEnd ℂ) u * e q).re = 1 := by linarith
        have hnn : ‖(starRingEnd ℂ) u * e q‖ = 1 := by rw [norm_mul, hen, mul_one, Complex.norm_conj, hu]
        have him : ((starRingEnd ℂ) u * e q).im = 0 := by
          have := Complex.sq_norm ((starRingEnd ℂ) u * e q)
          rw [hnn, Complex.normSq_apply, h1] at this
          nlinarith
        have h2 : (starRingEnd ℂ) u * e q = 1 := Complex.ext (by rw [h1, Complex.one_re]) (by rw [him, Complex.one_im])
        have h3 : u * (starRingEnd ℂ) u = 1 := by rw [Complex.mul_conj', hu]; simp
        calc e q = (u * (starRingEnd ℂ) u) * e q := by rw [h3, one_mul]
          _ = u := by rw [mul_assoc, h2, mul_one]
    exact axis_phase_inj (axis_lt hp ha) (axis_lt hp' ha) ((hq p hp h1).trans (hq p' hp' h2).symm)
  · intro h
    by_cases hall : ∀ p < ns.prod, w p = 0
    · exact absurd (by rw [hz]; exact sum_eq_zero fun p hp => by rw [hall p (mem_range.1 hp)]; simp) hne
    · push Not at hall
      obtain ⟨p0, hp0, hw0⟩ := hall
      have : axisMean ns axis w = e p0 * ((∑ p ∈ range ns.prod, w p : ℝ) : ℂ) := by
        rw [hz, Complex.ofReal_sum, mul_sum]
        refine sum_congr rfl fun p hp => ?_
        by_cases hwp : w p = 0
        · rw [hwp]; simp
        · simp only [he]
          rw [h p (mem_range.1 hp) p0 hp0 hwp hw0]
      rw [this, norm_mul, hen, one_mul, Complex.norm_real, Real.norm_of_nonneg (sum_nonneg fun p _ => hw p)]

/-- **C105**: the width is zero exactly for the states which are non-zero only at points with one value of the coordinate along the axis. -/
theorem C105_zero {d : ℕ} (same : Basis → Basis → Bool) (hs : Sound same) (b : Basis) (hb : Valid b) (hob : OrthonormalParts b)
    (hd : b.fundamentalShape.length = d) (A : Matrix (Fin d) (Fin d) ℝ) (axis : Fin d) (hA : A axis ≠ 0) (lb : Basis) (data : ℕ → ℂ) (i : ℕ)
    (hne : ∃ j < size b, block (size b) data i j ≠ 0) (hz : axisMean b.fundamentalShape axis (weights b data i) ≠ 0) :
    ∃ σ l, getXSpread same A ⟨lb, b, data⟩ axis = some (σ, l) ∧ (σ i = 0 ↔ ∀ p < points b, ∀ p' < points b,
      expand b (block (size b) data i) p ≠ 0 → expand b (block (size b) data i) p' ≠ 0 →
        (unravel b.fundamentalShape p).getD axis 0 = (unravel b.fundamentalShape p').getD axis 0) := by
  obtain ⟨σ, l, h, -, -, k⟩ := C105_spread same hs b hb hob hd A axis hA lb data
  refine ⟨σ, l, h, ?_⟩
  obtain ⟨-, -, k⟩ := k i hne
  have k := k hz
  have hv : 0 < vnorm (A axis) := by
    rw [vnorm_eq_norm, norm_pos_iff]
    intro h
    exact hA (congrArg WithLp.ofLp h)
  have hq : 0 < 2 * Real.pi / vnorm (A axis) := div_pos (by have := Real.pi_pos; positivity) hv
  have hw : ∀ p, 0 ≤ weights b data i p := fun p => by unfold weights; positivity
  have hwe : ∀ p, weights b data i p ≠ 0 ↔ expand b (block (size b) data i) p ≠ 0 := by
    intro p; unfold weights; simp
  have hiff := axisMean_eq_iff b.fundamentalShape axis (by rw [hd]; exact axis.2) (weights b data i) hw hz
  rw [fundamentalShape_prod] at hiff
  simp only [hwe] at hiff
  rw [← hiff]
  have hpos : 0 < ‖axisMean b.fundamentalShape axis (weights b data i)‖ := norm_pos_iff.2 hz
  generalize ‖axisMean b.fundamentalShape axis (weights b data i)‖ = m at k hpos
  generalize ∑ p ∈ range (points b), weights b data i p = S at k
  generalize 2 * Real.pi / vnorm (A axis) = q at k hq
  constructor
  · intro h0
    rw [k, h0]; simp
  · intro h0
    have hS : 0 < S := by rw [← h0]; exact hpos
    rw [h0] at k
    have h1 : Real.exp (-(σ i ^ 2 * q ^ 2) / 4) = 1 := by
      have : Real.exp (-(σ i ^ 2 * q ^ 2) / 4) * S = 1 * S := by linarith
      exact mul_right_cancel₀ hS.ne' this
    rw [Real.exp_eq_one_iff] at h1
    have : σ i ^ 2 * q ^ 2 = 0 := by linarith
    rcases mul_eq_zero.1 this with h2 | h2
    · exact pow_eq_zero_iff (two_ne_zero) |>.1 h2
    · exact absurd (pow_eq_zero_iff (two_ne_zero) |>.1 h2) hq.ne'

/-! ## C106 -/

/-- **C106** (one axis): the expectation of the position is the sum over the points of their position times the squared modulus of the state. What is missing are
bases with several axes, see `C106_negation`. -/
theorem C106_x_partial (same : Basis → Basis → Bool) (hs : Sound same) (n : ℕ) (b : Basis) (hb : Valid b) (hob : OrthonormalParts b)
    (hshape : b.fundamentalShape = [n]) (A : Matrix (Fin 1) (Fin 1) ℝ) (lb : Basis) (data : ℕ → ℂ) :
    ∃ x, getAverageX same A ⟨lb, b, data⟩ 0 = some x ∧ ∀ i, x i = ((∑ p ∈ range n, (A 0 0 * p / n) * weights b data i p : ℝ) : ℂ) := by
  have hsh : shapeFn 1 [n] 0 = n := rfl
  obtain ⟨X, x, hX, hx, k⟩ := expectation_position same hs b hb hob
    (fun j => (((((stackedNxPoints [n] j).getD (0 : Fin 1) 0 : ℕ) : ℝ) * (A 0 0 / n) : ℝ) : ℂ)) lb data
  refine ⟨x, ?_, fun i => ?_⟩
  · unfold getAverageX getXOperator
    dsimp only
    rw [hshape]
    have : labelData [n].prod (fun j => ((stackedNxPoints [n] j).getD (0 : Fin 1) 0 : ℕ)) (List.ofFn (dxStacked A (shapeFn 1 [n]) 0)) =
        some (fun j => (((((stackedNxPoints [n] j).getD (0 : Fin 1) 0 : ℕ) : ℝ) * (A 0 0 / n) : ℝ) : ℂ)) := by
      simp [labelData, mulBroadcast, dxStacked, shapeFn]
    rw [this, Option.bind_some, hX, Option.bind_some, hx]
  · rw [k i, points_one b n hshape, Complex.ofReal_sum]
    refine sum_congr rfl fun p hp => ?_
    rw [mem_range] at hp
    have : (stackedNxPoints [n] p).getD (0 : Fin 1) 0 = p := by simp [stackedNxPoints, unravel, Nat.mod_eq_of_lt hp]
    rw [this]
    unfold weights
    push_cast
    ring

/-- **C106** (one axis): the expectation of the momentum is the sum over the centred momenta of the momentum times the squared modulus of the component of the state
along the plane wave with this momentum. -/
theorem C106_k_partial (same : Basis → Basis → Bool) (hs : Sound same) (n : ℕ) (b : Basis) (hb : Valid b) (hob : OrthonormalParts b)
    (hshape : b.fundamentalShape = [n]) (A : Matrix (Fin 1) (Fin 1) ℝ) (hL : A 0 0 ≠ 0) (lb : Basis) (data : ℕ → ℂ) :
    ∃ x, getAverageK same A ⟨lb, b, data⟩ 0 = some x ∧ ∀ i, x i = ((∑ j ∈ range n, (2 * Real.pi / A 0 0 * freq n j) *
      ‖dot n (planeWave n (freq n j)) (expand b (block (size b) data i))‖ ^ 2 : ℝ) : ℂ) := by
  have ht : b.asTransformedBasis = .tuple [.fundamentalTransformed n] := by
    rw [Basis.asTransformedBasis, hshape]; rfl
  have hdk : dkStacked A 0 0 = 2 * Real.pi / A 0 0 := by
    have : A⁻¹ = !![(A 0 0)⁻¹] := by
      rw [Matrix.inv_eq_right_inv]
      ext i j
      fin_cases i; fin_cases j
      simp [Matrix.mul_apply, hL]
    simp [dkStacked, this, div_eq_mul_inv]
  obtain ⟨K, x, hK, hx, k⟩ := expectation_converted same hs b.asTransformedBasis b (by rw [ht]; exact ⟨trivial, trivial⟩) hb
    (by rw [ht]; exact ⟨trivial, trivial⟩) hob (compatible_asTransformed' b)
    (fun j => (((((stackedNkPoints [n] j).getD (0 : Fin 1) 0 : ℤ) : ℝ) * (2 * Real.pi / A 0 0) : ℝ) : ℂ)) lb data
  refine ⟨x, ?_, fun i => ?_⟩
  · unfold getAverageK getKOperator
    dsimp only
    rw [hshape]
    have : labelData [n].prod (fun j => (stackedNkPoints [n] j).getD (0 : Fin 1) 0) (List.ofFn (dkStacked A 0)) =
        some (fun j => (((((stackedNkPoints [n] j).getD (0 : Fin 1) 0 : ℤ) : ℝ) * (2 * Real.pi / A 0 0) : ℝ) : ℂ)) := by
      have : List.ofFn (dkStacked A 0) = [2 * Real.pi / A 0 0] := by simp [hdk]
      rw [this]
      simp [labelData, mulBroadcast]
    rw [this, Option.bind_some, hK, Option.bind_some, hx]
  · rw [k i, ht, Complex.ofReal_sum]
    have hsz : size (.tuple [.fundamentalTransformed n]) = n := by simp [size, sizes]
    have hpt : points (.tuple [.fundamentalTransformed n]) = n := by simp [points, pointss]
    rw [hsz, hpt]
    refine sum_congr rfl fun j hj => ?_
    rw [mem_range] at hj
    have e1 : (stackedNkPoints [n] j).getD (0 : Fin 1) 0 = freq n j := by
      simp [stackedNkPoints, unravel, Nat.mod_eq_of_lt hj, nkPoints_eq_freq hj]
    have e2 : dot n (state (.tuple [.fundamentalTransformed n]) j) (expand b (block (size b) data i)) =
        dot n (planeWave n (freq n j)) (expand b (block (size b) data i)) := by
      unfold dot
      refine sum_congr rfl fun x _ => ?_
      congr 2
      simp only [state, states, sizes, pointss, Nat.div_one, mul_one]
      exact planeWave_congr (by omega) (Int.ModEq.dvd freq_emod) x
    rw [e1, e2]
    push_cast
    ring

/-- **C106** fails with several axes: the product of the vector of the lattice and the labels of the points raises unless by accident the number of points is the
number of axes. -/
theorem C106_negation {d : ℕ} (hd : 2 ≤ d) (same : Basis → Basis → Bool) (A : Matrix (Fin d) (Fin d) ℝ) (l : StateVectorList) (axis : Fin d)
    (h : points l.basis ≠ d) : getAverageX same A l axis = none ∧ getAverageK same A l axis = none := by
  have key : ∀ (labels : ℕ → ℤ) (v : Fin d → ℝ), labelData (points l.basis) labels (List.ofFn v) = none := by
    intro labels v
    unfold labelData mulBroadcast
    rw [List.length_ofFn, if_neg (by omega), if_neg h]
    by_cases h1 : points l.basis = 1
    · rw [if_pos h1, Option.bind_some]
      dsimp only
      rw [if_neg (Ne.symm h)]
    · rw [if_neg h1]; rfl
  unfold getAverageX getXOperator getAverageK getKOperator
  dsimp only
  rw [fundamentalShape_prod, key, key]
  exact ⟨rfl, rfl⟩

/-- **C106** (one axis): the coordinates are the average position, the expectation of the momentum and the width of the normalised states; the argument is
normalised in place. -/
theorem C106_coherent_partial (same : Basis → Basis → Bool) (hs : Sound same) (n : ℕ) (b : Basis) (hb : Valid b) (hob : OrthonormalParts b)
    (hshape : b.fundamentalShape = [n]) (A : Matrix (Fin 1) (Fin 1) ℝ) (hL : 0 < A 0 0) (lb : Basis) (data : ℕ → ℂ) :
    ∃ x0 k0 σ l, getCoherentCoordinates same A ⟨lb, b, data⟩ 0 = some (x0, k0, σ, l) ∧ l.basis = b ∧ l.listBasis = lb ∧
      ∀ i, (∃ j < size b, block (size b) data i j ≠ 0) →
        (∃ c : ℝ, 0 < c ∧ (∀ j < size b, block (size b) data i j = c * block (size b) l.data i j) ∧
          ∑ p ∈ range n, weights b l.data i p = 1 ∧
          k0 i = ((∑ j ∈ range n, (2 * Real.pi / A 0 0 * freq n j) *
            ‖dot n (planeWave n (freq n j)) (expand b (block (size b) l.data i))‖ ^ 2 : ℝ) : ℂ)) ∧
        0 ≤ x0 i ∧ x0 i < A 0 0 ∧ 0 ≤ σ i ∧
        (circularMean n (weights b l.data i) ≠ 0 → circularMean n (weights b l.data i) =
          Real.exp (-(σ i ^ 2 * (2 * Real.pi / A 0 0) ^ 2) / 4) * Complex.exp (2 * Real.pi * Complex.I * (x0 i / A 0 0 : ℝ))) := by
  obtain ⟨σ, l, hσ, hlb, hll, kσ⟩ := C105_spread same hs b hb hob (by rw [hshape]; rfl) A 0
    (fun h => hL.ne' (congrFun h 0)) lb data
  have hl : l = ⟨lb, b, l.data⟩ := by cases l; subst hlb; subst hll; rfl
  obtain ⟨x0, hx0, kx⟩ := C104_average_partial same hs n b hb hob hshape A hL lb l.data
  obtain ⟨k0, hk0, kk⟩ := C106_k_partial same hs n b hb hob hshape A hL.ne' lb l.data
  refine ⟨x0, k0, σ, l, ?_, hlb, hll, fun i hi => ?_⟩
  · unfold getCoherentCoordinates
    rw [hσ, Option.bind_some]
    dsimp only
    rw [hl, hx0, Option.bind_some, hk0, Option.map_some]
  · obtain ⟨⟨h1, c, hc, hcj⟩, h2, h3⟩ := kσ i hi
    obtain ⟨x1, x2, x3⟩ := kx i
    have hw1 : ∑ p ∈ range n, weights b l.data i p = 1 := by
      have := total_weight b hb hob l.data i
      rw [points_one b n hshape] at this
      rw [this]
      unfold dot at h1
      simp only [Complex.conj_mul'] at h1
      exact_mod_cast h1
    refine ⟨⟨c, hc, hcj, hw1, kk i⟩, x1, x2, h2, fun hne => ?_⟩
    have hwc : ∀ p, weights b data i p = c ^ 2 * weights b l.data i p := by
      intro p
      have : expand b (block (size b) data i) p = c * expand b (block (size b) l.data i) p := by
        unfold expand
        rw [mul_sum]
        refine sum_congr rfl fun j hj => ?_
        rw [hcj j (mem_range.1 hj)]
        ring
      unfold weights
      rw [this, norm_mul, Complex.norm_real, Real.norm_of_nonneg hc.le, mul_pow]
    have hax : axisMean b.fundamentalShape (0 : Fin 1) (weights b data i) = (c ^ 2 : ℝ) * circularMean n (weights b l.data i) := by
      unfold axisMean circularMean
      rw [hshape, mul_sum, List.prod_singleton]
      refine sum_congr rfl fun p hp => ?_
      rw [mem_range] at hp
      have : (unravel [n] p).getD (0 : Fin 1) 0 = p := by simp [unravel, Nat.mod_eq_of_lt hp]
      rw [this, hwc p]
      have h' : [n].getD (0 : Fin 1) 0 = n := rfl
      rw [h']
      push_cast
      ring
    have hc2 : (0 : ℝ) < c ^ 2 := by positivity
    have h3 := h3 (by rw [hax]; exact mul_ne_zero (by exact_mod_cast hc2.ne') hne)
    have hv : vnorm (A 0) = A 0 0 := by
      rw [vnorm_eq_norm, EuclideanSpace.norm_eq]
      simp [Real.sqrt_sq_eq_abs, abs_of_pos hL]
    rw [hax, norm_mul, Complex.norm_real, Real.norm_of_nonneg hc2.le, points_one b n hshape, hv] at h3
    simp only [hwc] at h3
    rw [← mul_sum, hw1, mul_one, mul_comm (Real.exp _)] at h3
    have h4 := mul_left_cancel₀ hc2.ne' h3
    rw [x3, h4]

/-- The hypotheses hold for two basis states of a grid with four points, the second state is a truncated plane wave basis. -/
example : Valid (.tuple [.transformed 3 4]) ∧ OrthonormalParts (.tuple [.transformed 3 4]) ∧
    (Basis.tuple [.transformed 3 4]).fundamentalShape = [4] ∧ (0 : ℝ) < (!![2] : Matrix (Fin 1) (Fin 1) ℝ) 0 0 := by
  refine ⟨⟨show 3 ≤ 4 by norm_num, trivial⟩, ⟨trivial, trivial⟩, rfl, by norm_num⟩

end Verif
