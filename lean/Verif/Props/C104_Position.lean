import Verif.Model.PositionAverage
import Verif.Props.C52_Wannier
import Verif.Props.C29_Operators
import Verif.Props.C78_Util

/-!
C104: average position in a periodic cell. C105: width of a state. C106: expectation of position and momentum.
-/

set_option autoImplicit false

namespace Verif

open Finset Spec

/-! ## Expectations of diagonal operators -/

/-- The expectation of an operator which is diagonal in a basis `a`, converted to a basis `b`. -/
theorem expectation_converted (same : Basis → Basis → Bool) (hs : Sound same) (a b : Basis) (ha : Valid a) (hb : Valid b) (hoa : OrthonormalParts a)
    (hob : OrthonormalParts b) (hc : Compatible a b) (diag : ℕ → ℂ) (lb : Basis) (data : ℕ → ℂ) :
    ∃ A x, convertDiagonalOperator same ⟨a, a, diag⟩ b b = some A ∧ calculateExpectationList same A ⟨lb, b, data⟩ = some x ∧
      ∀ i, x i = ∑ k ∈ range (size a), diag k * ((‖dot (points a) (state a k) (expand b (block (size b) data i))‖ ^ 2 : ℝ) : ℂ) := by
  obtain ⟨C, f, f', hC, hf, hf', h⟩ := C17_matrix same hs a b a b ha hb hoa hc ha hb hoa hc
  rw [hf] at hf'
  cases hf'
  obtain ⟨g, hg, kg⟩ := convert_kernel same hs a b ha hb hoa hc
  rw [hf] at hg
  cases hg
  obtain ⟨C', hC', kC'⟩ := convertMatrix_same same hs b b hb hb hob hob
  have hfu : ∀ i' < size a, ∀ i < size b, f (unit i') i = overlapKernel a b i i' := by
    intro i' hi' i hi
    rw [kg _ i hi, sum_eq_single i']
    · simp [unit]
    · intro j _ hj; simp [unit, hj]
    · intro hn; exact absurd (mem_range.2 hi') hn
  refine ⟨⟨b, b, [b.n * b.n], flatten b.n (C (asOperator ⟨a, a, diag⟩).entry)⟩,
    fun i => ∑ j ∈ range (size b), ∑ k ∈ range (size b), (starRingEnd ℂ) (block (size b) data i j) *
      C (asOperator ⟨a, a, diag⟩).entry j k * block (size b) data i k,
    by rw [convertDiagonalOperator, convertOperator]; dsimp only [asOperator]; rw [hC]; rfl, ?_, ?_⟩
  · unfold calculateExpectationList convertOperator
    dsimp only
    rw [hC', Option.map_some, Option.map_some, Option.some.injEq]
    funext i
    rw [Basis.n_eq]
    refine sum_congr rfl fun j hj => sum_congr rfl fun k hk => ?_
    rw [mem_range] at hj hk
    congr 2
    simp only [Operator.entry, Basis.n_eq]
    rw [flatten_entry _ _ hk, kC' _ j hj k hk]
    simp only [Operator.entry, Basis.n_eq]
    rw [flatten_entry _ _ hk]
  · intro i
    beta_reduce
    generalize block (size b) data i = v
    have hD : ∀ i' < size a, ∀ j' < size a, (asOperator ⟨a, a, diag⟩).entry i' j' = if i' = j' then diag i' else 0 := by
      intro i' _ j' hj'
      simp only [asOperator, Operator.entry, Basis.n_eq]
      exact flatten_entry _ _ hj'
    have hCd : ∀ j < size b, ∀ k < size b, C (asOperator ⟨a, a, diag⟩).entry j k =
        ∑ i' ∈ range (size a), overlapKernel a b j i' * diag i' * (starRingEnd ℂ) (overlapKernel a b k i') := by
      intro j hj k hk
      rw [h _ j hj k hk]
      refine sum_congr rfl fun i' hi' => ?_
      rw [mem_range] at hi'
      rw [sum_eq_single i']
      · rw [hD i' hi' i' hi', if_pos rfl, hfu i' hi' j hj, hfu i' hi' k hk]
      · intro j' hj' hne
        rw [hD i' hi' j' (mem_range.1 hj'), if_neg (Ne.symm hne), mul_zero, zero_mul]
      · intro hn; exact absurd (mem_range.2 hi') hn
    have hsum : ∀ i' < size a, ∑ j ∈ range (size b), (starRingEnd ℂ) (overlapKernel a b j i') * v j = dot (points a) (state a i') (expand b v) := by
      intro i' _
      unfold overlapKernel dot expand
      simp only [map_sum, map_mul, Complex.conj_conj, sum_mul, mul_sum]
      rw [sum_comm]
      exact sum_congr rfl fun x _ => sum_congr rfl fun j _ => by ring
    calc ∑ j ∈ range (size b), ∑ k ∈ range (size b), (starRingEnd ℂ) (v j) * C (asOperator ⟨a, a, diag⟩).entry j k * v k
        = ∑ j ∈ range (size b), ∑ k ∈ range (size b), ∑ i' ∈ range (size a), diag i' * (((starRingEnd ℂ) (v j) * overlapKernel a b j i') *
            ((starRingEnd ℂ) (overlapKernel a b k i') * v k)) := by
          refine sum_congr rfl fun j hj => sum_congr rfl fun k hk => ?_
          rw [hCd j (mem_range.1 hj) k (mem_range.1 hk), mul_sum, sum_mul]
          exact sum_congr rfl fun i' _ => by ring
      _ = ∑ i' ∈ range (size a), diag i' * ((∑ j ∈ range (size b), (starRingEnd ℂ) (v j) * overlapKernel a b j i') *
            ∑ k ∈ range (size b), (starRingEnd ℂ) (overlapKernel a b k i') * v k) := by
          rw [sum_congr rfl fun j _ => sum_comm, sum_comm]
          refine sum_congr rfl fun i' _ => ?_
          rw [sum_mul_sum, mul_sum]
          exact sum_congr rfl fun j _ => by rw [mul_sum]
      _ = _ := by
          refine sum_congr rfl fun i' hi' => ?_
          have hi := mem_range.1 hi'
          have hcj : ∑ j ∈ range (size b), (starRingEnd ℂ) (v j) * overlapKernel a b j i' = (starRingEnd ℂ) (dot (points a) (state a i') (expand b v)) := by
            rw [← hsum i' hi, map_sum]
            exact sum_congr rfl fun j _ => by rw [map_mul, Complex.conj_conj, mul_comm]
          rw [hcj, hsum i' hi]
          congr 1
          rw [Complex.conj_mul']
          push_cast
          rfl

/-- The position basis of the points of a basis is compatible with it. -/
theorem compatible_asPosition' (b : Basis) : Compatible b.asPositionBasis b := by
  have hp : points b.asPositionBasis = points b := by
    rw [Basis.asPositionBasis, (fund_facts _).2.1, fundamentalShape_prod]
  cases b with
  | tuple axes =>
    show Compatibles _ axes
    rw [Basis.fundamentalShape]
    clear hp
    induction axes with
    | nil => trivial
    | cons a axes ih =>
      rw [Basis.methodsList]
      exact ⟨by
        show Compatible (.fundamental _) a
        rw [(methods_sizes a).2]
        cases a <;> rfl, ih⟩
  | _ => exact hp

theorem compatible_asTransformed' (b : Basis) : Compatible b.asTransformedBasis b := by
  have hp : points b.asTransformedBasis = points b := points_asTransformed b
  cases b with
  | tuple axes =>
    show Compatibles _ axes
    rw [Basis.fundamentalShape]
    clear hp
    induction axes with
    | nil => trivial
    | cons a axes ih =>
      rw [Basis.methodsList]
      exact ⟨by
        show Compatible (.fundamentalTransformed _) a
        rw [(methods_sizes a).2]
        cases a <;> rfl, ih⟩
  | _ => exact hp

theorem orthonormalParts_fundamental (ns : List ℕ) : OrthonormalParts (.tuple (ns.map .fundamental)) := by
  show OrthonormalPartss _
  induction ns with
  | nil => trivial
  | cons n ns ih => exact ⟨trivial, ih⟩

/-- The expectation of a function of the position. -/
theorem expectation_position (same : Basis → Basis → Bool) (hs : Sound same) (b : Basis) (hb : Valid b) (hob : OrthonormalParts b) (diag : ℕ → ℂ)
    (lb : Basis) (data : ℕ → ℂ) :
    ∃ A x, convertDiagonalOperator same ⟨b.asPositionBasis, b.asPositionBasis, diag⟩ b b = some A ∧
      calculateExpectationList same A ⟨lb, b, data⟩ = some x ∧
      ∀ i, x i = ∑ p ∈ range (points b), diag p * ((‖expand b (block (size b) data i) p‖ ^ 2 : ℝ) : ℂ) := by
  obtain ⟨h1, h2, h3, h4⟩ := fund_facts b.fundamentalShape
  obtain ⟨A, x, hA, hx, k⟩ := expectation_converted same hs b.asPositionBasis b h4 hb (orthonormalParts_fundamental _) hob (compatible_asPosition' b)
    diag lb data
  refine ⟨A, x, hA, hx, fun i => ?_⟩
  rw [k i, Basis.asPositionBasis, h1, h2, ← fundamentalShape_prod]
  refine sum_congr rfl fun p hp => ?_
  rw [mem_range] at hp
  congr 4
  unfold dot
  rw [sum_eq_single p]
  · rw [h3 p hp p hp, if_pos rfl, map_one, one_mul]
  · intro y hy hne
    rw [h3 p hp y (mem_range.1 hy), if_neg (Ne.symm hne), map_zero, zero_mul]
  · intro hn; exact absurd (mem_range.2 hp) hn

/-! ## C104 -/

/-- The phase of the point `p` of a grid in a direction of the reciprocal lattice. -/
noncomputable def directionPhase (ns : List ℕ) (dir : List ℤ) (p : ℕ) : ℝ :=
  2 * Real.pi * ∑ i ∈ range ns.length, (dir.getD i 0 : ℝ) * ((unravel ns p).getD i 0 : ℕ) / (ns.getD i 0 : ℕ)

theorem periodicPhase_eq (ns : List ℕ) (dir : List ℤ) (h : dir.length = ns.length) (p : ℕ) : periodicPhase ns dir p = directionPhase ns dir p := by
  unfold periodicPhase directionPhase stackedNxPoints
  congr 1
  have key : ∀ (xs ns : List ℕ) (ds : List ℤ), xs.length = ns.length → ds.length = ns.length →
      (List.zipWith (fun (x : ℕ) (k : ℝ) => (x : ℝ) * k) xs (List.zipWith (fun (n : ℤ) (f : ℕ) => (n : ℝ) / f) ds ns)).sum =
        ∑ i ∈ range ns.length, (ds.getD i 0 : ℝ) * (xs.getD i 0 : ℕ) / (ns.getD i 0 : ℕ) := by
    intro xs ns
    induction ns generalizing xs with
    | nil => intro ds hx hd; cases xs <;> simp at hx ⊢
    | cons n ns ih =>
      intro ds hx hd
      cases xs with
      | nil => simp at hx
      | cons x xs =>
        cases ds with
        | nil => simp at hd
        | cons dd ds =>
          simp only [List.zipWith_cons_cons, List.sum_cons, List.length_cons, sum_range_succ', List.getD_cons_succ, List.getD_cons_zero]
          rw [ih xs ds (by simpa using hx) (by simpa using hd)]
          ring
  refine key _ _ _ ?_ h
  clear key h
  induction ns with
  | nil => rfl
  | cons n ns ih => simp [unravel, ih]

/-- **C104**: the expectation of the periodic position operator is the sum over the points of the squared modulus of the state times the phase of the point in the
given direction, for all bases, also truncated ones, and all numbers of axes. -/
theorem C104_periodic (same : Basis → Basis → Bool) (hs : Sound same) (b : Basis) (hb : Valid b) (hob : OrthonormalParts b) (dir : List ℤ)
    (hd : dir.length = b.fundamentalShape.length) (lb : Basis) (data : ℕ → ℂ) :
    ∃ z, getPeriodicX same ⟨lb, b, data⟩ (some dir) = some z ∧
      ∀ i, z i = ∑ p ∈ range (points b), Complex.exp (Complex.I * (directionPhase b.fundamentalShape dir p : ℝ)) *
        ((‖expand b (block (size b) data i) p‖ ^ 2 : ℝ) : ℂ) := by
  obtain ⟨A, x, hA, hx, k⟩ := expectation_position same hs b hb hob
    (fun j => Complex.exp (Complex.I * (periodicPhase b.fundamentalShape dir j : ℝ))) lb data
  refine ⟨x, ?_, fun i => ?_⟩
  · unfold getPeriodicX getPeriodicXOperator
    dsimp only [Option.getD_some]
    rw [if_pos (by rw [hd, min_self]), hA, Option.bind_some, hx]
  · rw [k i]
    simp only [periodicPhase_eq _ _ hd]

/-- The default direction is the sum of the reciprocal vectors. -/
theorem periodicX_default (same : Basis → Basis → Bool) (l : StateVectorList) :
    getPeriodicX same l none = getPeriodicX same l (some (l.basis.fundamentalShape.map fun _ => 1)) := rfl

/-- The sum of weights times the phases of the points of a periodic axis of `n` points. -/
noncomputable def circularMean (n : ℕ) (w : ℕ → ℝ) : ℂ := ∑ p ∈ range n, Complex.exp (2 * Real.pi * Complex.I * p / n) * (w p : ℂ)

/-- The weights of the points in the state `i` of a list. -/
noncomputable def weights (b : Basis) (data : ℕ → ℂ) (i p : ℕ) : ℝ := ‖expand b (block (size b) data i) p‖ ^ 2

theorem points_one (b : Basis) (n : ℕ) (h : b.fundamentalShape = [n]) : points b = n := by
  rw [← fundamentalShape_prod, h, List.prod_singleton]

theorem periodicX_one (same : Basis → Basis → Bool) (hs : Sound same) (n : ℕ) (b : Basis) (hb : Valid b) (hob : OrthonormalParts b)
    (hshape : b.fundamentalShape = [n]) (lb : Basis) (data : ℕ → ℂ) :
    ∃ z, getPeriodicX same ⟨lb, b, data⟩ (some (axisDirection 1 (0 : Fin 1))) = some z ∧ ∀ i, z i = circularMean n (weights b data i) := by
  obtain ⟨z, hz, k⟩ := C104_periodic same hs b hb hob (axisDirection 1 (0 : Fin 1)) (by rw [hshape]; rfl) lb data
  refine ⟨z, hz, fun i => ?_⟩
  rw [k i, circularMean, points_one b n hshape]
  refine sum_congr rfl fun p hp => ?_
  rw [mem_range] at hp
  rw [hshape]
  congr 2
  have : directionPhase [n] (axisDirection 1 (0 : Fin 1)) p = 2 * Real.pi * (p / n) := by
    simp [directionPhase, axisDirection, unravel, Nat.mod_eq_of_lt hp]
  rw [this]
  push_cast
  ring

theorem fmod_mem (x L : ℝ) (hL : 0 < L) : 0 ≤ fmod x L ∧ fmod x L < L := by
  unfold fmod
  have h1 := Int.floor_le (x / L)
  have h2 := Int.lt_floor_add_one (x / L)
  rw [le_div_iff₀ hL] at h1
  rw [div_lt_iff₀ hL] at h2
  constructor <;> nlinarith

/-- **C104** (one axis): the average position is in the cell and its phase is the phase of the expectation. What is missing are bases with several axes, see
`C104_average_negation`. -/
theorem C104_average_partial (same : Basis → Basis → Bool) (hs : Sound same) (n : ℕ) (b : Basis) (hb : Valid b) (hob : OrthonormalParts b)
    (hshape : b.fundamentalShape = [n]) (A : Matrix (Fin 1) (Fin 1) ℝ) (hL : 0 < A 0 0) (lb : Basis) (data : ℕ → ℂ) :
    ∃ avg, getAverageXPeriodic same A ⟨lb, b, data⟩ 0 = some (size lb, avg) ∧ ∀ i, 0 ≤ avg i ∧ avg i < A 0 0 ∧
      circularMean n (weights b data i) = ‖circularMean n (weights b data i)‖ * Complex.exp (2 * Real.pi * Complex.I * (avg i / A 0 0 : ℝ)) := by
  obtain ⟨z, hz, k⟩ := periodicX_one same hs n b hb hob hshape lb data
  have hpi := Real.pi_pos
  refine ⟨fun i => fmod (z i).arg (2 * Real.pi) * A 0 0 / (2 * Real.pi), ?_, fun i => ?_⟩
  · unfold getAverageXPeriodic
    rw [hz, Option.bind_some]
    simp [mulBroadcast, Basis.n_eq]
  · obtain ⟨h1, h2⟩ := fmod_mem (z i).arg (2 * Real.pi) (by positivity)
    refine ⟨by positivity, ?_, ?_⟩
    · beta_reduce
      rw [div_lt_iff₀ (by positivity)]
      nlinarith
    · rw [← k i]
      have e : (fmod (z i).arg (2 * Real.pi) * A 0 0 / (2 * Real.pi) / A 0 0 : ℝ) = (z i).arg / (2 * Real.pi) - ⌊(z i).arg / (2 * Real.pi)⌋ := by
        unfold fmod
        field_simp
      rw [e]
      have e2 : 2 * Real.pi * Complex.I * (((z i).arg / (2 * Real.pi) - ⌊(z i).arg / (2 * Real.pi)⌋ : ℝ) : ℂ) =
          (z i).arg * Complex.I - (⌊(z i).arg / (2 * Real.pi)⌋ : ℤ) * (2 * Real.pi * Complex.I) := by
        have : (Real.pi : ℂ) ≠ 0 := by exact_mod_cast hpi.ne'
        push_cast
        field_simp
      rw [e2, Complex.exp_sub, Complex.exp_int_mul_two_pi_mul_I, div_one, Complex.norm_mul_exp_arg_mul_I]

/-- Positions with the same phase differ by whole cells. -/
theorem same_phase {L x y r s : ℝ} (hL : 0 < L) (hr : 0 < r) (hs : 0 < s)
    (h : (r : ℂ) * Complex.exp (2 * Real.pi * Complex.I * (x / L : ℝ)) = s * Complex.exp (2 * Real.pi * Complex.I * (y / L : ℝ))) :
    ∃ m : ℤ, x = y + m * L := by
  have hn : ∀ t : ℝ, ‖Complex.exp (2 * Real.pi * Complex.I * (t / L : ℝ))‖ = 1 := by
    intro t
    rw [show (2 * Real.pi * Complex.I * (t / L : ℝ) : ℂ) = ((2 * Real.pi * (t / L) : ℝ) : ℂ) * Complex.I by push_cast; ring]
    exact Complex.norm_exp_ofReal_mul_I _
  have hrs : r = s := by
    have := congrArg norm h
    rw [norm_mul, norm_mul, hn, hn, Complex.norm_real, Complex.norm_real, Real.norm_of_nonneg hr.le, Real.norm_of_nonneg hs.le] at this
    linarith
  subst hrs
  have h' := mul_left_cancel₀ (by exact_mod_cast hr.ne') h
  rw [Complex.exp_eq_exp_iff_exists_int] at h'
  obtain ⟨m, hm⟩ := h'
  refine ⟨m, ?_⟩
  have h2 : (2 * Real.pi * Complex.I : ℂ) ≠ 0 := Complex.two_pi_I_ne_zero
  have hm' : (2 * Real.pi * Complex.I) * ((x / L : ℝ) : ℂ) = (2 * Real.pi * Complex.I) * (((y / L : ℝ) : ℂ) + m) := by
    rw [hm]; ring
  have := mul_left_cancel₀ h2 hm'
  have this' : x / L = y / L + m := by exact_mod_cast this
  field_simp at this'
  linarith

/-- **C104** (one axis): a state at one point is at this point. -/
theorem C104_localised_partial (same : Basis → Basis → Bool) (hs : Sound same) (n : ℕ) (b : Basis) (hb : Valid b) (hob : OrthonormalParts b)
    (hshape : b.fundamentalShape = [n]) (A : Matrix (Fin 1) (Fin 1) ℝ) (hL : 0 < A 0 0) (lb : Basis) (data : ℕ → ℂ) (i p : ℕ) (hp : p < n)
    (hne : expand b (block (size b) data i) p ≠ 0) (h0 : ∀ p' < n, p' ≠ p → expand b (block (size b) data i) p' = 0) :
    ∃ avg, getAverageXPeriodic same A ⟨lb, b, data⟩ 0 = some (size lb, avg) ∧ avg i = A 0 0 * p / n := by
  obtain ⟨avg, h, k⟩ := C104_average_partial same hs n b hb hob hshape A hL lb data
  refine ⟨avg, h, ?_⟩
  obtain ⟨k1, k2, k3⟩ := k i
  have hn : (0 : ℝ) < n := by exact_mod_cast (by omega : 0 < n)
  have hw : 0 < weights b data i p := by
    unfold weights
    have := norm_pos_iff.2 hne
    positivity
  have hz : circularMean n (weights b data i) = (weights b data i p : ℂ) * Complex.exp (2 * Real.pi * Complex.I * ((A 0 0 * p / n) / A 0 0 : ℝ)) := by
    unfold circularMean
    rw [sum_eq_single p]
    · rw [mul_comm]
      congr 2
      have : (A 0 0 : ℂ) ≠ 0 := by exact_mod_cast hL.ne'
      push_cast
      field_simp
    · intro p' hp' hne'
      rw [weights, h0 p' (mem_range.1 hp') hne']
      simp
    · intro hn; exact absurd (mem_range.2 hp) hn
  have hzn : ‖circularMean n (weights b data i)‖ = weights b data i p := by
    rw [hz, norm_mul, Complex.norm_real, Real.norm_of_nonneg hw.le]
    rw [show (2 * Real.pi * Complex.I * ((A 0 0 * p / n) / A 0 0 : ℝ) : ℂ) = ((2 * Real.pi * ((A 0 0 * p / n) / A 0 0) : ℝ) : ℂ) * Complex.I by push_cast; ring,
      Complex.norm_exp_ofReal_mul_I, mul_one]
  obtain ⟨m, hm⟩ := same_phase (x := avg i) (y := A 0 0 * p / n) hL (by rw [hzn]; exact hw) hw (k3.symm.trans hz)
  have hp1 : A 0 0 * p / n < A 0 0 := by
    rw [div_lt_iff₀ hn]
    have : (p : ℝ) < n := by exact_mod_cast hp
    nlinarith
  have hp0 : 0 ≤ A 0 0 * p / n := by positivity
  have hm0 : m = 0 := by
    have a : (m : ℝ) * A 0 0 < 1 * A 0 0 := by linarith
    have b' : -1 * A 0 0 < (m : ℝ) * A 0 0 := by linarith
    have a' := lt_of_mul_lt_mul_right a hL.le
    have b'' := lt_of_mul_lt_mul_right b' hL.le
    have : m < 1 := by exact_mod_cast a'
    have : -1 < m := by exact_mod_cast b''
    omega
  rw [hm, hm0]
  push_cast
  ring

/-- A state at the second of three points. -/
example : ∃ (b : Basis) (data : ℕ → ℂ), Valid b ∧ OrthonormalParts b ∧ b.fundamentalShape = [3] ∧
    expand b (block (size b) data 0) 1 ≠ 0 ∧ ∀ p' < 3, p' ≠ 1 → expand b (block (size b) data 0) p' = 0 := by
  refine ⟨.fundamental 3, fun k => if k = 1 then 2 else 0, trivial, trivial, rfl, ?_, fun p' hp hne => ?_⟩
  · simp [expand, block, size, state, Finset.sum_range_succ]
  · have : p' = 0 ∨ p' = 2 := by omega
    rcases this with rfl | rfl <;> simp [expand, block, size, state, Finset.sum_range_succ]

/-- **C104** (one axis): moving a state by `s` points moves its average position by `s` times the distance of the points, up to whole cells. -/
theorem C104_translated_partial (same : Basis → Basis → Bool) (hs : Sound same) (n : ℕ) (b : Basis) (hb : Valid b) (hob : OrthonormalParts b)
    (hshape : b.fundamentalShape = [n]) (A : Matrix (Fin 1) (Fin 1) ℝ) (hL : 0 < A 0 0) (lb : Basis) (data : ℕ → ℂ) (i i' s : ℕ) (hn : 0 < n)
    (hz : circularMean n (weights b data i) ≠ 0)
    (ht : ∀ p < n, expand b (block (size b) data i') ((p + s) % n) = expand b (block (size b) data i) p) :
    ∃ avg, getAverageXPeriodic same A ⟨lb, b, data⟩ 0 = some (size lb, avg) ∧ ∃ m : ℤ, avg i' = avg i + s * (A 0 0 / n) + m * A 0 0 := by
  obtain ⟨avg, h, k⟩ := C104_average_partial same hs n b hb hob hshape A hL lb data
  refine ⟨avg, h, ?_⟩
  have hshift : circularMean n (weights b data i') = Complex.exp (2 * Real.pi * Complex.I * s / n) * circularMean n (weights b data i) := by
    unfold circularMean
    rw [mul_sum]
    symm
    refine sum_bij (fun p _ => (p + s) % n) (fun p _ => mem_range.2 (Nat.mod_lt _ hn)) ?_ ?_ ?_
    · intro a ha c hc hac
      have : a ≡ c [MOD n] := Nat.ModEq.add_right_cancel' s hac
      rwa [Nat.ModEq, Nat.mod_eq_of_lt (mem_range.1 ha), Nat.mod_eq_of_lt (mem_range.1 hc)] at this
    · intro q hq
      rw [mem_range] at hq
      refine ⟨(q + (n - s % n)) % n, mem_range.2 (Nat.mod_lt _ hn), ?_⟩
      have hsn := Nat.mod_lt s hn
      rw [Nat.mod_add_mod]
      have e : q + (n - s % n) + s = q + n * (1 + s / n) := by
        have := Nat.div_add_mod s n
        rw [mul_add, mul_one]
        omega
      rw [e, Nat.add_mul_mod_self_left, Nat.mod_eq_of_lt hq]
    · intro p hp
      rw [mem_range] at hp
      rw [weights, weights, ht p hp, ← mul_assoc, ← Complex.exp_add]
      congr 1
      have e : 2 * Real.pi * Complex.I * s / n + 2 * Real.pi * Complex.I * p / n = 2 * Real.pi * Complex.I * (((p + s : ℕ) : ℤ) : ℂ) / n := by
        push_cast; ring
      have e2 : 2 * Real.pi * Complex.I * ((((p + s) % n : ℕ) : ℂ)) / n = 2 * Real.pi * Complex.I * (((((p + s : ℕ) : ℤ) % (n : ℤ) : ℤ)) : ℂ) / n := by
        rw [← Int.natCast_mod]; push_cast; rfl
      rw [e, e2]
      exact (phase_emod hn ((p + s : ℕ) : ℤ)).symm
  obtain ⟨-, -, k3⟩ := k i
  obtain ⟨-, -, k3'⟩ := k i'
  have hpos := norm_pos_iff.2 hz
  have hn1 : ‖circularMean n (weights b data i')‖ = ‖circularMean n (weights b data i)‖ := by
    rw [hshift, norm_mul, show (2 * Real.pi * Complex.I * s / n : ℂ) = ((2 * Real.pi * s / n : ℝ) : ℂ) * Complex.I by push_cast; ring,
      Complex.norm_exp_ofReal_mul_I, one_mul]
  have hne : (n : ℝ) ≠ 0 := by exact_mod_cast hn.ne'
  have key : (‖circularMean n (weights b data i')‖ : ℂ) * Complex.exp (2 * Real.pi * Complex.I * (avg i' / A 0 0 : ℝ)) =
      (‖circularMean n (weights b data i)‖ : ℂ) * Complex.exp (2 * Real.pi * Complex.I * ((avg i + s * (A 0 0 / n)) / A 0 0 : ℝ)) := by
    rw [← k3', hshift]
    conv_lhs => rw [k3]
    rw [mul_left_comm, ← Complex.exp_add]
    congr 2
    have : (A 0 0 : ℂ) ≠ 0 := by exact_mod_cast hL.ne'
    have : (n : ℂ) ≠ 0 := by exact_mod_cast hn.ne'
    push_cast
    field_simp
    ring
  exact same_phase hL (by rw [hn1]; exact hpos) hpos key

/-- A state at the point `0` of three points and the state moved by one point. -/
example : ∃ (b : Basis) (data : ℕ → ℂ), Valid b ∧ OrthonormalParts b ∧ b.fundamentalShape = [3] ∧ circularMean 3 (weights b data 0) ≠ 0 ∧
    ∀ p < 3, expand b (block (size b) data 1) ((p + 1) % 3) = expand b (block (size b) data 0) p := by
  refine ⟨.fundamental 3, fun k => if k = 0 ∨ k = 4 then 1 else 0, trivial, trivial, rfl, ?_, fun p hp => ?_⟩
  · simp [circularMean, weights, expand, block, size, state, Finset.sum_range_succ]
  · interval_cases p <;> simp [expand, block, size, state, Finset.sum_range_succ]

/-- **C104** fails with several axes: unless the number of states is one or by accident the number of axes, the average position raises. -/
theorem C104_average_negation {d : ℕ} (hd : 2 ≤ d) (same : Basis → Basis → Bool) (A : Matrix (Fin d) (Fin d) ℝ) (l : StateVectorList) (axis : Fin d)
    (h1 : size l.listBasis ≠ 1) (h2 : size l.listBasis ≠ d) : getAverageXPeriodic same A l axis = none := by
  unfold getAverageXPeriodic
  cases getPeriodicX same l (some (axisDirection d axis)) with
  | none => rfl
  | some z =>
    rw [Option.bind_some, mulBroadcast, List.length_ofFn, Basis.n_eq, if_neg (by omega), if_neg h2, if_neg h1]
    rfl

end Verif
