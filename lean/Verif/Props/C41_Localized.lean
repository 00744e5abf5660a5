import Verif.Model.Stochastic
import Verif.Spec.Basis
import Verif.Lemmas.Eigen
import Verif.Props.C39_Stochastic
import Mathlib.Tactic.Ring
import Mathlib.Tactic.FieldSimp
import Mathlib.Tactic.Positivity
import Mathlib.Tactic.LinearCombination
import Mathlib.Tactic.Linarith
import Mathlib.Tactic.NormNum

/-! # C41: localised trajectories, C85: collapse operators of a rate matrix -/

set_option autoImplicit false

namespace Verif

open Finset Spec

/-- Specification: the matrix of inner products of the states `S i` of dimension `d`. -/
noncomputable def gram (N d : ℕ) (S : ℕ → ℕ → ℂ) : Matrix (Fin N) (Fin N) ℂ := fun i j => dot d (S i) (S j)

theorem localizationOperator_eq (N d : ℕ) (S : ℕ → ℕ → ℂ) :
    localizationOperator N d S = (1 / (frobenius (gram N d S) : ℂ)) • gram N d S := rfl

/-- **C41.** The localised states which can be chosen are orthogonal to each other, and the square of the norm of each is
half the eigenvalue of the matrix of inner products. -/
theorem C41_orthogonal (N d : ℕ) (S : ℕ → ℕ → ℂ) (hS : frobenius (gram N d S) ≠ 0) (r : EigResult)
    (hr : IsEigh N N (localizationOperator N d S) r.eigenvalues r.vectors) {a b : ℕ} (ha : a < N) (hb : b < N) :
    dot d (selectLocalizedState N S r a) (selectLocalizedState N S r b) =
      if a = b then frobenius (gram N d S) * r.eigenvalues b / 2 else 0 := by
  obtain ⟨-, he, ho⟩ := hr
  have hs2 : ((Real.sqrt 2 : ℝ) : ℂ) * ((Real.sqrt 2 : ℝ) : ℂ) = 2 := by
    rw [← Complex.ofReal_mul, Real.mul_self_sqrt (by norm_num)]; norm_num
  have hs0 : ((Real.sqrt 2 : ℝ) : ℂ) ≠ 0 := by
    intro h; rw [h] at hs2; norm_num at hs2
  have hfc : (frobenius (gram N d S) : ℂ) ≠ 0 := by exact_mod_cast hS
  have key : dot d (selectLocalizedState N S r a) (selectLocalizedState N S r b) =
      1 / 2 * ∑ i : Fin N, (starRingEnd ℂ) (r.vectors i a) * ∑ k : Fin N, gram N d S i k * r.vectors k b := by
    unfold dot selectLocalizedState gram dot
    simp only [← Fin.sum_univ_eq_sum_range (n := N), map_sum, map_mul, map_div₀, Complex.conj_ofReal]
    simp only [Finset.sum_mul, Finset.mul_sum]
    conv_rhs => rw [sum_comm]
    rw [sum_comm]
    refine sum_congr rfl fun k _ => ?_
    rw [sum_comm]
    refine sum_congr rfl fun i _ => ?_
    refine sum_congr rfl fun j _ => ?_
    field_simp
    linear_combination (-1 : ℂ) * (starRingEnd ℂ) (r.vectors i a) * (starRingEnd ℂ) (S i j) * r.vectors k b * S k j * hs2
  have hG (i : Fin N) : ∑ k : Fin N, gram N d S i k * r.vectors k b =
      frobenius (gram N d S) * r.eigenvalues b * r.vectors i b := by
    have := he b hb i
    rw [localizationOperator_eq] at this
    simp only [Matrix.smul_apply, smul_eq_mul, mul_assoc] at this
    rw [← Finset.mul_sum] at this
    have h2 : ∑ k : Fin N, gram N d S i k * r.vectors k b =
        frobenius (gram N d S) * (1 / (frobenius (gram N d S) : ℂ) * ∑ k : Fin N, gram N d S i k * r.vectors k b) := by
      field_simp
    rw [h2, this]; ring
  rw [key]
  simp only [hG]
  have : ∑ i : Fin N, (starRingEnd ℂ) (r.vectors i a) * (frobenius (gram N d S) * r.eigenvalues b * r.vectors i b) =
      frobenius (gram N d S) * r.eigenvalues b * ∑ i : Fin N, (starRingEnd ℂ) (r.vectors i a) * r.vectors i b := by
    rw [Finset.mul_sum]; exact sum_congr rfl fun i _ => by ring
  rw [this, ho a ha b hb]
  split_ifs <;> ring

/-- **C41.** Together the candidate states carry half of the total density of the given states. -/
theorem C41_density (N d : ℕ) (S : ℕ → ℕ → ℂ) (r : EigResult)
    (hr : IsEigh N N (localizationOperator N d S) r.eigenvalues r.vectors) (x y : ℕ) :
    ∑ a ∈ range N, selectLocalizedState N S r a x * (starRingEnd ℂ) (selectLocalizedState N S r a y) =
      (∑ i ∈ range N, S i x * (starRingEnd ℂ) (S i y)) / 2 := by
  have hs2 : ((Real.sqrt 2 : ℝ) : ℂ) * ((Real.sqrt 2 : ℝ) : ℂ) = 2 := by
    rw [← Complex.ofReal_mul, Real.mul_self_sqrt (by norm_num)]; norm_num
  have hs0 : ((Real.sqrt 2 : ℝ) : ℂ) ≠ 0 := by
    intro h; rw [h] at hs2; norm_num at hs2
  have hu (i k : Fin N) : ∑ a : Fin N, r.vectors i a * (starRingEnd ℂ) (r.vectors k a) = if i = k then 1 else 0 := by
    have := congrFun (congrFun hr.unitary' i) k
    rw [Matrix.mul_apply, Matrix.one_apply] at this
    exact this
  unfold selectLocalizedState
  simp only [← Fin.sum_univ_eq_sum_range (n := N), map_sum, map_mul, map_div₀, Complex.conj_ofReal]
  have step (a : Fin N) : (∑ i : Fin N, r.vectors i a / (Real.sqrt 2 : ℂ) * S i x) *
      ∑ i : Fin N, (starRingEnd ℂ) (r.vectors i a) / (Real.sqrt 2 : ℂ) * (starRingEnd ℂ) (S i y) =
      ∑ i : Fin N, ∑ k : Fin N, (r.vectors i a * (starRingEnd ℂ) (r.vectors k a)) * (S i x * (starRingEnd ℂ) (S k y) / 2) := by
    rw [Finset.sum_mul_sum]
    refine sum_congr rfl fun i _ => sum_congr rfl fun k _ => ?_
    field_simp
    linear_combination (-1 : ℂ) * (starRingEnd ℂ) (r.vectors k a) * (starRingEnd ℂ) (S k y) * r.vectors i a * S i x * hs2
  simp only [step]
  rw [sum_comm]
  rw [Finset.sum_div]
  refine sum_congr rfl fun i _ => ?_
  rw [sum_comm]
  simp only [← Finset.sum_mul, hu, ite_mul, one_mul, zero_mul]
  rw [Finset.sum_ite_eq]
  simp

theorem norm_select (N d : ℕ) (S : ℕ → ℕ → ℂ) (hS : frobenius (gram N d S) ≠ 0) (r : EigResult)
    (hr : IsEigh N N (localizationOperator N d S) r.eigenvalues r.vectors) {a : ℕ} (ha : a < N) :
    (∑ j ∈ range d, ‖selectLocalizedState N S r a j‖ ^ 2 : ℝ) = frobenius (gram N d S) * (r.eigenvalues a).re / 2 := by
  have h := C41_orthogonal N d S hS r hr ha ha
  rw [if_pos rfl] at h
  have e : dot d (selectLocalizedState N S r a) (selectLocalizedState N S r a) =
      ((∑ j ∈ range d, ‖selectLocalizedState N S r a j‖ ^ 2 : ℝ) : ℂ) := by
    unfold dot
    push_cast
    refine sum_congr rfl fun j _ => ?_
    rw [mul_comm, Complex.mul_conj, Complex.normSq_eq_norm_sq]; push_cast; rfl
  rw [e] at h
  have := congrArg Complex.re h
  rw [Complex.ofReal_re, Complex.div_ofNat_re, Complex.re_ofReal_mul] at this
  exact this

theorem trace_eigenvalues {N : ℕ} {M : Matrix (Fin N) (Fin N) ℂ} {lam : ℕ → ℂ} {vec : ℕ → ℕ → ℂ}
    (h : IsEigh N N M lam vec) : ∑ i ∈ range N, lam i = ∑ i, M i i := by
  have e := h.isEig.eq
  have : M.trace = (diagMatrix N lam).trace := by
    rw [e, Matrix.trace_mul_comm, ← Matrix.mul_assoc, Matrix.nonsing_inv_mul _ h.isEig.isUnit_det, Matrix.one_mul]
  rw [← Fin.sum_univ_eq_sum_range]
  have h2 : (diagMatrix N lam).trace = ∑ i : Fin N, lam i := by
    unfold diagMatrix; rw [Matrix.trace_diagonal]
  rw [← h2, ← this]
  rfl

theorem frobenius_ne_zero {N : ℕ} (G : Matrix (Fin N) (Fin N) ℂ) (i j : Fin N) (h : G i j ≠ 0) : frobenius G ≠ 0 := by
  unfold frobenius
  rw [Real.sqrt_ne_zero']
  have h0 : 0 < ‖G i j‖ ^ 2 := pow_pos (norm_pos_iff.2 h) 2
  have h1 : ‖G i j‖ ^ 2 ≤ ∑ k, ‖G i k‖ ^ 2 :=
    single_le_sum (f := fun k => ‖G i k‖ ^ 2) (fun _ _ => sq_nonneg _) (mem_univ j)
  have h2 : ∑ k, ‖G i k‖ ^ 2 ≤ ∑ l, ∑ k, ‖G l k‖ ^ 2 :=
    single_le_sum (f := fun l => ∑ k, ‖G l k‖ ^ 2) (fun _ _ => Finset.sum_nonneg fun _ _ => sq_nonneg _) (mem_univ i)
  exact h0.trans_le (h1.trans h2)

/-- **C41.** For unit states, the probability of each choice is the share of the candidate state in the total density:
twice the square of its norm, divided by the number of states. In particular the probabilities are not negative. -/
theorem C41_probability (N d : ℕ) (hN : 0 < N) (S : ℕ → ℕ → ℂ) (hS : ∀ i < N, dot d (S i) (S i) = 1) (r : EigResult)
    (hr : IsEigh N N (localizationOperator N d S) r.eigenvalues r.vectors) {a : ℕ} (ha : a < N) :
    localizationProbabilities N r a = ((2 * (∑ j ∈ range d, ‖selectLocalizedState N S r a j‖ ^ 2) / N : ℝ) : ℂ) ∧
      ∑ b ∈ range N, localizationProbabilities N r b = 1 := by
  have hNc : (N : ℂ) ≠ 0 := by exact_mod_cast hN.ne'
  have hf : frobenius (gram N d S) ≠ 0 := by
    refine frobenius_ne_zero (gram N d S) ⟨0, hN⟩ ⟨0, hN⟩ ?_
    have : gram N d S ⟨0, hN⟩ ⟨0, hN⟩ = 1 := hS 0 hN
    rw [this]
    exact one_ne_zero
  have hfc : (frobenius (gram N d S) : ℂ) ≠ 0 := by exact_mod_cast hf
  have htr : ∑ i ∈ range N, r.eigenvalues i = N / frobenius (gram N d S) := by
    rw [trace_eigenvalues hr, localizationOperator_eq]
    have : ∀ i : Fin N, ((1 / (frobenius (gram N d S) : ℂ)) • gram N d S) i i = 1 / (frobenius (gram N d S) : ℂ) := by
      intro i
      rw [Matrix.smul_apply]
      have : gram N d S i i = 1 := hS i i.2
      rw [this, smul_eq_mul, mul_one]
    rw [sum_congr rfl fun i _ => this i, Finset.sum_const, Finset.card_univ, Fintype.card_fin, nsmul_eq_mul]
    ring
  have hn0 : (N : ℂ) / frobenius (gram N d S) ≠ 0 := div_ne_zero hNc hfc
  refine ⟨?_, ?_⟩
  · rw [norm_select N d S hf r hr ha]
    unfold localizationProbabilities
    rw [htr]
    have hre : ((r.eigenvalues a).re : ℂ) = r.eigenvalues a := by
      apply Complex.ext
      · simp
      · rw [Complex.ofReal_im, hr.1 a ha]
    push_cast
    rw [hre]
    field_simp
  · unfold localizationProbabilities
    rw [← Finset.sum_div, htr, div_self hn0]

/-- **C41.** When the two states coincide the chosen state is a unit vector. -/
theorem C41_normalised_partial (d : ℕ) (psi : ℕ → ℂ) (hpsi : dot d psi psi = 1) (r : EigResult)
    (hr : IsEigh 2 2 (localizationOperator 2 d fun _ => psi) r.eigenvalues r.vectors) {a : ℕ} (ha : a < 2)
    (hp : localizationProbabilities 2 r a ≠ 0) : ∑ j ∈ range d, ‖selectLocalizedState 2 (fun _ => psi) r a j‖ ^ 2 = 1 := by
  have hG : gram 2 d (fun _ => psi) = Matrix.of fun _ _ => 1 := by funext i j; exact hpsi
  have hF : frobenius (gram 2 d fun _ => psi) = 2 := by
    rw [hG]; unfold frobenius
    simp only [Matrix.of_apply, norm_one, one_pow, Fin.sum_univ_two]
    rw [show (1 + 1 + (1 + 1) : ℝ) = 2 ^ 2 by norm_num, Real.sqrt_sq (by norm_num)]
  have hl : r.eigenvalues a ≠ 0 := by
    intro h; apply hp; unfold localizationProbabilities; rw [h, zero_div]
  have e (i : Fin 2) := hr.2.1 a ha i
  rw [localizationOperator_eq, hF, hG] at e
  simp only [Matrix.smul_apply, Matrix.of_apply, smul_eq_mul, Fin.sum_univ_two, Fin.val_zero, Fin.val_one] at e
  have e0 := e 0
  have e1 := e 1
  simp only [Fin.val_zero, Fin.val_one] at e0 e1
  have hv : r.vectors 0 a = r.vectors 1 a := mul_left_cancel₀ hl (e0.symm.trans e1)
  have ho := hr.2.2 a ha a ha
  rw [if_pos rfl, Fin.sum_univ_two] at ho
  simp only [Fin.val_zero, Fin.val_one] at ho
  have hv1 : r.vectors 1 a ≠ 0 := by
    intro h; rw [hv, h] at ho; norm_num at ho
  rw [hv] at e0
  have hlam : r.eigenvalues a = 1 := by
    apply mul_right_cancel₀ hv1
    rw [← e0]; push_cast; ring
  rw [norm_select 2 d _ (by rw [hF]; norm_num) r hr ha, hF, hlam]
  norm_num

/-- **C41** is false of the code: of two orthogonal unit states every localised state has norm `1/√2`. -/
theorem C41_normalised_negation (d : ℕ) (S : ℕ → ℕ → ℂ)
    (hS : ∀ i < 2, ∀ j < 2, dot d (S i) (S j) = if i = j then 1 else 0) (r : EigResult)
    (hr : IsEigh 2 2 (localizationOperator 2 d S) r.eigenvalues r.vectors) {a : ℕ} (ha : a < 2) :
    ∑ j ∈ range d, ‖selectLocalizedState 2 S r a j‖ ^ 2 = 1 / 2 := by
  have hG : gram 2 d S = 1 := by
    funext i j
    rw [Matrix.one_apply]
    refine (hS i i.2 j j.2).trans ?_
    simp [Fin.ext_iff]
  have hF : frobenius (gram 2 d S) = Real.sqrt 2 := by
    rw [hG]; unfold frobenius
    simp only [Fin.sum_univ_two]
    congr 1
    norm_num
  have hs0 : Real.sqrt 2 ≠ 0 := by norm_num
  have hs0' : (Real.sqrt 2 : ℂ) ≠ 0 := by exact_mod_cast hs0
  have e (i : Fin 2) := hr.2.1 a ha i
  rw [localizationOperator_eq, hF, hG] at e
  have ho := hr.2.2 a ha a ha
  rw [if_pos rfl] at ho
  have hne : ∃ i : Fin 2, r.vectors i a ≠ 0 := by
    by_contra h
    push Not at h
    rw [Fin.sum_univ_two, h 0, h 1] at ho
    norm_num at ho
  obtain ⟨i, hi⟩ := hne
  have e' := e i
  simp only [Matrix.smul_apply, Matrix.one_apply, smul_eq_mul, mul_ite, mul_one, mul_zero, ite_mul, zero_mul,
    Finset.sum_ite_eq, Finset.mem_univ, if_true] at e'
  have hlam : r.eigenvalues a = ((1 / Real.sqrt 2 : ℝ) : ℂ) := by
    rw [← mul_right_cancel₀ hi e']; push_cast; ring
  rw [norm_select 2 d S (by rw [hF]; exact hs0) r hr ha, hF, hlam, Complex.ofReal_re]
  field_simp

/-- The contract is satisfiable for every list of states. -/
theorem localization_contract (N d : ℕ) (S : ℕ → ℕ → ℂ) :
    ∃ r : EigResult, IsEigh N N (localizationOperator N d S) r.eigenvalues r.vectors := by
  have hH : (localizationOperator N d S).conjTranspose = localizationOperator N d S := by
    funext i j
    rw [localizationOperator_eq, Matrix.conjTranspose_apply, Matrix.smul_apply, Matrix.smul_apply, star_smul]
    have h1 : star (1 / (frobenius (gram N d S) : ℂ)) = 1 / (frobenius (gram N d S) : ℂ) := by
      rw [Complex.star_def, map_div₀, map_one, Complex.conj_ofReal]
    rw [h1]
    congr 1
    unfold gram dot
    rw [Complex.star_def, map_sum]
    exact sum_congr rfl fun k _ => by rw [map_mul, Complex.conj_conj, mul_comm]
  obtain ⟨lam, vec, h⟩ := exists_isEigh _ hH
  exact ⟨⟨lam, vec⟩, h⟩

/-- Non-vacuity: two orthogonal states of dimension 2. -/
example : ∃ r : EigResult, IsEigh 2 2 (localizationOperator 2 2 fun i j => if i = j then 1 else 0) r.eigenvalues r.vectors ∧
    ∑ j ∈ range 2, ‖selectLocalizedState 2 (fun i j => if i = j then 1 else 0) r 0 j‖ ^ 2 = 1 / 2 := by
  obtain ⟨r, hr⟩ := localization_contract 2 2 fun i j => if i = j then 1 else 0
  refine ⟨r, hr, C41_normalised_negation 2 _ (fun i hi j hj => ?_) r hr (by norm_num)⟩
  rcases (by omega : i = 0 ∨ i = 1) with rfl | rfl <;> rcases (by omega : j = 0 ∨ j = 1) with rfl | rfl <;>
    simp [dot, Finset.sum_range_succ]

/-- **C41** is false of the code: the samples of a localised trajectory are not at the reported times. Follow the time
elapsed in the inner solver (`solve` adds the inner sample time, and the localisation combines the states at the two inner
times; whichever of them it returns), the sample with index `t` has evolved for at most `(t + 1) / 2` sample spacings, so
that from the third on every sample is at less than its reported time. -/
theorem C41_time_negation (times : TimeBasis) (hn : 0 < times.n) (hs : 0 < times.step) (hT : 0 < times.deltaT)
    (select : (ℕ → ℝ) → ℝ) (hsel : ∀ f, select f = f 0 ∨ select f = f 1) (t : ℕ) :
    (localizedTrajectory (fun s _ k => s + (localizedInnerTimes times).times k) select 0 t ≤ (t + 1) / 2 * times.dt) ∧
      (2 ≤ t → localizedTrajectory (fun s _ k => s + (localizedInnerTimes times).times k) select 0 t <
        times.times t - times.times 0) := by
  have hn' : (0 : ℝ) < times.n := by exact_mod_cast hn
  have hs' : (0 : ℝ) < times.step := by exact_mod_cast hs
  have hdt : 0 < times.dt := by unfold TimeBasis.dt; positivity
  have h0 : (localizedInnerTimes times).times 0 = 0 := by
    unfold localizedInnerTimes TimeBasis.times TimeBasis.ntPoints; simp
  have h1 : (localizedInnerTimes times).times 1 = times.dt / 2 := by
    unfold localizedInnerTimes TimeBasis.times TimeBasis.ntPoints TimeBasis.fundamentalDt TimeBasis.fundamentalN
    push_cast
    field_simp
    ring
  have hb : ∀ t : ℕ, localizedTrajectory (fun s _ k => s + (localizedInnerTimes times).times k) select 0 t ≤
      (t + 1) / 2 * times.dt := by
    intro t
    induction t with
    | zero =>
      rw [localizedTrajectory]
      rcases hsel (fun k => 0 + (localizedInnerTimes times).times k) with h | h <;> rw [h] <;>
        simp only [h0, h1] <;> push_cast <;> linarith
    | succ t ih =>
      rw [localizedTrajectory]
      rcases hsel (fun k => localizedTrajectory (fun s _ k => s + (localizedInnerTimes times).times k) select 0 t +
        (localizedInnerTimes times).times k) with h | h <;> rw [h] <;> simp only [h0, h1] <;> push_cast <;> linarith
  refine ⟨hb t, fun ht => lt_of_le_of_lt (hb t) ?_⟩
  have e : times.times t - times.times 0 = t * times.dt := by
    unfold TimeBasis.times TimeBasis.ntPoints TimeBasis.fundamentalDt TimeBasis.fundamentalN TimeBasis.dt
    push_cast
    field_simp
    ring
  rw [e]
  have : (2 : ℝ) ≤ t := by exact_mod_cast ht
  nlinarith

/-- **C41** is false of the code: the first recorded state is not the initial state but the state after one inner
interval. -/
theorem C41_first_negation (times : TimeBasis) (hn : 0 < times.n) (hs : 0 < times.step) (hT : 0 < times.deltaT) :
    localizedTrajectory (fun s _ k => s + (localizedInnerTimes times).times k) (fun f => f 1) (0 : ℝ) 0 =
      times.dt / 2 ∧ times.dt / 2 ≠ 0 := by
  have hn' : (0 : ℝ) < times.n := by exact_mod_cast hn
  have hs' : (0 : ℝ) < times.step := by exact_mod_cast hs
  refine ⟨?_, ?_⟩
  · rw [localizedTrajectory]
    unfold localizedInnerTimes TimeBasis.times TimeBasis.ntPoints TimeBasis.fundamentalDt TimeBasis.fundamentalN
    push_cast
    field_simp
    ring
  · unfold TimeBasis.dt; positivity

/-! ## C85 -/

variable {n : ℕ}

/-- Specification: the rate at which the collapse operators transfer population from state `i` to state `j`. -/
noncomputable def transferRate (ops : List (Matrix (Fin n) (Fin n) ℂ)) (i j : Fin n) : ℝ :=
  (ops.map fun L => ‖L j i‖ ^ 2).sum

theorem mem_nonzeroPositions (A : Matrix (Fin n) (Fin n) ℂ) (p : Fin n × Fin n) :
    p ∈ nonzeroPositions A ↔ A p.1 p.2 ≠ 0 := by
  unfold nonzeroPositions
  simp only [List.mem_flatMap, List.mem_finRange, true_and, List.mem_map, List.mem_filter, decide_eq_true_eq]
  constructor
  · rintro ⟨i, j, h, rfl⟩; exact h
  · intro h; exact ⟨p.1, p.2, h, rfl⟩

theorem nodup_nonzeroPositions (A : Matrix (Fin n) (Fin n) ℂ) : (nonzeroPositions A).Nodup := by
  unfold nonzeroPositions
  rw [List.nodup_flatMap]
  refine ⟨fun i _ => ?_, ?_⟩
  · exact ((List.nodup_finRange n).filter _).map fun a b h => (Prod.ext_iff.1 h).2
  · refine (List.nodup_finRange n).imp ?_
    intro i j hij
    rw [Function.onFun, List.disjoint_left]
    intro p hp hq
    obtain ⟨a, -, rfl⟩ := List.mem_map.1 hp
    obtain ⟨b, -, hb⟩ := List.mem_map.1 hq
    exact hij (Prod.ext_iff.1 hb).1.symm

theorem sum_map_ite_nodup {α : Type*} [DecidableEq α] (l : List α) (hl : l.Nodup) (q : α) (f : α → ℝ) :
    (l.map fun p => if q = p then f p else 0).sum = if q ∈ l then f q else 0 := by
  induction l with
  | nil => simp
  | cons a l ih =>
    rw [List.nodup_cons] at hl
    rw [List.map_cons, List.sum_cons, ih hl.2]
    by_cases h : q = a
    · subst h
      rw [if_pos rfl, if_neg hl.1, add_zero, if_pos List.mem_cons_self]
    · rw [if_neg h, zero_add]
      by_cases h2 : q ∈ l
      · rw [if_pos h2, if_pos (List.mem_cons_of_mem _ h2)]
      · rw [if_neg h2, if_neg (by simp [h, h2])]

/-- **C85.** There is one collapse operator for each pair of different states with a nonzero rate, with a single entry;
the population of state `i` is transferred to state `j` at the *square* of the rate *from `j` to `i`*. -/
theorem C85_collapse_partial (A : Matrix (Fin n) (Fin n) ℂ) (hA : ∀ i j, (A i j).im = 0) (i j : Fin n) :
    transferRate (getCollapseOperators A).1 i j = (if i = j then 0 else (A j i).re ^ 2) ∧
      ∀ L ∈ (getCollapseOperators A).1, ∃ a b, a ≠ b ∧ A a b ≠ 0 ∧ ∀ c d, L c d = if c = a ∧ d = b then A a b else 0 := by
  have hre (i j : Fin n) : ((A i j).re : ℂ) = A i j := by
    apply Complex.ext
    · simp
    · rw [Complex.ofReal_im, hA]
  refine ⟨?_, ?_⟩
  · unfold transferRate getCollapseOperators
    dsimp only
    rw [List.map_map]
    have e : ((fun L : Matrix (Fin n) (Fin n) ℂ => ‖L j i‖ ^ 2) ∘ fun (idx : Fin n × Fin n) =>
        (Matrix.of fun a b => if a = idx.1 ∧ b = idx.2 then (((fillDiagonal A a b).re : ℝ) : ℂ) else 0)) =
        fun idx => if (j, i) = idx then (fillDiagonal A j i).re ^ 2 else 0 := by
      funext idx
      simp only [Function.comp_apply, Matrix.of_apply, Prod.ext_iff]
      split_ifs with h
      · rw [Complex.norm_real, Real.norm_eq_abs, sq_abs]
      · simp
    refine (congrArg (fun f => (List.map f (nonzeroPositions (fillDiagonal A))).sum) e).trans ?_
    have e2 : (fun idx : Fin n × Fin n => if (j, i) = idx then (fillDiagonal A j i).re ^ 2 else 0) =
        fun idx => if (j, i) = idx then (fillDiagonal A idx.1 idx.2).re ^ 2 else 0 := by
      funext idx
      split_ifs with h
      · rw [← h]
      · rfl
    rw [e2, sum_map_ite_nodup _ (nodup_nonzeroPositions _) (j, i) fun idx => (fillDiagonal A idx.1 idx.2).re ^ 2]
    simp only [mem_nonzeroPositions]
    unfold fillDiagonal
    by_cases h : i = j
    · subst h; simp
    · have h' : j ≠ i := fun h' => h h'.symm
      by_cases h0 : A j i = 0 <;> simp [h, h', h0]
  · intro L hL
    unfold getCollapseOperators at hL
    obtain ⟨p, hp, rfl⟩ := List.mem_map.1 hL
    rw [mem_nonzeroPositions] at hp
    unfold fillDiagonal at hp
    have hne : p.1 ≠ p.2 := by intro h; rw [if_pos h] at hp; exact hp rfl
    rw [if_neg hne] at hp
    refine ⟨p.1, p.2, hne, hp, fun c d => ?_⟩
    simp only [Matrix.of_apply]
    split_ifs with h
    · unfold fillDiagonal
      rw [h.1, h.2, if_neg hne, hre]
    · rfl

/-- Rates `2` from the second state to the first and `3` back. -/
example : ∀ i j, ((!![-3, 2; 3, -2] : Matrix (Fin 2) (Fin 2) ℂ) i j).im = 0 := by
  intro i j
  fin_cases i <;> fin_cases j <;> simp

/-- **C85** is false of the code: with the rate 2 from state 0 to state 1 and no other, the collapse operators transfer
population from state 1 to state 0, at rate 4, and none from 0 to 1; the rates on the diagonal of the caller's array are
overwritten. -/
theorem C85_negation :
    transferRate (getCollapseOperators (!![5, 2; 0, 0] : Matrix (Fin 2) (Fin 2) ℂ)).1 0 1 = 0 ∧
      transferRate (getCollapseOperators (!![5, 2; 0, 0] : Matrix (Fin 2) (Fin 2) ℂ)).1 1 0 = 4 ∧
      (getCollapseOperators (!![5, 2; 0, 0] : Matrix (Fin 2) (Fin 2) ℂ)).2 = !![0, 2; 0, 0] := by
  have hA : ∀ i j, ((!![5, 2; 0, 0] : Matrix (Fin 2) (Fin 2) ℂ) i j).im = 0 := by
    intro i j; fin_cases i <;> fin_cases j <;> simp
  refine ⟨?_, ?_, ?_⟩
  · rw [(C85_collapse_partial _ hA 0 1).1]; simp
  · rw [(C85_collapse_partial _ hA 1 0).1]; norm_num
  · funext i j
    unfold getCollapseOperators fillDiagonal
    fin_cases i <;> fin_cases j <;> simp

end Verif
