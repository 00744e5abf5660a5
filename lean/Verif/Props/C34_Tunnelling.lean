import Verif.Model.Dynamics
import Verif.Lemmas.Evolve
import Mathlib.LinearAlgebra.Matrix.Rank

/-!
# C34–C37: incoherent tunnelling: the rate matrix, its spectrum, the simulation, the equilibrium
-/

set_option autoImplicit false

namespace Verif

open Finset Spec

variable {n : ℕ}

/-- The generator of a rate equation `dp/dt = M p`: real nonnegative rates off the diagonal, columns sum to zero. -/
def Generator (M : Matrix (Fin n) (Fin n) ℂ) : Prop :=
  (∀ i j, i ≠ j → 0 ≤ (M i j).re ∧ (M i j).im = 0) ∧ ∀ j, ∑ i, M i j = 0

/-- **C34 (partial).** Entry `(i, j)` of the M matrix, `i ≠ j`, is the rate from `j` to `i`, and every column sums to
zero; with nonnegative rates it is a generator. Missing: the caller's array is unchanged (its diagonal is set to zero,
see `C34_negation`), and a number of bands (see `C34_bands_negation`). -/
theorem C34_m_matrix_partial (A : Matrix (Fin n) (Fin n) ℂ) :
    ∃ M after, getTunnellingMMatrix A none = some (M, after) ∧
      (∀ i j, i ≠ j → M i j = A j i) ∧ (∀ j, ∑ i, M i j = 0) ∧ (∀ i, M i i = -∑ k ∈ univ.erase i, A i k) ∧
      ((∀ i j, i ≠ j → 0 ≤ (A i j).re ∧ (A i j).im = 0) → Generator M) ∧
      (∀ i j, i ≠ j → after i j = A i j) ∧ (after = A ↔ ∀ i, A i i = 0) := by
  have h1 : ∀ i j, i ≠ j → ((fillDiagonal A).transpose - Matrix.diagonal (fun i => ∑ k, fillDiagonal A i k)) i j = A j i := by
    intro i j hij
    rw [Matrix.sub_apply, Matrix.transpose_apply, Matrix.diagonal_apply_ne _ hij, sub_zero, fillDiagonal, if_neg hij.symm]
  have h2 : ∀ j, ∑ i, ((fillDiagonal A).transpose - Matrix.diagonal (fun i => ∑ k, fillDiagonal A i k)) i j = 0 := by
    intro j
    simp only [Matrix.sub_apply, sum_sub_distrib, Matrix.transpose_apply, Matrix.diagonal_apply, sum_ite_eq', mem_univ,
      if_true, sub_self]
  refine ⟨_, _, rfl, h1, h2, fun i => ?_, fun hA => ⟨fun i j hij => ?_, h2⟩, fun i j hij => ?_, ?_⟩
  · have h3 := h2 i
    rw [← add_sum_erase _ _ (mem_univ i)] at h3
    rw [eq_neg_iff_add_eq_zero, ← h3]
    congr 1
    exact sum_congr rfl fun k hk => (h1 k i (ne_of_mem_erase hk)).symm
  · rw [h1 i j hij]; exact hA j i hij.symm
  · rw [fillDiagonal, if_neg hij]
  · constructor
    · intro h i
      rw [← h, fillDiagonal, if_pos rfl]
    · intro h
      ext i j
      rw [fillDiagonal]
      split_ifs with hij
      · subst hij; exact (h i).symm
      · rfl

/-- **C34 (negation).** The caller's array is modified: for every array with a nonzero diagonal entry. -/
theorem C34_negation (A : Matrix (Fin n) (Fin n) ℂ) (i : Fin n) (hi : A i i ≠ 0) :
    ∃ M after, getTunnellingMMatrix A none = some (M, after) ∧ after ≠ A ∧ after i i = 0 :=
  ⟨_, _, rfl, fun h => hi (by rw [← h, fillDiagonal, if_pos rfl]), by rw [fillDiagonal, if_pos rfl]⟩

/-- **C34 (negation).** With a number of bands it raises. -/
theorem C34_bands_negation (A : Matrix (Fin n) (Fin n) ℂ) (k : ℕ) : getTunnellingMMatrix A (some k) = none := rfl

example : ∃ M after, getTunnellingMMatrix (!![5, 1; 2, 7] : Matrix (Fin 2) (Fin 2) ℂ) none = some (M, after) ∧
    M = !![-1, 2; 1, -2] ∧ after = !![0, 1; 2, 0] := by
  refine ⟨_, _, rfl, ?_, ?_⟩
  · ext i j; fin_cases i <;> fin_cases j <;> simp [fillDiagonal]
  · ext i j; fin_cases i <;> fin_cases j <;> simp [fillDiagonal]

/-! ## Spectrum -/

/-- Eigenvalues of a generator: no growth, and no oscillation without decay. -/
theorem generator_eigenvalue {M : Matrix (Fin n) (Fin n) ℂ} (hM : Generator M) {v : Fin n → ℂ} (hv : v ≠ 0) {l : ℂ}
    (he : ∀ i, ∑ k, M i k * v k = l * v i) : l.re ≤ 0 ∧ (l.re = 0 → l = 0) := by
  set c : ℝ := ∑ i, ‖M i i‖ with hc
  have hc0 : 0 ≤ c := sum_nonneg fun i _ => norm_nonneg _
  have hdiag : ∀ j, M j j = ((M j j).re : ℂ) := by
    intro j
    have h := hM.2 j
    rw [← add_sum_erase _ _ (mem_univ j)] at h
    have h2 : (M j j).im = 0 := by
      have h3 := congrArg Complex.im h
      rw [Complex.add_im, Complex.im_sum, sum_eq_zero (fun k hk => (hM.1 k j (ne_of_mem_erase hk)).2), add_zero] at h3
      simpa using h3
    exact Complex.ext rfl (by simp [h2])
  have hcol : ∀ j, ∑ i, ‖M i j + if i = j then (c : ℂ) else 0‖ = c := by
    intro j
    have h1 : ∀ i, ‖M i j + if i = j then (c : ℂ) else 0‖ = (M i j).re + if i = j then c else 0 := by
      intro i
      by_cases hij : i = j
      · subst hij
        rw [if_pos rfl, if_pos rfl]
        conv_lhs => rw [hdiag i]
        rw [← Complex.ofReal_add, Complex.norm_real, Real.norm_of_nonneg]
        have h2 : ‖M i i‖ ≤ c := single_le_sum (f := fun i => ‖M i i‖) (fun i _ => norm_nonneg _) (mem_univ i)
        have h3 := Complex.abs_re_le_norm (M i i)
        have h4 := neg_abs_le (M i i).re
        linarith
      · rw [if_neg hij, if_neg hij, add_zero, add_zero]
        have h2 : M i j = ((M i j).re : ℂ) := Complex.ext rfl (by simp [(hM.1 i j hij).2])
        rw [h2, Complex.norm_real, Complex.ofReal_re, Real.norm_of_nonneg (hM.1 i j hij).1]
    rw [sum_congr rfl fun i _ => h1 i, sum_add_distrib, ← Complex.re_sum, hM.2 j]
    simp
  have hkey : ‖l + c‖ * ∑ i, ‖v i‖ ≤ c * ∑ i, ‖v i‖ := by
    calc ‖l + c‖ * ∑ i, ‖v i‖ = ∑ i, ‖∑ k, (M i k + if i = k then (c : ℂ) else 0) * v k‖ := by
          rw [mul_sum]
          apply sum_congr rfl; intro i _
          rw [← norm_mul]
          congr 1
          simp only [add_mul, sum_add_distrib, he i, ite_mul, zero_mul, sum_ite_eq, mem_univ, if_true]
      _ ≤ ∑ i, ∑ k, ‖M i k + if i = k then (c : ℂ) else 0‖ * ‖v k‖ := by
          apply sum_le_sum; intro i _
          refine (norm_sum_le _ _).trans (le_of_eq (sum_congr rfl fun k _ => norm_mul _ _))
      _ = c * ∑ k, ‖v k‖ := by
          rw [sum_comm, mul_sum]
          apply sum_congr rfl; intro k _
          rw [← sum_mul, hcol k]
  have hpos : 0 < ∑ i, ‖v i‖ := by
    obtain ⟨i, hi⟩ := Function.ne_iff.1 hv
    exact sum_pos' (fun i _ => norm_nonneg _) ⟨i, mem_univ i, norm_pos_iff.2 hi⟩
  have hle : ‖l + c‖ ≤ c := le_of_mul_le_mul_right hkey hpos
  have hsq : (l.re + c) ^ 2 + l.im ^ 2 ≤ c ^ 2 := by
    have h1 : ‖l + c‖ ^ 2 ≤ c ^ 2 := by gcongr
    rw [Complex.sq_norm, Complex.normSq_apply] at h1
    simp only [Complex.add_re, Complex.ofReal_re, Complex.add_im, Complex.ofReal_im, add_zero] at h1
    nlinarith
  constructor
  · by_contra hcon
    push Not at hcon
    nlinarith [mul_nonneg hc0 hcon.le, sq_nonneg l.im]
  · intro hre
    rw [hre, zero_add] at hsq
    have : l.im = 0 := by nlinarith [sq_nonneg l.im]
    exact Complex.ext hre this

theorem npArgmax_le (v : ℕ → ℂ) (m : ℕ) : npArgmax v m ≤ m := by
  induction m with
  | zero => exact le_rfl
  | succ m ih => rw [npArgmax]; split_ifs <;> omega

theorem LexLt.trans {a b c : ℂ} (h : LexLt a b) (h' : LexLt b c) : LexLt a c := by
  unfold LexLt at *
  rcases h with h | ⟨h, h1⟩ <;> rcases h' with h' | ⟨h', h1'⟩
  · left; linarith
  · left; linarith
  · left; linarith
  · right; exact ⟨by linarith, by linarith⟩

theorem LexLt.irrefl (a : ℂ) : ¬ LexLt a a := by
  rintro (h | h)
  · exact lt_irrefl _ h
  · exact lt_irrefl _ h.2

theorem LexLt.trichotomy (a b : ℂ) : LexLt a b ∨ a = b ∨ LexLt b a := by
  unfold LexLt
  rcases lt_trichotomy a.re b.re with h | h | h
  · left; left; exact h
  · rcases lt_trichotomy a.im b.im with h' | h' | h'
    · left; right; exact ⟨h, h'⟩
    · right; left; exact Complex.ext h h'
    · right; right; right; exact ⟨h.symm, h'⟩
  · right; right; left; exact h

/-- `np.argmax`: no entry is larger, and the earlier entries are smaller. -/
theorem npArgmax_spec (v : ℕ → ℂ) (m : ℕ) :
    (∀ i ≤ m, ¬ LexLt (v (npArgmax v m)) (v i)) ∧ ∀ i < npArgmax v m, LexLt (v i) (v (npArgmax v m)) := by
  induction m with
  | zero =>
    refine ⟨fun i hi => ?_, fun i hi => by simp [npArgmax] at hi⟩
    rw [Nat.le_zero.1 hi]; exact LexLt.irrefl _
  | succ m ih =>
    rw [npArgmax]
    split_ifs with h
    · refine ⟨fun i hi hlt => ?_, fun i hi => ?_⟩
      · rcases Nat.lt_or_ge m i with h1 | h1
        · have : i = m + 1 := by omega
          subst this; exact LexLt.irrefl _ hlt
        · exact ih.1 i h1 (h.trans hlt)
      · rcases LexLt.trichotomy (v i) (v (npArgmax v m)) with h1 | h1 | h1
        · exact h1.trans h
        · rw [h1]; exact h
        · exact absurd h1 (ih.1 i (by omega))
    · refine ⟨fun i hi hlt => ?_, ih.2⟩
      rcases Nat.lt_or_ge m i with h1 | h1
      · have : i = m + 1 := by omega
        subst this; exact h hlt
      · exact ih.1 i h1 hlt

theorem eig_column_ne_zero {M : Matrix (Fin n) (Fin n) ℂ} {lam : ℕ → ℂ} {vec : ℕ → ℕ → ℂ} (h : IsEig n M lam vec)
    (j : Fin n) : (fun i : Fin n => vec i j) ≠ 0 := by
  intro h0
  have := h.2 (Pi.single j 1) fun i => by
    simp only [Pi.single_apply, mul_ite, mul_one, mul_zero, sum_ite_eq', mem_univ, if_true]
    exact congrFun h0 i
  have := congrFun this j
  simp at this

/-- A generator of size at least one has zero among its eigenvalues. -/
theorem generator_zero {M : Matrix (Fin n) (Fin n) ℂ} (hn : 0 < n) (hM : Generator M) {lam : ℕ → ℂ} {vec : ℕ → ℕ → ℂ}
    (h : IsEig n M lam vec) : ∃ j : Fin n, lam j = 0 := by
  have hdet : M.det = 0 := by
    rw [← Matrix.exists_vecMul_eq_zero_iff]
    refine ⟨fun _ => 1, ?_, ?_⟩
    · intro h0; exact one_ne_zero (congrFun h0 ⟨0, hn⟩)
    · funext j
      simp only [Matrix.vecMul, dotProduct, one_mul]
      exact hM.2 j
  rw [h.eq, Matrix.det_mul, Matrix.det_mul, mul_comm, ← mul_assoc, ← Matrix.det_mul,
    Matrix.nonsing_inv_mul _ h.isUnit_det, Matrix.det_one, one_mul, diagMatrix, Matrix.det_diagonal, prod_eq_zero_iff] at hdet
  obtain ⟨j, _, hj⟩ := hdet
  exact ⟨j, hj⟩

theorem npMax_eq_zero {M : Matrix (Fin n) (Fin n) ℂ} (hn : 0 < n) (hM : Generator M) {lam : ℕ → ℂ} {vec : ℕ → ℕ → ℂ}
    (h : IsEig n M lam vec) : npMax lam n = 0 := by
  have hk := npArgmax_le lam (n - 1)
  have hkn : npArgmax lam (n - 1) < n := by omega
  obtain ⟨hre, hz⟩ := generator_eigenvalue hM (eig_column_ne_zero h ⟨_, hkn⟩) (h.1 _ hkn)
  obtain ⟨j, hj⟩ := generator_zero hn hM h
  have h1 := (npArgmax_spec lam (n - 1)).1 j (by omega)
  rw [hj] at h1
  rw [npMax]
  apply hz
  by_contra hcon
  exact h1 (Or.inl (by simpa using lt_of_le_of_ne hre hcon))

/-- **C35.** For every rate matrix of any size: every eigenvalue has a nonpositive real part and is zero if the real part
is zero; zero is an eigenvalue; so the largest eigenvalue is zero, and `calculate_tunnelling_eigenstates` returns the
unshifted eigenvalues, with the eigenvectors in the rows. -/
theorem C35_spectrum (hn : 0 < n) (M : Matrix (Fin n) (Fin n) ℂ) (hM : Generator M) (r : EigResult)
    (hr : IsEig n M r.eigenvalues r.vectors) :
    (∀ j < n, (r.eigenvalues j).re ≤ 0 ∧ ((r.eigenvalues j).re = 0 → r.eigenvalues j = 0)) ∧
    (∃ j < n, r.eigenvalues j = 0) ∧
    (∀ j, (calculateTunnellingEigenstates n r).eigenvalues j = r.eigenvalues j) ∧
    (∀ j < n, ∀ i : Fin n, ∑ k : Fin n, M i k * (calculateTunnellingEigenstates n r).vectors j k =
      (calculateTunnellingEigenstates n r).eigenvalues j * (calculateTunnellingEigenstates n r).vectors j i) := by
  have h0 : ∀ j, (calculateTunnellingEigenstates n r).eigenvalues j = r.eigenvalues j := by
    intro j
    simp only [calculateTunnellingEigenstates, npMax_eq_zero hn hM hr, sub_zero]
  refine ⟨fun j hj => generator_eigenvalue hM (eig_column_ne_zero hr ⟨j, hj⟩) (hr.1 j hj), ?_, h0, fun j hj i => ?_⟩
  · obtain ⟨j, hj⟩ := generator_zero hn hM hr
    exact ⟨j, j.2, hj⟩
  · rw [h0]
    exact hr.1 j hj i

/-! ## The simulation -/

theorem simulation_eq (hn : 0 < n) {M : Matrix (Fin n) (Fin n) ℂ} (hM : Generator M) {r : EigResult}
    (hr : IsEig n M r.eigenvalues r.vectors) (p : Fin n → ℂ) (t : ℝ) :
    calculateTunnellingSimulationState r p t = fun i : Fin n => ∑ j : Fin n, ((vecMatrix n r.vectors)⁻¹.mulVec p) j *
      Complex.exp (r.eigenvalues j * (1 * t)) * r.vectors i j := by
  unfold calculateTunnellingSimulationState getTunnellingSimulationState
  simp only [(C35_spectrum hn M hM r hr).2.2.1, one_mul]
  rfl

/-- **C36.** The simulation starts at the given distribution, satisfies the rate equation at every time, is the only
solution, and keeps the total. -/
theorem C36_simulation (hn : 0 < n) (M : Matrix (Fin n) (Fin n) ℂ) (hM : Generator M) (r : EigResult)
    (hr : IsEig n M r.eigenvalues r.vectors) (p : Fin n → ℂ) :
    calculateTunnellingSimulationState r p 0 = p ∧
    (∀ t i, HasDerivAt (fun s => calculateTunnellingSimulationState r p s i)
      (∑ k, M i k * calculateTunnellingSimulationState r p t k) t) ∧
    (∀ q : ℝ → Fin n → ℂ, q 0 = p → (∀ t i, HasDerivAt (fun s => q s i) (∑ k, M i k * q t k) t) →
      ∀ t, q t = calculateTunnellingSimulationState r p t) ∧
    (∀ t, ∑ i, calculateTunnellingSimulationState r p t i = ∑ i, p i) := by
  have h0 : calculateTunnellingSimulationState r p 0 = p := by
    rw [simulation_eq hn hM hr]
    funext i
    simp only [Complex.ofReal_zero, mul_zero, Complex.exp_zero, mul_one]
    exact sum_coeff hr p i
  have h1 : ∀ t i, HasDerivAt (fun s => calculateTunnellingSimulationState r p s i)
      (∑ k, M i k * calculateTunnellingSimulationState r p t k) t := by
    intro t i
    simp only [simulation_eq hn hM hr]
    refine (hasDerivAt_evolve hr.1 _ 1 t i).congr_deriv ?_
    rw [one_mul]
  refine ⟨h0, h1, ?_, fun t => ?_⟩
  · intro q hq0 hq t
    rw [evolve_unique hr 1 q (fun t i => by rw [one_mul]; exact hq t i) t, hq0, simulation_eq hn hM hr]
  · have h2 : ∀ s, HasDerivAt (fun s => ∑ i, calculateTunnellingSimulationState r p s i) 0 s := by
      intro s
      refine (HasDerivAt.fun_sum (u := univ) fun i _ => h1 s i).congr_deriv ?_
      rw [sum_comm]
      apply sum_eq_zero; intro k _
      rw [← sum_mul, hM.2 k, zero_mul]
    have h4 := is_const_of_deriv_eq_zero (fun s => (h2 s).differentiableAt) (fun s => (h2 s).deriv) t 0
    rw [h0] at h4
    exact h4

/-- **C36.** Probabilities stay real and nonnegative at every later time; so the real part taken by
`density_matrix_as_probability` is the distribution. -/
theorem C36_nonneg (hn : 0 < n) (M : Matrix (Fin n) (Fin n) ℂ) (hM : Generator M) (r : EigResult)
    (hr : IsEig n M r.eigenvalues r.vectors) (p : Fin n → ℂ) (hp : ∀ i, 0 ≤ (p i).re ∧ (p i).im = 0) (t : ℝ) (ht : 0 ≤ t)
    (i : Fin n) :
    0 ≤ densityMatrixAsProbability (calculateTunnellingSimulationState r p t) i ∧
    calculateTunnellingSimulationState r p t i =
      (densityMatrixAsProbability (calculateTunnellingSimulationState r p t) i : ℂ) := by
  have hdiag : ∀ j, (M j j).im = 0 := by
    intro j
    have h := hM.2 j
    rw [← add_sum_erase _ _ (mem_univ j)] at h
    have h3 := congrArg Complex.im h
    rw [Complex.add_im, Complex.im_sum, sum_eq_zero (fun k hk => (hM.1 k j (ne_of_mem_erase hk)).2), add_zero] at h3
    simpa using h3
  have hE : NonnegEntries (NormedSpace.exp ((1 * t : ℂ) • M)) := by
    apply nonnegEntries_exp_of_offDiag
    · intro i j hij
      rw [Matrix.smul_apply, smul_eq_mul, one_mul, Complex.re_ofReal_mul]
      exact mul_nonneg ht (hM.1 i j hij).1
    · intro i j
      rw [Matrix.smul_apply, smul_eq_mul, one_mul, Complex.im_ofReal_mul]
      by_cases hij : i = j
      · subst hij; rw [hdiag, mul_zero]
      · rw [(hM.1 i j hij).2, mul_zero]
  have h1 : 0 ≤ (calculateTunnellingSimulationState r p t i).re ∧ (calculateTunnellingSimulationState r p t i).im = 0 := by
    rw [simulation_eq hn hM hr, evolve_eq_exp hr, Matrix.mulVec, dotProduct, Complex.re_sum, Complex.im_sum]
    constructor
    · apply sum_nonneg; intro k _
      rw [Complex.mul_re, (hE i k).2, zero_mul, sub_zero]
      exact mul_nonneg (hE i k).1 (hp k).1
    · apply sum_eq_zero; intro k _
      rw [Complex.mul_im, (hE i k).2, (hp k).2]; simp
  exact ⟨h1.1, Complex.ext rfl (by simp [h1.2, densityMatrixAsProbability])⟩

/-! ## Equilibrium -/

/-- The rate equation has one stationary distribution up to a factor. -/
def OneStationary (M : Matrix (Fin n) (Fin n) ℂ) : Prop :=
  ∀ u v : Fin n → ℂ, M.mulVec u = 0 → M.mulVec v = 0 → u ≠ 0 → ∃ c : ℂ, v = c • u

theorem simple_zero {M : Matrix (Fin n) (Fin n) ℂ} {lam : ℕ → ℂ} {vec : ℕ → ℕ → ℂ} (h : IsEig n M lam vec)
    (h1 : OneStationary M) (j j' : Fin n) (hj : lam j = 0) (hj' : lam j' = 0) : j = j' := by
  by_contra hne
  have hz : ∀ j : Fin n, lam j = 0 → M.mulVec (fun i : Fin n => vec i j) = 0 := by
    intro j hj
    funext i
    have := h.1 j j.2 i
    rw [hj, zero_mul] at this
    exact this
  obtain ⟨c, hc⟩ := h1 _ _ (hz j hj) (hz j' hj') (eig_column_ne_zero h j)
  have := h.2 (Pi.single j' 1 - c • Pi.single j 1) fun i => by
    simp only [Pi.sub_apply, Pi.smul_apply, Pi.single_apply, smul_eq_mul, mul_ite, mul_one, mul_zero, mul_sub,
      sum_sub_distrib, sum_ite_eq', mem_univ, if_true]
    have := congrFun hc i
    simp only [Pi.smul_apply, smul_eq_mul] at this
    rw [this]; ring
  have := congrFun this j'
  simp [Pi.single_apply, Ne.symm hne] at this

/-- Eigenvectors of decaying modes carry no probability. -/
theorem mode_sum_zero {M : Matrix (Fin n) (Fin n) ℂ} (hM : Generator M) {lam : ℕ → ℂ} {vec : ℕ → ℕ → ℂ}
    (h : IsEig n M lam vec) (j : Fin n) (hj : lam j ≠ 0) : ∑ i : Fin n, vec i j = 0 := by
  have h1 : lam j * ∑ i : Fin n, vec i j = 0 := by
    rw [mul_sum, ← sum_congr rfl fun i _ => h.1 j j.2 i, sum_comm]
    apply sum_eq_zero; intro k _
    rw [← sum_mul, hM.2 k, zero_mul]
  exact (mul_eq_zero.1 h1).resolve_left hj

theorem coeff_sum {M : Matrix (Fin n) (Fin n) ℂ} (hM : Generator M) {lam : ℕ → ℂ} {vec : ℕ → ℕ → ℂ}
    (h : IsEig n M lam vec) (h1 : OneStationary M) (k : Fin n) (hk : lam k = 0) (p : Fin n → ℂ) :
    ((vecMatrix n vec)⁻¹.mulVec p) k * ∑ i : Fin n, vec i k = ∑ i, p i := by
  have h0 : ∑ i, p i = ∑ j : Fin n, ∑ i : Fin n, ((vecMatrix n vec)⁻¹.mulVec p) j * vec i j := by
    rw [← sum_congr rfl fun i _ => sum_coeff h p i, sum_comm]
  rw [h0]
  refine Eq.symm ((sum_eq_single k ?_ ?_).trans ?_)
  · intro j _ hjk
    rw [← mul_sum, mode_sum_zero hM h j (fun h0 => hjk (simple_zero h h1 j k h0 hk)), mul_zero]
  · intro hcon; exact absurd (mem_univ k) hcon
  · rw [mul_sum]

theorem equilibrium_eq (hn : 0 < n) {M : Matrix (Fin n) (Fin n) ℂ} (hM : Generator M) {r : EigResult}
    (hr : IsEig n M r.eigenvalues r.vectors) :
    ∃ k : Fin n, r.eigenvalues k = 0 ∧ calculateEquilibriumState n r =
      fun i : Fin n => ((vecMatrix n r.vectors)⁻¹.mulVec (initialPure n 0)) k * r.vectors i k := by
  have he : (calculateTunnellingEigenstates n r).eigenvalues = r.eigenvalues := funext (C35_spectrum hn M hM r hr).2.2.1
  have hk := npArgmax_le r.eigenvalues (n - 1)
  have hkn : npArgmax r.eigenvalues (n - 1) < n := by omega
  refine ⟨⟨_, hkn⟩, npMax_eq_zero hn hM hr, ?_⟩
  unfold calculateEquilibriumState getEquilibriumState
  funext i
  rw [he]
  rw [dif_pos hkn]
  rfl

/-- **C37.** The equilibrium state is annihilated by the rate matrix. -/
theorem C37_stationary (hn : 0 < n) (M : Matrix (Fin n) (Fin n) ℂ) (hM : Generator M) (r : EigResult)
    (hr : IsEig n M r.eigenvalues r.vectors) : M.mulVec (calculateEquilibriumState n r) = 0 := by
  obtain ⟨k, hk, he⟩ := equilibrium_eq hn hM hr
  rw [he]
  funext i
  simp only [Matrix.mulVec, dotProduct, Pi.zero_apply]
  have := hr.1 k k.2 i
  rw [hk, zero_mul] at this
  have h2 : ∀ c : ℂ, ∑ j : Fin n, M i j * (c * r.vectors j k) = 0 := by
    intro c
    rw [← mul_zero c, ← this, mul_sum]
    exact sum_congr rfl fun j _ => by ring
  exact h2 _

theorem initialPure_sum (hn : 0 < n) : ∑ i, initialPure n 0 i = 1 := by
  rw [sum_eq_single ⟨0, hn⟩]
  · rfl
  · intro i _ hi
    rw [initialPure, if_neg]
    intro h; exact hi (Fin.ext h)
  · intro h; exact absurd (mem_univ _) h

/-- **C37.** With one stationary distribution the equilibrium state sums to one, and the simulation of every initial
distribution of total one converges to it. -/
theorem C37_converges (hn : 0 < n) (M : Matrix (Fin n) (Fin n) ℂ) (hM : Generator M) (h1 : OneStationary M)
    (r : EigResult) (hr : IsEig n M r.eigenvalues r.vectors) :
    ∑ i, calculateEquilibriumState n r i = 1 ∧
    ∀ p : Fin n → ℂ, ∑ i, p i = 1 → ∀ i, Filter.Tendsto (fun t => calculateTunnellingSimulationState r p t i) Filter.atTop
      (nhds (calculateEquilibriumState n r i)) := by
  obtain ⟨k, hk, he⟩ := equilibrium_eq hn hM hr
  have hs0 := coeff_sum hM hr h1 k hk (initialPure n 0)
  rw [initialPure_sum hn] at hs0
  constructor
  · rw [he]
    simp only [← mul_sum]
    exact hs0
  · intro p hp i
    have hs := coeff_sum hM hr h1 k hk p
    rw [hp] at hs
    have hc : ((vecMatrix n r.vectors)⁻¹.mulVec p) k = ((vecMatrix n r.vectors)⁻¹.mulVec (initialPure n 0)) k := by
      have hne : ∑ i : Fin n, r.vectors i k ≠ 0 := by
        intro h0; rw [h0, mul_zero] at hs; exact zero_ne_one hs
      exact mul_right_cancel₀ hne (hs.trans hs0.symm)
    rw [he]
    simp only [simulation_eq hn hM hr]
    have hlim : ∀ j : Fin n, Filter.Tendsto (fun t : ℝ => ((vecMatrix n r.vectors)⁻¹.mulVec p) j *
        Complex.exp (r.eigenvalues j * (1 * t)) * r.vectors i j) Filter.atTop
        (nhds (if j = k then ((vecMatrix n r.vectors)⁻¹.mulVec p) k * r.vectors i k else 0)) := by
      intro j
      by_cases hjk : j = k
      · subst hjk
        simp [hk]
      · rw [if_neg hjk]
        have hlt : (r.eigenvalues j).re < 0 := by
          obtain ⟨a, b⟩ := (C35_spectrum hn M hM r hr).1 j j.2
          exact lt_of_le_of_ne a fun h0 => hjk (simple_zero hr h1 j k (b h0) hk)
        have hexp : Filter.Tendsto (fun t : ℝ => Complex.exp (r.eigenvalues j * (1 * t))) Filter.atTop (nhds 0) := by
          rw [tendsto_zero_iff_norm_tendsto_zero]
          have h5 : (fun t : ℝ => ‖Complex.exp (r.eigenvalues j * (1 * t))‖) =
              fun t : ℝ => Real.exp ((r.eigenvalues j).re * t) := by
            funext t
            rw [Complex.norm_exp, one_mul, Complex.re_mul_ofReal]
          rw [h5]
          exact Real.tendsto_exp_atBot.comp (Filter.tendsto_id.const_mul_atTop_of_neg hlt)
        have h6 := (hexp.const_mul (((vecMatrix n r.vectors)⁻¹.mulVec p) j)).mul_const (r.vectors i j)
        simpa using h6
    have h7 := tendsto_finsetSum univ fun j _ => hlim j
    rw [sum_ite_eq' univ k, if_pos (mem_univ k), hc] at h7
    exact h7

/-- **C37.** With one stationary distribution the entries of the equilibrium state are probabilities. -/
theorem C37_nonneg (hn : 0 < n) (M : Matrix (Fin n) (Fin n) ℂ) (hM : Generator M) (h1 : OneStationary M)
    (r : EigResult) (hr : IsEig n M r.eigenvalues r.vectors) (i : Fin n) :
    0 ≤ (calculateEquilibriumState n r i).re ∧ (calculateEquilibriumState n r i).im = 0 := by
  have hp0 : ∀ i, 0 ≤ (initialPure n 0 i).re ∧ (initialPure n 0 i).im = 0 := by
    intro i; rw [initialPure]; split_ifs <;> simp
  have hlim := (C37_converges hn M hM h1 r hr).2 (initialPure n 0) (initialPure_sum hn) i
  have hnn : ∀ t : ℝ, 0 ≤ t → 0 ≤ (calculateTunnellingSimulationState r (initialPure n 0) t i).re ∧
      (calculateTunnellingSimulationState r (initialPure n 0) t i).im = 0 := by
    intro t ht
    obtain ⟨a, b⟩ := C36_nonneg hn M hM r hr (initialPure n 0) hp0 t ht i
    refine ⟨a, ?_⟩
    rw [b]; exact Complex.ofReal_im _
  constructor
  · exact ge_of_tendsto ((Complex.continuous_re.tendsto _).comp hlim)
      ((Filter.eventually_ge_atTop 0).mono fun t ht => (hnn t ht).1)
  · refine tendsto_nhds_unique ((Complex.continuous_im.tendsto _).comp hlim) ?_
    refine (tendsto_const_nhds (x := (0 : ℝ))).congr' ?_
    exact (Filter.eventually_ge_atTop 0).mono fun t ht => (hnn t ht).2.symm

/-- **C37.** When every site can be reached from every other by hops with positive rates there is exactly one stationary
distribution up to a factor, so the previous theorems apply. -/
theorem C37_connected (M : Matrix (Fin n) (Fin n) ℂ) (hM : Generator M)
    (hc : ∀ i j, Relation.ReflTransGen (fun a b => a ≠ b ∧ 0 < (M b a).re) i j) : OneStationary M := by
  rcases Nat.eq_zero_or_pos n with h0 | hn
  · subst h0
    intro u v _ _ hu
    exact absurd (Subsingleton.elim u 0) hu
  have hne : Nonempty (Fin n) := ⟨⟨0, hn⟩⟩
  have hcol : ∀ j, ∑ i, (M i j).re = 0 := fun j => by rw [← Complex.re_sum, hM.2 j]; rfl
  -- left null vectors are constant
  have hreal : ∀ x : Fin n → ℝ, (∀ j, ∑ i, x i * (M i j).re = 0) → ∃ c, ∀ i, x i = c := by
    intro x hx
    obtain ⟨k, hk⟩ := Finite.exists_max x
    refine ⟨x k, fun i => ?_⟩
    have hpath := hc k i
    induction hpath with
    | refl => rfl
    | @tail a b _ hab ih =>
      have h1 : ∑ i, (x a - x i) * (M i a).re = 0 := by
        simp only [sub_mul, sum_sub_distrib, hx a, ← mul_sum, hcol a, mul_zero, sub_zero]
      have h2 : ∀ i ∈ univ, 0 ≤ (x a - x i) * (M i a).re := by
        intro i _
        by_cases hia : i = a
        · subst hia; simp
        · refine mul_nonneg ?_ (hM.1 i a hia).1
          rw [ih]; exact sub_nonneg.2 (hk i)
      have h3 := (sum_eq_zero_iff_of_nonneg h2).1 h1 b (mem_univ b)
      rcases mul_eq_zero.1 h3 with h4 | h4
      · linarith
      · exact absurd h4 hab.2.ne'
  have him : ∀ i j, (M i j).im = 0 := by
    intro i j
    by_cases hij : i = j
    · subst hij
      have h := hM.2 i
      rw [← add_sum_erase _ _ (mem_univ i)] at h
      have h3 := congrArg Complex.im h
      rw [Complex.add_im, Complex.im_sum, sum_eq_zero (fun k hk => (hM.1 k i (ne_of_mem_erase hk)).2), add_zero] at h3
      simpa using h3
    · exact (hM.1 i j hij).2
  have hleft : ∀ x : Fin n → ℂ, M.transpose.mulVec x = 0 → ∃ c : ℂ, c • (fun _ : Fin n => (1 : ℂ)) = x := by
    intro x hx
    have hx' : ∀ j, ∑ i, M i j * x i = 0 := fun j => congrFun hx j
    obtain ⟨a, ha⟩ := hreal (fun i => (x i).re) fun j => by
      have := congrArg Complex.re (hx' j)
      rw [Complex.re_sum] at this
      simpa [Complex.mul_re, him, mul_comm] using this
    obtain ⟨b, hb⟩ := hreal (fun i => (x i).im) fun j => by
      have := congrArg Complex.im (hx' j)
      rw [Complex.im_sum] at this
      simpa [Complex.mul_im, him, mul_comm] using this
    refine ⟨⟨a, b⟩, ?_⟩
    funext i
    simp only [Pi.smul_apply, smul_eq_mul, mul_one]
    exact Complex.ext (ha i).symm (hb i).symm
  -- hence the rank is at least `n - 1`
  have hker : Module.finrank ℂ (LinearMap.ker M.transpose.mulVecLin) ≤ 1 := by
    rw [finrank_le_one_iff]
    refine ⟨⟨fun _ => 1, ?_⟩, fun w => ?_⟩
    · rw [LinearMap.mem_ker]
      funext j
      simp only [Matrix.mulVecLin_apply, Matrix.mulVec, dotProduct, Matrix.transpose_apply, mul_one, hM.2 j, Pi.zero_apply]
    · obtain ⟨c, hc⟩ := hleft w.1 (by have := w.2; rwa [LinearMap.mem_ker] at this)
      exact ⟨c, Subtype.ext hc⟩
  have hker' : Module.finrank ℂ (LinearMap.ker M.mulVecLin) ≤ 1 := by
    have e1 := LinearMap.finrank_range_add_finrank_ker M.mulVecLin
    have e2 := LinearMap.finrank_range_add_finrank_ker M.transpose.mulVecLin
    have e3 : Module.finrank ℂ (LinearMap.range M.transpose.mulVecLin) = Module.finrank ℂ (LinearMap.range M.mulVecLin) :=
      Matrix.rank_transpose M
    rw [e3] at e2
    omega
  obtain ⟨v, hv⟩ := finrank_le_one_iff.1 hker'
  intro u w hu hw hu0
  obtain ⟨a, ha⟩ := hv ⟨u, by rw [LinearMap.mem_ker]; exact hu⟩
  obtain ⟨b, hb⟩ := hv ⟨w, by rw [LinearMap.mem_ker]; exact hw⟩
  have ha' : a • v.1 = u := congrArg Subtype.val ha
  have hb' : b • v.1 = w := congrArg Subtype.val hb
  have ha0 : a ≠ 0 := by
    rintro rfl; rw [zero_smul] at ha'; exact hu0 ha'.symm
  refine ⟨b / a, ?_⟩
  rw [← ha', ← hb', smul_smul, div_mul_cancel₀ _ ha0]

/-- Two sites with rates 1 and 2: a connected generator, with eigenvalues 0 and -3. -/
example : Generator (!![-1, 2; 1, -2] : Matrix (Fin 2) (Fin 2) ℂ) ∧
    OneStationary (!![-1, 2; 1, -2] : Matrix (Fin 2) (Fin 2) ℂ) ∧
    IsEig 2 (!![-1, 2; 1, -2] : Matrix (Fin 2) (Fin 2) ℂ) (fun j => if j = 0 then 0 else -3)
      (fun i j => if j = 0 then (if i = 0 then 2 else 1) else (if i = 0 then 1 else -1)) := by
  have hG : Generator (!![-1, 2; 1, -2] : Matrix (Fin 2) (Fin 2) ℂ) := by
    refine ⟨fun i j hij => ?_, fun j => ?_⟩
    · fin_cases i <;> fin_cases j <;> simp at hij ⊢
    · fin_cases j <;> simp [Fin.sum_univ_two]
  refine ⟨hG, C37_connected _ hG ?_, ?_, ?_⟩
  · intro i j
    by_cases hij : i = j
    · subst hij; exact .refl
    · refine .single ⟨hij, ?_⟩
      fin_cases i <;> fin_cases j <;> simp at hij ⊢
  · intro j hj i
    interval_cases j <;> fin_cases i <;> simp [Fin.sum_univ_two] <;> norm_num
  · intro c hc
    have h0 := hc 0
    have h1 := hc 1
    simp [Fin.sum_univ_two] at h0 h1
    have h2 : c 0 = 0 := by linear_combination (h0 + h1) / 3
    have h3 : c 1 = 0 := by linear_combination h0 - 2 * h2
    funext i
    fin_cases i <;> assumption

end Verif
