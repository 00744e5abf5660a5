import Verif.Lemmas.Eigen
import Mathlib.Analysis.Normed.Algebra.MatrixExponential
import Mathlib.Analysis.SpecialFunctions.Exponential
import Mathlib.Analysis.SpecialFunctions.ExpDeriv
import Mathlib.Analysis.Calculus.Deriv.Add
import Mathlib.Analysis.Calculus.Deriv.Mul
import Mathlib.Analysis.Calculus.MeanValue
import Mathlib.Topology.Instances.Matrix

/-!
Linear evolution written with eigenvectors, and the matrix exponential.
-/

set_option autoImplicit false

namespace Verif

open Finset Spec

variable {n : ℕ} {M : Matrix (Fin n) (Fin n) ℂ} {lam : ℕ → ℂ} {vec : ℕ → ℕ → ℂ}

/-- `V e^{z D} V⁻¹ p` is the exponential of `z M` applied to `p`. -/
theorem evolve_eq_exp (h : IsEig n M lam vec) (z : ℂ) (p : Fin n → ℂ) :
    (fun i : Fin n => ∑ j : Fin n, ((vecMatrix n vec)⁻¹.mulVec p) j * Complex.exp (lam j * z) * vec i j) =
      (NormedSpace.exp (z • M)).mulVec p := by
  have e : z • M = vecMatrix n vec * diagMatrix n (fun j => lam j * z) * (vecMatrix n vec)⁻¹ := by
    conv_lhs => rw [h.eq]
    rw [← Matrix.smul_mul, ← Matrix.mul_smul]
    congr 2
    ext i j
    simp only [diagMatrix, Matrix.smul_apply, Matrix.diagonal_apply, smul_eq_mul]
    split_ifs <;> simp [mul_comm]
  rw [e, Matrix.exp_conj _ _ h.isUnit, diagMatrix, Matrix.exp_diagonal, ← Matrix.mulVec_mulVec, ← Matrix.mulVec_mulVec]
  funext i
  simp only [Matrix.mulVec, dotProduct, Matrix.diagonal_apply, ite_mul, zero_mul, sum_ite_eq, mem_univ, if_true]
  apply sum_congr rfl; intro j _
  rw [Pi.coe_exp, ← Complex.exp_eq_exp_ℂ]
  show _ = vec i j * _
  ring

/-- The coefficients of a state recombine to the state. -/
theorem sum_coeff (h : IsEig n M lam vec) (p : Fin n → ℂ) (i : Fin n) :
    ∑ j : Fin n, ((vecMatrix n vec)⁻¹.mulVec p) j * vec i j = p i := by
  have : (vecMatrix n vec).mulVec ((vecMatrix n vec)⁻¹.mulVec p) = p := by
    rw [Matrix.mulVec_mulVec, Matrix.mul_nonsing_inv _ h.isUnit_det, Matrix.one_mulVec]
  rw [← congrFun this i]
  exact sum_congr rfl fun j _ => mul_comm _ _

/-- Derivative of an evolution written with eigenvectors. -/
theorem hasDerivAt_evolve (hv : ∀ j < n, ∀ i : Fin n, ∑ k : Fin n, M i k * vec k j = lam j * vec i j) (c : Fin n → ℂ)
    (a : ℂ) (t : ℝ) (i : Fin n) :
    HasDerivAt (fun t : ℝ => ∑ j : Fin n, c j * Complex.exp (lam j * (a * t)) * vec i j)
      (a * ∑ k, M i k * ∑ j : Fin n, c j * Complex.exp (lam j * (a * t)) * vec k j) t := by
  have h1 : ∀ j : Fin n, HasDerivAt (fun t : ℝ => c j * Complex.exp (lam j * (a * t)) * vec i j)
      (c j * (Complex.exp (lam j * (a * t)) * (lam j * a)) * vec i j) t := by
    intro j
    have h2 : HasDerivAt (fun s : ℝ => lam j * (a * (s : ℂ))) (lam j * a) t := by
      have h3 := (((hasDerivAt_id (t : ℂ)).comp_ofReal).const_mul a).const_mul (lam j)
      simpa using h3
    exact ((h2.cexp).const_mul (c j)).mul_const _
  have h4 := HasDerivAt.fun_sum (u := univ) (fun j _ => h1 j)
  refine h4.congr_deriv (Eq.symm ?_)
  simp only [mul_sum]
  rw [sum_comm]
  apply sum_congr rfl; intro j _
  have := hv j j.2 i
  calc ∑ k, a * (M i k * (c j * Complex.exp (lam j * (a * t)) * vec k j)) =
      a * c j * Complex.exp (lam j * (a * t)) * ∑ k : Fin n, M i k * vec k j := by
        rw [mul_sum]; exact sum_congr rfl fun k _ => by ring
    _ = _ := by rw [this]; ring

/-- Uniqueness: every solution of the linear equation is the evolution of its initial value. -/
theorem evolve_unique (h : IsEig n M lam vec) (a : ℂ) (f : ℝ → Fin n → ℂ)
    (hf : ∀ t i, HasDerivAt (fun s => f s i) (a * ∑ k, M i k * f t k) t) (t : ℝ) :
    f t = fun i : Fin n => ∑ j : Fin n, ((vecMatrix n vec)⁻¹.mulVec (f 0)) j * Complex.exp (lam j * (a * t)) * vec i j := by
  have hWM : (vecMatrix n vec)⁻¹ * M = diagMatrix n lam * (vecMatrix n vec)⁻¹ := by
    conv_lhs => rw [h.eq]
    rw [← Matrix.mul_assoc, ← Matrix.mul_assoc, Matrix.nonsing_inv_mul _ h.isUnit_det, Matrix.one_mul]
  have hc : ∀ j : Fin n, ∀ s : ℝ, HasDerivAt (fun s => ((vecMatrix n vec)⁻¹.mulVec (f s)) j)
      (a * lam j * ((vecMatrix n vec)⁻¹.mulVec (f s)) j) s := by
    intro j s
    have h1 := HasDerivAt.fun_sum (u := univ) (fun k _ => (hf s k).const_mul ((vecMatrix n vec)⁻¹ j k))
    refine h1.congr_deriv ?_
    have h2 := congrFun (congrArg (fun A => Matrix.mulVec A (f s)) hWM) j
    simp only [diagMatrix, ← Matrix.mulVec_mulVec, Matrix.mulVec_diagonal] at h2
    rw [mul_assoc, ← h2]
    simp only [Matrix.mulVec, dotProduct, mul_sum]
    exact sum_congr rfl fun k _ => sum_congr rfl fun l _ => by ring
  have hconst : ∀ j : Fin n, ((vecMatrix n vec)⁻¹.mulVec (f t)) j =
      ((vecMatrix n vec)⁻¹.mulVec (f 0)) j * Complex.exp (lam j * (a * t)) := by
    intro j
    have h1 : ∀ s : ℝ, HasDerivAt (fun s : ℝ => ((vecMatrix n vec)⁻¹.mulVec (f s)) j * Complex.exp (-(lam j * (a * s))))
        0 s := by
      intro s
      have h2 : HasDerivAt (fun s : ℝ => -(lam j * (a * (s : ℂ)))) (-(lam j * a)) s := by
        have h3 := ((((hasDerivAt_id (s : ℂ)).comp_ofReal).const_mul a).const_mul (lam j)).fun_neg
        simpa using h3
      refine ((hc j s).mul h2.cexp).congr_deriv ?_
      ring
    have h4 := is_const_of_deriv_eq_zero (fun s => (h1 s).differentiableAt) (fun s => (h1 s).deriv) t 0
    simp only [Complex.ofReal_zero, mul_zero, neg_zero, Complex.exp_zero, mul_one] at h4
    rw [← h4, mul_assoc, ← Complex.exp_add]
    simp
  funext i
  rw [← sum_coeff h (f t) i]
  exact sum_congr rfl fun j _ => by rw [hconst j]

/-- Matrices with nonnegative real entries. -/
def NonnegEntries (A : Matrix (Fin n) (Fin n) ℂ) : Prop := ∀ i j, 0 ≤ (A i j).re ∧ (A i j).im = 0

theorem NonnegEntries.mul {A B : Matrix (Fin n) (Fin n) ℂ} (hA : NonnegEntries A) (hB : NonnegEntries B) :
    NonnegEntries (A * B) := by
  intro i j
  rw [Matrix.mul_apply, Complex.re_sum, Complex.im_sum]
  constructor
  · apply sum_nonneg; intro k _
    rw [Complex.mul_re, (hA i k).2, zero_mul, sub_zero]
    exact mul_nonneg (hA i k).1 (hB k j).1
  · apply sum_eq_zero; intro k _
    rw [Complex.mul_im, (hA i k).2, (hB k j).2]; simp

theorem nonnegEntries_one : NonnegEntries (1 : Matrix (Fin n) (Fin n) ℂ) := by
  intro i j
  rw [Matrix.one_apply]; split_ifs <;> simp

theorem NonnegEntries.pow {A : Matrix (Fin n) (Fin n) ℂ} (hA : NonnegEntries A) (k : ℕ) : NonnegEntries (A ^ k) := by
  induction k with
  | zero => rw [pow_zero]; exact nonnegEntries_one
  | succ k ih => rw [pow_succ]; exact ih.mul hA

theorem NonnegEntries.smul {A : Matrix (Fin n) (Fin n) ℂ} (hA : NonnegEntries A) {c : ℝ} (hc : 0 ≤ c) :
    NonnegEntries ((c : ℂ) • A) := by
  intro i j
  rw [Matrix.smul_apply, smul_eq_mul, Complex.re_ofReal_mul, Complex.im_ofReal_mul, (hA i j).2, mul_zero]
  exact ⟨mul_nonneg hc (hA i j).1, rfl⟩

theorem NonnegEntries.sum {ι : Type} (s : Finset ι) {A : ι → Matrix (Fin n) (Fin n) ℂ}
    (hA : ∀ k ∈ s, NonnegEntries (A k)) : NonnegEntries (∑ k ∈ s, A k) := by
  intro i j
  rw [Matrix.sum_apply, Complex.re_sum, Complex.im_sum]
  exact ⟨sum_nonneg fun k hk => (hA k hk i j).1, sum_eq_zero fun k hk => (hA k hk i j).2⟩

theorem isClosed_nonnegEntries : IsClosed {A : Matrix (Fin n) (Fin n) ℂ | NonnegEntries A} := by
  have : {A : Matrix (Fin n) (Fin n) ℂ | NonnegEntries A} =
      ⋂ i, ⋂ j, ({A | 0 ≤ (A i j).re} ∩ {A | (A i j).im = 0}) := by
    ext A; simp [NonnegEntries]
  rw [this]
  refine isClosed_iInter fun i => isClosed_iInter fun j => IsClosed.inter ?_ ?_
  · exact isClosed_le continuous_const (Complex.continuous_re.comp (continuous_id.matrix_elem i j))
  · exact isClosed_eq (Complex.continuous_im.comp (continuous_id.matrix_elem i j)) continuous_const

attribute [local instance] Matrix.linftyOpNormedRing Matrix.linftyOpNormedAlgebra in
theorem hasSum_exp (A : Matrix (Fin n) (Fin n) ℂ) :
    HasSum (fun k : ℕ => ((k.factorial : ℂ)⁻¹) • A ^ k) (NormedSpace.exp A) :=
  NormedSpace.exp_series_hasSum_exp' (𝕂 := ℂ) A

/-- The exponential of a matrix with nonnegative entries has nonnegative entries. -/
theorem NonnegEntries.exp {A : Matrix (Fin n) (Fin n) ℂ} (hA : NonnegEntries A) : NonnegEntries (NormedSpace.exp A) := by
  have h := hasSum_exp A
  refine isClosed_nonnegEntries.mem_of_tendsto h (Filter.Eventually.of_forall fun s => ?_)
  refine NonnegEntries.sum s fun k _ => ?_
  have h1 := (hA.pow k).smul (c := ((k.factorial : ℝ)⁻¹)) (by positivity)
  have h2 : (((k.factorial : ℝ)⁻¹ : ℝ) : ℂ) = (k.factorial : ℂ)⁻¹ := by push_cast; rfl
  rwa [h2] at h1

/-- Real matrices with nonnegative off-diagonal entries have exponentials with nonnegative entries. -/
theorem nonnegEntries_exp_of_offDiag {A : Matrix (Fin n) (Fin n) ℂ} (hA : ∀ i j, i ≠ j → 0 ≤ (A i j).re)
    (him : ∀ i j, (A i j).im = 0) : NonnegEntries (NormedSpace.exp A) := by
  set c : ℝ := ∑ i, |(A i i).re| with hc
  have hB : NonnegEntries (A + (c : ℂ) • (1 : Matrix (Fin n) (Fin n) ℂ)) := by
    intro i j
    rw [Matrix.add_apply, Matrix.smul_apply, Matrix.one_apply, smul_eq_mul]
    by_cases hij : i = j
    · subst hij
      simp only [if_true, mul_one, Complex.add_re, Complex.ofReal_re, Complex.add_im, Complex.ofReal_im, him, add_zero,
        and_true]
      have h1 : |(A i i).re| ≤ c := single_le_sum (f := fun i => |(A i i).re|) (fun i _ => abs_nonneg _) (mem_univ i)
      have h2 := neg_abs_le (A i i).re
      linarith
    · simp [hij, hA i j hij, him]
  have h1 : A = (A + (c : ℂ) • (1 : Matrix (Fin n) (Fin n) ℂ)) + ((-c : ℝ) : ℂ) • (1 : Matrix (Fin n) (Fin n) ℂ) := by
    rw [add_assoc, ← add_smul]; simp
  have hcomm : Commute (A + (c : ℂ) • (1 : Matrix (Fin n) (Fin n) ℂ)) (((-c : ℝ) : ℂ) • (1 : Matrix (Fin n) (Fin n) ℂ)) :=
    (Commute.one_right _).smul_right _
  rw [h1, Matrix.exp_add_of_commute _ _ hcomm]
  refine hB.exp.mul ?_
  have h2 : ((-c : ℝ) : ℂ) • (1 : Matrix (Fin n) (Fin n) ℂ) = Matrix.diagonal (fun _ => ((-c : ℝ) : ℂ)) := by
    rw [← Matrix.diagonal_one, ← Matrix.diagonal_smul]
    congr 1; funext i; simp
  rw [h2, Matrix.exp_diagonal]
  intro i j
  rw [Matrix.diagonal_apply]
  split_ifs
  · rw [Pi.coe_exp, ← Complex.exp_eq_exp_ℂ, Complex.exp_ofReal_re, Complex.exp_ofReal_im]
    exact ⟨(Real.exp_pos _).le, rfl⟩
  · simp

end Verif
