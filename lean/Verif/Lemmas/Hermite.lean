import Mathlib.Algebra.Polynomial.Derivative
import Mathlib.Algebra.Polynomial.AlgebraMap
import Mathlib.Analysis.SpecialFunctions.Gaussian.GaussianIntegral
import Mathlib.Analysis.Calculus.Deriv.Polynomial
import Mathlib.MeasureTheory.Integral.IntegralEqImproper
import Mathlib.Tactic.LinearCombination

/-!
The Hermite polynomials of physics, their differential equation and orthogonality.
-/

set_option autoImplicit false

namespace Verif

open Polynomial MeasureTheory

/-- `H₀ = 1`, `Hₙ₊₁ = 2 X Hₙ - Hₙ'`. -/
noncomputable def physHermite : ℕ → ℤ[X]
  | 0 => 1
  | n + 1 => 2 * X * physHermite n - derivative (physHermite n)

theorem physHermite_succ (n : ℕ) : physHermite (n + 1) = 2 * X * physHermite n - derivative (physHermite n) := rfl

theorem derivative_physHermite (n : ℕ) : derivative (physHermite (n + 1)) = 2 * ((n : ℤ[X]) + 1) * physHermite n := by
  induction n with
  | zero => simp [physHermite]
  | succ n ih =>
    rw [physHermite_succ (n + 1), ih, derivative_sub, derivative_mul, ih]
    have h2 : derivative (2 * X : ℤ[X]) = 2 := by simp
    have h3 : derivative (2 * ((n : ℤ[X]) + 1) * physHermite n) = 2 * ((n : ℤ[X]) + 1) * derivative (physHermite n) := by
      rw [derivative_mul]; simp
    rw [h2, h3, physHermite_succ n]
    push_cast
    ring

theorem physHermite_three (n : ℕ) : physHermite (n + 2) = 2 * X * physHermite (n + 1) - 2 * ((n : ℤ[X]) + 1) * physHermite n := by
  rw [physHermite_succ (n + 1), derivative_physHermite]

theorem coeff_physHermite_zero (n : ℕ) : (physHermite (n + 1)).coeff 0 = -(physHermite n).coeff 1 := by
  rw [physHermite_succ, mul_assoc, coeff_sub, coeff_derivative]
  simp

theorem coeff_physHermite_succ (n m : ℕ) :
    (physHermite (n + 1)).coeff (m + 1) = 2 * (physHermite n).coeff m - ((m : ℤ) + 1 + 1) * (physHermite n).coeff (m + 2) := by
  rw [physHermite_succ, mul_assoc, coeff_sub, coeff_derivative, coeff_ofNat_mul, coeff_X_mul]
  push_cast; ring

theorem coeff_physHermite_gt {n m : ℕ} (h : n < m) : (physHermite n).coeff m = 0 := by
  induction n generalizing m with
  | zero => simp only [physHermite]; rw [coeff_one, if_neg (by omega)]
  | succ n ih =>
    obtain ⟨m, rfl⟩ : ∃ k, m = k + 1 := ⟨m - 1, by omega⟩
    rw [coeff_physHermite_succ, ih (by omega), ih (by omega)]; ring

theorem natDegree_physHermite_lt (n : ℕ) : (physHermite n).natDegree < n + 1 :=
  Nat.lt_succ_of_le (natDegree_le_iff_coeff_eq_zero.2 fun _ h => coeff_physHermite_gt h)

/-- The polynomial as a function of a real number. -/
noncomputable def hermiteR (n : ℕ) : ℝ[X] := (physHermite n).map (Int.castRingHom ℝ)

theorem hermiteR_succ (n : ℕ) : hermiteR (n + 1) = 2 * X * hermiteR n - derivative (hermiteR n) := by
  simp [hermiteR, physHermite_succ, derivative_map]

theorem derivative_hermiteR (n : ℕ) : derivative (hermiteR n) = 2 * (n : ℝ[X]) * hermiteR (n - 1) := by
  cases n with
  | zero => simp [hermiteR, physHermite]
  | succ n =>
    rw [hermiteR, derivative_map, derivative_physHermite]
    simp [hermiteR]

/-- Hermite's differential equation. -/
theorem hermiteR_ode (n : ℕ) : derivative (derivative (hermiteR n)) = 2 * X * derivative (hermiteR n) - 2 * (n : ℝ[X]) * hermiteR n := by
  cases n with
  | zero => simp [hermiteR, physHermite]
  | succ n =>
    have h1 : derivative (hermiteR (n + 1)) = 2 * ((n : ℝ[X]) + 1) * hermiteR n := by
      rw [derivative_hermiteR]; simp
    have h2 : derivative (2 * ((n : ℝ[X]) + 1) * hermiteR n) = 2 * ((n : ℝ[X]) + 1) * derivative (hermiteR n) := by
      rw [derivative_mul]; simp
    rw [h1, h2, hermiteR_succ]
    push_cast
    ring

theorem integrable_gaussian (p : ℝ[X]) : Integrable fun x : ℝ => p.eval x * Real.exp (-x ^ 2) := by
  induction p using Polynomial.induction_on' with
  | add p q hp hq =>
    simp only [eval_add, add_mul]
    exact hp.add hq
  | monomial n a =>
    simp only [eval_monomial, mul_assoc]
    refine Integrable.const_mul ?_ a
    have := integrable_rpow_mul_exp_neg_mul_sq one_pos (s := (n : ℝ)) (by have : (0 : ℝ) ≤ n := Nat.cast_nonneg n; linarith)
    simpa using this

/-- The Gaussian integral of a polynomial. -/
noncomputable def gaussInt (p : ℝ[X]) : ℝ := ∫ x : ℝ, p.eval x * Real.exp (-x ^ 2)

theorem gaussInt_sub (p q : ℝ[X]) : gaussInt (p - q) = gaussInt p - gaussInt q := by
  unfold gaussInt
  rw [← integral_sub (integrable_gaussian p) (integrable_gaussian q)]
  simp only [eval_sub, sub_mul]

theorem gaussInt_smul (c : ℝ) (p : ℝ[X]) : gaussInt (C c * p) = c * gaussInt p := by
  unfold gaussInt
  rw [← integral_const_mul]
  simp only [eval_mul, eval_C, mul_assoc]

theorem gaussInt_one : gaussInt 1 = Real.sqrt Real.pi := by
  have := integral_gaussian 1
  rw [div_one] at this
  rw [← this]
  simp [gaussInt]

theorem gaussInt_parts (p : ℝ[X]) : gaussInt (derivative p) = gaussInt (2 * X * p) := by
  rw [← sub_eq_zero, ← gaussInt_sub]
  refine integral_eq_zero_of_hasDerivAt_of_integrable (f := fun x : ℝ => p.eval x * Real.exp (-x ^ 2)) (fun x => ?_) (integrable_gaussian _)
    (integrable_gaussian p)
  have h1 : HasDerivAt (fun x : ℝ => Real.exp (-x ^ 2)) (Real.exp (-x ^ 2) * (-(2 * x))) x := by
    refine HasDerivAt.exp (HasDerivAt.congr_deriv (hasDerivAt_pow 2 x).fun_neg ?_)
    simp
  refine ((p.hasDerivAt x).fun_mul h1).congr_deriv ?_
  simp only [eval_sub, eval_mul, eval_X, eval_ofNat]
  ring

/-- `L(p Hₙ₊₁) = L(p' Hₙ)`. -/
theorem gaussInt_shift (p : ℝ[X]) (n : ℕ) : gaussInt (p * hermiteR (n + 1)) = gaussInt (derivative p * hermiteR n) := by
  have h : p * hermiteR (n + 1) = 2 * X * (p * hermiteR n) - p * derivative (hermiteR n) := by rw [hermiteR_succ]; ring
  rw [h, gaussInt_sub, ← gaussInt_parts, derivative_mul, ← gaussInt_sub]
  congr 1; ring

theorem gaussInt_hermite (m n : ℕ) : gaussInt (hermiteR m * hermiteR n) = if m = n then 2 ^ n * (n.factorial : ℝ) * Real.sqrt Real.pi else 0 := by
  induction n generalizing m with
  | zero =>
    cases m with
    | zero => simp [hermiteR, physHermite, gaussInt_one]
    | succ m =>
      rw [mul_comm, gaussInt_shift, if_neg (by omega)]
      simp [hermiteR, physHermite, gaussInt]
  | succ n ih =>
    rw [gaussInt_shift, derivative_hermiteR]
    cases m with
    | zero => rw [if_neg (by omega)]; simp [gaussInt]
    | succ m =>
      have : 2 * ((m + 1 : ℕ) : ℝ[X]) * hermiteR (m + 1 - 1) * hermiteR n = C (2 * ((m : ℝ) + 1)) * (hermiteR m * hermiteR n) := by
        rw [Nat.add_sub_cancel]
        simp only [C_mul, C_add, C_1]
        push_cast
        have : (C (m : ℝ) : ℝ[X]) = m := map_natCast C m
        have h2 : (C (2 : ℝ) : ℝ[X]) = 2 := map_ofNat C 2
        rw [this, h2]; ring
      rw [this, gaussInt_smul, ih]
      by_cases h : m = n
      · rw [if_pos h, if_pos (by rw [h]), h, Nat.factorial_succ]; push_cast; ring
      · rw [if_neg h, if_neg (by omega), mul_zero]

end Verif
