import Verif.Model.Generator
import Verif.Model.Sho
import Verif.Spec.Sho
import Verif.Lemmas.Hermite
import Mathlib.Tactic.FieldSimp
import Mathlib.MeasureTheory.Measure.Haar.NormedSpace
import Mathlib.Analysis.SpecialFunctions.ExpDeriv

/-!
C93: the harmonic oscillator states of the compiled generator and of python.
-/

set_option autoImplicit false

namespace Verif

open Polynomial MeasureTheory Spec

theorem evalHermite_eq (n : ℕ) (x : ℝ) : evalHermite n x = (hermiteR n).eval x := by
  induction n using Nat.twoStepInduction with
  | zero => simp [evalHermite, hermiteR, physHermite]
  | one => simp [evalHermite, hermiteR, physHermite]
  | more n h1 h2 =>
    have : hermiteR (n + 2) = 2 * X * hermiteR (n + 1) - 2 * ((n : ℝ[X]) + 1) * hermiteR n := by
      simp [hermiteR, physHermite_three]
    rw [evalHermite, h1, h2, this]
    simp only [eval_sub, eval_mul, eval_add, eval_X, eval_one, eval_natCast, eval_ofNat]

/-- A Hermite function with any prefactor. -/
theorem hermite_function_ode (hbar mass omega : ℝ) (hh : 0 < hbar) (hm : 0 < mass) (ho : 0 < omega) (n : ℕ) (c : ℝ) :
    SolvesOscillator hbar mass omega (hbar * omega * (n + 1 / 2)) fun x => c * (hermiteR n).eval (x * Real.sqrt (omega * mass / hbar)) *
      Real.exp (-(x * Real.sqrt (omega * mass / hbar)) ^ 2 / 2) := by
  have ha : Real.sqrt (omega * mass / hbar) ^ 2 = omega * mass / hbar := Real.sq_sqrt (by positivity)
  generalize Real.sqrt (omega * mass / hbar) = a at ha
  have hlin : ∀ x : ℝ, HasDerivAt (fun x : ℝ => x * a) a x := fun x => by simpa using (hasDerivAt_id x).mul_const a
  have hexp : ∀ x : ℝ, HasDerivAt (fun x : ℝ => Real.exp (-(x * a) ^ 2 / 2)) (Real.exp (-(x * a) ^ 2 / 2) * (-(x * a) * a)) x := by
    intro x
    refine HasDerivAt.exp ((((hlin x).fun_pow 2).fun_neg.div_const 2).congr_deriv ?_)
    push_cast; ring
  have hpoly : ∀ (p : ℝ[X]) (x : ℝ), HasDerivAt (fun x : ℝ => c * p.eval (x * a) * Real.exp (-(x * a) ^ 2 / 2))
      (c * (derivative p - X * p).eval (x * a) * Real.exp (-(x * a) ^ 2 / 2) * a) x := by
    intro p x
    have h1 : HasDerivAt (fun x : ℝ => p.eval (x * a)) ((derivative p).eval (x * a) * a) x :=
      HasDerivAt.comp (h₂ := fun y => p.eval y) x (p.hasDerivAt (x * a)) (hlin x)
    refine ((h1.const_mul c).fun_mul (hexp x)).congr_deriv ?_
    simp only [eval_sub, eval_mul, eval_X]
    ring
  have hd1 : deriv (fun x : ℝ => c * (hermiteR n).eval (x * a) * Real.exp (-(x * a) ^ 2 / 2)) =
      fun x => c * (derivative (hermiteR n) - X * hermiteR n).eval (x * a) * Real.exp (-(x * a) ^ 2 / 2) * a :=
    funext fun x => (hpoly _ x).deriv
  have hd2 : ∀ x : ℝ, HasDerivAt (fun x : ℝ => c * (derivative (hermiteR n) - X * hermiteR n).eval (x * a) * Real.exp (-(x * a) ^ 2 / 2) * a)
      (c * (derivative (derivative (hermiteR n) - X * hermiteR n) - X * (derivative (hermiteR n) - X * hermiteR n)).eval (x * a) *
        Real.exp (-(x * a) ^ 2 / 2) * a * a) x := fun x => (hpoly _ x).mul_const a
  refine ⟨fun x => (hpoly _ x).differentiableAt, ?_, fun x => ?_⟩
  · rw [hd1]; exact fun x => (hd2 x).differentiableAt
  · rw [hd1, (hd2 x).deriv]
    have : derivative (derivative (hermiteR n) - X * hermiteR n) - X * (derivative (hermiteR n) - X * hermiteR n) =
        (X * X - 1 - 2 * (n : ℝ[X])) * hermiteR n := by
      rw [derivative_sub, derivative_mul, derivative_X, hermiteR_ode]; ring
    rw [this]
    simp only [eval_sub, eval_mul, eval_X, eval_one, eval_natCast, eval_ofNat]
    have h3 : a * a = omega * mass / hbar := by rw [← ha]; ring
    generalize Real.exp (-(x * a) ^ 2 / 2) = e
    generalize eval (x * a) (hermiteR n) = p
    have h4 : -(hbar ^ 2 / (2 * mass)) * (c * ((x * a * (x * a) - 1 - 2 * (n : ℝ)) * p) * e * a * a) =
        -(hbar ^ 2 / (2 * mass)) * (c * ((x * x * (a * a) - 1 - 2 * (n : ℝ)) * p) * e * (a * a)) := by ring
    rw [h4, h3]
    field_simp
    ring

/-- The integral of a product of Hermite functions. -/
theorem hermite_function_integral (a : ℝ) (ha : 0 < a) (m n : ℕ) (c d : ℝ) :
    ∫ x : ℝ, c * (hermiteR m).eval (x * a) * Real.exp (-(x * a) ^ 2 / 2) * (d * (hermiteR n).eval (x * a) * Real.exp (-(x * a) ^ 2 / 2)) =
      c * d * a⁻¹ * if m = n then 2 ^ n * (n.factorial : ℝ) * Real.sqrt Real.pi else 0 := by
  rw [← gaussInt_hermite, gaussInt]
  have : (fun x : ℝ => c * (hermiteR m).eval (x * a) * Real.exp (-(x * a) ^ 2 / 2) * (d * (hermiteR n).eval (x * a) * Real.exp (-(x * a) ^ 2 / 2))) =
      fun x : ℝ => c * d * (fun y : ℝ => (hermiteR m * hermiteR n).eval y * Real.exp (-y ^ 2)) (x * a) := by
    funext x
    have he : Real.exp (-(x * a) ^ 2) = Real.exp (-(x * a) ^ 2 / 2) * Real.exp (-(x * a) ^ 2 / 2) := by rw [← Real.exp_add]; congr 1; ring
    simp only [eval_mul]
    rw [he]; ring
  rw [this, integral_const_mul, Measure.integral_comp_mul_right (fun y : ℝ => (hermiteR m * hermiteR n).eval y * Real.exp (-y ^ 2)) a, abs_of_pos (inv_pos.2 ha), smul_eq_mul]
  ring

/-- **C93** for python: the functions are orthonormal and solve the Schroedinger equation, for every quantum number. -/
theorem C93_python (hbar mass omega : ℝ) (hh : 0 < hbar) (hm : 0 < mass) (ho : 0 < omega) :
    (∀ n : ℕ, SolvesOscillator hbar mass omega (hbar * omega * (n + 1 / 2)) (shoWavefunction hbar omega mass n)) ∧
    ∀ m, OrthonormalOnLine m (shoWavefunction hbar omega mass) := by
  constructor
  · intro n
    have h := hermite_function_ode hbar mass omega hh hm ho n
      (Real.sqrt ((Real.sqrt (omega * mass / hbar) / 2 ^ n) / ((n.factorial : ℝ) * Real.sqrt Real.pi)))
    have he : shoWavefunction hbar omega mass n = fun x => Real.sqrt ((Real.sqrt (omega * mass / hbar) / 2 ^ n) / ((n.factorial : ℝ) * Real.sqrt Real.pi)) *
        (hermiteR n).eval (x * Real.sqrt (omega * mass / hbar)) * Real.exp (-(x * Real.sqrt (omega * mass / hbar)) ^ 2 / 2) := by
      funext x
      rw [shoWavefunction, evalHermite_eq]
    rw [he]; exact h
  · intro m i _ j _
    have ha : 0 < Real.sqrt (omega * mass / hbar) := Real.sqrt_pos.2 (by positivity)
    simp only [shoWavefunction, evalHermite_eq]
    rw [hermite_function_integral _ ha]
    by_cases h : i = j
    · subst h
      rw [if_pos rfl, if_pos rfl, Real.mul_self_sqrt (by positivity)]
      have hp : 0 < Real.sqrt Real.pi := Real.sqrt_pos.2 Real.pi_pos
      field_simp
    · rw [if_neg h, if_neg h, mul_zero]

theorem wrapI64_sub (a b : ℤ) : wrapI64 (wrapI64 a - wrapI64 b) = wrapI64 (a - b) := by simp [wrapI64]

theorem wrapI64_mul (a b : ℤ) : wrapI64 (a * wrapI64 b) = wrapI64 (a * b) := by simp [wrapI64]

theorem wrapI64_neg (a : ℤ) : wrapI64 (-wrapI64 a) = wrapI64 (-a) := by
  have := wrapI64_mul (-1) a
  simpa using this

theorem wrapI64_small {z : ℤ} (h1 : -(2 ^ 63) ≤ z) (h2 : z < 2 ^ 63) : wrapI64 z = z :=
  Int.bmod_eq_of_le (by norm_num; omega) (by norm_num; omega)

/-- The coefficients of the generator are those of the Hermite polynomials, up to wrapping, for all arguments. -/
theorem hermiteCoefficient_eq (n m : ℕ) : hermiteCoefficient n m = wrapI64 ((physHermite n).coeff m) := by
  induction n generalizing m with
  | zero =>
    cases m with
    | zero => simp [hermiteCoefficient, physHermite]; decide
    | succ m => simp only [hermiteCoefficient, physHermite]; rw [coeff_one, if_neg (by omega)]; decide
  | succ n ih =>
    cases m with
    | zero =>
      cases n with
      | zero => rw [coeff_physHermite_zero]; simp only [hermiteCoefficient, physHermite]; rw [coeff_one, if_neg (by omega)]; decide
      | succ n => rw [hermiteCoefficient, ih, coeff_physHermite_zero, wrapI64_neg]
    | succ m =>
      by_cases h11 : n = 0 ∧ m = 0
      · obtain ⟨rfl, rfl⟩ := h11
        rw [coeff_physHermite_succ]
        simp only [hermiteCoefficient, physHermite]
        rw [coeff_one, coeff_one, if_pos rfl, if_neg (by omega)]
        decide
      · have hd : hermiteCoefficient (n + 1) (m + 1) = if m + 1 ≤ n + 1 then
            wrapI64 (wrapI64 (2 * hermiteCoefficient n m) - wrapI64 (((m : ℤ) + 1 + 1) * hermiteCoefficient n (m + 2))) else 0 := by
          rw [hermiteCoefficient]
          rintro rfl rfl; exact h11 ⟨rfl, rfl⟩
        rw [hd]
        split_ifs with hmn
        · rw [ih, ih, wrapI64_sub, coeff_physHermite_succ, ← wrapI64_sub, wrapI64_mul, wrapI64_mul, wrapI64_sub]
        · rw [coeff_physHermite_gt (by omega)]; decide

/-- A bound of the coefficients. -/
def hermiteBound : ℕ → ℤ
  | 0 => 1
  | 1 => 2
  | n + 2 => 2 * hermiteBound (n + 1) + 2 * ((n : ℤ) + 1) * hermiteBound n

theorem coeff_bound (n m : ℕ) : |(physHermite n).coeff m| ≤ hermiteBound n := by
  induction n using Nat.twoStepInduction generalizing m with
  | zero => simp only [physHermite, hermiteBound]; rw [coeff_one]; split_ifs <;> simp
  | one =>
    cases m with
    | zero => rw [coeff_physHermite_zero]; simp only [physHermite, hermiteBound]; rw [coeff_one]; simp
    | succ m =>
      rw [coeff_physHermite_succ]; simp only [physHermite, hermiteBound]; rw [coeff_one, coeff_one, if_neg (by omega : ¬ m + 2 = 0)]
      split_ifs <;> simp
  | more n h1 h2 =>
    have hb : 0 ≤ hermiteBound n := (abs_nonneg _).trans (h1 0)
    have hb' : 0 ≤ hermiteBound (n + 1) := (abs_nonneg _).trans (h2 0)
    have hc : (physHermite (n + 2)).coeff m = (2 * X * physHermite (n + 1)).coeff m - 2 * ((n : ℤ) + 1) * (physHermite n).coeff m := by
      rw [physHermite_three, coeff_sub]
      congr 1
      have : (2 * ((n : ℤ[X]) + 1) : ℤ[X]) = C (2 * ((n : ℤ) + 1)) := by simp
      rw [this, coeff_C_mul]
    have hx : |(2 * X * physHermite (n + 1)).coeff m| ≤ 2 * hermiteBound (n + 1) := by
      rw [mul_assoc, coeff_ofNat_mul, abs_mul]
      refine mul_le_mul (le_of_eq rfl) ?_ (abs_nonneg _) (by norm_num)
      cases m with
      | zero => simpa using hb'
      | succ m => rw [coeff_X_mul]; exact h2 m
    rw [hc, hermiteBound]
    refine (abs_sub _ _).trans (add_le_add hx ?_)
    rw [abs_mul, abs_of_nonneg (by positivity)]
    exact mul_le_mul_of_nonneg_left (h1 m) (by positivity)

theorem hermiteBound_le {n : ℕ} (hn : n ≤ 25) : hermiteBound n < 2 ^ 63 := by
  interval_cases n <;> norm_num [hermiteBound]

/-- `get_hermite_val` is the Hermite polynomial up to `n = 25`. -/
theorem hermiteVal_eq {n : ℕ} (hn : n ≤ 25) (x : ℝ) : hermiteVal x n = (hermiteR n).eval x := by
  rw [hermiteVal, hermiteR, eval_eq_sum_range' (lt_of_le_of_lt (natDegree_map_le) (natDegree_physHermite_lt n))]
  refine Finset.sum_congr rfl fun m _ => ?_
  have h1 := abs_le.1 (coeff_bound n m)
  have h2 := hermiteBound_le hn
  rw [hermiteCoefficient_eq, wrapI64_small (by omega) (by omega), coeff_map]
  rfl

theorem factorialU64_eq (n : ℕ) : factorialU64 n = n.factorial % 2 ^ 64 := by
  induction n with
  | zero => rfl
  | succ n ih => rw [factorialU64, ih, wrapU64, wrapU64, ← Nat.mul_mod, Nat.factorial_succ, mul_comm]

theorem generator_wavefunction_eq (hbar omega mass : ℝ) {n : ℕ} (hn : n ≤ 25) : generatorShoWavefunction hbar omega mass n = fun x =>
    Real.sqrt ((Real.sqrt (omega * mass / hbar) / (factorialU64 n : ℝ)) / (Real.sqrt Real.pi * 2 ^ n)) *
      (hermiteR n).eval (x * Real.sqrt (omega * mass / hbar)) * Real.exp (-(x * Real.sqrt (omega * mass / hbar)) ^ 2 / 2) := by
  funext x
  rw [generatorShoWavefunction, hermiteVal_eq hn]

/-- **C93** for the generator (up to `n = 20`): the same functions as in python, hence orthonormal solutions of the Schroedinger equation.
From `n = 21` on the factorial overflows, see `C93_generator_negation`. -/
theorem C93_generator_partial (hbar mass omega : ℝ) (hh : 0 < hbar) (hm : 0 < mass) (ho : 0 < omega) :
    (∀ n ≤ 20, generatorShoWavefunction hbar omega mass n = shoWavefunction hbar omega mass n ∧
      SolvesOscillator hbar mass omega (hbar * omega * (n + 1 / 2)) (generatorShoWavefunction hbar omega mass n)) ∧
    OrthonormalOnLine 21 (generatorShoWavefunction hbar omega mass) := by
  have heq : ∀ n ≤ 20, generatorShoWavefunction hbar omega mass n = shoWavefunction hbar omega mass n := by
    intro n hn
    rw [generator_wavefunction_eq _ _ _ (by omega)]
    funext x
    have hf : factorialU64 n = n.factorial := by
      rw [factorialU64_eq, Nat.mod_eq_of_lt]
      exact lt_of_le_of_lt (Nat.factorial_le hn) (by decide)
    rw [shoWavefunction, evalHermite_eq, hf]
    congr 3
    rw [div_div, div_div]
    congr 1; ring
  obtain ⟨h1, h2⟩ := C93_python hbar mass omega hh hm ho
  refine ⟨fun n hn => ⟨heq n hn, heq n hn ▸ h1 n⟩, fun i hi j hj => ?_⟩
  rw [heq i (by omega), heq j (by omega)]
  exact h2 21 i hi j hj

/-- **C93** fails for the generator at `n = 21`: the state still solves the Schroedinger equation but is not normalised, for every
oscillator. -/
theorem C93_generator_negation (hbar mass omega : ℝ) (hh : 0 < hbar) (hm : 0 < mass) (ho : 0 < omega) :
    SolvesOscillator hbar mass omega (hbar * omega * ((21 : ℕ) + 1 / 2)) (generatorShoWavefunction hbar omega mass 21) ∧
    3 < ∫ x : ℝ, generatorShoWavefunction hbar omega mass 21 x * generatorShoWavefunction hbar omega mass 21 x := by
  rw [generator_wavefunction_eq _ _ _ (by norm_num)]
  refine ⟨hermite_function_ode hbar mass omega hh hm ho 21 _, ?_⟩
  have ha : 0 < Real.sqrt (omega * mass / hbar) := Real.sqrt_pos.2 (by positivity)
  have hf : factorialU64 21 = 14197454024290336768 := by decide
  have hp : 0 < Real.sqrt Real.pi := Real.sqrt_pos.2 Real.pi_pos
  rw [hermite_function_integral _ ha, if_pos rfl, Real.mul_self_sqrt (by rw [hf]; positivity), hf]
  have : Real.sqrt (omega * mass / hbar) / ((14197454024290336768 : ℕ) : ℝ) / (Real.sqrt Real.pi * 2 ^ 21) * (Real.sqrt (omega * mass / hbar))⁻¹ *
      (2 ^ 21 * ((21).factorial : ℝ) * Real.sqrt Real.pi) = ((21).factorial : ℝ) / 14197454024290336768 := by
    push_cast
    field_simp
  rw [this]
  norm_num [Nat.factorial]

example : SolvesOscillator 1 1 1 (1 * 1 * ((7 : ℕ) + 1 / 2)) (generatorShoWavefunction 1 1 1 7) :=
  (((C93_generator_partial 1 1 1 one_pos one_pos one_pos).1 7 (by norm_num))).2

end Verif
