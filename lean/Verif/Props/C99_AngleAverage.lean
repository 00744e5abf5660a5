import Verif.Model.Overlap
import Verif.Lemmas.Dft
import Mathlib.Analysis.SpecialFunctions.Integrals.Basic

/-!
C99: the average of an overlap over the angle.
-/

set_option autoImplicit false

namespace Verif

open Finset

/-- The squared modulus of a function of the momentum in the direction `θ`. -/
noncomputable def inDirection (f : (Fin 2 → ℝ) → ℂ) (q θ : ℝ) : ℝ := ‖f ![q * Real.cos θ, q * Real.sin θ]‖ ^ 2

/-- The mean over all directions. -/
noncomputable def directionMean (f : (Fin 2 → ℝ) → ℂ) (q : ℝ) : ℝ := (1 / (2 * Real.pi)) * ∫ θ in (0 : ℝ)..(2 * Real.pi), inDirection f q θ

/-- The first direction is counted twice. -/
theorem angleAveraged_eq (f : (Fin 2 → ℝ) → ℂ) (q : ℝ) (n : ℕ) (hn : 0 < n) :
    angleAveraged f q (n + 1) = (∑ j ∈ range n, inDirection f q (2 * Real.pi * j / n) + inDirection f q 0) / (n + 1) := by
  have hn' : (n : ℝ) ≠ 0 := by exact_mod_cast hn.ne'
  have ht : ∀ j : ℕ, thetaSample (n + 1) j = 2 * Real.pi * j / n := by
    intro j
    unfold thetaSample
    rw [if_neg (by omega)]
    push_cast
    ring
  unfold angleAveraged
  rw [sum_range_succ]
  simp only [ht]
  rw [mul_div_assoc, div_self hn', mul_one, Real.cos_two_pi, Real.sin_two_pi]
  simp [inDirection]

/-- The sum over the directions is the integral for functions with a finite number of harmonics. -/
theorem harmonics (g : ℝ → ℝ) (D n : ℕ) (hD : D < n) (c : ℤ → ℂ)
    (hg : ∀ θ, (g θ : ℂ) = ∑ m ∈ Finset.Icc (-(D : ℤ)) D, c m * Complex.exp (Complex.I * m * θ)) :
    (∑ j ∈ range n, g (2 * Real.pi * j / n)) / n = (1 / (2 * Real.pi)) * ∫ θ in (0 : ℝ)..(2 * Real.pi), g θ := by
  have hn : 0 < n := by omega
  have hn' : (n : ℂ) ≠ 0 := by exact_mod_cast hn.ne'
  have hpi : (Real.pi : ℂ) ≠ 0 := by exact_mod_cast Real.pi_ne_zero
  have key : ∀ (F : ℤ → ℂ), (∀ m ∈ Finset.Icc (-(D : ℤ)) D, m ≠ 0 → F m = 0) → F 0 = c 0 → ∑ m ∈ Finset.Icc (-(D : ℤ)) D, F m = c 0 := by
    intro F h0 h1
    rw [← h1]
    refine sum_eq_single_of_mem 0 (by simp) fun m hm hne => h0 m hm hne
  have a : (((∑ j ∈ range n, g (2 * Real.pi * j / n)) / n : ℝ) : ℂ) = c 0 := by
    push_cast
    simp only [hg]
    rw [sum_comm, sum_div]
    have e : ∀ m : ℤ, (∑ j ∈ range n, c m * Complex.exp (Complex.I * m * ((2 * Real.pi * j / n : ℝ) : ℂ))) / n =
        c m * (if (n : ℤ) ∣ m then (n : ℂ) else 0) / n := by
      intro m
      rw [← sum_phase hn m, mul_sum]
      congr 1
      refine sum_congr rfl fun j _ => ?_
      unfold phase
      congr 2
      push_cast
      ring
    simp only [e]
    refine key _ (fun m hm hne => ?_) ?_
    · rw [if_neg, mul_zero, zero_div]
      intro hd
      have := Int.le_of_dvd (abs_pos.2 hne) ((dvd_abs _ _).2 hd)
      rw [Finset.mem_Icc] at hm
      have := abs_le.2 hm
      omega
    · rw [if_pos (dvd_zero _), mul_div_assoc, div_self hn', mul_one]
  have b : (((1 / (2 * Real.pi)) * ∫ θ in (0 : ℝ)..(2 * Real.pi), g θ : ℝ) : ℂ) = c 0 := by
    push_cast
    rw [← intervalIntegral.integral_ofReal]
    simp only [hg]
    rw [intervalIntegral.integral_finsetSum]
    · rw [mul_sum]
      refine key _ (fun m _ hne => ?_) ?_
      · have hm : (Complex.I * m : ℂ) ≠ 0 := mul_ne_zero Complex.I_ne_zero (by exact_mod_cast hne)
        rw [intervalIntegral.integral_const_mul, integral_exp_mul_complex hm]
        have : Complex.exp (Complex.I * m * ((2 * Real.pi : ℝ) : ℂ)) = 1 := by
          rw [Complex.exp_eq_one_iff]
          exact ⟨m, by push_cast; ring⟩
        rw [this]
        simp
      · simp
        field_simp
    · intro m _
      exact Continuous.intervalIntegrable (by fun_prop) _ _
  exact_mod_cast a.trans b.symm

/-- **C99** (for overlaps with fewer harmonics than samples): the result is the mean over the directions up to the first direction, which is counted twice.
What is missing is the equality with the mean over the directions, see `C99_negation`. -/
theorem C99_average_partial (f : (Fin 2 → ℝ) → ℂ) (q : ℝ) (n D : ℕ) (hD : D < n) (c : ℤ → ℂ)
    (hf : ∀ θ : ℝ, (inDirection f q θ : ℂ) = ∑ m ∈ Finset.Icc (-(D : ℤ)) D, c m * Complex.exp (Complex.I * m * θ)) :
    angleAveraged f q (n + 1) = directionMean f q + (inDirection f q 0 - directionMean f q) / (n + 1) := by
  have hn : (0 : ℝ) < n := by exact_mod_cast (by omega : 0 < n)
  rw [angleAveraged_eq f q n (by omega)]
  have := harmonics (inDirection f q) D n hD c hf
  rw [div_eq_iff hn.ne'] at this
  rw [this]
  change (directionMean f q * n + _) / _ = _
  have : (n : ℝ) + 1 ≠ 0 := by positivity
  field_simp
  ring

/-- **C99** (for overlaps which do not depend on the direction): the result is the mean over the directions. -/
theorem C99_isotropic_partial (f : (Fin 2 → ℝ) → ℂ) (q v : ℝ) (n : ℕ) (hn : 0 < n) (hf : ∀ θ : ℝ, inDirection f q θ = v) :
    angleAveraged f q n = directionMean f q := by
  have hn' : (n : ℝ) ≠ 0 := by exact_mod_cast hn.ne'
  have hpi := Real.pi_ne_zero
  have hm : directionMean f q = v := by
    unfold directionMean
    simp only [hf]
    rw [intervalIntegral.integral_const, smul_eq_mul]
    field_simp
    ring
  rw [hm]
  unfold angleAveraged
  have : ∀ j ∈ range n, ‖f ![q * Real.cos (thetaSample n j), q * Real.sin (thetaSample n j)]‖ ^ 2 = v := fun j _ => hf _
  rw [sum_congr rfl this, sum_const, card_range, nsmul_eq_mul]
  field_simp

theorem inDirection_kx (q θ : ℝ) : inDirection (fun k => (k 0 : ℂ)) q θ = q ^ 2 * Real.cos θ ^ 2 := by
  simp only [inDirection, Matrix.cons_val_zero, Complex.norm_real, Real.norm_eq_abs, sq_abs]
  ring

theorem harmonics_kx (q : ℝ) : ∃ c : ℤ → ℂ, ∀ θ : ℝ, (inDirection (fun k => (k 0 : ℂ)) q θ : ℂ) =
    ∑ m ∈ Finset.Icc (-((2 : ℕ) : ℤ)) (2 : ℕ), c m * Complex.exp (Complex.I * m * θ) := by
  refine ⟨fun m => if m = 0 then q ^ 2 / 2 else if m = 2 ∨ m = -2 then q ^ 2 / 4 else 0, fun θ => ?_⟩
  have hI : Finset.Icc (-((2 : ℕ) : ℤ)) (2 : ℕ) = {-2, -1, 0, 1, 2} := by decide
  rw [hI, inDirection_kx]
  rw [sum_insert (by decide), sum_insert (by decide), sum_insert (by decide), sum_insert (by decide), sum_singleton]
  push_cast
  simp only [Complex.cos]
  have e1 : Complex.exp (Complex.I * (-2) * θ) = Complex.exp (-θ * Complex.I) ^ 2 := by
    rw [← Complex.exp_nat_mul]; congr 1; push_cast; ring
  have e2 : Complex.exp (Complex.I * 2 * θ) = Complex.exp (θ * Complex.I) ^ 2 := by
    rw [← Complex.exp_nat_mul]; congr 1; push_cast; ring
  have e3 : Complex.exp (θ * Complex.I) * Complex.exp (-θ * Complex.I) = 1 := by
    rw [← Complex.exp_add]; simp
  norm_num
  rw [show (-(Complex.I * 2 * θ) : ℂ) = Complex.I * (-2) * θ by ring, e1, e2]
  rw [show (-(θ * Complex.I) : ℂ) = -θ * Complex.I by ring]
  linear_combination (q ^ 2 / 2 : ℂ) * e3

/-- **C99** fails whatever the number of samples: for the overlap `k ↦ k 0` the result is larger than the mean, the direction zero is counted twice. -/
theorem C99_negation (q : ℝ) (hq : q ≠ 0) (n : ℕ) (hn : 3 ≤ n) :
    directionMean (fun k => (k 0 : ℂ)) q = q ^ 2 / 2 ∧
    angleAveraged (fun k => (k 0 : ℂ)) q (n + 1) = q ^ 2 / 2 + q ^ 2 / (2 * (n + 1)) ∧
    angleAveraged (fun k => (k 0 : ℂ)) q (n + 1) ≠ directionMean (fun k => (k 0 : ℂ)) q := by
  obtain ⟨c, hc⟩ := harmonics_kx q
  have hmean : directionMean (fun k => (k 0 : ℂ)) q = q ^ 2 / 2 := by
    unfold directionMean
    simp only [inDirection_kx]
    rw [intervalIntegral.integral_const_mul, integral_cos_sq]
    have := Real.pi_ne_zero
    simp
    field_simp
  have h := C99_average_partial (fun k => (k 0 : ℂ)) q n 2 (by omega) c hc
  rw [hmean, inDirection_kx, Real.cos_zero] at h
  have hp : (0 : ℝ) < n + 1 := by positivity
  have h' : angleAveraged (fun k => (k 0 : ℂ)) q (n + 1) = q ^ 2 / 2 + q ^ 2 / (2 * (n + 1)) := by
    rw [h]; field_simp; ring
  refine ⟨hmean, h', ?_⟩
  rw [h', hmean]
  have : 0 < q ^ 2 / (2 * (n + 1 : ℝ)) := by positivity
  linarith

/-- An isotropic overlap, and an overlap with the harmonics up to two. -/
example (q θ : ℝ) : inDirection (fun k => ((k 0 ^ 2 + k 1 ^ 2 : ℝ) : ℂ)) q θ = q ^ 4 := by
  have h : (q * Real.cos θ) ^ 2 + (q * Real.sin θ) ^ 2 = q ^ 2 := by
    have := Real.sin_sq_add_cos_sq θ
    linear_combination q ^ 2 * this
  simp only [inDirection, Matrix.cons_val_zero, Matrix.cons_val_one, Complex.norm_real, Real.norm_eq_abs, sq_abs, h]
  ring

example (q : ℝ) : ∃ c : ℤ → ℂ, ∀ θ : ℝ, (inDirection (fun k => (k 0 : ℂ)) q θ : ℂ) =
    ∑ m ∈ Finset.Icc (-((2 : ℕ) : ℤ)) (2 : ℕ), c m * Complex.exp (Complex.I * m * θ) := harmonics_kx q

end Verif
