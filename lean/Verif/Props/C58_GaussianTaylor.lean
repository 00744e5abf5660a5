import Verif.Model.KernelBuild
import Verif.Props.C58_Taylor
import Verif.Props.C60_AxisKernel
import Mathlib.RingTheory.Polynomial.Hermite.Gaussian
import Mathlib.Data.Nat.Factorial.DoubleFactorial

/-!
C58: the Taylor operators of the gaussian kernel.
-/

set_option autoImplicit false

namespace Verif

open Finset Spec Polynomial

theorem deriv_unit_gaussian (r : ℕ) : iteratedDeriv r (fun y : ℝ => Real.exp (-(y ^ 2 / 2))) 0 =
    (-1) ^ r * ((coeff (hermite r) 0 : ℤ) : ℝ) := by
  rw [iteratedDeriv_eq_iterate, deriv_gaussian_eq_hermite_mul_gaussian]
  have : (aeval (0 : ℝ)) (hermite r) = ((coeff (hermite r) 0 : ℤ) : ℝ) := by
    rw [← Polynomial.coeff_zero_eq_aeval_zero']
    simp
  rw [this]
  simp

theorem doubleFactorial_odd : ∀ m : ℕ, ((2 * m - 1).doubleFactorial : ℝ) * (m.factorial * 2 ^ m) = ((2 * m).factorial : ℝ)
  | 0 => by simp
  | m + 1 => by
    have h := Nat.factorial_eq_mul_doubleFactorial (2 * m + 1)
    have h2 := Nat.doubleFactorial_two_mul (m + 1)
    have e : 2 * (m + 1) = 2 * m + 1 + 1 := by ring
    have e' : 2 * (m + 1) - 1 = 2 * m + 1 := by omega
    rw [e'] 
    have : (2 * (m + 1)).factorial = (2 * m + 1).doubleFactorial * ((m + 1).factorial * 2 ^ (m + 1)) := by
      rw [e, h, ← e, h2]
      ring
    rw [this]
    push_cast
    ring

/-- The derivatives of the gaussian at the origin. -/
theorem deriv_gaussian (a lam : ℝ) (r : ℕ) : iteratedDeriv r (fun x : ℝ => a ^ 2 * Real.exp (-x ^ 2 / (2 * lam ^ 2))) 0 =
    a ^ 2 * ((1 / lam) ^ r * ((-1) ^ r * ((coeff (hermite r) 0 : ℤ) : ℝ))) := by
  have e : (fun x : ℝ => a ^ 2 * Real.exp (-x ^ 2 / (2 * lam ^ 2))) =
      fun x : ℝ => a ^ 2 * (fun z : ℝ => (fun y : ℝ => Real.exp (-(y ^ 2 / 2))) (1 / lam * z)) x := by
    funext x
    congr 2
    rw [mul_pow, div_pow, one_pow]
    rcases eq_or_ne lam 0 with h | h
    · rw [h]; simp
    · field_simp
  have hc : ContDiff ℝ r fun y : ℝ => Real.exp (-(y ^ 2 / 2)) :=
    (Real.contDiff_exp.comp ((contDiff_id.pow 2).div_const 2).neg).of_le le_top
  rw [e, iteratedDeriv_const_mul_field, iteratedDeriv_comp_const_mul hc]
  dsimp only
  rw [mul_zero, deriv_unit_gaussian]

theorem deriv_gaussian_even (a lam : ℝ) (m : ℕ) : iteratedDeriv (2 * m) (fun x : ℝ => a ^ 2 * Real.exp (-x ^ 2 / (2 * lam ^ 2))) 0 =
    ((2 * m).factorial : ℝ) * gaussianTaylorCoefficients a lam m := by
  rw [deriv_gaussian, gaussianTaylorCoefficients, ← doubleFactorial_odd]
  have h := coeff_hermite_explicit m 0
  rw [add_zero] at h
  rw [h, Nat.choose_zero_right]
  have hf : (m.factorial : ℝ) ≠ 0 := by positivity
  have h1 : (-1 / (2 * lam ^ 2)) ^ m = (-1) ^ m * (1 / lam) ^ (2 * m) * (1 / 2 ^ m) := by
    rw [pow_mul, show (-1 / (2 * lam ^ 2)) = -1 * (1 / lam) ^ 2 * (1 / 2) by rw [div_pow, one_pow, div_mul_eq_div_div]; ring,
      mul_pow, mul_pow, div_pow 1 2, one_pow]
  rw [h1, pow_mul (-1 : ℝ) 2 m]
  push_cast
  field_simp
  ring

theorem deriv_gaussian_odd (a lam : ℝ) (m : ℕ) : iteratedDeriv (2 * m + 1) (fun x : ℝ => a ^ 2 * Real.exp (-x ^ 2 / (2 * lam ^ 2))) 0 = 0 := by
  rw [deriv_gaussian, coeff_hermite_of_odd_add (by simp)]
  simp

theorem gaussianTaylorCoefficients_scale (a lam delta : ℝ) (hd : delta ≠ 0) (m : ℕ) :
    (2 * Real.pi / delta) ^ (2 * m) * gaussianTaylorCoefficients a (2 * Real.pi * lam / delta) m = gaussianTaylorCoefficients a lam m := by
  have hpi := Real.pi_ne_zero
  unfold gaussianTaylorCoefficients
  rw [pow_mul, mul_left_comm, ← mul_pow]
  congr 2
  rcases eq_or_ne lam 0 with h | h
  · rw [h]; simp
  · field_simp

/-- **C58.** The Taylor operators of the gaussian make a kernel which is a function of the displacement. This function has the
derivatives of the gaussian at the origin, up to the order `2 n_terms - 1`, if none of the coefficients is negligible. -/
theorem C58_gaussian (n : ℕ) (delta a lam : ℝ) (hd : delta ≠ 0) (nTerms : Option ℕ) (t : ℕ) (ht : t = nTerms.getD (n / 2))
    (hn : 0 < n) (ht0 : 0 < t)
    (hp : ∀ m < t, ∀ q < t, 1e-8 * gaussianTaylorCoefficients a (2 * Real.pi * lam / delta) q <
      |gaussianTaylorCoefficients a (2 * Real.pi * lam / delta) m|) :
    ∃ ops K, ∃ g : ℝ → ℝ, gaussianTaylor n delta a lam nTerms = some ops ∧ getDiagonalKernel ops = some K ∧
      (∀ i < n, ∀ j < n, K (i * n + j) = ((g (delta * ((i : ℝ) - j) / n) : ℝ) : ℂ)) ∧
      ∀ r < 2 * t, iteratedDeriv r g 0 = iteratedDeriv r (fun x : ℝ => a ^ 2 * Real.exp (-x ^ 2 / (2 * lam ^ 2))) 0 := by
  obtain ⟨ops, K, g, h1, h2, h3, h4, h5, h6, -⟩ := C58_taylor n hn t ht0 (gaussianTaylorCoefficients a (2 * Real.pi * lam / delta))
  refine ⟨ops, K, fun x => g (2 * Real.pi / delta * x), ?_, h2, fun i hi j hj => ?_, fun r hr => ?_⟩
  · unfold gaussianTaylor
    rw [← ht]
    exact h1
  · rw [h3 i hi j hj]
    dsimp only
    congr 2
    field_simp
  · rw [iteratedDeriv_comp_const_mul (h6 r)]
    dsimp only
    rw [mul_zero]
    rcases Nat.even_or_odd' r with ⟨m, rfl | rfl⟩
    · have hm : m < t := by omega
      rw [h4 m hm (fun m' hm' q hq => hp m' (by omega) q hq), deriv_gaussian_even, ← gaussianTaylorCoefficients_scale a lam delta hd]
      ring
    · rw [h5, deriv_gaussian_odd, mul_zero]

/-- Coefficients which are not negligible: two terms, `λ = Δ / 2π`. -/
example : ∀ m < 2, ∀ q < 2, 1e-8 * gaussianTaylorCoefficients 3 1 q < |gaussianTaylorCoefficients 3 1 m| := by
  intro m h1 q h2
  have a : m = 0 ∨ m = 1 := by omega
  have b : q = 0 ∨ q = 1 := by omega
  rcases a with rfl | rfl <;> rcases b with rfl | rfl <;> norm_num [gaussianTaylorCoefficients]

/-- The coefficients of the lorentzian solver are those of the Taylor series of the lorentzian, in powers of the squared displacement. -/
theorem C58_lorentzian_series (a lam x : ℝ) (hx : |x| < |lam|) :
    HasSum (fun i => lorentzianTaylorCoefficients a lam i * x ^ (2 * i)) (a ^ 2 * lam ^ 2 / (x ^ 2 + lam ^ 2)) := by
  have h2 : x ^ 2 < lam ^ 2 := sq_lt_sq.2 hx
  have hp : 0 < lam ^ 2 := lt_of_le_of_lt (sq_nonneg x) h2
  have hr : |-(x ^ 2 / lam ^ 2)| < 1 := by
    rw [abs_neg, abs_of_nonneg (by positivity), div_lt_one hp]
    exact h2
  have := (hasSum_geometric_of_abs_lt_one hr).mul_left (a ^ 2)
  have e1 : ∀ i, lorentzianTaylorCoefficients a lam i * x ^ (2 * i) = a ^ 2 * (-(x ^ 2 / lam ^ 2)) ^ i := by
    intro i
    rw [lorentzianTaylorCoefficients, pow_mul, mul_assoc, ← mul_pow]
    congr 2
    ring
  have e2 : a ^ 2 * lam ^ 2 / (x ^ 2 + lam ^ 2) = a ^ 2 * (1 - -(x ^ 2 / lam ^ 2))⁻¹ := by
    have : 1 - -(x ^ 2 / lam ^ 2) = (x ^ 2 + lam ^ 2) / lam ^ 2 := by
      rw [add_div, div_self hp.ne']; ring
    rw [this, inv_div, mul_div_assoc]
  rw [funext e1, e2]
  exact this

example : |(1 : ℝ)| < |(-2 : ℝ)| := by norm_num

/-- The lorentzian solver passes one coefficient more than terms: for two or more terms the operators which it returns are fewer
than the eigenvalues, and their kernel cannot be computed. -/
theorem C58_lorentzian_negation (n : ℕ) (hn : 0 < n) (delta a lam : ℝ) (nTerms : Option ℕ) (ht : 1 < nTerms.getD (n / 2)) :
    ∃ ops, lorentzianTaylor n delta a lam nTerms = some ops ∧ ops.count < ops.values ∧ getDiagonalKernel ops = none := by
  obtain ⟨ops, h1, h2, h3, h4⟩ := C58_terms_negation n hn (nTerms.getD (n / 2) + 1) (nTerms.getD (n / 2)) (by omega) ht (by omega)
    (lorentzianTaylorCoefficients a (2 * Real.pi * lam / delta))
  exact ⟨ops, h1, by omega, h4⟩

theorem productKernel_diag (c : ℂ) : ∀ (l : List DiagonalNoiseOperators) (x : List ℕ), InShape (l.map DiagonalNoiseOperators.dim) x →
    (∀ ops ∈ l, ∀ i < ops.dim, noiseKernel (range ops.count) ops.eigenvalue (fun a i => ops.data (a * ops.dim + i)) i i = c) →
    productKernel l x x = c ^ l.length
  | [], [], _, _ => by simp [productKernel]
  | ops :: l, i :: x, hx, h => by
    have ih := productKernel_diag c l x hx.2 fun o ho => h o (List.mem_cons_of_mem _ ho)
    rw [productKernel, ih, List.length_cons, pow_succ, mul_comm]
    congr 1
    exact h ops (List.mem_cons_self ..) i hx.1

/-- In more than one dimension the amplitude of the stacked Taylor operators is wrong: the kernel at equal points is
`(a²) ^ ndim`, whereas the gaussian has the value `a²` there. -/
theorem C58_stacked_negation (axes : List (ℕ × ℝ × Option ℕ)) (a lam : ℝ)
    (h : ∀ p ∈ axes, 0 < p.1 ∧ p.2.1 ≠ 0 ∧ 0 < p.2.2.getD (p.1 / 2) ∧ ∀ m < p.2.2.getD (p.1 / 2), ∀ q < p.2.2.getD (p.1 / 2),
      1e-8 * gaussianTaylorCoefficients a (2 * Real.pi * lam / p.2.1) q < |gaussianTaylorCoefficients a (2 * Real.pi * lam / p.2.1) m|) :
    ∃ ops K, gaussianTaylorStacked axes a lam = some ops ∧ getDiagonalKernel ops = some K ∧ ops.dim = (axes.map fun p => p.1).prod ∧
      ∀ i < ops.dim, K (i * ops.dim + i) = (((a ^ 2) ^ axes.length : ℝ) : ℂ) := by
  have hF : ∃ l, axes.mapM (fun p => gaussianTaylor p.1 p.2.1 a lam p.2.2) = some l ∧ l.map DiagonalNoiseOperators.dim = axes.map (fun p => p.1) ∧
      ∀ ops ∈ l, ops.values = ops.count ∧ ∀ i < ops.dim,
        noiseKernel (range ops.count) ops.eigenvalue (fun a i => ops.data (a * ops.dim + i)) i i = ((a ^ 2 : ℝ) : ℂ) := by
    induction axes with
    | nil => exact ⟨[], rfl, rfl, by simp⟩
    | cons p axes ih =>
      obtain ⟨l, hl, hdim, hall⟩ := ih fun q hq => h q (List.mem_cons_of_mem _ hq)
      obtain ⟨hn, hd, ht, hp⟩ := h p (List.mem_cons_self ..)
      obtain ⟨ops, K, g, h1, h2, h3, h4, h5, h6, h7, h8⟩ :=
        C58_taylor p.1 hn (p.2.2.getD (p.1 / 2)) ht (gaussianTaylorCoefficients a (2 * Real.pi * lam / p.2.1))
      refine ⟨ops :: l, ?_, by rw [List.map_cons, List.map_cons, hdim, h7], ?_⟩
      · rw [List.mapM_cons, hl]
        show (explicitTaylor p.1 _ _ _).bind _ = _
        rw [h1]
        rfl
      · intro o ho
        rcases List.mem_cons.1 ho with rfl | ho
        · refine ⟨h8.symm, fun i hi => ?_⟩
          obtain ⟨K', hK', hv⟩ := getDiagonalKernel_entries o h8.symm
          rw [h2] at hK'
          obtain rfl := Option.some.inj hK'
          rw [← hv i i hi, h7, h3 i (by omega) i (by omega)]
          have h0 := h4 0 ht (fun m' hm' q hq => hp m' (by omega) q hq)
          rw [mul_zero, iteratedDeriv_zero] at h0
          rw [sub_self, mul_zero, zero_div, h0]
          congr 1
          simp [gaussianTaylorCoefficients]
        · exact hall o ho
  obtain ⟨l, hl, hdim, hall⟩ := hF
  obtain ⟨-, hd, K, hK, hv⟩ := C60_operators l fun o ho => (hall o ho).1
  refine ⟨operatorsFromAxis l, K, ?_, hK, by rw [hd, hdim], fun i hi => ?_⟩
  · unfold gaussianTaylorStacked
    rw [hl]
    rfl
  · rw [hd] at hi ⊢
    have hin := unravel_inShape _ _ hi
    have := hv _ _ hin hin
    rw [ravel_unravel _ _ hi] at this
    rw [this, productKernel_diag _ l _ hin fun o ho => (hall o ho).2]
    have hlen : l.length = axes.length := by
      have := congrArg List.length hdim
      simpa using this
    rw [hlen]
    push_cast
    rfl

end Verif
