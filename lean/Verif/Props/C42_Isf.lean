import Verif.Model.Isf
import Verif.Props.C06_Lattice
import Mathlib.Analysis.SpecialFunctions.ExpDeriv
import Mathlib.Analysis.SpecialFunctions.Complex.Log
import Mathlib.Analysis.Calculus.Deriv.Basic
import Mathlib.Tactic.Ring
import Mathlib.Tactic.FieldSimp
import Mathlib.Tactic.Positivity
import Mathlib.Tactic.LinearCombination
import Mathlib.Tactic.Linarith
import Mathlib.Tactic.NormNum

/-! # C42: the two-site jump model, C44: scattering functions from occupations and fits -/

set_option autoImplicit false

namespace Verif

open Finset

/-! ## C42 -/

/-- Specification: the jump model on a lattice with two kinds of sites. `x` and `y` are the Fourier components of the
occupations of the two kinds; particles leave the first at rate `slow` and the second at rate `fast`, to a nearest
neighbour of the other kind, with mean phase `f`; initially the occupations are those of equilibrium. -/
structure TwoSite (fast slow : ℝ) (f : ℂ) (x y : ℝ → ℂ) : Prop where
  dx : ∀ t, HasDerivAt x (-slow * x t + fast * f * y t) t
  dy : ∀ t, HasDerivAt y (slow * (starRingEnd ℂ) f * x t - fast * y t) t
  x0 : x 0 = fast / (fast + slow)
  y0 : y 0 = slow / (fast + slow)

/-- The solution in terms of the eigenvectors. `U` is six times the mean phase. -/
theorem two_site_solution {fast slow lam z : ℝ} {U : ℂ} (hf : 0 < fast) (hs : 0 < slow) (hl : lam = slow / fast)
    (hU : U ≠ 0) (hz0 : 0 ≤ z) (hz : z ^ 2 = (3 * lam - 3) ^ 2 + lam * ‖U‖ ^ 2) :
    ∃ x y, TwoSite fast slow (U / 6) x y ∧ ∀ t : ℝ,
      ((1 / (1 + lam) * (‖1 - lam * U / ((3 * lam - 3 + z : ℝ) : ℂ)‖ ^ 2 / (1 + lam * ‖U / ((3 * lam - 3 + z : ℝ) : ℂ)‖ ^ 2) *
          Real.exp (-slow * (3 * lam + 3 + z) * t / (6 * lam)) +
        ‖1 - lam * U / ((3 * lam - 3 - z : ℝ) : ℂ)‖ ^ 2 / (1 + lam * ‖U / ((3 * lam - 3 - z : ℝ) : ℂ)‖ ^ 2) *
          Real.exp (-slow * (3 * lam + 3 - z) * t / (6 * lam))) : ℝ) : ℂ) = x t + y t := by
  have hlam : 0 < lam := by rw [hl]; positivity
  have hslow : slow = lam * fast := by rw [hl]; field_simp
  have hUn : 0 < ‖U‖ ^ 2 := by positivity
  have hp : 0 < 3 * lam - 3 + z := by
    have h1 : (3 * lam - 3) ^ 2 < z ^ 2 := by rw [hz]; linarith [mul_pos hlam hUn]
    have h2 := abs_lt_of_sq_lt_sq h1 hz0
    linarith [(abs_lt.1 h2).1]
  have hm : 3 * lam - 3 - z < 0 := by
    have h1 : (3 * lam - 3) ^ 2 < z ^ 2 := by rw [hz]; linarith [mul_pos hlam hUn]
    have h2 := abs_lt_of_sq_lt_sq h1 hz0
    linarith [(abs_lt.1 h2).2]
  set a : ℝ := 3 * lam - 3 with ha
  have hpc : ((a + z : ℝ) : ℂ) ≠ 0 := by exact_mod_cast hp.ne'
  have hmc : ((a - z : ℝ) : ℂ) ≠ 0 := by exact_mod_cast hm.ne
  have hlc : (lam : ℂ) ≠ 0 := by exact_mod_cast hlam.ne'
  have hUc : (starRingEnd ℂ) U ≠ 0 := by simpa using hU
  -- the key relation
  have hUU : (lam : ℂ) * (U * (starRingEnd ℂ) U) = ((a + z : ℝ) : ℂ) * (-((a - z : ℝ) : ℂ)) := by
    rw [Complex.mul_conj, Complex.normSq_eq_norm_sq]
    have : lam * ‖U‖ ^ 2 = (a + z) * (-(a - z)) := by linear_combination (-1 : ℝ) * hz
    exact_mod_cast this
  obtain ⟨u, hu⟩ : ∃ u : ℂ, u = U / ((a + z : ℝ) : ℂ) := ⟨_, rfl⟩
  obtain ⟨v, hvd⟩ : ∃ v : ℂ, v = U / ((a - z : ℝ) : ℂ) := ⟨_, rfl⟩
  obtain ⟨n0, hn0d⟩ : ∃ n0 : ℝ, n0 = 1 + lam * ‖u‖ ^ 2 := ⟨_, rfl⟩
  obtain ⟨n1, hn1d⟩ : ∃ n1 : ℝ, n1 = 1 + lam * ‖v‖ ^ 2 := ⟨_, rfl⟩
  have hn0 : 0 < n0 := by rw [hn0d]; positivity
  have hn1 : 0 < n1 := by rw [hn1d]; positivity
  have hn0c : (n0 : ℂ) ≠ 0 := by exact_mod_cast hn0.ne'
  have hn1c : (n1 : ℂ) ≠ 0 := by exact_mod_cast hn1.ne'
  let r0 : ℝ := -slow * (3 * lam + 3 + z) / (6 * lam)
  let r1 : ℝ := -slow * (3 * lam + 3 - z) / (6 * lam)
  have conjreal : ∀ w : ℝ, (starRingEnd ℂ) (w : ℂ) = w := Complex.conj_ofReal
  have hcu : (starRingEnd ℂ) u = (starRingEnd ℂ) U / ((a + z : ℝ) : ℂ) := by
    rw [hu, map_div₀, conjreal]
  have hcv : (starRingEnd ℂ) v = (starRingEnd ℂ) U / ((a - z : ℝ) : ℂ) := by
    rw [hvd, map_div₀, conjreal]
  have hnu : ∀ w : ℂ, ((‖w‖ ^ 2 : ℝ) : ℂ) = w * (starRingEnd ℂ) w := by
    intro w; rw [Complex.mul_conj, Complex.normSq_eq_norm_sq]
  have hn0e : (n0 : ℂ) = 1 + lam * (u * (starRingEnd ℂ) u) := by
    rw [← hnu, hn0d]; push_cast; rfl
  have hn1e : (n1 : ℂ) = 1 + lam * (v * (starRingEnd ℂ) v) := by
    rw [← hnu, hn1d]; push_cast; rfl
  -- eigenvector relations
  have ev0 : U * (-lam * (starRingEnd ℂ) u) = ((a - z : ℝ) : ℂ) := by
    rw [hcu]; field_simp; linear_combination (-1 : ℂ) * hUU
  have ev1 : U * (-lam * (starRingEnd ℂ) v) = ((a + z : ℝ) : ℂ) := by
    rw [hcv]; field_simp; linear_combination (-1 : ℂ) * hUU
  obtain ⟨A0, hA0d⟩ : ∃ A0 : ℂ, A0 = (1 - lam * u) / n0 := ⟨_, rfl⟩
  obtain ⟨A1, hA1d⟩ : ∃ A1 : ℂ, A1 = (1 - lam * v) / n1 := ⟨_, rfl⟩
  obtain ⟨c0, hc0⟩ : ∃ c0 : ℂ, c0 = ((1 / (1 + lam) : ℝ) : ℂ) := ⟨_, rfl⟩
  let e0 : ℝ → ℂ := fun t => Complex.exp ((r0 : ℂ) * t)
  let e1 : ℝ → ℂ := fun t => Complex.exp ((r1 : ℂ) * t)
  have de0 (t : ℝ) : HasDerivAt e0 ((r0 : ℂ) * e0 t) t := by
    have h := (((hasDerivAt_id (t : ℂ)).comp_ofReal).const_mul (r0 : ℂ)).cexp
    refine h.congr_deriv ?_
    simp [e0, mul_comm]
  have de1 (t : ℝ) : HasDerivAt e1 ((r1 : ℂ) * e1 t) t := by
    have h := (((hasDerivAt_id (t : ℂ)).comp_ofReal).const_mul (r1 : ℂ)).cexp
    refine h.congr_deriv ?_
    simp [e1, mul_comm]
  have hr0 : (r0 : ℂ) = -slow + slow * ((a - z : ℝ) : ℂ) / (6 * lam) := by
    have : r0 = -slow + slow * (a - z) / (6 * lam) := by
      show -slow * (3 * lam + 3 + z) / (6 * lam) = _
      rw [ha]; field_simp; ring
    rw [this]; push_cast; ring
  have hr1 : (r1 : ℂ) = -slow + slow * ((a + z : ℝ) : ℂ) / (6 * lam) := by
    have : r1 = -slow + slow * (a + z) / (6 * lam) := by
      show -slow * (3 * lam + 3 - z) / (6 * lam) = _
      rw [ha]; field_simp; ring
    rw [this]; push_cast; ring
  have hr0' : (r0 : ℂ) = -fast - slow * ((a + z : ℝ) : ℂ) / (6 * lam) := by
    have : r0 = -fast - slow * (a + z) / (6 * lam) := by
      show -slow * (3 * lam + 3 + z) / (6 * lam) = _
      rw [ha, hslow]; field_simp; ring
    rw [this]; push_cast; ring
  have hr1' : (r1 : ℂ) = -fast - slow * ((a - z : ℝ) : ℂ) / (6 * lam) := by
    have : r1 = -fast - slow * (a - z) / (6 * lam) := by
      show -slow * (3 * lam + 3 - z) / (6 * lam) = _
      rw [ha, hslow]; field_simp; ring
    rw [this]; push_cast; ring
  have hsc : (slow : ℂ) = lam * fast := by rw [hslow]; push_cast; ring
  have hfc : (fast : ℂ) ≠ 0 := by exact_mod_cast hf.ne'
  -- v = -1 / (lam * conj u)
  have hv : v * (lam * (starRingEnd ℂ) u) = -1 := by
    rw [hvd, div_mul_eq_mul_div, div_eq_iff hmc]; linear_combination (-1 : ℂ) * ev0
  have hv' : (starRingEnd ℂ) v * (lam * u) = -1 := by
    have := congrArg (starRingEnd ℂ) hv
    simpa [map_mul, conjreal] using this
  have hu0 : u ≠ 0 := by rw [hu]; exact div_ne_zero hU hpc
  have hcu0 : (starRingEnd ℂ) u ≠ 0 := by simpa using hu0
  have hvv : v = -1 / (lam * (starRingEnd ℂ) u) := by
    rw [eq_div_iff (mul_ne_zero hlc hcu0)]; exact hv
  have hcvv : (starRingEnd ℂ) v = -1 / (lam * u) := by
    rw [eq_div_iff (mul_ne_zero hlc hu0)]; exact hv'
  have hn0n : (1 : ℂ) + lam * (u * (starRingEnd ℂ) u) ≠ 0 := hn0e ▸ hn0c
  have hn1n : (1 : ℂ) + lam * (v * (starRingEnd ℂ) v) ≠ 0 := hn1e ▸ hn1c
  have hn1x : (n1 : ℂ) = (1 + lam * (u * (starRingEnd ℂ) u)) / (lam * (u * (starRingEnd ℂ) u)) := by
    rw [hn1e, hcvv, hvv]; field_simp; ring
  have hA1 : A1 = lam * u * ((starRingEnd ℂ) u + 1) / (1 + lam * (u * (starRingEnd ℂ) u)) := by
    rw [hA1d, hn1x, hvv]; field_simp; ring
  have hA0 : A0 = (1 - lam * u) / (1 + lam * (u * (starRingEnd ℂ) u)) := by
    rw [hA0d, hn0e]
  have sum1 : A0 + A1 = 1 := by
    rw [hA0, hA1, ← add_div, div_eq_iff hn0n]; ring
  have sum2 : -lam * (starRingEnd ℂ) u * A0 + -lam * (starRingEnd ℂ) v * A1 = lam := by
    have h1 : -(lam : ℂ) * (starRingEnd ℂ) v * (lam * u) = lam := by linear_combination (-(lam : ℂ)) * hv'
    have h2 : A0 * (1 + lam * (u * (starRingEnd ℂ) u)) = 1 - lam * u := by rw [hA0, div_mul_cancel₀ _ hn0n]
    have h3 : A1 * (1 + lam * (u * (starRingEnd ℂ) u)) = lam * u * ((starRingEnd ℂ) u + 1) := by rw [hA1, div_mul_cancel₀ _ hn0n]
    apply mul_right_cancel₀ hn0n
    linear_combination ((starRingEnd ℂ) u + 1) * h1 - lam * (starRingEnd ℂ) u * h2 - lam * (starRingEnd ℂ) v * h3
  refine ⟨fun t => c0 * (A0 * e0 t + A1 * e1 t),
    fun t => c0 * (-lam * (starRingEnd ℂ) u * A0 * e0 t + -lam * (starRingEnd ℂ) v * A1 * e1 t), ⟨?_, ?_, ?_, ?_⟩, ?_⟩
  · intro t
    refine ((((de0 t).const_mul A0).fun_add ((de1 t).const_mul A1)).const_mul c0).congr_deriv ?_
    clear_value e0 e1
    rw [hr0, hr1, ← ev0, ← ev1, hsc]
    field_simp
    ring
  · intro t
    refine ((((de0 t).const_mul (-lam * (starRingEnd ℂ) u * A0)).fun_add
      ((de1 t).const_mul (-lam * (starRingEnd ℂ) v * A1))).const_mul c0).congr_deriv ?_
    have k0 : (lam : ℂ) * (starRingEnd ℂ) u * ((a + z : ℝ) : ℂ) = lam * (starRingEnd ℂ) U := by
      rw [hcu]; field_simp
    have k1 : (lam : ℂ) * (starRingEnd ℂ) v * ((a - z : ℝ) : ℂ) = lam * (starRingEnd ℂ) U := by
      rw [hcv]; field_simp
    have h6 : (starRingEnd ℂ) (U / 6) = (starRingEnd ℂ) U / 6 := by rw [map_div₀, map_ofNat]
    have hr0'' : (r0 : ℂ) = -fast - fast * ((a + z : ℝ) : ℂ) / 6 := by rw [hr0', hsc]; field_simp
    have hr1'' : (r1 : ℂ) = -fast - fast * ((a - z : ℝ) : ℂ) / 6 := by rw [hr1', hsc]; field_simp
    clear_value e0 e1
    rw [hr0'', hr1'', h6, hsc]
    linear_combination (c0 * A0 * e0 t * fast / 6) * k0 + (c0 * A1 * e1 t * fast / 6) * k1
  · have ee0 : e0 0 = 1 := by simp [e0]
    have ee1 : e1 0 = 1 := by simp [e1]
    show c0 * (A0 * e0 0 + A1 * e1 0) = _
    rw [ee0, ee1, mul_one, mul_one, sum1, mul_one, hsc]
    rw [hc0]
    have h1 : (1 : ℂ) + lam ≠ 0 := by
      have : (0 : ℝ) < 1 + lam := by linarith
      exact_mod_cast this.ne'
    push_cast
    have h2 : (fast : ℂ) + lam * fast ≠ 0 := by
      rw [show (fast : ℂ) + lam * fast = fast * (1 + lam) by ring]; exact mul_ne_zero hfc h1
    field_simp
  · have ee0 : e0 0 = 1 := by simp [e0]
    have ee1 : e1 0 = 1 := by simp [e1]
    show c0 * (-lam * (starRingEnd ℂ) u * A0 * e0 0 + -lam * (starRingEnd ℂ) v * A1 * e1 0) = _
    rw [ee0, ee1, mul_one, mul_one, sum2, hsc]
    rw [hc0]
    have h1 : (1 : ℂ) + lam ≠ 0 := by
      have : (0 : ℝ) < 1 + lam := by linarith
      exact_mod_cast this.ne'
    push_cast
    have h2 : (fast : ℂ) + lam * fast ≠ 0 := by
      rw [show (fast : ℂ) + lam * fast = fast * (1 + lam) by ring]; exact mul_ne_zero hfc h1
    field_simp
  · intro t
    show _ = c0 * (A0 * e0 t + A1 * e1 t) +
      c0 * (-lam * (starRingEnd ℂ) u * A0 * e0 t + -lam * (starRingEnd ℂ) v * A1 * e1 t)
    have x0 : ((Real.exp (-slow * (3 * lam + 3 + z) * t / (6 * lam)) : ℝ) : ℂ) = e0 t := by
      show _ = Complex.exp ((r0 : ℂ) * t)
      rw [Complex.ofReal_exp, ← Complex.ofReal_mul]
      congr 2
      show _ = -slow * (3 * lam + 3 + z) / (6 * lam) * t
      ring
    have x1 : ((Real.exp (-slow * (3 * lam + 3 - z) * t / (6 * lam)) : ℝ) : ℂ) = e1 t := by
      show _ = Complex.exp ((r1 : ℂ) * t)
      rw [Complex.ofReal_exp, ← Complex.ofReal_mul]
      congr 2
      show _ = -slow * (3 * lam + 3 - z) / (6 * lam) * t
      ring
    have y0 : ((‖1 - lam * U / ((a + z : ℝ) : ℂ)‖ ^ 2 / (1 + lam * ‖U / ((a + z : ℝ) : ℂ)‖ ^ 2) : ℝ) : ℂ) =
        (1 - lam * u) * (1 - lam * (starRingEnd ℂ) u) / n0 := by
      have hq : (lam : ℂ) * U / ((a + z : ℝ) : ℂ) = lam * u := by rw [hu]; exact mul_div_assoc _ _ _
      rw [Complex.ofReal_div, hnu, hq, ← hu, ← hn0d, map_sub, map_one, map_mul, conjreal]
    have y1 : ((‖1 - lam * U / ((a - z : ℝ) : ℂ)‖ ^ 2 / (1 + lam * ‖U / ((a - z : ℝ) : ℂ)‖ ^ 2) : ℝ) : ℂ) =
        (1 - lam * v) * (1 - lam * (starRingEnd ℂ) v) / n1 := by
      have hq : (lam : ℂ) * U / ((a - z : ℝ) : ℂ) = lam * v := by rw [hvd]; exact mul_div_assoc _ _ _
      rw [Complex.ofReal_div, hnu, hq, ← hvd, ← hn1d, map_sub, map_one, map_mul, conjreal]
    rw [Complex.ofReal_mul, Complex.ofReal_add, Complex.ofReal_mul, Complex.ofReal_mul, x0, x1, y0, y1]
    rw [← hc0, hA0d, hA1d]
    clear_value e0 e1
    field_simp
    ring

theorem feyZ_sq {lam : ℝ} (hl : 0 < lam) (aDk : ℝ) :
    feyZ lam aDk ^ 2 = (3 * lam - 3) ^ 2 + lam * (4 * Real.cos (aDk / 2) + 2) ^ 2 := by
  unfold feyZ
  rw [Real.sq_sqrt]
  · ring
  · have : 9 * lam ^ 2 + 16 * lam * Real.cos (aDk / 2) ^ 2 + 16 * lam * Real.cos (aDk / 2) - 14 * lam + 9 =
        (3 * lam - 3) ^ 2 + lam * (4 * Real.cos (aDk / 2) + 2) ^ 2 := by ring
    rw [this]; positivity

/-- **C42.** Along 110 the function is the total Fourier component of the occupations in the two-site jump model, with mean
phase `(1 + 2 cos(a/2)) / 3`, started in equilibrium (when the mean phase is not zero: the code divides 0 by 0 there). -/
theorem C42_fey_110 {fast slow : ℝ} (hf : 0 < fast) (hs : 0 < slow) (aDk : ℝ) (hT : 4 * Real.cos (aDk / 2) + 2 ≠ 0) :
    ∃ x y, TwoSite fast slow ((1 + 2 * Real.cos (aDk / 2)) / 3 : ℝ) x y ∧
      ∀ t, (isfFey110 fast slow aDk t : ℂ) = x t + y t := by
  have hl : 0 < slow / fast := by positivity
  obtain ⟨x, y, h, he⟩ := two_site_solution (U := ((4 * Real.cos (aDk / 2) + 2 : ℝ) : ℂ))
    (z := feyZ (slow / fast) aDk) hf hs rfl (by exact_mod_cast hT) (Real.sqrt_nonneg _)
    (by rw [feyZ_sq hl, Complex.norm_real, Real.norm_eq_abs, sq_abs])
  refine ⟨x, y, ?_, fun t => ?_⟩
  · have : (((1 + 2 * Real.cos (aDk / 2)) / 3 : ℝ) : ℂ) = ((4 * Real.cos (aDk / 2) + 2 : ℝ) : ℂ) / 6 := by
      push_cast; ring
    rw [this]; exact h
  · rw [← he t]
    congr 1
    unfold isfFey110
    have e1 (w : ℝ) : ‖((4 * Real.cos (aDk / 2) + 2 : ℝ) : ℂ) / ((w : ℝ) : ℂ)‖ ^ 2 = ((4 * Real.cos (aDk / 2) + 2) / w) ^ 2 := by
      rw [← Complex.ofReal_div, Complex.norm_real, Real.norm_eq_abs, sq_abs]
    have e2 (w : ℝ) : ‖1 - ((slow / fast : ℝ) : ℂ) * ((4 * Real.cos (aDk / 2) + 2 : ℝ) : ℂ) / ((w : ℝ) : ℂ)‖ =
        |1 - slow / fast * (4 * Real.cos (aDk / 2) + 2) / w| := by
      rw [← Complex.ofReal_mul, ← Complex.ofReal_div, ← Complex.ofReal_one, ← Complex.ofReal_sub, Complex.norm_real,
        Real.norm_eq_abs]
    rw [e1, e1, e2, e2]

theorem top_norm (aDk : ℝ) :
    ‖Complex.exp (Complex.I * aDk / Real.sqrt 3) + 2 * Complex.exp (-Complex.I * aDk / Real.sqrt 12)‖ ^ 2 =
      5 + 4 * Real.cos (aDk * Real.sqrt 3 / 2) := by
  have h3 : Real.sqrt 3 * Real.sqrt 3 = 3 := Real.mul_self_sqrt (by norm_num)
  have h30 : Real.sqrt 3 ≠ 0 := by positivity
  have h12 : Real.sqrt 12 = 2 * Real.sqrt 3 := by
    rw [show (12 : ℝ) = 2 ^ 2 * 3 by norm_num, Real.sqrt_mul (by norm_num), Real.sqrt_sq (by norm_num)]
  set p : ℝ := aDk / Real.sqrt 3 with hp
  have e1 : Complex.I * aDk / Real.sqrt 3 = (p : ℂ) * Complex.I := by rw [hp]; push_cast; ring
  have e2 : -Complex.I * aDk / Real.sqrt 12 = ((-(p / 2) : ℝ) : ℂ) * Complex.I := by
    rw [hp, h12]; push_cast; field_simp
  have e3 : aDk * Real.sqrt 3 / 2 = p - -(p / 2) := by
    rw [hp]; field_simp; linear_combination aDk * h3
  rw [e1, e2, e3, Real.cos_sub, Complex.sq_norm, Complex.normSq_apply, Complex.exp_mul_I, Complex.exp_mul_I,
    ← Complex.ofReal_cos, ← Complex.ofReal_sin, ← Complex.ofReal_cos, ← Complex.ofReal_sin]
  simp only [Complex.add_re, Complex.add_im, Complex.mul_re, Complex.mul_im, Complex.ofReal_re, Complex.ofReal_im,
    Complex.I_re, Complex.I_im, Complex.re_ofNat, Complex.im_ofNat]
  have s1 := Real.sin_sq_add_cos_sq p
  have s2 := Real.sin_sq_add_cos_sq (-(p / 2))
  linear_combination s1 + 4 * s2

theorem feyY_sq {lam : ℝ} (hl : 0 < lam) (aDk : ℝ) :
    (3 * feyY lam aDk) ^ 2 = (3 * lam - 3) ^ 2 + lam * (4 * (5 + 4 * Real.cos (aDk * Real.sqrt 3 / 2))) := by
  have hc := Real.neg_one_le_cos (aDk * Real.sqrt 3 / 2)
  unfold feyY
  rw [mul_pow, Real.sq_sqrt]
  · ring
  · have : lam ^ 2 + 2 * lam * (8 * Real.cos (aDk * Real.sqrt 3 / 2) + 1) / 9 + 1 =
        ((3 * lam - 3) ^ 2 + lam * (4 * (5 + 4 * Real.cos (aDk * Real.sqrt 3 / 2)))) / 9 := by ring
    rw [this]
    have : 0 ≤ 5 + 4 * Real.cos (aDk * Real.sqrt 3 / 2) := by linarith
    positivity

/-- **C42.** Along 112bar the function is the total Fourier component of the occupations in the two-site jump model, with
mean phase `(exp(i a/√3) + 2 exp(-i a/√12)) / 3` (which is never zero). -/
theorem C42_fey_112bar {fast slow : ℝ} (hf : 0 < fast) (hs : 0 < slow) (aDk : ℝ) :
    ∃ x y, TwoSite fast slow
        ((Complex.exp (Complex.I * aDk / Real.sqrt 3) + 2 * Complex.exp (-Complex.I * aDk / Real.sqrt 12)) / 3) x y ∧
      ∀ t, (isfFey112bar fast slow aDk t : ℂ) = x t + y t := by
  have hl : 0 < slow / fast := by positivity
  have hc := Real.neg_one_le_cos (aDk * Real.sqrt 3 / 2)
  have hn := top_norm aDk
  set top : ℂ := Complex.exp (Complex.I * aDk / Real.sqrt 3) + 2 * Complex.exp (-Complex.I * aDk / Real.sqrt 12) with htop
  have hn2 (w : ℂ) : ‖2 * top / w‖ ^ 2 = 4 * ‖top / w‖ ^ 2 := by
    rw [mul_div_assoc, norm_mul, mul_pow]; norm_num
  have ht0 : top ≠ 0 := by
    intro h; rw [h] at hn; simp at hn; linarith
  obtain ⟨x, y, h, he⟩ := two_site_solution (U := 2 * top) (z := 3 * feyY (slow / fast) aDk) hf hs rfl (mul_ne_zero two_ne_zero ht0)
    (mul_nonneg (by norm_num) (Real.sqrt_nonneg _) : 0 ≤ 3 * feyY (slow / fast) aDk)
    (by rw [feyY_sq hl, ← hn, norm_mul, mul_pow]; norm_num)
  refine ⟨x, y, ?_, fun t => ?_⟩
  · have : top / 3 = 2 * top / 6 := by ring
    rw [this]; exact h
  · rw [← he t]
    congr 1
    unfold isfFey112bar
    simp only [← htop]
    have e (w : ℂ) : ((slow / fast : ℝ) : ℂ) * (2 * top) / w = 2 * ((slow / fast : ℝ) : ℂ) * top / w := by ring
    have a0 : -slow * (3 * (slow / fast) + 3 + 3 * feyY (slow / fast) aDk) * t / (6 * (slow / fast)) =
        -slow * (slow / fast + 1 + feyY (slow / fast) aDk) * t / (2 * (slow / fast)) := by field_simp; ring
    have a1 : -slow * (3 * (slow / fast) + 3 - 3 * feyY (slow / fast) aDk) * t / (6 * (slow / fast)) =
        -slow * (slow / fast + 1 - feyY (slow / fast) aDk) * t / (2 * (slow / fast)) := by field_simp; ring
    have b (w : ℝ) : 1 + slow / fast * (4 * w) = 1 + 4 * (slow / fast) * w := by ring
    rw [a0, a1, hn2, hn2, e, e, b, b]

/-- Both functions have this form. -/
theorem decaying {P Q r s t : ℝ} (hP : 0 ≤ P) (hQ : 0 ≤ Q) (hr : 0 ≤ r) (hs : 0 ≤ s) (h1 : P + Q = 1) (ht : 0 ≤ t) :
    0 ≤ P * Real.exp (-r * t) + Q * Real.exp (-s * t) ∧ P * Real.exp (-r * t) + Q * Real.exp (-s * t) ≤ 1 ∧
      ∀ t' ≥ t, P * Real.exp (-r * t') + Q * Real.exp (-s * t') ≤ P * Real.exp (-r * t) + Q * Real.exp (-s * t) := by
  have mono : ∀ {c t t' : ℝ}, 0 ≤ c → t ≤ t' → Real.exp (-c * t') ≤ Real.exp (-c * t) := by
    intro c t t' hc h
    apply Real.exp_le_exp.2
    nlinarith
  refine ⟨by positivity, ?_, fun t' h => add_le_add (mul_le_mul_of_nonneg_left (mono hr h) hP)
    (mul_le_mul_of_nonneg_left (mono hs h) hQ)⟩
  have a := mul_le_mul_of_nonneg_left (mono hr ht) hP
  have b := mul_le_mul_of_nonneg_left (mono hs ht) hQ
  simp only [mul_zero, Real.exp_zero, mul_one] at a b
  linarith

theorem z_le {lam z w : ℝ} (hl : 0 < lam) (h : z ^ 2 = (3 * lam - 3) ^ 2 + lam * w) (hw : w ≤ 36) : z ≤ 3 * lam + 3 := by
  have : z ^ 2 ≤ (3 * lam + 3) ^ 2 := by nlinarith
  exact le_of_abs_le (abs_le_of_sq_le_sq this (by linarith))

/-- **C42.** Along 110 the function is one at time zero, stays between zero and one and never increases. -/
theorem C42_bounds_110 {fast slow : ℝ} (hf : 0 < fast) (hs : 0 < slow) (aDk : ℝ)
    (hT : 4 * Real.cos (aDk / 2) + 2 ≠ 0) :
    isfFey110 fast slow aDk 0 = 1 ∧ ∀ t ≥ 0, 0 ≤ isfFey110 fast slow aDk t ∧ isfFey110 fast slow aDk t ≤ 1 ∧
      ∀ t' ≥ t, isfFey110 fast slow aDk t' ≤ isfFey110 fast slow aDk t := by
  have hl : 0 < slow / fast := by positivity
  obtain ⟨x, y, h, he⟩ := C42_fey_110 hf hs aDk hT
  have h0 : isfFey110 fast slow aDk 0 = 1 := by
    have := he 0
    rw [h.x0, h.y0, ← add_div, div_self] at this
    · exact_mod_cast this
    · have : (0 : ℝ) < fast + slow := by positivity
      exact_mod_cast this.ne'
  refine ⟨h0, fun t ht => ?_⟩
  have hz := feyZ_sq hl aDk
  have hz0 : 0 ≤ feyZ (slow / fast) aDk := Real.sqrt_nonneg _
  have hle : feyZ (slow / fast) aDk ≤ 3 * (slow / fast) + 3 := by
    refine z_le hl hz ?_
    have := Real.neg_one_le_cos (aDk / 2)
    have := Real.cos_le_one (aDk / 2)
    nlinarith
  unfold isfFey110 at h0 ⊢
  simp only at h0 ⊢
  set z := feyZ (slow / fast) aDk
  have exps (s t : ℝ) : -slow * s * t / (6 * (slow / fast)) = -(slow * s / (6 * (slow / fast))) * t := by ring
  simp only [exps, mul_add (1 / (1 + slow / fast)), ← mul_assoc] at h0 ⊢
  simp only [mul_zero, Real.exp_zero, mul_one] at h0
  exact decaying (by positivity) (by positivity) (by positivity)
    (div_nonneg (mul_nonneg hs.le (by linarith)) (by positivity)) h0 ht

/-- **C42.** Along 112bar the function is one at time zero, stays between zero and one and never increases. -/
theorem C42_bounds_112bar {fast slow : ℝ} (hf : 0 < fast) (hs : 0 < slow) (aDk : ℝ) :
    isfFey112bar fast slow aDk 0 = 1 ∧ ∀ t ≥ 0, 0 ≤ isfFey112bar fast slow aDk t ∧ isfFey112bar fast slow aDk t ≤ 1 ∧
      ∀ t' ≥ t, isfFey112bar fast slow aDk t' ≤ isfFey112bar fast slow aDk t := by
  have hl : 0 < slow / fast := by positivity
  obtain ⟨x, y, h, he⟩ := C42_fey_112bar hf hs aDk
  have h0 : isfFey112bar fast slow aDk 0 = 1 := by
    have := he 0
    rw [h.x0, h.y0, ← add_div, div_self] at this
    · exact_mod_cast this
    · have : (0 : ℝ) < fast + slow := by positivity
      exact_mod_cast this.ne'
  refine ⟨h0, fun t ht => ?_⟩
  have hz := feyY_sq hl aDk
  have hz0 : 0 ≤ feyY (slow / fast) aDk := Real.sqrt_nonneg _
  have hle : feyY (slow / fast) aDk ≤ slow / fast + 1 := by
    have := z_le hl hz (by linarith [Real.cos_le_one (aDk * Real.sqrt 3 / 2)])
    linarith
  unfold isfFey112bar at h0 ⊢
  simp only at h0 ⊢
  set z := feyY (slow / fast) aDk
  have exps (s t : ℝ) : -slow * s * t / (2 * (slow / fast)) = -(slow * s / (2 * (slow / fast))) * t := by ring
  simp only [exps, mul_add (1 / (1 + slow / fast)), ← mul_assoc] at h0 ⊢
  simp only [mul_zero, Real.exp_zero, mul_one] at h0
  refine decaying ?_ ?_ ?_ ?_ h0 ht
  · positivity
  · positivity
  · positivity
  · exact div_nonneg (mul_nonneg hs.le (by linarith)) (by positivity)

/-- **C42.** The two decay rates of the four-variable model are those of the jump model: their sum is the sum of the two
rates and their product is the product of the two rates times `1 - f²`, for the mean phase `f`; at time zero it is the sum
of the amplitudes and the offset. -/
theorem C42_four_variable {fast slow : ℝ} (hf : 0 < fast) (hs : 0 < slow) (fa sa offset aDk : ℝ) :
    ∃ r s : ℝ, r + s = fast + slow ∧ r * s = fast * slow * (1 - ((1 + 2 * Real.cos (aDk / 2)) / 3) ^ 2) ∧ s ≤ r ∧
      ∀ t, isfFeyFourVariable110 fast fa slow sa offset aDk t = fa * Real.exp (-r * t) + sa * Real.exp (-s * t) + offset := by
  have hl : 0 < slow / fast := by positivity
  have hz := feyZ_sq hl aDk
  have hz0 : 0 ≤ feyZ (slow / fast) aDk := Real.sqrt_nonneg _
  set z := feyZ (slow / fast) aDk with hzd
  refine ⟨slow * (3 * (slow / fast) + 3 + z) / (6 * (slow / fast)), slow * (3 * (slow / fast) + 3 - z) / (6 * (slow / fast)),
    ?_, ?_, ?_, fun t => ?_⟩
  · field_simp; ring
  · have e : slow * (3 * (slow / fast) + 3 + z) / (6 * (slow / fast)) * (slow * (3 * (slow / fast) + 3 - z) / (6 * (slow / fast))) =
        slow ^ 2 * ((3 * (slow / fast) + 3) ^ 2 - z ^ 2) / (36 * (slow / fast) ^ 2) := by field_simp; ring
    rw [e, hz]
    field_simp
    ring
  · apply div_le_div_of_nonneg_right _ (by positivity)
    exact mul_le_mul_of_nonneg_left (by linarith) hs.le
  · unfold isfFeyFourVariable110
    simp only [← hzd]
    congr 4 <;> ring

/-- Non-vacuity. -/
example : isfFey110 2 1 0 0 = 1 :=
  (C42_bounds_110 (by norm_num) (by norm_num) 0 (by simp; norm_num)).1

/-! ## C44 -/

/-- **C44.** The modulus of the scattering function never exceeds one for occupations which are probabilities. -/
theorem C44_bounded (cell : Matrix (Fin 2) (Fin 2) ℝ) (bandLocations : ℕ → Fin 2 → ℝ) (n0 n1 nb : ℕ)
    (initial final : ℕ → ℝ) (dk : Fin 2 → ℝ) (hp : ∀ s < n0 * n1 * nb, 0 ≤ final s)
    (h1 : ∑ s ∈ range (n0 * n1 * nb), final s = 1) :
    ‖isfApproximateLocations cell bandLocations n0 n1 nb initial final dk‖ ≤ 1 := by
  unfold isfApproximateLocations
  refine (norm_sum_le _ _).trans (le_of_eq ?_)
  rw [← h1]
  refine sum_congr rfl fun s hs => ?_
  rw [norm_mul, mul_comm Complex.I, Complex.norm_exp_ofReal_mul_I, one_mul, Complex.norm_real, Real.norm_eq_abs,
    abs_of_nonneg (hp s (mem_range.1 hs))]

/-- An even distribution over two cells. -/
example : ∃ final : ℕ → ℝ, (∀ s < 2 * 1 * 1, 0 ≤ final s) ∧ ∑ s ∈ range (2 * 1 * 1), final s = 1 :=
  ⟨fun _ => 1 / 2, fun _ _ => by norm_num, by norm_num⟩

theorem wrapXPoint_zero (A : Matrix (Fin 2) (Fin 2) ℝ) : wrapXPoint A 0 0 = 0 := by
  have h (M : Matrix (Fin 2) (Fin 2) ℝ) : tensordot00 M 0 = 0 := by
    funext i; simp [tensordot00]
  unfold wrapXPoint
  simp only [h]
  have : (fun i : Fin 2 => wrapDistance ((0 : Fin 2 → ℝ) i) 1 ((0 : Fin 2 → ℝ) i)) = 0 := by
    funext i
    have : ⌊(1 / 2 : ℝ)⌋ = 0 := by rw [Int.floor_eq_iff]; norm_num
    simp [wrapDistance, fmod]
    norm_num
  rw [this, h]

/-- **C44.** For an initial occupation of a single state the scattering function is one as long as the occupation is still
the initial one. -/
theorem C44_initial_partial (cell : Matrix (Fin 2) (Fin 2) ℝ) (bandLocations : ℕ → Fin 2 → ℝ) (n0 n1 nb : ℕ) (s0 : ℕ)
    (hs0 : s0 < n0 * n1 * nb) (dk : Fin 2 → ℝ) :
    isfApproximateLocations cell bandLocations n0 n1 nb (fun s => if s = s0 then 1 else 0) (fun s => if s = s0 then 1 else 0)
      dk = 1 := by
  unfold isfApproximateLocations
  simp only [mul_ite, mul_one, mul_zero, Finset.sum_ite_eq', mem_range, hs0, if_true, div_one]
  rw [Finset.sum_eq_single s0]
  · rw [if_pos rfl]
    have : flatLocation cell bandLocations n1 nb s0 - (fun c => flatLocation cell bandLocations n1 nb s0 c) = 0 := sub_self _
    rw [this, wrapXPoint_zero]
    simp
  · intro s _ hne
    rw [if_neg hne]; simp
  · intro h; exact absurd (mem_range.2 hs0) h

/-- **C44** is false of the code for an initial occupation of more than one state: displacements are measured from the mean
position. For two neighbouring sites with equal occupation the function at time zero can be `-1`. -/
theorem C44_initial_negation :
    isfApproximateLocations 1 (fun _ => 0) 2 1 1 (fun _ => 1 / 2) (fun _ => 1 / 2) ![2 * Real.pi, 0] = -1 := by
  have hsup : (Matrix.of ![fun c => (1 : Matrix (Fin 2) (Fin 2) ℝ) 0 c * (2 : ℕ), fun c => (1 : Matrix (Fin 2) (Fin 2) ℝ) 1 c * (1 : ℕ)] :
      Matrix (Fin 2) (Fin 2) ℝ) = Matrix.diagonal ![2, 1] := by
    ext i j; fin_cases i <;> fin_cases j <;> simp
  have hinv : (Matrix.diagonal ![2, 1] : Matrix (Fin 2) (Fin 2) ℝ)⁻¹ = Matrix.diagonal ![1 / 2, 1] := by
    apply Matrix.inv_eq_right_inv
    rw [Matrix.diagonal_mul_diagonal, ← Matrix.diagonal_one]
    congr 1
    funext i; fin_cases i <;> simp
  have hloc (s : ℕ) : flatLocation (1 : Matrix (Fin 2) (Fin 2) ℝ) (fun _ => 0) 1 1 s = ![(s : ℝ), 0] := by
    funext c
    unfold flatLocation approximateLocation tensordot00
    fin_cases c <;> simp [Matrix.one_apply, Nat.mod_one]
  have hw (x : ℝ) (hx : -1 / 2 ≤ x / 2 ∧ x / 2 < 1 / 2) : wrapXPoint (Matrix.diagonal ![2, 1]) ![x, 0] 0 = ![x, 0] := by
    unfold wrapXPoint
    rw [hinv]
    have h1 : tensordot00 (Matrix.diagonal ![1 / 2, 1]) ![x, 0] = ![x / 2, 0] := by
      funext c; fin_cases c <;> simp [tensordot00, Matrix.diagonal] ; ring
    have h2 : tensordot00 (Matrix.diagonal ![(1 : ℝ) / 2, 1]) 0 = 0 := by
      funext c; simp [tensordot00]
    simp only [h1, h2]
    have f0 : ⌊x / 2 + 1 / 2⌋ = 0 := by rw [Int.floor_eq_iff]; constructor <;> push_cast <;> linarith
    have f1 : ⌊(1 : ℝ) / 2⌋ = 0 := by rw [Int.floor_eq_iff]; norm_num
    have h3 : (fun i : Fin 2 => wrapDistance ((![x / 2, 0] : Fin 2 → ℝ) i) 1 ((0 : Fin 2 → ℝ) i)) = ![x / 2, 0] := by
      funext c
      unfold wrapDistance fmod
      fin_cases c
      · simp only [Fin.zero_eta, Matrix.cons_val_zero, Pi.zero_apply, sub_zero, div_one, f0]; push_cast; ring
      · simp only [Fin.mk_one, Matrix.cons_val_one, Matrix.cons_val_fin_one, Pi.zero_apply, sub_zero, div_one, zero_add, f1]
        push_cast; ring
    rw [h3]
    funext c; fin_cases c <;> simp [tensordot00, Matrix.diagonal]; ring
  unfold isfApproximateLocations
  simp only [hsup]
  simp only [Finset.sum_range_succ, Finset.sum_range_zero, hloc, mul_one]
  have d0 : (![((0 : ℕ) : ℝ), 0] - fun c => (0 + (![((0 : ℕ) : ℝ), 0] : Fin 2 → ℝ) c * (1 / 2) + (![((1 : ℕ) : ℝ), 0] : Fin 2 → ℝ) c * (1 / 2)) / (0 + 1 / 2 + 1 / 2)) =
      (![-1 / 2, 0] : Fin 2 → ℝ) := by
    funext c; fin_cases c <;> simp <;> norm_num
  have d1 : (![((1 : ℕ) : ℝ), 0] - fun c => (0 + (![((0 : ℕ) : ℝ), 0] : Fin 2 → ℝ) c * (1 / 2) + (![((1 : ℕ) : ℝ), 0] : Fin 2 → ℝ) c * (1 / 2)) / (0 + 1 / 2 + 1 / 2)) =
      (![1 / 2, 0] : Fin 2 → ℝ) := by
    funext c; fin_cases c <;> simp <;> norm_num
  rw [d0, d1, hw _ (by norm_num), hw _ (by norm_num)]
  have p0 : (![2 * Real.pi, 0] : Fin 2 → ℝ) ⬝ᵥ ![-1 / 2, 0] = -Real.pi := by simp [dotProduct]; ring
  have p1 : (![2 * Real.pi, 0] : Fin 2 → ℝ) ⬝ᵥ ![1 / 2, 0] = Real.pi := by simp [dotProduct]; ring
  rw [p0, p1, mul_comm Complex.I, mul_comm Complex.I, Complex.exp_pi_mul_I]
  push_cast
  rw [neg_mul, Complex.exp_neg, Complex.exp_pi_mul_I]
  norm_num

/-- **C44.** For a momentum transfer which fits the supercell, wrapping the displacements does not change the result: it is
the mean of `exp(i k·(x - x̄))` over the occupation. -/
theorem C44_unwrapped (cell : Matrix (Fin 2) (Fin 2) ℝ) (bandLocations : ℕ → Fin 2 → ℝ) (n0 n1 nb : ℕ)
    (initial final : ℕ → ℝ) (dk : Fin 2 → ℝ) (hdet : IsUnit cell.det) (h0 : 0 < n0) (h1 : 0 < n1)
    (hk : ∃ m0 m1 : ℤ, dk ⬝ᵥ (fun c => cell 0 c * n0) = 2 * Real.pi * m0 ∧ dk ⬝ᵥ (fun c => cell 1 c * n1) = 2 * Real.pi * m1) :
    isfApproximateLocations cell bandLocations n0 n1 nb initial final dk =
      ∑ s ∈ range (n0 * n1 * nb), Complex.exp (Complex.I * (dk ⬝ᵥ (flatLocation cell bandLocations n1 nb s - fun c =>
        (∑ s ∈ range (n0 * n1 * nb), flatLocation cell bandLocations n1 nb s c * initial s) /
          ∑ s ∈ range (n0 * n1 * nb), initial s) : ℝ)) * final s := by
  obtain ⟨m0, m1, hm0, hm1⟩ := hk
  unfold isfApproximateLocations
  refine sum_congr rfl fun s _ => ?_
  congr 1
  set supercell : Matrix (Fin 2) (Fin 2) ℝ := Matrix.of ![fun c => cell 0 c * n0, fun c => cell 1 c * n1]
  have hs : supercell.det = cell.det * (n0 * n1) := by
    rw [Matrix.det_fin_two, Matrix.det_fin_two]
    simp [supercell]; ring
  have hu : IsUnit supercell.det := by
    rw [hs, isUnit_iff_ne_zero]
    have : (0 : ℝ) < n0 := by exact_mod_cast h0
    have : (0 : ℝ) < n1 := by exact_mod_cast h1
    have := hdet.ne_zero
    positivity
  set p := flatLocation cell bandLocations n1 nb s - fun c =>
        (∑ s ∈ range (n0 * n1 * nb), flatLocation cell bandLocations n1 nb s c * initial s) /
          ∑ s ∈ range (n0 * n1 * nb), initial s
  obtain ⟨⟨k, hk⟩, -⟩ := C06_wrap_x_point supercell hu p 0
  show Complex.exp (Complex.I * ((dk ⬝ᵥ wrapXPoint supercell p 0 : ℝ) : ℂ)) = _
  rw [hk, dotProduct_add, Fin.sum_univ_two, dotProduct_add, dotProduct_smul, dotProduct_smul]
  have e0 : dk ⬝ᵥ supercell 0 = 2 * Real.pi * m0 := hm0
  have e1 : dk ⬝ᵥ supercell 1 = 2 * Real.pi * m1 := hm1
  rw [e0, e1]
  rw [Complex.exp_eq_exp_iff_exists_int]
  refine ⟨k 0 * m0 + k 1 * m1, ?_⟩
  push_cast
  simp only [smul_eq_mul]
  push_cast
  ring

/-- A square cell of size one, a supercell of two by three cells and the momentum transfer `(π, 2 π / 3)`. -/
example : ∃ (cell : Matrix (Fin 2) (Fin 2) ℝ) (dk : Fin 2 → ℝ), IsUnit cell.det ∧ dk ≠ 0 ∧
    ∃ m0 m1 : ℤ, dk ⬝ᵥ (fun c => cell 0 c * (2 : ℕ)) = 2 * Real.pi * m0 ∧ dk ⬝ᵥ (fun c => cell 1 c * (3 : ℕ)) = 2 * Real.pi * m1 := by
  refine ⟨1, ![Real.pi, 2 * Real.pi / 3], by simp, fun h => Real.pi_ne_zero (by simpa using congrFun h 0), 1, 1, ?_, ?_⟩
  · simp [dotProduct, Fin.sum_univ_two]; ring
  · simp [dotProduct, Fin.sum_univ_two]

/-- **C44.** A fitted double exponential is one at time zero and its modulus never exceeds one, for the baseline and within
the bounds on the parameters which the fit uses. -/
theorem C44_fit {fr fa sr sa t : ℝ} (h1 : 0 ≤ fr) (h2 : 0 ≤ fa ∧ fa ≤ 1) (h3 : 0 ≤ sr) (h4 : 0 ≤ sa ∧ sa ≤ 1) (ht : 0 ≤ t) :
    isfFourVariable fr fa sr sa (1 - fa - sa) 0 = 1 ∧ |isfFourVariable fr fa sr sa (1 - fa - sa) t| ≤ 1 := by
  unfold isfFourVariable
  have e (c : ℝ) (hc : 0 ≤ c) : 0 ≤ Real.exp (-c * t) ∧ Real.exp (-c * t) ≤ 1 := by
    refine ⟨(Real.exp_pos _).le, ?_⟩
    rw [Real.exp_le_one_iff]; nlinarith
  have a := e fr h1
  have b := e sr h3
  refine ⟨by simp, abs_le.2 ⟨?_, ?_⟩⟩
  · nlinarith [mul_nonneg h2.1 a.1, mul_nonneg h4.1 b.1]
  · nlinarith [mul_le_mul_of_nonneg_left a.2 h2.1, mul_le_mul_of_nonneg_left b.2 h4.1]

/-- Two rates, and a quarter of the modulus left for long times. -/
example : |isfFourVariable 1 (1 / 2) 3 (1 / 4) (1 - 1 / 2 - 1 / 4) 2| ≤ 1 :=
  (C44_fit (by norm_num) (by norm_num) (by norm_num) (by norm_num) (by norm_num)).2

/-- **C44.** The double exponential is the sum of the baseline and of two quantities which start at the amplitudes and decay
at the rate of their own. -/
theorem C44_fit_decays (fr fa sr sa base : ℝ) : ∃ u v : ℝ → ℝ, u 0 = fa ∧ v 0 = sa ∧ (∀ t, HasDerivAt u (-fr * u t) t) ∧
    (∀ t, HasDerivAt v (-sr * v t) t) ∧ ∀ t, isfFourVariable fr fa sr sa base t = u t + v t + base := by
  have h : ∀ c a t : ℝ, HasDerivAt (fun t => a * Real.exp (-c * t)) (-c * (a * Real.exp (-c * t))) t := by
    intro c a t
    have := (((hasDerivAt_id t).const_mul (-c)).exp).const_mul a
    refine this.congr_deriv ?_
    simp only [id]
    ring
  exact ⟨fun t => fa * Real.exp (-fr * t), fun t => sa * Real.exp (-sr * t), by simp, by simp, h fr fa, h sr sa, fun t => rfl⟩

end Verif
