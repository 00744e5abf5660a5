import Verif.Model.Geometry
import Mathlib.Analysis.SpecialFunctions.Complex.Arg
import Mathlib.Algebra.Order.Round

/-!
# C24: periodic average of two grid indices
-/

namespace Verif

open Real

theorem arg_polar (r θ : ℝ) (hr : 0 < r) : ∃ k : ℤ,
    Complex.arg ⟨r * cos θ, r * sin θ⟩ = θ - k * (2 * π) := by
  have e : (⟨r * cos θ, r * sin θ⟩ : ℂ) = r * (Complex.cos θ + Complex.sin θ * Complex.I) := by
    apply Complex.ext <;> simp [← Complex.ofReal_cos, ← Complex.ofReal_sin]
  rw [e, Complex.arg_mul_cos_add_sin_mul_I_eq_toIocMod hr]
  refine ⟨toIocDiv Real.two_pi_pos (-π) θ, ?_⟩
  have := self_sub_toIocDiv_zsmul Real.two_pi_pos (-π) θ
  rw [← this]; simp

theorem round_mod (n : ℕ) (hn : 0 < n) (z k : ℤ) (avg : ℝ) (h : avg = π * z / n - k * (2 * π)) :
    round (avg * n / π) % (2 * n) = z % (2 * n : ℤ) := by
  have hn' : (n : ℝ) ≠ 0 := by positivity
  have hpi := Real.pi_ne_zero
  have : avg * n / π = ((z - k * (2 * n) : ℤ) : ℝ) := by
    rw [h]; push_cast; field_simp
  rw [this, round_intCast]
  exact Int.sub_mul_emod_self_right z k (2 * n)

/-- **C24.** Twice the average of the grid points `a` and `b` of a periodic axis with `n` points: the mid point of
the shorter arc between them, counted on the grid with half spacing (`2 n` points). When the two arcs are equally
long the arc not crossing the boundary is used. -/
theorem C24_twice_average (n a b : ℕ) (ha : a < n) (hb : b < n) :
    twiceAverageNx n a b =
      if 2 * |(a : ℤ) - b| ≤ n then ((a : ℤ) + b) % (2 * n) else ((a : ℤ) + b + n) % (2 * n) := by
  have hn : 0 < n := by omega
  have hn' : (0 : ℝ) < n := by exact_mod_cast hn
  have hpi := Real.pi_pos
  set m : ℝ := π * (a + b) / n with hm
  set δ : ℝ := π * ((a : ℝ) - b) / n with hδ
  have eta : 2 * π * (a : ℝ) / n = m + δ := by rw [hm, hδ]; field_simp; ring
  have etb : 2 * π * (b : ℝ) / n = m - δ := by rw [hm, hδ]; field_simp; ring
  have ex : (cos (2 * π * (a : ℝ) / n) + cos (2 * π * (b : ℝ) / n)) / 2 = cos δ * cos m := by
    rw [eta, etb, cos_add, cos_sub]; ring
  have ey : (sin (2 * π * (a : ℝ) / n) + sin (2 * π * (b : ℝ) / n)) / 2 = cos δ * sin m := by
    rw [eta, etb, sin_add, sin_sub]; ring
  have habs : |δ| = π * |(a : ℝ) - b| / n := by
    rw [hδ, abs_div, abs_mul, abs_of_pos hpi, abs_of_pos hn']
  have hcast : ((|(a : ℤ) - b| : ℤ) : ℝ) = |(a : ℝ) - b| := by push_cast; rfl
  have hltn : |(a : ℝ) - b| < n := by
    rw [abs_lt]
    have h1 : (a : ℝ) < n := by exact_mod_cast ha
    have h2 : (b : ℝ) < n := by exact_mod_cast hb
    have h3 : (0 : ℝ) ≤ a := by positivity
    have h4 : (0 : ℝ) ≤ b := by positivity
    constructor <;> linarith
  have hdpi : |δ| < π := by
    rw [habs, div_lt_iff₀ hn']; exact mul_lt_mul_of_pos_left hltn hpi
  unfold twiceAverageNx averageAngles
  simp only
  rw [ex, ey]
  rcases lt_trichotomy (2 * |(a : ℤ) - b|) n with hlt | heq | hgt
  · have hr : 2 * |(a : ℝ) - b| < n := by rw [← hcast]; exact_mod_cast hlt
    have hc : 0 < cos δ := by
      rw [← cos_abs]
      apply cos_pos_of_mem_Ioo
      constructor
      · have := abs_nonneg δ; linarith
      · rw [habs, div_lt_div_iff₀ hn' (by norm_num)]; nlinarith
    have hne : ¬ (cos δ * cos m = 0 ∧ cos δ * sin m = 0) := by
      rintro ⟨h1, h2⟩
      have h1 := (mul_eq_zero.1 h1).resolve_left hc.ne'
      have h2 := (mul_eq_zero.1 h2).resolve_left hc.ne'
      have := sin_sq_add_cos_sq m
      rw [h1, h2] at this; norm_num at this
    rw [if_neg hne, if_pos hlt.le]
    obtain ⟨k, hk⟩ := arg_polar (cos δ) m hc
    apply round_mod n hn _ k
    rw [hk, hm]; push_cast; ring
  · have hr : 2 * |(a : ℝ) - b| = n := by rw [← hcast]; exact_mod_cast heq
    have hc : cos δ = 0 := by
      rw [← cos_abs, habs]
      have : π * |(a : ℝ) - b| / n = π / 2 := by
        rw [div_eq_div_iff hn'.ne' (by norm_num), ← hr]; ring
      rw [this, cos_pi_div_two]
    rw [hc, if_pos (by simp), if_pos heq.le]
    simp only
    apply round_mod n hn _ 0
    push_cast; field_simp; ring
  · have hr : (n : ℝ) < 2 * |(a : ℝ) - b| := by rw [← hcast]; exact_mod_cast hgt
    have hc : cos δ < 0 := by
      rw [← cos_abs]
      apply cos_neg_of_pi_div_two_lt_of_lt
      · rw [habs, div_lt_div_iff₀ (by norm_num) hn']; nlinarith
      · linarith
    have hne : ¬ (cos δ * cos m = 0 ∧ cos δ * sin m = 0) := by
      rintro ⟨h1, h2⟩
      have h1 := (mul_eq_zero.1 h1).resolve_left hc.ne
      have h2 := (mul_eq_zero.1 h2).resolve_left hc.ne
      have := sin_sq_add_cos_sq m
      rw [h1, h2] at this; norm_num at this
    rw [if_neg hne, if_neg (by omega)]
    have e1 : cos δ * cos m = (-cos δ) * cos (m + π) := by rw [cos_add_pi]; ring
    have e2 : cos δ * sin m = (-cos δ) * sin (m + π) := by rw [sin_add_pi]; ring
    rw [e1, e2]
    obtain ⟨k, hk⟩ := arg_polar (-cos δ) (m + π) (by linarith)
    simp only
    apply round_mod n hn _ k
    rw [hk, hm]; push_cast; field_simp

/-- **C24.** Consequences: in range, symmetric, congruent to the sum modulo `n`, and translating both points by
one step (periodically) translates twice the average by two modulo `n`. -/
theorem C24_twice_average_equivariant (n a b : ℕ) (ha : a < n) (hb : b < n) :
    0 ≤ twiceAverageNx n a b ∧ twiceAverageNx n a b < 2 * n ∧
    twiceAverageNx n a b = twiceAverageNx n b a ∧
    twiceAverageNx n a b ≡ a + b [ZMOD n] ∧
    twiceAverageNx n ((a + 1) % n) ((b + 1) % n) ≡ twiceAverageNx n a b + 2 [ZMOD n] ∧
    twiceAverageNx n a a = 2 * a := by
  have hn : 0 < n := by omega
  have hcong : ∀ a b : ℕ, a < n → b < n → twiceAverageNx n a b ≡ a + b [ZMOD n] := by
    intro a b ha hb
    rw [C24_twice_average n a b ha hb]
    split
    · exact (Int.mod_modEq _ _).of_mul_left 2
    · refine ((Int.mod_modEq _ _).of_mul_left 2).trans ?_
      exact Int.modEq_iff_dvd.2 ⟨-1, by ring⟩
  have hm1 := Nat.mod_lt (a + 1) hn
  have hm2 := Nat.mod_lt (b + 1) hn
  refine ⟨?_, ?_, ?_, hcong a b ha hb, ?_, ?_⟩
  · rw [C24_twice_average n a b ha hb]; split <;> exact Int.emod_nonneg _ (by omega)
  · rw [C24_twice_average n a b ha hb]; split <;> exact Int.emod_lt_of_pos _ (by omega)
  · rw [C24_twice_average n a b ha hb, C24_twice_average n b a hb ha, abs_sub_comm, add_comm (a : ℤ) b]
  · refine (hcong _ _ hm1 hm2).trans ?_
    have h1 : (((a + 1) % n : ℕ) : ℤ) ≡ a + 1 [ZMOD n] := by
      push_cast; exact Int.mod_modEq _ _
    have h2 : (((b + 1) % n : ℕ) : ℤ) ≡ b + 1 [ZMOD n] := by
      push_cast; exact Int.mod_modEq _ _
    refine (h1.add h2).trans ?_
    have := (hcong a b ha hb).symm.add_right 2
    refine Int.ModEq.trans ?_ this
    exact Int.modEq_iff_dvd.2 ⟨0, by ring⟩
  · rw [C24_twice_average n a a ha ha, if_pos (by simp), Int.emod_eq_of_lt (by omega) (by omega)]; ring

-- the two cases named in the documentation of the function
example : twiceAverageNx 6 1 5 = 0 ∧ twiceAverageNx 6 3 3 = 6 := by
  rw [C24_twice_average 6 1 5 (by norm_num) (by norm_num), C24_twice_average 6 3 3 (by norm_num) (by norm_num)]
  decide

end Verif
