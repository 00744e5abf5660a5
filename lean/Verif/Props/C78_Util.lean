import Verif.Model.Util
import Mathlib.Analysis.SpecialFunctions.Complex.Log
import Mathlib.Tactic.FieldSimp
import Mathlib.Tactic.Linarith

/-!
C78: `timed`. C79: the squared scale. C80: `get_measured_data`.
-/

set_option autoImplicit false

namespace Verif

open Finset

/-- **C78**: the outcome and the clock are those of the function, and one line is printed after those of the function, also when it raises. -/
theorem C78_transparent {α ε ρ : Type} (name : String) (f : Effect α ε ρ) (a : α) (w : World) :
    (timed name f a w).1 = (f a w).1 ∧ (timed name f a w).2.clock = (f a w).2.clock ∧
    (timed name f a w).2.printed = (f a w).2.printed ++ [(name, (f a w).2.clock - w.clock)] := ⟨rfl, rfl, rfl⟩

/-- The times of timed functions which are called by each other `n` levels deep: one line for every level, the inner ones first,
and no duration of an outer call is smaller than that of an inner one when the clock does not go back. -/
noncomputable def nested {α ε ρ : Type} (name : ℕ → String) (g : ℕ → Effect α ε ρ → Effect α ε ρ) (f : Effect α ε ρ) : ℕ → Effect α ε ρ
  | 0 => timed (name 0) f
  | n + 1 => timed (name (n + 1)) (g n (nested name g f n))

theorem C78_nested {α ε ρ : Type} (name : ℕ → String) (g : ℕ → Effect α ε ρ → Effect α ε ρ) (f : Effect α ε ρ)
    (hf : ∀ a w, (f a w).2.printed = w.printed ∧ w.clock ≤ (f a w).2.clock)
    (hg : ∀ n h a w, ∃ (b : α) (w' : World), w'.printed = w.printed ∧ w.clock ≤ w'.clock ∧ (g n h a w).2.printed = (h b w').2.printed ∧
      (h b w').2.clock ≤ (g n h a w).2.clock) (n : ℕ) (a : α) (w : World) :
    ∃ ts : List (String × ℝ), (nested name g f n a w).2.printed = w.printed ++ ts ∧ ts.map (·.1) = (List.range (n + 1)).map name ∧
      (∀ t ∈ ts, 0 ≤ t.2 ∧ t.2 ≤ (nested name g f n a w).2.clock - w.clock) ∧ ts.Pairwise fun s t => s.2 ≤ t.2 := by
  induction n generalizing a w with
  | zero =>
    refine ⟨[(name 0, (f a w).2.clock - w.clock)], ?_, rfl, ?_, List.pairwise_singleton _ _⟩
    · show (f a w).2.printed ++ _ = _
      rw [(hf a w).1]
    · intro t ht
      rw [List.mem_singleton] at ht
      subst ht
      exact ⟨sub_nonneg.2 (hf a w).2, le_refl _⟩
  | succ n ih =>
    obtain ⟨b, w', h1, h2, h3, h4⟩ := hg n (nested name g f n) a w
    obtain ⟨ts, t1, t2, t3, t4⟩ := ih b w'
    have hb : ∀ t ∈ ts, 0 ≤ t.2 ∧ t.2 ≤ (g n (nested name g f n) a w).2.clock - w.clock := fun t ht =>
      ⟨(t3 t ht).1, (t3 t ht).2.trans (by linarith)⟩
    have hne : ts ≠ [] := by
      intro h; rw [h] at t2; simp at t2
    have hpos : 0 ≤ (g n (nested name g f n) a w).2.clock - w.clock := by
      obtain ⟨t, ht⟩ := List.exists_mem_of_ne_nil ts hne
      exact (hb t ht).1.trans (hb t ht).2
    refine ⟨ts ++ [(name (n + 1), (g n (nested name g f n) a w).2.clock - w.clock)], ?_, ?_, ?_, ?_⟩
    · show (g n (nested name g f n) a w).2.printed ++ _ = _
      rw [h3, t1, h1, List.append_assoc]
    · rw [List.map_append, t2, List.range_succ (n := n + 1), List.map_append]; rfl
    · intro t ht
      rw [List.mem_append, List.mem_singleton] at ht
      rcases ht with ht | rfl
      · exact hb t ht
      · exact ⟨hpos, le_refl _⟩
    · rw [List.pairwise_append]
      refine ⟨t4, List.pairwise_singleton _ _, fun s hs t ht => ?_⟩
      rw [List.mem_singleton] at ht
      subst ht
      exact (hb s hs).2

/-- A function which raises, and a wrapper which waits before and after the call. -/
example : ∃ (f : Effect ℕ String ℕ) (g : ℕ → Effect ℕ String ℕ → Effect ℕ String ℕ),
    (∀ a w, (f a w).2.printed = w.printed ∧ w.clock ≤ (f a w).2.clock) ∧
    (∀ n h a w, ∃ (b : ℕ) (w' : World), w'.printed = w.printed ∧ w.clock ≤ w'.clock ∧ (g n h a w).2.printed = (h b w').2.printed ∧
      (h b w').2.clock ≤ (g n h a w).2.clock) ∧ (timed "f" f 0 ⟨0, []⟩).1 = .error "failed" ∧ (timed "f" f 0 ⟨0, []⟩).2.printed = [("f", 1)] := by
  refine ⟨fun _ w => (.error "failed", ⟨w.clock + 1, w.printed⟩),
    fun _ h a w => ((h (a + 1) ⟨w.clock + 1, w.printed⟩).1, ⟨(h (a + 1) ⟨w.clock + 1, w.printed⟩).2.clock + 1, (h (a + 1) ⟨w.clock + 1, w.printed⟩).2.printed⟩),
    fun a w => ⟨rfl, by simp⟩, fun n h a w => ⟨a + 1, ⟨w.clock + 1, w.printed⟩, rfl, by simp, rfl, by simp⟩, rfl, ?_⟩
  simp [timed, tryFinally]

/-- **C79**: on the nonnegative axis the transform and its inverse are mutually inverse and strictly increasing; the ticks are at the ends and
at equal steps of the square. -/
theorem C79_scale :
    (∀ x : ℝ, 0 ≤ x → invertedSquaredTransform (squaredTransform x) = x) ∧
    (∀ y : ℝ, 0 ≤ y → squaredTransform (invertedSquaredTransform y) = y) ∧
    (∀ x y : ℝ, 0 ≤ x → x < y → squaredTransform x < squaredTransform y) ∧
    (∀ x y : ℝ, 0 ≤ x → x < y → invertedSquaredTransform x < invertedSquaredTransform y) := by
  refine ⟨fun x hx => ?_, fun y hy => ?_, fun x y hx hxy => ?_, fun x y hx hxy => ?_⟩
  · rw [invertedSquaredTransform, squaredTransform, Complex.ofReal_re, abs_of_nonneg (sq_nonneg x), Real.sqrt_sq hx]
  · rw [invertedSquaredTransform, squaredTransform, Complex.ofReal_re, abs_of_nonneg hy, Real.sq_sqrt hy]
  · simp only [squaredTransform, Complex.ofReal_re]
    nlinarith
  · simp only [invertedSquaredTransform]
    rw [abs_of_nonneg hx, abs_of_nonneg (hx.trans hxy.le)]
    exact Real.sqrt_lt_sqrt hx hxy

/-- **C79**, the ticks: between the limits, in order, at equal steps of the transformed axis, the first and last at the limits. -/
theorem C79_ticks (vmin vmax : ℝ) (h0 : 0 ≤ vmin) (h1 : vmin ≤ vmax) :
    squaredTick vmin vmax 0 = vmin ∧ squaredTick vmin vmax 7 = vmax ∧
    (∀ i ≤ 7, vmin ≤ squaredTick vmin vmax i ∧ squaredTick vmin vmax i ≤ vmax) ∧
    ∀ i < 7, squaredTransform (squaredTick vmin vmax (i + 1) : ℝ) - squaredTransform (squaredTick vmin vmax i : ℝ) = (vmax ^ 2 - vmin ^ 2) / 7 := by
  have hd : 0 ≤ vmax ^ 2 - vmin ^ 2 := by nlinarith
  have hv : 0 ≤ vmax := h0.trans h1
  refine ⟨?_, ?_, fun i hi => ⟨?_, ?_⟩, fun i hi => ?_⟩
  · rw [squaredTick]; simp [Real.sqrt_sq h0]
  · rw [squaredTick, show vmin ^ 2 + ((7 : ℕ) : ℝ) * ((vmax ^ 2 - vmin ^ 2) / 7) = vmax ^ 2 by push_cast; ring, Real.sqrt_sq hv]
  · refine Real.le_sqrt_of_sq_le ?_
    have : 0 ≤ (i : ℝ) * ((vmax ^ 2 - vmin ^ 2) / 7) := by positivity
    linarith
  · refine Real.sqrt_le_iff.2 ⟨hv, ?_⟩
    have hi' : (i : ℝ) ≤ 7 := by exact_mod_cast hi
    nlinarith
  · simp only [squaredTransform, Complex.ofReal_re, squaredTick]
    rw [Real.sq_sqrt (by positivity), Real.sq_sqrt (by positivity)]
    push_cast; ring

/-- From 3 to 5 the squares of the ticks go from 9 to 25. -/
example : (0 : ℝ) ≤ 3 ∧ (3 : ℝ) ≤ 5 ∧ squaredTick 3 5 0 = 3 ∧ squaredTick 3 5 7 = 5 :=
  ⟨by norm_num, by norm_num, (C79_ticks 3 5 (by norm_num) (by norm_num)).1, (C79_ticks 3 5 (by norm_num) (by norm_num)).2.1⟩

/-- On the whole axis neither holds: the inverse gives the absolute value. -/
theorem C79_negative (x : ℝ) : invertedSquaredTransform (squaredTransform x) = |x| := by
  rw [invertedSquaredTransform, squaredTransform, Complex.ofReal_re, abs_of_nonneg (sq_nonneg x), Real.sqrt_sq_eq_abs]

/-- One step of the unwrapping. -/
theorem unwrap_step (p : ℕ → ℝ) (j : ℕ) : (∃ k : ℤ, unwrapCorrection p j = 2 * Real.pi * k) ∧ |p (j + 1) - p j + unwrapCorrection p j| ≤ Real.pi := by
  have hpi := Real.pi_pos
  unfold unwrapCorrection
  simp only []
  generalize p (j + 1) - p j = d
  have h2 : 2 * Real.pi / 2 = Real.pi := by ring
  rw [h2]
  by_cases hs : |d| < Real.pi
  · rw [if_pos hs]
    exact ⟨⟨0, by simp⟩, by rw [add_zero]; exact hs.le⟩
  · rw [if_neg hs]
    have hf : fmod (d - -Real.pi) (2 * Real.pi) = d + Real.pi - 2 * Real.pi * ⌊(d + Real.pi) / (2 * Real.pi)⌋ := by
      rw [fmod, sub_neg_eq_add]
    rw [hf]
    generalize hk : ⌊(d + Real.pi) / (2 * Real.pi)⌋ = k
    have hle : (k : ℝ) * (2 * Real.pi) ≤ d + Real.pi := by
      rw [← le_div_iff₀ (by positivity), ← hk]; exact Int.floor_le _
    have hlt : d + Real.pi < (k + 1) * (2 * Real.pi) := by
      rw [← div_lt_iff₀ (by positivity), ← hk]; exact Int.lt_floor_add_one _
    split_ifs with hb
    · refine ⟨⟨1 - k, ?_⟩, ?_⟩
      · have := hb.1
        push_cast; linarith
      · rw [show d + (Real.pi - d) = Real.pi by ring, abs_of_pos hpi]
    · refine ⟨⟨-k, by push_cast; ring⟩, ?_⟩
      rw [abs_le]
      constructor <;> linarith

theorem unwrap_succ (p : ℕ → ℝ) (i : ℕ) : unwrapAngles p (i + 1) - unwrapAngles p i = p (i + 1) - p i + unwrapCorrection p i := by
  simp only [unwrapAngles, sum_range_succ]; ring

/-- **C80**: the real and imaginary measures, and the absolute value and angle, recombine to the data; the angle is the principal
angle up to multiples of `2 π`, starts at the principal angle, and has no step larger than `π`. -/
theorem C80_measured (data : ℕ → ℂ) (i : ℕ) :
    data i = getMeasuredData data .real i + getMeasuredData data .imag i * Complex.I ∧
    data i = getMeasuredData data .abs i * Complex.exp (getMeasuredData data .angle i * Complex.I) ∧
    0 ≤ getMeasuredData data .abs i ∧
    (∃ k : ℤ, getMeasuredData data .angle i = (data i).arg + 2 * Real.pi * k) ∧
    getMeasuredData data .angle 0 = (data 0).arg ∧
    |getMeasuredData data .angle (i + 1) - getMeasuredData data .angle i| ≤ Real.pi := by
  have hk : ∃ k : ℤ, getMeasuredData data .angle i = (data i).arg + 2 * Real.pi * k := by
    show ∃ k : ℤ, unwrapAngles (fun i => (data i).arg) i = _
    have : ∀ n, ∃ k : ℤ, ∑ j ∈ range n, unwrapCorrection (fun i => (data i).arg) j = 2 * Real.pi * k := by
      intro n
      induction n with
      | zero => exact ⟨0, by simp⟩
      | succ n ih =>
        obtain ⟨k, hk⟩ := ih
        obtain ⟨l, hl⟩ := (unwrap_step (fun i => (data i).arg) n).1
        exact ⟨k + l, by rw [sum_range_succ, hk, hl]; push_cast; ring⟩
    obtain ⟨k, hk⟩ := this i
    exact ⟨k, by rw [unwrapAngles, hk]⟩
  refine ⟨(Complex.re_add_im _).symm, ?_, norm_nonneg _, hk, by simp [getMeasuredData, unwrapAngles], ?_⟩
  · obtain ⟨k, hk⟩ := hk
    rw [hk]
    have : (((data i).arg + 2 * Real.pi * k : ℝ) : ℂ) * Complex.I = (data i).arg * Complex.I + k * (2 * Real.pi * Complex.I) := by
      push_cast; ring
    rw [this, Complex.exp_add, Complex.exp_int_mul_two_pi_mul_I, mul_one]
    exact (Complex.norm_mul_exp_arg_mul_I _).symm
  · simp only [getMeasuredData]
    rw [unwrap_succ]
    exact (unwrap_step (fun i => (data i).arg) i).2

/-- The angle of a signal which turns by less than `π` at each step is followed exactly. -/
theorem C80_follows (φ : ℕ → ℝ) (hstart : φ 0 ∈ Set.Ioc (-Real.pi) Real.pi) (hstep : ∀ i, |φ (i + 1) - φ i| < Real.pi) (ρ : ℕ → ℝ) (hρ : ∀ i, 0 < ρ i) (i : ℕ) :
    getMeasuredData (fun i => ρ i * Complex.exp (φ i * Complex.I)) .angle i = φ i := by
  have hpi := Real.pi_pos
  obtain ⟨data, hdata⟩ : ∃ data : ℕ → ℂ, data = fun i => ρ i * Complex.exp (φ i * Complex.I) := ⟨_, rfl⟩
  rw [← hdata]
  induction i with
  | zero =>
    rw [(C80_measured data 0).2.2.2.2.1, hdata]
    simp only []
    rw [Complex.exp_mul_I, Complex.arg_mul_cos_add_sin_mul_I (hρ 0) hstart]
  | succ i ih =>
    obtain ⟨-, -, -, ⟨k, hk⟩, -, -⟩ := C80_measured data (i + 1)
    have hs := (C80_measured data i).2.2.2.2.2
    have harg : ∃ m : ℤ, (data (i + 1)).arg = φ (i + 1) + 2 * Real.pi * m := by
      rw [hdata]
      simp only []
      refine ⟨⌊(Real.pi - φ (i + 1)) / (2 * Real.pi)⌋, ?_⟩
      have := Complex.arg_mul_cos_add_sin_mul_I_sub (hρ (i + 1)) (φ (i + 1))
      rw [Complex.exp_mul_I]
      linarith
    obtain ⟨m, hm⟩ := harg
    rw [hk, hm] at hs ⊢
    rw [ih] at hs
    have h1 := hstep i
    have : ((m + k : ℤ) : ℝ) = 0 := by
      have ha := abs_le.1 hs
      have hb := abs_lt.1 h1
      have h3 : |((m + k : ℤ) : ℝ)| < 1 := by
        rw [abs_lt]
        push_cast
        constructor <;> nlinarith
      have h4 : |m + k| < 1 := by exact_mod_cast h3
      exact_mod_cast Int.abs_lt_one_iff.1 h4
    push_cast at this
    have : (m : ℝ) = -k := by linarith
    rw [this]; ring

/-- A signal which turns by one radian at every step is followed for ever, although its principal angle jumps. -/
example (i : ℕ) : getMeasuredData (fun i => (2 : ℝ) * Complex.exp (((i : ℕ) : ℝ) * Complex.I)) .angle i = i := by
  have hpi := Real.two_le_pi
  exact C80_follows (fun i => (i : ℝ)) ⟨by simp; linarith, by simp; linarith⟩
    (fun i => by simp; linarith) (fun _ => 2) (fun _ => by norm_num) i

end Verif
