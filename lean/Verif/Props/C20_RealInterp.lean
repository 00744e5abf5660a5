import Verif.Props.C19_Interp

/-!
# C20: interpolation of real data
-/

set_option autoImplicit false

namespace Verif

open Finset Spec

theorem exp_eq_phase (n k x : ℕ) : Complex.exp (2 * Real.pi * Complex.I * (k : ℕ) * x / n) = phase n ((k : ℤ) * x) := by
  unfold phase; congr 1; push_cast; ring

/-- A sum over one period of a function with `f (n - k) = conj (f k)`, folded to half the period. -/
theorem half_sum (n : ℕ) (hn : 0 < n) (f : ℕ → ℂ) (h : ∀ k, 0 < k → k < n → f (n - k) = (starRingEnd ℂ) (f k)) :
    (∑ k ∈ range n, f k).re = (f 0).re + ∑ k ∈ range ((n - 1) / 2), 2 * (f (k + 1)).re +
      if n % 2 = 0 then (f (n / 2)).re else 0 := by
  have key : ∀ m k, k < m → 2 * m < n → f (n - 1 - k) = (starRingEnd ℂ) (f (k + 1)) := by
    intro m k hk hm
    rw [← h (k + 1) (by omega) (by omega)]; congr 1; omega
  obtain ⟨t, rfl⟩ : ∃ t, n = t + 1 := ⟨n - 1, by omega⟩
  rw [sum_range_succ', Complex.add_re, add_comm]
  rw [add_assoc]
  congr 1
  rcases Nat.even_or_odd' t with ⟨m, rfl | rfl⟩
  · -- odd period
    rw [if_neg (by omega), add_zero]
    have e : (2 * m + 1 - 1) / 2 = m := by omega
    rw [e, two_mul, sum_range_add, ← sum_range_reflect (fun k => f (m + k + 1)), ← sum_add_distrib, Complex.re_sum]
    apply sum_congr rfl; intro k hk
    have hk' : k < m := mem_range.1 hk
    have : f (m + (m - 1 - k) + 1) = (starRingEnd ℂ) (f (k + 1)) := by
      rw [← key m k hk' (by omega)]; congr 1; omega
    rw [this, Complex.add_re, Complex.conj_re]; ring
  · -- even period
    rw [if_pos (by omega)]
    have e : (2 * m + 1 + 1 - 1) / 2 = m := by omega
    have e2 : (2 * m + 1 + 1) / 2 = m + 1 := by omega
    rw [e, e2]
    have e3 : 2 * m + 1 = m + 1 + m := by ring
    rw [e3, sum_range_add, sum_range_succ, ← sum_range_reflect (fun k => f (m + 1 + k + 1)),
      add_right_comm, ← sum_add_distrib, Complex.add_re, Complex.re_sum]
    congr 1
    apply sum_congr rfl; intro k hk
    have hk' : k < m := mem_range.1 hk
    have : f (m + 1 + (m - 1 - k) + 1) = (starRingEnd ℂ) (f (k + 1)) := by
      rw [← key m k hk' (by omega)]; congr 1; omega
    rw [this, Complex.add_re, Complex.conj_re]; ring

theorem rfft_conj (n : ℕ) (v : ℕ → ℝ) (k : ℕ) (h1 : k < n) :
    rfft n v (n - k) = (starRingEnd ℂ) (rfft n v k) := by
  unfold rfft
  rw [fft_eq, fft_eq, map_mul, map_sum]
  have e : (starRingEnd ℂ) (FftNorm.fftScale n .forward) = FftNorm.fftScale n .forward := by
    simp [FftNorm.fftScale]
  rw [e]
  congr 1
  apply sum_congr rfl; intro x _
  rw [map_mul, Complex.conj_ofReal, phase_conj]
  congr 1
  apply phase_congr (by omega)
  rw [Nat.cast_sub h1.le]
  exact ⟨-x, by ring⟩

theorem phase_half (n : ℕ) (hn : 0 < n) (he : n % 2 = 0) (j : ℕ) : phase n (((n / 2 : ℕ) : ℤ) * j) = (-1) ^ j := by
  rw [phase_mul_nat]
  congr 1
  unfold phase
  have : (2 * Real.pi * Complex.I * (((n / 2 : ℕ) : ℤ) : ℂ) / n : ℂ) = Real.pi * Complex.I := by
    obtain ⟨m, rfl⟩ : ∃ m, n = 2 * m := ⟨n / 2, by omega⟩
    have h2 : (m : ℂ) ≠ 0 := by
      have : m ≠ 0 := by omega
      exact_mod_cast this
    rw [Nat.mul_div_cancel_left m (by norm_num : 0 < 2)]
    push_cast
    field_simp
  rw [this, Complex.exp_pi_mul_I]

theorem irfft_value (n r : ℕ) (hr : 0 < r) (v : ℕ → ℝ) {j : ℕ} (hj : j < n) :
    irfft (n / 2 + 1) (n * r) (rfft n v) (r * j) = v j +
      if n % 2 = 0 ∧ 2 ≤ r then (-1) ^ j * (∑ x ∈ range n, (-1) ^ x * v x) / n else 0 := by
  have hn : 0 < n := by omega
  set f : ℕ → ℂ := fun k => rfft n v k * phase n ((k : ℤ) * j) with hf
  have hv : (∑ k ∈ range n, f k).re = v j := by
    have : ∑ k ∈ range n, f k = (v j : ℂ) := by
      have h := ifft_fft .forward (fun x => (v x : ℂ)) hj
      rw [ifft_eq] at h
      simp only [FftNorm.ifftScale, one_mul] at h
      rw [← h]
      apply sum_congr rfl; intro k _
      simp only [hf]
      rw [mul_comm, mul_comm (k : ℤ)]; rfl
    rw [this, Complex.ofReal_re]
  have hconj : ∀ k, 0 < k → k < n → f (n - k) = (starRingEnd ℂ) (f k) := by
    intro k h0 h1
    rw [hf]
    beta_reduce
    rw [map_mul, rfft_conj n v k h1, phase_conj]
    congr 1
    apply phase_congr hn
    rw [Nat.cast_sub h1.le]
    exact ⟨j, by ring⟩
  have hhalf := half_sum n hn f hconj
  rw [hv] at hhalf
  have hphase : ∀ k : ℕ, Complex.exp (2 * Real.pi * Complex.I * (k : ℕ) * (r * j : ℕ) / (n * r : ℕ)) =
      phase n ((k : ℤ) * j) := by
    intro k
    rw [exp_eq_phase, mul_comm n r]
    have : (k : ℤ) * ((r * j : ℕ) : ℤ) = (r : ℤ) * (k * j) := by push_cast; ring
    rw [this, phase_mul_scale n r hr]
  have h0 : f 0 = rfft n v 0 := by simp [hf, phase_zero]
  -- the sum of the inverse transform, cut at the stored coefficients
  have hsum : ∑ k ∈ range ((n * r - 1) / 2), 2 * ((if k + 1 < n / 2 + 1 then rfft n v (k + 1) else 0) *
      Complex.exp (2 * Real.pi * Complex.I * (k + 1 : ℕ) * (r * j : ℕ) / (n * r : ℕ))).re =
      ∑ k ∈ range (min ((n * r - 1) / 2) (n / 2)), 2 * (f (k + 1)).re := by
    have hsub : range (min ((n * r - 1) / 2) (n / 2)) ⊆ range ((n * r - 1) / 2) :=
      range_subset_range.2 (min_le_left _ _)
    rw [← sum_subset hsub]
    · apply sum_congr rfl; intro k hk
      have : k < n / 2 := lt_of_lt_of_le (mem_range.1 hk) (min_le_right _ _)
      rw [if_pos (by omega), hphase]
    · intro k h1 h2
      rw [mem_range] at h1 h2
      have : ¬ k + 1 < n / 2 + 1 := fun h => h2 (lt_min h1 (by omega))
      rw [if_neg this]; simp
  unfold irfft
  simp only
  rw [if_pos (by omega : 0 < n / 2 + 1)]
  rw [hsum]
  have hle : n ≤ n * r := Nat.le_mul_of_pos_right n hr
  by_cases he : n % 2 = 0
  · by_cases h2 : 2 ≤ r
    · -- even length, true refinement: the highest coefficient is counted twice
      have h2n : 2 * n ≤ n * r := by rw [Nat.mul_comm n r]; exact Nat.mul_le_mul_right n h2
      rw [if_pos (show n % 2 = 0 ∧ 2 ≤ r from ⟨he, h2⟩)]
      have hmin : min ((n * r - 1) / 2) (n / 2) = (n - 1) / 2 + 1 := by
        rw [min_eq_right (by omega)]; omega
      have hev : n * r % 2 = 0 := by rw [Nat.mul_mod, he]; simp
      rw [if_pos he] at hhalf
      rw [hmin, sum_range_succ, if_pos hev, if_neg (by omega)]
      have e1 : (n - 1) / 2 + 1 = n / 2 := by omega
      rw [e1]
      have e2 : (f (n / 2)).re = (-1) ^ j * (∑ x ∈ range n, (-1) ^ x * v x) / n := by
        have : f (n / 2) = (((-1) ^ j * (∑ x ∈ range n, (-1) ^ x * v x) / n : ℝ) : ℂ) := by
          simp only [hf]
          rw [phase_half n hn he]
          unfold rfft
          rw [fft_eq]
          have e3 : ∀ x ∈ range n, phase n (-(((n / 2 : ℕ) : ℤ) * x)) * (v x : ℂ) = (-1) ^ x * v x := by
            intro x _
            rw [phase_neg, phase_half n hn he]
            simp
          rw [sum_congr rfl e3]
          simp only [FftNorm.fftScale]
          push_cast
          ring
        rw [this, Complex.ofReal_re]
      rw [h0] at hhalf
      rw [← e2]
      simp only [Complex.zero_re, zero_mul, add_zero]
      linarith
    · have hr1 : r = 1 := by omega
      subst hr1
      rw [if_neg (show ¬ (n % 2 = 0 ∧ 2 ≤ 1) by omega), add_zero]
      rw [if_pos he] at hhalf
      rw [Nat.mul_one, if_pos he, if_pos (by omega), min_eq_left (by omega)]
      rw [hhalf, h0]
      congr 1
      simp only [hf]
      rw [phase_half n hn he, Nat.one_mul]
      have : ((-1 : ℂ) ^ j) = (((-1) ^ j : ℝ) : ℂ) := by push_cast; rfl
      rw [this, Complex.re_mul_ofReal]
  · rw [if_neg (show ¬ (n % 2 = 0 ∧ 2 ≤ r) by tauto), add_zero]
    rw [if_neg he, add_zero] at hhalf
    have hmin : min ((n * r - 1) / 2) (n / 2) = (n - 1) / 2 := by
      rw [min_eq_right (by omega)]; omega
    rw [hmin, hhalf, h0]
    by_cases hev : n * r % 2 = 0
    · have hr2 : 2 ≤ r := by
        by_contra h
        have : r = 1 := by omega
        subst this; omega
      have h2n : 2 * n ≤ n * r := by rw [Nat.mul_comm n r]; exact Nat.mul_le_mul_right n hr2
      rw [if_pos hev, if_neg (by omega)]; simp
    · rw [if_neg hev, add_zero]

theorem irfft_even (m s : ℕ) (a : ℕ → ℂ) (ha : ∀ k < m, (a k).im = 0) {x : ℕ} (h0 : 0 < x) (hx : x < s) :
    irfft m s a (s - x) = irfft m s a x := by
  unfold irfft
  simp only
  congr 1
  · congr 1
    apply sum_congr rfl; intro k _
    congr 1
    rw [exp_eq_phase, exp_eq_phase]
    have : phase s (((k + 1 : ℕ) : ℤ) * ((s - x : ℕ) : ℤ)) =
        (starRingEnd ℂ) (phase s (((k + 1 : ℕ) : ℤ) * (x : ℤ))) := by
      rw [phase_conj]
      apply phase_congr (by omega)
      rw [Nat.cast_sub hx.le]
      exact ⟨((k + 1 : ℕ) : ℤ), by ring⟩
    rw [this]
    split
    · rename_i hk
      rw [Complex.mul_re, Complex.mul_re, Complex.conj_re, Complex.conj_im, ha _ hk]; ring
    · simp
  · split
    · rename_i he
      congr 1
      have : (-1 : ℝ) ^ (s - x) * (-1) ^ x = 1 := by
        rw [← pow_add, Nat.sub_add_cancel hx.le]
        exact (Nat.even_iff.2 he).neg_one_pow
      have h2 : ((-1 : ℝ) ^ x) * (-1) ^ x = 1 := by rw [← mul_pow]; simp
      have h3 : ((-1 : ℝ) ^ x) ≠ 0 := by exact pow_ne_zero x (by norm_num)
      exact mul_right_cancel₀ h3 (this.trans h2.symm)
    · rfl

theorem interpolateRfft_eq (n s : ℕ) (v : ℕ → ℝ) {x : ℕ} (hx : x < s) :
    interpolateRfft n s v x = irfft (n / 2 + 1) s (rfft n v) x := by
  unfold interpolateRfft
  split
  · rename_i h
    unfold symmetrise
    split
    · rename_i h2
      have : 1 + (s - 1 - x) = s - x := by omega
      rw [this]
      exact irfft_even _ _ _ h (by omega) hx
    · rfl
  · rfl

/-- **C20, exact value.** What `interpolate_points_rfft` returns at an original point of a grid refined by the factor `r`:
the original value, plus (even length and `r ≥ 2`) the highest Fourier coefficient once more. -/
theorem C20_exact (n r : ℕ) (hr : 0 < r) (v : ℕ → ℝ) (j : ℕ) (hj : j < n) :
    interpolateRfft n (n * r) v (r * j) = v j +
      if n % 2 = 0 ∧ 2 ≤ r then (-1) ^ j * (∑ x ∈ range n, (-1) ^ x * v x) / n else 0 := by
  have : r * j < n * r := by rw [Nat.mul_comm n r]; exact Nat.mul_lt_mul_of_pos_left hj hr
  rw [interpolateRfft_eq n (n * r) v this, irfft_value n r hr v hj]

/-- **C20, the part which holds.** For an odd length, or the same length, the real interpolation takes the original
values at the original points. Missing: even lengths, where the claim is false (`C20_negation`) unless the alternating
sum of the data vanishes (`C20_exact`). -/
theorem C20_points_partial (n r : ℕ) (hr : 0 < r) (h : n % 2 = 1 ∨ r = 1) (v : ℕ → ℝ) (j : ℕ) (hj : j < n) :
    interpolateRfft n (n * r) v (r * j) = v j := by
  rw [C20_exact n r hr v j hj, if_neg (by omega), add_zero]

/-- **C20 fails for even lengths**: the values `1, -1` interpolated to four points give `2` at the first point. More
generally, for every even length and every factor `r ≥ 2` the alternating data does not pass through its points. -/
theorem C20_negation (n r : ℕ) (hn : 0 < n) (he : n % 2 = 0) (hr : 2 ≤ r) :
    interpolateRfft n (n * r) (fun x => (-1) ^ x) (r * 0) = 2 * (-1) ^ 0 := by
  rw [C20_exact n r (by omega) _ 0 hn, if_pos ⟨he, hr⟩]
  have : ∀ x ∈ range n, ((-1 : ℝ) ^ x * (-1) ^ x) = 1 := by
    intro x _; rw [← mul_pow]; simp
  rw [sum_congr rfl this]
  have hn' : (n : ℝ) ≠ 0 := by exact_mod_cast hn.ne'
  simp only [sum_const, card_range, nsmul_eq_mul, mul_one, pow_zero, one_mul]
  rw [div_self hn']; norm_num

/-- **C20, several axes, the part which holds.** `interpolate_points_rfftn` takes the original values at the original
points if the last axis has an odd length or keeps its length; the other axes are arbitrary. -/
theorem C20_points_nd_partial (axes : List PadAxis) (n r : ℕ) (hr : 0 < r) (hodd : n % 2 = 1 ∨ r = 1)
    (points : List ℕ → ℕ → ℝ) (idx : List ℕ) (h : ∀ a ∈ axes, ∀ s, a.2 = some s → ∃ r, 0 < r ∧ s = a.1 * r)
    (hidx : InShape (oldShape axes) idx) (j : ℕ) (hj : j < n) :
    interpolateRfftn axes n (n * r) points (refineIdx axes idx) (r * j) = points idx j := by
  unfold interpolateRfftn
  have : (fun k => interpolateFftn axes (fun js => rfft n (points js) k) (refineIdx axes idx)) =
      rfft n (points idx) := by
    funext k
    exact C19_points axes (fun js => rfft n (points js) k) idx h hidx
  rw [this, irfft_value n r hr (points idx) hj, if_neg (by omega), add_zero]

/-- **C20.** Padding the stored half of a real transform keeps every coefficient which the target length can hold and
sets the rest to zero; the inverse transform to that length gives the same points as without padding. -/
theorem C20_pad_real (m n : ℕ) (a : ℕ → ℂ) :
    (∀ k, k < m → k ≤ n / 2 → padRealAxis m n a k = a k) ∧
    (∀ k, m ≤ k ∨ n / 2 < k → padRealAxis m n a k = 0) ∧
    (∀ x, irfft (n / 2 + 1) n (padRealAxis m n a) x = irfft m n a x) := by
  have hk : ∀ k, k ≤ n / 2 → (if k < n / 2 + 1 then padRealAxis m n a k else 0) = if k < m then a k else 0 := by
    intro k hk
    rw [if_pos (by omega)]
    unfold padRealAxis
    by_cases h : k < m
    · rw [if_pos h, if_pos (by omega)]
    · rw [if_neg h, if_neg (by omega)]
  refine ⟨?_, ?_, ?_⟩
  · intro k h1 h2; unfold padRealAxis; rw [if_pos (by omega)]
  · intro k h; unfold padRealAxis; rw [if_neg (by omega)]
  · intro x
    unfold irfft
    simp only
    rw [hk 0 (by omega), hk (n / 2) (le_refl _)]
    congr 2
    apply sum_congr rfl; intro k hk'
    rw [hk (k + 1) (by have := mem_range.1 hk'; omega)]

-- a 2 × 3 array refined to 4 × 9
example : (∀ a ∈ ([(2, some 4)] : List PadAxis), ∀ s, a.2 = some s → ∃ r, 0 < r ∧ s = a.1 * r) ∧
    InShape (oldShape [(2, some 4)]) [1] ∧ 3 % 2 = 1 := by
  refine ⟨?_, by simp [InShape, oldShape], rfl⟩
  intro a ha s hs
  simp only [List.mem_cons, List.not_mem_nil, or_false] at ha
  subst ha
  cases hs; exact ⟨2, by norm_num, by norm_num⟩

/-! ## C81: the default axes of the interpolation -/

theorem drop_set_self : ∀ (l : List ℕ) (i t : ℕ), i < l.length → (l.set i t).drop i = t :: l.drop (i + 1)
  | _ :: _, 0, _, _ => rfl
  | _ :: l, i + 1, t, h => by
    simp only [List.set_cons_succ, List.drop_succ_cons]
    exact drop_set_self l i t (by simpa using h)

theorem foldl_set_end : ∀ (s : List ℕ) (d : ℕ) (sh : List ℕ) (k : ℕ), sh.length = d → s.length + k ≤ d →
    ((((List.range' k s.length).map fun i : ℕ => -1 - (i : ℤ)).zip s).foldl
      (fun sh p => sh.set ((d : ℤ) + p.1).toNat p.2) sh) =
      sh.take (d - k - s.length) ++ (s.reverse ++ sh.drop (d - k))
  | [], d, sh, k, _, _ => by simp
  | t :: s, d, sh, k, hd, hk => by
    have hk' : s.length + 1 + k ≤ d := by simpa using hk
    simp only [List.length_cons, List.range'_succ, List.map_cons, List.zip_cons_cons, List.foldl_cons]
    have e : ((d : ℤ) + (-1 - (k : ℤ))).toNat = d - 1 - k := by omega
    rw [e, foldl_set_end s d _ (k + 1) (by simp [hd]) (by omega)]
    have e3 : d - (k + 1) - s.length = d - k - (s.length + 1) := by omega
    have e4 : d - (k + 1) = d - 1 - k := by omega
    have e5 : d - 1 - k + 1 = d - k := by omega
    rw [List.take_set_of_le (by omega), e3, e4, drop_set_self _ _ _ (by omega), e5, List.reverse_cons,
      List.append_assoc, List.singleton_append]

/-- **C81, exact shape.** Without `axes`, `interpolate_points_fftn(points, s)` leaves the leading axes and gives the
last `len(s)` axes the lengths `s` **in reverse order**. -/
theorem C81_exact (shape s : List ℕ) (h : s.length ≤ shape.length) :
    defaultInterpShape shape s = shape.take (shape.length - s.length) ++ s.reverse := by
  have := foldl_set_end s shape.length shape 0 rfl (by omega)
  unfold defaultInterpShape defaultInterpAxes
  rw [List.range_eq_range', this]
  simp

/-- Three axes, the last two of which are interpolated to four and five points: they get five and four. -/
example : defaultInterpShape [2, 3, 3] [4, 5] = [2, 5, 4] := C81_exact [2, 3, 3] [4, 5] (by decide)

/-- **C81, the part which holds.** The last `len(s)` axes get the lengths `s` (the documented meaning) exactly if `s`
reads the same in both directions. Missing: every other `s`, where the claim is false. -/
theorem C81_shape_partial (shape s : List ℕ) (h : s.length ≤ shape.length) :
    defaultInterpShape shape s = shape.take (shape.length - s.length) ++ s ↔ s.reverse = s := by
  rw [C81_exact shape s h]; simp

/-- The same number for both axes. -/
example : defaultInterpShape [2, 3, 3] [4, 4] = [2, 4, 4] := (C81_shape_partial [2, 3, 3] [4, 4] (by decide)).2 rfl

/-- **C81 fails**: asking a `2 × 2` array for the shape `4 × 6` gives `6 × 4`. -/
theorem C81_negation : defaultInterpShape [2, 2] [4, 6] = [6, 4] := by
  rw [C81_exact _ _ (by simp)]; simp

end Verif
