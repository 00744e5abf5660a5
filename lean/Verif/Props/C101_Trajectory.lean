import Verif.Model.Trajectory
import Mathlib.Analysis.SpecialFunctions.Trigonometric.Basic
import Mathlib.Algebra.BigOperators.Field
import Mathlib.Algebra.BigOperators.Intervals

/-!
C101: displacements. C102: intermediate scattering function of trajectories. C103: drifts.
-/

set_option autoImplicit false

namespace Verif

open Finset

/-- The offset products: the first factor is the later one. -/
theorem totalOffsetReal_eq (n : ℕ) (x y : ℕ → ℝ) (j : ℕ) (hj : j < n) :
    totalOffsetReal n x y j = ∑ i ∈ range (n - j), x (i + j) * y i := by
  unfold totalOffsetReal correlateFull
  have h0 : ∀ l ∈ range j, x l * (if 0 ≤ (l : ℤ) - ((n - 1 + j : ℕ) : ℤ) + n - 1 ∧ (l : ℤ) - ((n - 1 + j : ℕ) : ℤ) + n - 1 < n then
      y ((l : ℤ) - ((n - 1 + j : ℕ) : ℤ) + n - 1).toNat else 0) = 0 := by
    intro l hl
    rw [mem_range] at hl
    rw [if_neg (by omega), mul_zero]
  rw [show n = j + (n - j) by omega, sum_range_add]
  rw [show j + (n - j) = n by omega, sum_eq_zero h0, zero_add]
  refine sum_congr rfl fun i hi => ?_
  rw [mem_range] at hi
  rw [if_pos (by omega)]
  congr 2
  · omega
  · omega

theorem reversed_count (n j : ℕ) (hj : j < n) : reversed n (fun i => ((1 + i : ℕ) : ℝ)) j = ((n - j : ℕ) : ℝ) := by
  unfold reversed
  beta_reduce
  rw [show 1 + (n - 1 - j) = n - j by omega]

/-- Cumulative sums read from the end. -/
theorem reversed_cumsum (n : ℕ) (x : ℕ → ℝ) (j : ℕ) (hj : j < n) : reversed n (cumsum x) j = ∑ i ∈ range (n - j), x i := by
  unfold reversed cumsum
  rw [show n - 1 - j + 1 = n - j by omega]

theorem sum_reversed (n : ℕ) (x : ℕ → ℝ) (j : ℕ) (hj : j < n) : ∑ i ∈ range (n - j), reversed n x i = ∑ i ∈ range (n - j), x (i + j) := by
  rw [← sum_range_reflect (fun i => x (i + j))]
  refine sum_congr rfl fun i hi => ?_
  rw [mem_range] at hi
  unfold reversed
  congr 1
  omega

/-- The lag times are the differences of the times. -/
theorem lag_times (t : TimeBasis) (hs : 0 < t.step) (hn : 0 < t.n) (i j : ℕ) : (lagBasis t).times j = t.times (i + j) - t.times i := by
  have h1 : (t.n : ℝ) ≠ 0 := by exact_mod_cast hn.ne'
  have h2 : (t.step : ℝ) ≠ 0 := by exact_mod_cast hs.ne'
  simp only [lagBasis, TimeBasis.times, TimeBasis.fundamentalDt, TimeBasis.fundamentalN, TimeBasis.ntPoints, TimeBasis.dt]
  push_cast
  field_simp
  ring

/-- **C101**: for every trajectory `r` and lag `j` the result is the mean of the squared displacements over all pairs of times which are `j` samples
apart, and the time of the result is the difference of the two times. -/
theorem C101_displacement (t : TimeBasis) (hs : 0 < t.step) (positions : ℕ → ℝ) (r j : ℕ) (hj : j < t.n) :
    (getAverageDisplacements t positions).2 (r * t.n + j) =
      (∑ i ∈ range (t.n - j), (positions (r * t.n + (i + j)) - positions (r * t.n + i)) ^ 2) / ((t.n - j : ℕ) : ℝ) ∧
    (getAverageDisplacements t positions).1.n = t.n ∧
    ∀ i, (getAverageDisplacements t positions).1.times j = t.times (i + j) - t.times i := by
  have hn : 0 < t.n := by omega
  refine ⟨?_, rfl, fun i => lag_times t hs hn i j⟩
  have e1 : (r * t.n + j) / t.n = r := by rw [add_comm, Nat.add_mul_div_right _ _ hn, Nat.div_eq_of_lt hj, zero_add]
  have e2 : (r * t.n + j) % t.n = j := by rw [add_comm, Nat.add_mul_mod_self_right, Nat.mod_eq_of_lt hj]
  unfold getAverageDisplacements
  simp only [e1, e2]
  rw [reversed_count _ _ hj, reversed_cumsum _ _ _ hj, totalOffsetReal_eq _ _ _ _ hj, sum_add_distrib,
    sum_reversed t.n (fun i => positions (r * t.n + i) ^ 2) j hj, mul_sum, ← sum_add_distrib, ← sum_sub_distrib]
  congr 1
  exact sum_congr rfl fun i _ => by ring

example : (⟨4, 2, 0, 1⟩ : TimeBasis).step > 0 ∧ 1 < (⟨4, 2, 0, 1⟩ : TimeBasis).n := by decide

/-- The complex offset products: the first factor is the later one and nothing is conjugated. -/
theorem totalOffsetComplex_eq (n : ℕ) (x y : ℕ → ℂ) (j : ℕ) (hj : j < n) :
    totalOffsetComplex n x y j = ∑ i ∈ range (n - j), x (i + j) * y i := by
  unfold totalOffsetComplex
  simp only [totalOffsetReal_eq _ _ _ _ hj]
  apply Complex.ext
  · simp only [Complex.add_re, Complex.sub_re, Complex.ofReal_re, Complex.mul_re, Complex.I_re, Complex.I_im, Complex.add_im, Complex.ofReal_im,
      Complex.re_sum, zero_mul, one_mul, zero_add, add_zero, sub_zero]
    rw [← sum_sub_distrib]
  · simp only [Complex.add_re, Complex.sub_im, Complex.ofReal_re, Complex.mul_im, Complex.I_re, Complex.I_im, Complex.add_im, Complex.ofReal_im,
      Complex.im_sum, zero_mul, one_mul, zero_add, add_zero, sub_zero]
    rw [← sum_add_distrib]

theorem isf_eq (t : TimeBasis) (positions : ℕ → ℝ) (κ : ℝ) (r j : ℕ) (hj : j < t.n) :
    (getAverageIsf t positions κ).2 (r * t.n + j) =
      (∑ i ∈ range (t.n - j), Complex.exp (-(Complex.I * (κ * (positions (r * t.n + (i + j)) - positions (r * t.n + i)) : ℝ)))) /
        ((t.n - j : ℕ) : ℂ) := by
  have hn : 0 < t.n := by omega
  have e1 : (r * t.n + j) / t.n = r := by rw [add_comm, Nat.add_mul_div_right _ _ hn, Nat.div_eq_of_lt hj, zero_add]
  have e2 : (r * t.n + j) % t.n = j := by rw [add_comm, Nat.add_mul_mod_self_right, Nat.mod_eq_of_lt hj]
  unfold getAverageIsf
  simp only [e1, e2]
  rw [reversed_count _ _ hj, totalOffsetComplex_eq _ _ _ _ hj, Complex.ofReal_natCast]
  congr 1
  refine sum_congr rfl fun i _ => ?_
  rw [← Complex.exp_conj, ← Complex.exp_add]
  congr 1
  simp only [map_mul, Complex.conj_I, Complex.conj_ofReal]
  push_cast
  ring

/-- The mean over all pairs of times `j` samples apart of `exp (i k (x (later) - x (earlier)))`. -/
noncomputable def scatteringMean (n : ℕ) (x : ℕ → ℝ) (κ : ℝ) (j : ℕ) : ℂ :=
  (∑ i ∈ range (n - j), Complex.exp (Complex.I * (κ * (x (i + j) - x i) : ℝ))) / ((n - j : ℕ) : ℂ)

/-- **C102**, up to the sign of the momentum: the result is the complex conjugate of the documented mean, at the lag times; it is one at lag zero and its
modulus is at most one. What is missing is the sign, see `C102_isf_negation`. -/
theorem C102_isf_partial (t : TimeBasis) (hs : 0 < t.step) (positions : ℕ → ℝ) (κ : ℝ) (r j : ℕ) (hj : j < t.n) :
    (getAverageIsf t positions κ).2 (r * t.n + j) = (starRingEnd ℂ) (scatteringMean t.n (fun i => positions (r * t.n + i)) κ j) ∧
    ((getAverageIsf t positions κ).2 (r * t.n + j)).re = (scatteringMean t.n (fun i => positions (r * t.n + i)) κ j).re ∧
    ‖(getAverageIsf t positions κ).2 (r * t.n + j)‖ ≤ 1 ∧
    (j = 0 → (getAverageIsf t positions κ).2 (r * t.n + j) = 1) ∧
    ∀ i, (getAverageIsf t positions κ).1.times j = t.times (i + j) - t.times i := by
  have hn : 0 < t.n := by omega
  have hc : (getAverageIsf t positions κ).2 (r * t.n + j) = (starRingEnd ℂ) (scatteringMean t.n (fun i => positions (r * t.n + i)) κ j) := by
    rw [isf_eq t positions κ r j hj, scatteringMean, map_div₀, map_natCast, map_sum]
    congr 1
    refine sum_congr rfl fun i _ => ?_
    rw [← Complex.exp_conj]
    congr 1
    simp only [map_mul, Complex.conj_I, Complex.conj_ofReal]
    ring
  refine ⟨hc, by rw [hc, Complex.conj_re], ?_, ?_, fun i => lag_times t hs hn i j⟩
  · rw [isf_eq t positions κ r j hj, norm_div, Complex.norm_natCast]
    have hp : (0 : ℝ) < ((t.n - j : ℕ) : ℝ) := by exact_mod_cast (by omega : 0 < t.n - j)
    rw [div_le_one hp]
    refine (norm_sum_le _ _).trans ?_
    have : ∀ i ∈ range (t.n - j), ‖Complex.exp (-(Complex.I * (κ * (positions (r * t.n + (i + j)) - positions (r * t.n + i)) : ℝ)))‖ = 1 := by
      intro i _
      rw [← mul_neg, ← Complex.ofReal_neg, mul_comm, Complex.norm_exp_ofReal_mul_I]
    rw [sum_congr rfl this]
    simp
  · rintro rfl
    rw [isf_eq t positions κ r 0 hj]
    simp only [add_zero, sub_self, mul_zero, Complex.ofReal_zero, neg_zero, Complex.exp_zero, sum_const, card_range, Nat.sub_zero, nsmul_eq_mul, mul_one]
    exact div_self (by exact_mod_cast hn.ne')

/-- Two runs of three times: a particle which moves steadily, and one at rest. -/
example : ∃ (t : TimeBasis) (positions : ℕ → ℝ), 0 < t.step ∧ 2 < t.n ∧ positions 0 ≠ positions 1 ∧ positions (1 * t.n) = positions (1 * t.n + 1) :=
  ⟨⟨3, 2, 0, 1⟩, fun k => if k < 3 then k else 0, by norm_num, by norm_num, by norm_num, by norm_num⟩

/-- **C102** fails: for a trajectory which moves by a quarter of the wavelength between two times the result is `-i` and not `i`. -/
theorem C102_isf_negation : ∃ (t : TimeBasis) (positions : ℕ → ℝ) (κ : ℝ), 0 < t.step ∧ 1 < t.n ∧
    scatteringMean t.n positions κ 1 = Complex.I ∧ (getAverageIsf t positions κ).2 (0 * t.n + 1) = -Complex.I := by
  refine ⟨⟨2, 1, 0, 1⟩, fun i => i, Real.pi / 2, by decide, by decide, ?_, ?_⟩
  · simp only [scatteringMean, show 2 - 1 = 1 from rfl, range_one, sum_singleton]
    norm_num
    rw [mul_comm, Complex.exp_pi_div_two_mul_I]
  · rw [isf_eq _ _ _ _ _ (by decide)]
    simp only [show 2 - 1 = 1 from rfl, range_one, sum_singleton]
    norm_num
    rw [mul_comm, Complex.exp_neg, Complex.exp_pi_div_two_mul_I, Complex.inv_I]

theorem normalizedAverage_eq (t : TimeBasis) (positions kValues : ℕ → ℝ) (r j : ℕ) (hj : j < t.n) :
    (getNormalizedAverageDrift t positions kValues).2 (r * t.n + j) =
      -(∑ i ∈ range (t.n - j), (positions (r * t.n + (i + j)) - positions (r * t.n + i))) /
        ∑ i ∈ range (t.n - j), 1 / kValues (r * t.n + i) := by
  have hn : 0 < t.n := by omega
  have e1 : (r * t.n + j) / t.n = r := by rw [add_comm, Nat.add_mul_div_right _ _ hn, Nat.div_eq_of_lt hj, zero_add]
  have e2 : (r * t.n + j) % t.n = j := by rw [add_comm, Nat.add_mul_mod_self_right, Nat.mod_eq_of_lt hj]
  unfold getNormalizedAverageDrift
  simp only [e1, e2]
  unfold reversed
  have h := sum_reversed t.n (fun i => positions (r * t.n + i)) j hj
  unfold reversed at h
  simp only [cumsum, show t.n - 1 - j + 1 = t.n - j by omega]
  rw [h, sum_sub_distrib]
  congr 1
  ring

/-- **C103** (first kind): the result is minus the total displacement over the sum of the inverse momenta; in particular it vanishes for a particle at rest.
What is missing are the sign and the momenta instead of their inverses, see `C103_drift_negation`. -/
theorem C103_drift_partial (t : TimeBasis) (positions kValues : ℕ → ℝ) (r j : ℕ) (hj : j < t.n) :
    (getNormalizedAverageDrift t positions kValues).2 (r * t.n + j) =
      -(∑ i ∈ range (t.n - j), (positions (r * t.n + (i + j)) - positions (r * t.n + i))) /
        ∑ i ∈ range (t.n - j), 1 / kValues (r * t.n + i) ∧
    ((∀ i < t.n, positions (r * t.n + i) = positions (r * t.n)) → (getNormalizedAverageDrift t positions kValues).2 (r * t.n + j) = 0) := by
  refine ⟨normalizedAverage_eq t positions kValues r j hj, fun h => ?_⟩
  rw [normalizedAverage_eq t positions kValues r j hj, sum_eq_zero, neg_zero, zero_div]
  intro i hi
  rw [mem_range] at hi
  rw [h (i + j) (by omega), h i (by omega), sub_self]

/-- A particle at the points `0, 1, 2` with the momentum `2`: for one time step the result is `-2`. -/
example : (getNormalizedAverageDrift ⟨3, 1, 0, 1⟩ (fun i => i) fun _ => 2).2 1 = -2 := by
  have h := (C103_drift_partial ⟨3, 1, 0, 1⟩ (fun i => i) (fun _ => 2) 0 1 (by norm_num)).1
  simp only [show 3 - 1 = 2 from rfl, Finset.sum_range_succ, Finset.sum_range_zero] at h
  norm_num at h
  simpa using h

/-- **C103** fails for uniform motion: with velocity `v` per sample and momentum `κ` the drift at lag `j` is `v j / κ`, and the result is `- v j κ`. -/
theorem C103_drift_negation (t : TimeBasis) (v κ : ℝ) (hκ : κ ≠ 0) (j : ℕ) (hj : j < t.n) :
    (getNormalizedAverageDrift t (fun i => v * i) fun _ => κ).2 (0 * t.n + j) = -(v * j * κ) ∧
    (0 < j → v ≠ 0 → 0 < κ → (getNormalizedAverageDrift t (fun i => v * i) fun _ => κ).2 (0 * t.n + j) ≠
      (∑ i ∈ range (t.n - j), (v * ((i + j : ℕ) : ℝ) - v * i)) / ∑ _i ∈ range (t.n - j), κ) := by
  have hp : (((t.n - j : ℕ) : ℝ)) ≠ 0 := by exact_mod_cast (by omega : t.n - j ≠ 0)
  have hd : ∀ i : ℕ, v * ((i + j : ℕ) : ℝ) - v * (i : ℝ) = v * j := by intro i; push_cast; ring
  have h1 : (getNormalizedAverageDrift t (fun i => v * i) fun _ => κ).2 (0 * t.n + j) = -(v * j * κ) := by
    rw [normalizedAverage_eq t _ _ 0 j hj]
    simp only [zero_mul, zero_add, hd, sum_const, card_range, nsmul_eq_mul]
    field_simp
  refine ⟨h1, fun hj0 hv hk => ?_⟩
  rw [h1]
  simp only [hd, sum_const, card_range, nsmul_eq_mul]
  rw [mul_div_mul_left _ _ hp]
  intro e
  rw [eq_div_iff hκ] at e
  have hj' : (0 : ℝ) < j := by exact_mod_cast hj0
  have : v * j * (κ ^ 2 + 1) = 0 := by linarith [e]
  rcases mul_eq_zero.1 this with h | h
  · rcases mul_eq_zero.1 h with h | h
    · exact hv h
    · exact hj'.ne' h
  · have : 0 < κ ^ 2 + 1 := by positivity
    linarith

/-- **C103** (second kind) fails: a particle at rest at a point which is not the origin has a drift, which moreover depends on the choice of the origin. -/
theorem C103_normalized_negation (t : TimeBasis) (x κ : ℝ) (hκ : κ ≠ 0) (hx : x ≠ 0) (hn : 1 < t.n) (j : ℕ) (hj : j < t.n) :
    (getAverageNormalizedDrift t (fun _ => x) fun _ => κ).2 (0 * t.n + j) = ((t.n - j : ℕ) : ℝ) * (x * κ) * (1 - 1 / t.n) ∧
    (getAverageNormalizedDrift t (fun _ => x) fun _ => κ).2 (0 * t.n + j) ≠ 0 := by
  have hn0 : 0 < t.n := by omega
  have e1 : (0 * t.n + j) / t.n = 0 := by rw [zero_mul, zero_add, Nat.div_eq_of_lt hj]
  have e2 : (0 * t.n + j) % t.n = j := by rw [zero_mul, zero_add, Nat.mod_eq_of_lt hj]
  have hN : (1 : ℝ) < t.n := by exact_mod_cast hn
  have hp : (0 : ℝ) < ((t.n - j : ℕ) : ℝ) := by exact_mod_cast (by omega : 0 < t.n - j)
  have h1 : (getAverageNormalizedDrift t (fun _ => x) fun _ => κ).2 (0 * t.n + j) = ((t.n - j : ℕ) : ℝ) * (x * κ) * (1 - 1 / t.n) := by
    unfold getAverageNormalizedDrift
    simp only [e2]
    rw [reversed_cumsum _ _ _ hj, totalOffsetReal_eq _ _ _ _ hj]
    simp only [sum_const, card_range, nsmul_eq_mul, one_div_one_div]
    rw [show x / (1 / κ) = x * κ by field_simp]
    ring
  refine ⟨h1, ?_⟩
  rw [h1]
  have : (1 : ℝ) - 1 / t.n ≠ 0 := by
    have : (1 : ℝ) / t.n < 1 := by rw [div_lt_one (by linarith)]; exact hN
    linarith
  exact mul_ne_zero (mul_ne_zero hp.ne' (mul_ne_zero hx hκ)) this

end Verif
