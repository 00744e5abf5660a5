import Verif.Model.Fft
import Mathlib.RingTheory.RootsOfUnity.Complex
import Mathlib.Algebra.Order.BigOperators.Group.Finset

/-!
Phases `exp(2πi z / n)` and the orthogonality of the discrete Fourier basis.
-/

namespace Verif

open Complex Finset

/-- `exp(2πi z / n)`. -/
noncomputable def phase (n : ℕ) (z : ℤ) : ℂ := exp (2 * Real.pi * I * z / n)

theorem phase_zero (n : ℕ) : phase n 0 = 1 := by simp [phase]

theorem phase_add (n : ℕ) (a b : ℤ) : phase n (a + b) = phase n a * phase n b := by
  unfold phase; rw [← exp_add]; congr 1; push_cast; ring

theorem phase_ne_zero (n : ℕ) (a : ℤ) : phase n a ≠ 0 := exp_ne_zero _

theorem phase_neg (n : ℕ) (a : ℤ) : phase n (-a) = (starRingEnd ℂ) (phase n a) := by
  unfold phase
  rw [← exp_conj]
  congr 1
  simp only [map_div₀, map_mul, conj_I, conj_ofReal, map_ofNat, map_intCast, map_natCast]
  push_cast; ring

theorem phase_conj (n : ℕ) (a : ℤ) : (starRingEnd ℂ) (phase n a) = phase n (-a) := (phase_neg n a).symm

theorem phase_sub (n : ℕ) (a b : ℤ) : phase n (a - b) = phase n a * (starRingEnd ℂ) (phase n b) := by
  rw [sub_eq_add_neg, phase_add, phase_neg]

theorem phase_mul_self (n : ℕ) (hn : 0 < n) (q : ℤ) : phase n (n * q) = 1 := by
  unfold phase
  have h : (2 * Real.pi * I * ((n * q : ℤ) : ℂ) / n : ℂ) = q * (2 * Real.pi * I) := by
    have : (n : ℂ) ≠ 0 := by exact_mod_cast hn.ne'
    push_cast; field_simp
  rw [h, exp_int_mul_two_pi_mul_I]

theorem phase_congr {n : ℕ} (hn : 0 < n) {a b : ℤ} (h : (n : ℤ) ∣ a - b) : phase n a = phase n b := by
  obtain ⟨q, hq⟩ := h
  have : a = b + n * q := by omega
  rw [this, phase_add, phase_mul_self n hn, mul_one]

theorem phase_emod {n : ℕ} (hn : 0 < n) (a : ℤ) : phase n (a % n) = phase n a :=
  phase_congr hn (Int.dvd_of_emod_eq_zero (by simp [Int.sub_emod]))

theorem phase_mul_scale (n m : ℕ) (hm : 0 < m) (a : ℤ) : phase (m * n) (m * a) = phase n a := by
  unfold phase
  congr 1
  have : (m : ℂ) ≠ 0 := by exact_mod_cast hm.ne'
  push_cast
  by_cases h : (n : ℂ) = 0
  · simp [h]
  · field_simp

theorem phase_mul_nat (n : ℕ) (a : ℤ) (k : ℕ) : phase n (a * k) = phase n a ^ k := by
  unfold phase
  rw [← exp_nat_mul]; congr 1; push_cast; ring

theorem phase_normSq (n : ℕ) (a : ℤ) : phase n a * (starRingEnd ℂ) (phase n a) = 1 := by
  rw [← phase_neg, ← phase_add]; simp [phase_zero]

theorem phase_eq_one_iff {n : ℕ} (hn : 0 < n) (z : ℤ) : phase n z = 1 ↔ (n : ℤ) ∣ z := by
  constructor
  · intro h
    unfold phase at h
    rw [exp_eq_one_iff] at h
    obtain ⟨q, hq⟩ := h
    have hn' : (n : ℂ) ≠ 0 := by exact_mod_cast hn.ne'
    have h2 : (2 * Real.pi * I : ℂ) ≠ 0 := two_pi_I_ne_zero
    have h3 : (z : ℂ) = n * q := by
      have : (2 * Real.pi * I : ℂ) * z = (2 * Real.pi * I) * (n * q) := by
        rw [div_eq_iff hn'] at hq; rw [hq]; ring
      exact mul_left_cancel₀ h2 this
    exact ⟨q, by exact_mod_cast h3⟩
  · rintro ⟨q, rfl⟩; exact phase_mul_self n hn q

/-- Orthogonality of the discrete Fourier basis. -/
theorem sum_phase {n : ℕ} (hn : 0 < n) (z : ℤ) :
    ∑ k ∈ range n, phase n (z * k) = if (n : ℤ) ∣ z then (n : ℂ) else 0 := by
  simp only [phase_mul_nat]
  split
  · rename_i h
    rw [(phase_eq_one_iff hn z).2 h]; simp
  · rename_i h
    have h1 : phase n z ≠ 1 := fun e => h ((phase_eq_one_iff hn z).1 e)
    rw [geom_sum_eq h1]
    have : phase n z ^ n = 1 := by
      rw [← phase_mul_nat, mul_comm]; exact phase_mul_self n hn z
    rw [this, sub_self, zero_div]

theorem sum_phase' {n : ℕ} (hn : 0 < n) (z : ℤ) :
    ∑ k ∈ range n, phase n (k * z) = if (n : ℤ) ∣ z then (n : ℂ) else 0 := by
  rw [← sum_phase hn z]; exact sum_congr rfl fun k _ => by rw [mul_comm]

theorem dvd_sub_iff_eq {n a b : ℕ} (ha : a < n) (hb : b < n) : (n : ℤ) ∣ (a : ℤ) - b ↔ a = b := by
  constructor
  · rintro ⟨q, hq⟩
    have h1 : -(n : ℤ) < n * q := by omega
    have h2 : (n : ℤ) * q < n := by omega
    have hn : (0 : ℤ) < n := by omega
    have : q = 0 := by nlinarith [show q < 1 by nlinarith, show -1 < q by nlinarith]
    subst this; omega
  · rintro rfl; simp

theorem fft_eq (norm : FftNorm) (n : ℕ) (v : ℕ → ℂ) (k : ℕ) :
    fft norm n v k = norm.fftScale n * ∑ j ∈ range n, phase n (-(k * j : ℤ)) * v j := by
  unfold fft phase
  congr 1; apply sum_congr rfl; intro j _
  rw [mul_comm]; congr 2; push_cast; ring

theorem ifft_eq (norm : FftNorm) (n : ℕ) (v : ℕ → ℂ) (k : ℕ) :
    ifft norm n v k = norm.ifftScale n * ∑ j ∈ range n, phase n ((k * j : ℤ)) * v j := by
  unfold ifft phase
  congr 1; apply sum_congr rfl; intro j _
  rw [mul_comm]; congr 2; push_cast; ring

theorem fft_scale_mul (norm : FftNorm) {n : ℕ} (hn : 0 < n) : norm.ifftScale n * norm.fftScale n * n = 1 := by
  have hn' : (n : ℂ) ≠ 0 := by exact_mod_cast hn.ne'
  have hs : (Real.sqrt n : ℂ) * (Real.sqrt n : ℂ) = n := by
    rw [← ofReal_mul, Real.mul_self_sqrt (by positivity)]; simp
  have hs0 : (Real.sqrt n : ℂ) ≠ 0 := by
    intro h; rw [h, mul_zero] at hs; exact hn' hs.symm
  cases norm
  · simp only [FftNorm.ifftScale, FftNorm.fftScale]; field_simp
  · simp only [FftNorm.ifftScale, FftNorm.fftScale]; rw [← hs]; field_simp
  · simp only [FftNorm.ifftScale, FftNorm.fftScale]; field_simp

theorem ifft_fft (norm : FftNorm) {n : ℕ} (v : ℕ → ℂ) {x : ℕ} (hx : x < n) :
    ifft norm n (fft norm n v) x = v x := by
  have hn : 0 < n := by omega
  rw [ifft_eq]
  simp only [fft_eq]
  have h : ∀ k ∈ range n, phase n ((x * k : ℤ)) * (norm.fftScale n *
      ∑ j ∈ range n, phase n (-(k * j : ℤ)) * v j) =
      norm.fftScale n * ∑ j ∈ range n, phase n (((x : ℤ) - j) * k) * v j := by
    intro k _
    rw [mul_left_comm, mul_sum]
    congr 1; apply sum_congr rfl; intro j _
    rw [← mul_assoc, ← phase_add]; congr 2; ring
  rw [sum_congr rfl h, ← mul_sum, sum_comm]
  have h2 : ∀ j ∈ range n, ∑ k ∈ range n, phase n (((x : ℤ) - j) * k) * v j = if x = j then n * v j else 0 := by
    intro j hj
    rw [← sum_mul, sum_phase hn]
    simp only [dvd_sub_iff_eq hx (mem_range.1 hj)]
    split <;> simp
  rw [sum_congr rfl h2, sum_ite_eq, if_pos (mem_range.2 hx), ← mul_assoc, ← mul_assoc, fft_scale_mul norm hn, one_mul]

theorem fft_ifft (norm : FftNorm) {n : ℕ} (v : ℕ → ℂ) {x : ℕ} (hx : x < n) :
    fft norm n (ifft norm n v) x = v x := by
  have hn : 0 < n := by omega
  rw [fft_eq]
  simp only [ifft_eq]
  have h : ∀ k ∈ range n, phase n (-(x * k : ℤ)) * (norm.ifftScale n *
      ∑ j ∈ range n, phase n ((k * j : ℤ)) * v j) =
      norm.ifftScale n * ∑ j ∈ range n, phase n (((j : ℤ) - x) * k) * v j := by
    intro k _
    rw [mul_left_comm, mul_sum]
    congr 1; apply sum_congr rfl; intro j _
    rw [← mul_assoc, ← phase_add]; congr 2; ring
  rw [sum_congr rfl h, ← mul_sum, sum_comm]
  have h2 : ∀ j ∈ range n, ∑ k ∈ range n, phase n (((j : ℤ) - x) * k) * v j = if j = x then n * v j else 0 := by
    intro j hj
    rw [← sum_mul, sum_phase hn]
    simp only [dvd_sub_iff_eq (mem_range.1 hj) hx]
    split <;> simp
  rw [sum_congr rfl h2, sum_ite_eq', if_pos (mem_range.2 hx), ← mul_assoc, ← mul_assoc,
    mul_comm (norm.fftScale n), fft_scale_mul norm hn, one_mul]

theorem ortho_scale_conj (n : ℕ) : (starRingEnd ℂ) (FftNorm.fftScale n .ortho) = FftNorm.fftScale n .ortho := by
  simp [FftNorm.fftScale]

theorem ortho_scale_eq (n : ℕ) : FftNorm.ifftScale n .ortho = FftNorm.fftScale n .ortho := rfl

/-- `fft` with `norm="ortho"` is the adjoint of `ifft`. -/
theorem fft_adjoint (n : ℕ) (v w : ℕ → ℂ) :
    ∑ k ∈ range n, (starRingEnd ℂ) (fft .ortho n v k) * w k =
      ∑ x ∈ range n, (starRingEnd ℂ) (v x) * ifft .ortho n w x := by
  have h1 : ∀ k ∈ range n, (starRingEnd ℂ) (fft .ortho n v k) * w k =
      ∑ x ∈ range n, FftNorm.fftScale n .ortho * ((starRingEnd ℂ) (v x) * (phase n ((x * k : ℤ)) * w k)) := by
    intro k _
    rw [fft_eq, map_mul, ortho_scale_conj, map_sum, mul_assoc, sum_mul, mul_sum]
    apply sum_congr rfl; intro x _
    rw [map_mul, phase_conj, neg_neg, mul_comm (k : ℤ)]; ring
  have h2 : ∀ x ∈ range n, (starRingEnd ℂ) (v x) * ifft .ortho n w x =
      ∑ k ∈ range n, FftNorm.fftScale n .ortho * ((starRingEnd ℂ) (v x) * (phase n ((x * k : ℤ)) * w k)) := by
    intro x _
    rw [ifft_eq, ortho_scale_eq, mul_left_comm, mul_sum, mul_sum]
  rw [sum_congr rfl h1, sum_congr rfl h2, sum_comm]

theorem fft_congr (norm : FftNorm) (n : ℕ) {v w : ℕ → ℂ} (h : ∀ j < n, v j = w j) (k : ℕ) :
    fft norm n v k = fft norm n w k := by
  unfold fft; congr 1; exact sum_congr rfl fun j hj => by rw [h j (mem_range.1 hj)]

theorem ifft_congr (norm : FftNorm) (n : ℕ) {v w : ℕ → ℂ} (h : ∀ j < n, v j = w j) (k : ℕ) :
    ifft norm n v k = ifft norm n w k := by
  unfold ifft; congr 1; exact sum_congr rfl fun j hj => by rw [h j (mem_range.1 hj)]

end Verif
