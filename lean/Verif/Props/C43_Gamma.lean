import Verif.Model.Isf
import Verif.Lemmas.Eigen
import Mathlib.Tactic.Ring
import Mathlib.Tactic.FieldSimp
import Mathlib.Tactic.Positivity
import Mathlib.Tactic.LinearCombination
import Mathlib.Tactic.Linarith
import Mathlib.Tactic.NormNum

/-! # C43: Fermi occupation, C86: screened Coulomb potential and gamma integral, C87: rate decomposition -/

set_option autoImplicit false

namespace Verif

open Finset Spec

/-! ## C43 -/

/-- **C43.** The occupation is strictly between zero and one. -/
theorem C43_range (hbar me k kf kT : ℝ) :
    0 < fermiOccupation hbar me k kf kT ∧ fermiOccupation hbar me k kf kT < 1 := by
  unfold fermiOccupation
  have := Real.exp_pos (getDeltaE hbar me k kf / kT)
  refine ⟨by positivity, ?_⟩
  rw [div_lt_one (by positivity)]
  linarith

/-- **C43.** At positive temperature the occupation is smaller at larger energy. -/
theorem C43_decreasing {hbar me kT : ℝ} (hh : hbar ≠ 0) (hm : 0 < me) (hT : 0 < kT) (kf : ℝ) {k k' : ℝ}
    (h : |k| < |k'|) : fermiOccupation hbar me k' kf kT < fermiOccupation hbar me k kf kT := by
  unfold fermiOccupation
  have h1 : k ^ 2 < k' ^ 2 := sq_lt_sq.2 h
  have h2 : getDeltaE hbar me k kf / kT < getDeltaE hbar me k' kf / kT := by
    apply div_lt_div_of_pos_right _ hT
    unfold getDeltaE
    have : (hbar * k) ^ 2 / (2 * me) < (hbar * k') ^ 2 / (2 * me) := by
      apply div_lt_div_of_pos_right _ (by positivity)
      rw [mul_pow, mul_pow]
      exact mul_lt_mul_of_pos_left h1 (by positivity)
    linarith
  exact one_div_lt_one_div_of_lt (by positivity) (by linarith [Real.exp_lt_exp.2 h2])

/-- **C43.** Particles and holes: states at opposite energies about the Fermi energy have occupations adding to one, and
the occupation at the Fermi energy is one half. -/
theorem C43_particle_hole (hbar me kf kT : ℝ) {k k' : ℝ}
    (h : (hbar * k) ^ 2 / (2 * me) + (hbar * k') ^ 2 / (2 * me) = 2 * ((hbar * kf) ^ 2 / (2 * me))) :
    fermiOccupation hbar me k kf kT + fermiOccupation hbar me k' kf kT = 1 ∧
      fermiOccupation hbar me kf kf kT = 1 / 2 := by
  unfold fermiOccupation
  refine ⟨?_, by unfold getDeltaE; norm_num⟩
  have e : getDeltaE hbar me k' kf / kT = -(getDeltaE hbar me k kf / kT) := by
    rw [← neg_div]; congr 1; unfold getDeltaE; linarith
  rw [e, Real.exp_neg]
  have := Real.exp_pos (getDeltaE hbar me k kf / kT)
  field_simp
  ring

/-- **C43.** The state an electron is scattered to has the energy of its state plus the energy transfer. -/
theorem C43_energy {hbar me : ℝ} (hh : hbar ≠ 0) (hm : me ≠ 0) {k omega : ℝ} (h : 0 ≤ k ^ 2 + 2 * me * omega / hbar ^ 2) :
    getDeltaE hbar me (scatteredK hbar me k omega) k = omega := by
  unfold getDeltaE scatteredK
  rw [mul_pow, Real.sq_sqrt h]
  field_simp
  ring

theorem fermi_balance (hbar me k kf kT : ℝ) :
    1 - fermiOccupation hbar me k kf kT = Real.exp (getDeltaE hbar me k kf / kT) * fermiOccupation hbar me k kf kT := by
  unfold fermiOccupation
  have := Real.exp_pos (getDeltaE hbar me k kf / kT)
  field_simp
  ring

/-- **C43.** Detailed balance: the rate factor for the transfer of an energy `omega` from a state is `exp(omega / kT)` times
the factor for the opposite transfer from the state reached, which leads back. -/
theorem C43_detailed_balance {hbar me : ℝ} (hh : hbar ≠ 0) (hm : me ≠ 0) (kf kT : ℝ) {k omega : ℝ} (hk : 0 ≤ k)
    (h : 0 ≤ k ^ 2 + 2 * me * omega / hbar ^ 2) :
    scatteredK hbar me (scatteredK hbar me k omega) (-omega) = k ∧
      occupationIntegrand hbar me k omega kf kT =
        Real.exp (omega / kT) * occupationIntegrand hbar me (scatteredK hbar me k omega) (-omega) kf kT := by
  have back : scatteredK hbar me (scatteredK hbar me k omega) (-omega) = k := by
    unfold scatteredK
    rw [Real.sq_sqrt h]
    have : k ^ 2 + 2 * me * omega / hbar ^ 2 + 2 * me * -omega / hbar ^ 2 = k ^ 2 := by ring
    rw [this, Real.sqrt_sq hk]
  refine ⟨back, ?_⟩
  unfold occupationIntegrand
  rw [back, fermi_balance, fermi_balance hbar me k]
  have e : getDeltaE hbar me (scatteredK hbar me k omega) kf / kT = omega / kT + getDeltaE hbar me k kf / kT := by
    rw [← add_div]
    congr 1
    have := C43_energy hh hm h
    unfold getDeltaE at this ⊢
    linarith
  rw [e, Real.exp_add]
  ring

/-- **C43.** The occupation integral lies between zero and the length of the integration range. -/
theorem C43_integral {hbar me kf kT : ℝ} (hm : 0 < me) (hkf : 0 < kf) (hT : 0 < kT) (omega : ℝ) :
    0 ≤ occupationIntegral hbar me omega kf kT ∧
      occupationIntegral hbar me omega kf kT ≤ 40 * (2 * kT * me / (hbar ^ 2 * kf)) := by
  unfold occupationIntegral
  have hd : 0 ≤ 2 * kT * me / (hbar ^ 2 * kf) := by positivity
  have hr (k : ℝ) : 0 ≤ occupationIntegrand hbar me k omega kf kT ∧ occupationIntegrand hbar me k omega kf kT ≤ 1 := by
    have a := C43_range hbar me k kf kT
    have b := C43_range hbar me (scatteredK hbar me k omega) kf kT
    unfold occupationIntegrand
    exact ⟨mul_nonneg a.1.le (by linarith), mul_le_one₀ a.2.le (by linarith) (by linarith)⟩
  refine ⟨intervalIntegral.integral_nonneg (by linarith) fun k _ => (hr k).1, ?_⟩
  have := intervalIntegral.norm_integral_le_of_norm_le_const
    (a := kf - 20 * (2 * kT * me / (hbar ^ 2 * kf))) (b := kf + 20 * (2 * kT * me / (hbar ^ 2 * kf))) (C := 1)
    (f := fun k => occupationIntegrand hbar me k omega kf kT) fun k _ => by
      rw [Real.norm_eq_abs, abs_of_nonneg (hr k).1]; exact (hr k).2
  refine (le_abs_self _).trans (this.trans (le_of_eq ?_))
  rw [one_mul, abs_of_nonneg (by linarith)]
  ring

example : fermiOccupation 1 1 2 1 1 < fermiOccupation 1 1 0 1 1 :=
  C43_decreasing one_ne_zero one_pos one_pos 1 (by norm_num)

/-! ## C86 -/

/-- **C86.** The two branches of the potential agree to fourth order in the momentum transfer: where the code switches
(at `|q| = 1e-8 α`) they differ by less than `4e-32` of the size of the potential. -/
theorem C86_branches {hbar me e eps : ℝ} (hh : 0 < hbar) (hm : 0 < me) (he : 0 < e) (hp : 0 < eps) {q : ℝ} (hq : q ≠ 0) :
    |coulombFull hbar me e eps q - coulombSmall hbar me e eps q| ≤
      4 * (q / coulombAlpha hbar me e eps) ^ 4 * (e ^ 2 / (eps * coulombAlpha hbar me e eps ^ 2)) := by
  have ha : 0 < coulombAlpha hbar me e eps := by unfold coulombAlpha; positivity
  unfold coulombFull coulombSmall
  set a := coulombAlpha hbar me e eps
  set c := e ^ 2 / (eps * a ^ 2) with hc
  have hc0 : 0 < c := by positivity
  set s := q / a with hs
  have hs0 : s ≠ 0 := div_ne_zero hq ha.ne'
  have hqs : q = s * a := by rw [hs]; field_simp
  have e1 : e ^ 2 / (eps * q ^ 2) = c / s ^ 2 := by rw [hqs, hc]; field_simp
  have e2 : c / s ^ 2 * ((1 / (1 + s ^ 2)) ^ 2 - 1) - -2 * c * (1 - 3 / 2 * s ^ 2) =
      -(s ^ 4 * ((4 + 3 * s ^ 2) / (1 + s ^ 2) ^ 2) * c) := by
    field_simp
    ring
  rw [e1, e2, abs_neg, abs_of_nonneg (by positivity)]
  apply mul_le_mul_of_nonneg_right _ hc0.le
  rw [mul_comm 4]
  apply mul_le_mul_of_nonneg_left _ (by positivity)
  rw [div_le_iff₀ (by positivity)]
  nlinarith [sq_nonneg s, sq_nonneg (s ^ 2)]

/-- **C86.** The potential is even and attractive, and at most `2 e² / (ε α²)` in size. -/
theorem C86_potential {hbar me e eps : ℝ} (hh : 0 < hbar) (hm : 0 < me) (he : 0 < e) (hp : 0 < eps) (q : ℝ) :
    coulombPotential hbar me e eps (-q) = coulombPotential hbar me e eps q ∧ coulombPotential hbar me e eps q < 0 ∧
      -(2 * (e ^ 2 / (eps * coulombAlpha hbar me e eps ^ 2))) ≤ coulombPotential hbar me e eps q := by
  have ha : 0 < coulombAlpha hbar me e eps := by unfold coulombAlpha; positivity
  refine ⟨?_, ?_⟩
  · unfold coulombPotential coulombSmall coulombFull
    rw [neg_div, abs_neg, neg_sq, neg_sq]
  · unfold coulombPotential
    split_ifs with h
    · unfold coulombSmall
      set a := coulombAlpha hbar me e eps
      have h2 : (q / a) ^ 2 ≤ 1 / 2 := by
        rw [← sq_abs]
        nlinarith [abs_nonneg (q / a)]
      have hc0 : 0 < e ^ 2 / (eps * a ^ 2) := by positivity
      constructor <;> nlinarith [sq_nonneg (q / a)]
    · unfold coulombFull
      set a := coulombAlpha hbar me e eps
      have hq : q ≠ 0 := by rintro rfl; apply h; simp; norm_num
      set c := e ^ 2 / (eps * a ^ 2) with hc
      have hc0 : 0 < c := by positivity
      set s := q / a with hs
      have hs0 : s ≠ 0 := div_ne_zero hq ha.ne'
      have hs2 : 0 < s ^ 2 := by positivity
      have hqs : q = s * a := by rw [hs]; field_simp
      have e1 : e ^ 2 / (eps * q ^ 2) = c / s ^ 2 := by rw [hqs, hc]; field_simp
      have e2 : c / s ^ 2 * ((1 / (1 + s ^ 2)) ^ 2 - 1) = -(c * ((2 + s ^ 2) / (1 + s ^ 2) ^ 2)) := by
        field_simp
        ring
      rw [e1, e2]
      refine ⟨neg_lt_zero.2 (by positivity), ?_⟩
      rw [neg_le_neg_iff, mul_comm 2]
      apply mul_le_mul_of_nonneg_left _ hc0.le
      rw [div_le_iff₀ (by positivity)]
      nlinarith

/-- **C86.** The gamma integral of the complex conjugate of an overlap is the complex conjugate of the gamma integral, it is
linear in real factors, and it is real and not negative for a non-negative overlap. -/
theorem C86_gamma {hbar me e eps kf kT : ℝ} (hh : 0 < hbar) (hm : 0 < me) (hkf : 0 < kf) (hT : 0 < kT) (omega : ℝ)
    (overlap : ℝ → ℂ) (c : ℝ) :
    realGammaIntegral hbar me e eps omega kf kT (fun q => (starRingEnd ℂ) (overlap q)) =
        (starRingEnd ℂ) (realGammaIntegral hbar me e eps omega kf kT overlap) ∧
      realGammaIntegral hbar me e eps omega kf kT (fun q => c * overlap q) =
        c * realGammaIntegral hbar me e eps omega kf kT overlap ∧
      ((∀ q, (overlap q).im = 0 ∧ 0 ≤ (overlap q).re) →
        (realGammaIntegral hbar me e eps omega kf kT overlap).im = 0 ∧
          0 ≤ (realGammaIntegral hbar me e eps omega kf kT overlap).re) := by
  have hval (o : ℝ → ℂ) (phi : ℝ) : hoppingIntegrand hbar me e eps kf o phi =
      ((gammaPrefactor hbar me kf * Real.sin phi * coulombPotential hbar me e eps (kf * Real.sin (phi / 2)) ^ 2 : ℝ) : ℂ) *
        o (kf * Real.sin (phi / 2)) := by
    unfold hoppingIntegrand; push_cast; ring
  have hpre : 0 ≤ gammaPrefactor hbar me kf := by
    unfold gammaPrefactor
    have := Real.pi_pos
    positivity
  have hocc := (C43_integral (hbar := hbar) hm hkf hT omega).1
  refine ⟨?_, ?_, ?_⟩
  · unfold realGammaIntegral potentialIntegral
    have h1 (phi : ℝ) : (hoppingIntegrand hbar me e eps kf (fun q => (starRingEnd ℂ) (overlap q)) phi).re =
        (hoppingIntegrand hbar me e eps kf overlap phi).re := by
      rw [hval, hval, Complex.re_ofReal_mul, Complex.re_ofReal_mul, Complex.conj_re]
    have h2 (phi : ℝ) : (hoppingIntegrand hbar me e eps kf (fun q => (starRingEnd ℂ) (overlap q)) phi).im =
        -(hoppingIntegrand hbar me e eps kf overlap phi).im := by
      rw [hval, hval, Complex.im_ofReal_mul, Complex.im_ofReal_mul, Complex.conj_im, mul_neg]
    simp only [h1, h2, intervalIntegral.integral_neg]
    rw [map_mul, map_add, map_mul, Complex.conj_I, Complex.conj_ofReal, Complex.conj_ofReal, Complex.conj_ofReal]
    push_cast
    ring
  · unfold realGammaIntegral potentialIntegral
    have h1 (phi : ℝ) : (hoppingIntegrand hbar me e eps kf (fun q => c * overlap q) phi).re =
        c * (hoppingIntegrand hbar me e eps kf overlap phi).re := by
      rw [hval, hval, Complex.re_ofReal_mul, Complex.re_ofReal_mul, Complex.re_ofReal_mul]; ring
    have h2 (phi : ℝ) : (hoppingIntegrand hbar me e eps kf (fun q => c * overlap q) phi).im =
        c * (hoppingIntegrand hbar me e eps kf overlap phi).im := by
      rw [hval, hval, Complex.im_ofReal_mul, Complex.im_ofReal_mul, Complex.im_ofReal_mul]; ring
    simp only [h1, h2, intervalIntegral.integral_const_mul]
    push_cast
    ring
  · intro ho
    unfold realGammaIntegral potentialIntegral
    have h2 (phi : ℝ) : (hoppingIntegrand hbar me e eps kf overlap phi).im = 0 := by
      rw [hval, Complex.im_ofReal_mul, (ho _).1, mul_zero]
    simp only [h2, intervalIntegral.integral_zero, Complex.ofReal_zero, mul_zero, add_zero]
    rw [← Complex.ofReal_mul, Complex.ofReal_im, Complex.ofReal_re]
    refine ⟨rfl, mul_nonneg (intervalIntegral.integral_nonneg Real.pi_pos.le fun phi hphi => ?_) hocc⟩
    rw [hval, Complex.re_ofReal_mul]
    have := Real.sin_nonneg_of_nonneg_of_le_pi hphi.1 hphi.2
    exact mul_nonneg (by positivity) (ho _).2

example : coulombPotential 1 1 1 1 0 < 0 := (C86_potential one_pos one_pos one_pos one_pos 0).2.1

/-- **C86.** In terms of the Bohr radius `a₀`, given by `a₀ e² mₑ = 4π ε ħ²`: the potential is `e² / (ε q²) ((1 + (q a₀ / 2)²)⁻² - 1)` for all momenta but
the smallest, and `-e² a₀² / (2 ε)` without momentum transfer; and the gamma integral is the integral over the angles of scattering of
`4 mₑ (k_F / (2π ħ))³ sin φ V² overlap`, at the momentum transfer `k_F sin (φ / 2)`, times the integral of the occupations. -/
theorem C86_value {hbar me e eps a0 : ℝ} (hh : 0 < hbar) (hm : 0 < me) (he : 0 < e) (hp : 0 < eps)
    (h0 : a0 * (e ^ 2 * me) = 4 * Real.pi * eps * hbar ^ 2) (omega kf kT : ℝ) (overlap : ℝ → ℂ) :
    ∃ V : ℝ → ℝ, (∀ q, 1e-8 < |q * a0 / 2| → V q = e ^ 2 / (eps * q ^ 2) * ((1 / (1 + (q * a0 / 2) ^ 2)) ^ 2 - 1)) ∧
      V 0 = -(e ^ 2 * a0 ^ 2 / (2 * eps)) ∧ (∀ q, V q = coulombPotential hbar me e eps q) ∧
      ∃ F : ℝ → ℂ, (∀ phi, F phi = ((4 * me * (kf / (2 * Real.pi * hbar)) ^ 3 * Real.sin phi * V (kf * Real.sin (phi / 2)) ^ 2 : ℝ) : ℂ) *
          overlap (kf * Real.sin (phi / 2))) ∧
        realGammaIntegral hbar me e eps omega kf kT overlap =
          (((∫ phi in (0 : ℝ)..Real.pi, (F phi).re : ℝ) : ℂ) + Complex.I * ((∫ phi in (0 : ℝ)..Real.pi, (F phi).im : ℝ) : ℂ)) *
            (occupationIntegral hbar me omega kf kT : ℂ) := by
  have hpi := Real.pi_pos
  have ha : a0 = 4 * Real.pi * eps * hbar ^ 2 / (e ^ 2 * me) := by rw [← h0]; field_simp
  have hal : coulombAlpha hbar me e eps = 2 / a0 := by rw [coulombAlpha, ← ha]
  have hpos : 0 < a0 := by rw [ha]; positivity
  have hq : ∀ q, q / coulombAlpha hbar me e eps = q * a0 / 2 := fun q => by rw [hal]; field_simp
  refine ⟨coulombPotential hbar me e eps, fun q h => ?_, ?_, fun _ => rfl, hoppingIntegrand hbar me e eps kf overlap, fun phi => ?_, rfl⟩
  · rw [coulombPotential, hq, if_neg (not_le.2 h), coulombFull, hq]
  · rw [coulombPotential, hq, if_pos (by norm_num), coulombSmall, hq, hal]
    field_simp
    ring
  · simp only [hoppingIntegrand, gammaPrefactor]
    push_cast
    congr 3
    field_simp

/-- A Bohr radius which is not zero. -/
example : (4 * Real.pi) * ((1 : ℝ) ^ 2 * 1) = 4 * Real.pi * 1 * 1 ^ 2 := by ring

/-! ## C87 -/

/-- **C87.** The coefficients are those of the initial distribution in the eigenvectors of the rate matrix. -/
theorem C87_coefficients_partial {n : ℕ} (M : Matrix (Fin n) (Fin n) ℂ) (r : EigResult)
    (hr : IsEig n M r.eigenvalues r.vectors) (initial : Fin n → ℂ) (i : Fin n) :
    ∑ j : Fin n, (getRateDecomposition r initial).coefficients j * r.vectors i j = initial i := by
  have h : (vecMatrix n r.vectors).mulVec ((vecMatrix n r.vectors)⁻¹.mulVec initial) = initial := by
    rw [Matrix.mulVec_mulVec, Matrix.mul_nonsing_inv _ hr.isUnit_det, Matrix.one_mulVec]
  have h2 := congrFun h i
  rw [← h2, Matrix.mulVec, dotProduct]
  exact sum_congr rfl fun j _ => mul_comm _ _

/-- A diagonal rate matrix with the unit vectors. -/
example : ∃ (M : Matrix (Fin 2) (Fin 2) ℂ) (r : EigResult), IsEig 2 M r.eigenvalues r.vectors ∧ M ≠ 0 := by
  refine ⟨Matrix.diagonal fun i => -(i : ℂ), ⟨fun j => -(j : ℂ), fun i j => if i = j then 1 else 0⟩, ?_, fun h => ?_⟩
  · refine ⟨fun j hj i => ?_, fun c hc => ?_⟩
    · interval_cases j <;> fin_cases i <;> simp [Fin.sum_univ_two]
    · ext i
      have := hc i
      fin_cases i <;> simpa [Fin.sum_univ_two] using this
  · simpa using congrFun (congrFun h 1) 1

/-- **C87** is false of the code: the field called `eigenvalues` holds the components of the eigenvectors: for two or more
states it does not even have one entry for each coefficient, and its first entries are the components of the first
eigenvector. -/
theorem C87_negation {n : ℕ} (hn : 2 ≤ n) (r : EigResult) (initial : Fin n → ℂ) :
    (getRateDecomposition r initial).length ≠ n ∧ ∀ i < n, (getRateDecomposition r initial).eigenvalues i = r.vectors i 0 := by
  unfold getRateDecomposition calculateTunnellingEigenstates
  refine ⟨fun h => ?_, fun i hi => ?_⟩
  · have : n * n = n * 1 := by simpa using h
    have := Nat.eq_of_mul_eq_mul_left (by omega) this
    omega
  · dsimp only
    rw [Nat.mod_eq_of_lt hi, Nat.div_eq_of_lt hi]

end Verif
