import Verif.Model.Generator
import Verif.Model.Sho
import Verif.Model.ExplicitZ
import Verif.Lemmas.Vnorm
import Verif.Lemmas.Dft
import Mathlib.Tactic.FieldSimp
import Mathlib.Tactic.LinearCombination

/-!
C95: the origin of the oscillator basis. C96: Bloch's theorem for the wavefunctions of the generator.
C97: the potential normal to the surface at the minimum.
-/

set_option autoImplicit false

namespace Verif

open Matrix

theorem unit_dot (v w : Fin 3 → ℝ) : (fun i => v i / vnorm v) ⬝ᵥ w = (v ⬝ᵥ w) / vnorm v := by
  simp only [dotProduct, Finset.sum_div]
  exact Finset.sum_congr rfl fun i _ => by ring

/-- **C95** (what the code gives): the distances are equally spaced by the length of one step, and they vanish where the position along the axis
is minus the projection of the origin. They vanish at the origin itself only if that projection is zero, see `C95_origin_negation`. -/
theorem C95_distances_partial (deltaX : Fin 3 → ℝ) (hd : deltaX ≠ 0) (n : ℕ) (origin : Fin 3 → ℝ) :
    (∀ x : ℕ, calculateXDistances deltaX n origin (x + 1) - calculateXDistances deltaX n origin x = vnorm deltaX / n) ∧
    (∀ (x : ℕ), (fun i => deltaX i / n * x) = -origin → calculateXDistances deltaX n origin x = 0) ∧
    (deltaX ⬝ᵥ origin = 0 → calculateXDistances deltaX n origin 0 = 0) := by
  have hp := vnorm_pos hd
  have hsq : deltaX ⬝ᵥ deltaX = vnorm deltaX * vnorm deltaX := by
    rw [vnorm, Real.mul_self_sqrt]
    simpa [dotProduct] using Finset.sum_nonneg fun i _ => mul_self_nonneg (deltaX i)
  have hlin : ∀ x : ℕ, calculateXDistances deltaX n origin x = vnorm deltaX / n * x + (deltaX ⬝ᵥ origin) / vnorm deltaX := by
    intro x
    have : (fun i => deltaX i / n * x) = ((x : ℝ) / n) • deltaX := by
      funext i; simp only [Pi.smul_apply, smul_eq_mul]; ring
    rw [calculateXDistances, unit_dot, unit_dot, this, dotProduct_smul, hsq, smul_eq_mul]
    congr 1
    field_simp
  refine ⟨fun x => ?_, fun x hx => ?_, fun h => ?_⟩
  · rw [hlin, hlin]; push_cast; ring
  · rw [calculateXDistances, hx]
    simp
  · rw [hlin, h]; simp

/-- **C95** fails: at the grid point which is the configured origin the distance is not zero. -/
theorem C95_origin_negation : ∃ (deltaX origin : Fin 3 → ℝ) (n x : ℕ), deltaX ≠ 0 ∧ x < n ∧ (fun i => deltaX i / n * x) = origin ∧
    calculateXDistances deltaX n origin x = 10 := by
  have hn : vnorm (![0, 0, 10] : Fin 3 → ℝ) = 10 := by
    rw [vnorm, show (![0, 0, 10] : Fin 3 → ℝ) ⬝ᵥ ![0, 0, 10] = 10 ^ 2 by simp [dotProduct, Fin.sum_univ_three]; norm_num, Real.sqrt_sq (by norm_num)]
  refine ⟨![0, 0, 10], ![0, 0, 5], 10, 5, ?_, by norm_num, ?_, ?_⟩
  · intro h; have := congrFun h 2; simp at this
  · funext i; fin_cases i <;> simp <;> norm_num
  · rw [calculateXDistances, unit_dot, unit_dot, hn]
    simp [dotProduct, Fin.sum_univ_three]
    norm_num

/-- The reciprocal vectors of the generator are dual to the lattice vectors. -/
theorem C96_dual (dx0 dx1 : ℝ × ℝ) (h : dx0.1 * dx1.2 - dx0.2 * dx1.1 ≠ 0) :
    (generatorDkx0 dx0 dx1).1 * dx0.1 + (generatorDkx0 dx0 dx1).2 * dx0.2 = 2 * Real.pi ∧
    (generatorDkx0 dx0 dx1).1 * dx1.1 + (generatorDkx0 dx0 dx1).2 * dx1.2 = 0 ∧
    (generatorDkx1 dx0 dx1).1 * dx0.1 + (generatorDkx1 dx0 dx1).2 * dx0.2 = 0 ∧
    (generatorDkx1 dx0 dx1).1 * dx1.1 + (generatorDkx1 dx0 dx1).2 * dx1.2 = 2 * Real.pi := by
  have h1 : dkPrefactor dx0 dx1 * (dx0.1 * dx1.2 - dx0.2 * dx1.1) = 2 * Real.pi := div_mul_cancel₀ _ h
  simp only [generatorDkx0, generatorDkx1]
  refine ⟨?_, by ring, by ring, ?_⟩ <;> linear_combination h1

/-- **C96**: Bloch's theorem. Moving by any lattice vector multiplies the wavefunction by the Bloch phase. -/
theorem C96_bloch (hbar omega mass : ℝ) (dx0 dx1 : ℝ × ℝ) (h : dx0.1 * dx1.2 - dx0.2 * dx1.1 ≠ 0) (kx ky : ℝ) (r0 r1 r2 : ℕ) (vector : List ℂ)
    (a b : ℤ) (x y z : ℝ) :
    eigenstateWavefunction hbar omega mass dx0 dx1 kx ky r0 r1 r2 vector (x + (a * dx0.1 + b * dx1.1), y + (a * dx0.2 + b * dx1.2), z) =
      Complex.exp (Complex.I * ((kx * (a * dx0.1 + b * dx1.1) + ky * (a * dx0.2 + b * dx1.2) : ℝ) : ℂ)) *
        eigenstateWavefunction hbar omega mass dx0 dx1 kx ky r0 r1 r2 vector (x, y, z) := by
  obtain ⟨d1, d2, d3, d4⟩ := C96_dual dx0 dx1 h
  rw [eigenstateWavefunction, eigenstateWavefunction, ← List.sum_map_mul_left]
  congr 1
  refine List.map_congr_left fun ec _ => ?_
  have hI : ∀ t : ℝ, (⟨0, t⟩ : ℂ) = Complex.I * (t : ℂ) := fun t => by apply Complex.ext <;> simp
  rw [hI, hI]
  obtain ⟨p, q⟩ : ∃ p : ℤ, p = ec.2.1 * a + ec.2.2.1 * b := ⟨_, rfl⟩
  have hsplit : Complex.exp (Complex.I * ((((ec.2.1 : ℝ) * (generatorDkx0 dx0 dx1).1 + (ec.2.2.1 : ℝ) * (generatorDkx1 dx0 dx1).1 + kx) * (x + (a * dx0.1 + b * dx1.1)) +
        ((ec.2.1 : ℝ) * (generatorDkx0 dx0 dx1).2 + (ec.2.2.1 : ℝ) * (generatorDkx1 dx0 dx1).2 + ky) * (y + (a * dx0.2 + b * dx1.2)) : ℝ) : ℂ)) =
      Complex.exp (Complex.I * ((kx * (a * dx0.1 + b * dx1.1) + ky * (a * dx0.2 + b * dx1.2) : ℝ) : ℂ)) *
      Complex.exp (Complex.I * ((((ec.2.1 : ℝ) * (generatorDkx0 dx0 dx1).1 + (ec.2.2.1 : ℝ) * (generatorDkx1 dx0 dx1).1 + kx) * x +
        ((ec.2.1 : ℝ) * (generatorDkx0 dx0 dx1).2 + (ec.2.2.1 : ℝ) * (generatorDkx1 dx0 dx1).2 + ky) * y : ℝ) : ℂ)) := by
    have hp : Complex.exp ((p : ℂ) * (2 * Real.pi * Complex.I)) = 1 := Complex.exp_int_mul_two_pi_mul_I p
    rw [← Complex.exp_add, ← mul_one (Complex.exp (_ + _)), ← hp, ← Complex.exp_add]
    congr 1
    have hr : ((ec.2.1 : ℝ) * (generatorDkx0 dx0 dx1).1 + (ec.2.2.1 : ℝ) * (generatorDkx1 dx0 dx1).1 + kx) * (x + (a * dx0.1 + b * dx1.1)) +
        ((ec.2.1 : ℝ) * (generatorDkx0 dx0 dx1).2 + (ec.2.2.1 : ℝ) * (generatorDkx1 dx0 dx1).2 + ky) * (y + (a * dx0.2 + b * dx1.2)) =
        (kx * (a * dx0.1 + b * dx1.1) + ky * (a * dx0.2 + b * dx1.2)) +
        (((ec.2.1 : ℝ) * (generatorDkx0 dx0 dx1).1 + (ec.2.2.1 : ℝ) * (generatorDkx1 dx0 dx1).1 + kx) * x +
        ((ec.2.1 : ℝ) * (generatorDkx0 dx0 dx1).2 + (ec.2.2.1 : ℝ) * (generatorDkx1 dx0 dx1).2 + ky) * y) + (p : ℝ) * (2 * Real.pi) := by
      rw [q]; push_cast
      linear_combination (ec.2.1 : ℝ) * a * d1 + (ec.2.1 : ℝ) * b * d2 + (ec.2.2.1 : ℝ) * a * d3 + (ec.2.2.1 : ℝ) * b * d4
    rw [hr]; push_cast; ring
  dsimp only
  rw [hsplit]; ring

/-- A hexagonal lattice. -/
example : (1 : ℝ) * (Real.sqrt 3 / 2) - 0 * (1 / 2) ≠ 0 := by
  have : 0 < Real.sqrt 3 := Real.sqrt_pos.2 (by norm_num)
  intro h; linarith

/-- **C97**: the result is the potential along the line normal to the surface through a global minimum: it has the length of the third lattice
vector of a standard lattice, and its own minimum is the global one. -/
theorem C97_minimum (A : Matrix (Fin 3) (Fin 3) ℝ) (h20 : A 2 0 = 0) (h21 : A 2 1 = 0) (hA : 0 ≤ A 2 2) (n0 n1 nz : ℕ) (V : ℕ → ℝ) (argmin : ℕ)
    (hlt : argmin < n0 * n1 * nz) (hmin : ∀ p < n0 * n1 * nz, V argmin ≤ V p) :
    (selectMinimumPotential A n1 nz V argmin).1 = vnorm (A 2) ∧
    (∃ x0 < n0, ∃ x1 < n1, ∀ z < nz, (selectMinimumPotential A n1 nz V argmin).2 z = V ((x0 * n1 + x1) * nz + z)) ∧
    ∃ z < nz, ∀ p < n0 * n1 * nz, (selectMinimumPotential A n1 nz V argmin).2 z ≤ V p := by
  have hz : 0 < nz := Nat.pos_of_ne_zero fun h => by rw [h] at hlt; omega
  have h1 : 0 < n1 := Nat.pos_of_ne_zero fun h => by rw [h] at hlt; omega
  refine ⟨?_, ⟨argmin / (n1 * nz), ?_, argmin / nz % n1, Nat.mod_lt _ h1, fun z _ => rfl⟩, argmin % nz, Nat.mod_lt _ hz, fun p hp => ?_⟩
  · rw [vnorm]
    have : A 2 ⬝ᵥ A 2 = A 2 2 ^ 2 := by
      simp only [dotProduct, Fin.sum_univ_three, h20, h21]; ring
    rw [this, Real.sqrt_sq hA]; rfl
  · exact Nat.div_lt_of_lt_mul (by rw [mul_comm, ← mul_assoc]; exact hlt)
  · have : (argmin / (n1 * nz) * n1 + argmin / nz % n1) * nz + argmin % nz = argmin := by
      rw [mul_comm n1, ← Nat.div_div_eq_div_mul, Nat.div_add_mod', Nat.div_add_mod']
    show V ((argmin / (n1 * nz) * n1 + argmin / nz % n1) * nz + argmin % nz) ≤ V p
    rw [this]; exact hmin p hp

example : ∃ argmin < 2 * 3 * 4, ∀ p < 2 * 3 * 4, ((argmin : ℝ) - 7) ^ 2 ≤ ((p : ℝ) - 7) ^ 2 :=
  ⟨7, by norm_num, fun p _ => by norm_num; positivity⟩

/-- **C95** (what the code gives): the potential of the configuration is the harmonic potential with the given mass and frequency, at the position
along the axis plus the projection of the origin. -/
theorem C95_potential_partial (mass omega : ℝ) (deltaX : Fin 3 → ℝ) (hd : deltaX ≠ 0) (n : ℕ) (origin : Fin 3 → ℝ) (x : ℕ) :
    shoPotentialData mass omega deltaX n origin x =
      ((mass * omega ^ 2 / 2 * (vnorm deltaX / n * x + (deltaX ⬝ᵥ origin) / vnorm deltaX) ^ 2 : ℝ) : ℂ) := by
  have hp := vnorm_pos hd
  have hsq : deltaX ⬝ᵥ deltaX = vnorm deltaX * vnorm deltaX := by
    rw [vnorm, Real.mul_self_sqrt]
    simpa [dotProduct] using Finset.sum_nonneg fun i _ => mul_self_nonneg (deltaX i)
  have : (fun i => deltaX i / n * x) = ((x : ℝ) / n) • deltaX := by
    funext i; simp only [Pi.smul_apply, smul_eq_mul]; ring
  have hlin : calculateXDistances deltaX n origin x = vnorm deltaX / n * x + (deltaX ⬝ᵥ origin) / vnorm deltaX := by
    rw [calculateXDistances, unit_dot, unit_dot, this, dotProduct_smul, hsq, smul_eq_mul]
    congr 1
    field_simp
  unfold shoPotentialData
  rw [hlin]
  congr 1
  ring

/-- An axis which is not along a coordinate and an origin with a projection on it. -/
example : ∃ deltaX origin : Fin 3 → ℝ, deltaX ≠ 0 ∧ deltaX ⬝ᵥ origin ≠ 0 :=
  ⟨![3, 0, 4], ![1, 1, 1], fun h => by simpa using congrFun h 0, by simp [dotProduct, Fin.sum_univ_three]; norm_num⟩

end Verif
