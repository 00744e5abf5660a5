import Verif.Model.ShoSubtracted
import Verif.Props.C94_ExplicitZ
import Verif.Props.C93_Oscillator
import Verif.Props.C95_ShoBasis

/-!
C151: the hamiltonian in a basis with oscillator states normal to the surface.
-/

set_option autoImplicit false

namespace Verif

open Finset Spec Matrix

/-- The distances along an axis in the direction of `z`. -/
theorem distances_normal (A : Matrix (Fin 3) (Fin 3) ℝ) (h20 : A 2 0 = 0) (h21 : A 2 1 = 0) (h22 : 0 < A 2 2) (nz : ℕ) (origin : Fin 3 → ℝ) (z : ℕ) :
    vnorm (A 2) = A 2 2 ∧ shoDz A nz = A 2 2 / nz ∧ calculateXDistances (A 2) nz origin z = A 2 2 / nz * z + origin 2 := by
  have h1 : vnorm (A 2) = A 2 2 := by
    rw [vnorm, dotProduct, Fin.sum_univ_three, h20, h21]
    simp only [mul_zero, zero_add, Fin.isValue]
    exact Real.sqrt_mul_self h22.le
  refine ⟨h1, ?_, ?_⟩
  · rw [shoDz, vnorm, dotProduct, Fin.sum_univ_three, h20, h21]
    simp only [zero_div, mul_zero, zero_add, Fin.isValue]
    exact Real.sqrt_mul_self (div_nonneg h22.le (Nat.cast_nonneg _))
  · unfold calculateXDistances
    simp only [h1, dotProduct, Fin.sum_univ_three, h20, h21, zero_div, zero_mul, zero_add, Fin.isValue]
    rw [div_self h22.ne', one_mul, one_mul]

/-- **C151** (for up to 21 states normal to the surface, and a third lattice vector along `z`): the elements which the generator calculates are those
of the real part of the potential, less the potential of the oscillator, between the products of plane waves and states of the oscillator around
minus the configured origin, normalised to the spacing of the grid. For more states the generator uses wrong prefactors
(`C93_generator_negation`). -/
theorem C151_elements_partial (hbar : ℝ) (hh : 0 < hbar) (A : Matrix (Fin 3) (Fin 3) ℝ) (h20 : A 2 0 = 0) (h21 : A 2 1 = 0) (h22 : 0 < A 2 2)
    (n0 n1 nz : ℕ) (V : ℕ → ℂ) (mass omega : ℝ) (hm : 0 < mass) (ho : 0 < omega) (origin : Fin 3 → ℝ)
    (r0 r1 r2 : ℕ) (hr0 : r0 ≤ n0) (hr1 : r1 ≤ n1) (hr2 : r2 ≤ 21) (e : ℕ → ℕ → ℂ)
    (he : ∀ k z, e k z = ((shoWavefunction hbar omega mass k (A 2 2 / nz * z + origin 2) * Real.sqrt (A 2 2 / nz) : ℝ) : ℂ))
    (i j : ℕ) (hi : i < r0 * r1 * r2) (hj : j < r0 * r1 * r2) :
    shoOffDiagonal hbar A n0 n1 nz V mass omega origin r0 r1 r2 i j = ∑ x ∈ range (n0 * n1 * nz),
      (starRingEnd ℂ) (states [.transformed r0 n0, .transformed r1 n1, .explicit r2 e (.fundamental nz)] i x) *
        (((V x).re : ℂ) - ((mass * omega ^ 2 / 2 * (A 2 2 / nz * (x % nz : ℕ) + origin 2) ^ 2 : ℝ) : ℂ)) *
        states [.transformed r0 n0, .transformed r1 n1, .explicit r2 e (.fundamental nz)] j x := by
  have h2 : 0 < r2 := Nat.pos_of_ne_zero fun h => by rw [h, mul_zero] at hj; omega
  have hft : shoFtPotential A n0 n1 nz V mass omega origin = ftPotential n0 n1 nz (shoPoints V) (shoSubtraction A nz mass omega origin) := rfl
  have hel := C92_elements_partial n0 n1 nz r0 r1 r2 hr0 hr1 (shoPoints V) (shoSubtraction A nz mass omega origin) e
    (fun k _ z _ => by rw [he]; exact Complex.ofReal_im _) i j hi hj
  rw [C92_cache _ _ _ _ _ _ _ _ _ _ hi hj, ← hft] at hel
  have hdz := fun z => (distances_normal A h20 h21 h22 nz origin z).2
  unfold shoOffDiagonal
  rw [C92_cache_sho _ _ _ _ _ _ _ _ _ _ _ _ _ _ hi hj, sum_mul]
  have hsq : Real.sqrt (A 2 2 / nz) * Real.sqrt (A 2 2 / nz) = A 2 2 / nz := Real.mul_self_sqrt (div_nonneg h22.le (Nat.cast_nonneg _))
  have hgen : ∀ k < r2, generatorShoWavefunction hbar omega mass k = shoWavefunction hbar omega mass k := fun k hk =>
    ((C93_generator_partial hbar mass omega hh hm ho).1 k (by omega)).1
  refine Eq.trans (sum_congr rfl fun z _ => ?_) (hel.trans (sum_congr rfl fun x hx => ?_))
  · rw [hgen _ (Nat.mod_lt _ h2), hgen _ (Nat.mod_lt _ h2), (hdz z).1, he, he, Complex.conj_ofReal]
    have : ((A 2 2 / nz : ℝ) : ℂ) = (Real.sqrt (A 2 2 / nz) : ℂ) * (Real.sqrt (A 2 2 / nz) : ℂ) := by rw [← Complex.ofReal_mul, hsq]
    rw [this, Complex.ofReal_mul, Complex.ofReal_mul]
    ring
  · congr 2
    have h1 : shoPoints V x = ((V x).re : ℂ) := rfl
    rw [h1]
    unfold shoSubtraction
    rw [(hdz _).2]
    congr 2
    ring

/-- A cuboid with two by two by three points, a constant potential, and an oscillator around the middle. -/
example : ∃ (A : Matrix (Fin 3) (Fin 3) ℝ) (V : ℕ → ℂ) (origin : Fin 3 → ℝ), A 2 0 = 0 ∧ A 2 1 = 0 ∧ 0 < A 2 2 ∧
    V 0 ≠ 0 ∧ A 2 2 / (3 : ℕ) * (1 : ℕ) + origin 2 = 0 :=
  ⟨!![1, 0, 0; 0, 2, 0; 0, 0, 3], fun _ => 7, ![0, 0, -1], by simp, by simp, by simp, by simp, by simp⟩

/-- **C151.** The energy on the diagonal: for a lattice with its third vector normal to the first two, the kinetic energy of the wave vector in the
surface which belongs to the labels and the Bloch fraction, and the energy of the oscillator. -/
theorem C151_diagonal (hbar : ℝ) (A : Matrix (Fin 3) (Fin 3) ℝ) (hA : IsUnit A.det) (h02 : A 0 2 = 0) (h12 : A 1 2 = 0) (h20 : A 2 0 = 0)
    (h21 : A 2 1 = 0) (mass omega : ℝ) (φ : Fin 3 → ℝ) (k0 k1 : ℤ) (k2 : ℕ) (qx qy : ℝ)
    (hq0 : qx * A 0 0 + qy * A 0 1 = 2 * Real.pi * (k0 + φ 0)) (hq1 : qx * A 1 0 + qy * A 1 1 = 2 * Real.pi * (k1 + φ 1)) :
    shoDiagonalEnergy hbar A mass omega (tensordot00 (dkStacked A) φ) k0 k1 k2 =
      hbar ^ 2 * (qx ^ 2 + qy ^ 2) / (2 * mass) + hbar * omega * (k2 + 1 / 2) := by
  have h22 : A 2 2 ≠ 0 := by
    intro h
    rw [det_fin_three, h02, h12, h20, h21, h] at hA
    simp at hA
  have hinv : ∀ m : Fin 3 → ℝ, A *ᵥ (fun c => ∑ i, dkStacked A i c * m i) = fun i => 2 * Real.pi * m i := by
    intro m
    have : (fun c => ∑ i, dkStacked A i c * m i) = A⁻¹ *ᵥ fun i => 2 * Real.pi * m i := by
      funext c
      rw [mulVec, dotProduct]
      refine sum_congr rfl fun i _ => ?_
      rw [dkStacked, Matrix.smul_apply, transpose_apply, smul_eq_mul]
      ring
    rw [this, mulVec_mulVec, mul_nonsing_inv _ hA, one_mulVec]
  have hq : A *ᵥ ![qx, qy, 2 * Real.pi * φ 2 / A 2 2] = fun i => 2 * Real.pi * ![(k0 : ℝ) + φ 0, k1 + φ 1, φ 2] i := by
    funext i
    fin_cases i
    · simp [mulVec, dotProduct, Fin.sum_univ_three, h02]
      linarith
    · simp [mulVec, dotProduct, Fin.sum_univ_three, h12]
      linarith
    · simp [mulVec, dotProduct, Fin.sum_univ_three, h20, h21]
      field_simp
  have heq := (hinv ![(k0 : ℝ) + φ 0, k1 + φ 1, φ 2]).trans hq.symm
  have hinj : (fun c => ∑ i, dkStacked A i c * ![(k0 : ℝ) + φ 0, k1 + φ 1, φ 2] i) = ![qx, qy, 2 * Real.pi * φ 2 / A 2 2] := by
    have := congrArg (A⁻¹ *ᵥ ·) heq
    simpa only [mulVec_mulVec, nonsing_inv_mul _ hA, one_mulVec] using this
  have hx := congrFun hinj 0
  have hy := congrFun hinj 1
  simp only [Fin.sum_univ_three, cons_val_zero, cons_val_one, cons_val_two, Fin.isValue, tail_cons, head_cons, Matrix.cons_val] at hx hy
  unfold shoDiagonalEnergy tensordot00
  simp only [Fin.sum_univ_three, Fin.isValue]
  have ex : dkStacked A 0 0 * k0 + dkStacked A 1 0 * k1 + (dkStacked A 0 0 * φ 0 + dkStacked A 1 0 * φ 1 + dkStacked A 2 0 * φ 2) = qx := by
    rw [← hx]; ring
  have ey : dkStacked A 0 1 * k0 + dkStacked A 1 1 * k1 + (dkStacked A 0 1 * φ 0 + dkStacked A 1 1 * φ 1 + dkStacked A 2 1 * φ 2) = qy := by
    rw [← hy]; ring
  rw [ex, ey]
  norm_num
  ring

/-- A cuboid with the sides 1, 2 and 3, the labels `(1, 0)` and the Bloch fraction `(0, 1/2, 1/4)`. -/
example : shoDiagonalEnergy 1 !![1, 0, 0; 0, 2, 0; 0, 0, 3] 1 1 (tensordot00 (dkStacked !![1, 0, 0; 0, 2, 0; 0, 0, 3]) ![0, 1 / 2, 1 / 4]) 1 0 2 =
    ((2 * Real.pi) ^ 2 + (Real.pi / 2) ^ 2) / 2 + 5 / 2 := by
  rw [C151_diagonal 1 !![1, 0, 0; 0, 2, 0; 0, 0, 3] (by simp [det_fin_three]) (by simp) (by simp) (by simp) (by simp) 1 1 ![0, 1 / 2, 1 / 4] 1 0 2
    (2 * Real.pi) (Real.pi / 2) (by simp) (by simp; ring)]
  norm_num

/-- **C151** fails as a whole: the hamiltonian is never returned. The states of the oscillator are requested with three positional arguments, while the
function takes the number of states only by keyword. -/
theorem C151_total_negation (hbar : ℝ) (A : Matrix (Fin 3) (Fin 3) ℝ) (n0 n1 nz : ℕ) (V : ℕ → ℂ) (mass omega : ℝ) (origin fraction : Fin 3 → ℝ)
    (r0 r1 r2 : ℕ) : shoSubtractedHamiltonian hbar A n0 n1 nz V mass omega origin fraction r0 r1 r2 = none := by
  unfold shoSubtractedHamiltonian shoSubtractedBasis callInfiniteSho
  split <;> rfl

end Verif
