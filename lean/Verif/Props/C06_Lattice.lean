import Verif.Model.Geometry
import Mathlib.Tactic.FieldSimp
import Mathlib.Algebra.Order.Floor.Ring

/-!
# C06, C21: wrapping positions, reciprocal lattice
-/

namespace Verif

open Matrix

variable {d : ℕ}

theorem tensordot00_eq (M : Matrix (Fin d) (Fin d) ℝ) (v : Fin d → ℝ) : tensordot00 M v = Mᵀ *ᵥ v := by
  funext c; simp [tensordot00, mulVec, dotProduct]

theorem fmod_spec (x L : ℝ) (hL : 0 < L) : 0 ≤ fmod x L ∧ fmod x L < L ∧ ∃ k : ℤ, fmod x L = x + k * L := by
  unfold fmod
  have h1 := Int.floor_le (x / L)
  have h2 := Int.lt_floor_add_one (x / L)
  rw [le_div_iff₀ hL] at h1
  rw [div_lt_iff₀ hL] at h2
  refine ⟨by nlinarith, by nlinarith, -⌊x / L⌋, by push_cast; ring⟩

/-- **C06.** One coordinate: a whole number of periods is added and the result is in the window. -/
theorem C06_wrap_distance (x L o : ℝ) (hL : 0 < L) :
    (∃ k : ℤ, wrapDistance x L o = x + k * L) ∧ o - L / 2 ≤ wrapDistance x L o ∧
      wrapDistance x L o < o + L / 2 := by
  obtain ⟨h1, h2, k, hk⟩ := fmod_spec (x - o + L / 2) L hL
  refine ⟨⟨k, ?_⟩, ?_, ?_⟩ <;> unfold wrapDistance
  · rw [hk]; ring
  · linarith
  · linarith

/-- **C06.** The wrapped point differs from the point by an integer combination of the lattice vectors (the
rows of `A`) and, written as `origin + Σ cᵢ aᵢ`, has all `cᵢ` in `[-1/2, 1/2)`. -/
theorem C06_wrap_x_point (A : Matrix (Fin d) (Fin d) ℝ) (hA : IsUnit A.det) (point origin : Fin d → ℝ) :
    (∃ k : Fin d → ℤ, wrapXPoint A point origin = point + ∑ i, (k i : ℝ) • A i) ∧
    ∃ c : Fin d → ℝ, wrapXPoint A point origin = origin + ∑ i, c i • A i ∧
      ∀ i, -1 / 2 ≤ c i ∧ c i < 1 / 2 := by
  have hsum : ∀ c : Fin d → ℝ, Aᵀ *ᵥ c = ∑ i, c i • A i := by
    intro c; funext j; simp [mulVec, dotProduct, mul_comm]
  have hinv : ∀ v : Fin d → ℝ, Aᵀ *ᵥ ((A⁻¹)ᵀ *ᵥ v) = v := by
    intro v
    rw [mulVec_mulVec, ← transpose_mul, nonsing_inv_mul _ hA, transpose_one, one_mulVec]
  have hw := fun i => C06_wrap_distance (((A⁻¹)ᵀ *ᵥ point) i) 1 (((A⁻¹)ᵀ *ᵥ origin) i) one_pos
  choose k hk using fun i => (hw i).1
  constructor
  · refine ⟨k, ?_⟩
    unfold wrapXPoint
    simp only [tensordot00_eq]
    have : (fun i => wrapDistance (((A⁻¹)ᵀ *ᵥ point) i) 1 (((A⁻¹)ᵀ *ᵥ origin) i)) =
        (A⁻¹)ᵀ *ᵥ point + fun i => (k i : ℝ) := by
      funext i; rw [hk i]; simp
    rw [this, mulVec_add, hinv, hsum]
  · refine ⟨fun i => wrapDistance (((A⁻¹)ᵀ *ᵥ point) i) 1 (((A⁻¹)ᵀ *ᵥ origin) i) - ((A⁻¹)ᵀ *ᵥ origin) i,
      ?_, ?_⟩
    · unfold wrapXPoint
      simp only [tensordot00_eq]
      rw [← hsum]
      refine Eq.trans ?_ (congrArg (· + _) (hinv origin))
      rw [← mulVec_add]
      congr 1
      funext i; simp
    · intro i
      have := hw i
      constructor <;> linarith [this.2.1, this.2.2]

/-- **C06.** Points that differ by a lattice vector are wrapped to the same point. -/
theorem C06_wrap_x_point_periodic (A : Matrix (Fin d) (Fin d) ℝ) (hA : IsUnit A.det)
    (point origin : Fin d → ℝ) (k : Fin d → ℤ) :
    wrapXPoint A (point + ∑ i, (k i : ℝ) • A i) origin = wrapXPoint A point origin := by
  have hsum : ∀ c : Fin d → ℝ, Aᵀ *ᵥ c = ∑ i, c i • A i := by
    intro c; funext j; simp [mulVec, dotProduct, mul_comm]
  have hinv : ∀ v : Fin d → ℝ, (A⁻¹)ᵀ *ᵥ (Aᵀ *ᵥ v) = v := by
    intro v
    rw [mulVec_mulVec, ← transpose_mul, mul_nonsing_inv _ hA, transpose_one, one_mulVec]
  unfold wrapXPoint
  simp only [tensordot00_eq]
  congr 1
  funext i
  rw [mulVec_add, ← hsum, hinv]
  unfold wrapDistance fmod
  simp only [Pi.add_apply, div_one, one_mul]
  have : (((A⁻¹)ᵀ *ᵥ point) i + (k i : ℝ) - ((A⁻¹)ᵀ *ᵥ origin) i + 1 / 2) =
      (((A⁻¹)ᵀ *ᵥ point) i - ((A⁻¹)ᵀ *ᵥ origin) i + 1 / 2) + (k i : ℝ) := by ring
  rw [this, Int.floor_add_intCast]
  push_cast
  ring

-- a skewed lattice is admissible
example : IsUnit (!![1, 0; 1, 2] : Matrix (Fin 2) (Fin 2) ℝ).det := by
  rw [det_fin_two_of]; norm_num
example : wrapDistance 0.75 1 0 = -0.25 := by
  unfold wrapDistance fmod; norm_num

/-! ## C21 -/

/-- **C21.** Direct vector `i` and reciprocal vector `j`. -/
theorem C21_reciprocal_dual (A : Matrix (Fin d) (Fin d) ℝ) (hA : IsUnit A.det) (i j : Fin d) :
    A i ⬝ᵥ dkStacked A j = if i = j then 2 * Real.pi else 0 := by
  have h : A * A⁻¹ = 1 := mul_nonsing_inv _ hA
  have h2 := congrFun (congrFun h i) j
  rw [mul_apply, one_apply] at h2
  simp only [dotProduct, dkStacked, Matrix.smul_apply, transpose_apply, smul_eq_mul]
  have : ∑ x, A i x * (2 * Real.pi * A⁻¹ x j) = 2 * Real.pi * ∑ x, A i x * A⁻¹ x j := by
    rw [Finset.mul_sum]; exact Finset.sum_congr rfl fun x _ => by ring
  rw [this, h2]
  split <;> simp

theorem dkStacked_det (A : Matrix (Fin d) (Fin d) ℝ) : (dkStacked A).det = (2 * Real.pi) ^ d * A.det⁻¹ := by
  unfold dkStacked
  rw [det_smul, det_transpose, det_nonsing_inv, Ring.inverse_eq_inv']
  simp

/-- **C21.** The reciprocal of the reciprocal lattice is the lattice. -/
theorem C21_reciprocal_involutive (A : Matrix (Fin d) (Fin d) ℝ) (hA : IsUnit A.det) :
    dkStacked (dkStacked A) = A := by
  have hpi : (2 * Real.pi) ≠ 0 := by positivity
  have hinv : (dkStacked A)⁻¹ = (2 * Real.pi)⁻¹ • Aᵀ := by
    apply inv_eq_right_inv
    unfold dkStacked
    rw [smul_mul_smul_comm, mul_inv_cancel₀ hpi, ← transpose_mul, mul_nonsing_inv _ hA, transpose_one, one_smul]
  conv_lhs => rw [dkStacked]
  rw [hinv, transpose_smul, transpose_transpose, smul_smul, mul_inv_cancel₀ hpi, one_smul]

/-- **C21.** The cell volumes multiply to `(2π)^d`. -/
theorem C21_volumes (A : Matrix (Fin d) (Fin d) ℝ) (hA : IsUnit A.det) :
    latticeVolume A * reciprocalVolume A = (2 * Real.pi) ^ d := by
  unfold latticeVolume reciprocalVolume
  rw [dkStacked_det]
  have : A.det ≠ 0 := hA.ne_zero
  field_simp

/-- **C21.** Bloch phases: the scalar product of the k point with label `nk` and the x point with index
`nx` is `2π Σ nkᵢ nxᵢ / nᵢ`. -/
theorem C21_phase (A : Matrix (Fin d) (Fin d) ℝ) (hA : IsUnit A.det) (shape : Fin d → ℕ)
    (nk nx : Fin d → ℤ) :
    kPointAtIndex A nk ⬝ᵥ xPointAtIndex A shape nx = 2 * Real.pi * ∑ i, (nk i : ℝ) * nx i / shape i := by
  have h1 : kPointAtIndex A nk = ∑ j, (nk j : ℝ) • dkStacked A j := by
    funext c; simp [kPointAtIndex, tensordot00, mul_comm]
  have h2 : xPointAtIndex A shape nx = ∑ i, ((nx i : ℝ) / shape i) • A i := by
    funext c
    simp only [xPointAtIndex, tensordot00, dxStacked, of_apply, Finset.sum_apply, Pi.smul_apply, smul_eq_mul]
    exact Finset.sum_congr rfl fun x _ => by ring
  rw [h1, h2, sum_dotProduct, Finset.mul_sum]
  apply Finset.sum_congr rfl
  intro j _
  rw [dotProduct_sum, Finset.sum_eq_single j]
  · rw [smul_dotProduct, dotProduct_smul, dotProduct_comm, C21_reciprocal_dual A hA, if_pos rfl]
    simp only [smul_eq_mul]; ring
  · intro i _ hij
    rw [smul_dotProduct, dotProduct_smul, dotProduct_comm, C21_reciprocal_dual A hA, if_neg hij]
    simp
  · simp

example : IsUnit (!![1, 0, 0; 1, 2, 0; 0, 1, 1] : Matrix (Fin 3) (Fin 3) ℝ).det := by
  rw [det_fin_three]; simp

/-- **C21**, negative: `volume` is the signed determinant, so it is negative for a left-handed choice of
lattice vectors; positivity cannot be relied on. -/
theorem C21_volume_signed : ∃ A : Matrix (Fin 2) (Fin 2) ℝ, IsUnit A.det ∧ latticeVolume A < 0 := by
  refine ⟨!![0, 1; 1, 0], ?_, ?_⟩
  · rw [det_fin_two_of]; norm_num
  · unfold latticeVolume; rw [det_fin_two_of]; norm_num

end Verif
