import Verif.Model.Geometry
import Mathlib.Analysis.InnerProductSpace.PiL2

namespace Verif

open Matrix

variable {d : ℕ}

theorem vnorm_eq_norm (v : Fin d → ℝ) : vnorm v = ‖(WithLp.toLp 2 v : EuclideanSpace ℝ (Fin d))‖ := by
  rw [EuclideanSpace.norm_eq]
  unfold vnorm dotProduct
  congr 1
  apply Finset.sum_congr rfl
  intro i _
  simp [sq]

theorem vnorm_nonneg (v : Fin d → ℝ) : 0 ≤ vnorm v := Real.sqrt_nonneg _

theorem vnorm_add_le (v w : Fin d → ℝ) : vnorm (v + w) ≤ vnorm v + vnorm w := by
  rw [vnorm_eq_norm, vnorm_eq_norm, vnorm_eq_norm, WithLp.toLp_add]
  exact norm_add_le _ _

theorem vnorm_neg (v : Fin d → ℝ) : vnorm (-v) = vnorm v := by
  unfold vnorm; simp

theorem vnorm_zero : vnorm (0 : Fin d → ℝ) = 0 := by unfold vnorm; simp

theorem vnorm_sq (v : Fin d → ℝ) : vnorm v ^ 2 = v ⬝ᵥ v := by
  unfold vnorm
  exact Real.sq_sqrt (Finset.sum_nonneg fun i _ => mul_self_nonneg _)

theorem vnorm_pos {v : Fin d → ℝ} (h : v ≠ 0) : 0 < vnorm v := by
  rw [vnorm_eq_norm, norm_pos_iff]
  intro h2
  apply h
  have := congrArg WithLp.ofLp h2
  simpa using this

theorem abs_dot_le (v w : Fin d → ℝ) : |v ⬝ᵥ w| ≤ vnorm v * vnorm w := by
  have := abs_real_inner_le_norm (WithLp.toLp 2 v : EuclideanSpace ℝ (Fin d)) (WithLp.toLp 2 w)
  rw [← vnorm_eq_norm, ← vnorm_eq_norm, EuclideanSpace.inner_eq_star_dotProduct] at this
  simpa [dotProduct_comm] using this

end Verif
