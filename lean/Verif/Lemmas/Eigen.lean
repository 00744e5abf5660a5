import Verif.Spec.Eigen
import Verif.Spec.Matrix
import Mathlib.Analysis.Matrix.Spectrum
import Mathlib.LinearAlgebra.Matrix.ToLinearEquiv

/-!
Consequences of the contracts of the eigenvalue routines.
-/

set_option autoImplicit false

namespace Verif

open Finset Spec

/-- The matrix of eigenvectors. -/
def vecMatrix (n : ℕ) (vec : ℕ → ℕ → ℂ) : Matrix (Fin n) (Fin n) ℂ := fun i j => vec i j

/-- The diagonal matrix of eigenvalues. -/
def diagMatrix (n : ℕ) (lam : ℕ → ℂ) : Matrix (Fin n) (Fin n) ℂ := Matrix.diagonal fun i : Fin n => lam i

variable {n : ℕ} {M : Matrix (Fin n) (Fin n) ℂ} {lam : ℕ → ℂ} {vec : ℕ → ℕ → ℂ}

theorem Spec.IsEig.isUnit (h : IsEig n M lam vec) : IsUnit (vecMatrix n vec) := by
  rw [← Matrix.mulVec_injective_iff_isUnit]
  intro x y hxy
  have := h.2 (x - y) fun i => by
    have h1 : (vecMatrix n vec).mulVec (x - y) = 0 := by rw [Matrix.mulVec_sub]; exact sub_eq_zero.2 hxy
    exact congrFun h1 i
  exact sub_eq_zero.1 this

theorem Spec.IsEig.isUnit_det (h : IsEig n M lam vec) : IsUnit (vecMatrix n vec).det :=
  (Matrix.isUnit_iff_isUnit_det _).1 h.isUnit

theorem mul_vecMatrix (h : ∀ j < n, ∀ i : Fin n, ∑ k : Fin n, M i k * vec k j = lam j * vec i j) :
    M * vecMatrix n vec = vecMatrix n vec * diagMatrix n lam := by
  ext i j
  rw [diagMatrix, Matrix.mul_diagonal, Matrix.mul_apply]
  show ∑ k : Fin n, M i k * vec k j = vec i j * lam j
  rw [h j j.2 i, mul_comm]

theorem Spec.IsEig.eq (h : IsEig n M lam vec) : M = vecMatrix n vec * diagMatrix n lam * (vecMatrix n vec)⁻¹ := by
  rw [← mul_vecMatrix h.1, Matrix.mul_nonsing_inv_cancel_right _ _ h.isUnit_det]

theorem Spec.IsEigh.unitary (h : IsEigh n n M lam vec) : (vecMatrix n vec).conjTranspose * vecMatrix n vec = 1 := by
  ext j j'
  rw [Matrix.mul_apply, Matrix.one_apply]
  have := h.2.2 j j.2 j' j'.2
  simp only [Fin.ext_iff]
  exact this

theorem Spec.IsEigh.unitary' (h : IsEigh n n M lam vec) : vecMatrix n vec * (vecMatrix n vec).conjTranspose = 1 :=
  mul_eq_one_comm.1 h.unitary

theorem Spec.IsEigh.inv_eq (h : IsEigh n n M lam vec) : (vecMatrix n vec)⁻¹ = (vecMatrix n vec).conjTranspose :=
  Matrix.inv_eq_left_inv h.unitary

theorem Spec.IsEigh.isEig (h : IsEigh n n M lam vec) : IsEig n M lam vec := by
  refine ⟨h.2.1, fun c hc => ?_⟩
  have : (vecMatrix n vec).mulVec c = 0 := funext hc
  rw [← Matrix.one_mulVec c, ← h.unitary, ← Matrix.mulVec_mulVec, this, Matrix.mulVec_zero]

theorem Spec.IsEigh.real (h : IsEigh n n M lam vec) : (diagMatrix n lam).conjTranspose = diagMatrix n lam := by
  rw [diagMatrix, Matrix.diagonal_conjTranspose]
  congr 1
  funext i
  exact Complex.conj_eq_iff_im.2 (h.1 i i.2)

/-- A matrix satisfying the contract of `eigh` is Hermitian. -/
theorem Spec.IsEigh.hermitian (h : IsEigh n n M lam vec) : M.conjTranspose = M := by
  conv_lhs => rw [h.isEig.eq, h.inv_eq]
  conv_rhs => rw [h.isEig.eq, h.inv_eq]
  rw [Matrix.conjTranspose_mul, Matrix.conjTranspose_mul, Matrix.conjTranspose_conjTranspose, h.real, Matrix.mul_assoc]

/-- Every Hermitian matrix of any size has a result meeting the contract of `eigh`. -/
theorem exists_isEigh (M : Matrix (Fin n) (Fin n) ℂ) (hM : M.conjTranspose = M) : ∃ lam vec, IsEigh n n M lam vec := by
  have hA : M.IsHermitian := hM
  refine ⟨fun j => if h : j < n then (hA.eigenvalues ⟨j, h⟩ : ℂ) else 0,
    fun i j => if h : i < n ∧ j < n then hA.eigenvectorBasis ⟨j, h.2⟩ ⟨i, h.1⟩ else 0, ?_, ?_, ?_⟩
  · intro j hj; simp [hj]
  · intro j hj i
    have := congrFun (hA.mulVec_eigenvectorBasis ⟨j, hj⟩) i
    simp only [hj, dif_pos, and_true, Fin.is_lt, Fin.eta]
    simpa [Matrix.mulVec, dotProduct] using this
  · intro j hj j' hj'
    have := orthonormal_iff_ite.1 hA.eigenvectorBasis.orthonormal ⟨j, hj⟩ ⟨j', hj'⟩
    simp only [hj, hj', dif_pos, and_true, Fin.is_lt, Fin.eta]
    simp only [PiLp.inner_apply, RCLike.inner_apply, Fin.mk.injEq] at this
    rw [← this]
    exact sum_congr rfl fun i _ => mul_comm _ _

end Verif
