import Verif.Props.C56_NoiseOperators
import Mathlib.Analysis.SpecialFunctions.Exp
import Mathlib.Analysis.SpecialFunctions.Exponential

/-!
C63: the temperature correction of noise operators.
-/

set_option autoImplicit false

namespace Verif

open Finset Spec

/-- The corrected operator: `L - (1 / 4kT) (H L - L H)`. -/
noncomputable def correctedMatrix {n : ℕ} (kT : ℝ) (H L : Matrix (Fin n) (Fin n) ℂ) : Matrix (Fin n) (Fin n) ℂ :=
  L - (1 / (4 * (kT : ℂ))) • (H * L - L * H)

/-- **C63.** The corrected operators are `L - (1/4kT) [H, L]`, in the basis of the Hamiltonian, with `L` converted to it. -/
theorem C63_full (same : Basis → Basis → Bool) (hs : Sound same) (b : Basis) (hb : Valid b)
    (ho : OrthonormalParts b) (n : ℕ) (hn : size b = n) (H : Operator) (hH : H.b0 = b ∧ H.b1 = b) (L C : OperatorList)
    (hC : convertOperatorList same L b b = some C) (kT : ℝ) :
    ∃ X, temperatureCorrected same H L kT = some X ∧ X.b0 = b ∧ X.b1 = b ∧ X.listBasis = L.listBasis ∧
      ∀ t, matrixAt n n X.data t = correctedMatrix kT (matrix n n H.data) (matrixAt n n C.data t) := by
  obtain ⟨X, hX, x0, x1, xl, hx⟩ := C29_list_commutator same hs b hb ho n hn H hH L C hC
  have hCl : C.listBasis = L.listBasis := by
    unfold convertOperatorList at hC
    cases h : convertMatrix same L.b0 b L.b1 b with
    | none => rw [h] at hC; cases hC
    | some f =>
      rw [h] at hC
      simp only [Option.map_some, Option.some.injEq] at hC
      subst hC; rfl
  have e : temperatureCorrected same H L kT = some { scaleOperatorList (-1 / (4 * (kT : ℂ))) X with
      data := fun k => (scaleOperatorList (-1 / (4 * (kT : ℂ))) X).data k + C.data k } := by
    unfold temperatureCorrected
    rw [hX, Option.bind_some]
    unfold addListList
    have : convertOperatorList same L (scaleOperatorList (-1 / (4 * (kT : ℂ))) X).b0 (scaleOperatorList (-1 / (4 * (kT : ℂ))) X).b1 =
        some C := by
      show convertOperatorList same L X.b0 X.b1 = _
      rw [x0, x1, hC]
    rw [this, Option.bind_some, if_pos]
    show X.listBasis.n = L.listBasis.n
    rw [xl]
  refine ⟨_, e, x0, x1, xl, fun t => ?_⟩
  ext i j
  have := congrFun (congrFun (hx t) i) j
  simp only [matrixAt] at this
  simp only [matrixAt, correctedMatrix, scaleOperatorList, Matrix.sub_apply, Matrix.smul_apply, smul_eq_mul, this]
  ring

/-- The matrix of operator `t` of a list of diagonal operators. -/
def diagonalAt (n : ℕ) (data : ℕ → ℂ) (t : ℕ) : Matrix (Fin n) (Fin n) ℂ := Matrix.diagonal fun i : Fin n => data (t * n + i)

/-- **C63**, diagonal operators: the Hamiltonian is converted to their basis. -/
theorem C63_diagonal (same : Basis → Basis → Bool) (hs : Sound same) (b : Basis) (hb : Valid b)
    (ho : OrthonormalParts b) (n : ℕ) (hn : size b = n) (H H' : Operator) (L : DiagonalOperatorList) (hL : L.b0 = b ∧ L.b1 = b)
    (hH : convertOperator same H b b = some H') (kT : ℝ) :
    ∃ X, temperatureCorrectedDiagonal same H L kT = some X ∧ X.b0 = b ∧ X.b1 = b ∧ X.listBasis = L.listBasis ∧
      ∀ t, matrixAt n n X.data t = correctedMatrix kT (matrix n n H'.data) (diagonalAt n L.data t) := by
  have hHb : H'.b0 = b ∧ H'.b1 = b := by
    unfold convertOperator at hH
    cases h : convertMatrix same H.b0 b H.b1 b with
    | none => rw [h] at hH; cases hH
    | some f =>
      rw [h] at hH
      simp only [Option.map_some, Option.some.injEq] at hH
      subst hH; exact ⟨rfl, rfl⟩
  obtain ⟨f, hf, kf⟩ := convertMatrix_same same hs b b hb hb ho ho
  obtain ⟨lb, l0, l1, ld⟩ := L
  obtain ⟨h0, h1, hsh, hd⟩ := H'
  obtain ⟨h3, h4⟩ := hL
  obtain ⟨h5, h6⟩ := hHb
  dsimp only at h3 h4 h5 h6
  subst l0 l1 h0 h1
  have hbn : b.n = n := by rw [Basis.n_eq, hn]
  have hCv : convertOperator same ⟨b, b, hsh, hd⟩ b b = some ⟨b, b, [b.n * b.n], flatten b.n (f (⟨b, b, hsh, hd⟩ : Operator).entry)⟩ := by
    simp only [convertOperator, hf, Option.map_some]
  have e1 : matmulOperatorDiagonalList same ⟨b, b, hsh, hd⟩ ⟨lb, b, b, ld⟩ = some ⟨lb, b, b, flatten3 b.n b.n fun m i k =>
      flatten b.n (f (⟨b, b, hsh, hd⟩ : Operator).entry) (i * b.n + k) * ld (m * b.n + k)⟩ := by
    simp only [matmulOperatorDiagonalList, hCv, Option.bind_some, and_self, if_true]
  have e2 : matmulDiagonalListOperator same ⟨lb, b, b, ld⟩ ⟨b, b, hsh, hd⟩ = some ⟨lb, b, b, flatten3 b.n b.n fun m k l =>
      ld (m * b.n + k) * flatten b.n (f (⟨b, b, hsh, hd⟩ : Operator).entry) (k * b.n + l)⟩ := by
    simp only [matmulDiagonalListOperator, hCv, Option.map_some, Operator.entry]
  obtain ⟨⟨_, X, _, hX, _, _, x0, x1, _, xl, hx⟩, _⟩ := C29_list_add same hs b b hb hb ho ho n n hn hn
    ⟨lb, b, b, flatten3 b.n b.n fun m i k => flatten b.n (f (⟨b, b, hsh, hd⟩ : Operator).entry) (i * b.n + k) * ld (m * b.n + k)⟩
    ⟨lb, b, b, flatten3 b.n b.n fun m k l => ld (m * b.n + k) * flatten b.n (f (⟨b, b, hsh, hd⟩ : Operator).entry) (k * b.n + l)⟩
    ⟨rfl, rfl⟩ ⟨rfl, rfl⟩ rfl 0
  obtain ⟨⟨Y, _, hY, _, y0, y1, _, _, yl, _, hy⟩, _⟩ := C29_list_add same hs b b hb hb ho ho n n hn hn
    (scaleOperatorList (-1 / (4 * (kT : ℂ))) X) (diagonalOperatorListAsFull ⟨lb, b, b, ld⟩) ⟨x0, x1⟩ ⟨rfl, rfl⟩
    (by show size X.listBasis = size lb; rw [xl]) 0
  refine ⟨Y, ?_, y0, y1, by rw [yl]; exact xl, fun t => ?_⟩
  · unfold temperatureCorrectedDiagonal
    dsimp only
    rw [hH, Option.bind_some]
    unfold getCommutatorDiagonalOperatorList
    rw [e1, Option.bind_some, e2, Option.bind_some, hX, Option.bind_some, hY]
  · ext i j
    rw [(hy t).1]
    have hxt := congrFun (congrFun (hx t).2 i) j
    simp only [Matrix.sub_apply, matrixAt, hbn] at hxt
    rw [flatten3_entry _ _ i.2 j.2, flatten3_entry _ _ i.2 j.2, flatten_entry _ _ j.2,
      kf _ _ (by rw [hn]; exact i.2) _ (by rw [hn]; exact j.2)] at hxt
    simp only [Operator.entry, hbn] at hxt
    simp only [correctedMatrix, diagonalAt, Matrix.sub_apply, Matrix.add_apply, Matrix.smul_apply, smul_eq_mul, matrixAt,
      scaleOperatorList, diagonalOperatorListAsFull, hbn, Matrix.mul_diagonal, Matrix.diagonal_mul, Matrix.diagonal_apply]
    rw [hxt, flatten3_entry _ _ i.2 j.2]
    simp only [matrix, Fin.ext_iff]
    split_ifs <;> ring

/-- Operators which commute with the Hamiltonian are not changed. -/
theorem C63_commuting {n : ℕ} (kT : ℝ) (H L : Matrix (Fin n) (Fin n) ℂ) (h : H * L = L * H) : correctedMatrix kT H L = L := by
  rw [correctedMatrix, h, sub_self, smul_zero, sub_zero]

/-- Between eigenvectors of a Hermitian Hamiltonian with the energies `E` and `E'` the matrix element of the corrected operator is
`1 - (E - E') / 4kT` times the original. -/
theorem C63_matrix_elements {n : ℕ} (kT : ℝ) (H L : Matrix (Fin n) (Fin n) ℂ) (hH : H.conjTranspose = H) (u w : Fin n → ℂ)
    (E E' : ℝ) (hu : H.mulVec u = (E : ℂ) • u) (hw : H.mulVec w = (E' : ℂ) • w) :
    star u ⬝ᵥ (correctedMatrix kT H L).mulVec w = (1 - (E - E') / (4 * kT)) * (star u ⬝ᵥ L.mulVec w) := by
  have h1 : Matrix.vecMul (star u) H = (E : ℂ) • star u := by
    have := congrArg star hu
    rw [Matrix.star_mulVec, hH, star_smul] at this
    rw [this]
    congr 1
    exact Complex.conj_ofReal E
  have h2 : star u ⬝ᵥ (H * L).mulVec w = E * (star u ⬝ᵥ L.mulVec w) := by
    rw [← Matrix.mulVec_mulVec, Matrix.dotProduct_mulVec, h1, smul_dotProduct, smul_eq_mul]
  have h3 : star u ⬝ᵥ (L * H).mulVec w = E' * (star u ⬝ᵥ L.mulVec w) := by
    rw [← Matrix.mulVec_mulVec, hw, Matrix.mulVec_smul, dotProduct_smul, smul_eq_mul]
  rw [correctedMatrix, Matrix.sub_mulVec, Matrix.smul_mulVec, Matrix.sub_mulVec, dotProduct_sub, dotProduct_smul, dotProduct_sub,
    h2, h3, smul_eq_mul]
  ring

/-- **C63**, detailed balance: for a Hermitian operator the rates `|⟨E|L|E'⟩|²` and `|⟨E'|L|E⟩|²` of the corrected operator have
the ratio `((1 - x) / (1 + x))²`, `x = (E - E') / 4kT`, which is the Boltzmann factor `exp (-(E - E') / kT) = exp (-4 x)` up to
the third order of `x`. -/
theorem C63_detailed_balance :
    (∀ {n : ℕ} (kT : ℝ) (H L : Matrix (Fin n) (Fin n) ℂ), H.conjTranspose = H → L.conjTranspose = L →
      ∀ (u w : Fin n → ℂ) (E E' : ℝ), H.mulVec u = (E : ℂ) • u → H.mulVec w = (E' : ℂ) • w →
      (1 + (E - E') / (4 * kT)) ^ 2 * ‖star u ⬝ᵥ (correctedMatrix kT H L).mulVec w‖ ^ 2 =
        (1 - (E - E') / (4 * kT)) ^ 2 * ‖star w ⬝ᵥ (correctedMatrix kT H L).mulVec u‖ ^ 2) ∧
    (fun x : ℝ => (1 - x) ^ 2 - Real.exp (-(4 * x)) * (1 + x) ^ 2) =O[nhds 0] fun x => x ^ 3 := by
  constructor
  · intro n kT H L hH hL u w E E' hu hw
    rw [C63_matrix_elements kT H L hH u w E E' hu hw, C63_matrix_elements kT H L hH w u E' E hw hu]
    have h1 : star w ⬝ᵥ L.mulVec u = star (star u ⬝ᵥ L.mulVec w) := by
      rw [Matrix.star_dotProduct, Matrix.star_mulVec, hL, ← Matrix.dotProduct_mulVec]
    rw [h1, norm_mul, norm_mul, norm_star]
    have r1 : ‖(1 - ((E : ℂ) - E') / (4 * kT))‖ = |1 - (E - E') / (4 * kT)| := by
      rw [← Real.norm_eq_abs, ← Complex.norm_real]; push_cast; rfl
    have r2 : ‖(1 - ((E' : ℂ) - E) / (4 * kT))‖ = |1 + (E - E') / (4 * kT)| := by
      rw [← Real.norm_eq_abs, ← Complex.norm_real]; push_cast; congr 1; ring
    rw [r1, r2, mul_pow, mul_pow, sq_abs, sq_abs]
    ring
  · have h0 := Real.exp_sub_sum_range_isBigO_pow 3
    have ht : Filter.Tendsto (fun x : ℝ => -(4 * x)) (nhds 0) (nhds 0) := by
      have : Continuous fun x : ℝ => -(4 * x) := by fun_prop
      simpa using this.tendsto 0
    have h1 := h0.comp_tendsto ht
    have h2 : (fun x : ℝ => Real.exp (-(4 * x)) - (1 - 4 * x + 8 * x ^ 2)) =O[nhds 0] fun x => x ^ 3 := by
      have h3 : (fun x : ℝ => (-(4 * x)) ^ 3) =O[nhds 0] fun x => x ^ 3 := by
        refine Asymptotics.IsBigO.of_bound 64 (Filter.Eventually.of_forall fun x => ?_)
        rw [show (-(4 * x)) ^ 3 = -64 * x ^ 3 by ring, norm_mul]
        norm_num
      refine (h1.trans h3).congr_left fun x => ?_
      simp only [Function.comp, sum_range_succ, range_zero, sum_empty, Nat.factorial]
      norm_num
      ring
    have h4 : (fun x : ℝ => (1 + x) ^ 2) =O[nhds 0] fun _ => (1 : ℝ) := by
      have : Continuous fun x : ℝ => (1 + x) ^ 2 := by fun_prop
      exact (this.tendsto 0).isBigO_one ℝ
    have h5 : (fun x : ℝ => -4 * x ^ 3 * (3 + 2 * x)) =O[nhds 0] fun x => x ^ 3 := by
      have h6 : (fun x : ℝ => -4 * (3 + 2 * x)) =O[nhds 0] fun _ => (1 : ℝ) := by
        have : Continuous fun x : ℝ => -4 * (3 + 2 * x) := by fun_prop
        exact (this.tendsto 0).isBigO_one ℝ
      refine ((Asymptotics.isBigO_refl (fun x : ℝ => x ^ 3) (nhds 0)).mul h6).congr (fun x => by ring) fun x => by ring
    have h7 := (h2.mul h4).congr_right fun x => mul_one (x ^ 3)
    refine (h5.sub h7).congr_left fun x => ?_
    ring

/-- Two levels, an operator between them. -/
example : correctedMatrix (n := 2) 1 !![0, 0; 0, 1] !![0, 1; 1, 0] = !![0, 5 / 4; 3 / 4, 0] := by
  ext i j
  fin_cases i <;> fin_cases j <;> simp [correctedMatrix, Matrix.mul_apply, Fin.sum_univ_two] <;> norm_num

end Verif
