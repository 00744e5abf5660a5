import Verif.Props.C29_Operators
import Verif.Lemmas.Eigen
import Mathlib.Analysis.Normed.Algebra.MatrixExponential
import Mathlib.Analysis.SpecialFunctions.Exponential

/-!
# C26: eigenstates of operators, functions of operators

The numerical routines `eigh` and `eig` are described by the contracts `Spec.IsEigh` and `Spec.IsEig`.
-/

set_option autoImplicit false

namespace Verif

open Finset Spec

theorem matrix_ofMatrix {n : ℕ} (M : Matrix (Fin n) (Fin n) ℂ) : matrix n n (ofMatrix M) = M := by
  ext i j
  simp only [matrix, ofMatrix]
  rw [flatten_entry _ _ j.2, dif_pos ⟨i.2, j.2⟩]

/-- **C26.** The contract of `eigh` can be met for every Hermitian operator of any size, and only for those. -/
theorem C26_contract (n : ℕ) (M : Matrix (Fin n) (Fin n) ℂ) :
    (∃ lam vec, IsEigh n n M lam vec) ↔ M.conjTranspose = M :=
  ⟨fun ⟨_, _, h⟩ => h.hermitian, exists_isEigh M⟩

theorem state_of_eigenvectors (A : Operator) (m : ℕ) (r : EigResult) {j : ℕ} (hj : j < m) :
    ∃ s, getStateVector (calculateEigenvectors A m r).states j = some s ∧ s.basis = A.b0 ∧
      ∀ i < size A.b0, s.data i = r.vectors i j := by
  refine ⟨_, if_pos (by rw [Basis.n_eq]; exact hj), rfl, fun i hi => ?_⟩
  have hi' : i < A.b0.n := by rw [Basis.n_eq]; exact hi
  dsimp only [calculateEigenvectors]
  exact block_flatten _ _ hi'

/-- **C26.** Every listed state is an eigenstate of the operator with the listed, real, eigenvalue; the listed states
are orthonormal, and the expectation of the operator in state `j` is eigenvalue `j`. Also for a part of the spectrum
(`subset_by_index`, `m` states). -/
theorem C26_eigenstates (same : Basis → Basis → Bool) (hs : Sound same) (b : Basis) (hb : Valid b)
    (ho : OrthonormalParts b) (n m : ℕ) (hn : size b = n) (A : Operator) (hA : A.b0 = b ∧ A.b1 = b) (r : EigResult)
    (hr : IsEigh n m (matrix n n A.data) r.eigenvalues r.vectors) :
    (∀ j < m, ((calculateEigenvectors A m r).eigenvalue j).im = 0 ∧
      ∃ s, getStateVector (calculateEigenvectors A m r).states j = some s ∧ s.basis = b ∧
        (∀ i : Fin n, ∑ k : Fin n, matrix n n A.data i k * s.data k =
          (calculateEigenvectors A m r).eigenvalue j * s.data i) ∧
        calculateExpectation same A s = some ((calculateEigenvectors A m r).eigenvalue j)) ∧
    (∀ j < m, ∀ j' < m, ∃ s s', getStateVector (calculateEigenvectors A m r).states j = some s ∧
      getStateVector (calculateEigenvectors A m r).states j' = some s' ∧
      calculateInnerProduct s' (asDualVector s) = some (if j = j' then 1 else 0)) := by
  constructor
  · intro j hj
    refine ⟨hr.1 j hj, ?_⟩
    obtain ⟨s, h1, h2, h3⟩ := state_of_eigenvectors A m r hj
    rw [hA.1] at h2 h3
    have heig : ∀ i : Fin n, ∑ k : Fin n, matrix n n A.data i k * s.data k =
        (calculateEigenvectors A m r).eigenvalue j * s.data i := by
      intro i
      rw [h3 i (by rw [hn]; exact i.2)]
      refine Eq.trans ?_ (hr.2.1 j hj i)
      exact sum_congr rfl fun k _ => by rw [h3 k (by rw [hn]; exact k.2)]
    refine ⟨s, h1, h2, heig, ?_⟩
    obtain ⟨f, hf, kf⟩ := convertMatrix_same same hs b b hb hb ho ho
    obtain ⟨sb, sd⟩ := s
    dsimp only at h2 h3 heig
    subst sb
    have e2 : convertOperator same A b b = some ⟨b, b, [b.n * b.n], flatten b.n (f A.entry)⟩ := by
      simp only [convertOperator, hA.1, hA.2, hf, Option.map_some]
    simp only [calculateExpectation, e2, Option.map_some, Option.some.injEq, Operator.entry, Basis.n_eq, hn]
    have key : ∀ i : Fin n, ∀ k : Fin n, flatten n (f fun i j => A.data (i * A.b1.n + j)) (i * n + k) = matrix n n A.data i k := by
      intro i k
      rw [flatten_entry _ _ k.2, kf _ i (by rw [hn]; exact i.2) k (by rw [hn]; exact k.2)]
      simp only [matrix, hA.2, Basis.n_eq, hn]
    have hone : ∑ i : Fin n, (starRingEnd ℂ) (sd i) * sd i = 1 := by
      have := hr.2.2 j hj j hj
      rw [if_pos rfl] at this
      rw [← this]
      exact sum_congr rfl fun i _ => by rw [h3 i (by rw [hn]; exact i.2)]
    calc ∑ i ∈ range n, ∑ k ∈ range n, (starRingEnd ℂ) (sd i) * flatten n (f A.entry) (i * n + k) * sd k
        = ∑ i : Fin n, (starRingEnd ℂ) (sd i) * ∑ k : Fin n, matrix n n A.data i k * sd k := by
          rw [sum_range]
          apply sum_congr rfl; intro i _
          rw [sum_range, mul_sum]
          exact sum_congr rfl fun k _ => by rw [← key i k, mul_assoc]; rfl
      _ = (calculateEigenvectors A m r).eigenvalue j * ∑ i : Fin n, (starRingEnd ℂ) (sd i) * sd i := by
          rw [mul_sum]
          exact sum_congr rfl fun i _ => by rw [heig i]; ring
      _ = (calculateEigenvectors A m r).eigenvalue j := by rw [hone, mul_one]
  · intro j hj j' hj'
    obtain ⟨s, h1, h2, h3⟩ := state_of_eigenvectors A m r hj
    obtain ⟨s', h1', h2', h3'⟩ := state_of_eigenvectors A m r hj'
    refine ⟨s, s', h1, h1', ?_⟩
    rw [C25_value, if_pos (by rw [h2, h2']), ← hr.2.2 j hj j' hj', h2', hA.1, hn]
    simp only [Spec.dot, Option.some.injEq]
    rw [sum_range]
    rw [hA.1, hn] at h3 h3'
    exact sum_congr rfl fun i _ => by rw [h3 i i.2, h3' i i.2]

/-- The matrix of an operator rebuilt from eigenvectors. -/
theorem operatorFromEigenstates_matrix (A : Operator) (n : ℕ) (hn : size A.b0 = n) (r : EigResult) (lam : ℕ → ℂ)
    (hu : IsUnit (vecMatrix n r.vectors).det) :
    matrix n n (operatorFromEigenstates ⟨(calculateEigenvectors A n r).states, lam⟩).data =
      vecMatrix n r.vectors * diagMatrix n lam * (vecMatrix n r.vectors)⁻¹ := by
  subst hn
  have hN : A.b0.n = size A.b0 := Basis.n_eq _
  have key : ∀ N : ℕ, N = size A.b0 → ∀ E : Matrix (Fin N) (Fin N) ℂ, (∀ j i : Fin N, E j i = r.vectors i j) →
      matrix (size A.b0) (size A.b0) (ofMatrix (fun i k : Fin N => ∑ j : Fin N, E j i * lam j * E⁻¹ k j)) =
        vecMatrix (size A.b0) r.vectors * diagMatrix (size A.b0) lam * (vecMatrix (size A.b0) r.vectors)⁻¹ := by
    rintro N rfl E hE
    refine (matrix_ofMatrix _).trans ?_
    have hE' : E = (vecMatrix (size A.b0) r.vectors).transpose := by
      ext j i; exact hE j i
    rw [hE']
    ext i k
    rw [diagMatrix, Matrix.mul_apply]
    apply sum_congr rfl; intro j _
    rw [Matrix.mul_diagonal, ← Matrix.transpose_nonsing_inv]
    rfl
  refine key _ hN _ fun j i => ?_
  exact block_flatten (fun j i => r.vectors i j) j i.2

/-- **C26.** The operator rebuilt from its eigenvalues and eigenstates is the operator (for Hermitian operators, and for
every operator which can be diagonalised). -/
theorem C26_rebuild (n : ℕ) (A : Operator) (hn : size A.b0 = n) (r : EigResult)
    (hr : IsEig n (matrix n n A.data) r.eigenvalues r.vectors) :
    (operatorFromEigenstates (calculateEigenvectors A n r)).b0 = A.b0 ∧
    (operatorFromEigenstates (calculateEigenvectors A n r)).b1 = A.b0 ∧
    matrix n n (operatorFromEigenstates (calculateEigenvectors A n r)).data = matrix n n A.data :=
  ⟨rfl, rfl, (operatorFromEigenstates_matrix A n hn r _ hr.isUnit_det).trans hr.eq.symm⟩

theorem C26_rebuild_hermitian (n : ℕ) (A : Operator) (hn : size A.b0 = n) (r : EigResult)
    (hr : IsEigh n n (matrix n n A.data) r.eigenvalues r.vectors) :
    matrix n n (operatorFromEigenstates (calculateEigenvectors A n r)).data = matrix n n A.data :=
  (C26_rebuild n A hn r hr.isEig).2.2

/-- **C26.** `exp_operator` is the matrix exponential. -/
theorem C26_exp (n : ℕ) (A : Operator) (hn : size A.b0 = n) (r : EigResult)
    (hr : IsEig n (matrix n n A.data) r.eigenvalues r.vectors) :
    matrix n n (expOperator A r).data = NormedSpace.exp (matrix n n A.data) := by
  have e : A.b0.n = n := by rw [Basis.n_eq, hn]
  unfold expOperator
  rw [e]
  refine (operatorFromEigenstates_matrix A n hn r _ hr.isUnit_det).trans ?_
  conv_rhs => rw [hr.eq, Matrix.exp_conj _ _ hr.isUnit, diagMatrix, Matrix.exp_diagonal]
  congr 2
  rw [diagMatrix]
  congr 1
  funext i
  rw [Pi.coe_exp, ← Complex.exp_eq_exp_ℂ]
  rfl

theorem applyFunction_matrix (n : ℕ) (A : Operator) (hn : size A.b0 = n) (fn : ℂ → ℂ) (r : EigResult) :
    matrix n n (applyFunctionToOperator A fn r).data =
      vecMatrix n r.vectors * diagMatrix n (fun j => fn (r.eigenvalues j)) * (vecMatrix n r.vectors)⁻¹ := by
  subst hn
  have key : ∀ N : ℕ, N = size A.b0 → matrix (size A.b0) (size A.b0) (ofMatrix (fun a b : Fin N =>
      ∑ k : Fin N, fn (r.eigenvalues k) * vecMatrix N r.vectors a k * (vecMatrix N r.vectors)⁻¹ k b)) =
      vecMatrix (size A.b0) r.vectors * diagMatrix (size A.b0) (fun j => fn (r.eigenvalues j)) *
        (vecMatrix (size A.b0) r.vectors)⁻¹ := by
    rintro N rfl
    refine (matrix_ofMatrix _).trans ?_
    ext i k
    rw [diagMatrix, Matrix.mul_apply]
    apply sum_congr rfl; intro j _
    rw [Matrix.mul_diagonal]
    ring
  exact key _ (Basis.n_eq _)

/-- **C26.** `apply_function_to_operator` applies the function to the eigenvalues and keeps the eigenvectors; for a
polynomial it is the polynomial of the operator. -/
theorem C26_function (n : ℕ) (A : Operator) (hn : size A.b0 = n) (r : EigResult)
    (hr : IsEig n (matrix n n A.data) r.eigenvalues r.vectors) :
    (∀ fn : ℂ → ℂ, ∀ j < n, ∀ i : Fin n, ∑ k : Fin n, matrix n n (applyFunctionToOperator A fn r).data i k * r.vectors k j =
      fn (r.eigenvalues j) * r.vectors i j) ∧
    (∀ p : Polynomial ℂ, matrix n n (applyFunctionToOperator A (fun x => p.eval x) r).data =
      Polynomial.aeval (matrix n n A.data) p) := by
  have hfn : ∀ fn : ℂ → ℂ, matrix n n (applyFunctionToOperator A fn r).data * vecMatrix n r.vectors =
      vecMatrix n r.vectors * diagMatrix n (fun j => fn (r.eigenvalues j)) := by
    intro fn
    rw [applyFunction_matrix n A hn, Matrix.nonsing_inv_mul_cancel_right _ _ hr.isUnit_det]
  constructor
  · intro fn j hj i
    have := congrFun (congrFun (hfn fn) i) ⟨j, hj⟩
    rw [Matrix.mul_apply, diagMatrix, Matrix.mul_diagonal] at this
    rw [mul_comm (fn _)]
    exact this
  · intro p
    have hpow : ∀ k : ℕ, matrix n n A.data ^ k * vecMatrix n r.vectors =
        vecMatrix n r.vectors * diagMatrix n (fun j => r.eigenvalues j ^ k) := by
      intro k
      induction k with
      | zero => simp [diagMatrix]
      | succ k ih =>
        rw [pow_succ', Matrix.mul_assoc, ih, ← Matrix.mul_assoc, mul_vecMatrix hr.1, Matrix.mul_assoc]
        congr 1
        simp only [diagMatrix, Matrix.diagonal_mul_diagonal, pow_succ']
    have : Polynomial.aeval (matrix n n A.data) p * vecMatrix n r.vectors =
        vecMatrix n r.vectors * diagMatrix n (fun j => p.eval (r.eigenvalues j)) := by
      induction p using Polynomial.induction_on' with
      | add p q hp hq =>
        rw [map_add, Matrix.add_mul, hp, hq, ← Matrix.mul_add]
        congr 1
        simp only [diagMatrix, Matrix.diagonal_add, Polynomial.eval_add]
      | monomial k c =>
        rw [Polynomial.aeval_monomial, Algebra.algebraMap_eq_smul_one, Matrix.smul_mul, Matrix.one_mul, Matrix.smul_mul, hpow,
          ← Matrix.mul_smul]
        congr 1
        simp only [diagMatrix, Polynomial.eval_monomial]
        rw [← Matrix.diagonal_smul]
        rfl
    rw [applyFunction_matrix n A hn, ← this, Matrix.mul_nonsing_inv_cancel_right _ _ hr.isUnit_det]

/-- **C26.** The basis of eigenstates is a valid orthonormal basis (so that every conversion theorem applies to it), and
in it (the full set) the operator is the diagonal matrix of its eigenvalues. -/
theorem C26_eigenbasis (b : Basis) (hb : Valid b) (ho : OrthonormalParts b) (n m : ℕ) (hn : size b = n) (A : Operator)
    (hA : A.b0 = b ∧ A.b1 = b) (r : EigResult) (hr : IsEigh n m (matrix n n A.data) r.eigenvalues r.vectors) :
    Valid (getEigenstateBasis A m r) ∧ OrthonormalParts (getEigenstateBasis A m r) ∧
      size (getEigenstateBasis A m r) = m ∧ points (getEigenstateBasis A m r) = points b ∧
      ∀ j < m, ∀ x, state (getEigenstateBasis A m r) j x = ∑ i ∈ range n, r.vectors i j * state b i x := by
  have hd : ∀ j, ∀ i < n, block A.b0.n (flatten A.b0.n fun j i => r.vectors i j) j i = r.vectors i j := by
    intro j i hi
    exact block_flatten _ _ (by rw [Basis.n_eq, hA.1, hn]; exact hi)
  refine ⟨?_, ?_, rfl, ?_, ?_⟩
  · simp only [getEigenstateBasis, calculateEigenvectors, Valid]; rw [hA.1]; exact hb
  · simp only [getEigenstateBasis, calculateEigenvectors, OrthonormalParts]
    refine ⟨by rw [hA.1]; exact ho, fun j hj j' hj' => ?_⟩
    rw [← hr.2.2 j hj j' hj', hA.1, hn, sum_range]
    apply sum_congr rfl; intro i _
    have := hd j i i.2
    have h2 := hd j' i i.2
    rw [hA.1] at this h2
    rw [this, h2]
  · simp only [getEigenstateBasis, calculateEigenvectors, points]; rw [hA.1]
  · intro j hj x
    simp only [getEigenstateBasis, calculateEigenvectors, state]
    rw [hA.1, hn]
    apply sum_congr rfl; intro i hi
    have := hd j i (mem_range.1 hi)
    rw [hA.1] at this
    rw [this]

-- hypotheses are met: a Hermitian operator on three momentum states
example : ∃ r : EigResult, IsEigh 3 3 (matrix 3 3 fun k => if k = 4 then 2 else if k = 1 ∨ k = 3 then 1 else 0)
    r.eigenvalues r.vectors := by
  obtain ⟨lam, vec, h⟩ := (C26_contract 3 (matrix 3 3 fun k => if k = 4 then 2 else if k = 1 ∨ k = 3 then 1 else 0)).2 (by
    ext i j
    fin_cases i <;> fin_cases j <;> simp [matrix, Matrix.conjTranspose_apply])
  exact ⟨⟨lam, vec⟩, h⟩

end Verif
