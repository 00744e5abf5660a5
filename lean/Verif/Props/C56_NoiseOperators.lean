import Verif.Spec.Kernel
import Verif.Props.C55_Kernel
import Verif.Lemmas.Eigen
import Mathlib.LinearAlgebra.Matrix.PosDef

/-!
C56, C61, C62: kernels from noise operators, noise operators from kernels, truncation.
-/

set_option autoImplicit false

namespace Verif

open Finset Spec

theorem finSum (n : ℕ) (f : ℕ → ℂ) : ∑ i : Fin n, f i = ∑ i ∈ range n, f i := Fin.sum_univ_eq_sum_range f n

theorem einsumIndex_of_lt {len a : ℕ} (h : a < len) : einsumIndex len a = a := by
  unfold einsumIndex
  split_ifs with h1
  · omega
  · rfl

theorem einsumLength_self (p : ℕ) : einsumLength p p = some p := if_pos rfl

/-- The entries of the kernel of diagonal operators. -/
theorem getDiagonalKernel_entries (ops : DiagonalNoiseOperators) (hN : ops.values = ops.count) :
    ∃ K, getDiagonalKernel ops = some K ∧ ∀ i, ∀ j < ops.dim, K (i * ops.dim + j) =
      noiseKernel (range ops.count) ops.eigenvalue (fun a i => ops.data (a * ops.dim + i)) i j := by
  unfold getDiagonalKernel
  rw [hN, einsumLength_self]
  refine ⟨_, rfl, fun i j hj => ?_⟩
  beta_reduce
  rw [flatten_entry _ _ hj]
  refine sum_congr rfl fun a ha => ?_
  rw [einsumIndex_of_lt (mem_range.1 ha)]

/-- The entries of the kernel of full operators. -/
theorem getFullKernel_entries (ops : NoiseOperators) (hN : ops.values = ops.count) :
    ∃ K, getFullKernel ops = some K ∧ ∀ i < ops.cols, ∀ j < ops.rows, ∀ k < ops.rows, ∀ l < ops.cols,
      K (((i * ops.rows + j) * ops.rows + k) * ops.cols + l) =
      ∑ a ∈ range ops.count, ops.eigenvalue a * (starRingEnd ℂ) (ops.data (a * (ops.rows * ops.cols) + (j * ops.cols + i))) *
        ops.data (a * (ops.rows * ops.cols) + (k * ops.cols + l)) := by
  unfold getFullKernel
  rw [hN, einsumLength_self]
  refine ⟨_, rfl, fun i hi j hj k hk l hl => ?_⟩
  beta_reduce
  rw [flatten4_entry _ _ hj hk hl]
  refine sum_congr rfl fun a ha => ?_
  rw [einsumIndex_of_lt (mem_range.1 ha)]
  have e : ∀ x y, (a * ops.rows + x) * ops.cols + y = a * (ops.rows * ops.cols) + (x * ops.cols + y) := fun x y => by ring
  rw [e, e]

/-! ## C61 -/

open scoped ComplexOrder

/-- **C61.** The kernel of diagonal operators with nonnegative eigenvalues is Hermitian and positive semidefinite. -/
theorem C61_diagonal_posSemidef (ops : DiagonalNoiseOperators) (hN : ops.values = ops.count)
    (hl : ∀ a < ops.count, 0 ≤ ops.eigenvalue a) :
    ∃ K, getDiagonalKernel ops = some K ∧ (toMatrix ops.dim fun i j => K (i * ops.dim + j)).PosSemidef := by
  obtain ⟨K, hK, hv⟩ := getDiagonalKernel_entries ops hN
  refine ⟨K, hK, ?_⟩
  have hsum : (toMatrix ops.dim fun i j => K (i * ops.dim + j)) = ∑ a ∈ range ops.count,
      ops.eigenvalue a • Matrix.vecMulVec (star fun j : Fin ops.dim => ops.data (a * ops.dim + j))
        (star (star fun j : Fin ops.dim => ops.data (a * ops.dim + j))) := by
    ext i j
    rw [Matrix.sum_apply]
    refine (hv i j j.2).trans (sum_congr rfl fun a _ => ?_)
    simp only [Matrix.smul_apply, Matrix.vecMulVec_apply, Pi.star_apply, star_star, smul_eq_mul]
    rw [mul_assoc]
    rfl
  rw [hsum]
  refine Matrix.posSemidef_sum _ fun a ha => ?_
  exact (Matrix.posSemidef_vecMulVec_self_star _).smul (hl a (mem_range.1 ha))

/-- **C61.** The kernel of full operators with nonnegative eigenvalues is Hermitian and positive semidefinite as a form on
operators: `∑ conj (Z (j, i)) K((i, j), (k, l)) Z (k, l) ≥ 0`. -/
theorem C61_full_posSemidef (ops : NoiseOperators) (n : ℕ) (hr : ops.rows = n) (hc : ops.cols = n) (hN : ops.values = ops.count)
    (hl : ∀ a < ops.count, 0 ≤ ops.eigenvalue a) :
    ∃ K, getFullKernel ops = some K ∧ (toMatrix (n * n) fun p q => K (((p % n) * n + p / n) * (n * n) + q)).PosSemidef := by
  obtain ⟨K, hK, hv⟩ := getFullKernel_entries ops hN
  refine ⟨K, hK, ?_⟩
  rw [hr, hc] at hv
  have hsum : (toMatrix (n * n) fun p q => K (((p % n) * n + p / n) * (n * n) + q)) = ∑ a ∈ range ops.count,
      ops.eigenvalue a • Matrix.vecMulVec (star fun p : Fin (n * n) => ops.data (a * (n * n) + p))
        (star (star fun p : Fin (n * n) => ops.data (a * (n * n) + p))) := by
    ext p q
    rw [Matrix.sum_apply]
    have hn : 0 < n := Nat.pos_of_ne_zero fun h => by have := p.2; subst h; simp at this
    have := hv (p % n) (Nat.mod_lt _ hn) (p / n) (Nat.div_lt_of_lt_mul p.2) (q / n) (Nat.div_lt_of_lt_mul q.2) (q % n)
      (Nat.mod_lt _ hn)
    have e : (((p % n) * n + p / n) * n + q / n) * n + q % n = ((p % n) * n + p / n) * (n * n) + (q : ℕ) := by
      conv_rhs => rw [← Nat.div_add_mod' (q : ℕ) n]
      ring
    rw [e, Nat.div_add_mod', Nat.div_add_mod'] at this
    refine this.trans (sum_congr rfl fun a _ => ?_)
    simp only [Matrix.smul_apply, Matrix.vecMulVec_apply, Pi.star_apply, star_star, smul_eq_mul]
    rw [mul_assoc]
    rfl
  rw [hsum]
  refine Matrix.posSemidef_sum _ fun a ha => ?_
  exact (Matrix.posSemidef_vecMulVec_self_star _).smul (hl a (mem_range.1 ha))

/-- The kernel of no more eigenvalues than operators, or the reverse, raises, unless there is exactly one of either. -/
theorem C61_lengths (ops : DiagonalNoiseOperators) :
    getDiagonalKernel ops = none ↔ ops.values ≠ ops.count ∧ ops.values ≠ 1 ∧ ops.count ≠ 1 := by
  unfold getDiagonalKernel einsumLength
  split_ifs with h1 h2 h3 <;> simp [*]

/-- Two operators with different nonnegative eigenvalues. -/
example : ∃ ops : DiagonalNoiseOperators, ops.values = ops.count ∧ (∀ a < ops.count, 0 ≤ ops.eigenvalue a) ∧
    ops.count = 2 ∧ ops.dim = 3 ∧ ops.eigenvalue 0 ≠ ops.eigenvalue 1 := by
  refine ⟨⟨2, 3, fun k => k * Complex.I, 2, fun a => (a : ℂ) + 1⟩, rfl, fun a _ => ?_, rfl, rfl, by norm_num⟩
  show (0 : ℂ) ≤ (a : ℂ) + 1
  exact_mod_cast Nat.zero_le (a + 1)

/-! ## C56 -/

theorem eigh_entries {n : ℕ} {M : Matrix (Fin n) (Fin n) ℂ} {lam : ℕ → ℂ} {vec : ℕ → ℕ → ℂ} (h : IsEigh n n M lam vec)
    (i j : Fin n) : ∑ a ∈ range n, lam a * vec i a * (starRingEnd ℂ) (vec j a) = M i j := by
  have e := h.isEig.eq
  rw [h.inv_eq] at e
  conv_rhs => rw [e]
  rw [Matrix.mul_apply, ← finSum n fun a => lam a * vec i a * (starRingEnd ℂ) (vec j a)]
  refine sum_congr rfl fun a _ => ?_
  rw [diagMatrix, Matrix.mul_diagonal, Matrix.conjTranspose_apply]
  show _ = vec i a * lam a * star (vec j a)
  rw [mul_comm (lam (a : ℕ))]
  rfl

theorem toMatrix_hermitian {n : ℕ} {f : ℕ → ℕ → ℂ} (h : ∀ i < n, ∀ j < n, f i j = (starRingEnd ℂ) (f j i)) :
    toMatrix n f = (toMatrix n f).conjTranspose := by
  ext i j
  rw [Matrix.conjTranspose_apply]
  exact h i i.2 j j.2

/-- **C56.** A Hermitian diagonal kernel has as many noise operators as grid points; they are orthonormal with real eigenvalues
and their kernel is the given one. -/
theorem C56_diagonal (eigh : ∀ N, Matrix (Fin N) (Fin N) ℂ → EigResult) (n : ℕ) (d : ℕ → ℂ)
    (hd : ∀ i < n, ∀ j < n, d (i * n + j) = (starRingEnd ℂ) (d (j * n + i)))
    (he : IsEigh n n (toMatrix n fun i j => d (i * n + j)) (eigh n (toMatrix n fun i j => d (i * n + j))).eigenvalues
      (eigh n (toMatrix n fun i j => d (i * n + j))).vectors) :
    ∃ ops, diagonalEigenOperators eigh n d = some ops ∧ ops.count = n ∧ ops.values = n ∧ ops.dim = n ∧
      (∀ a < n, (ops.eigenvalue a).im = 0) ∧
      (∀ a < n, ∀ b < n, ∑ i ∈ range n, (starRingEnd ℂ) (ops.data (a * n + i)) * ops.data (b * n + i) = if a = b then 1 else 0) ∧
      ∃ K, getDiagonalKernel ops = some K ∧ ∀ k < n * n, K k = d k := by
  have hops : diagonalEigenOperators eigh n d = some _ := if_pos (toMatrix_hermitian hd)
  refine ⟨_, hops, rfl, rfl, rfl, he.1, fun a ha b hb => ?_, ?_⟩
  · have := he.2.2 b hb a ha
    rw [finSum n fun i => (starRingEnd ℂ) ((eigh n (toMatrix n fun i j => d (i * n + j))).vectors i b) *
      (eigh n (toMatrix n fun i j => d (i * n + j))).vectors i a] at this
    rw [show (if a = b then (1 : ℂ) else 0) = if b = a then 1 else 0 by simp only [eq_comm], ← this]
    refine sum_congr rfl fun i hi => ?_
    show (starRingEnd ℂ) (flatten n _ (a * n + i)) * flatten n _ (b * n + i) = _
    rw [flatten_entry _ _ (mem_range.1 hi), flatten_entry _ _ (mem_range.1 hi), Complex.conj_conj, mul_comm]
  · obtain ⟨K, hK, hv⟩ := getDiagonalKernel_entries (⟨n, n, flatten n fun a i => (starRingEnd ℂ)
      ((eigh n (toMatrix n fun i j => d (i * n + j))).vectors i a), n, (eigh n (toMatrix n fun i j => d (i * n + j))).eigenvalues⟩
        : DiagonalNoiseOperators) rfl
    refine ⟨K, hK, fun k hk => ?_⟩
    have hn : 0 < n := Nat.pos_of_ne_zero fun h => by subst h; simp at hk
    have h1 : k / n < n := Nat.div_lt_of_lt_mul hk
    have h2 : k % n < n := Nat.mod_lt _ hn
    have := hv (k / n) (k % n) h2
    dsimp only at this
    rw [Nat.div_add_mod'] at this
    rw [this]
    have e := eigh_entries he ⟨k / n, h1⟩ ⟨k % n, h2⟩
    refine Eq.trans ?_ (e.trans (by show d (k / n * n + k % n) = _; rw [Nat.div_add_mod']))
    refine sum_congr rfl fun a _ => ?_
    beta_reduce
    rw [flatten_entry _ _ h1, flatten_entry _ _ h2, Complex.conj_conj]

/-- A kernel that is not Hermitian is refused. -/
theorem C56_diagonal_refused (eigh : ∀ N, Matrix (Fin N) (Fin N) ℂ → EigResult) (n : ℕ) (d : ℕ → ℂ) (i j : ℕ) (hi : i < n)
    (hj : j < n) (hd : d (i * n + j) ≠ (starRingEnd ℂ) (d (j * n + i))) : diagonalEigenOperators eigh n d = none := by
  unfold diagonalEigenOperators
  refine if_neg fun h => hd ?_
  exact congrFun (congrFun h ⟨i, hi⟩) ⟨j, hj⟩

/-- **C56.** A kernel on `n × n` operators which is Hermitian, `K((i, j), (k, l)) = conj K((l, k), (j, i))`, has `n²` noise
operators; they are orthonormal with real eigenvalues and their kernel is the given one. -/
theorem C56_full (eigh : ∀ N, Matrix (Fin N) (Fin N) ℂ → EigResult) (n : ℕ) (K : ℕ → ℂ)
    (hd : ∀ i < n, ∀ j < n, ∀ k < n, ∀ l < n, K (((i * n + j) * n + k) * n + l) =
      (starRingEnd ℂ) (K (((l * n + k) * n + j) * n + i)))
    (he : ∀ M : Matrix (Fin (n * n)) (Fin (n * n)) ℂ, M.conjTranspose = M →
      IsEigh (n * n) (n * n) M (eigh (n * n) M).eigenvalues (eigh (n * n) M).vectors) :
    ∃ ops, eigenOperators eigh n K = some ops ∧ ops.count = n * n ∧ ops.values = n * n ∧ ops.rows = n ∧ ops.cols = n ∧
      (∀ a < n * n, (ops.eigenvalue a).im = 0) ∧
      (∀ a < n * n, ∀ b < n * n, ∑ p ∈ range (n * n), (starRingEnd ℂ) (ops.data (a * (n * n) + p)) * ops.data (b * (n * n) + p) =
        if a = b then 1 else 0) ∧
      ∃ K', getFullKernel ops = some K' ∧ ∀ k < n * n * (n * n), K' k = K k := by
  have hherm : toMatrix (n * n) (fun p q => K (((p % n) * n + p / n) * (n * n) + q)) =
      (toMatrix (n * n) fun p q => K (((p % n) * n + p / n) * (n * n) + q)).conjTranspose := by
    refine toMatrix_hermitian fun p hp q hq => ?_
    have hn : 0 < n := Nat.pos_of_ne_zero fun h => by subst h; simp at hp
    have := hd (p % n) (Nat.mod_lt _ hn) (p / n) (Nat.div_lt_of_lt_mul hp) (q / n) (Nat.div_lt_of_lt_mul hq) (q % n)
      (Nat.mod_lt _ hn)
    have e : ∀ c q : ℕ, (c * n + q / n) * n + q % n = c * (n * n) + q := fun c q => by
      conv_rhs => rw [← Nat.div_add_mod' q n]
      ring
    rw [e, e] at this
    exact this
  have hops : eigenOperators eigh n K = some _ := if_pos hherm
  obtain ⟨M, hM⟩ : ∃ M, M = toMatrix (n * n) fun p q => K (((p % n) * n + p / n) * (n * n) + q) := ⟨_, rfl⟩
  rw [← hM] at hops hherm
  have h := he M hherm.symm
  refine ⟨_, hops, rfl, rfl, rfl, rfl, h.1, fun a ha b hb => ?_, ?_⟩
  · have := h.2.2 b hb a ha
    rw [finSum (n * n) fun i => (starRingEnd ℂ) ((eigh (n * n) M).vectors i b) * (eigh (n * n) M).vectors i a] at this
    rw [show (if a = b then (1 : ℂ) else 0) = if b = a then 1 else 0 by simp only [eq_comm], ← this]
    refine sum_congr rfl fun i hi => ?_
    show (starRingEnd ℂ) (flatten (n * n) _ (a * (n * n) + i)) * flatten (n * n) _ (b * (n * n) + i) = _
    rw [flatten_entry _ _ (mem_range.1 hi), flatten_entry _ _ (mem_range.1 hi), Complex.conj_conj, mul_comm]
  · obtain ⟨K', hK', hv⟩ := getFullKernel_entries (⟨n * n, n, n, flatten (n * n) fun a p => (starRingEnd ℂ)
      ((eigh (n * n) M).vectors p a), n * n, (eigh (n * n) M).eigenvalues⟩ : NoiseOperators) rfl
    refine ⟨K', hK', fun k hk => ?_⟩
    dsimp only at hv
    have hn : 0 < n := Nat.pos_of_ne_zero fun h => by subst h; simp at hk
    obtain ⟨p, q, hp, hq, rfl⟩ : ∃ p q, p < n * n ∧ q < n * n ∧ k = p * (n * n) + q :=
      ⟨k / (n * n), k % (n * n), Nat.div_lt_of_lt_mul hk, Nat.mod_lt _ (by positivity), (Nat.div_add_mod' _ _).symm⟩
    have hp1 := Nat.div_lt_of_lt_mul hp
    have hq1 := Nat.div_lt_of_lt_mul hq
    have hp2 := Nat.mod_lt p hn
    have hq2 := Nat.mod_lt q hn
    have e : ∀ c q : ℕ, (c * n + q / n) * n + q % n = c * (n * n) + q := fun c q => by
      conv_rhs => rw [← Nat.div_add_mod' q n]
      ring
    have := hv (p / n) hp1 (p % n) hp2 (q / n) hq1 (q % n) hq2
    rw [e, Nat.div_add_mod', Nat.div_add_mod'] at this
    rw [this]
    have hp' : p % n * n + p / n < n * n := add_mul_lt hp2 hp1
    have e2 := eigh_entries h ⟨p % n * n + p / n, hp'⟩ ⟨q, hq⟩
    refine Eq.trans ?_ (e2.trans ?_)
    · refine sum_congr rfl fun a _ => ?_
      rw [flatten_entry _ _ hp', flatten_entry _ _ hq, Complex.conj_conj]
    · rw [hM]
      show K (((p % n * n + p / n) % n * n + (p % n * n + p / n) / n) * (n * n) + q) = _
      have f1 : (p % n * n + p / n) % n = p / n := by
        rw [Nat.mul_comm, Nat.mul_add_mod, Nat.mod_eq_of_lt hp1]
      have f2 : (p % n * n + p / n) / n = p % n := by
        rw [Nat.mul_comm, Nat.mul_add_div hn, Nat.div_eq_of_lt hp1, add_zero]
      rw [f1, f2, Nat.div_add_mod']

/-- There is an eigenvalue routine as required: every Hermitian matrix has a spectral decomposition. -/
theorem exists_eigh : ∃ eigh : ∀ N, Matrix (Fin N) (Fin N) ℂ → EigResult, ∀ N M, M.conjTranspose = M →
    IsEigh N N M (eigh N M).eigenvalues (eigh N M).vectors := by
  classical
  refine ⟨fun N M => if h : M.conjTranspose = M then
    ⟨(exists_isEigh M h).choose, (exists_isEigh M h).choose_spec.choose⟩ else ⟨fun _ => 0, fun _ _ => 0⟩, fun N M h => ?_⟩
  beta_reduce
  rw [dif_pos h]
  exact (exists_isEigh M h).choose_spec.choose_spec

/-- A Hermitian kernel on two points which is not real. -/
example : ∃ d : ℕ → ℂ, d 1 = Complex.I ∧ ∀ i < 2, ∀ j < 2, d (i * 2 + j) = (starRingEnd ℂ) (d (j * 2 + i)) := by
  refine ⟨fun k => if k = 1 then Complex.I else if k = 2 then -Complex.I else 1, rfl, fun i hi j hj => ?_⟩
  obtain rfl | rfl : i = 0 ∨ i = 1 := by omega
  all_goals obtain rfl | rfl : j = 0 ∨ j = 1 := by omega
  all_goals simp

/-! ## C61, converse -/

/-- A positive semidefinite kernel has noise operators with nonnegative eigenvalues. -/
theorem C61_eigenvalues_nonneg (eigh : ∀ N, Matrix (Fin N) (Fin N) ℂ → EigResult) (n : ℕ) (d : ℕ → ℂ)
    (hd : (toMatrix n fun i j => d (i * n + j)).PosSemidef)
    (he : IsEigh n n (toMatrix n fun i j => d (i * n + j)) (eigh n (toMatrix n fun i j => d (i * n + j))).eigenvalues
      (eigh n (toMatrix n fun i j => d (i * n + j))).vectors) :
    ∃ ops, diagonalEigenOperators eigh n d = some ops ∧ ∀ a < n, 0 ≤ ops.eigenvalue a := by
  have hops : diagonalEigenOperators eigh n d = some _ := if_pos hd.1.symm
  refine ⟨_, hops, fun a ha => ?_⟩
  show 0 ≤ (eigh n (toMatrix n fun i j => d (i * n + j))).eigenvalues a
  obtain ⟨lam, hlam⟩ : ∃ lam, lam = (eigh n (toMatrix n fun i j => d (i * n + j))).eigenvalues := ⟨_, rfl⟩
  obtain ⟨vec, hvec⟩ : ∃ vec, vec = (eigh n (toMatrix n fun i j => d (i * n + j))).vectors := ⟨_, rfl⟩
  obtain ⟨M, hM⟩ : ∃ M, M = toMatrix n fun i j => d (i * n + j) := ⟨_, rfl⟩
  rw [← hlam, ← hvec, ← hM] at he
  rw [← hlam]
  rw [← hM] at hd
  have h1 := hd.dotProduct_mulVec_nonneg fun i : Fin n => vec i a
  have h2 : M.mulVec (fun i : Fin n => vec i a) = lam a • fun i : Fin n => vec i a := funext fun i => he.2.1 a ha i
  rw [h2, dotProduct_smul] at h1
  have h3 : (star fun i : Fin n => vec i a) ⬝ᵥ (fun i : Fin n => vec i a) = 1 := by
    have := he.2.2 a ha a ha
    rw [if_pos rfl] at this
    exact this
  rwa [h3, smul_eq_mul, mul_one] at h1

/-- The kernel which is one at equal points, and zero otherwise, on two points. -/
example : ∃ (eigh : ∀ N, Matrix (Fin N) (Fin N) ℂ → EigResult) (d : ℕ → ℂ), (toMatrix 2 fun i j => d (i * 2 + j)).PosSemidef ∧
    IsEigh 2 2 (toMatrix 2 fun i j => d (i * 2 + j)) (eigh 2 (toMatrix 2 fun i j => d (i * 2 + j))).eigenvalues
      (eigh 2 (toMatrix 2 fun i j => d (i * 2 + j))).vectors := by
  have h1 : (toMatrix 2 fun i j => (fun k : ℕ => if k = 0 ∨ k = 3 then (1 : ℂ) else 0) (i * 2 + j)) = 1 := by
    ext i j
    fin_cases i <;> fin_cases j <;> simp [toMatrix]
  obtain ⟨lam, vec, h⟩ := exists_isEigh (1 : Matrix (Fin 2) (Fin 2) ℂ) Matrix.conjTranspose_one
  refine ⟨fun _ _ => ⟨lam, vec⟩, fun k => if k = 0 ∨ k = 3 then 1 else 0, ?_, ?_⟩
  · rw [h1]
    exact Matrix.PosSemidef.one
  · rw [h1]
    exact h

end Verif
