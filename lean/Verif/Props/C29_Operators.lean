import Verif.Model.Operator
import Mathlib.Algebra.BigOperators.Field
import Verif.Spec.Matrix
import Verif.Props.C25_States
import Verif.Props.C03_Index

/-!
# C29, C31: operator algebra, diagonal operators
-/

set_option autoImplicit false

namespace Verif

open Finset Spec

/-! ## Elementwise operations -/

theorem broadcastRev_self : ∀ s : List ℕ, broadcastRev s s = some s
  | [] => rfl
  | a :: s => by simp [broadcastRev, broadcastRev_self s]

theorem broadcastIndexRev_self : ∀ (s idx : List ℕ), s.length = idx.length → (∀ p ∈ s.zip idx, p.2 < p.1) →
    broadcastIndexRev s idx = idx
  | [], [], _, _ => rfl
  | n :: s, i :: idx, hl, h => by
    have h1 : i < n := h (n, i) (by simp)
    rw [broadcastIndexRev, broadcastIndexRev_self s idx (by simpa using hl) fun p hp => h p (by simp [hp])]
    congr 1
    split <;> omega

theorem inShape_zip : ∀ (s idx : List ℕ), InShape s idx → s.length = idx.length ∧ ∀ p ∈ s.zip idx, p.2 < p.1
  | [], [], _ => by simp
  | [], _ :: _, h => by simp [InShape] at h
  | _ :: _, [], h => by simp [InShape] at h
  | n :: s, i :: idx, h => by
    obtain ⟨h1, h2⟩ := inShape_zip s idx h.2
    refine ⟨by simp [h1], fun p hp => ?_⟩
    simp only [List.zip_cons_cons, List.mem_cons] at hp
    rcases hp with rfl | hp
    · exact h.1
    · exact h2 p hp

theorem broadcastTo_self (s : List ℕ) (data : ℕ → ℂ) {k : ℕ} (hk : k < s.prod) : broadcastTo s s data k = data k := by
  unfold broadcastTo
  obtain ⟨h1, h2⟩ := inShape_zip s _ (unravel_inShape s k hk)
  rw [broadcastIndexRev_self _ _ (by simp [h1]), List.reverse_reverse, ravel_unravel s k hk]
  intro p hp
  have hz : s.reverse.zip (unravel s k).reverse = (s.zip (unravel s k)).reverse := by
    simp only [List.zip]
    exact (List.reverse_zipWith h1).symm
  rw [hz] at hp
  exact h2 p (List.mem_reverse.1 hp)

theorem elementwise_self (op : ℂ → ℂ → ℂ) (s : List ℕ) (x y : ℕ → ℂ) :
    ∃ r, elementwise op s s x y = some (s, r) ∧ ∀ k < s.prod, r k = op (x k) (y k) := by
  refine ⟨_, by simp [elementwise, broadcastShape, broadcastRev_self]; rfl, fun k hk => ?_⟩
  beta_reduce
  rw [broadcastTo_self s x hk, broadcastTo_self s y hk]

theorem add_mul_lt {i j m n : ℕ} (hi : i < m) (hj : j < n) : i * n + j < m * n :=
  calc i * n + j < i * n + n := by omega
    _ = (i + 1) * n := by ring
    _ ≤ m * n := Nat.mul_le_mul_right _ hi

theorem flatten_entry {n : ℕ} (f : ℕ → ℕ → ℂ) (i : ℕ) {j : ℕ} (hj : j < n) : flatten n f (i * n + j) = f i j :=
  block_flatten f i hj

theorem flatten3_entry {p q : ℕ} (f : ℕ → ℕ → ℕ → ℂ) (m : ℕ) {i j : ℕ} (hi : i < p) (hj : j < q) :
    flatten3 p q f (m * (p * q) + (i * q + j)) = f m i j := by
  unfold flatten3
  rw [flatten_entry _ m (add_mul_lt hi hj), flatten_entry _ i hj]

/-! ## C29 -/

/-- The data of an operator is stored flat or as a two-dimensional array. -/
def Stored (A : Operator) : Prop := A.shape = [size A.b0 * size A.b1] ∨ A.shape = [size A.b0, size A.b1]

/-- **C29.** Multiplying operators multiplies their matrices; it raises exactly for different inner sizes. -/
theorem C29_matmul (l m n : ℕ) (A B : Operator) (h0 : size A.b0 = l) (h1 : size A.b1 = m) (h1' : size B.b0 = m)
    (h2 : size B.b1 = n) :
    ∃ C, matmulOperator A B = some C ∧ C.b0 = A.b0 ∧ C.b1 = B.b1 ∧ C.shape = [l, n] ∧
      matrix l n C.data = matrix l m A.data * matrix m n B.data := by
  refine ⟨_, if_pos (by rw [Basis.n_eq, Basis.n_eq, h1, h1']), rfl, rfl, by simp [Basis.n_eq, h0, h2], ?_⟩
  ext i j
  rw [Matrix.mul_apply]
  simp only [matrix, Operator.entry, Basis.n_eq, h1, h2]
  rw [flatten_entry _ _ j.2, sum_range]

theorem C29_matmul_raises (A B : Operator) : matmulOperator A B = none ↔ size A.b1 ≠ size B.b0 := by
  unfold matmulOperator
  rw [Basis.n_eq, Basis.n_eq]
  split <;> simp_all

/-- **C29, the part which holds.** Operators whose data arrays have the same layout add and subtract like matrices.
Missing: a two-dimensional array (as returned by `matmul_operator`, the commutators, `as_operator`) and a flat one
cannot be added (`C29_negation`). -/
theorem C29_add_partial (m n : ℕ) (A B : Operator) (h0 : size A.b0 = m) (h1 : size A.b1 = n) (hA : Stored A)
    (hAB : A.shape = B.shape) :
    ∃ C D, addOperator A B = some C ∧ subtractOperator A B = some D ∧
      C.shape = A.shape ∧ D.shape = A.shape ∧ C.b0 = A.b0 ∧ C.b1 = A.b1 ∧ D.b0 = A.b0 ∧ D.b1 = A.b1 ∧
      matrix m n C.data = matrix m n A.data + matrix m n B.data ∧
      matrix m n D.data = matrix m n A.data - matrix m n B.data := by
  have hprod : A.shape.prod = m * n := by rcases hA with h | h <;> simp [h, h0, h1]
  obtain ⟨r, hr, hr'⟩ := elementwise_self (· + ·) A.shape A.data B.data
  obtain ⟨q, hq, hq'⟩ := elementwise_self (· - ·) A.shape A.data B.data
  refine ⟨⟨A.b0, A.b1, A.shape, r⟩, ⟨A.b0, A.b1, A.shape, q⟩, ?_, ?_, rfl, rfl, rfl, rfl, rfl, rfl, ?_, ?_⟩
  · rw [addOperator, ← hAB, hr]; rfl
  · rw [subtractOperator, ← hAB, hq]; rfl
  · ext i j
    exact hr' _ (by rw [hprod]; exact add_mul_lt i.2 j.2)
  · ext i j
    exact hq' _ (by rw [hprod]; exact add_mul_lt i.2 j.2)

/-- **C29 fails**: for every basis with at least two states the product of two operators cannot be added to (or
subtracted from) an operator stored as the documented flat array. -/
theorem C29_negation (b : Basis) (hb : 2 ≤ size b) (A B C : Operator) (hA : A.b0 = b ∧ A.b1 = b)
    (hB : B.b0 = b ∧ B.b1 = b) (hC : C.shape = [size b * size b]) :
    ∃ P, matmulOperator A B = some P ∧ addOperator P C = none ∧ subtractOperator P C = none ∧
      addOperator C P = none := by
  obtain ⟨P, hP, _, _, hs, _⟩ := C29_matmul (size b) (size b) (size b) A B (by rw [hA.1]) (by rw [hA.2])
    (by rw [hB.1]) (by rw [hB.2])
  have h1 : size b ≠ size b * size b := by nlinarith
  have h2 : size b * size b ≠ 1 := by nlinarith
  have h3 : size b ≠ 1 := by omega
  refine ⟨P, hP, ?_, ?_, ?_⟩ <;>
    simp [addOperator, subtractOperator, elementwise, broadcastShape, broadcastRev, hs, hC, h1, h2, h3, h1.symm]

/-- **C29.** The commutator and anticommutator of two operators in one basis are `AB - BA` and `AB + BA`. -/
theorem C29_commutator (b : Basis) (n : ℕ) (hn : size b = n) (A B : Operator) (hA : A.b0 = b ∧ A.b1 = b)
    (hB : B.b0 = b ∧ B.b1 = b) :
    ∃ C D, getCommutator A B = some C ∧ getAntiCommutator A B = some D ∧ C.b0 = b ∧ C.b1 = b ∧ D.b0 = b ∧ D.b1 = b ∧
      C.shape = [n, n] ∧ D.shape = [n, n] ∧
      matrix n n C.data = matrix n n A.data * matrix n n B.data - matrix n n B.data * matrix n n A.data ∧
      matrix n n D.data = matrix n n A.data * matrix n n B.data + matrix n n B.data * matrix n n A.data := by
  obtain ⟨P, hP, p0, p1, ps, pm⟩ := C29_matmul n n n A B (by rw [hA.1, hn]) (by rw [hA.2, hn]) (by rw [hB.1, hn])
    (by rw [hB.2, hn])
  obtain ⟨Q, hQ, q0, q1, qs, qm⟩ := C29_matmul n n n B A (by rw [hB.1, hn]) (by rw [hB.2, hn]) (by rw [hA.1, hn])
    (by rw [hA.2, hn])
  obtain ⟨D, C, hD, hC, ds, cs, d0, d1, c0, c1, dm, cm⟩ := C29_add_partial n n P Q (by rw [p0, hA.1, hn])
    (by rw [p1, hB.2, hn]) (Or.inr (by rw [ps, p0, p1, hA.1, hB.2, hn])) (by rw [ps, qs])
  refine ⟨C, D, ?_, ?_, ?_, ?_, ?_, ?_, ?_, ?_, ?_, ?_⟩
  · simp [getCommutator, hP, hQ, hC]
  · simp [getAntiCommutator, hP, hQ, hD]
  · rw [c0, p0, hA.1]
  · rw [c1, p1, hB.2]
  · rw [d0, p0, hA.1]
  · rw [d1, p1, hB.2]
  · rw [cs, ps]
  · rw [ds, ps]
  · rw [cm, pm, qm]
  · rw [dm, pm, qm]

/-- **C29.** Ring laws through the programming interface: products associate, products distribute over sums of
products, and commutators satisfy the Jacobi identity. -/
theorem C29_ring_laws (b : Basis) (n : ℕ) (hn : size b = n) (A B C : Operator) (hA : A.b0 = b ∧ A.b1 = b)
    (hB : B.b0 = b ∧ B.b1 = b) (hC : C.b0 = b ∧ C.b1 = b) :
    (∃ X Y, (matmulOperator A B).bind (fun AB => matmulOperator AB C) = some X ∧
      (matmulOperator B C).bind (fun BC => matmulOperator A BC) = some Y ∧
      matrix n n X.data = matrix n n Y.data) ∧
    (B.shape = C.shape → Stored B →
      ∃ X Y, (addOperator B C).bind (fun S => matmulOperator A S) = some X ∧
        (matmulOperator A B).bind (fun AB => (matmulOperator A C).bind fun AC => addOperator AB AC) = some Y ∧
        matrix n n X.data = matrix n n Y.data) ∧
    (∃ X Y Z, (getCommutator B C).bind (getCommutator A) = some X ∧ (getCommutator C A).bind (getCommutator B) = some Y ∧
      (getCommutator A B).bind (getCommutator C) = some Z ∧
      matrix n n X.data + matrix n n Y.data + matrix n n Z.data = 0) := by
  have mm : ∀ A B : Operator, (A.b0 = b ∧ A.b1 = b) → (B.b0 = b ∧ B.b1 = b) → ∃ C, matmulOperator A B = some C ∧
      (C.b0 = b ∧ C.b1 = b) ∧ C.shape = [n, n] ∧ matrix n n C.data = matrix n n A.data * matrix n n B.data := by
    intro A B hA hB
    obtain ⟨P, hP, p0, p1, ps, pm⟩ := C29_matmul n n n A B (by rw [hA.1, hn]) (by rw [hA.2, hn]) (by rw [hB.1, hn])
      (by rw [hB.2, hn])
    exact ⟨P, hP, ⟨by rw [p0, hA.1], by rw [p1, hB.2]⟩, ps, pm⟩
  refine ⟨?_, ?_, ?_⟩
  · obtain ⟨P, hP, pb, _, pm⟩ := mm A B hA hB
    obtain ⟨X, hX, _, _, xm⟩ := mm P C pb hC
    obtain ⟨Q, hQ, qb, _, qm⟩ := mm B C hB hC
    obtain ⟨Y, hY, _, _, ym⟩ := mm A Q hA qb
    exact ⟨X, Y, by simp [hP, hX], by simp [hQ, hY], by rw [xm, ym, pm, qm, Matrix.mul_assoc]⟩
  · intro hs hst
    obtain ⟨S, _, hS, _, _, _, s0, s1, _, _, sm, _⟩ := C29_add_partial n n B C (by rw [hB.1, hn]) (by rw [hB.2, hn]) hst hs
    obtain ⟨X, hX, _, _, xm⟩ := mm A S hA ⟨by rw [s0, hB.1], by rw [s1, hB.2]⟩
    obtain ⟨P, hP, pb, ps, pm⟩ := mm A B hA hB
    obtain ⟨Q, hQ, qb, qs, qm⟩ := mm A C hA hC
    obtain ⟨Y, _, hY, _, _, _, _, _, _, _, ym, _⟩ := C29_add_partial n n P Q (by rw [pb.1, hn]) (by rw [pb.2, hn])
      (Or.inr (by rw [ps, pb.1, pb.2, hn])) (by rw [ps, qs])
    exact ⟨X, Y, by simp [hS, hX], by simp [hP, hQ, hY], by rw [xm, ym, sm, pm, qm, Matrix.mul_add]⟩
  · have cc : ∀ A B : Operator, (A.b0 = b ∧ A.b1 = b) → (B.b0 = b ∧ B.b1 = b) → ∃ C, getCommutator A B = some C ∧
        (C.b0 = b ∧ C.b1 = b) ∧
        matrix n n C.data = matrix n n A.data * matrix n n B.data - matrix n n B.data * matrix n n A.data := by
      intro A B hA hB
      obtain ⟨C, _, hC, _, c0, c1, _, _, _, _, cm, _⟩ := C29_commutator b n hn A B hA hB
      exact ⟨C, hC, ⟨c0, c1⟩, cm⟩
    obtain ⟨P, hP, pb, pm⟩ := cc B C hB hC
    obtain ⟨Q, hQ, qb, qm⟩ := cc C A hC hA
    obtain ⟨R, hR, rb, rm⟩ := cc A B hA hB
    obtain ⟨X, hX, _, xm⟩ := cc A P hA pb
    obtain ⟨Y, hY, _, ym⟩ := cc B Q hB qb
    obtain ⟨Z, hZ, _, zm⟩ := cc C R hC rb
    refine ⟨X, Y, Z, by simp [hP, hX], by simp [hQ, hY], by simp [hR, hZ], ?_⟩
    rw [xm, ym, zm, pm, qm, rm]
    noncomm_ring

/-- **C29.** Applying an operator to a state: `eigenvalue * data` is the matrix applied to the state (converted to the
basis of the operator) and `data` has norm one, unless the result is zero. -/
theorem C29_apply (same : Basis → Basis → Bool) (A : Operator) (v : StateVector) (c : StateVector)
    (hc : convertStateVector same v A.b1 = some c) :
    ∃ e, applyOperatorToState same A v = some e ∧ e.basis = A.b0 ∧
      (∀ i < size A.b0, e.eigenvalue * e.data i =
        ∑ k ∈ range (size A.b1), A.data (i * size A.b1 + k) * c.data k) ∧
      (e.eigenvalue.im = 0 ∧ 0 ≤ e.eigenvalue.re) ∧
      (e.eigenvalue ≠ 0 → ∑ i ∈ range (size A.b0), ‖e.data i‖ ^ 2 = 1) ∧
      (e.eigenvalue = 0 ↔ ∀ i < size A.b0, ∑ k ∈ range (size A.b1), A.data (i * size A.b1 + k) * c.data k = 0) := by
  have hnorm : ∀ z : ℂ, ‖z ^ 2‖ = ‖z‖ ^ 2 := fun z => norm_pow z 2
  set d : ℕ → ℂ := fun i => ∑ k ∈ range (size A.b1), A.data (i * size A.b1 + k) * c.data k with hd
  set s : ℝ := ∑ i ∈ range (size A.b0), ‖d i‖ ^ 2 with hs
  have hs0 : 0 ≤ s := sum_nonneg fun i _ => by positivity
  have e : applyOperatorToState same A v = some ⟨A.b0, fun i => d i / (Real.sqrt s : ℂ), (Real.sqrt s : ℂ)⟩ := by
    simp only [applyOperatorToState, hc, Option.map_some, Operator.entry, Basis.n_eq, hnorm, hs, hd]
  have hzero : Real.sqrt s = 0 → ∀ i < size A.b0, d i = 0 := by
    intro h i hi
    rw [Real.sqrt_eq_zero hs0, hs, sum_eq_zero_iff_of_nonneg fun i _ => by positivity] at h
    simpa using h i (mem_range.2 hi)
  refine ⟨_, e, rfl, ?_, ?_, ?_, ?_⟩
  · intro i hi
    show (Real.sqrt s : ℂ) * (d i / (Real.sqrt s : ℂ)) = d i
    by_cases h : Real.sqrt s = 0
    · rw [h, hzero h i hi]; simp
    · exact mul_div_cancel₀ _ (by exact_mod_cast h)
  · exact ⟨Complex.ofReal_im _, by rw [Complex.ofReal_re]; exact Real.sqrt_nonneg _⟩
  · intro h
    have h' : Real.sqrt s ≠ 0 := fun h0 => h (by show (Real.sqrt s : ℂ) = 0; rw [h0]; simp)
    show ∑ i ∈ range (size A.b0), ‖d i / (Real.sqrt s : ℂ)‖ ^ 2 = 1
    simp only [norm_div, Complex.norm_real, Real.norm_eq_abs, abs_of_nonneg (Real.sqrt_nonneg s), div_pow,
      Real.sq_sqrt hs0]
    rw [← Finset.sum_div, ← hs]
    apply div_self
    intro h0; rw [h0] at h'; simp at h'
  · show (Real.sqrt s : ℂ) = 0 ↔ ∀ i < size A.b0, d i = 0
    constructor
    · intro h; exact hzero (by exact_mod_cast h)
    · intro h
      have : s = 0 := by
        rw [hs]; exact sum_eq_zero fun i hi => by rw [h i (mem_range.1 hi)]; simp
      rw [this]; simp

/-- **C29.** Applying a product is applying the factors one after the other: with the eigenvalues as scale factors both
give the same vector. -/
theorem C29_apply_product (same : Basis → Basis → Bool) (hs : Sound same) (b : Basis) (hb : Valid b)
    (ho : OrthonormalParts b) (A B : Operator) (hA : A.b0 = b ∧ A.b1 = b) (hB : B.b0 = b ∧ B.b1 = b) (v : ℕ → ℂ) :
    ∃ e f g, (matmulOperator A B).bind (fun P => applyOperatorToState same P ⟨b, v⟩) = some e ∧
      applyOperatorToState same B ⟨b, v⟩ = some f ∧ applyOperatorToState same A ⟨f.basis, f.data⟩ = some g ∧
      ∀ i < size b, e.eigenvalue * e.data i = f.eigenvalue * (g.eigenvalue * g.data i) := by
  obtain ⟨_, c, hc, kc⟩ := C18_same_partial same hs b hb ho
  obtain ⟨P, hP, p0, p1, _, pm⟩ := C29_matmul (size b) (size b) (size b) A B (by rw [hA.1]) (by rw [hA.2])
    (by rw [hB.1]) (by rw [hB.2])
  have cv : ∀ w : ℕ → ℂ, ∀ M : Operator, M.b1 = b → convertStateVector same ⟨b, w⟩ M.b1 = some ⟨b, c w⟩ := by
    intro w M hM; simp [convertStateVector, hM, hc]
  obtain ⟨e, he, _, em, _⟩ := C29_apply same P ⟨b, v⟩ _ (cv v P (by rw [p1, hB.2]))
  obtain ⟨f, hf, fb, fm, _⟩ := C29_apply same B ⟨b, v⟩ _ (cv v B hB.2)
  have fb' : f.basis = b := by rw [fb, hB.1]
  obtain ⟨g, hg, _, gm, _⟩ := C29_apply same A ⟨f.basis, f.data⟩ ⟨b, c f.data⟩ (by rw [fb']; exact cv f.data A hA.2)
  refine ⟨e, f, g, by simp [hP, he], hf, hg, fun i hi => ?_⟩
  rw [em i (by rw [p0, hA.1]; exact hi), gm i (by rw [hA.1]; exact hi)]
  rw [p1, hB.2, hA.2]
  have hPe : ∀ k < size b, P.data (i * size b + k) =
      ∑ t ∈ range (size b), A.data (i * size b + t) * B.data (t * size b + k) := by
    intro k hk
    have := congrFun (congrFun pm ⟨i, hi⟩) ⟨k, hk⟩
    rw [Matrix.mul_apply] at this
    simp only [matrix] at this
    rw [this, sum_range]
  have hfe : ∀ t < size b, f.eigenvalue * f.data t = ∑ k ∈ range (size b), B.data (t * size b + k) * v k := by
    intro t ht
    rw [fm t (by rw [hB.1]; exact ht), hB.2]
    exact sum_congr rfl fun k hk => by dsimp only; rw [kc v k (mem_range.1 hk)]
  calc ∑ k ∈ range (size b), P.data (i * size b + k) * c v k
      = ∑ k ∈ range (size b), (∑ t ∈ range (size b), A.data (i * size b + t) * B.data (t * size b + k)) * v k :=
        sum_congr rfl fun k hk => by rw [hPe k (mem_range.1 hk), kc v k (mem_range.1 hk)]
    _ = ∑ t ∈ range (size b), A.data (i * size b + t) * ∑ k ∈ range (size b), B.data (t * size b + k) * v k := by
        simp only [sum_mul, mul_sum]
        rw [sum_comm]
        exact sum_congr rfl fun t _ => sum_congr rfl fun k _ => by ring
    _ = f.eigenvalue * ∑ t ∈ range (size b), A.data (i * size b + t) * c f.data t := by
        rw [mul_sum]
        apply sum_congr rfl; intro t ht
        rw [kc _ t (mem_range.1 ht), ← hfe t (mem_range.1 ht)]; ring

/-! ## Lists of operators -/

theorem convertMatrix_same (same : Basis → Basis → Bool) (hs : Sound same) (a b : Basis) (ha : Valid a) (hb : Valid b)
    (hoa : OrthonormalParts a) (hob : OrthonormalParts b) :
    ∃ f, convertMatrix same a a b b = some f ∧ ∀ M, ∀ i < size a, ∀ j < size b, f M i j = M i j := by
  obtain ⟨_, f, hf, kf⟩ := C18_same_partial same hs a ha hoa
  obtain ⟨_, g, hg, kg⟩ := C18_same_partial same hs b hb hob
  refine ⟨_, by simp only [convertMatrix, convertDual, hf, hg, Option.map_some, Option.bind_some]; rfl, ?_⟩
  intro M i hi j hj
  show conjVec (g (conjVec _)) j = M i j
  unfold conjVec
  rw [kg _ j hj, Complex.conj_conj]
  exact kf _ i hi

/-- **C29, lists.** Multiplying a list of operators by an operator, on either side, multiplies each matrix (all in one
basis). -/
theorem C29_list_matmul (same : Basis → Basis → Bool) (hs : Sound same) (b : Basis) (hb : Valid b)
    (ho : OrthonormalParts b) (n : ℕ) (hn : size b = n) (A : Operator) (hA : A.b0 = b ∧ A.b1 = b) (L : OperatorList)
    (hL : L.b0 = b ∧ L.b1 = b) :
    ∃ X Y, matmulOperatorList same A L = some X ∧ matmulListOperator same L A = some Y ∧
      X.listBasis = L.listBasis ∧ Y.listBasis = L.listBasis ∧
      X.b0 = b ∧ X.b1 = b ∧ Y.b0 = b ∧ Y.b1 = b ∧
      ∀ t, matrixAt n n X.data t = matrix n n A.data * matrixAt n n L.data t ∧
        matrixAt n n Y.data t = matrixAt n n L.data t * matrix n n A.data := by
  obtain ⟨f, hf, kf⟩ := convertMatrix_same same hs b b hb hb ho ho
  obtain ⟨a0, a1, as, ad⟩ := A
  obtain ⟨lb, l0, l1, ld⟩ := L
  obtain ⟨h1, h2⟩ := hA
  obtain ⟨h3, h4⟩ := hL
  dsimp only at h1 h2 h3 h4
  subst a0 a1 l0 l1
  have e1 : matmulOperatorList same ⟨b, b, as, ad⟩ ⟨lb, b, b, ld⟩ = some ⟨lb, b, b, flatten3 b.n b.n fun m i j =>
      ∑ k ∈ range b.n, (⟨b, b, as, ad⟩ : Operator).entry i k * (⟨lb, b, b, flatten3 b.n b.n fun m =>
        f ((⟨lb, b, b, ld⟩ : OperatorList).entry m)⟩ : OperatorList).entry m k j⟩ := by
    simp only [matmulOperatorList, convertOperatorList, hf, Option.map_some]
  have e2 : matmulListOperator same ⟨lb, b, b, ld⟩ ⟨b, b, as, ad⟩ = some ⟨lb, b, b, flatten3 b.n b.n fun m i j =>
      ∑ k ∈ range b.n, (⟨lb, b, b, ld⟩ : OperatorList).entry m i k *
        flatten b.n (f (⟨b, b, as, ad⟩ : Operator).entry) (k * b.n + j)⟩ := by
    simp only [matmulListOperator, convertOperator, hf, Option.map_some, Option.bind_some, and_self, if_true]
  refine ⟨_, _, e1, e2, rfl, rfl, rfl, rfl, rfl, rfl, fun t => ⟨?_, ?_⟩⟩
  · ext i j
    simp only [matrixAt, Basis.n_eq, hn, OperatorList.entry, Operator.entry]
    rw [flatten3_entry _ _ i.2 j.2, Matrix.mul_apply, sum_range]
    apply sum_congr rfl; intro k _
    rw [flatten3_entry _ _ k.2 j.2, kf _ _ (by rw [hn]; exact k.2) _ (by rw [hn]; exact j.2)]
    simp only [matrix, matrixAt, OperatorList.entry, Basis.n_eq, hn]
  · ext i j
    simp only [matrixAt, Basis.n_eq, hn, OperatorList.entry]
    rw [flatten3_entry _ _ i.2 j.2, Matrix.mul_apply, sum_range]
    apply sum_congr rfl; intro k _
    rw [flatten_entry _ _ j.2, kf _ _ (by rw [hn]; exact k.2) _ (by rw [hn]; exact j.2)]
    simp only [Operator.entry, Basis.n_eq, hn, matrix, matrixAt]

/-- **C29, lists.** Subtracting and adding lists acts on each matrix; scaling multiplies each. -/
theorem C29_list_add (same : Basis → Basis → Bool) (hs : Sound same) (b c : Basis) (hb : Valid b) (hc : Valid c)
    (hob : OrthonormalParts b) (hoc : OrthonormalParts c) (m n : ℕ) (hm : size b = m) (hn : size c = n)
    (L M : OperatorList) (hL : L.b0 = b ∧ L.b1 = c) (hM : M.b0 = b ∧ M.b1 = c)
    (hl : size L.listBasis = size M.listBasis) (r : ℂ) :
    (∃ X Y, addListList same L M = some X ∧ subtractListList same L M = some Y ∧
      X.b0 = b ∧ X.b1 = c ∧ Y.b0 = b ∧ Y.b1 = c ∧ X.listBasis = L.listBasis ∧ Y.listBasis = L.listBasis ∧
      ∀ t, matrixAt m n X.data t = matrixAt m n L.data t + matrixAt m n M.data t ∧
        matrixAt m n Y.data t = matrixAt m n L.data t - matrixAt m n M.data t) ∧
    ∀ t, matrixAt m n (scaleOperatorList r L).data t = r • matrixAt m n L.data t := by
  obtain ⟨f, hf, kf⟩ := convertMatrix_same same hs b c hb hc hob hoc
  obtain ⟨mb, m0, m1, md⟩ := M
  obtain ⟨lb, l0, l1, ld⟩ := L
  obtain ⟨h1, h2⟩ := hM
  obtain ⟨h3, h4⟩ := hL
  dsimp only at h1 h2 h3 h4 hl
  subst m0 m1 l0 l1
  have hl' : lb.n = mb.n := by rw [Basis.n_eq, Basis.n_eq, hl]
  have key : ∀ t (i : Fin m) (j : Fin n),
      flatten3 b.n c.n (fun t => f ((⟨mb, b, c, md⟩ : OperatorList).entry t)) (t * (m * n) + (i * n + j)) =
        md (t * (m * n) + (i * n + j)) := by
    intro t i j
    simp only [Basis.n_eq, hm, hn]
    rw [flatten3_entry _ _ i.2 j.2, kf _ _ (by rw [hm]; exact i.2) _ (by rw [hn]; exact j.2)]
    simp only [OperatorList.entry, Basis.n_eq, hm, hn]
  have e1 : addListList same ⟨lb, b, c, ld⟩ ⟨mb, b, c, md⟩ = some ⟨lb, b, c, fun k => ld k + flatten3 b.n c.n
      (fun t => f ((⟨mb, b, c, md⟩ : OperatorList).entry t)) k⟩ := by
    simp only [addListList, convertOperatorList, hf, Option.map_some, Option.bind_some, if_pos hl']
  have e2 : subtractListList same ⟨lb, b, c, ld⟩ ⟨mb, b, c, md⟩ = some ⟨lb, b, c, fun k => ld k - flatten3 b.n c.n
      (fun t => f ((⟨mb, b, c, md⟩ : OperatorList).entry t)) k⟩ := by
    simp only [subtractListList, convertOperatorList, hf, Option.map_some, Option.bind_some, if_pos hl']
  refine ⟨⟨_, _, e1, e2, rfl, rfl, rfl, rfl, rfl, rfl, fun t => ⟨?_, ?_⟩⟩, ?_⟩
  · ext i j
    simp only [matrixAt, Matrix.add_apply]
    rw [key]
  · ext i j
    simp only [matrixAt, Matrix.sub_apply]
    rw [key]
  · intro t
    ext i j
    simp only [matrixAt, scaleOperatorList, Matrix.smul_apply, smul_eq_mul]
    ring

/-- **C29, lists.** The commutator of an operator with each operator of a list: the list is converted to the basis of
the operator, then every entry of the result is `A C - C A`. -/
theorem C29_list_commutator (same : Basis → Basis → Bool) (hs : Sound same) (b : Basis) (hb : Valid b)
    (ho : OrthonormalParts b) (n : ℕ) (hn : size b = n) (A : Operator) (hA : A.b0 = b ∧ A.b1 = b) (L C : OperatorList)
    (hC : convertOperatorList same L b b = some C) :
    ∃ X, getCommutatorOperatorList same A L = some X ∧ X.b0 = b ∧ X.b1 = b ∧ X.listBasis = L.listBasis ∧
      ∀ t, matrixAt n n X.data t =
        matrix n n A.data * matrixAt n n C.data t - matrixAt n n C.data t * matrix n n A.data := by
  have hCb : C.b0 = b ∧ C.b1 = b ∧ C.listBasis = L.listBasis := by
    unfold convertOperatorList at hC
    cases h : convertMatrix same L.b0 b L.b1 b with
    | none => rw [h] at hC; cases hC
    | some f =>
      rw [h] at hC
      simp only [Option.map_some, Option.some.injEq] at hC
      subst hC; exact ⟨rfl, rfl, rfl⟩
  obtain ⟨P, Q, hP, hQ, pl, ql, p0, p1, q0, q1, h⟩ := C29_list_matmul same hs b hb ho n hn A hA C ⟨hCb.1, hCb.2.1⟩
  obtain ⟨⟨_, X, _, hX, _, _, x0, x1, _, xl, hx⟩, _⟩ := C29_list_add same hs b b hb hb ho ho n n hn hn P Q ⟨p0, p1⟩
    ⟨q0, q1⟩ (by rw [pl, ql]) 0
  refine ⟨X, ?_, x0, x1, by rw [xl, pl, hCb.2.2], fun t => ?_⟩
  · simp only [getCommutatorOperatorList, hA.1, hA.2, hC, Option.bind_some, hP, hQ, hX]
  · rw [(hx t).2, (h t).1, (h t).2]

/-! ## C31 -/

/-- **C31.** The full form of a diagonal operator is the diagonal matrix, reading the diagonal of the full form returns
it, and the diagonal of an operator is its diagonal. -/
theorem C31_full (n : ℕ) (d : DiagonalOperator) (h0 : size d.b0 = n) (h1 : size d.b1 = n) :
    (asOperator d).b0 = d.b0 ∧ (asOperator d).b1 = d.b1 ∧
    matrix n n (asOperator d).data = Matrix.diagonal (fun i : Fin n => d.data i) ∧
    (∀ i < n, (asDiagonalOperator (asOperator d)).data i = d.data i) ∧
    (∀ A : Operator, size A.b1 = n → ∀ i : Fin n, (asDiagonalOperator A).data i = matrix n n A.data i i) := by
  have key : ∀ i, ∀ j < n, (asOperator d).data (i * n + j) = if i = j then d.data i else 0 := by
    intro i j hj
    simp only [asOperator, Basis.n_eq, h0]
    exact flatten_entry _ _ hj
  refine ⟨rfl, rfl, ?_, ?_, ?_⟩
  · ext i j
    simp only [matrix, Matrix.diagonal_apply]
    rw [key _ _ j.2]
    simp [Fin.ext_iff]
  · intro i hi
    simp only [asDiagonalOperator, Operator.entry]
    have : (asOperator d).b1.n = n := by rw [Basis.n_eq]; exact h1
    rw [this, key _ _ hi, if_pos rfl]
  · intro A hA i
    simp only [asDiagonalOperator, Operator.entry, Basis.n_eq, hA, matrix]

/-- **C31.** Applying the full form to a state multiplies each component by its eigenvalue (up to the normalisation by
`eigenvalue`), and the expectation of the diagonal operator is the expectation of its full form. -/
theorem C31_apply (same : Basis → Basis → Bool) (hs : Sound same) (b : Basis) (hb : Valid b)
    (ho : OrthonormalParts b) (d : ℕ → ℂ) (v : ℕ → ℂ) :
    (∃ e, applyOperatorToState same (asOperator ⟨b, b, d⟩) ⟨b, v⟩ = some e ∧
      ∀ i < size b, e.eigenvalue * e.data i = d i * v i) ∧
    (∃ x, calculateExpectationDiagonal same ⟨b, b, d⟩ ⟨b, v⟩ = some x ∧
      calculateExpectation same (asOperator ⟨b, b, d⟩) ⟨b, v⟩ = some x ∧
      x = ∑ i ∈ range (size b), d i * (‖v i‖ ^ 2 : ℝ)) := by
  obtain ⟨_, c, hc, kc⟩ := C18_same_partial same hs b hb ho
  obtain ⟨f, hf, kf⟩ := convertMatrix_same same hs b b hb hb ho ho
  have key : ∀ i, ∀ j < size b, (asOperator ⟨b, b, d⟩).data (i * size b + j) = if i = j then d i else 0 := by
    intro i j hj
    simp only [asOperator, Basis.n_eq]
    exact flatten_entry _ _ hj
  have hcv : convertStateVector same ⟨b, v⟩ (asOperator ⟨b, b, d⟩).b1 = some ⟨b, c v⟩ := by
    simp [convertStateVector, asOperator, hc]
  refine ⟨?_, ?_⟩
  · obtain ⟨e, he, _, em, _⟩ := C29_apply same (asOperator ⟨b, b, d⟩) ⟨b, v⟩ _ hcv
    refine ⟨e, he, fun i hi => ?_⟩
    rw [em i hi]
    have : ∀ k ∈ range (size b), (asOperator ⟨b, b, d⟩).data (i * size b + k) * c v k = if i = k then d i * v i else 0 := by
      intro k hk
      rw [key _ _ (mem_range.1 hk), kc v k (mem_range.1 hk)]
      split
      · rename_i h; rw [h]
      · simp
    refine (sum_congr rfl this).trans ?_
    rw [sum_ite_eq, if_pos (mem_range.2 hi)]
  · have hsq : ∀ z w : ℂ, (starRingEnd ℂ) z * w * z = w * (‖z‖ ^ 2 : ℝ) := by
      intro z w
      have : (starRingEnd ℂ) z * z = ((‖z‖ ^ 2 : ℝ) : ℂ) := by
        rw [mul_comm, Complex.mul_conj, Complex.normSq_eq_norm_sq]
      rw [mul_right_comm, this, mul_comm]
    refine ⟨∑ i ∈ range (size b), d i * (‖v i‖ ^ 2 : ℝ), ?_, ?_, rfl⟩
    · simp only [calculateExpectationDiagonal, convertStateVector, hc, Option.map_some, Option.some.injEq, Basis.n_eq]
      exact sum_congr rfl fun i hi => by rw [kc v i (mem_range.1 hi), hsq]
    · have e2 : convertOperator same (asOperator ⟨b, b, d⟩) b b =
          some ⟨b, b, [b.n * b.n], flatten b.n (f (asOperator ⟨b, b, d⟩).entry)⟩ := by
        simp only [convertOperator, asOperator, hf, Option.map_some]
      simp only [calculateExpectation, e2, Option.map_some, Option.some.injEq, Operator.entry, Basis.n_eq]
      apply sum_congr rfl; intro i hi
      have : ∀ j ∈ range (size b), (starRingEnd ℂ) (v i) *
          flatten (size b) (f (asOperator ⟨b, b, d⟩).entry) (i * size b + j) * v j =
          if i = j then d i * (‖v i‖ ^ 2 : ℝ) else 0 := by
        intro j hj
        have hj' := mem_range.1 hj
        rw [flatten_entry _ _ hj', kf _ i (mem_range.1 hi) j hj']
        have : (asOperator ⟨b, b, d⟩).entry i j = if i = j then d i else 0 := by
          rw [← key i j hj']; simp only [Operator.entry, Basis.n_eq]; rfl
        rw [this]
        split
        · rename_i h; rw [← h, hsq]
        · simp
      refine (sum_congr rfl this).trans ?_
      rw [sum_ite_eq, if_pos hi]

/-- **C31, lists.** The same for lists of diagonal operators. -/
theorem C31_list (n : ℕ) (L : DiagonalOperatorList) (h0 : size L.b0 = n) (t : ℕ) :
    matrixAt n n (diagonalOperatorListAsFull L).data t = Matrix.diagonal (fun i : Fin n => L.data (t * n + i)) ∧
    (∀ i < n, (operatorListAsDiagonal (diagonalOperatorListAsFull L)).data (t * n + i) = L.data (t * n + i)) ∧
    (t < size L.listBasis → ∃ d, selectDiagonalOperator L t = some d ∧ ∀ i, d.data i = L.data (t * n + i)) := by
  have key : ∀ i < n, ∀ j < n, (diagonalOperatorListAsFull L).data (t * (n * n) + (i * n + j)) =
      if i = j then L.data (t * n + i) else 0 := by
    intro i hi j hj
    simp only [diagonalOperatorListAsFull, Basis.n_eq, h0]
    rw [flatten3_entry _ _ hi hj]; simp
  refine ⟨?_, ?_, ?_⟩
  · ext i j
    simp only [matrixAt, Matrix.diagonal_apply]
    rw [key _ i.2 _ j.2]
    simp [Fin.ext_iff]
  · intro i hi
    have hb : (diagonalOperatorListAsFull L).b0.n = n := by rw [Basis.n_eq]; exact h0
    simp only [operatorListAsDiagonal, hb]
    rw [flatten_entry _ _ hi, key i hi i hi, if_pos rfl]
  · intro ht
    refine ⟨_, if_pos (by rw [Basis.n_eq]; exact ht), fun i => ?_⟩
    simp only [block, Basis.n_eq, h0]

/-- **C29, lists.** Taking a list of operators apart and building it again gives the list. -/
theorem C29_list_iter (L : OperatorList) (hpos : 0 < size L.listBasis) :
    (operatorListIntoIter L).length = size L.listBasis ∧
    (∀ i (hi : i < (operatorListIntoIter L).length), selectOperator L i = some ((operatorListIntoIter L)[i])) ∧
    ∃ L', operatorListFromIter (operatorListIntoIter L) = some L' ∧ size L'.listBasis = size L.listBasis ∧
      L'.b0 = L.b0 ∧ L'.b1 = L.b1 ∧
      ∀ k < size L.listBasis * (size L.b0 * size L.b1), L'.data k = L.data k := by
  have hlen : (operatorListIntoIter L).length = size L.listBasis := by simp [operatorListIntoIter, Basis.n_eq]
  have hget : ∀ i (hi : i < (operatorListIntoIter L).length), selectOperator L i = some ((operatorListIntoIter L)[i]) := by
    intro i hi
    unfold selectOperator
    rw [if_pos (by rw [Basis.n_eq, ← hlen]; exact hi)]
    simp [operatorListIntoIter]
  refine ⟨hlen, hget, ?_⟩
  have hmem : ∀ A ∈ operatorListIntoIter L, A.shape = [L.b0.n * L.b1.n] ∧ A.b0 = L.b0 ∧ A.b1 = L.b1 := by
    intro A hA
    simp only [operatorListIntoIter, List.mem_map] at hA
    obtain ⟨i, _, rfl⟩ := hA; exact ⟨rfl, rfl, rfl⟩
  have hdat : ∀ i < size L.listBasis, ∀ D, ((operatorListIntoIter L).getD i D).data = block (L.b0.n * L.b1.n) L.data i := by
    intro i hi D
    rw [List.getD, List.getElem?_eq_getElem (by omega)]
    simp [operatorListIntoIter]
  generalize hg : operatorListIntoIter L = ops at hlen hmem hdat
  cases ops with
  | nil => simp at hlen; omega
  | cons A rest =>
    refine ⟨_, if_pos fun B hB => by rw [(hmem B (by simp [hB])).1, (hmem A (by simp)).1], ?_,
      (hmem A (by simp)).2.1, (hmem A (by simp)).2.2, ?_⟩
    · simpa [size] using hlen
    · intro k hk
      have hA0 := (hmem A (by simp)).2.1
      have hA1 := (hmem A (by simp)).2.2
      simp only [flatten, hA0, hA1, Basis.n_eq]
      have hp : 0 < size L.b0 * size L.b1 := Nat.pos_of_ne_zero fun h => by simp [h] at hk
      rw [hdat _ (Nat.div_lt_of_lt_mul (by rw [Nat.mul_comm]; exact hk))]
      simp only [block, Basis.n_eq]
      rw [Nat.mul_comm, Nat.div_add_mod]

-- hypotheses are met: operators on a momentum basis with three states
example : ∃ P, matmulOperator ⟨.transformed 3 5, .transformed 3 5, [9], fun k => k⟩
    ⟨.transformed 3 5, .transformed 3 5, [9], fun _ => 1⟩ = some P ∧
    addOperator P ⟨.transformed 3 5, .transformed 3 5, [9], fun _ => 1⟩ = none := by
  obtain ⟨P, h1, h2, _⟩ := C29_negation (.transformed 3 5) (by simp [size])
    ⟨.transformed 3 5, .transformed 3 5, [9], fun k => k⟩ ⟨.transformed 3 5, .transformed 3 5, [9], fun _ => 1⟩
    ⟨.transformed 3 5, .transformed 3 5, [9], fun _ => 1⟩ ⟨rfl, rfl⟩ ⟨rfl, rfl⟩ rfl
  exact ⟨P, h1, h2⟩

example : ∃ e, applyOperatorToState (fun _ _ => false) (asOperator ⟨.transformed 3 5, .transformed 3 5, fun k => k⟩)
    ⟨.transformed 3 5, fun _ => 1⟩ = some e ∧ ∀ i < 3, e.eigenvalue * e.data i = i * 1 :=
  (C31_apply (fun _ _ => false) (fun _ _ h => by cases h) (.transformed 3 5) (by simp [Valid]) trivial (fun k => k)
    (fun _ => 1)).1

end Verif
