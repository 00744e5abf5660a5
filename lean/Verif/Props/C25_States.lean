import Verif.Model.State
import Verif.Props.C15_Stacked

/-!
# C25, C27: states, dual states and lists of states
-/

set_option autoImplicit false

namespace Verif

open Finset Spec

theorem Basis.n_eq (b : Basis) : b.n = size b := (methods_sizes b).1

/-! ## C25 -/

/-- **C25.** The inner product of a state with the dual of another is their Hermitian inner product (and exists
exactly if the states have equally many components). -/
theorem C25_value (a b : StateVector) :
    calculateInnerProduct a (asDualVector b) =
      if size a.basis = size b.basis then some (dot (size a.basis) b.data a.data) else none := by
  unfold calculateInnerProduct asDualVector
  simp only [Basis.n_eq, eq_comm (a := size b.basis)]
  rfl

/-- **C25.** `as_vector` and `as_dual_vector` are mutually inverse. -/
theorem C25_dual_inverse (v : StateVector) (w : StateDualVector) :
    asVector (asDualVector v) = v ∧ asDualVector (asVector w) = w := by
  constructor <;> simp [asVector, asDualVector, conjVec_conjVec]

/-- **C25.** Linear in the state, conjugate linear in the state from which the dual vector was built, conjugate
symmetric, and positive: the product of a state with its own dual is its normalization, which is zero only for
the zero state. -/
theorem C25_hermitian_form (basis : Basis) (u v w : ℕ → ℂ) (c : ℂ) :
    ∃ ip : (ℕ → ℂ) → (ℕ → ℂ) → ℂ,
      (∀ x y, calculateInnerProduct ⟨basis, x⟩ (asDualVector ⟨basis, y⟩) = some (ip x y)) ∧
      ip (fun i => u i + c * v i) w = ip u w + c * ip v w ∧
      ip u (fun i => v i + c * w i) = ip u v + (starRingEnd ℂ) c * ip u w ∧
      ip u v = (starRingEnd ℂ) (ip v u) ∧
      ip u u = (calculateNormalization ⟨basis, u⟩ : ℂ) ∧
      0 ≤ calculateNormalization ⟨basis, u⟩ ∧
      (calculateNormalization ⟨basis, u⟩ = 0 ↔ ∀ i < size basis, u i = 0) := by
  refine ⟨fun x y => dot (size basis) y x, ?_, ?_, ?_, ?_, ?_, ?_, ?_⟩
  · intro x y; rw [C25_value]; simp
  · simp only [dot, mul_sum, ← sum_add_distrib]
    exact sum_congr rfl fun i _ => by ring
  · simp only [dot, mul_sum, ← sum_add_distrib]
    exact sum_congr rfl fun i _ => by rw [map_add, map_mul]; ring
  · simp only [dot, map_sum, map_mul, Complex.conj_conj]
    exact sum_congr rfl fun i _ => by ring
  · simp only [dot, calculateNormalization, Basis.n_eq]
    push_cast
    exact sum_congr rfl fun i _ => by
      rw [mul_comm, Complex.mul_conj, Complex.normSq_eq_norm_sq]; push_cast; rfl
  · exact sum_nonneg fun i _ => by positivity
  · unfold calculateNormalization
    rw [sum_eq_zero_iff_of_nonneg fun i _ => by positivity]
    simp [Basis.n_eq]

/-- **C25.** The value does not depend on the basis: converting the state and the dual state to any basis which
contains the states of the first leaves the inner product unchanged. Building the dual and converting commute. -/
theorem C25_basis_independent (same : Basis → Basis → Bool) (hs : Sound same) (a b : Basis) (ha : Valid a)
    (hb : Valid b) (hoa : OrthonormalParts a) (hob : OrthonormalParts b) (hc : Compatible a b)
    (hc' : Compatible b a) (hspan : SpanLe a b) (u v : ℕ → ℂ) :
    ∃ u' v', convertStateVector same ⟨a, u⟩ b = some u' ∧
      convertStateDualVector same (asDualVector ⟨a, v⟩) b = some v' ∧
      calculateInnerProduct u' v' = calculateInnerProduct ⟨a, u⟩ (asDualVector ⟨a, v⟩) ∧
      (convertStateVector same ⟨a, v⟩ b).map asDualVector = some v' := by
  obtain ⟨C, f, d, _, hf, hd, h1, _⟩ := C17_lossless same hs a b ha hb hoa hob hc hc' hspan
  refine ⟨⟨b, f u⟩, ⟨b, d (conjVec v)⟩, ?_, ?_, ?_, ?_⟩
  · simp [convertStateVector, hf]
  · simp [convertStateDualVector, asDualVector, hd]
  · simp only [calculateInnerProduct, asDualVector, if_true]
    rw [Basis.n_eq, Basis.n_eq, h1]
  · simp only [convertDual, hf, Option.map_some, Option.some.injEq] at hd
    simp only [convertStateVector, hf, Option.map_some, asDualVector, ← hd, conjVec_conjVec]

-- hypotheses: momentum states of a truncated axis inside the full axis
example (same : Basis → Basis → Bool) (hs : Sound same) (u v : ℕ → ℂ) :
    ∃ u' v', convertStateVector same ⟨.fundamental 4, u⟩ (.fundamentalTransformed 4) = some u' ∧
      convertStateDualVector same (asDualVector ⟨.fundamental 4, v⟩) (.fundamentalTransformed 4) = some v' ∧
      calculateInnerProduct u' v' = calculateInnerProduct ⟨.fundamental 4, u⟩ (asDualVector ⟨.fundamental 4, v⟩) ∧
      (convertStateVector same ⟨.fundamental 4, v⟩ (.fundamentalTransformed 4)).map asDualVector = some v' := by
  obtain ⟨f, g, hf, hg, hgf, _⟩ := C09_fourier same hs 4
  obtain ⟨f', hf', kf⟩ := C10_route same hs (.fundamentalTransformed 4) (.fundamental 4) trivial trivial trivial rfl
  rw [hg] at hf'; cases hf'
  refine C25_basis_independent same hs (.fundamental 4) (.fundamentalTransformed 4) trivial trivial trivial trivial rfl
    rfl (fun i hi => ⟨f (state (.fundamental 4) i), fun x hx => ?_⟩) u v
  have h1 := kf (f (state (.fundamental 4) i)) x hx
  rw [hgf _ x hx] at h1
  rw [h1]
  exact sum_state_fundamental _ hx

/-! ## C27 -/

theorem block_flatten {n : ℕ} (blocks : ℕ → ℕ → ℂ) (i : ℕ) {j : ℕ} (hj : j < n) :
    block n (flatten n blocks) i j = blocks i j := by
  unfold block flatten
  rw [Nat.mul_comm, Nat.mul_add_div (by omega), Nat.div_eq_of_lt hj, Nat.mul_add_mod, Nat.mod_eq_of_lt hj, add_zero]

theorem flatten_block (n : ℕ) (data : ℕ → ℂ) (k : ℕ) : flatten n (block n data) k = data k := by
  show data (k / n * n + k % n) = data k
  rw [Nat.mul_comm, Nat.div_add_mod]

/-- **C27.** Building a list from states of one basis succeeds, the list has as many entries as states were given and
state `i` of the list is the given state `i`. -/
theorem C27_build (states : List StateVector) (hne : states ≠ []) (b : Basis)
    (hb : ∀ s ∈ states, s.basis = b) :
    ∃ l, asStateVectorList states = some l ∧ size l.listBasis = states.length ∧
      ∀ i (hi : i < states.length), ∃ s, getStateVector l i = some s ∧ s.basis = b ∧
        ∀ j < size b, s.data j = states[i].data j := by
  cases states with
  | nil => exact absurd rfl hne
  | cons s rest =>
    have hs : s.basis = b := hb s (by simp)
    have hall : ∀ t ∈ rest, t.basis.n = s.basis.n := fun t ht => by rw [hb t (by simp [ht]), hs]
    refine ⟨_, if_pos hall, by simp [size], ?_⟩
    intro i hi
    refine ⟨_, if_pos (by rw [Basis.n_eq]; simpa [size] using hi), hs, ?_⟩
    intro j hj
    have hj' : j < s.basis.n := by rw [Basis.n_eq, hs]; exact hj
    dsimp only
    refine (block_flatten _ _ hj').trans ?_
    simp [List.getD, List.getElem?_eq_getElem hi]

/-- **C27.** Taking a list apart and building it again returns the same number of states, in the same order, with the
same components; reading beyond the list raises. -/
theorem C27_unstack (l : StateVectorList) :
    (stateVectorListIntoIter l).length = size l.listBasis ∧
    (∀ i (hi : i < (stateVectorListIntoIter l).length),
      getStateVector l i = some ((stateVectorListIntoIter l)[i])) ∧
    (∀ i, size l.listBasis ≤ i → getStateVector l i = none) ∧
    (0 < size l.listBasis → ∃ l', asStateVectorList (stateVectorListIntoIter l) = some l' ∧
      size l'.listBasis = size l.listBasis ∧ l'.basis = l.basis ∧
      ∀ k < size l.listBasis * size l.basis, l'.data k = l.data k) := by
  have hlen : (stateVectorListIntoIter l).length = size l.listBasis := by
    simp [stateVectorListIntoIter, Basis.n_eq]
  refine ⟨hlen, ?_, ?_, ?_⟩
  · intro i hi
    unfold getStateVector
    rw [if_pos (by rw [Basis.n_eq, ← hlen]; exact hi)]
    simp [stateVectorListIntoIter]
  · intro i hi
    unfold getStateVector
    rw [if_neg (by rw [Basis.n_eq]; omega)]
  · intro hpos
    have hmem : ∀ s ∈ stateVectorListIntoIter l, s.basis = l.basis := by
      intro s hs
      simp only [stateVectorListIntoIter, List.mem_map] at hs
      obtain ⟨i, _, rfl⟩ := hs; rfl
    obtain ⟨l', h1, h2, h3⟩ := C27_build (stateVectorListIntoIter l)
      (by intro h; rw [h] at hlen; simp at hlen; omega) l.basis hmem
    have hbasis : l'.basis = l.basis := by
      obtain ⟨s, hs, hsb, _⟩ := h3 0 (by omega)
      unfold getStateVector at hs
      split at hs
      · simp only [Option.some.injEq] at hs; rw [← hs] at hsb; exact hsb
      · cases hs
    refine ⟨l', h1, by rw [h2, hlen], hbasis, ?_⟩
    intro k hk
    have hn : 0 < size l.basis := Nat.pos_of_ne_zero fun h => by simp [h] at hk
    obtain ⟨s, hs, _, hd⟩ := h3 (k / size l.basis) (by
      rw [hlen]; exact Nat.div_lt_of_lt_mul (by rw [Nat.mul_comm]; exact hk))
    have := hd (k % size l.basis) (Nat.mod_lt _ hn)
    unfold getStateVector at hs
    split at hs
    · simp only [Option.some.injEq] at hs
      subst hs
      simp only [block, stateVectorListIntoIter, List.getElem_map, List.getElem_range, Basis.n_eq, hbasis] at this
      rwa [Nat.mul_comm, Nat.div_add_mod] at this
    · cases hs

/-- **C27.** A stacked index picks the state whose flat index is the wrapped stacked index. -/
theorem C27_stacked_index (shape : List ℕ) (l : StateVectorList) (h : size l.listBasis = shape.prod)
    (idx : List ℕ) (hidx : InShape shape idx) :
    getStateVectorStacked shape l (idx.map fun i : ℕ => (i : ℤ)) =
      some ⟨l.basis, fun j => l.data (ravel shape idx * size l.basis + j)⟩ := by
  have hc : ∀ (shape idx : List ℕ), InShape shape idx →
      ravelCoords .wrap shape (idx.map fun i : ℕ => (i : ℤ)) = some idx ∧ ravel shape idx < shape.prod := by
    intro shape
    induction shape with
    | nil => intro idx h; cases idx with
      | nil => simp [ravelCoords, ravel]
      | cons => simp [InShape] at h
    | cons n ns ih =>
      intro idx h
      cases idx with
      | nil => simp [InShape] at h
      | cons i is =>
        have h1 : i < n := h.1
        obtain ⟨h2, h3⟩ := ih is h.2
        constructor
        · have : ((i : ℤ) % (n : ℤ)).toNat = i := by
            rw [Int.emod_eq_of_lt (by omega) (by omega)]; omega
          simp only [List.map_cons, ravelCoords, ravelCoord, h2]
          rw [if_neg (by omega), this]
        · simp only [ravel, List.prod_cons]
          calc i * ns.prod + ravel ns is < i * ns.prod + ns.prod := by omega
            _ = (i + 1) * ns.prod := by ring
            _ ≤ n * ns.prod := Nat.mul_le_mul_right _ h1
  obtain ⟨h1, h2⟩ := hc shape idx hidx
  unfold getStateVectorStacked getFlatIndex
  rw [h1]
  simp only [Option.map_some, Option.bind_some, getStateVector]
  rw [if_pos (by rw [Basis.n_eq, h]; exact h2), Basis.n_eq]
  rfl

/-- **C27.** The weighted state is the combination of the states of the list; with the weights of list entry `i`
alone it is state `i`. The states of a basis (`get_basis_states`) are its unit vectors, and converting a list
converts each state. -/
theorem C27_weighted (l : StateVectorList) :
    (∀ w : StateVector, ∀ j, (getWeightedStateVector l w).data j =
      ∑ i ∈ range (size l.listBasis), w.data i * l.data (i * size l.basis + j)) ∧
    (∀ i < size l.listBasis, some (getWeightedStateVector l ⟨l.listBasis, unit i⟩) = getStateVector l i) := by
  constructor
  · intro w j; simp only [getWeightedStateVector, Basis.n_eq, block]
  · intro i hi
    unfold getStateVector
    rw [if_pos (by rw [Basis.n_eq]; exact hi)]
    simp only [getWeightedStateVector, Basis.n_eq, unit, ite_mul, one_mul, zero_mul]
    congr 2
    funext j
    rw [sum_ite_eq', if_pos (mem_range.2 hi)]

theorem C27_basis_states (b : Basis) :
    ∀ i < size b, ∃ s, getStateVector (getBasisStates b) i = some s ∧ s.basis = b ∧ ∀ j < size b, s.data j = unit i j := by
  intro i hi
  refine ⟨_, if_pos (by rw [Basis.n_eq]; simp only [getBasisStates, size, Basis.n_eq]; exact hi), rfl, ?_⟩
  intro j hj
  have hj' : j < b.n := by rw [Basis.n_eq]; exact hj
  dsimp only [getBasisStates]
  refine (block_flatten _ _ hj').trans ?_
  simp only [unit, eq_comm]

theorem C27_convert (same : Basis → Basis → Bool) (l : StateVectorList) (b : Basis) :
    (∀ l', convertStateVectorList same l b = some l' → l'.listBasis = l.listBasis ∧ l'.basis = b ∧
      ∀ i < size l.listBasis, ∃ s s' t, getStateVector l i = some s ∧ getStateVector l' i = some s' ∧
        convertStateVector same s b = some t ∧ ∀ j < size b, s'.data j = t.data j) ∧
    (convertStateVectorList same l b = none ↔ Basis.convert same l.basis b = none) := by
  constructor
  · intro l' h
    unfold convertStateVectorList at h
    cases hf : Basis.convert same l.basis b with
    | none => rw [hf] at h; cases h
    | some f =>
      rw [hf] at h
      simp only [Option.map_some, Option.some.injEq] at h
      subst h
      refine ⟨rfl, rfl, fun i hi => ?_⟩
      refine ⟨_, _, ⟨b, f (block l.basis.n l.data i)⟩, if_pos (by rw [Basis.n_eq]; exact hi),
        if_pos (by rw [Basis.n_eq]; exact hi), ?_, ?_⟩
      · simp only [convertStateVector, hf, Option.map_some]
      · intro j hj
        have hj' : j < b.n := by rw [Basis.n_eq]; exact hj
        dsimp only
        exact block_flatten _ _ hj'
  · unfold convertStateVectorList; simp

/-- **C27.** Entry `(i, j)` of the matrix of inner products is the inner product of state `i` of the first with
state `j` of the second list, whenever both lists are given in bases with the same grid; for orthonormal lists in one
basis it is the identity matrix. -/
theorem C27_inner_products (same : Basis → Basis → Bool) (hs : Sound same) (s0 s1 : StateVectorList)
    (h1 : Valid s1.basis) (h0 : Valid s0.basis) (ho : OrthonormalParts s1.basis)
    (hc : Compatible s1.basis s0.basis) :
    ∃ m e, calculateInnerProducts same s0 s1 = some m ∧ calculateInnerProductsElementwise same s0 s1 = some e ∧
      (∀ i, ∀ j < size s1.listBasis, m (i * size s1.listBasis + j) =
        dot (points s0.basis) (expand s0.basis fun k => s0.data (i * size s0.basis + k))
          (expand s1.basis fun k => s1.data (j * size s1.basis + k))) ∧
      (∀ i, e i = dot (points s0.basis) (expand s0.basis fun k => s0.data (i * size s0.basis + k))
          (expand s1.basis fun k => s1.data (i * size s1.basis + k))) := by
  obtain ⟨f, hf, kf⟩ := C10_route same hs s1.basis s0.basis h1 h0 ho hc
  have hp := compatible_points _ _ hc
  have key : ∀ i j, ∑ k ∈ range s0.basis.n, (starRingEnd ℂ) (block s0.basis.n s0.data i k) *
      block s0.basis.n (flatten s0.basis.n fun i => f (block s1.basis.n s1.data i)) j k =
      dot (points s0.basis) (expand s0.basis fun k => s0.data (i * size s0.basis + k))
          (expand s1.basis fun k => s1.data (j * size s1.basis + k)) := by
    intro i j
    rw [Basis.n_eq, Basis.n_eq]
    have : ∀ k ∈ range (size s0.basis), (starRingEnd ℂ) (block (size s0.basis) s0.data i k) *
        block (size s0.basis) (flatten (size s0.basis) fun i => f (block (size s1.basis) s1.data i)) j k =
        ∑ x ∈ range (points s0.basis), (starRingEnd ℂ) (s0.data (i * size s0.basis + k) * state s0.basis k x) *
          expand s1.basis (fun k => s1.data (j * size s1.basis + k)) x := by
      intro k hk
      rw [block_flatten _ _ (mem_range.1 hk), kf _ k (mem_range.1 hk), hp, mul_sum]
      exact sum_congr rfl fun x _ => by rw [map_mul, mul_assoc]; rfl
    rw [sum_congr rfl this, sum_comm]
    unfold dot
    apply sum_congr rfl; intro x _
    rw [← sum_mul]
    congr 1
    simp only [expand, map_sum]
  have e1 : convertStateVectorList same s1 s0.basis =
      some ⟨s1.listBasis, s0.basis, flatten s0.basis.n fun i => f (block s1.basis.n s1.data i)⟩ := by
    simp only [convertStateVectorList, hf, Option.map_some]
  refine ⟨_, _, (congrArg _ e1).trans rfl, (congrArg _ e1).trans rfl, ?_, ?_⟩
  · intro i j hj
    have := block_flatten (n := s1.listBasis.n) (fun i j => ∑ k ∈ range s0.basis.n,
      (starRingEnd ℂ) (block s0.basis.n s0.data i k) *
      block s0.basis.n (flatten s0.basis.n fun i => f (block s1.basis.n s1.data i)) j k) i
      (by rw [Basis.n_eq]; exact hj)
    rw [← key i j, ← this]
    simp only [block, Basis.n_eq]
  · intro i; exact key i i

-- a list of two states of a three point basis
example : ∃ l, asStateVectorList [⟨.fundamental 3, unit 0⟩, ⟨.fundamental 3, unit 2⟩] = some l ∧
    size l.listBasis = 2 ∧ ∃ s, getStateVector l 1 = some s ∧ s.data 2 = 1 := by
  obtain ⟨l, h1, h2, h3⟩ := C27_build [⟨.fundamental 3, unit 0⟩, ⟨.fundamental 3, unit 2⟩] (by simp) (.fundamental 3)
    (by simp)
  obtain ⟨s, hs, _, hd⟩ := h3 1 (by simp)
  exact ⟨l, h1, h2, s, hs, by rw [hd 2 (by simp [size])]; simp [unit]⟩

end Verif
