import Verif.Model.PositionOperator
import Verif.Props.C147_PositionMomentum
import Verif.Props.C26_Eigen
import Verif.Props.C141_BasisBuilders

/-!
C149: matrix elements of the operator of position between states, and its eigenstates.
-/

set_option autoImplicit false

namespace Verif

open Finset Spec

variable {d : ℕ}

/-- The matrix element of multiplication by `f` between two functions on `n` points. -/
noncomputable def Spec.multiplicationElement (n : ℕ) (f : ℕ → ℝ) (φ ψ : ℕ → ℂ) : ℂ := ∑ x ∈ range n, (starRingEnd ℂ) (φ x) * (f x : ℂ) * ψ x

/-- The component `c` of the point number `x` of a grid of the given shape in the cell with the rows of `A` as sides. -/
noncomputable def Spec.cellPoint (A : Matrix (Fin d) (Fin d) ℝ) (shape : Fin d → ℕ) (x : ℕ) (c : Fin d) : ℝ :=
  latticePoint A shape (fun i : Fin d => ((unravel (List.ofFn shape) x).getD i 0 : ℕ)) c

/-- The matrix elements of an operator which is diagonal in a basis `a`, converted to a basis `b`. -/
theorem element_converted (same : Basis → Basis → Bool) (hs : Sound same) (a b : Basis) (ha : Valid a) (hb : Valid b) (hoa : OrthonormalParts a)
    (hc : Compatible a b) (diag : ℕ → ℂ) :
    ∃ X, convertDiagonalOperator same ⟨a, a, diag⟩ b b = some X ∧ X.b0 = b ∧ X.b1 = b ∧
      ∀ u v : ℕ → ℂ, ∑ j ∈ range (size b), ∑ k ∈ range (size b), (starRingEnd ℂ) (u j) * X.entry j k * v k =
        ∑ k ∈ range (size a), diag k * ((starRingEnd ℂ) (dot (points a) (state a k) (expand b u)) * dot (points a) (state a k) (expand b v)) := by
  obtain ⟨C, f, f', hC, hf, hf', h⟩ := C17_matrix same hs a b a b ha hb hoa hc ha hb hoa hc
  rw [hf] at hf'
  cases hf'
  obtain ⟨g, hg, kg⟩ := convert_kernel same hs a b ha hb hoa hc
  rw [hf] at hg
  cases hg
  have hfu : ∀ i' < size a, ∀ i < size b, f (unit i') i = overlapKernel a b i i' := by
    intro i' hi' i hi
    rw [kg _ i hi, sum_eq_single i']
    · simp [unit]
    · intro j _ hj; simp [unit, hj]
    · intro hn; exact absurd (mem_range.2 hi') hn
  refine ⟨⟨b, b, [b.n * b.n], flatten b.n (C (asOperator ⟨a, a, diag⟩).entry)⟩,
    by rw [convertDiagonalOperator, convertOperator]; dsimp only [asOperator]; rw [hC]; rfl, rfl, rfl, fun u v => ?_⟩
  have hD : ∀ i' < size a, ∀ j' < size a, (asOperator ⟨a, a, diag⟩).entry i' j' = if i' = j' then diag i' else 0 := by
    intro i' _ j' hj'
    simp only [asOperator, Operator.entry, Basis.n_eq]
    exact flatten_entry _ _ hj'
  have hCd : ∀ j < size b, ∀ k < size b, (⟨b, b, [b.n * b.n], flatten b.n (C (asOperator ⟨a, a, diag⟩).entry)⟩ : Operator).entry j k =
      ∑ i' ∈ range (size a), overlapKernel a b j i' * diag i' * (starRingEnd ℂ) (overlapKernel a b k i') := by
    intro j hj k hk
    simp only [Operator.entry, Basis.n_eq]
    rw [flatten_entry _ _ hk]
    show C (asOperator ⟨a, a, diag⟩).entry j k = _
    rw [h _ j hj k hk]
    refine sum_congr rfl fun i' hi' => ?_
    rw [mem_range] at hi'
    rw [sum_eq_single i']
    · rw [hD i' hi' i' hi', if_pos rfl, hfu i' hi' j hj, hfu i' hi' k hk]
    · intro j' hj' hne
      rw [hD i' hi' j' (mem_range.1 hj'), if_neg (Ne.symm hne), mul_zero, zero_mul]
    · intro hn; exact absurd (mem_range.2 hi') hn
  have hsum : ∀ (w : ℕ → ℂ) (i' : ℕ), ∑ j ∈ range (size b), (starRingEnd ℂ) (overlapKernel a b j i') * w j = dot (points a) (state a i') (expand b w) := by
    intro w i'
    unfold overlapKernel dot expand
    simp only [map_sum, map_mul, Complex.conj_conj, sum_mul, mul_sum]
    rw [sum_comm]
    exact sum_congr rfl fun x _ => sum_congr rfl fun j _ => by ring
  calc _ = ∑ j ∈ range (size b), ∑ k ∈ range (size b), ∑ i' ∈ range (size a),
      diag i' * ((starRingEnd ℂ) ((starRingEnd ℂ) (overlapKernel a b j i') * u j) * ((starRingEnd ℂ) (overlapKernel a b k i') * v k)) := by
        refine sum_congr rfl fun j hj => sum_congr rfl fun k hk => ?_
        rw [hCd j (mem_range.1 hj) k (mem_range.1 hk), mul_sum, sum_mul]
        refine sum_congr rfl fun i' _ => ?_
        rw [map_mul, Complex.conj_conj]
        ring
    _ = _ := by
        rw [sum_congr rfl fun j _ => sum_comm, sum_comm]
        refine sum_congr rfl fun i' _ => ?_
        rw [← hsum u i', ← hsum v i', map_sum, sum_mul_sum, mul_sum]
        exact sum_congr rfl fun j _ => by rw [mul_sum]

theorem xPoint_grid (A : Matrix (Fin d) (Fin d) ℝ) (shape : Fin d → ℕ) (x : ℕ) (c : Fin d) : xPoint A shape x c = cellPoint A shape x c := by
  unfold xPoint
  rw [xPoint_lattice]
  rfl

theorem dot_position (b : Basis) (φ : ℕ → ℂ) {k : ℕ} (hk : k < points b) :
    dot (points b.asPositionBasis) (state b.asPositionBasis k) φ = φ k := by
  obtain ⟨_, h2, h3, _⟩ := fund_facts b.fundamentalShape
  rw [fundamentalShape_prod] at h2 h3
  unfold dot
  rw [Basis.asPositionBasis, h2, sum_eq_single k]
  · rw [h3 k hk k hk, if_pos rfl, map_one, one_mul]
  · intro y hy hne
    rw [h3 k hk y (mem_range.1 hy), if_neg (Ne.symm hne), map_zero, zero_mul]
  · intro hn
    exact absurd (mem_range.2 hk) hn

theorem size_asPosition (b : Basis) : size b.asPositionBasis = points b := by
  rw [Basis.asPositionBasis, (fund_facts b.fundamentalShape).1, fundamentalShape_prod]

/-- **C149.** The entries of the matrix of the position between states of a basis are its matrix elements: the sum over the points of the grid of the
conjugated value of one state, the first component of the point, and the value of the other state. -/
theorem C149_elements (same : Basis → Basis → Bool) (hs : Sound same) (A : Matrix (Fin (d + 1)) (Fin (d + 1)) ℝ) (b : Basis) (hb : Valid b)
    (ho : OrthonormalParts b) (shape : Fin (d + 1) → ℕ) (hshape : b.fundamentalShape = List.ofFn shape) (states : List StateVector) :
    ∃ X, getPositionOperator same A b = some X ∧ X.b0 = b ∧ X.b1 = b ∧ (getOperatorBetweenStates states X).b0 = .fundamental states.length ∧
      (getOperatorBetweenStates states X).b1 = .fundamental states.length ∧
      ∀ (i j : ℕ) (hi : i < states.length) (hj : j < states.length), (getOperatorBetweenStates states X).data (i * states.length + j) =
        multiplicationElement (points b) (fun x => cellPoint A shape x 0) (expand b states[i].data) (expand b states[j].data) := by
  obtain ⟨X, hX, h0, h1, h⟩ := element_converted same hs b.asPositionBasis b (valid_position b) hb (orthonormalParts_position b)
    (compatible_asPosition' b) fun k => ((xPoint A (fun i => b.fundamentalShape.getD i 0) k 0 : ℝ) : ℂ)
  refine ⟨X, hX, h0, h1, rfl, rfl, fun i j hi hj => ?_⟩
  unfold getOperatorBetweenStates
  dsimp only
  rw [flatten_entry _ _ hj]
  unfold calculateOperatorInnerProduct asDualVector conjVec
  rw [h0, h1]
  simp only [Basis.n_eq, List.getD_eq_getElem?_getD, List.getElem?_eq_getElem hi, List.getElem?_eq_getElem hj, Option.getD_some]
  rw [h, size_asPosition]
  unfold multiplicationElement
  refine sum_congr rfl fun x hx => ?_
  rw [dot_position b _ (mem_range.1 hx), dot_position b _ (mem_range.1 hx), xPoint_grid]
  have : (fun i : Fin (d + 1) => b.fundamentalShape.getD i 0) = shape := by
    funext i
    rw [hshape, List.getD_eq_getElem?_getD, List.getElem?_ofFn, dif_pos i.2]
    rfl
  rw [this]
  ring

theorem between_entry (same : Basis → Basis → Bool) (hs : Sound same) (A : Matrix (Fin (d + 1)) (Fin (d + 1)) ℝ) (b : Basis) (hb : Valid b)
    (ho : OrthonormalParts b) (shape : Fin (d + 1) → ℕ) (hshape : b.fundamentalShape = List.ofFn shape) (states : List StateVector) :
    ∃ X, getPositionOperator same A b = some X ∧ ∀ i j : Fin states.length,
      matrix states.length states.length (getOperatorBetweenStates states X).data i j =
        ∑ x ∈ range (points b), (starRingEnd ℂ) (expand b states[i].data x) * (cellPoint A shape x 0 : ℂ) * expand b states[j].data x := by
  obtain ⟨X, hX, _, _, _, _, h⟩ := C149_elements same hs A b hb ho shape hshape states
  exact ⟨X, hX, fun i j => h i j i.2 j.2⟩

/-- **C149.** The matrix of the position between states is Hermitian. -/
theorem C149_hermitian (same : Basis → Basis → Bool) (hs : Sound same) (A : Matrix (Fin (d + 1)) (Fin (d + 1)) ℝ) (b : Basis) (hb : Valid b)
    (ho : OrthonormalParts b) (shape : Fin (d + 1) → ℕ) (hshape : b.fundamentalShape = List.ofFn shape) (states : List StateVector) :
    ∃ X, getPositionOperator same A b = some X ∧
      (matrix states.length states.length (getOperatorBetweenStates states X).data).conjTranspose =
        matrix states.length states.length (getOperatorBetweenStates states X).data := by
  obtain ⟨X, hX, h⟩ := between_entry same hs A b hb ho shape hshape states
  refine ⟨X, hX, ?_⟩
  ext i j
  rw [Matrix.conjTranspose_apply, h, h, Complex.star_def, map_sum]
  refine sum_congr rfl fun x _ => ?_
  simp only [map_mul, Complex.conj_conj, Complex.conj_ofReal]
  ring

/-- The combination of the states of a list with given coefficients, as a function on the points of the grid. -/
noncomputable def Spec.combination (b : Basis) (states : List StateVector) (c : ℕ → ℂ) (x : ℕ) : ℂ :=
  ∑ j : Fin states.length, c j * expand b states[j].data x

theorem combination_element (b : Basis) (states : List StateVector) (n : ℕ) (f : ℕ → ℝ) (M : Matrix (Fin states.length) (Fin states.length) ℂ)
    (hM : ∀ i j : Fin states.length, M i j = ∑ x ∈ range n, (starRingEnd ℂ) (expand b states[i].data x) * (f x : ℂ) * expand b states[j].data x)
    (u v : ℕ → ℂ) : multiplicationElement n f (combination b states u) (combination b states v) =
      ∑ i : Fin states.length, (starRingEnd ℂ) (u i) * ∑ j : Fin states.length, M i j * v j := by
  unfold multiplicationElement combination
  have h1 : ∀ x ∈ range n, (starRingEnd ℂ) (∑ j : Fin states.length, u j * expand b states[j].data x) * (f x : ℂ) *
      (∑ j : Fin states.length, v j * expand b states[j].data x) = ∑ i : Fin states.length, ∑ j : Fin states.length,
        (starRingEnd ℂ) (u i) * ((starRingEnd ℂ) (expand b states[i].data x) * (f x : ℂ) * expand b states[j].data x * v j) := by
    intro x _
    rw [map_sum, sum_mul, sum_mul]
    refine sum_congr rfl fun i _ => ?_
    rw [mul_sum]
    refine sum_congr rfl fun j _ => ?_
    rw [map_mul]
    ring
  rw [sum_congr rfl h1, sum_comm]
  refine sum_congr rfl fun i _ => ?_
  rw [sum_comm, mul_sum]
  refine sum_congr rfl fun j _ => ?_
  rw [hM, sum_mul, mul_sum]

/-- **C149.** The eigenstates of the position between orthonormal states: the combinations of the states with the coefficients of the
eigenvectors are orthonormal, the position is diagonal between them with the eigenvalues as its values, and every eigenvalue, the mean of the
position in a combination, lies within any bounds of the positions of the points. -/
theorem C149_eigenstates_partial (same : Basis → Basis → Bool) (hs : Sound same) (A : Matrix (Fin (d + 1)) (Fin (d + 1)) ℝ) (b : Basis) (hb : Valid b)
    (ho : OrthonormalParts b) (shape : Fin (d + 1) → ℕ) (hshape : b.fundamentalShape = List.ofFn shape) (states : List StateVector)
    (horth : ∀ i j : Fin states.length, dot (points b) (expand b states[i].data) (expand b states[j].data) = if i = j then 1 else 0) :
    ∃ X, getPositionOperator same A b = some X ∧ ∀ r : EigResult,
      IsEigh states.length states.length (matrix states.length states.length (getOperatorBetweenStates states X).data) r.eigenvalues r.vectors →
      ∃ l : EigenstateList, calculateEigenvectors (getOperatorBetweenStates states X) states.length r = l ∧
        ∀ k < states.length, ∀ k' < states.length,
          dot (points b) (combination b states fun j => l.states.data (k * states.length + j))
            (combination b states fun j => l.states.data (k' * states.length + j)) = (if k = k' then 1 else 0) ∧
          multiplicationElement (points b) (fun x => cellPoint A shape x 0) (combination b states fun j => l.states.data (k * states.length + j))
            (combination b states fun j => l.states.data (k' * states.length + j)) = (if k = k' then l.eigenvalue k else 0) ∧
          (l.eigenvalue k).im = 0 ∧
          ∀ lo hi : ℝ, (∀ x < points b, lo ≤ cellPoint A shape x 0 ∧ cellPoint A shape x 0 ≤ hi) → lo ≤ (l.eigenvalue k).re ∧ (l.eigenvalue k).re ≤ hi := by
  obtain ⟨X, hX, h⟩ := between_entry same hs A b hb ho shape hshape states
  refine ⟨X, hX, fun r hr => ⟨_, rfl, ?_⟩⟩
  obtain ⟨hre, heig, hort⟩ := hr
  have hdata : ∀ k, ∀ c x, c = (calculateEigenvectors (getOperatorBetweenStates states X) states.length r).states.data →
      combination b states (fun j => c (k * states.length + j)) x = combination b states (fun j => r.vectors j k) x := by
    intro k c x hc
    unfold combination
    refine sum_congr rfl fun j _ => ?_
    rw [hc]
    congr 1
    have hsz : (getOperatorBetweenStates states X).b0.n = states.length := rfl
    unfold calculateEigenvectors
    dsimp only
    rw [hsz, flatten_entry _ _ j.2]
  have hfun : ∀ k, combination b states (fun j => (calculateEigenvectors (getOperatorBetweenStates states X) states.length r).states.data
      (k * states.length + j)) = combination b states (fun j => r.vectors j k) := fun k => funext fun x => hdata k _ x rfl
  have hone : ∀ k < states.length, ∀ k' < states.length, dot (points b) (combination b states fun j => r.vectors j k)
      (combination b states fun j => r.vectors j k') = if k = k' then 1 else 0 := by
    intro k hk k' hk'
    have e := combination_element b states (points b) (fun _ => 1) 1 (fun i j => by
      have := horth i j
      unfold dot at this
      rw [Matrix.one_apply, ← this]
      exact sum_congr rfl fun x _ => by push_cast; ring) (fun j => r.vectors j k) fun j => r.vectors j k'
    have e2 : dot (points b) (combination b states fun j => r.vectors j k) (combination b states fun j => r.vectors j k') =
        multiplicationElement (points b) (fun _ => 1) (combination b states fun j => r.vectors j k)
          (combination b states fun j => r.vectors j k') := by
      unfold dot multiplicationElement
      exact sum_congr rfl fun x _ => by push_cast; ring
    rw [e2, e, ← hort k hk k' hk']
    refine sum_congr rfl fun i _ => ?_
    congr 1
    rw [sum_eq_single i]
    · rw [Matrix.one_apply_eq, one_mul]
    · intro j _ hj
      rw [Matrix.one_apply_ne (Ne.symm hj), zero_mul]
    · intro hn; exact absurd (mem_univ _) hn
  have hmul : ∀ k < states.length, ∀ k' < states.length, multiplicationElement (points b) (fun x => cellPoint A shape x 0)
      (combination b states fun j => r.vectors j k) (combination b states fun j => r.vectors j k') = if k = k' then r.eigenvalues k else 0 := by
    intro k hk k' hk'
    rw [combination_element b states _ _ _ h]
    simp only [heig k' hk']
    have : ∑ i : Fin states.length, (starRingEnd ℂ) (r.vectors i k) * (r.eigenvalues k' * r.vectors i k') =
        r.eigenvalues k' * ∑ i : Fin states.length, (starRingEnd ℂ) (r.vectors i k) * r.vectors i k' := by
      rw [mul_sum]
      exact sum_congr rfl fun i _ => by ring
    rw [this, hort k hk k' hk']
    split
    · next hkk => rw [hkk, mul_one]
    · rw [mul_zero]
  intro k hk k' hk'
  rw [hfun k, hfun k']
  refine ⟨hone k hk k' hk', hmul k hk k' hk', hre k hk, fun lo hi hx => ?_⟩
  show lo ≤ (r.eigenvalues k).re ∧ (r.eigenvalues k).re ≤ hi
  have h1 := hone k hk k hk
  have h2 := hmul k hk k hk
  rw [if_pos rfl] at h1 h2
  generalize combination b states (fun j => r.vectors j k) = φ at h1 h2
  have n1 : ∑ x ∈ range (points b), ‖φ x‖ ^ 2 = 1 := by
    have := congrArg Complex.re h1
    unfold dot at this
    rw [Complex.re_sum, Complex.one_re] at this
    rw [← this]
    refine sum_congr rfl fun x _ => ?_
    rw [Complex.conj_mul', ← Complex.ofReal_pow, Complex.ofReal_re]
  have n2 : ∑ x ∈ range (points b), cellPoint A shape x 0 * ‖φ x‖ ^ 2 = (r.eigenvalues k).re := by
    rw [← h2]
    unfold multiplicationElement
    rw [Complex.re_sum]
    refine sum_congr rfl fun x _ => ?_
    rw [show (starRingEnd ℂ) (φ x) * (cellPoint A shape x 0 : ℂ) * φ x = (cellPoint A shape x 0 : ℂ) * ((starRingEnd ℂ) (φ x) * φ x) by ring,
      Complex.conj_mul', ← Complex.ofReal_pow, ← Complex.ofReal_mul, Complex.ofReal_re]
  rw [← n2]
  constructor
  · calc lo = ∑ x ∈ range (points b), lo * ‖φ x‖ ^ 2 := by rw [← mul_sum, n1, mul_one]
      _ ≤ _ := sum_le_sum fun x hx' => mul_le_mul_of_nonneg_right (hx x (mem_range.1 hx')).1 (by positivity)
  · calc _ ≤ ∑ x ∈ range (points b), hi * ‖φ x‖ ^ 2 :=
        sum_le_sum fun x hx' => mul_le_mul_of_nonneg_right (hx x (mem_range.1 hx')).2 (by positivity)
      _ = hi := by rw [← mul_sum, n1, mul_one]

/-- Two orthonormal combinations of plane waves on four points. -/
example : ∃ (b : Basis) (states : List StateVector), Valid b ∧ OrthonormalParts b ∧ b.fundamentalShape = List.ofFn (fun _ : Fin 1 => 4) ∧
    states.length = 2 ∧ ∀ i j : Fin states.length, dot (points b) (expand b states[i].data) (expand b states[j].data) = if i = j then 1 else 0 := by
  have hb : Valid (.tuple [.fundamentalTransformed 4]) := by simp [Valid, Valids]
  have ho : OrthonormalParts (.tuple [.fundamentalTransformed 4]) := by simp [OrthonormalParts, OrthonormalPartss]
  refine ⟨.tuple [.fundamentalTransformed 4], [⟨.tuple [.fundamentalTransformed 4], unit 1⟩, ⟨.tuple [.fundamentalTransformed 4], unit 3⟩], hb, ho, rfl,
    rfl, fun i j => ?_⟩
  have e : ∀ k < 4, ∀ x, expand (.tuple [.fundamentalTransformed 4]) (unit k) x = state (.tuple [.fundamentalTransformed 4]) k x := fun k hk x => by
    unfold expand unit
    rw [show size (Basis.tuple [.fundamentalTransformed 4]) = 4 from rfl,
      sum_eq_single k (fun m _ hm => by simp [hm]) (fun h => absurd (mem_range.2 hk) h)]
    simp
  have o := state_orthonormal (.tuple [.fundamentalTransformed 4]) hb ho
  fin_cases i <;> fin_cases j <;> simp only [dot, List.getElem_cons_zero, List.getElem_cons_succ, Fin.getElem_fin] <;>
    simp only [e 1 (by norm_num), e 3 (by norm_num)]
  · exact o 1 (by norm_num [size, sizes]) 1 (by norm_num [size, sizes])
  · exact o 1 (by norm_num [size, sizes]) 3 (by norm_num [size, sizes])
  · exact o 3 (by norm_num [size, sizes]) 1 (by norm_num [size, sizes])
  · exact o 3 (by norm_num [size, sizes]) 3 (by norm_num [size, sizes])

/-- **C149** fails for the localised states: for at least one state the function raises, whatever the eigenvectors. -/
theorem C149_localize_negation (same : Basis → Basis → Bool) (A : Matrix (Fin (d + 1)) (Fin (d + 1)) ℝ) (states : List StateVector)
    (hn : states ≠ []) (b : Basis) (eigh : Operator → EigResult) : localizeStatesByPosition same A states b eigh = none := by
  unfold localizeStatesByPosition
  cases getPositionOperator same A b with
  | none => rfl
  | some X =>
    have h : 0 < states.length := List.length_pos_iff.2 hn
    show (if states.length * states.length = 0 then _ else _) = _
    rw [if_neg (by positivity)]

/-- **C149 (negation).** `localize_position_operator` raises for every wavepacket with eigenvalues, and `localize_position_operator_many_band_individual` for
every list of wavepackets. -/
theorem C149_wavepacket_negation (same : Basis → Basis → Bool) :
    (∀ (w : StateVectorList) (n : ℕ) (eigenvalue : ℕ → ℂ), n ≠ 0 → localizePositionOperator same w n eigenvalue = none) ∧
    ∀ wavepackets, localizePositionOperatorIndividual same wavepackets = none := by
  have key : ∀ (w : StateVectorList) (n : ℕ) (eigenvalue : ℕ → ℂ), localizePositionOperator same w n eigenvalue = none ∨
      localizePositionOperator same w n eigenvalue = some [] := by
    intro w n eigenvalue
    unfold localizePositionOperator
    cases getAllEigenstates same w n eigenvalue with
    | none => exact Or.inl rfl
    | some l =>
      rw [Option.bind_some]
      split_ifs
      · exact Or.inr rfl
      · exact Or.inl rfl
  refine ⟨fun w n eigenvalue hn => ?_, fun wavepackets => ?_⟩
  · unfold localizePositionOperator
    cases h : getAllEigenstates same w n eigenvalue with
    | none => rfl
    | some l =>
      have hl : l.length = n := by
        unfold getAllEigenstates at h
        cases h1 : wavepacketAxes w with
        | none => rw [h1] at h; cases h
        | some axes =>
          rw [h1, Option.bind_some] at h
          cases h2 : convertWavepacketToMomentum same w with
          | none => rw [h2] at h; cases h
          | some c =>
            rw [h2, Option.bind_some] at h
            split_ifs at h
            rw [← Option.some.inj h, List.length_map, List.length_range]
      rw [Option.bind_some, hl, if_neg (mul_ne_zero hn hn)]
  · unfold localizePositionOperatorIndividual
    cases wavepackets with
    | nil => rfl
    | cons w ws =>
      rw [List.head?_cons, Option.bind_some, List.mapM_cons]
      rcases key w.1 w.2.1 w.2.2 with h | h <;> rw [h] <;> rfl

end Verif
