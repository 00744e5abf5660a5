import Verif.Props.C52_Wannier

/-!
# C91: the Hamiltonian in the basis of Wannier states
-/

set_option autoImplicit false

namespace Verif

open Finset Spec

/-- The matrix element of `T` between two functions on `n` points. -/
noncomputable def sandwich (n : ℕ) (T : ℕ → ℕ → ℂ) (φ φ' : ℕ → ℂ) : ℂ :=
  dot n φ fun X => ∑ X' ∈ range n, T X X' * φ' X'

/-- The Bloch state of band `c` and sample `a` at the points of the large cell. -/
noncomputable def blochState (axes : List (ℕ × ℕ)) (b : Basis) (data : ℕ → ℂ) (c a X : ℕ) : ℂ :=
  blochWave axes b (block (size b) data (c * (sampleShape axes).prod + a)) (unravel (sampleShape axes) a)
    (unravel (unfurledShape axes) X)

/-- The Bloch states are eigenstates of the Hamiltonian `T` on the points of the large cell, with the energies `h`. -/
def BlochEigen (axes : List (ℕ × ℕ)) (b : Basis) (bands : ℕ) (data : ℕ → ℂ) (T : ℕ → ℕ → ℂ) (h : ℕ → ℂ) : Prop :=
  ∀ c < bands, ∀ a < (sampleShape axes).prod, ∀ X < (unfurledShape axes).prod,
    ∑ X' ∈ range (unfurledShape axes).prod, T X X' * blochState axes b data c a X' =
      h (c * (sampleShape axes).prod + a) * blochState axes b data c a X

theorem blochState_gram (axes : List (ℕ × ℕ)) (b : Basis) (hb : Valid b) (ho : OrthonormalParts b)
    (hshape : b.fundamentalShape = stateShape axes) (bands : ℕ) (data : ℕ → ℂ)
    (hw : Orthonormal ⟨bands, sampleShape axes, b, data⟩) {c c' a a' : ℕ} (hc : c < bands) (hc' : c' < bands)
    (ha : a < (sampleShape axes).prod) (ha' : a' < (sampleShape axes).prod) :
    ∑ X ∈ range (unfurledShape axes).prod, (starRingEnd ℂ) (blochState axes b data c a X) * blochState axes b data c' a' X =
      if a = a' then (if c = c' then 1 else 0) else 0 := by
  unfold blochState
  rw [C48_orthogonal axes b hb ho hshape _ _ a a' ha ha']
  by_cases e : a = a'
  · subst e
    rw [if_pos rfl, if_pos rfl]
    exact hw c hc c' hc' a ha
  · rw [if_neg e, if_neg e]

/-- Such a Hamiltonian exists for all orthonormal Bloch states and energies. -/
theorem blochEigen_exists (axes : List (ℕ × ℕ)) (b : Basis) (hb : Valid b) (ho : OrthonormalParts b)
    (hshape : b.fundamentalShape = stateShape axes) (bands : ℕ) (data : ℕ → ℂ)
    (hw : Orthonormal ⟨bands, sampleShape axes, b, data⟩) (h : ℕ → ℂ) : ∃ T, BlochEigen axes b bands data T h := by
  refine ⟨fun X X' => ∑ a ∈ range (sampleShape axes).prod, ∑ c ∈ range bands, h (c * (sampleShape axes).prod + a) *
    (blochState axes b data c a X * (starRingEnd ℂ) (blochState axes b data c a X')), fun c hc a ha X hX => ?_⟩
  have e : ∀ X' ∈ range (unfurledShape axes).prod, (∑ a' ∈ range (sampleShape axes).prod, ∑ c' ∈ range bands,
      h (c' * (sampleShape axes).prod + a') *
        (blochState axes b data c' a' X * (starRingEnd ℂ) (blochState axes b data c' a' X'))) * blochState axes b data c a X' =
      ∑ a' ∈ range (sampleShape axes).prod, ∑ c' ∈ range bands, (h (c' * (sampleShape axes).prod + a') *
        blochState axes b data c' a' X) * ((starRingEnd ℂ) (blochState axes b data c' a' X') * blochState axes b data c a X') := by
    intro X' _
    rw [sum_mul]
    refine sum_congr rfl fun a' _ => ?_
    rw [sum_mul]
    exact sum_congr rfl fun c' _ => by ring
  rw [sum_congr rfl e, sum_comm]
  rw [sum_eq_single a]
  · rw [sum_comm, sum_eq_single c]
    · rw [← mul_sum, blochState_gram axes b hb ho hshape bands data hw hc hc ha ha, if_pos rfl, if_pos rfl, mul_one]
    · intro c' hc' hne
      rw [← mul_sum, blochState_gram axes b hb ho hshape bands data hw (mem_range.1 hc') hc ha ha, if_pos rfl, if_neg hne, mul_zero]
    · intro q; exact absurd (mem_range.2 hc) q
  · intro a' ha' hne
    rw [sum_comm]
    refine sum_eq_zero fun c' hc' => ?_
    rw [← mul_sum, blochState_gram axes b hb ho hshape bands data hw (mem_range.1 hc') hc (mem_range.1 ha') ha, if_neg hne, mul_zero]
  · intro q; exact absurd (mem_range.2 ha) q

theorem orthoKernel_pos : ∀ ns as ts : List ℕ, orthoKernel 1 ns as ts = waves ns as ts
  | n :: ns, a :: as, t :: ts => by
    rw [orthoKernel, waves, orthoKernel_pos ns as ts]
    unfold planeWave
    congr 3
    push_cast
    ring
  | [], _, _ => rfl
  | _ :: _, [], _ => rfl
  | _ :: _, _ :: _, [] => rfl

theorem orthoKernel_neg : ∀ ns as ts : List ℕ, orthoKernel (-1) ns as ts = (starRingEnd ℂ) (waves ns as ts)
  | n :: ns, a :: as, t :: ts => by
    rw [orthoKernel, waves, orthoKernel_neg ns as ts, map_mul]
    congr 1
    unfold planeWave
    rw [exp_phase, map_div₀, Complex.conj_ofReal, phase_conj]
    congr 1
    unfold phase
    congr 1
    push_cast
    ring
  | [], _, _ => (map_one _).symm
  | _ :: _, [], _ => (map_one _).symm
  | _ :: _, _ :: _, [] => (map_one _).symm

theorem state_waves (ns : List ℕ) {a t : ℕ} (ha : a < ns.prod) (ht : t < ns.prod) :
    state (fT ns) a t = waves ns (unravel ns a) (unravel ns t) := by
  rw [← states_fT _ _ _ (unravel_inShape _ a ha) (unravel_inShape _ t ht), ravel_unravel _ a ha, ravel_unravel _ t ht]
  rfl

/-- The entries of the computed matrix. -/
theorem fullWannier_entry (h : ℕ → ℂ) (op : LocalizationOperator) {t i t' j : ℕ} (ht : t < op.samples.prod)
    (hi : i < op.new) (ht' : t' < op.samples.prod) (hj : j < op.new) :
    fullWannierHamiltonian h op (((t * op.new + i) * op.samples.prod + t') * op.new + j) =
      ∑ a ∈ range op.samples.prod, (starRingEnd ℂ) (state (fT op.samples) a t') * state (fT op.samples) a t *
        localizedHamiltonian h op ((a * op.new + i) * op.new + j) := by
  have e1 : ((t * op.new + i) * op.samples.prod + t') * op.new + j =
      (op.new * (op.samples.prod * op.new)) * t + ((i * op.samples.prod + t') * op.new + j) := by ring
  have e2 : (i * op.samples.prod + t') * op.new + j < op.new * (op.samples.prod * op.new) := by
    calc (i * op.samples.prod + t') * op.new + j < (i * op.samples.prod + t') * op.new + op.new := by omega
      _ = (i * op.samples.prod + t' + 1) * op.new := by ring
      _ ≤ (i * op.samples.prod + op.samples.prod) * op.new := Nat.mul_le_mul_right _ (by omega)
      _ = (i + 1) * (op.samples.prod * op.new) := by ring
      _ ≤ op.new * (op.samples.prod * op.new) := Nat.mul_le_mul_right _ hi
  unfold fullWannierHamiltonian
  rw [e1]
  unfold flatten
  rw [Nat.mul_add_div (by omega), Nat.mul_add_mod, Nat.div_eq_of_lt e2, Nat.mod_eq_of_lt e2, Nat.add_zero]
  beta_reduce
  rw [flatten3_at _ ht' hj]
  apply sum_congr rfl; intro a ha
  rw [sum_eq_single a]
  · rw [if_pos rfl, mul_one, orthoKernel_pos, orthoKernel_neg, ← state_waves _ (mem_range.1 ha) ht,
      ← state_waves _ (mem_range.1 ha) ht']
    ring
  · intro a' _ hne
    rw [if_neg (Ne.symm hne), mul_zero, mul_zero]
  · intro q; exact absurd ha q

theorem wannier_sandwich (same : Basis → Basis → Bool) (hs : Sound same) (axes : List (ℕ × ℕ)) (b : Basis)
    (hb : Valid b) (ho : OrthonormalParts b) (hshape : b.fundamentalShape = stateShape axes) (hfull : b.shape = stateShape axes)
    (data : ℕ → ℂ) (op : LocalizationOperator) (hS : op.samples = sampleShape axes)
    (hw : Orthonormal ⟨op.old, sampleShape axes, b, data⟩) (T : ℕ → ℕ → ℂ) (h : ℕ → ℂ) (hT : BlochEigen axes b op.old data T h) :
    ∃ W, wannierStates same ⟨op.old, sampleShape axes, b, data⟩ op = some W ∧
      ∀ i < op.new, ∀ j < op.new, ∀ t < op.samples.prod, ∀ t' < op.samples.prod,
        sandwich (unfurledShape axes).prod T (block (unfurledShape axes).prod W (j * op.samples.prod + t'))
            (block (unfurledShape axes).prod W (i * op.samples.prod + t)) =
          ∑ a ∈ range op.samples.prod, (starRingEnd ℂ) (state (fT op.samples) a t') * state (fT op.samples) a t *
            localizedHamiltonian h op ((a * op.new + i) * op.new + j) := by
  obtain ⟨l, W, h1, h2, h3⟩ := C52_superposition_partial same hs axes b hb ho hshape hfull data op hS
  refine ⟨W, h2, fun i hi j hj t ht t' ht' => ?_⟩
  rw [hS] at ht ht' ⊢
  obtain ⟨l', g1, g2, g3, g4, g5⟩ := localized_block ⟨op.old, sampleShape axes, b, data⟩ op rfl hS.symm
  have hl : l' = l := by rw [h1] at g1; exact (Option.some.inj g1).symm
  rw [hl] at g5
  dsimp only at g5
  -- the localised Bloch states in terms of the Bloch states
  have loc : ∀ i, ∀ a < (sampleShape axes).prod, ∀ X,
      blochWave axes b (block (size b) l.data (i * (sampleShape axes).prod + a)) (unravel (sampleShape axes) a)
        (unravel (unfurledShape axes) X) = ∑ c ∈ range op.old, op.entry a i c * blochState axes b data c a X := by
    intro i a ha X
    rw [blochWave_coeff axes b (g5 i a ha)]
    exact blochWave_sum axes b _ _ _ _ _
  unfold sandwich
  refine dot_superposition (unfurledShape axes).prod (sampleShape axes).prod (fun a => state (fT (sampleShape axes)) a t')
    (fun a => state (fT (sampleShape axes)) a t)
    (fun a X => ∑ c ∈ range op.old, op.entry a j c * blochState axes b data c a X)
    (fun a X => ∑ c ∈ range op.old, op.entry a i c * h (c * (sampleShape axes).prod + a) * blochState axes b data c a X)
    (fun a => localizedHamiltonian h op ((a * op.new + i) * op.new + j)) ?_
    (block (unfurledShape axes).prod W (j * (sampleShape axes).prod + t'))
    (fun X => ∑ X' ∈ range (unfurledShape axes).prod,
      T X X' * block (unfurledShape axes).prod W (i * (sampleShape axes).prod + t) X') ?_ ?_
  · intro a ha a' ha'
    have e : ∀ X ∈ range (unfurledShape axes).prod,
        (starRingEnd ℂ) (∑ c ∈ range op.old, op.entry a j c * blochState axes b data c a X) *
          ∑ c ∈ range op.old, op.entry a' i c * h (c * (sampleShape axes).prod + a') * blochState axes b data c a' X =
        ∑ c ∈ range op.old, ∑ c' ∈ range op.old, ((starRingEnd ℂ) (op.entry a j c) * (op.entry a' i c' *
          h (c' * (sampleShape axes).prod + a'))) * ((starRingEnd ℂ) (blochState axes b data c a X) *
            blochState axes b data c' a' X) := by
      intro X _
      rw [map_sum, sum_mul_sum]
      refine sum_congr rfl fun c _ => sum_congr rfl fun c' _ => ?_
      rw [map_mul]; ring
    rw [sum_congr rfl e, sum_comm]
    have e2 : ∀ c ∈ range op.old, ∑ X ∈ range (unfurledShape axes).prod, ∑ c' ∈ range op.old,
        ((starRingEnd ℂ) (op.entry a j c) * (op.entry a' i c' * h (c' * (sampleShape axes).prod + a'))) *
          ((starRingEnd ℂ) (blochState axes b data c a X) * blochState axes b data c' a' X) =
        if a = a' then (starRingEnd ℂ) (op.entry a j c) * (op.entry a i c * h (c * (sampleShape axes).prod + a)) else 0 := by
      intro c hc
      rw [sum_comm, sum_eq_single c]
      · rw [← mul_sum, blochState_gram axes b hb ho hshape op.old data hw (mem_range.1 hc) (mem_range.1 hc) ha ha', if_pos rfl]
        by_cases q : a = a'
        · rw [if_pos q, if_pos q, mul_one, q]
        · rw [if_neg q, if_neg q, mul_zero]
      · intro c' hc' hne
        rw [← mul_sum, blochState_gram axes b hb ho hshape op.old data hw (mem_range.1 hc) (mem_range.1 hc') ha ha',
          if_neg (Ne.symm hne)]
        split <;> rw [mul_zero]
      · intro q; exact absurd hc q
    rw [sum_congr rfl e2]
    by_cases q : a = a'
    · simp only [if_pos q]
      unfold localizedHamiltonian
      rw [flatten3_at _ hi hj, hS]
      exact sum_congr rfl fun c _ => by ring
    · simp only [if_neg q, sum_const_zero]
  · intro X hX
    rw [show block (unfurledShape axes).prod W (j * (sampleShape axes).prod + t') X = _ from h3 j hj t' ht' X hX]
    exact sum_congr rfl fun a ha => by rw [loc j a (mem_range.1 ha) X]
  · intro X hX
    have e : ∀ X' ∈ range (unfurledShape axes).prod, T X X' * block (unfurledShape axes).prod W
        (i * (sampleShape axes).prod + t) X' = ∑ a ∈ range (sampleShape axes).prod, ∑ c ∈ range op.old,
          (state (fT (sampleShape axes)) a t * op.entry a i c) * (T X X' * blochState axes b data c a X') := by
      intro X' hX'
      rw [show block (unfurledShape axes).prod W (i * (sampleShape axes).prod + t) X' = _ from h3 i hi t ht X' (mem_range.1 hX'),
        mul_sum]
      refine sum_congr rfl fun a ha => ?_
      rw [loc i a (mem_range.1 ha) X', mul_sum, mul_sum]
      exact sum_congr rfl fun c _ => by ring
    rw [sum_congr rfl e, sum_comm]
    refine sum_congr rfl fun a ha => ?_
    rw [sum_comm, mul_sum]
    refine sum_congr rfl fun c hc => ?_
    rw [← mul_sum, hT c (mem_range.1 hc) a (mem_range.1 ha) X hX]
    ring

/-- **C91.** The computed matrix has the right entries but in the wrong places: with rows and columns in the order `(translation,
wannier)`, entry `((t, i), (t', j))` is the matrix element of the Hamiltonian between the Wannier states `(j, t')` and `(i, t)`. -/
theorem C91_entries_partial (same : Basis → Basis → Bool) (hs : Sound same) (axes : List (ℕ × ℕ)) (b : Basis)
    (hb : Valid b) (ho : OrthonormalParts b) (hshape : b.fundamentalShape = stateShape axes) (hfull : b.shape = stateShape axes)
    (data : ℕ → ℂ) (op : LocalizationOperator) (hS : op.samples = sampleShape axes)
    (hw : Orthonormal ⟨op.old, sampleShape axes, b, data⟩) (T : ℕ → ℕ → ℂ) (h : ℕ → ℂ) (hT : BlochEigen axes b op.old data T h) :
    ∃ W, wannierStates same ⟨op.old, sampleShape axes, b, data⟩ op = some W ∧
      ∀ i < op.new, ∀ j < op.new, ∀ t < op.samples.prod, ∀ t' < op.samples.prod,
        fullWannierHamiltonian h op ((t * op.new + i) * (op.samples.prod * op.new) + (t' * op.new + j)) =
          sandwich (unfurledShape axes).prod T (block (unfurledShape axes).prod W (j * op.samples.prod + t'))
            (block (unfurledShape axes).prod W (i * op.samples.prod + t)) := by
  obtain ⟨W, h1, h2⟩ := wannier_sandwich same hs axes b hb ho hshape hfull data op hS hw T h hT
  refine ⟨W, h1, fun i hi j hj t ht t' ht' => ?_⟩
  rw [h2 i hi j hj t ht t' ht', ← fullWannier_entry h op ht hi ht' hj]
  congr 1
  ring

/-- **C91, negation.** One band and three samples: the matrix is transposed, i.e. conjugated. -/
theorem C91_transposed_negation (same : Basis → Basis → Bool) (hs : Sound same) :
    ∃ (axes : List (ℕ × ℕ)) (b : Basis) (data : ℕ → ℂ) (op : LocalizationOperator) (T : ℕ → ℕ → ℂ) (h W : ℕ → ℂ),
      Valid b ∧ OrthonormalParts b ∧ b.fundamentalShape = stateShape axes ∧ b.shape = stateShape axes ∧
      op.samples = sampleShape axes ∧ Orthonormal ⟨op.old, sampleShape axes, b, data⟩ ∧ BlochEigen axes b op.old data T h ∧
      wannierStates same ⟨op.old, sampleShape axes, b, data⟩ op = some W ∧ op.new = 1 ∧
      fullWannierHamiltonian h op 1 ≠ sandwich (unfurledShape axes).prod T (block (unfurledShape axes).prod W 0)
        (block (unfurledShape axes).prod W 1) := by
  let op : LocalizationOperator := ⟨[3], 1, 1, fun _ => 1⟩
  let h : ℕ → ℂ := fun k => if k = 1 then 1 else 0
  have hw : Orthonormal ⟨op.old, sampleShape [(3, 1)], fT [1], fun _ => 1⟩ := by
    intro i hi i' hi' a ha
    have hi : i < 1 := hi
    have hi' : i' < 1 := hi'
    interval_cases i; interval_cases i'
    simp [dot, block, size, sizes]
  obtain ⟨T, hT⟩ := blochEigen_exists [(3, 1)] (fT [1]) (valids_fT _) (orthonormalPartss_fT _) rfl op.old (fun _ => 1) hw h
  obtain ⟨W, h1, h2⟩ := wannier_sandwich same hs [(3, 1)] (fT [1]) (valids_fT _) (orthonormalPartss_fT _) rfl rfl (fun _ => 1) op rfl
    hw T h hT
  refine ⟨[(3, 1)], fT [1], fun _ => 1, op, T, h, W, valids_fT _, orthonormalPartss_fT _, rfl, rfl, rfl, hw, hT, h1, rfl, ?_⟩
  have k1 := h2 0 (by norm_num [op]) 0 (by norm_num [op]) 1 (by norm_num [op]) 0 (by norm_num [op])
  have k2 := fullWannier_entry h op (t := 0) (i := 0) (t' := 1) (j := 0) (by norm_num [op]) (by norm_num [op]) (by norm_num [op])
    (by norm_num [op])
  have k1' : sandwich (unfurledShape [(3, 1)]).prod T (block (unfurledShape [(3, 1)]).prod W 0)
      (block (unfurledShape [(3, 1)]).prod W 1) = _ := k1
  have k2' : fullWannierHamiltonian h op 1 = _ := k2
  rw [k1', k2']
  have H : ∀ a, localizedHamiltonian h op ((a * op.new + 0) * op.new + 0) = h a := by
    intro a
    rw [localizedHamiltonian, flatten3_at _ (by norm_num [op]) (by norm_num [op])]
    simp [op, LocalizationOperator.entry]
  simp only [H]
  have s0 : ∀ t, state (fT op.samples) 1 t = phase 3 t / (Real.sqrt 3 : ℂ) := by
    intro t
    simp [op, fT, state, states, sizes, pointss, planeWave, phase]
  simp only [show op.samples.prod = 3 from rfl, sum_range_succ, range_zero, sum_empty, h]
  norm_num
  rw [s0, s0]
  intro q
  have r0 : (Real.sqrt 3 : ℂ) ≠ 0 := by
    rw [Ne, Complex.ofReal_eq_zero, Real.sqrt_eq_zero (by norm_num)]; norm_num
  rw [map_div₀, map_div₀, Complex.conj_ofReal, phase_conj, phase_conj] at q
  have q2 : phase 3 (-1) = phase 3 1 := by
    have e1 : phase 3 (-((0 : ℕ) : ℤ)) = 1 := phase_zero 3
    have e2 : phase 3 ((0 : ℕ) : ℤ) = 1 := phase_zero 3
    rw [e1, e2] at q
    field_simp at q
    exact_mod_cast q
  have q3 : phase 3 2 = 1 := by
    have : phase 3 2 = phase 3 1 * phase 3 1 := phase_add 3 1 1
    rw [this]
    calc phase 3 1 * phase 3 1 = phase 3 1 * phase 3 (-1) := by rw [q2]
      _ = phase 3 0 := by rw [← phase_add]; norm_num
      _ = 1 := phase_zero 3
  rw [phase_eq_one_iff (by norm_num)] at q3
  norm_num at q3

/-- **C91, negation.** Two bands and two samples: the rows and columns are not in the order of the Wannier basis. -/
theorem C91_order_negation (same : Basis → Basis → Bool) (hs : Sound same) :
    ∃ (axes : List (ℕ × ℕ)) (b : Basis) (data : ℕ → ℂ) (op : LocalizationOperator) (T : ℕ → ℕ → ℂ) (h W : ℕ → ℂ),
      Valid b ∧ OrthonormalParts b ∧ b.fundamentalShape = stateShape axes ∧ b.shape = stateShape axes ∧
      op.samples = sampleShape axes ∧ Orthonormal ⟨op.old, sampleShape axes, b, data⟩ ∧ BlochEigen axes b op.old data T h ∧
      wannierStates same ⟨op.old, sampleShape axes, b, data⟩ op = some W ∧ op.new = 2 ∧ op.samples = [2] ∧
      fullWannierHamiltonian h op (1 * 4 + 1) ≠ sandwich (unfurledShape axes).prod T (block (unfurledShape axes).prod W 1)
        (block (unfurledShape axes).prod W 1) := by
  let op : LocalizationOperator := ⟨[2], 2, 2, fun k => if k % 4 = 0 ∨ k % 4 = 3 then 1 else 0⟩
  let h : ℕ → ℂ := fun k => if k < 2 then 0 else 1
  let data : ℕ → ℂ := fun k => if k / 4 = k % 2 then 1 else 0
  have hw : Orthonormal ⟨op.old, sampleShape [(2, 2)], fT [2], data⟩ := by
    intro i hi i' hi' a ha
    have hi : i < 2 := hi
    have hi' : i' < 2 := hi'
    have ha : a < 2 := ha
    rw [show size (fT [2]) = 2 from rfl, show (sampleShape [(2, 2)]).prod = 2 from rfl]
    interval_cases i <;> interval_cases i' <;> interval_cases a <;> simp [dot, block, sum_range_succ, data]
  obtain ⟨T, hT⟩ := blochEigen_exists [(2, 2)] (fT [2]) (valids_fT _) (orthonormalPartss_fT _) rfl op.old data hw h
  obtain ⟨W, h1, h2⟩ := wannier_sandwich same hs [(2, 2)] (fT [2]) (valids_fT _) (orthonormalPartss_fT _) rfl rfl data op rfl hw T h hT
  refine ⟨[(2, 2)], fT [2], data, op, T, h, W, valids_fT _, orthonormalPartss_fT _, rfl, rfl, rfl, hw, hT, h1, rfl, rfl, ?_⟩
  have k1 := h2 0 (by norm_num [op]) 0 (by norm_num [op]) 1 (by norm_num [op]) 1 (by norm_num [op])
  have k2 := fullWannier_entry h op (t := 0) (i := 1) (t' := 0) (j := 1) (by norm_num [op]) (by norm_num [op]) (by norm_num [op])
    (by norm_num [op])
  have k1' : sandwich (unfurledShape [(2, 2)]).prod T (block (unfurledShape [(2, 2)]).prod W 1)
      (block (unfurledShape [(2, 2)]).prod W 1) = _ := k1
  have k2' : fullWannierHamiltonian h op (1 * 4 + 1) = _ := k2
  rw [k1', k2']
  have H0 : ∀ a < 2, localizedHamiltonian h op ((a * op.new + 0) * op.new + 0) = 0 := by
    intro a ha
    rw [localizedHamiltonian, flatten3_at _ (by norm_num [op]) (by norm_num [op])]
    interval_cases a <;> simp [op, LocalizationOperator.entry, sum_range_succ, h]
  have H1 : ∀ a < 2, localizedHamiltonian h op ((a * op.new + 1) * op.new + 1) = 1 := by
    intro a ha
    rw [localizedHamiltonian, flatten3_at _ (by norm_num [op]) (by norm_num [op])]
    interval_cases a <;> simp [op, LocalizationOperator.entry, sum_range_succ, h]
  rw [sum_congr rfl fun a ha => by rw [H1 a (mem_range.1 ha), mul_one, mul_comm],
    complete_of_orthonormal (fT_facts op.samples).2.2 (x := 0) (y := 0) (by norm_num [op]) (by norm_num [op]), if_pos rfl,
    sum_congr rfl fun a ha => by rw [H0 a (mem_range.1 ha), mul_zero], sum_const_zero]
  exact one_ne_zero

end Verif
