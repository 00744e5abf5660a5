import Verif.Model.EigenOccupations
import Verif.Props.C26_Eigen
import Verif.Props.C48_Bloch
import Verif.Props.C129_ValueLists

/-!
# C136: occupations of eigenstates and bands drawn against energy
-/

set_option autoImplicit false

namespace Verif

open Finset Spec Matrix

theorem minValue_spec (n : ℕ) (x : ℕ → ℝ) : (∀ k ≤ n, minValue n x ≤ x k) ∧ ∃ k ≤ n, minValue n x = x k := by
  unfold minValue
  induction n with
  | zero => exact ⟨fun k hk => by rw [Nat.le_zero.1 hk]; exact le_refl _, 0, le_refl _, rfl⟩
  | succ n ih =>
    rw [List.range_succ, List.foldl_append, List.foldl_cons, List.foldl_nil]
    obtain ⟨h1, k, hk, h2⟩ := ih
    refine ⟨fun k hk => ?_, ?_⟩
    · rcases Nat.lt_or_ge k (n + 1) with h | h
      · exact (min_le_left _ _).trans (h1 k (by omega))
      · rw [show k = n + 1 by omega]; exact min_le_right _ _
    · rcases min_choice (List.foldl (fun m k => min m (x (k + 1))) (x 0) (List.range n)) (x (n + 1)) with h | h
      · exact ⟨k, by omega, by rw [h]; exact h2⟩
      · exact ⟨n + 1, le_refl _, h⟩

theorem eigh_quadratic {n : ℕ} {M : Matrix (Fin n) (Fin n) ℂ} {lam : ℕ → ℂ} {vec : ℕ → ℕ → ℂ} (h : IsEigh n n M lam vec) (c : Fin n → ℂ) :
    ∑ k : Fin n, lam k * (‖∑ i : Fin n, (starRingEnd ℂ) (vec i k) * c i‖ ^ 2 : ℝ) =
      ∑ i : Fin n, ∑ j : Fin n, (starRingEnd ℂ) (c i) * M i j * c j := by
  have h1 : star c ⬝ᵥ (M *ᵥ c) = ∑ i : Fin n, ∑ j : Fin n, (starRingEnd ℂ) (c i) * M i j * c j := by
    unfold dotProduct mulVec dotProduct
    exact sum_congr rfl fun i _ => by rw [mul_sum]; exact sum_congr rfl fun j _ => by rw [mul_assoc]; rfl
  rw [← h1, h.isEig.eq, h.inv_eq, ← mulVec_mulVec, ← mulVec_mulVec, dotProduct_mulVec,
    show star c ᵥ* vecMatrix n vec = star ((vecMatrix n vec)ᴴ *ᵥ c) by rw [star_mulVec, conjTranspose_conjTranspose]]
  refine sum_congr rfl fun k _ => ?_
  have e : ((vecMatrix n vec)ᴴ *ᵥ c) k = ∑ i : Fin n, (starRingEnd ℂ) (vec i k) * c i := rfl
  rw [diagMatrix, mulVec_diagonal, Pi.star_apply, e]
  generalize ∑ i : Fin n, (starRingEnd ℂ) (vec i k) * c i = z
  rw [mul_left_comm, show star z * z = ((‖z‖ ^ 2 : ℝ) : ℂ) by rw [mul_comm]; exact_mod_cast Complex.mul_conj' z]

namespace Spec

/-- The amplitude of the function `ψ` on the grid in state `i` of a basis. -/
noncomputable def amplitude (b : Basis) (ψ : ℕ → ℂ) (i : ℕ) : ℂ := ∑ x ∈ range (points b), (starRingEnd ℂ) (state b i x) * ψ x

/-- The expectation, in `ψ`, of the operator with the matrix `M` between the states of a basis. -/
noncomputable def meanOf (b : Basis) (M : ℕ → ℕ → ℂ) (ψ : ℕ → ℂ) : ℂ :=
  ∑ i ∈ range (size b), ∑ j ∈ range (size b), (starRingEnd ℂ) (amplitude b ψ i) * M i j * amplitude b ψ j

end Spec

/-- The line drawn for a state `ψ`: against energies measured from the lowest, the squared amplitudes in the eigenstates, which add up to the square
of the norm if the basis of the Hamiltonian is complete, and whose mean of the energy is that of the state. -/
def IsOccupationLine (b : Basis) (M : ℕ → ℕ → ℂ) (lam : ℕ → ℂ) (vec : ℕ → ℕ → ℂ) (ψ : ℕ → ℂ) (line : DrawnLine) : Prop :=
  line.n = size b ∧ (∀ k < size b, 0 ≤ line.coordinates k) ∧ (∃ k < size b, line.coordinates k = 0) ∧
  (∀ k < size b, ∀ l < size b, line.coordinates k - line.coordinates l = (lam k).re - (lam l).re) ∧
  (∀ k < size b, line.values k = ‖dot (points b) (expand b fun i => vec i k) ψ‖ ^ 2) ∧
  (size b = points b → ((∑ k ∈ range (size b), line.values k : ℝ) : ℂ) = dot (points b) ψ ψ) ∧
  ((∑ k ∈ range (size b), (lam k).re * line.values k : ℝ) : ℂ) = meanOf b M ψ

theorem amplitude_eigen (b : Basis) (v ψ : ℕ → ℂ) :
    dot (points b) (expand b v) ψ = ∑ i ∈ range (size b), (starRingEnd ℂ) (v i) * amplitude b ψ i := by
  unfold dot expand amplitude
  simp only [map_sum, map_mul, sum_mul, mul_sum]
  rw [sum_comm]
  exact sum_congr rfl fun i _ => sum_congr rfl fun x _ => by ring

theorem occupationLine (b : Basis) (hb : Valid b) (ho : OrthonormalParts b) (n : ℕ) (hn : size b = n) (h0 : 0 < n) (A : Operator)
    (r : EigResult) (hA : A.b0 = b) (hr : IsEigh n n (matrix n n A.data) r.eigenvalues r.vectors) (ψ : ℕ → ℂ) (values : ℕ → ℝ)
    (hv : ∀ k < n, values k = ‖dot (points b) (expand b fun i => r.vectors i k) ψ‖ ^ 2) :
    IsOccupationLine b (fun i j => A.data (i * n + j)) r.eigenvalues r.vectors ψ
      ⟨A.b0.n, fun k => (r.eigenvalues k).re - minValue (A.b0.n - 1) fun k => (r.eigenvalues k).re, values⟩ := by
  have hAn : A.b0.n = n := by rw [hA, Basis.n_eq, hn]
  obtain ⟨m1, k0, hk0, m2⟩ := minValue_spec (n - 1) fun k => (r.eigenvalues k).re
  have hsum : ((∑ k ∈ range (size b), (r.eigenvalues k).re * values k : ℝ) : ℂ) = meanOf b (fun i j => A.data (i * n + j)) ψ := by
    have := eigh_quadratic hr fun i : Fin n => amplitude b ψ i
    unfold meanOf
    rw [hn]
    rw [sum_range, Complex.ofReal_sum]
    refine Eq.trans (sum_congr rfl fun k _ => ?_) (this.trans ?_)
    · rw [hv k k.2, amplitude_eigen, hn, sum_range, Complex.ofReal_mul]
      congr 1
      exact Complex.ext rfl (hr.1 k k.2).symm
    · rw [sum_range]
      exact sum_congr rfl fun i _ => by rw [sum_range]; rfl
  have hnorm : size b = points b → ((∑ k ∈ range (size b), values k : ℝ) : ℂ) = dot (points b) ψ ψ := by
    intro hfull
    have hone : ∑ k : Fin n, ((‖∑ i : Fin n, (starRingEnd ℂ) (r.vectors i k) * amplitude b ψ i‖ ^ 2 : ℝ) : ℂ) =
        ∑ i : Fin n, (starRingEnd ℂ) (amplitude b ψ i) * amplitude b ψ i := by
      have h1 : IsEigh n n 1 (fun _ => 1) r.vectors := by
        refine ⟨fun _ _ => by simp, fun j _ i => ?_, hr.2.2⟩
        simp [one_apply]
      have := eigh_quadratic h1 fun i : Fin n => amplitude b ψ i
      simp only [one_mul] at this
      rw [this]
      refine sum_congr rfl fun i _ => ?_
      simp [one_apply]
    rw [hn, sum_range, Complex.ofReal_sum]
    refine Eq.trans (sum_congr rfl fun k _ => ?_) (hone.trans ?_)
    · rw [hv k k.2, amplitude_eigen, hn, sum_range]
    · have o := state_orthonormal b hb ho
      rw [← hfull] at o
      have hexp : ∀ x < points b, expand b (amplitude b ψ) x = ψ x := by
        intro x hx
        have := project_complete o ψ (x := x) (by omega)
        unfold expand amplitude
        rw [← hfull]
        exact this
      have e : dot (points b) ψ ψ = dot (points b) (expand b (amplitude b ψ)) (expand b (amplitude b ψ)) :=
        sum_congr rfl fun x hx => by rw [hexp x (mem_range.1 hx)]
      rw [e, dot_expand_expand (state_orthonormal b hb ho), hn]
      unfold dot
      rw [sum_range]
  rw [IsOccupationLine, hAn, hn]
  refine ⟨rfl, fun k hk => ?_, ⟨k0, by omega, ?_⟩, fun k hk l hl => ?_, hv, fun h => ?_, ?_⟩
  · exact sub_nonneg.2 (m1 k (by omega))
  · exact sub_eq_zero.2 m2.symm
  · show _ - _ - (_ - _) = _
    ring
  · rw [← hn]; exact hnorm (hn.trans h)
  · rw [hn] at hsum; exact hsum

/-- **C136.** Drawing the occupations of eigenstates of a Hamiltonian, for states in any basis of the same space: a line for each state; the average is the mean of these
lines. -/
theorem C136_eigenstates (same : Basis → Basis → Bool) (hs : Sound same) (b : Basis) (hb : Valid b) (ho : OrthonormalParts b) (n : ℕ)
    (hn : size b = n) (h0 : 0 < n) (A : Operator) (hA : A.b0 = b ∧ A.b1 = b) (r : EigResult)
    (hr : IsEigh n n (matrix n n A.data) r.eigenvalues r.vectors) (l : StateVectorList) (hl : Valid l.basis) (hc : Compatible b l.basis)
    (hpos : 0 < size l.listBasis) :
    ∃ lines average, plotAllEigenstateOccupations same A r l = some lines ∧ lines.length = size l.listBasis ∧
      plotAverageEigenstateOccupation same A r l = some average ∧ average.n = n ∧
      (∀ (i : ℕ) (line : DrawnLine), lines[i]? = some line →
        IsOccupationLine b (fun i j => A.data (i * n + j)) r.eigenvalues r.vectors (expand l.basis fun k => l.data (i * size l.basis + k)) line ∧
        average.coordinates = line.coordinates) ∧
      ∀ k < n, average.values k = (lines.map fun line => line.values k).sum / size l.listBasis := by
  have hAn : A.b0.n = n := by rw [hA.1, Basis.n_eq, hn]
  have hp := compatible_points _ _ hc
  obtain ⟨m, e, hm, -, h1, -⟩ := C27_inner_products same hs l (calculateEigenvectors A A.b0.n r).states (by show Valid A.b0; rw [hA.1]; exact hb) hl
    (by show OrthonormalParts A.b0; rw [hA.1]; exact ho) (by show Compatible A.b0 _; rw [hA.1]; exact hc)
  have hsz : size (calculateEigenvectors A A.b0.n r).states.listBasis = n := by
    rw [← hAn, ← Basis.n_eq]; rfl
  have hln : l.listBasis.n = size l.listBasis := Basis.n_eq _
  have hocc : getEigenstateOccupation same A r l =
      some (fun k => (r.eigenvalues k).re - minValue (A.b0.n - 1) fun k => (r.eigenvalues k).re, m) := by
    unfold getEigenstateOccupation
    dsimp only
    rw [if_neg (by omega), hm]
    rfl
  have hval : ∀ i, ∀ k < n, ‖m (i * A.b0.n + k)‖ ^ 2 =
      ‖dot (points b) (expand b fun j => r.vectors j k) (expand l.basis fun k => l.data (i * size l.basis + k))‖ ^ 2 := by
    intro i k hk
    have := h1 i k (by rw [hsz]; exact hk)
    rw [hsz, ← hp] at this
    rw [hAn, this]
    congr 1
    have e1 : expand (calculateEigenvectors A A.b0.n r).states.basis (fun k_1 => (calculateEigenvectors A A.b0.n r).states.data
        (k * size (calculateEigenvectors A A.b0.n r).states.basis + k_1)) = expand b fun j => r.vectors j k := by
      show expand A.b0 (fun j => flatten A.b0.n (fun j i => r.vectors i j) (k * size A.b0 + j)) = _
      rw [hA.1]
      refine funext fun x => expand_congr _ (fun j hj => ?_) x
      rw [← Basis.n_eq] at hj ⊢
      exact flatten_entry _ _ hj
    rw [e1, ← Complex.norm_conj]
    congr 1
    unfold dot
    rw [map_sum]
    exact sum_congr rfl fun x _ => by rw [map_mul, Complex.conj_conj, mul_comm]
  refine ⟨_, _, by unfold plotAllEigenstateOccupations; rw [hocc, Option.bind_some, if_neg (by omega)], by simp [hln],
    by unfold plotAverageEigenstateOccupation; rw [hocc, Option.bind_some, if_neg (by omega)], hAn, ?_, ?_⟩
  · intro i line hi
    rw [List.getElem?_map] at hi
    rcases hlt : (List.range l.listBasis.n)[i]? with _ | q
    · rw [hlt] at hi; cases hi
    · rw [hlt, Option.map_some, Option.some.injEq] at hi
      obtain ⟨hlt', hq⟩ := List.getElem?_eq_some_iff.1 hlt
      rw [List.getElem_range] at hq
      subst hq
      rw [← hi]
      exact ⟨occupationLine b hb ho n hn h0 A r hA.1 hr _ _ (hval i), rfl⟩
  · intro k hk
    rw [List.map_map, hln]
    congr 1

/-- **C136.** The same for a single state. -/
theorem C136_single (same : Basis → Basis → Bool) (hs : Sound same) (b : Basis) (hb : Valid b) (ho : OrthonormalParts b) (n : ℕ)
    (hn : size b = n) (h0 : 0 < n) (A : Operator) (hA : A.b0 = b ∧ A.b1 = b) (r : EigResult)
    (hr : IsEigh n n (matrix n n A.data) r.eigenvalues r.vectors) (s : StateVector) (hl : Valid s.basis) (hc : Compatible b s.basis) :
    ∃ line, plotEigenstateOccupation same A r s = some [line] ∧
      IsOccupationLine b (fun i j => A.data (i * n + j)) r.eigenvalues r.vectors (expand s.basis s.data) line := by
  have hone : size (.fundamental 1) = 1 := by rw [← Basis.n_eq]; rfl
  obtain ⟨lines, _, h1, h2, -, -, h3, -⟩ := C136_eigenstates same hs b hb ho n hn h0 A hA r hr
    ⟨.fundamental 1, s.basis, flatten s.basis.n fun i => ([s].getD i s).data⟩ hl hc (by rw [hone]; norm_num)
  have h2' : lines.length = 1 := h2.trans hone
  obtain ⟨line, hline⟩ := List.length_eq_one_iff.1 h2'
  subst hline
  refine ⟨line, ?_, ?_⟩
  · unfold plotEigenstateOccupation asStateVectorList
    simp only [List.not_mem_nil, false_implies, implies_true, if_true, Option.bind_some, List.length_nil, Nat.zero_add]
    exact h1
  · have := (h3 0 line rfl).1
    have e : expand s.basis (fun k => flatten s.basis.n (fun i => ([s].getD i s).data) (0 * size s.basis + k)) = expand s.basis s.data := by
      refine funext fun x => expand_congr _ (fun j hj => ?_) x
      rw [← Basis.n_eq] at hj ⊢
      exact flatten_entry _ _ hj
    dsimp only at this
    rwa [e] at this

/-! ## Bands -/

theorem sum_band_samples (bands samples : ℕ) (f : ℕ → ℝ) :
    ∑ b ∈ range bands, ∑ j ∈ range samples, f (b * samples + j) = ∑ k ∈ range (bands * samples), f k := by
  rw [sum_range_mul']

/-- **C136 (partial).** The total occupations of bands, drawn for a state with the values `φ`: at the mean energy of each band the sum over all samples of the
squared amplitude of the Bloch state. The marked energy lies between the lowest and the highest mean energy, and it is the mean energy of the
occupied Bloch states if the energy does not depend on the sample. Missing: bands with dispersion, see `C136_marked_negation`. -/
theorem C136_bands_partial (same : Basis → Basis → Bool) (hs : Sound same) (axes : List (ℕ × ℕ)) (bands : ℕ) (b : Basis)
    (hb : Valid b) (ho : OrthonormalParts b) (hshape : b.fundamentalShape = stateShape axes) (data φ E : ℕ → ℂ) (measure : Measure)
    (amp : ℕ → ℂ) (hamp : ∀ m, amp m = ∑ X ∈ range (unfurledShape axes).prod,
        (starRingEnd ℂ) (blochWave axes b (block (size b) data m)
          (unravel (sampleShape axes) (m % (sampleShape axes).prod)) (unravel (unfurledShape axes) X)) * φ X)
    (hne : ∃ m < bands * (sampleShape axes).prod, amp m ≠ 0) :
    ∃ line marked, plotTotalBandOccupation same ⟨bands, sampleShape axes, b, data⟩ E φ measure = some (line, marked) ∧ line.n = bands ∧
      (∀ i < bands, line.coordinates i * (sampleShape axes).prod =
        ∑ j ∈ range (sampleShape axes).prod, (E (i * (sampleShape axes).prod + j)).re) ∧
      (measure = .abs ∨ measure = .real → ∀ i < bands,
        line.values i = ∑ j ∈ range (sampleShape axes).prod, ‖amp (i * (sampleShape axes).prod + j)‖ ^ 2) ∧
      (∀ lo hi : ℝ, (∀ i < bands, lo ≤ line.coordinates i ∧ line.coordinates i ≤ hi) → lo ≤ marked ∧ marked ≤ hi) ∧
      ((∀ i < bands, ∀ j < (sampleShape axes).prod, (E (i * (sampleShape axes).prod + j)).re = (E (i * (sampleShape axes).prod)).re) →
        marked * ∑ m ∈ range (bands * (sampleShape axes).prod), ‖amp m‖ ^ 2 =
          ∑ m ∈ range (bands * (sampleShape axes).prod), (E m).re * ‖amp m‖ ^ 2) := by
  obtain ⟨c, hc, kc⟩ := C48_from same hs axes bands b hb ho hshape data φ
  set S := (sampleShape axes).prod with hS
  have hca : ∀ m < bands * S, c m = amp m := fun m hm => by rw [kc m hm, hamp m]
  have hlt : ∀ i < bands, ∀ j < S, i * S + j < bands * S := fun i hi j hj => add_mul_lt hi hj
  set total : ℕ → ℝ := fun i => ∑ j ∈ range S, ‖c (i * S + j)‖ ^ 2 with htot
  have htotal : ∀ i < bands, total i = ∑ j ∈ range S, ‖amp (i * S + j)‖ ^ 2 := fun i hi =>
    sum_congr rfl fun j hj => by rw [hca _ (hlt i hi j (mem_range.1 hj))]
  have htot0 : ∀ i, 0 ≤ total i := fun i => sum_nonneg fun j _ => by positivity
  have hsum : ∑ i ∈ range bands, total i = ∑ m ∈ range (bands * S), ‖amp m‖ ^ 2 := by
    rw [← sum_band_samples bands S fun m => ‖amp m‖ ^ 2]
    exact sum_congr rfl fun i hi => htotal i (mem_range.1 hi)
  have hWpos : 0 < ∑ i ∈ range bands, total i := by
    obtain ⟨m, hm, hm'⟩ := hne
    rw [hsum]
    exact sum_pos' (fun m _ => by positivity) ⟨m, mem_range.2 hm, by positivity⟩
  have hSpos : 0 < S := by
    obtain ⟨m, hm, -⟩ := hne
    exact Nat.pos_of_ne_zero fun h => by rw [h] at hm; omega
  have hS' : (S : ℝ) ≠ 0 := by exact_mod_cast hSpos.ne'
  set energies := getAverageBandEnergy S E with hen
  have hplot : plotTotalBandOccupation same ⟨bands, sampleShape axes, b, data⟩ E φ measure =
      some (⟨bands, energies, getMeasuredData (fun i => (total i : ℂ)) measure⟩,
        (∑ i ∈ range bands, energies i * total i) / ∑ i ∈ range bands, total i) := by
    unfold plotTotalBandOccupation
    rw [hc, Option.bind_some]
    dsimp only
    rw [← hS, ← hen]
    unfold plotData1d
    rw [if_neg (by simp), Option.bind_some, if_neg hWpos.ne']
  refine ⟨_, _, hplot, rfl, fun i _ => ?_, ?_, ?_, ?_⟩
  · show (∑ j ∈ range S, (E (i * S + j)).re) / S * S = _
    rw [div_mul_cancel₀ _ hS']
  · rintro (h | h) i hi
    · subst h
      show ‖((total i : ℝ) : ℂ)‖ = _
      rw [Complex.norm_real, Real.norm_of_nonneg (htot0 i), htotal i hi]
    · subst h
      show ((total i : ℝ) : ℂ).re = _
      rw [Complex.ofReal_re, htotal i hi]
  · intro lo hi h
    rw [le_div_iff₀ hWpos, div_le_iff₀ hWpos, mul_sum, mul_sum]
    exact ⟨sum_le_sum fun i hi => mul_le_mul_of_nonneg_right (h i (mem_range.1 hi)).1 (htot0 i),
      sum_le_sum fun i hi => mul_le_mul_of_nonneg_right (h i (mem_range.1 hi)).2 (htot0 i)⟩
  · intro hflat
    rw [← hsum, div_mul_cancel₀ _ hWpos.ne', ← sum_band_samples bands S fun m => (E m).re * ‖amp m‖ ^ 2]
    refine sum_congr rfl fun i hi => ?_
    have hi' := mem_range.1 hi
    have he : energies i = (E (i * S)).re := by
      rw [hen, getAverageBandEnergy, sum_congr rfl fun j hj => hflat i hi' j (mem_range.1 hj), sum_const, card_range, nsmul_eq_mul]
      field_simp
    rw [he, htotal i hi', mul_sum]
    exact sum_congr rfl fun j hj => by rw [hflat i hi' j (mem_range.1 hj)]

/-- **C136 (negation).** The marked energy is not the mean energy of the state: for one band with the energies 0 and 1 at two samples there is a state which is the first
Bloch state, with energy zero, and the marked energy is a half. -/
theorem C136_marked_negation (same : Basis → Basis → Bool) (hs : Sound same) :
    ∃ (data φ E : ℕ → ℂ) (c : ℕ → ℂ) (line : DrawnLine), blochFrom same ⟨1, [2], .tuple [.fundamental 1], data⟩ φ = some c ∧ c 0 = 1 ∧ c 1 = 0 ∧
      E 0 = 0 ∧ E 1 = 1 ∧
      plotTotalBandOccupation same ⟨1, [2], .tuple [.fundamental 1], data⟩ E φ .abs = some (line, 1 / 2) := by
  obtain ⟨φ, c, -, hc, kc⟩ := C48_round_trip_partial same hs [(2, 1)] 1 (.tuple [.fundamental 1]) ⟨trivial, trivial⟩
    (orthonormalParts_fundamental [1]) rfl rfl rfl (fun _ => 1) (fun m => if m = 0 then 1 else 0) (by
      intro i hi i' hi' a ha
      have h1 : size (.tuple [.fundamental 1]) = 1 := by simp [size, sizes]
      rw [h1, if_pos (by omega)]
      simp [dot, block])
  have h0 : c 0 = 1 := by rw [kc 0 (by decide)]; simp
  have h1 : c 1 = 0 := by rw [kc 1 (by decide)]; simp
  have hc' : blochFrom same ⟨1, [2], .tuple [.fundamental 1], fun _ => 1⟩ φ = some c := hc
  have hplot : ∃ line, plotTotalBandOccupation same ⟨1, [2], .tuple [.fundamental 1], fun _ => 1⟩ (fun k => k) φ .abs =
      some (line, 1 / 2) := by
    refine ⟨⟨1, getAverageBandEnergy 2 (fun k => k), getMeasuredData (fun b => ((∑ j ∈ range 2, ‖c (b * 2 + j)‖ ^ 2 : ℝ) : ℂ)) .abs⟩, ?_⟩
    unfold plotTotalBandOccupation
    rw [hc', Option.bind_some]
    dsimp only
    unfold plotData1d
    rw [if_neg (by simp), Option.bind_some, if_neg (by simp [sum_range_succ, h0, h1])]
    simp [sum_range_succ, h0, h1, getAverageBandEnergy]
  obtain ⟨line, hline⟩ := hplot
  exact ⟨fun _ => 1, φ, fun k => k, c, line, hc, h0, h1, by simp, by simp, hline⟩

/-- **C136.** The occupations of bands in thermal equilibrium: sums of probabilities of all the states, which add up to one and are in the ratios of the Boltzmann
factors. They add up to one and do not depend on the zero of energy; at positive temperature a band below another one is more occupied. -/
theorem C136_thermal (kB temperature : ℝ) (bands samples : ℕ) (hpos : 0 < bands * samples) (E : ℕ → ℝ) :
    (∃ p : ℕ → ℝ, (∀ k, 0 < p k) ∧ ∑ k ∈ range (bands * samples), p k = 1 ∧
      (∀ k l, p k / p l = Real.exp ((E l - E k) / (temperature * kB))) ∧
      ∀ b, getBandOccupation kB temperature bands samples (fun k => (E k : ℂ)) b = (∑ j ∈ range samples, p (b * samples + j) : ℝ)) ∧
    ∑ b ∈ range bands, getBandOccupation kB temperature bands samples (fun k => (E k : ℂ)) b = 1 ∧
    (∀ (e : ℝ) b, getBandOccupation kB temperature bands samples (fun k => ((E k + e : ℝ) : ℂ)) b =
      getBandOccupation kB temperature bands samples (fun k => (E k : ℂ)) b) ∧
    (0 < temperature * kB → ∀ b b', (∀ j < samples, E (b * samples + j) ≤ E (b' * samples + j)) →
      (getBandOccupation kB temperature bands samples (fun k => (E k : ℂ)) b').re ≤
        (getBandOccupation kB temperature bands samples (fun k => (E k : ℂ)) b).re) := by
  set T := temperature * kB with hT
  have hTc : ((temperature : ℂ) * (kB : ℂ)) = (T : ℂ) := by rw [hT]; push_cast; rfl
  set w : (ℕ → ℝ) → ℕ → ℝ := fun E k => Real.exp (-E k / T) with hw
  have key : ∀ (E : ℕ → ℝ) b, getBandOccupation kB temperature bands samples (fun k => (E k : ℂ)) b =
      ((∑ j ∈ range samples, w E (b * samples + j)) / ∑ k ∈ range (bands * samples), w E k : ℝ) := by
    intro E b
    unfold getBandOccupation
    dsimp only
    rw [hTc]
    have : ∀ k, Complex.exp (-(E k : ℂ) / T) = (w E k : ℂ) := fun k => by rw [hw]; push_cast; rfl
    simp only [this]
    push_cast
    rfl
  have hZ : ∀ E, 0 < ∑ k ∈ range (bands * samples), w E k := fun E =>
    sum_pos (fun k _ => Real.exp_pos _) ⟨0, mem_range.2 hpos⟩
  refine ⟨⟨fun k => w E k / ∑ k ∈ range (bands * samples), w E k, fun k => div_pos (Real.exp_pos _) (hZ E), ?_, ?_, ?_⟩, ?_, ?_, ?_⟩
  · rw [← sum_div, div_self (hZ E).ne']
  · intro k l
    rw [div_div_div_cancel_right₀ (hZ E).ne']
    show Real.exp _ / Real.exp _ = _
    rw [← Real.exp_sub]
    congr 1
    ring
  · intro b
    rw [key, sum_div]
  · simp only [key]
    rw [← Complex.ofReal_sum, ← sum_div, sum_band_samples bands samples (w E), div_self (hZ E).ne', Complex.ofReal_one]
  · intro e b
    have h := key (fun k => E k + e) b
    rw [key E b]
    refine h.trans ?_
    congr 1
    have e1 : ∀ k, w (fun k => E k + e) k = Real.exp (-e / T) * w E k := by
      intro k
      show Real.exp _ = _ * Real.exp _
      rw [← Real.exp_add]
      congr 1
      ring
    simp only [e1, ← mul_sum]
    rw [mul_div_mul_left _ _ (Real.exp_pos _).ne']
  · intro hTpos b b' h
    rw [key, key, Complex.ofReal_re, Complex.ofReal_re]
    refine div_le_div_of_nonneg_right (sum_le_sum fun j hj => ?_) (hZ E).le
    refine Real.exp_le_exp.2 ?_
    exact div_le_div_of_nonneg_right (neg_le_neg (h j (mem_range.1 hj))) hTpos.le

/-- The hypotheses can be met: two levels with the energies 1 and 3, the state `(1, i)`. -/
example (same : Basis → Basis → Bool) (hs : Sound same) (A : Operator) (hA0 : A.b0 = .fundamental 2) (hA1 : A.b1 = .fundamental 2)
    (hd : A.data = fun k => if k = 0 then 1 else if k = 3 then 3 else 0) :
    ∃ r line, plotEigenstateOccupation same A r ⟨.fundamental 2, fun k => if k = 0 then 1 else Complex.I⟩ = some [line] ∧
      ∑ k ∈ range 2, line.values k = 2 := by
  have hM : (matrix 2 2 A.data)ᴴ = matrix 2 2 A.data := by
    ext i j
    rw [conjTranspose_apply, matrix, matrix, hd]
    fin_cases i <;> fin_cases j <;> simp
  obtain ⟨lam, vec, hr⟩ := exists_isEigh _ hM
  have hsz : size (.fundamental 2) = 2 := by rw [← Basis.n_eq]; rfl
  have hpt : points (.fundamental 2) = 2 := by simp [points]
  obtain ⟨line, h1, -, -, -, -, -, h2, -⟩ := C136_single same hs (.fundamental 2) trivial (by simp [OrthonormalParts]) 2 hsz (by norm_num) A ⟨hA0, hA1⟩
    ⟨lam, vec⟩ hr ⟨.fundamental 2, fun k => if k = 0 then 1 else Complex.I⟩ trivial (by simp [Compatible])
  refine ⟨⟨lam, vec⟩, line, h1, ?_⟩
  have := h2 (by rw [hsz, hpt])
  rw [hsz, hpt] at this
  have e : ∀ x < 2, expand (.fundamental 2) (fun k => if k = 0 then 1 else Complex.I) x = if x = 0 then 1 else Complex.I := by
    intro x hx
    unfold expand
    rw [hsz]
    interval_cases x <;> simp [sum_range_succ, state]
  have h3 : dot 2 (expand (.fundamental 2) fun k => if k = 0 then 1 else Complex.I) (expand (.fundamental 2) fun k => if k = 0 then 1 else Complex.I) = 2 := by
    unfold dot
    rw [sum_range_succ, sum_range_one, e 0 (by norm_num), e 1 (by norm_num)]
    simp
    norm_num
  rw [h3] at this
  exact_mod_cast this

end Verif
