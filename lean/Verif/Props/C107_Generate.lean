import Verif.Model.Generate
import Verif.Props.C53_TightBinding
import Verif.Props.C30_Averages
import Verif.Lemmas.Eigen
import Mathlib.Data.Fin.Tuple.Sort

/-!
# C107, C108, C109: generated wavepackets, lists of wavepackets, energies of bands
-/

set_option autoImplicit false

namespace Verif

open Finset Spec

/-! ## C107 -/

/-- Every Hermitian matrix has sorted eigenvalues with orthonormal eigenvectors. -/
theorem exists_isEighSorted {n : ℕ} (M : Matrix (Fin n) (Fin n) ℂ) (hM : M.conjTranspose = M) : ∃ lam vec, IsEighSorted n M lam vec := by
  obtain ⟨lam, vec, h1, h2, h3⟩ := exists_isEigh M hM
  let σ := Tuple.sort fun i : Fin n => (lam i).re
  have hσ : Monotone ((fun i : Fin n => (lam i).re) ∘ σ) := Tuple.monotone_sort _
  refine ⟨fun j => if h : j < n then lam (σ ⟨j, h⟩) else 0, fun i j => if h : j < n then vec i (σ ⟨j, h⟩) else 0,
    ⟨fun j hj => ?_, fun j hj i => ?_, fun j hj j' hj' => ?_⟩, fun j j' hjj hj' => ?_⟩
  · beta_reduce; rw [dif_pos hj]; exact h1 _ (σ _).2
  · simp only [dif_pos hj]; exact h2 _ (σ _).2 i
  · simp only [dif_pos hj, dif_pos hj']
    rw [h3 _ (σ _).2 _ (σ _).2]
    by_cases e : j = j'
    · subst e; simp
    · rw [if_neg e, if_neg]
      intro h
      have := σ.injective (Fin.ext h)
      exact e (by simpa using this)
  · have hj : j < n := by omega
    beta_reduce
    rw [dif_pos hj, dif_pos hj']
    exact hσ (show (⟨j, hj⟩ : Fin n) ≤ ⟨j', hj'⟩ from hjj)

/-- The operator is Hermitian. -/
def HermitianOperator (A : Operator) : Prop :=
  A.b1 = A.b0 ∧ ∀ i < size A.b0, ∀ j < size A.b0, A.entry i j = (starRingEnd ℂ) (A.entry j i)

/-- The routine meets the contract of `eigh` for every Hermitian operator and every valid range of indices. -/
def IsEighRoutine (eigh : Operator → ℕ → ℕ → EigResult) : Prop :=
  ∀ A, HermitianOperator A → ∀ lo hi, lo ≤ hi → hi < size A.b0 →
    IsEighSubset (size A.b0) (toMatrix (size A.b0) A.entry) lo hi (eigh A lo hi).eigenvalues (eigh A lo hi).vectors

/-- There is a routine meeting the contract. -/
theorem exists_eighRoutine : ∃ eigh, IsEighRoutine eigh := by
  have h : ∀ A : Operator, ∃ r : (ℕ → ℂ) × (ℕ → ℕ → ℂ), HermitianOperator A →
      IsEighSorted (size A.b0) (toMatrix (size A.b0) A.entry) r.1 r.2 := by
    intro A
    by_cases hA : HermitianOperator A
    · obtain ⟨lam, vec, h⟩ := exists_isEighSorted (toMatrix (size A.b0) A.entry) (by
        ext i j
        exact (hA.2 i i.2 j j.2).symm)
      exact ⟨(lam, vec), fun _ => h⟩
    · exact ⟨(fun _ => 0, fun _ _ => 0), fun h => absurd h hA⟩
  choose r hr using h
  refine ⟨fun A lo hi => ⟨fun j => (r A).1 (lo + j), fun i j => (r A).2 i (lo + j)⟩, fun A hA lo hi _ _ => ?_⟩
  exact ⟨_, _, hr A hA, fun j _ => ⟨rfl, fun i _ => rfl⟩⟩

/-- The band basis asks for the eigenvalues with the indices `offset, offset + step, ...`. -/
def AsksFor (band : Basis) (bands offset step : ℕ) : Prop :=
  size band = bands ∧ (band = .evenlySpaced bands step offset ∨
    (∀ n s o, band ≠ .evenlySpaced n s o) ∧ offset = 0 ∧ step = 1)

theorem bandOffsetStep_eq {band : Basis} {bands offset step : ℕ} (h : AsksFor band bands offset step) :
    bandOffsetStep band = ((offset : ℤ), step) := by
  rcases h.2 with rfl | ⟨h1, rfl, rfl⟩
  · rfl
  · cases band <;> first | rfl | exact absurd rfl (h1 _ _ _)

/-- The momentum of a sample as fractions of the Brillouin zone. -/
noncomputable def sampleFraction (ns a : List ℕ) (ax : ℕ) : ℝ := (freq (ns.getD ax 0) (a.getD ax 0) : ℝ) / (ns.getD ax 0 : ℕ)

theorem size_fT (ns : List ℕ) : size (fT ns) = ns.prod := (fT_facts ns).1

/-- **C107.** `generate_uneven_wavepacket`, for a hamiltonian which is Hermitian for every fraction and samples at any fractions:
entry `(c, a)` of the result is an eigenstate of the hamiltonian at the fractions of sample `a`, whose eigenvalue has
index `offset + step c` among all eigenvalues (with multiplicity) in increasing order; the eigenvalues are
real and the states of a sample are orthonormal. -/
theorem C107_uneven (eigh : Operator → ℕ → ℕ → EigResult)
    (heigh : IsEighRoutine eigh) (b : Basis) (gen : (ℕ → ℝ) → Operator) (hgen : ∀ φ, HermitianOperator (gen φ) ∧ (gen φ).b0 = b)
    (nd N : ℕ) (hpos : 0 < N) (hnd : nd = b.fundamentalShape.length) (φ : ℕ → ℕ → ℝ) (list : Basis)
    (band : Basis) (bands offset step : ℕ) (hband : AsksFor band bands offset step) (h0 : 0 < bands)
    (hr : offset + step * (bands - 1) < size b) :
    ∃ w e, generateUneven eigh gen nd N φ list band = some (w, e) ∧ w.band = band ∧ w.list = list ∧ w.basis = b ∧
      ∀ a < N, ∃ lam vec, IsEighSorted (size b) (toMatrix (size b) (gen fun ax => φ ax a).entry) lam vec ∧
        (∀ c < bands, e (c * N + a) = lam (offset + step * c) ∧
          ∀ k < size b, w.data ((c * N + a) * size b + k) = vec k (offset + step * c)) ∧
        (∀ c < bands, (e (c * N + a)).im = 0 ∧ ∀ i < size b,
          ∑ k ∈ range (size b), (gen fun ax => φ ax a).entry i k * w.data ((c * N + a) * size b + k) =
            e (c * N + a) * w.data ((c * N + a) * size b + i)) ∧
        (0 < step → ∀ c < bands, ∀ c' < bands, ∑ k ∈ range (size b), (starRingEnd ℂ) (w.data ((c * N + a) * size b + k)) *
          w.data ((c' * N + a) * size b + k) = if c = c' then 1 else 0) := by
  have hbn : ∀ φ, (gen φ).b0.n = size b := fun φ => by rw [(hgen φ).2]; exact Basis.n_eq b
  have hbandn : (band.n : ℤ) = bands := by rw [Basis.n_eq, hband.1]
  have hi : (offset : ℤ) + step * ((bands : ℤ) - 1) = ((offset + step * (bands - 1) : ℕ) : ℤ) := by
    push_cast [Nat.cast_sub h0]; ring
  have hsub : ∀ φ, eighSubset eigh (gen φ) offset ((offset + step * (bands - 1) : ℕ) : ℤ) =
      some (eigh (gen φ) offset (offset + step * (bands - 1))) := by
    intro φ
    unfold eighSubset
    rw [if_pos ⟨by positivity, by exact_mod_cast Nat.le_add_right _ _, by rw [hbn]; exact_mod_cast hr⟩]
    rfl
  unfold generateUneven
  simp only [bandOffsetStep_eq hband, hbandn, hi, hsub, hbn, Option.isSome_some, and_self, implies_true, Option.getD_some]
  rw [if_pos ⟨hpos, by rw [(hgen _).2]; exact hnd, trivial⟩]
  refine ⟨_, _, rfl, rfl, rfl, (hgen _).2, fun a hra => ?_⟩
  have hcon := heigh (gen fun ax => φ ax a) (hgen _).1 offset (offset + step * (bands - 1)) (Nat.le_add_right _ _)
    (by rw [(hgen _).2]; exact hr)
  rw [(hgen _).2] at hcon
  obtain ⟨lam, vec, hsort, hval⟩ := hcon
  have hc : ∀ c < bands, offset + step * c ≤ offset + step * (bands - 1) := fun c hc =>
    Nat.add_le_add_left (Nat.mul_le_mul_left _ (by omega)) _
  have he : ∀ c < bands, flatten N (fun b i => (calculateEigenvectors (gen fun ax => φ ax i)
      (((offset + step * (bands - 1) : ℕ) : ℤ) - offset + 1).toNat
      (eigh (gen fun ax => φ ax i) offset (offset + step * (bands - 1)))).eigenvalue (step * b)) (c * N + a) =
        lam (offset + step * c) := by
    intro c hcb
    rw [flatten_entry _ _ hra]
    exact (hval (step * c) (hc c hcb)).1
  have hd : ∀ c < bands, ∀ k < size b, flatten (N * size b) (fun b' => flatten (size b) fun i =>
      block (size b) (calculateEigenvectors (gen fun ax => φ ax i) (((offset + step * (bands - 1) : ℕ) : ℤ) - offset + 1).toNat
        (eigh (gen fun ax => φ ax i) offset (offset + step * (bands - 1)))).states.data (step * b'))
        ((c * N + a) * size b + k) = vec k (offset + step * c) := by
    intro c hcb k hk
    rw [show (c * N + a) * size b + k = c * (N * size b) + (a * size b + k) by ring,
      flatten_entry _ _ (add_mul_lt hra hk), flatten_entry _ _ hk]
    unfold block calculateEigenvectors
    dsimp only
    rw [hbn, flatten_entry _ _ hk]
    exact (hval (step * c) (hc c hcb)).2 k hk
  dsimp only
  refine ⟨lam, vec, hsort, fun c hcb => ⟨he c hcb, hd c hcb⟩, fun c hcb => ?_, fun hst c hcb c' hcb' => ?_⟩
  · have hlt : offset + step * c < size b := lt_of_le_of_lt (hc c hcb) hr
    refine ⟨by rw [he c hcb]; exact hsort.1.1 _ hlt, fun i hi' => ?_⟩
    rw [he c hcb, hd c hcb i hi', ← hsort.1.2.1 _ hlt ⟨i, hi'⟩, ← Fin.sum_univ_eq_sum_range (fun k =>
      (gen fun ax => φ ax a).entry i k * _) (size b)]
    exact sum_congr rfl fun k _ => by rw [hd c hcb k k.2]; rfl
  · have hlt : offset + step * c < size b := lt_of_le_of_lt (hc c hcb) hr
    have hlt' : offset + step * c' < size b := lt_of_le_of_lt (hc c' hcb') hr
    have := hsort.1.2.2 _ hlt _ hlt'
    rw [← Fin.sum_univ_eq_sum_range (fun k => (starRingEnd ℂ) _ * _) (size b)]
    rw [sum_congr rfl fun k _ => by rw [hd c hcb k k.2, hd c' hcb' k k.2], this]
    by_cases e : c = c'
    · subst e; simp
    · rw [if_neg e, if_neg fun h => e (Nat.eq_of_mul_eq_mul_left hst (by omega))]

/-- **C107.** `generate_wavepacket`, for samples in a fundamental transformed basis: the hamiltonian of sample `a` is the one at
the momentum of the sample as a fraction of the Brillouin zone. -/
theorem C107_generate_partial (same : Basis → Basis → Bool) (hs : Sound same) (eigh : Operator → ℕ → ℕ → EigResult)
    (heigh : IsEighRoutine eigh) (b : Basis) (gen : (ℕ → ℝ) → Operator) (hgen : ∀ φ, HermitianOperator (gen φ) ∧ (gen φ).b0 = b)
    (ns : List ℕ) (hpos : 0 < ns.prod) (hnd : ns.length = b.fundamentalShape.length)
    (hdep : ∀ φ φ' : ℕ → ℝ, (∀ ax < ns.length, φ ax = φ' ax) → gen φ = gen φ')
    (band : Basis) (bands offset step : ℕ) (hband : AsksFor band bands offset step) (h0 : 0 < bands)
    (hr : offset + step * (bands - 1) < size b) :
    ∃ w e, generateWavepacket same eigh gen (fT ns) band = some (w, e) ∧ w.band = band ∧ w.list = fT ns ∧ w.basis = b ∧
      ∀ a, InShape ns a → ∃ lam vec, IsEighSorted (size b) (toMatrix (size b) (gen (sampleFraction ns a)).entry) lam vec ∧
        (∀ c < bands, e (c * ns.prod + ravel ns a) = lam (offset + step * c) ∧
          ∀ k < size b, w.data ((c * ns.prod + ravel ns a) * size b + k) = vec k (offset + step * c)) ∧
        (∀ c < bands, (e (c * ns.prod + ravel ns a)).im = 0 ∧ ∀ i < size b,
          ∑ k ∈ range (size b), (gen (sampleFraction ns a)).entry i k * w.data ((c * ns.prod + ravel ns a) * size b + k) =
            e (c * ns.prod + ravel ns a) * w.data ((c * ns.prod + ravel ns a) * size b + i)) ∧
        (0 < step → ∀ c < bands, ∀ c' < bands, ∑ k ∈ range (size b), (starRingEnd ℂ) (w.data ((c * ns.prod + ravel ns a) * size b + k)) *
          w.data ((c' * ns.prod + ravel ns a) * size b + k) = if c = c' then 1 else 0) := by
  obtain ⟨φ, hφ, hφv⟩ := C90_fractions_partial same hs ns
  have hn : (fT ns).n = ns.prod := (Basis.n_eq _).trans (size_fT ns)
  unfold generateWavepacket
  rw [hφ, Option.bind_some, fundamentalShape_fT, hn]
  obtain ⟨w, e, h1, h2, h3, h4, h5⟩ := C107_uneven eigh heigh b gen hgen ns.length ns.prod hpos hnd φ (fT ns) band bands offset step
    hband h0 hr
  refine ⟨w, e, h1, h2, h3, h4, fun a ha => ?_⟩
  have := h5 (ravel ns a) (ravel_lt ns a ha)
  rwa [show gen (fun ax => φ ax (ravel ns a)) = gen (sampleFraction ns a) from hdep _ _ fun ax hax => hφv a ha ax hax] at this

/-- **C107, negation.** For samples in a basis which is not transformed the hamiltonian of the first sample is not the one at
momentum zero. -/
theorem C107_negation (same : Basis → Basis → Bool) (hs : Sound same) (eigh : Operator → ℕ → ℕ → EigResult)
    (heigh : IsEighRoutine eigh) : ∃ (gen : (ℕ → ℝ) → Operator) (w : WavepacketList) (e : ℕ → ℂ),
    (∀ φ, HermitianOperator (gen φ)) ∧ generateWavepacket same eigh gen (.tuple [.fundamental 2]) (.fundamental 1) = some (w, e) ∧
      (gen fun _ => 0).entry 0 0 = 0 ∧ (gen fun _ => 0).b0.n = 1 ∧ e 0 ≠ 0 := by
  obtain ⟨φ, hφ, hneg⟩ := C90_fundamental_negation same hs
  have h1 : size (fT [1]) = 1 := size_fT [1]
  have hn : (fT [1]).n = 1 := (Basis.n_eq _).trans h1
  have hgen : ∀ φ : ℕ → ℝ, HermitianOperator ⟨fT [1], fT [1], [1], fun _ => ((φ 0 : ℝ) : ℂ)⟩ ∧ fT [1] = fT [1] := by
    refine fun φ => ⟨⟨rfl, fun i _ j _ => ?_⟩, rfl⟩
    unfold Operator.entry
    rw [Complex.conj_ofReal]
  obtain ⟨w, e, h1', h2, h3, h4, h5⟩ := C107_uneven eigh heigh (fT [1]) (fun φ => ⟨fT [1], fT [1], [1], fun _ => ((φ 0 : ℝ) : ℂ)⟩) hgen
    1 2 (by norm_num) rfl φ (.tuple [.fundamental 2]) (.fundamental 1) 1 0 1 ⟨rfl, Or.inr ⟨fun n s o h => by (cases h), rfl, rfl⟩⟩ one_pos
    (by rw [h1]; decide)
  refine ⟨fun φ => ⟨fT [1], fT [1], [1], fun _ => ((φ 0 : ℝ) : ℂ)⟩, w, e, fun φ => (hgen φ).1, ?_, ?_, hn, ?_⟩
  · unfold generateWavepacket
    rw [hφ, Option.bind_some]
    exact h1'
  · unfold Operator.entry; simp
  · obtain ⟨lam, vec, hl, ha, hb, hc⟩ := h5 0 (by norm_num)
    have e1 := (hb 0 one_pos).2 0 (by rw [h1]; exact one_pos)
    have e2 := hc one_pos 0 one_pos 0 one_pos
    rw [h1] at e1 e2
    simp only [zero_mul, zero_add, sum_range_one, mul_one, if_true] at e1 e2
    unfold Operator.entry at e1
    dsimp only at e1
    have hne : w.data 0 ≠ 0 := fun h => by rw [h] at e2; simp at e2
    have : e 0 = ((φ 0 0 : ℝ) : ℂ) := (mul_right_cancel₀ hne e1).symm
    rw [this]
    exact Complex.ofReal_ne_zero.2 hneg.ne

/-- **C107.** Asking for more bands than there are states raises. -/
theorem C107_rejects (same : Basis → Basis → Bool) (eigh : Operator → ℕ → ℕ → EigResult) (b : Basis) (gen : (ℕ → ℝ) → Operator)
    (hgen : ∀ φ, (gen φ).b0 = b) (list band : Basis) (bands offset step : ℕ) (hband : AsksFor band bands offset step) (h0 : 0 < bands)
    (hr : size b ≤ offset + step * (bands - 1)) : generateWavepacket same eigh gen list band = none := by
  have hbandn : (band.n : ℤ) = bands := by rw [Basis.n_eq, hband.1]
  have hi : (offset : ℤ) + step * ((bands : ℤ) - 1) = ((offset + step * (bands - 1) : ℕ) : ℤ) := by
    push_cast [Nat.cast_sub h0]; ring
  unfold generateWavepacket
  cases sampleFractions same list with
  | none => rfl
  | some φ =>
    rw [Option.bind_some]
    unfold generateUneven
    simp only [bandOffsetStep_eq hband, hbandn, hi]
    refine if_neg ?_
    rintro ⟨hN, -, h⟩
    have := (h 0 hN).2
    unfold eighSubset at this
    rw [if_neg] at this
    · simp at this
    · rintro ⟨-, -, h3⟩
      rw [hgen, Basis.n_eq] at h3
      have : offset + step * (bands - 1) < size b := by exact_mod_cast h3
      omega

-- three samples of a two state hamiltonian; the second and last band only
example (same : Basis → Basis → Bool) (hs : Sound same) : ∃ eigh w e, IsEighRoutine eigh ∧
    generateWavepacket same eigh (fun φ => ⟨fT [2], fT [2], [4], flatten 2 fun i j => if i = j then ((φ 0 + i : ℝ) : ℂ) ^ 2 else 1 / 2⟩)
      (fT [3]) (.evenlySpaced 1 1 1) = some (w, e) := by
  obtain ⟨eigh, heigh⟩ := exists_eighRoutine
  obtain ⟨w, e, h, -⟩ := C107_generate_partial same hs eigh heigh (fT [2])
    (fun φ => ⟨fT [2], fT [2], [4], flatten 2 fun i j => if i = j then ((φ 0 + i : ℝ) : ℂ) ^ 2 else 1 / 2⟩)
    (fun φ => ⟨⟨rfl, fun i hi j hj => by
      have h2 : size (fT [2]) = 2 := size_fT [2]
      have hn : (fT [2]).n = 2 := (Basis.n_eq _).trans h2
      rw [h2] at hi hj
      unfold Operator.entry
      dsimp only
      rw [hn, flatten_entry _ _ hj, flatten_entry _ _ hi]
      by_cases h : i = j
      · subst h
        rw [if_pos rfl, ← Complex.ofReal_pow, Complex.conj_ofReal]
      · rw [if_neg h, if_neg (Ne.symm h), map_div₀, map_one, map_ofNat]⟩, rfl⟩)
    [3] (by decide) rfl (fun φ φ' h => by rw [h 0 (by decide)]) (.evenlySpaced 1 1 1) 1 1 1 ⟨rfl, Or.inl rfl⟩ one_pos
    (by rw [size_fT]; decide)
  exact ⟨eigh, w, e, heigh, h⟩

/-! ## C108 -/

theorem pyIndex_eq (n : ℕ) (idx : ℤ) (i : ℕ) : pyIndex n idx = some i ↔ i < n ∧ (idx = i ∨ idx = (i : ℤ) - n) := by
  unfold pyIndex
  split_ifs with h1 h2
  · rw [Option.some.injEq]; omega
  · rw [Option.some.injEq]; omega
  · simp only [false_iff]; omega

/-- **C108.** `get_wavepacket(wavepackets, idx)` is the wavepacket of band `idx`, counted from the end if negative: all its states
and, for `get_wavepacket_at_band`, all its eigenvalues; other indices raise. -/
theorem C108_get (w : WavepacketList) (e : ℕ → ℂ) (idx : ℤ) :
    (∀ i < size w.band, (idx = i ∨ idx = (i : ℤ) - size w.band) → ∃ s t, getWavepacket w idx = some s ∧
      getWavepacketAtBand w e idx = some ⟨s, t⟩ ∧ s.listBasis = w.list ∧ s.basis = w.basis ∧
      ∀ a < size w.list, t a = e (i * size w.list + a) ∧ ∀ k < size w.basis,
        s.data (a * size w.basis + k) = w.data ((i * size w.list + a) * size w.basis + k)) ∧
    ((idx < -(size w.band : ℤ) ∨ (size w.band : ℤ) ≤ idx) → getWavepacket w idx = none ∧ getWavepacketAtBand w e idx = none) := by
  constructor
  · intro i hi h
    have hp : pyIndex w.band.n idx = some i := (pyIndex_eq _ _ _).2 ⟨by rwa [Basis.n_eq], by rwa [Basis.n_eq]⟩
    refine ⟨_, _, by rw [getWavepacket, hp, Option.map_some], by rw [getWavepacketAtBand, hp, Option.map_some], rfl, rfl, fun a _ => ⟨?_, fun k _ => ?_⟩⟩
    · unfold block; rw [Basis.n_eq]
    · show w.data (i * (w.list.n * w.basis.n) + (a * size w.basis + k)) = _
      rw [Basis.n_eq, Basis.n_eq]
      congr 1
      ring
  · intro h
    have hp : pyIndex w.band.n idx = none := by
      unfold pyIndex
      rw [Basis.n_eq, if_neg (by omega), if_neg (by omega)]
    rw [getWavepacket, getWavepacketAtBand, hp]
    exact ⟨rfl, rfl⟩

/-- A python bound of a slice of `n` entries allows index `i` from below. -/
def FromBound (n : ℕ) (s : Option ℤ) (i : ℕ) : Prop := ∀ b, s = some b → (0 ≤ b → b ≤ i) ∧ (b < 0 → b + n ≤ i)

/-- A python bound of a slice of `n` entries allows index `i` from above. -/
def BelowBound (n : ℕ) (s : Option ℤ) (i : ℕ) : Prop := ∀ b, s = some b → (0 ≤ b → i < b) ∧ (b < 0 → i < b + n)

/-- The first index of a slice of `n` entries. -/
def sliceStart (n : ℕ) : Option ℤ → ℤ
  | none => 0
  | some b => if 0 ≤ b then b else max 0 (b + n)

theorem sliceIndices_mem (n : ℕ) (start stop : Option ℤ) (step i : ℕ) :
    i ∈ sliceIndices n start stop step ↔ i < n ∧ FromBound n start i ∧ BelowBound n stop i ∧ (step : ℤ) ∣ i - sliceStart n start := by
  unfold sliceIndices
  simp only [List.mem_filter, List.mem_range, decide_eq_true_eq]
  refine and_congr_right fun hi => ?_
  set lo := (start.map fun i : ℤ => if i < 0 then (i + n).toNat else min i.toNat n).getD 0 with hlo
  have h1 : lo ≤ i ↔ FromBound n start i := by
    unfold FromBound
    rw [hlo]
    cases start with
    | none => simp
    | some b =>
      simp only [Option.map_some, Option.getD_some, Option.some.injEq, forall_eq']
      split_ifs with h <;> omega
  have h2 : i < (stop.map fun i : ℤ => if i < 0 then (i + n).toNat else min i.toNat n).getD n ↔ BelowBound n stop i := by
    unfold BelowBound
    cases stop with
    | none => simpa using hi
    | some b =>
      simp only [Option.map_some, Option.getD_some, Option.some.injEq, forall_eq']
      split_ifs with h <;> omega
  have h3 : lo ≤ i → ((lo : ℕ) : ℤ) = sliceStart n start := by
    intro h
    unfold sliceStart
    cases start with
    | none => rw [hlo]; rfl
    | some b =>
      simp only [Option.map_some, Option.getD_some] at hlo
      dsimp only
      split_ifs at hlo ⊢ <;> omega
  rw [← h1]
  refine and_congr_right fun h => and_congr h2 ?_
  rw [← h3 h, ← Nat.dvd_iff_mod_eq_zero, ← Int.natCast_dvd_natCast, Nat.cast_sub h]

/-- **C108.** `get_wavepackets(wavepackets, slice(start, stop, step))` is the list of the wavepackets of the bands between the bounds,
a whole number of steps after the first, in order, each with all its states and eigenvalues. -/
theorem C108_slice (w : WavepacketList) (e : ℕ → ℂ) (start stop : Option ℤ) (step : ℕ) :
    ∃ idx : List ℕ, idx.Pairwise (· < ·) ∧ (∀ i, i ∈ idx ↔ i < size w.band ∧ FromBound (size w.band) start i ∧ BelowBound (size w.band) stop i ∧
      (step : ℤ) ∣ i - sliceStart (size w.band) start) ∧
      (getWavepackets w start stop step).band = .fundamental idx.length ∧ (getWavepackets w start stop step).list = w.list ∧
      (getWavepackets w start stop step).basis = w.basis ∧ (getWavepacketsWithEigenvalues w e start stop step).1 = getWavepackets w start stop step ∧
      ∀ b, (hb : b < idx.length) → ∀ a < size w.list,
        (getWavepacketsWithEigenvalues w e start stop step).2 (b * size w.list + a) = e (idx[b] * size w.list + a) ∧ ∀ k < size w.basis,
        (getWavepackets w start stop step).data ((b * size w.list + a) * size w.basis + k) =
          w.data ((idx[b] * size w.list + a) * size w.basis + k) := by
  refine ⟨sliceIndices w.band.n start stop step, ?_, fun i => by rw [sliceIndices_mem, Basis.n_eq], rfl, rfl, rfl, rfl, fun b hb a ha => ⟨?_, fun k hk => ?_⟩⟩
  · exact (List.pairwise_lt_range).filter _
  · have hg : (sliceIndices w.band.n start stop step).getD b 0 = (sliceIndices w.band.n start stop step)[b] := by
      simp [List.getD_eq_getElem?_getD, hb]
    unfold getWavepacketsWithEigenvalues
    dsimp only
    rw [Basis.n_eq w.list, flatten_entry _ _ ha, hg]
    rfl
  · have hg : (sliceIndices w.band.n start stop step).getD b 0 = (sliceIndices w.band.n start stop step)[b] := by
      simp [List.getD_eq_getElem?_getD, hb]
    unfold getWavepackets
    dsimp only
    rw [WavepacketList.row, Basis.n_eq w.list, Basis.n_eq w.basis,
      show (b * size w.list + a) * size w.basis + k = b * (size w.list * size w.basis) + (a * size w.basis + k) by ring,
      flatten_entry _ _ (add_mul_lt ha hk), hg]
    show w.data _ = _
    congr 1
    ring

/-- **C108.** Running through a list of wavepackets gives each of them once, in order; collecting them in a container and joining
them gives the list back (over the plain index of the bands). An empty list cannot be joined. -/
theorem C108_round_trip_partial (w : WavepacketList) :
    (wavepacketListIntoIter w).length = size w.band ∧
    (∀ i : ℕ, i < size w.band → (wavepacketListIntoIter w)[i]? = getWavepacket w i) ∧
    (0 < size w.band → ∃ w', asWavepacketList false (wavepacketListIntoIter w) = some w' ∧ w'.band = .fundamental (size w.band) ∧
      w'.list = w.list ∧ w'.basis = w.basis ∧ ∀ k < size w.band * (size w.list * size w.basis), w'.data k = w.data k) ∧
    (size w.band = 0 → asWavepacketList false (wavepacketListIntoIter w) = none) := by
  have hlen : (wavepacketListIntoIter w).length = size w.band := by simp [wavepacketListIntoIter, Basis.n_eq]
  have hget : ∀ i : ℕ, i < size w.band → (wavepacketListIntoIter w)[i]? = some ⟨w.list, w.basis, block w.row w.data i⟩ := by
    intro i hi
    simp [wavepacketListIntoIter, Basis.n_eq, hi]
  refine ⟨hlen, fun i hi => ?_, fun hpos => ?_, fun h0 => ?_⟩
  · rw [hget i hi, getWavepacket, (pyIndex_eq _ _ i).2 ⟨by rwa [Basis.n_eq], Or.inl rfl⟩, Option.map_some]
  · have hall : ∀ s ∈ wavepacketListIntoIter w, s.listBasis.n * s.basis.n = w.row := by
      intro s hs
      simp only [wavepacketListIntoIter, List.mem_map] at hs
      obtain ⟨b, -, rfl⟩ := hs
      rfl
    have h0 := hget 0 hpos
    cases hl : wavepacketListIntoIter w with
    | nil => rw [hl] at hlen; simp at hlen; omega
    | cons w0 rest =>
      rw [hl] at h0 hlen hall hget
      have hw0 : w0 = ⟨w.list, w.basis, block w.row w.data 0⟩ := by simpa using h0
      unfold asWavepacketList
      simp only [Bool.false_eq_true, if_false]
      rw [if_pos fun s hs t ht => by rw [hall s hs, hall t ht]]
      refine ⟨_, rfl, by rw [hlen], by rw [hw0], by rw [hw0], fun k hk => ?_⟩
      have hrow : ((w0 :: rest).headD w0).listBasis.n * ((w0 :: rest).headD w0).basis.n = w.row := hall _ (by simp)
      have hrow' : w.row = size w.list * size w.basis := by rw [WavepacketList.row, Basis.n_eq, Basis.n_eq]
      rw [← hrow'] at hk
      have hr0 : 0 < w.row := Nat.pos_of_ne_zero fun h => by rw [h, mul_zero] at hk; omega
      have hb : k / w.row < size w.band := (Nat.div_lt_iff_lt_mul hr0).2 hk
      dsimp only
      rw [hrow, flatten, show (w0 :: rest).getD (k / w.row) w0 = _ by
        rw [List.getD_eq_getElem?_getD, hget _ hb, Option.getD_some]]
      show w.data _ = _
      rw [Nat.div_add_mod']
  · have : wavepacketListIntoIter w = [] := List.length_eq_zero_iff.1 (by rw [hlen, h0])
    rw [this]; rfl

/-- **C108, negation.** Joining the wavepackets of an iterator (a generator, which the signature allows) silently loses the
first. -/
theorem C108_iterator_negation (w0 : StateVectorList) (rest : List StateVectorList)
    (h : ∀ s ∈ rest, s.listBasis.n * s.basis.n = w0.listBasis.n * w0.basis.n) :
    ∃ w', asWavepacketList true (w0 :: rest) = some w' ∧ size w'.band = rest.length := by
  unfold asWavepacketList
  simp only [if_true]
  rw [if_pos fun s hs t ht => by rw [h s hs, h t ht]]
  exact ⟨_, rfl, rfl⟩

/-- Two bands with one sample of two states each: the last band by its negative index, and the bands from the last one. -/
example : ∃ w : WavepacketList, size w.band = 2 ∧ (∃ s, getWavepacket w (-1) = some s ∧ s.data 0 = 2 ∧ s.data 1 = 3) ∧ getWavepacket w 2 = none ∧
    (getWavepackets w (some (-1)) none 1).band = .fundamental 1 ∧ sliceIndices 6 (some 1) none 2 = [1, 3, 5] := by
  refine ⟨⟨.fundamental 2, .fundamental 1, .fundamental 2, fun k => (k : ℂ)⟩, rfl, ?_, ?_, ?_⟩
  · obtain ⟨s, t, h1, -, h3, h4, h5⟩ := (C108_get ⟨.fundamental 2, .fundamental 1, .fundamental 2, fun k => (k : ℂ)⟩ (fun _ => 0) (-1)).1 1
      (by decide) (Or.inr (by decide))
    refine ⟨s, h1, ?_, ?_⟩
    · have := (h5 0 (by decide)).2 0 (by decide)
      simpa [size] using this
    · have := (h5 0 (by decide)).2 1 (by decide)
      have e : size (Basis.fundamental 2) = 2 := rfl
      have e1 : size (Basis.fundamental 1) = 1 := rfl
      dsimp only at this
      rw [e, e1] at this
      norm_num at this
      exact this
  · exact ((C108_get ⟨.fundamental 2, .fundamental 1, .fundamental 2, fun k => (k : ℂ)⟩ (fun _ => 0) 2).2 (Or.inr (by decide))).1
  · exact ⟨rfl, by decide⟩

/-! ## C109 -/

/-- **C109.** `get_average_eigenvalues` is, for each band, the mean of its eigenvalues over the samples. -/
theorem C109_average (w : WavepacketList) (e : ℕ → ℂ) (hb : 0 < size w.band) (hl : 0 < size w.list) :
    ∃ d, getAverageEigenvalues w e = some d ∧ d.b0 = w.band ∧ d.b1 = w.band ∧ ∀ c < size w.band,
      d.data c = (∑ a ∈ range (size w.list), e (c * size w.list + a)) / (size w.list : ℂ) := by
  obtain ⟨h, -⟩ := C30_average_partial [w.band, w.list] (by simp [hb, hl]) e
  obtain ⟨d, hd, hv, -⟩ := h [1] (by simp) (by simp)
  have hk : ∀ (α : Type) (x y : α), keepFrom [1] 0 [x, y] = [x] := fun α x y => by simp [keepFrom]
  refine ⟨⟨w.band, w.band, d⟩, by rw [getAverageEigenvalues, hd, Option.bind_some, hk]; rfl, rfl, rfl, fun c hc => ?_⟩
  have := hv [c] (by simp [hk, InShape, hc])
  simp only [List.map_cons, List.map_nil, hk] at this
  rw [show ravel [size w.band] [c] = c by simp [ravel]] at this
  show d c = _
  rw [this, show loseFrom [1] 0 [size w.band, size w.list] = [size w.list] by simp [loseFrom], List.prod_cons, List.prod_nil, mul_one]
  congr 1
  unfold marginal
  rw [show [size w.band, size w.list].prod = size w.band * size w.list by simp]
  rw [sum_range_mul']
  rw [sum_eq_single c]
  · refine sum_congr rfl fun a ha => ?_
    have : unravel [size w.band, size w.list] (c * size w.list + a) = [c, a] := by
      have := unravel_ravel [size w.band, size w.list] [c, a] ⟨hc, mem_range.1 ha, trivial⟩
      simpa [ravel] using this
    rw [this, hk, if_pos rfl]
  · intro i hi hne
    refine sum_eq_zero fun a ha => ?_
    have : unravel [size w.band, size w.list] (i * size w.list + a) = [i, a] := by
      have := unravel_ravel [size w.band, size w.list] [i, a] ⟨mem_range.1 hi, mem_range.1 ha, trivial⟩
      simpa [ravel] using this
    rw [this, hk, if_neg (by simpa using hne)]
  · intro h; exact absurd (mem_range.2 hc) h

/-- Two bands of two samples with the eigenvalues 0, 1, 2, 3 have the averages 1 / 2 and 5 / 2. -/
example : ∃ d, getAverageEigenvalues ⟨.fundamental 2, .fundamental 2, .fundamental 1, fun _ => 1⟩ (fun k => (k : ℂ)) = some d ∧
    d.data 0 = 1 / 2 ∧ d.data 1 = 5 / 2 := by
  obtain ⟨d, h1, -, -, h⟩ := C109_average ⟨.fundamental 2, .fundamental 2, .fundamental 1, fun _ => 1⟩ (fun k => (k : ℂ)) (by decide) (by decide)
  have e : size (Basis.fundamental 2) = 2 := rfl
  refine ⟨d, h1, ?_, ?_⟩
  · rw [h 0 (by decide)]
    dsimp only
    rw [e, sum_range_succ, sum_range_one]
    norm_num
  · rw [h 1 (by decide)]
    dsimp only
    rw [e, sum_range_succ, sum_range_one]
    norm_num

end Verif
