import Verif.Model.EigenstateBases
import Verif.Props.C94_ExplicitZ
import Verif.Props.C95_ShoBasis
import Verif.Props.C107_Generate
import Verif.Props.C136_EigenOccupations

/-!
# C165: bases of the lowest eigenstates of a potential
-/

set_option autoImplicit false

namespace Verif

open Finset Matrix

namespace Spec

/-- The kinetic energy applied to a function on `n` points of a periodic axis. -/
noncomputable def kineticAt (hbar mass length : ℝ) (n : ℕ) (ψ : ℕ → ℂ) (x : ℕ) : ℂ :=
  ∑ k ∈ range n, planeWave n k x * (((hbar * (2 * Real.pi * freq n k / length)) ^ 2 / (2 * mass) : ℝ) : ℂ) *
    ∑ y ∈ range n, (starRingEnd ℂ) (planeWave n k y) * ψ y

/-- The mean energy of a function on `n` points, for its norm. -/
noncomputable def energyOn (hbar mass length : ℝ) (n : ℕ) (V : ℕ → ℝ) (ψ : ℕ → ℂ) : ℂ :=
  ∑ x ∈ range n, (starRingEnd ℂ) (ψ x) * (kineticAt hbar mass length n ψ x + V x * ψ x)

/-- The states of a basis on `n` points are the `m` lowest eigenstates, with energies `E`, of a particle in the potential `V`: orthonormal, eigenfunctions,
in ascending order, and every function orthogonal to them has at least the energy of the last. -/
def LowestStates (hbar mass length : ℝ) (n : ℕ) (V : ℕ → ℝ) (m : ℕ) (B : Basis) (E : ℕ → ℝ) : Prop :=
  size B = m ∧ points B = n ∧
  (∀ i < m, ∀ j < m, ∑ x ∈ range n, (starRingEnd ℂ) (state B i x) * state B j x = if i = j then 1 else 0) ∧
  (∀ j < m, ∀ x < n, kineticAt hbar mass length n (state B j) x + V x * state B j x = E j * state B j x) ∧
  (∀ i j, i ≤ j → j < m → E i ≤ E j) ∧
  ∀ φ : ℕ → ℂ, (∀ j < m, ∑ x ∈ range n, (starRingEnd ℂ) (state B j x) * φ x = 0) → ∀ j < m,
    E j * ∑ x ∈ range n, ‖φ x‖ ^ 2 ≤ (energyOn hbar mass length n V φ).re

end Spec

open Spec

/-! ## Helpers -/

theorem config_entries (same : Basis → Basis → Bool) (hs : Sound same) (hbar : ℝ) (hh : hbar ≠ 0) (length : ℝ) (hl : length ≠ 0) (nz : ℕ)
    (V : ℕ → ℂ) (mass : ℝ) (hm : 0 < mass) :
    ∃ H, configHamiltonian same hbar length nz V mass none = some H ∧ H.b0 = .tuple [.fundamental nz] ∧ H.b1 = .tuple [.fundamental nz] ∧
      ∀ x < nz, ∀ y < nz, H.entry x y = (∑ k ∈ range nz, planeWave nz k x *
        (((hbar * (2 * Real.pi * freq nz k / length)) ^ 2 / (2 * mass) : ℝ) : ℂ) * (starRingEnd ℂ) (planeWave nz k y)) + if x = y then V x else 0 := by
  obtain ⟨H, hH, h0, h1, he⟩ := position_entries same hs hbar !![length] [nz] V mass (some fun _ => (0 : ℝ))
  simp only [List.prod_cons, List.prod_nil, mul_one] at he
  have hst : ∀ k z, states ([nz].map Basis.fundamentalTransformed) k z = planeWave nz k z := by
    intro k z
    simp [states, sizes, pointss, state]
  simp only [hst] at he
  refine ⟨H, hH, h0, h1, fun x hx y hy => ?_⟩
  rw [he x hx y hy]
  congr 1
  refine sum_congr rfl fun k hk => ?_
  congr 2
  have hk := mem_range.1 hk
  obtain ⟨E, hE, hq, -⟩ := C69_kinetic hbar hh !![length] (by simpa using hl) ([nz].map Basis.fundamental) rfl mass hm (some fun _ => (0 : ℝ)) _
    (Or.inl rfl) [k] ⟨hk, trivial⟩
  have hr : ravel (([nz].map Basis.fundamental).map points) [k] = k := by simp [ravel, points]
  rw [hr] at hE
  rw [hE, hq (fun _ => 2 * Real.pi * freq nz k / length)]
  · simp only [dotProduct, Fin.sum_univ_one]
    push_cast; ring
  · intro i
    fin_cases i
    simp [dotProduct, points]
    field_simp

theorem config_apply {hbar mass length : ℝ} {nz : ℕ} {V : ℕ → ℝ} {H : Operator} (he : ∀ x < nz, ∀ y < nz, H.entry x y = (∑ k ∈ range nz, planeWave nz k x *
    (((hbar * (2 * Real.pi * freq nz k / length)) ^ 2 / (2 * mass) : ℝ) : ℂ) * (starRingEnd ℂ) (planeWave nz k y)) + if x = y then (V x : ℂ) else 0)
    (ψ : ℕ → ℂ) (x : ℕ) (hx : x < nz) : ∑ y ∈ range nz, H.entry x y * ψ y = kineticAt hbar mass length nz ψ x + V x * ψ x := by
  unfold kineticAt
  have h1 : ∀ y ∈ range nz, H.entry x y * ψ y = (∑ k ∈ range nz, planeWave nz k x *
      (((hbar * (2 * Real.pi * freq nz k / length)) ^ 2 / (2 * mass) : ℝ) : ℂ) * ((starRingEnd ℂ) (planeWave nz k y) * ψ y)) +
      if x = y then (V x : ℂ) * ψ y else 0 := by
    intro y hy
    rw [he x hx y (mem_range.1 hy), add_mul, sum_mul]
    congr 1
    · exact sum_congr rfl fun k _ => by ring
    · split_ifs <;> simp
  rw [sum_congr rfl h1, sum_add_distrib, sum_comm, sum_ite_eq, if_pos (mem_range.2 hx)]
  congr 1
  exact sum_congr rfl fun k _ => by rw [mul_sum]

theorem eigh_parseval {n : ℕ} {M : Matrix (Fin n) (Fin n) ℂ} {lam : ℕ → ℂ} {vec : ℕ → ℕ → ℂ} (h : IsEigh n n M lam vec) (c : Fin n → ℂ) :
    ∑ k : Fin n, ‖∑ i : Fin n, (starRingEnd ℂ) (vec i k) * c i‖ ^ 2 = ∑ i : Fin n, ‖c i‖ ^ 2 := by
  have h1 : IsEigh n n (1 : Matrix (Fin n) (Fin n) ℂ) (fun _ => 1) vec :=
    ⟨fun _ _ => by simp, fun j _ i => by simp [Matrix.one_apply], h.2.2⟩
  have := eigh_quadratic h1 c
  simp only [one_mul, Matrix.one_apply, mul_ite, mul_one, mul_zero, ite_mul, zero_mul, sum_ite_eq, mem_univ, if_true] at this
  have h2 : ∀ i : Fin n, (starRingEnd ℂ) (c i) * c i = ((‖c i‖ ^ 2 : ℝ) : ℂ) := fun i => by
    rw [mul_comm]
    exact_mod_cast Complex.mul_conj' (c i)
  simp only [h2] at this
  exact_mod_cast this

/-! ## Theorems -/

/-- **C165.** The basis of a potential consists of the lowest eigenstates of a particle in this potential. -/
theorem C165_potential (same : Basis → Basis → Bool) (hs : Sound same) (eigh : Operator → ℕ → ℕ → EigResult) (heigh : IsEighRoutine eigh) (hbar : ℝ)
    (hh : hbar ≠ 0) (length : ℝ) (hl : length ≠ 0) (nz : ℕ) (V : ℕ → ℝ) (mass : ℝ) (hm : 0 < mass) (m : ℕ) (h0 : 0 < m) (hmn : m ≤ nz) :
    ∃ B E, potentialConfigBasis same eigh hbar length nz (fun z => (V z : ℂ)) mass m = some B ∧ Valid B ∧ OrthonormalParts B ∧
      LowestStates hbar mass length nz V m B E := by
  obtain ⟨H, hH, hb0, hb1, he⟩ := config_entries same hs hbar hh length hl nz (fun z => (V z : ℂ)) mass hm
  have hsz : size H.b0 = nz := by rw [hb0]; simp [size, sizes]
  have hn : H.b0.n = nz := by rw [Basis.n_eq, hsz]
  have hn1 : H.b1.n = nz := by rw [Basis.n_eq, hb1]; simp [size, sizes]
  have herm : HermitianOperator H := by
    refine ⟨by rw [hb0, hb1], fun i hi j hj => ?_⟩
    rw [hsz] at hi hj
    rw [he i hi j hj, he j hj i hi, map_add, map_sum]
    congr 1
    · refine sum_congr rfl fun k _ => ?_
      rw [map_mul, map_mul, Complex.conj_ofReal, Complex.conj_conj]
      ring
    · by_cases h : i = j
      · rw [if_pos h, if_pos h.symm, Complex.conj_ofReal, h]
      · rw [if_neg h, if_neg (Ne.symm h), map_zero]
  obtain ⟨lam, vec, hsort, hval⟩ := heigh H herm 0 (m - 1) (Nat.zero_le _) (by rw [hsz]; omega)
  obtain ⟨r, hr⟩ : ∃ r, r = eigh H 0 (m - 1) := ⟨_, rfl⟩
  rw [← hr] at hval
  rw [hsz] at hsort hval
  have hval : ∀ j < m, r.eigenvalues j = lam j ∧ ∀ i < nz, r.vectors i j = vec i j := fun j hj => by
    have := hval j (by omega)
    rwa [zero_add] at this
  have hmat : toMatrix nz H.entry = matrix nz nz H.data := by
    funext i j
    simp only [toMatrix, matrix, Operator.entry, hn1]
  have hE : IsEigh nz m (matrix nz nz H.data) r.eigenvalues r.vectors := by
    rw [← hmat]
    refine ⟨fun j hj => ?_, fun j hj i => ?_, fun j hj j' hj' => ?_⟩
    · rw [(hval j hj).1]; exact hsort.1.1 j (by omega)
    · rw [(hval j hj).1, (hval j hj).2 i i.2, ← hsort.1.2.1 j (by omega) i]
      exact sum_congr rfl fun k _ => by rw [(hval j hj).2 k k.2]
    · rw [← hsort.1.2.2 j (by omega) j' (by omega)]
      exact sum_congr rfl fun k _ => by rw [(hval j hj).2 k k.2, (hval j' hj').2 k k.2]
  obtain ⟨v1, v2, v3, v4, v5⟩ := C26_eigenbasis (.tuple [.fundamental nz]) (by exact ⟨trivial, trivial⟩) (by exact ⟨trivial, trivial⟩) nz m
    (by simp [size, sizes]) H ⟨hb0, hb1⟩ r hE
  have hstate : ∀ j < m, ∀ x < nz, state (getEigenstateBasis H m r) j x = vec x j := by
    intro j hj x hx
    rw [v5 j hj x, ← (hval j hj).2 x hx]
    have : ∀ i ∈ range nz, r.vectors i j * state (.tuple [.fundamental nz]) i x = if x = i then r.vectors i j else 0 := by
      intro i _
      simp [state, states, sizes, pointss]
    rw [sum_congr rfl this, sum_ite_eq, if_pos (mem_range.2 hx)]
  have hlam : ∀ j < nz, lam j = ((lam j).re : ℂ) := fun j hj => Complex.ext rfl (by simpa using hsort.1.1 j hj)
  refine ⟨getEigenstateBasis H m r, fun j => (lam j).re, ?_, v1, v2, v3, by rw [v4]; simp [points, pointss], fun i hi j hj => ?_, fun j hj x hx => ?_,
    fun i j hij hj => hsort.2 i j hij (by omega), fun φ hφ j hj => ?_⟩
  · unfold potentialConfigBasis getEigenstateBasisStacked eighSubset
    rw [hH, Option.bind_some, if_pos ⟨le_rfl, by omega, by rw [hn]; omega⟩, Option.map_some, hr]
    congr 2
    · omega
    · congr 1
      omega
  · rw [← hsort.1.2.2 i (by omega) j (by omega), sum_range]
    exact sum_congr rfl fun x _ => by rw [hstate i hi x x.2, hstate j hj x x.2]
  · rw [← config_apply he (state (getEigenstateBasis H m r) j) x hx, hstate j hj x hx, ← hlam j (by omega), ← hsort.1.2.1 j (by omega) ⟨x, hx⟩, sum_range]
    exact sum_congr rfl fun y _ => by rw [hstate j hj y y.2]; rfl
  · have hz : ∀ k : Fin nz, (k : ℕ) < m → ∑ i : Fin nz, (starRingEnd ℂ) (vec i k) * φ i = 0 := by
      intro k hk
      rw [← hφ k hk, sum_range]
      exact sum_congr rfl fun x _ => by rw [hstate k hk x x.2]
    have hq := eigh_quadratic hsort.1 fun i : Fin nz => φ i
    have hp := eigh_parseval hsort.1 fun i : Fin nz => φ i
    have hen : energyOn hbar mass length nz V φ = ∑ i : Fin nz, ∑ j : Fin nz, (starRingEnd ℂ) (φ i) * toMatrix nz H.entry i j * φ j := by
      unfold energyOn
      rw [sum_range]
      refine sum_congr rfl fun i _ => ?_
      rw [← config_apply he φ i i.2, mul_sum, sum_range]
      exact sum_congr rfl fun j _ => by rw [mul_assoc]; rfl
    rw [hen, ← hq, Complex.re_sum, sum_range, ← hp, mul_sum]
    refine sum_le_sum fun k _ => ?_
    rw [hlam k k.2, ← Complex.ofReal_mul, Complex.ofReal_re]
    by_cases hk : (k : ℕ) < m
    · rw [hz k hk]; simp
    · exact mul_le_mul_of_nonneg_right (hsort.2 j k (by omega) k.2) (sq_nonneg _)

/-- **C165.** The oscillator basis consists of the lowest eigenstates, on the periodic axis, of the harmonic potential. Its minimum is at minus the projection
of the configured origin, see `C95_origin_negation`. -/
theorem C165_oscillator (same : Basis → Basis → Bool) (hs : Sound same) (eigh : Operator → ℕ → ℕ → EigResult) (heigh : IsEighRoutine eigh) (hbar : ℝ)
    (hh : hbar ≠ 0) (mass omega : ℝ) (hm : 0 < mass) (deltaX : Fin 3 → ℝ) (hd : deltaX ≠ 0) (n : ℕ) (origin : Fin 3 → ℝ) (m : ℕ) (h0 : 0 < m) (hmn : m ≤ n) :
    ∃ B E, shoBasisFromConfig same eigh hbar mass omega deltaX n origin m = some B ∧ Valid B ∧ OrthonormalParts B ∧
      LowestStates hbar mass (Real.sqrt (deltaX ⬝ᵥ deltaX)) n
        (fun x => mass * omega ^ 2 / 2 * (Real.sqrt (deltaX ⬝ᵥ deltaX) * x / n + deltaX ⬝ᵥ origin / Real.sqrt (deltaX ⬝ᵥ deltaX)) ^ 2) m B E := by
  have hp := vnorm_pos hd
  have hv : vnorm deltaX = Real.sqrt (deltaX ⬝ᵥ deltaX) := rfl
  have hsq : deltaX ⬝ᵥ deltaX = vnorm deltaX * vnorm deltaX := by
    rw [vnorm, Real.mul_self_sqrt]
    simpa [dotProduct] using Finset.sum_nonneg fun i _ => mul_self_nonneg (deltaX i)
  obtain ⟨B, E, h⟩ := C165_potential same hs eigh heigh hbar hh (vnorm deltaX) hp.ne' n
    (fun x => mass * omega ^ 2 / 2 * (vnorm deltaX * x / n + deltaX ⬝ᵥ origin / vnorm deltaX) ^ 2) mass hm m h0 hmn
  refine ⟨B, E, ?_, h.2.1, h.2.2.1, h.2.2.2⟩
  rw [← h.1]
  unfold shoBasisFromConfig
  congr 1
  funext x
  have : (fun i => deltaX i / n * x) = ((x : ℝ) / n) • deltaX := by
    funext i; simp only [Pi.smul_apply, smul_eq_mul]; ring
  rw [shoPotentialData, calculateXDistances, unit_dot, unit_dot, this, dotProduct_smul, hsq, smul_eq_mul]
  congr 1
  field_simp
  ring

/-- **C165.** More states than points, or none, raise. -/
theorem C165_rejects (same : Basis → Basis → Bool) (hs : Sound same) (eigh : Operator → ℕ → ℕ → EigResult) (hbar : ℝ) (hh : hbar ≠ 0) (length : ℝ)
    (hl : length ≠ 0) (nz : ℕ) (V : ℕ → ℂ) (mass : ℝ) (hm : 0 < mass) (m : ℕ) (h : m = 0 ∨ nz < m) :
    potentialConfigBasis same eigh hbar length nz V mass m = none := by
  obtain ⟨H, hH, hb0, -, -⟩ := config_entries same hs hbar hh length hl nz V mass hm
  have hn : H.b0.n = nz := by rw [Basis.n_eq, hb0]; simp [size, sizes]
  unfold potentialConfigBasis getEigenstateBasisStacked eighSubset
  rw [hH, Option.bind_some, if_neg (by rw [hn]; omega), Option.map_none]

/-! ## Concrete cases -/

/-- The three lowest states of an oscillator on eight points, with a routine meeting the contract. -/
example : ∃ eigh B E, shoBasisFromConfig (fun _ _ => false) eigh 1 1 2 ![0, 0, 5] 8 ![0, 0, -2] 3 = some B ∧
    LowestStates 1 1 (Real.sqrt ((![0, 0, 5] : Fin 3 → ℝ) ⬝ᵥ ![0, 0, 5])) 8
      (fun x => 1 * 2 ^ 2 / 2 * (Real.sqrt ((![0, 0, 5] : Fin 3 → ℝ) ⬝ᵥ ![0, 0, 5]) * x / (8 : ℕ) +
        (![0, 0, 5] : Fin 3 → ℝ) ⬝ᵥ ![0, 0, -2] / Real.sqrt ((![0, 0, 5] : Fin 3 → ℝ) ⬝ᵥ ![0, 0, 5])) ^ 2) 3 B E := by
  obtain ⟨eigh, heigh⟩ := exists_eighRoutine
  obtain ⟨B, E, h1, -, -, h2⟩ := C165_oscillator (fun _ _ => false) (fun _ _ h => by cases h) eigh heigh 1 one_ne_zero 1 2 one_pos ![0, 0, 5]
    (fun h => by have := congrFun h 2; simp at this) 8 ![0, 0, -2] 3 (by norm_num) (by norm_num)
  exact ⟨eigh, B, E, h1, h2⟩

end Verif
