import Verif.Model.KernelConvert
import Verif.Props.C56_NoiseOperators
import Verif.Props.C15_Stacked
import Verif.Props.C50_Localization
import Verif.Props.C52_Wannier
import Verif.Props.C69_Hamiltonian

/-!
C120: conversion of noise kernels to another basis.
-/

set_option autoImplicit false

namespace Verif

open Finset Spec

theorem transformed_sum (p N : ℕ) (lam : ℕ → ℂ) (L : ℕ → ℕ → ℕ → ℂ) (u v w z : ℕ → ℂ) :
    ∑ a ∈ range N, lam a * (starRingEnd ℂ) (∑ y ∈ range p, ∑ x ∈ range p, v y * L a y x * (starRingEnd ℂ) (u x)) *
      (∑ x ∈ range p, ∑ y ∈ range p, w x * L a x y * (starRingEnd ℂ) (z y)) =
    ∑ i ∈ range p, ∑ j ∈ range p, ∑ k ∈ range p, ∑ l ∈ range p,
      u i * (starRingEnd ℂ) (v j) * w k * (starRingEnd ℂ) (z l) *
        ∑ a ∈ range N, lam a * (starRingEnd ℂ) (L a j i) * L a k l := by
  simp only [mul_sum (s := range N)]
  symm
  refine (sum_congr rfl fun i _ => sum_congr rfl fun j _ => sum_congr rfl fun k _ => sum_comm).trans ?_
  refine (sum_congr rfl fun i _ => sum_congr rfl fun j _ => sum_comm).trans ?_
  refine (sum_congr rfl fun i _ => sum_comm).trans ?_
  refine sum_comm.trans (sum_congr rfl fun a _ => ?_)
  rw [sum_comm (s := range p) (t := range p) (f := fun y x => v y * L a y x * (starRingEnd ℂ) (u x))]
  generalize hX : (∑ x ∈ range p, ∑ y ∈ range p, w x * L a x y * (starRingEnd ℂ) (z y)) = X
  rw [map_sum, mul_sum, sum_mul]
  refine sum_congr rfl fun i _ => ?_
  rw [map_sum, mul_sum, sum_mul]
  refine sum_congr rfl fun j _ => ?_
  rw [← hX, mul_sum]
  refine sum_congr rfl fun k _ => ?_
  rw [mul_sum]
  refine sum_congr rfl fun l _ => ?_
  rw [map_mul, map_mul, Complex.conj_conj]
  ring

/-- The kernel of converted operators, in terms of the kernel of the given operators. -/
theorem converted_kernel (same : Basis → Basis → Bool) (hs : Sound same) (b c : Basis) (hb : Valid b) (hc : Valid c)
    (ho : OrthonormalParts b) (hbc : Compatible b c) (ops : NoiseOperators) (hr : ops.rows = b.n) (hcol : ops.cols = b.n)
    (hN : ops.values = ops.count) (K : ℕ → ℂ) (hK : getFullKernel ops = some K) :
    ∃ f K', Basis.convert same b c = some f ∧ (convertNoiseOperators same ops b b c c).bind getFullKernel = some K' ∧
      ∀ i < c.n, ∀ j < c.n, ∀ k < c.n, ∀ l < c.n, K' (((i * c.n + j) * c.n + k) * c.n + l) =
        ∑ i' ∈ range b.n, ∑ j' ∈ range b.n, ∑ k' ∈ range b.n, ∑ l' ∈ range b.n,
          f (unit i') i * (starRingEnd ℂ) (f (unit j') j) * f (unit k') k * (starRingEnd ℂ) (f (unit l') l) *
            K (((i' * b.n + j') * b.n + k') * b.n + l') := by
  obtain ⟨C, f, f', hC, hf, hf', kC⟩ := C17_matrix same hs b c b c hb hc ho hbc hb hc ho hbc
  obtain rfl : f = f' := Option.some.inj (hf.symm.trans hf')
  have hconv : convertNoiseOperators same ops b b c c = some ⟨ops.count, c.n, c.n,
      flatten3 c.n c.n fun a => C fun i j => ops.data ((a * ops.rows + i) * ops.cols + j), ops.values, ops.eigenvalue⟩ := by
    unfold convertNoiseOperators; rw [hC]; rfl
  obtain ⟨K', hK', eK'⟩ := getFullKernel_entries ⟨ops.count, c.n, c.n,
      flatten3 c.n c.n fun a => C fun i j => ops.data ((a * ops.rows + i) * ops.cols + j), ops.values, ops.eigenvalue⟩ hN
  obtain ⟨K0, hK0, eK0⟩ := getFullKernel_entries ops hN
  obtain rfl : K0 = K := Option.some.inj (hK0.symm.trans hK)
  rw [hr, hcol] at eK0
  refine ⟨f, K', hf, by rw [hconv]; exact hK', fun i hi j hj k hk l hl => ?_⟩
  rw [eK' i hi j hj k hk l hl]
  refine Eq.trans ?_ ((transformed_sum b.n ops.count ops.eigenvalue (fun a x y => ops.data (a * (b.n * b.n) + (x * b.n + y)))
    (fun i' => f (unit i') i) (fun j' => f (unit j') j) (fun k' => f (unit k') k) (fun l' => f (unit l') l)).trans
    (sum_congr rfl fun i' hi' => sum_congr rfl fun j' hj' => sum_congr rfl fun k' hk' => sum_congr rfl fun l' hl' => by
      rw [eK0 i' (mem_range.1 hi') j' (mem_range.1 hj') k' (mem_range.1 hk') l' (mem_range.1 hl')]))
  refine sum_congr rfl fun a _ => ?_
  dsimp only
  rw [flatten3_entry _ a hj hi, flatten3_entry _ a hk hl]
  have e : ∀ x < c.n, ∀ y < c.n, C (fun i j => ops.data ((a * ops.rows + i) * ops.cols + j)) x y =
      ∑ x' ∈ range b.n, ∑ y' ∈ range b.n, f (unit x') x * ops.data (a * (b.n * b.n) + (x' * b.n + y')) *
        (starRingEnd ℂ) (f (unit y') y) := by
    intro x hx y hy
    rw [Basis.n_eq] at hx hy
    rw [kC _ x hx y hy, hr, hcol, Basis.n_eq]
    refine sum_congr rfl fun x' _ => sum_congr rfl fun y' _ => ?_
    rw [show (a * size b + x') * size b + y' = a * (size b * size b) + (x' * size b + y') by ring]
  rw [e j hj i hi, e k hk l hl]

/-- **C120.** A Hermitian kernel is converted in each of its four indices, independently of the eigenvectors which are used on
the way: with the conversion `B` of vectors the result is `K'((i, j), (k, l)) = ∑ B i i' conj (B j j') B k k' conj (B l l')
K((i', j'), (k', l'))`. -/
theorem C120_kernel (eigh : ∀ N, Matrix (Fin N) (Fin N) ℂ → EigResult) (same : Basis → Basis → Bool) (hs : Sound same)
    (b c : Basis) (hb : Valid b) (hc : Valid c) (ho : OrthonormalParts b) (hbc : Compatible b c) (K : ℕ → ℂ)
    (hd : ∀ i < b.n, ∀ j < b.n, ∀ k < b.n, ∀ l < b.n, K (((i * b.n + j) * b.n + k) * b.n + l) =
      (starRingEnd ℂ) (K (((l * b.n + k) * b.n + j) * b.n + i)))
    (he : ∀ M : Matrix (Fin (b.n * b.n)) (Fin (b.n * b.n)) ℂ, M.conjTranspose = M →
      IsEigh (b.n * b.n) (b.n * b.n) M (eigh (b.n * b.n) M).eigenvalues (eigh (b.n * b.n) M).vectors) :
    ∃ B K', Basis.convert same b c = some B ∧ convertKernel eigh same b c K = some K' ∧
      ∀ i < c.n, ∀ j < c.n, ∀ k < c.n, ∀ l < c.n, K' (((i * c.n + j) * c.n + k) * c.n + l) =
        ∑ i' ∈ range b.n, ∑ j' ∈ range b.n, ∑ k' ∈ range b.n, ∑ l' ∈ range b.n,
          B (unit i') i * (starRingEnd ℂ) (B (unit j') j) * B (unit k') k * (starRingEnd ℂ) (B (unit l') l) *
            K (((i' * b.n + j') * b.n + k') * b.n + l') := by
  obtain ⟨ops, hops, hcount, hvalues, hr, hcol, -, -, K0, hK0, eK0⟩ := C56_full eigh b.n K hd he
  obtain ⟨f, K', hf, hK', eK'⟩ := converted_kernel same hs b c hb hc ho hbc ops hr hcol (hvalues.trans hcount.symm) K0 hK0
  refine ⟨f, K', hf, by unfold convertKernel; rw [hops]; exact hK', fun i hi j hj k hk l hl => ?_⟩
  rw [eK' i hi j hj k hk l hl]
  refine sum_congr rfl fun i' hi' => sum_congr rfl fun j' hj' => sum_congr rfl fun k' hk' => sum_congr rfl fun l' hl' => ?_
  rw [eK0 _ (by
    have := add_mul_lt (add_mul_lt (add_mul_lt (mem_range.1 hi') (mem_range.1 hj')) (mem_range.1 hk')) (mem_range.1 hl')
    calc _ < b.n * b.n * b.n * b.n := this
      _ = _ := by ring)]

/-- **C120.** A Hermitian diagonal kernel `d` is converted as the kernel `δ i j δ k l d(i, k)`. -/
theorem C120_diagonal (eigh : ∀ N, Matrix (Fin N) (Fin N) ℂ → EigResult) (same : Basis → Basis → Bool) (hs : Sound same)
    (b c : Basis) (hb : Valid b) (hc : Valid c) (ho : OrthonormalParts b) (hbc : Compatible b c) (d : ℕ → ℂ)
    (hd : ∀ i < b.n, ∀ j < b.n, d (i * b.n + j) = (starRingEnd ℂ) (d (j * b.n + i)))
    (he : ∀ M : Matrix (Fin b.n) (Fin b.n) ℂ, M.conjTranspose = M →
      IsEigh b.n b.n M (eigh b.n M).eigenvalues (eigh b.n M).vectors) :
    ∃ B K', Basis.convert same b c = some B ∧ convertDiagonalKernel eigh same b c d = some K' ∧
      ∀ i < c.n, ∀ j < c.n, ∀ k < c.n, ∀ l < c.n, K' (((i * c.n + j) * c.n + k) * c.n + l) =
        ∑ i' ∈ range b.n, ∑ k' ∈ range b.n,
          B (unit i') i * (starRingEnd ℂ) (B (unit i') j) * B (unit k') k * (starRingEnd ℂ) (B (unit k') l) *
            d (i' * b.n + k') := by
  obtain ⟨ops, hops, hcount, hvalues, hdim, -, -, D, hD, eD⟩ := C56_diagonal eigh b.n d hd
    (he _ (toMatrix_hermitian hd).symm)
  obtain ⟨D', hD', eD'⟩ := getDiagonalKernel_entries ops (hvalues.trans hcount.symm)
  obtain rfl : D' = D := Option.some.inj (hD'.symm.trans hD)
  obtain ⟨K0, hK0, eK0⟩ := getFullKernel_entries (asFullOperators ops) (hvalues.trans hcount.symm)
  obtain ⟨f, K', hf, hK', eK'⟩ := converted_kernel same hs b c hb hc ho hbc (asFullOperators ops) hdim hdim
    (hvalues.trans hcount.symm) K0 hK0
  refine ⟨f, K', hf, by unfold convertDiagonalKernel convertDiagonalNoiseOperators; rw [hops]; exact hK',
    fun i hi j hj k hk l hl => ?_⟩
  rw [eK' i hi j hj k hk l hl]
  have key : ∀ i' < b.n, ∀ j' < b.n, ∀ k' < b.n, ∀ l' < b.n, K0 (((i' * b.n + j') * b.n + k') * b.n + l') =
      if j' = i' then if l' = k' then d (i' * b.n + k') else 0 else 0 := by
    intro i' hi' j' hj' k' hk' l' hl'
    have h := eK0 i' (lt_of_lt_of_eq hi' hdim.symm) j' (lt_of_lt_of_eq hj' hdim.symm) k' (lt_of_lt_of_eq hk' hdim.symm) l'
      (lt_of_lt_of_eq hl' hdim.symm)
    rw [← eD _ (add_mul_lt hi' hk')]
    have h' := eD' i' k' (lt_of_lt_of_eq hk' hdim.symm)
    unfold asFullOperators at h
    dsimp only at h
    rw [hdim] at h h'
    rw [h, h']
    unfold noiseKernel
    have e : ∀ a x y, x < b.n → y < b.n → flatten3 b.n b.n (fun a i j => if i = j then ops.data (a * b.n + i) else 0)
        (a * (b.n * b.n) + (x * b.n + y)) = if x = y then ops.data (a * b.n + x) else 0 :=
      fun a x y hx hy => flatten3_entry _ a hx hy
    simp only [e _ _ _ hj' hi', e _ _ _ hk' hl']
    by_cases h1 : j' = i'
    · by_cases h2 : l' = k'
      · subst h1 h2; simp
      · have h3 : ¬ k' = l' := fun h => h2 h.symm
        rw [if_pos h1, if_neg h2]; simp [h3]
    · rw [if_neg h1]; simp [h1]
  refine sum_congr rfl fun i' hi' => ?_
  rw [sum_eq_single i' (fun j' hj' hne => ?_) (fun h => absurd hi' h)]
  · refine sum_congr rfl fun k' hk' => ?_
    rw [sum_eq_single k' (fun l' hl' hne => ?_) (fun h => absurd hk' h)]
    · rw [key _ (mem_range.1 hi') _ (mem_range.1 hi') _ (mem_range.1 hk') _ (mem_range.1 hk'), if_pos rfl, if_pos rfl]
    · rw [key _ (mem_range.1 hi') _ (mem_range.1 hi') _ (mem_range.1 hk') _ (mem_range.1 hl'), if_pos rfl, if_neg hne, mul_zero]
  · refine sum_eq_zero fun k' hk' => sum_eq_zero fun l' hl' => ?_
    rw [key _ (mem_range.1 hi') _ (mem_range.1 hj') _ (mem_range.1 hk') _ (mem_range.1 hl'), if_neg hne, mul_zero]

-- a Hermitian kernel on 2 × 2 operators which is not diagonal: the kernel of the operator `(0, 1; 0, 0)`
example : ∃ K : ℕ → ℂ, K (((1 * 2 + 0) * 2 + 0) * 2 + 1) = 1 ∧ ∀ i < 2, ∀ j < 2, ∀ k < 2, ∀ l < 2,
    K (((i * 2 + j) * 2 + k) * 2 + l) = (starRingEnd ℂ) (K (((l * 2 + k) * 2 + j) * 2 + i)) := by
  refine ⟨fun p => if p = 9 then 1 else 0, rfl, fun i hi j hj k hk l hl => ?_⟩
  interval_cases i <;> interval_cases j <;> interval_cases k <;> interval_cases l <;> simp

-- two bases with different states and the same points
example : Valid (.fundamental 3) ∧ OrthonormalParts (.fundamental 3) ∧ Compatible (.fundamental 3) (.transformed 2 3) :=
  ⟨trivial, trivial, rfl⟩

/-! ## Isotropic kernels -/

/-- **C120.** An isotropic kernel, given by the coefficients of a function of the displacement in any basis, is converted to the
positions without change of that function. (Partial: this is a conversion of the kernel if both bases describe the same points,
see `C120_isotropic_negation` for other bases.) -/
theorem C120_isotropic_partial (same : Basis → Basis → Bool) (hs : Sound same) (b : Basis) (hb : Valid b) (ho : OrthonormalParts b)
    (ns : List ℕ) (hc : Compatible b (.tuple (ns.map .fundamental))) (β : ℕ → ℂ) :
    ∃ β', convertIsotropicKernel same b (.tuple (ns.map .fundamental)) β = some β' ∧ ∀ x < ns.prod, β' x = expand b β x := by
  obtain ⟨f, hf, kf⟩ := convert_position same hs b hb ho ns hc
  exact ⟨f β, by unfold convertIsotropicKernel; rw [hf]; rfl, kf β⟩

example : Compatible (.tuple [.transformed 2 3, .fundamental 2]) (.tuple ([3, 2].map .fundamental)) := ⟨rfl, rfl, trivial⟩

/-- **C120.** Converting an isotropic kernel is not converting the noise: for the kernel which is one for all displacements, the
isotropic kernel converted from positions to momenta is not the kernel converted by `convert_diagonal_kernel_to_basis`. Already
the entries `((0, 0), (1, 1))` differ: 0 and 1. -/
theorem C120_isotropic_negation (eigh : ∀ N, Matrix (Fin N) (Fin N) ℂ → EigResult) (same : Basis → Basis → Bool) (hs : Sound same)
    (n : ℕ) (hn : 2 ≤ n)
    (he : ∀ M : Matrix (Fin n) (Fin n) ℂ, M.conjTranspose = M → IsEigh n n M (eigh n M).eigenvalues (eigh n M).vectors) :
    ∃ β' K', convertIsotropicKernel same (.fundamental n) (.fundamentalTransformed n) (fun _ => 1) = some β' ∧
      convertDiagonalKernel eigh same (.fundamental n) (.fundamentalTransformed n) (diagonalFromIsotropic n fun _ => 1) = some K' ∧
      fullFromDiagonal n n (diagonalFromIsotropic n β') (((0 * n + 0) * n + 1) * n + 1) = 0 ∧
      K' (((0 * n + 0) * n + 1) * n + 1) = 1 := by
  obtain ⟨f, hf, kf⟩ := convert_kernel same hs (.fundamental n) (.fundamentalTransformed n) trivial trivial trivial rfl
  obtain ⟨B, K', hB, hK', eK'⟩ := C120_diagonal eigh same hs (.fundamental n) (.fundamentalTransformed n) trivial trivial trivial rfl
    (diagonalFromIsotropic n fun _ => 1) (fun i _ j _ => by simp [diagonalFromIsotropic, flatten]) he
  obtain rfl : f = B := Option.some.inj (hf.symm.trans hB)
  have ek : ∀ i x, x < n → overlapKernel (.fundamental n) (.fundamentalTransformed n) i x = (starRingEnd ℂ) (planeWave n i x) := by
    intro i x hx
    show ∑ y ∈ range n, (starRingEnd ℂ) (planeWave n i y) * (if y = x then 1 else 0) = _
    simp only [mul_ite, mul_one, mul_zero]
    rw [sum_ite_eq', if_pos (mem_range.2 hx)]
  have hu : ∀ i < n, ∑ x ∈ range n, f (unit x) i * (starRingEnd ℂ) (f (unit x) i) = 1 := by
    intro i hi
    have := (planeWave_unitary n).1 i hi i hi
    rw [if_pos rfl] at this
    rw [← this]
    refine sum_congr rfl fun x hx => ?_
    rw [unit_kernel kf (show i < size (.fundamentalTransformed n) from hi) (show x < size (.fundamental n) from mem_range.1 hx),
      ek i x (mem_range.1 hx), Complex.conj_conj]
  refine ⟨f fun _ => 1, K', by unfold convertIsotropicKernel; rw [hf]; rfl, hK', ?_, ?_⟩
  · unfold fullFromDiagonal
    rw [flatten4_entry _ 0 (by omega) (by omega) (by omega), if_pos (by ring)]
    unfold diagonalFromIsotropic
    rw [flatten_entry _ 0 (by omega)]
    have e : ((((0 : ℕ) : ℤ) - ((1 : ℕ) : ℤ)) % (n : ℤ)).toNat = n - 1 := by
      rw [show (((0 : ℕ) : ℤ) - ((1 : ℕ) : ℤ)) % (n : ℤ) = ((n - 1 : ℕ) : ℤ) by
        rw [show (((0 : ℕ) : ℤ) - ((1 : ℕ) : ℤ)) = ((n - 1 : ℕ) : ℤ) + n * (-1) by omega, Int.add_mul_emod_self_left]
        exact Int.emod_eq_of_lt (by omega) (by omega)]
      exact Int.toNat_natCast _
    rw [e, kf _ (n - 1) (show n - 1 < n by omega)]
    show ∑ x ∈ range n, overlapKernel (.fundamental n) (.fundamentalTransformed n) (n - 1) x * 1 = 0
    have h0 := (planeWave_unitary n).1 (n - 1) (by omega) 0 (by omega)
    rw [if_neg (by omega)] at h0
    have hc : planeWave n 0 0 ≠ 0 := by
      unfold planeWave
      refine div_ne_zero (Complex.exp_ne_zero _) ?_
      exact Complex.ofReal_ne_zero.2 (Real.sqrt_ne_zero'.2 (by exact_mod_cast (show 0 < n by omega)))
    have h1 : (∑ x ∈ range n, overlapKernel (.fundamental n) (.fundamentalTransformed n) (n - 1) x * 1) * planeWave n 0 0 = 0 := by
      rw [← h0, sum_mul]
      refine sum_congr rfl fun x hx => ?_
      rw [ek _ _ (mem_range.1 hx), mul_one]
      congr 1
      show planeWave n 0 0 = planeWave n ((0 : ℕ) : ℤ) x
      rw [planeWave_eq, planeWave_eq]; simp
    exact (mul_eq_zero.1 h1).resolve_right hc
  · refine (eK' 0 (show 0 < n by omega) 0 (show 0 < n by omega) 1 (show 1 < n by omega) 1 (show 1 < n by omega)).trans ?_
    show ∑ i' ∈ range n, ∑ k' ∈ range n, f (unit i') 0 * (starRingEnd ℂ) (f (unit i') 0) * f (unit k') 1 *
      (starRingEnd ℂ) (f (unit k') 1) * 1 = 1
    have e : ∀ i' k', f (unit i') 0 * (starRingEnd ℂ) (f (unit i') 0) * f (unit k') 1 * (starRingEnd ℂ) (f (unit k') 1) * 1 =
        f (unit i') 0 * (starRingEnd ℂ) (f (unit i') 0) * (f (unit k') 1 * (starRingEnd ℂ) (f (unit k') 1)) := fun i' k' => by ring
    simp only [e, ← mul_sum]
    rw [hu 1 (by omega)]
    simp only [mul_one]
    exact hu 0 (by omega)

/-- **C120.** Converting a list of noise operators with any bases on the two sides: entry by entry the first index is converted from the first basis, and the
second, conjugated, from the second; the strengths of the operators are kept. -/
theorem C120_operators (same : Basis → Basis → Bool) (hs : Sound same) (b0 b1 c0 c1 : Basis) (hb0 : Valid b0) (hb1 : Valid b1) (hc0 : Valid c0)
    (hc1 : Valid c1) (ho0 : OrthonormalParts b0) (ho1 : OrthonormalParts b1) (h0 : Compatible b0 c0) (h1 : Compatible b1 c1) (ops : NoiseOperators)
    (hr : ops.rows = b0.n) (hcol : ops.cols = b1.n) :
    ∃ f0 f1 out, Basis.convert same b0 c0 = some f0 ∧ Basis.convert same b1 c1 = some f1 ∧
      convertNoiseOperators same ops b0 b1 c0 c1 = some out ∧ out.count = ops.count ∧ out.rows = c0.n ∧ out.cols = c1.n ∧ out.values = ops.values ∧
      out.eigenvalue = ops.eigenvalue ∧ ∀ a, ∀ i < c0.n, ∀ j < c1.n, out.data ((a * c0.n + i) * c1.n + j) =
        ∑ i' ∈ range b0.n, ∑ j' ∈ range b1.n, f0 (unit i') i * ops.data ((a * b0.n + i') * b1.n + j') * (starRingEnd ℂ) (f1 (unit j') j) := by
  obtain ⟨C, f, f', hC, hf, hf', kC⟩ := C17_matrix same hs b0 c0 b1 c1 hb0 hc0 ho0 h0 hb1 hc1 ho1 h1
  refine ⟨f, f', ⟨ops.count, c0.n, c1.n,
    flatten3 c0.n c1.n fun a => C fun i j => ops.data ((a * ops.rows + i) * ops.cols + j), ops.values, ops.eigenvalue⟩, hf, hf', by unfold convertNoiseOperators; rw [hC]; rfl, rfl, rfl, rfl, rfl, rfl, fun a i hi j hj => ?_⟩
  dsimp only
  rw [show (a * c0.n + i) * c1.n + j = a * (c0.n * c1.n) + (i * c1.n + j) by ring, flatten3_entry _ a hi hj]
  rw [Basis.n_eq] at hi hj
  rw [kC _ i hi j hj, hr, hcol, Basis.n_eq, Basis.n_eq]

example : Compatible (.tuple [.transformed 2 3]) (.tuple [.fundamental 3]) ∧ Compatible (.fundamental 2) (.fundamentalTransformed 2) := ⟨⟨rfl, trivial⟩, rfl⟩

/-- **C120.** Converting diagonal noise operators to any bases on the two sides: entry by entry the sum over the diagonal of the first basis times the
conjugate of the second. -/
theorem C120_diagonal_operators (same : Basis → Basis → Bool) (hs : Sound same) (b0 b1 c0 c1 : Basis) (hb0 : Valid b0) (hb1 : Valid b1) (hc0 : Valid c0)
    (hc1 : Valid c1) (ho0 : OrthonormalParts b0) (ho1 : OrthonormalParts b1) (h0 : Compatible b0 c0) (h1 : Compatible b1 c1) (ops : DiagonalNoiseOperators)
    (hr : ops.dim = b0.n) (hcol : ops.dim = b1.n) :
    ∃ f0 f1 out, Basis.convert same b0 c0 = some f0 ∧ Basis.convert same b1 c1 = some f1 ∧
      convertDiagonalNoiseOperators same ops b0 b1 c0 c1 = some out ∧ out.count = ops.count ∧ out.rows = c0.n ∧ out.cols = c1.n ∧
      out.values = ops.values ∧ out.eigenvalue = ops.eigenvalue ∧ ∀ a, ∀ i < c0.n, ∀ j < c1.n, out.data ((a * c0.n + i) * c1.n + j) =
        ∑ k ∈ range ops.dim, f0 (unit k) i * ops.data (a * ops.dim + k) * (starRingEnd ℂ) (f1 (unit k) j) := by
  obtain ⟨f0, f1, out, e0, e1, e2, e3, e4, e5, e6, e7, e8⟩ :=
    C120_operators same hs b0 b1 c0 c1 hb0 hb1 hc0 hc1 ho0 ho1 h0 h1 (asFullOperators ops) hr hcol
  refine ⟨f0, f1, out, e0, e1, e2, e3, e4, e5, e6, e7, fun a i hi j hj => ?_⟩
  rw [e8 a i hi j hj, ← hr, ← hcol]
  refine sum_congr rfl fun k hk => ?_
  have hk' := mem_range.1 hk
  have : ∀ l ∈ range ops.dim, (asFullOperators ops).data ((a * ops.dim + k) * ops.dim + l) = if k = l then ops.data (a * ops.dim + k) else 0 := by
    intro l hl
    rw [show (a * ops.dim + k) * ops.dim + l = a * (ops.dim * ops.dim) + (k * ops.dim + l) by ring]
    exact (flatten3_entry (fun a i j => if i = j then ops.data (a * ops.dim + i) else 0) a hk' (mem_range.1 hl) :)
  rw [sum_congr rfl fun l hl => by rw [this l hl]]
  simp [hk']

example : (Basis.fundamental 2).n = (Basis.fundamentalTransformed 2).n ∧ Compatible (.fundamental 2) (.fundamentalTransformed 2) ∧
    Compatible (.fundamentalTransformed 2) (.fundamentalTransformed 2) := ⟨rfl, rfl, rfl⟩

end Verif
