import Verif.Model.Projection
import Verif.Props.C03_Index
import Mathlib.Analysis.SpecialFunctions.Exp
import Mathlib.Analysis.Real.Sqrt
import Mathlib.Algebra.BigOperators.Field
import Mathlib.Tactic.Linarith
import Mathlib.Tactic.FieldSimp

/-!
# C119: Gaussian states as projections
-/

set_option autoImplicit false

namespace Verif

open Finset

/-- The gaussian of a displacement in the two directions. -/
noncomputable def gaussian2 (w v : ℕ) (d e : ℤ) : ℝ := Real.exp (-((d / w : ℝ) ^ 2 + (e / v : ℝ) ^ 2) / 2)

theorem gaussian_two (L S N M : ℕ) (o p : ℤ) : ∃ (g : ℕ → ℝ), gaussianState L S [N, M] [o, p] = some g ∧
    ∃ Z : ℝ, Z ^ 2 = ∑ q ∈ range (N * M), (gaussian2 L S (wrapIndex ((q / M % N : ℕ) : ℤ) N (wrapIndex o L 0) - wrapIndex o L 0)
      (wrapIndex ((q % M : ℕ) : ℤ) M (wrapIndex p S 0) - wrapIndex p S 0)) ^ 2 ∧ 0 ≤ Z ∧ ∀ q, g q =
      gaussian2 L S (wrapIndex ((q / M % N : ℕ) : ℤ) N (wrapIndex o L 0) - wrapIndex o L 0)
        (wrapIndex ((q % M : ℕ) : ℤ) M (wrapIndex p S 0) - wrapIndex p S 0) / Z := by
  have hr : ∀ q : ℕ, Real.exp (-0.5 * (List.zipWith (fun (co : ℤ × ℤ) (w : ℕ) => (((co.1 - co.2 : ℤ) : ℝ) / w) ^ 2)
        ((wrapIndexAroundOrigin [N, M] none (some (wrapIndexAroundOrigin [L, S] none none [o, p])) ((unravel [N, M] q).map fun i : ℕ => (i : ℤ))).zip
          (wrapIndexAroundOrigin [L, S] none none [o, p])) [L, S]).sum) =
      gaussian2 L S (wrapIndex ((q / M % N : ℕ) : ℤ) N (wrapIndex o L 0) - wrapIndex o L 0) (wrapIndex ((q % M : ℕ) : ℤ) M (wrapIndex p S 0) - wrapIndex p S 0) := by
    intro q
    unfold gaussian2
    congr 1
    simp [wrapIndexAroundOrigin, List.range_succ, unravel]
    ring
  unfold gaussianState
  rw [wrapIndexChecked, if_pos ⟨by simp, by simp⟩, Option.bind_some, if_pos ⟨by simp [wrapIndexAroundOrigin], by simp [wrapIndexAroundOrigin], by simp [wrapIndexAroundOrigin]⟩]
  refine ⟨_, rfl, Real.sqrt (∑ q ∈ range (N * M), (gaussian2 L S (wrapIndex ((q / M % N : ℕ) : ℤ) N (wrapIndex o L 0) - wrapIndex o L 0)
      (wrapIndex ((q % M : ℕ) : ℤ) M (wrapIndex p S 0) - wrapIndex p S 0)) ^ 2), ?_, Real.sqrt_nonneg _, fun q => ?_⟩
  · rw [Real.sq_sqrt (sum_nonneg fun q _ => sq_nonneg _)]
  · simp only [hr]
    simp

/-- **C119** (two axes). The state is normalized. There is an origin, congruent to the given one modulo the number of samples and the number of states, such that the state is
a gaussian of the displacement from it (the one closest to zero), with a width of the number of samples in the first and of the number of states in the second
direction; it is largest at the origin. -/
theorem C119_two_partial (L S N M : ℕ) (hL : 0 < L) (hS : 0 < S) (hN : 0 < N) (hM : 0 < M) (o p : ℤ) :
    ∃ (g : ℕ → ℝ) (o' p' : ℤ) (C : ℝ), gaussianState L S [N, M] [o, p] = some g ∧
      (o' ≡ o [ZMOD L] ∧ -((L : ℤ) / 2) ≤ o' ∧ o' < -((L : ℤ) / 2) + L) ∧ (p' ≡ p [ZMOD S] ∧ -((S : ℤ) / 2) ≤ p' ∧ p' < -((S : ℤ) / 2) + S) ∧ 0 < C ∧
      ∑ q ∈ range (N * M), g q ^ 2 = 1 ∧
      (∀ x < N, ∀ y < M, ∀ d e : ℤ, d ≡ x - o' [ZMOD N] → -((N : ℤ) / 2) ≤ d → d < -((N : ℤ) / 2) + N → e ≡ y - p' [ZMOD M] → -((M : ℤ) / 2) ≤ e → e < -((M : ℤ) / 2) + M →
        g (x * M + y) = C * Real.exp (-((d / L : ℝ) ^ 2 + (e / S : ℝ) ^ 2) / 2)) ∧
      ∀ x < N, ∀ y < M, g (x * M + y) ≤ g ((o' % N).toNat * M + (p' % M).toNat) := by
  obtain ⟨g, h1, Z, hZ, hZ0, hg⟩ := gaussian_two L S N M o p
  have hL' : (0 : ℤ) < L := by exact_mod_cast hL
  have hS' : (0 : ℤ) < S := by exact_mod_cast hS
  have hN' : (0 : ℤ) < N := by exact_mod_cast hN
  have hM' : (0 : ℤ) < M := by exact_mod_cast hM
  have wo := C05_wrap_index_window o L 0 hL'
  have wp := C05_wrap_index_window p S 0 hS'
  set o' := wrapIndex o L 0
  set p' := wrapIndex p S 0
  have hsum : 0 < ∑ q ∈ range (N * M), (gaussian2 L S (wrapIndex ((q / M % N : ℕ) : ℤ) N o' - o') (wrapIndex ((q % M : ℕ) : ℤ) M p' - p')) ^ 2 :=
    sum_pos (fun q _ => pow_pos (Real.exp_pos _) 2) ⟨0, mem_range.2 (Nat.mul_pos hN hM)⟩
  have hZpos : 0 < Z := by
    rcases hZ0.lt_or_eq with h | h
    · exact h
    · rw [← hZ, ← h] at hsum
      simp at hsum
  have hval : ∀ x < N, ∀ y < M, ∀ d e : ℤ, d ≡ x - o' [ZMOD N] → -((N : ℤ) / 2) ≤ d → d < -((N : ℤ) / 2) + N → e ≡ y - p' [ZMOD M] → -((M : ℤ) / 2) ≤ e → e < -((M : ℤ) / 2) + M →
      g (x * M + y) = 1 / Z * Real.exp (-((d / L : ℝ) ^ 2 + (e / S : ℝ) ^ 2) / 2) := by
    intro x hx y hy d e d1 d2 d3 e1 e2 e3
    have hdx : wrapIndex (x : ℤ) N o' - o' = d := by
      have := C05_wrap_index_unique x N o' (d + o') hN' (by simpa using d1.add_right o') (by omega) (by omega)
      omega
    have hey : wrapIndex (y : ℤ) M p' - p' = e := by
      have := C05_wrap_index_unique y M p' (e + p') hM' (by simpa using e1.add_right p') (by omega) (by omega)
      omega
    rw [hg, Nat.mul_comm x M, Nat.mul_add_div hM, Nat.div_eq_of_lt hy, Nat.add_zero, Nat.mod_eq_of_lt hx, Nat.mul_add_mod, Nat.mod_eq_of_lt hy, hdx, hey]
    unfold gaussian2
    rw [div_mul_eq_mul_div, one_mul]
  refine ⟨g, o', p', 1 / Z, h1, ⟨wo.1, by omega, by omega⟩, ⟨wp.1, by omega, by omega⟩, by positivity, ?_, hval, fun x hx y hy => ?_⟩
  · rw [sum_congr rfl fun q _ => by rw [hg q, div_pow], ← sum_div, ← hZ, div_self (pow_ne_zero 2 hZpos.ne')]
  · have n1 := Int.emod_nonneg o' hN'.ne'
    have n2 := Int.emod_lt_of_pos o' hN'
    have m1 := Int.emod_nonneg p' hM'.ne'
    have m2 := Int.emod_lt_of_pos p' hM'
    have wx := C05_wrap_index_window (x : ℤ) N o' hN'
    have wy := C05_wrap_index_window (y : ℤ) M p' hM'
    rw [hval x hx y hy (wrapIndex (x : ℤ) N o' - o') (wrapIndex (y : ℤ) M p' - p') (wx.1.sub_right o') (by omega) (by omega) (wy.1.sub_right p') (by omega) (by omega),
      hval (o' % N).toNat (by omega) (p' % M).toNat (by omega) 0 0 ?_ (by omega) (by omega) ?_ (by omega) (by omega)]
    · apply mul_le_mul_of_nonneg_left _ (by positivity)
      apply Real.exp_le_exp.2
      simp only [Int.cast_zero, zero_div]
      have t1 := sq_nonneg (((wrapIndex (x : ℤ) N o' - o' : ℤ) : ℝ) / L)
      have t2 := sq_nonneg (((wrapIndex (y : ℤ) M p' - p' : ℤ) : ℝ) / S)
      have t3 : (0 : ℝ) ^ 2 = 0 := by norm_num
      rw [t3]
      linarith
    · rw [Int.toNat_of_nonneg n1]
      simpa using ((Int.mod_modEq o' N).sub_right o').symm
    · rw [Int.toNat_of_nonneg m1]
      simpa using ((Int.mod_modEq p' M).sub_right p').symm

/-- For instance `3 * 2` samples of a unit cell with `4 * 5` points, around the origin. -/
example : ∃ g C, gaussianState 6 20 [12, 10] [0, 0] = some g ∧ g (2 * 10 + 1) = C * Real.exp (-((2 / 6 : ℝ) ^ 2 + (1 / 20 : ℝ) ^ 2) / 2) := by
  obtain ⟨g, o', p', C, h1, h2, h3, -, -, h6, -⟩ := C119_two_partial 6 20 12 10 (by decide) (by decide) (by decide) (by decide) 0 0
  have ho : o' = 0 := by
    obtain ⟨a, b, c⟩ := h2
    have := Int.emod_emod_of_dvd o' (dvd_refl 6)
    have a' : o' % 6 = 0 := by simpa [Int.ModEq] using a
    norm_num at b c
    omega
  have hp : p' = 0 := by
    obtain ⟨a, b, c⟩ := h3
    have a' : p' % 20 = 0 := by simpa [Int.ModEq] using a
    norm_num at b c
    omega
  subst ho hp
  refine ⟨g, C, h1, ?_⟩
  have := h6 2 (by decide) 1 (by decide) 2 1 (by simp [Int.ModEq]) (by decide) (by decide) (by simp [Int.ModEq]) (by decide) (by decide)
  simpa using this

/-- The width is not that of the unit cell: for `ns * ms` samples of a unit cell with `nx * mx` points, one unit cell away from the origin the state has fallen by
`exp(-(nx / (ns * ms))² / 2)` in place of `exp(-1 / 2)`. -/
theorem C119_width_negation (ns ms nx mx : ℕ) (hns : 3 ≤ ns) (hms : 0 < ms) (hnx : 0 < nx) (hmx : 0 < mx) (hne : nx ≠ ns * ms) :
    ∃ g, gaussianState (ns * ms) (nx * mx) [ns * nx, ms * mx] [0, 0] = some g ∧
      g (nx * (ms * mx) + 0) = g (0 * (ms * mx) + 0) * Real.exp (-((nx : ℝ) / (ns * ms : ℕ)) ^ 2 / 2) ∧
      g (nx * (ms * mx) + 0) ≠ g (0 * (ms * mx) + 0) * Real.exp (-1 / 2) := by
  have hL : 0 < ns * ms := Nat.mul_pos (by omega) hms
  have hS : 0 < nx * mx := Nat.mul_pos hnx hmx
  have hN : 0 < ns * nx := Nat.mul_pos (by omega) hnx
  have hM : 0 < ms * mx := Nat.mul_pos hms hmx
  obtain ⟨g, o', p', C, h1, h2, h3, hC, -, h6, -⟩ := C119_two_partial (ns * ms) (nx * mx) (ns * nx) (ms * mx) hL hS hN hM 0 0
  have zero : ∀ (K : ℕ) (z : ℤ), 0 < K → z ≡ 0 [ZMOD K] → -((K : ℤ) / 2) ≤ z → z < -((K : ℤ) / 2) + K → z = 0 := by
    intro K z hK a b c
    have hK' : (0 : ℤ) < K := by exact_mod_cast hK
    have e1 := C05_wrap_index_unique 0 K 0 z hK' a (by omega) (by omega)
    have e2 := C05_wrap_index_unique 0 K 0 0 hK' rfl (by omega) (by omega)
    rw [e1, ← e2]
  have ho : o' = 0 := zero _ _ hL h2.1 h2.2.1 h2.2.2
  have hp : p' = 0 := zero _ _ hS h3.1 h3.2.1 h3.2.2
  subst ho hp
  have hge : 3 * nx ≤ ns * nx := Nat.mul_le_mul_right _ hns
  have hM' : (0 : ℤ) < ((ms * mx : ℕ) : ℤ) := by exact_mod_cast hM
  have hN' : (0 : ℤ) < ((ns * nx : ℕ) : ℤ) := by exact_mod_cast hN
  have k1 := h6 nx (by omega) 0 hM nx 0 (by simp [Int.ModEq]) (by omega) (by omega) (by simp [Int.ModEq]) (by omega) (by omega)
  have k0 := h6 0 hN 0 hM 0 0 (by simp [Int.ModEq]) (by omega) (by omega) (by simp [Int.ModEq]) (by omega) (by omega)
  have z0 : g (0 * (ms * mx) + 0) = C := by rw [k0]; simp
  have z1 : g (nx * (ms * mx) + 0) = C * Real.exp (-((nx : ℝ) / (ns * ms : ℕ)) ^ 2 / 2) := by
    rw [k1]
    simp
  refine ⟨g, h1, by rw [z1, z0], ?_⟩
  rw [z1, z0]
  intro h
  have h' := Real.exp_injective (mul_left_cancel₀ hC.ne' h)
  have hr : ((nx : ℝ) / (ns * ms : ℕ)) ^ 2 = 1 := by linarith
  have hq : (nx : ℝ) / (ns * ms : ℕ) = 1 := by
    have hnn : (0 : ℝ) ≤ (nx : ℝ) / (ns * ms : ℕ) := by positivity
    nlinarith
  have hLr : ((ns * ms : ℕ) : ℝ) ≠ 0 := by exact_mod_cast hL.ne'
  rw [div_eq_one_iff_eq hLr] at hq
  exact hne (by exact_mod_cast hq)

/-- With one, or with three or more axes, `get_gaussian_states` raises. -/
theorem C119_axes_negation (L S : ℕ) (U : List ℕ) (origin : List ℤ) (h : U.length ≠ 2) : gaussianState L S U origin = none := by
  unfold gaussianState wrapIndexChecked
  split_ifs
  · rw [Option.bind_some]
    simp [wrapIndexAroundOrigin, h]
  · rfl

/-- `get_exponential_state` raises for all wavepackets: the origin is wrapped in the basis of the wavepacket, a pair, and its third entry is used. -/
theorem C119_exponential_negation (L S : ℕ) (U : List ℕ) (origin : List ℤ) : exponentialState L S U origin = none := by
  unfold exponentialState
  rcases h : wrapIndexChecked [L, S] none origin with _ | o
  · rfl
  · have h2 : o[2]? = none := by
      unfold wrapIndexChecked at h
      split_ifs at h
      cases h
      simp [wrapIndexAroundOrigin]
    rw [Option.bind_some]
    split_ifs
    · rcases o[0]? with _ | a
      · rfl
      · rcases o[1]? with _ | b
        · rfl
        · simp [h2]
    · rcases o[0]? with _ | a
      · rfl
      · rcases o[1]? with _ | b
        · rfl
        · simp [h2]
    · rfl

end Verif
