import Verif.Props.C58_Taylor
import Verif.Spec.Fit
import Mathlib.Analysis.SpecialFunctions.Trigonometric.Chebyshev.Basic
import Mathlib.LinearAlgebra.Lagrange

/-!
C58: the noise operators by a fit of a Chebyshev series reproduce an even kernel.
-/

set_option autoImplicit false

namespace Verif

open Finset Spec Polynomial

/-- Every polynomial is a Chebyshev series of its degree. -/
theorem chebyshev_series : ∀ (n : ℕ) (P : ℂ[X]), P.natDegree ≤ n → ∃ c : ℕ → ℂ, P = ∑ k ∈ range (n + 1), C (c k) * Chebyshev.T ℂ k
  | 0, P, h => ⟨fun _ => P.coeff 0, by
      rw [sum_range_one]
      simp only [Nat.cast_zero, Chebyshev.T_zero, mul_one]
      exact eq_C_of_natDegree_le_zero h⟩
  | n + 1, P, h => by
    obtain ⟨L, hL⟩ : ∃ L, L = (Chebyshev.T ℂ (n + 1 : ℕ)).coeff (n + 1) := ⟨_, rfl⟩
    have hdeg : (Chebyshev.T ℂ ((n + 1 : ℕ) : ℤ)).natDegree = n + 1 := by rw [Chebyshev.natDegree_T, Int.natAbs_natCast]
    have hL0 : L ≠ 0 := by
      rw [hL]
      have : (Chebyshev.T ℂ ((n + 1 : ℕ) : ℤ)).coeff (n + 1) = (Chebyshev.T ℂ ((n + 1 : ℕ) : ℤ)).leadingCoeff := by
        rw [leadingCoeff, hdeg]
      rw [this]
      refine leadingCoeff_ne_zero.2 fun h0 => ?_
      rw [h0, natDegree_zero] at hdeg
      omega
    obtain ⟨Q, hQ⟩ : ∃ Q, Q = P - C (P.coeff (n + 1) / L) * Chebyshev.T ℂ ((n + 1 : ℕ) : ℤ) := ⟨_, rfl⟩
    have hQd : Q.natDegree ≤ n := by
      rw [natDegree_le_iff_coeff_eq_zero]
      intro m hm
      rw [hQ, coeff_sub, coeff_C_mul]
      rcases eq_or_lt_of_le (Nat.succ_le_of_lt hm) with e | e
      · have e' : m = n + 1 := e.symm
        rw [e', ← hL, div_mul_cancel₀ _ hL0, sub_self]
      · rw [coeff_eq_zero_of_natDegree_lt (lt_of_le_of_lt h e), coeff_eq_zero_of_natDegree_lt (lt_of_le_of_lt hdeg.le e), mul_zero, sub_zero]
    obtain ⟨c, hc⟩ := chebyshev_series n Q hQd
    refine ⟨fun k => if k = n + 1 then P.coeff (n + 1) / L else c k, ?_⟩
    rw [sum_range_succ]
    beta_reduce
    rw [if_pos rfl]
    have : ∑ k ∈ range (n + 1), C (if k = n + 1 then P.coeff (n + 1) / L else c k) * Chebyshev.T ℂ (k : ℤ) = Q := by
      rw [hc]
      refine sum_congr rfl fun k hk => ?_
      rw [if_neg (by have := mem_range.1 hk; omega)]
    rw [this, hQ]
    ring

/-- An even function on the periodic grid, at displacements of at most `n`, is a sum of the cosines of the frequencies `0 .. n`. -/
theorem cosine_interpolation (N : ℕ) (hN : 0 < N) (β : ℕ → ℂ) (hβ : ∀ j < N, β ((-(j : ℤ)) % N).toNat = β j) (n : ℕ) :
    ∃ c : ℕ → ℂ, ∀ j < N, |freq N j| ≤ n → β j = ∑ k ∈ range (n + 1), c k * ((Real.cos (k * (j * (2 * Real.pi / N))) : ℝ) : ℂ) := by
  have hN' : (0 : ℝ) < N := by exact_mod_cast hN
  obtain ⟨s, hs⟩ : ∃ s, s = range (min n (N / 2) + 1) := ⟨_, rfl⟩
  obtain ⟨v, hv⟩ : ∃ v : ℕ → ℂ, v = fun d : ℕ => ((Real.cos ((d : ℝ) * (2 * Real.pi / N)) : ℝ) : ℂ) := ⟨_, rfl⟩
  have hinj : Set.InjOn v s := by
    intro a ha b hb hab
    rw [hs, coe_range, Set.mem_Iio] at ha hb
    rw [hv] at hab
    have hc := Complex.ofReal_injective hab
    have hmem : ∀ d : ℕ, d < min n (N / 2) + 1 → (d : ℝ) * (2 * Real.pi / N) ∈ Set.Icc 0 Real.pi := by
      intro d hd
      have hpi := Real.pi_pos
      refine ⟨by positivity, ?_⟩
      have : 2 * d ≤ N := by omega
      have h2 : (2 : ℝ) * d ≤ N := by exact_mod_cast this
      have e : (d : ℝ) * (2 * Real.pi / N) = (2 * d) * Real.pi / N := by ring
      rw [e, div_le_iff₀ hN']
      nlinarith
    have := Real.injOn_cos (hmem a ha) (hmem b hb) hc
    have h2 : (2 * Real.pi / N) ≠ 0 := by have := Real.pi_pos; positivity
    exact_mod_cast mul_right_cancel₀ h2 this
  obtain ⟨P, hP⟩ : ∃ P, P = Lagrange.interpolate s v β := ⟨_, rfl⟩
  have hdeg : P.natDegree ≤ n := by
    have h1 : P.degree < s.card := by rw [hP]; exact Lagrange.degree_interpolate_lt _ hinj
    rw [hs, card_range] at h1
    refine natDegree_le_of_degree_le ?_
    have h2 : ((min n (N / 2) + 1 : ℕ) : WithBot ℕ) ≤ ((n + 1 : ℕ) : WithBot ℕ) := by exact_mod_cast (by omega)
    have h3 := lt_of_lt_of_le h1 h2
    rcases eq_or_ne P 0 with h0 | h0
    · rw [h0, degree_zero]; exact bot_le
    · rw [degree_eq_natDegree h0] at h3 ⊢
      have h4 : P.natDegree < n + 1 := by exact_mod_cast h3
      exact_mod_cast (Nat.lt_succ_iff.1 h4)
  obtain ⟨c, hc⟩ := chebyshev_series n P hdeg
  refine ⟨c, fun j hj hf => ?_⟩
  -- the node at the same cosine
  obtain ⟨d, hd, hdβ, hdc⟩ : ∃ d : ℕ, d < min n (N / 2) + 1 ∧ β j = β d ∧
      ∀ k : ℕ, Real.cos (k * (j * (2 * Real.pi / N))) = Real.cos (k * (d * (2 * Real.pi / N))) := by
    unfold freq at hf
    split_ifs at hf with h
    · refine ⟨j, ?_, rfl, fun _ => rfl⟩
      rw [Nat.abs_cast] at hf
      omega
    · have hlt : N - j < N := by omega
      refine ⟨N - j, ?_, ?_, fun k => ?_⟩
      · rw [abs_of_nonpos (by omega)] at hf
        omega
      · have := hβ j hj
        rw [← this]
        congr 1
        have e : (-(j : ℤ)) % N = ((N - j : ℕ) : ℤ) := by
          have e2 : -(j : ℤ) = ((N - j : ℕ) : ℤ) - N * 1 := by omega
          rw [e2, Int.sub_mul_emod_self_left, Int.emod_eq_of_lt (by positivity) (by exact_mod_cast hlt)]
        rw [e, Int.toNat_natCast]
      · have e : (k : ℝ) * (j * (2 * Real.pi / N)) = (k : ℕ) * (2 * Real.pi) - k * (((N - j : ℕ) : ℝ) * (2 * Real.pi / N)) := by
          rw [Nat.cast_sub hj.le]
          field_simp
          ring
        rw [e, Real.cos_nat_mul_two_pi_sub]
  have hev : eval (v d) P = β d := by
    rw [hP]
    exact Lagrange.eval_interpolate_at_node _ hinj (by rw [hs]; exact mem_range.2 hd)
  rw [hdβ, ← hev, hc, eval_finsetSum]
  refine sum_congr rfl fun k _ => ?_
  rw [eval_mul, eval_C, hdc, hv]
  dsimp only
  rw [Complex.ofReal_cos, Complex.ofReal_cos, Chebyshev.T_complex_cos]
  push_cast
  rfl

theorem fit_weight (n N j : ℕ) (hj : j < N) : pad1 (2 * n + 1) N (fun _ => (1 : ℝ)) j = if |freq N j| ≤ n then 1 else 0 := by
  rw [pad1_eq _ _ _ hj]
  have : OnGrid (2 * n + 1) (freq N j) ↔ |freq N j| ≤ n := by
    unfold OnGrid
    rw [abs_le]
    push_cast
    constructor <;> rintro ⟨h1, h2⟩ <;> constructor <;> omega
  simp only [this]

/-- The fitted series passes through the values which have a weight. -/
theorem fit_exact (N : ℕ) (hN : 0 < N) (β : ℕ → ℂ) (hβ : ∀ j < N, β ((-(j : ℤ)) % N).toNat = β j) (n : ℕ) (c : ℕ → ℂ)
    (hc : IsChebyshevFit N (fun j => Real.cos (j * (2 * Real.pi / N))) β n (pad1 (2 * n + 1) N fun _ => 1) c) (j : ℕ) (hj : j < N)
    (hf : |freq N j| ≤ n) : β j = ∑ k ∈ range (n + 1), c k * ((Real.cos (k * (j * (2 * Real.pi / N))) : ℝ) : ℂ) := by
  have hT : ∀ (c : ℕ → ℂ) (j : ℕ), ∑ k ∈ range (n + 1), c k * (((Chebyshev.T ℝ k).eval (Real.cos (j * (2 * Real.pi / N))) : ℝ) : ℂ) =
      ∑ k ∈ range (n + 1), c k * ((Real.cos (k * (j * (2 * Real.pi / N))) : ℝ) : ℂ) := by
    intro c j
    refine sum_congr rfl fun k _ => ?_
    rw [Chebyshev.T_real_cos]
    norm_cast
  obtain ⟨c', hc'⟩ := cosine_interpolation N hN β hβ n
  have h0 : chebyshevResidual N (fun j => Real.cos (j * (2 * Real.pi / N))) β n (pad1 (2 * n + 1) N fun _ => 1) c' = 0 := by
    refine sum_eq_zero fun j hj => ?_
    have hj := mem_range.1 hj
    dsimp only
    rw [hT, fit_weight n N j hj]
    split_ifs with h
    · rw [← hc' j hj h, sub_self]; simp
    · simp
  have h1 := (hc c').trans h0.le
  have h2 : chebyshevResidual N (fun j => Real.cos (j * (2 * Real.pi / N))) β n (pad1 (2 * n + 1) N fun _ => 1) c = 0 :=
    le_antisymm h1 (sum_nonneg fun _ _ => by positivity)
  have h3 := (sum_eq_zero_iff_of_nonneg fun _ _ => by positivity).1 h2 j (mem_range.2 hj)
  dsimp only at h3
  rw [hT, fit_weight n N j hj, if_pos hf, Complex.ofReal_one, one_mul, pow_eq_zero_iff two_ne_zero, norm_eq_zero] at h3
  exact sub_eq_zero.1 h3

/-- **C58.** The operators by the fit of a Chebyshev series: for an even kernel, the kernel which they make is the given one at
all displacements of at most `n` points; with the default `n` at all displacements. -/
theorem C58_fit (fit : ℕ → (ℕ → ℝ) → (ℕ → ℂ) → ℕ → (ℕ → ℝ) → ℕ → ℂ) (N : ℕ) (hN : 0 < N) (β : ℕ → ℂ)
    (hβ : ∀ j < N, β ((-(j : ℤ)) % N).toNat = β j) (n : Option ℕ)
    (hfit : ∀ x y deg w, (∃ c, IsChebyshevFit N x y deg w c) → IsChebyshevFit N x y deg w (fit N x y deg w)) :
    ∃ ops K, fittedTaylor fit N β n = some ops ∧ getDiagonalKernel ops = some K ∧ ∀ i < N, ∀ j < N,
      (∀ m, n = some m → ∃ q : ℤ, |(i : ℤ) - j - q * N| ≤ m) → K (i * N + j) = β (((i : ℤ) - j) % N).toNat := by
  obtain ⟨m, hm⟩ : ∃ m, m = n.getD ((N + 1) / 2) := ⟨_, rfl⟩
  obtain ⟨c, hc⟩ : ∃ c, c = fit N (fun j : ℕ => Real.cos ((j : ℝ) * (2 * Real.pi / (N : ℝ)))) β m (pad1 (2 * m + 1) N fun _ => (1 : ℝ)) := ⟨_, rfl⟩
  have hcfit : IsChebyshevFit N (fun j => Real.cos (j * (2 * Real.pi / N))) β m (pad1 (2 * m + 1) N fun _ => 1) c := by
    rw [hc]
    apply hfit
    obtain ⟨c', hc'⟩ := cosine_interpolation N hN β hβ m
    refine ⟨c', fun c'' => le_trans (le_of_eq ?_) (sum_nonneg fun _ _ => by positivity)⟩
    refine sum_eq_zero fun j hj => ?_
    have hj := mem_range.1 hj
    dsimp only
    rw [fit_weight m N j hj]
    split_ifs with h
    · have hT : ∑ k ∈ range (m + 1), c' k * (((Chebyshev.T ℝ k).eval (Real.cos (j * (2 * Real.pi / N))) : ℝ) : ℂ) = β j := by
        rw [hc' j hj h]
        refine sum_congr rfl fun k _ => ?_
        rw [Chebyshev.T_real_cos]
        norm_cast
      rw [hT, sub_self]; simp
    · simp
  obtain ⟨o, ho, hcount, K, hK, hv⟩ := C58_cos N hN (m + 1) (by omega) true c (fun a => mirrored (m + 1) c a * (N : ℂ))
    (fun a ha => by rw [mirrored, if_pos ha])
    (fun a h1 h2 => by
      rw [mirrored, if_neg (by omega)]
      have : m + 1 - 1 - (2 * (m + 1) - 1 - a - (m + 1)) = a := by omega
      rw [this])
  refine ⟨⟨o.1, N, o.2, m + 1 + m, fun a => mirrored (m + 1) c a * (N : ℂ)⟩, K, ?_, ?_, fun i hi j hj hij => ?_⟩
  · unfold fittedTaylor
    dsimp only
    rw [← hm, ← hc, ho]
    rfl
  · have : m + 1 + m = 2 * (m + 1) - 1 := by omega
    rw [this]
    exact hK
  · obtain ⟨r, hr⟩ : ∃ r, r = (((i : ℤ) - j) % N).toNat := ⟨_, rfl⟩
    have hrN : r < N := by rw [hr]; exact toNat_emod_lt hN _
    have hrz : (r : ℤ) = ((i : ℤ) - j) % N := by rw [hr]; exact toNat_emod_cast hN _
    have hfreq : |freq N r| ≤ m := by
      have hb : |freq N r| ≤ N / 2 := by
        unfold freq
        split_ifs with h
        · rw [Nat.abs_cast]; omega
        · rw [abs_of_nonpos (by omega)]; omega
      rcases n with _ | m'
      · rw [Option.getD_none] at hm
        omega
      · rw [Option.getD_some] at hm
        obtain ⟨q, hq⟩ := hij m' rfl
        rw [← hm] at hq
        refine le_trans ?_ hq
        -- the centred residue is the shortest
        obtain ⟨p, hp⟩ : ∃ p : ℤ, (i : ℤ) - j = freq N r + N * p := by
          have h1 : (i : ℤ) - j = r + N * (((i : ℤ) - j) / N) := by rw [hrz]; exact (Int.emod_add_mul_ediv _ _).symm
          unfold freq
          split_ifs
          · exact ⟨_, h1⟩
          · exact ⟨((i : ℤ) - j) / N + 1, by rw [mul_add]; omega⟩
        have hz : (i : ℤ) - j - q * N = freq N r + N * (p - q) := by rw [hp]; ring
        rw [hz]
        generalize hw : p - q = w
        obtain ⟨g1, g2⟩ := freq_onGrid hrN
        rcases lt_trichotomy w 0 with h | h | h
        · have : (N : ℤ) * w ≤ -N := by nlinarith
          rw [abs_of_nonpos (show freq N r + N * w ≤ 0 by omega)]
          rcases abs_cases (freq N r) with ⟨e, -⟩ | ⟨e, -⟩ <;> omega
        · rw [h, mul_zero, add_zero]
        · have : (N : ℤ) ≤ N * w := by nlinarith
          rw [abs_of_nonneg (show 0 ≤ freq N r + N * w by omega)]
          rcases abs_cases (freq N r) with ⟨e, -⟩ | ⟨e, -⟩ <;> omega
    rw [hv i hi j hj, ← hr, fit_exact N hN β hβ m c hcfit r hrN hfreq]
    refine sum_congr rfl fun k _ => ?_
    congr 2
    have hmod : (r : ℤ) ≡ (i : ℤ) - j [ZMOD N] := by rw [hrz]; exact Int.mod_modEq _ _
    have := cos_congr_mod hN k hmod
    push_cast at this ⊢
    exact this.symm

/-- The contract of the fit can be met, and there are even kernels. -/
example : ∃ fit : ℕ → (ℕ → ℝ) → (ℕ → ℂ) → ℕ → (ℕ → ℝ) → ℕ → ℂ,
    ∀ N x y deg w, (∃ c, IsChebyshevFit N x y deg w c) → IsChebyshevFit N x y deg w (fit N x y deg w) := by
  classical
  refine ⟨fun N x y deg w => if h : ∃ c, IsChebyshevFit N x y deg w c then h.choose else 0, fun N x y deg w h => ?_⟩
  dsimp only
  rw [dif_pos h]
  exact h.choose_spec

example : ∀ j : ℕ, j < 4 → (fun j : ℕ => ((j * (4 - j) : ℕ) : ℂ)) ((-(j : ℤ)) % (4 : ℕ)).toNat = (fun j : ℕ => ((j * (4 - j) : ℕ) : ℂ)) j := by
  intro j hj
  obtain rfl | rfl | rfl | rfl : j = 0 ∨ j = 1 ∨ j = 2 ∨ j = 3 := by omega
  · rfl
  · show ((3 * (4 - 3) : ℕ) : ℂ) = ((1 * (4 - 1) : ℕ) : ℂ); norm_num
  · rfl
  · show ((1 * (4 - 1) : ℕ) : ℂ) = ((3 * (4 - 3) : ℕ) : ℂ); norm_num

end Verif
