import Verif.Model.KernelTaylor
import Verif.Props.C57_KernelFftStacked
import Mathlib.LinearAlgebra.Vandermonde
import Mathlib.Analysis.Calculus.IteratedDeriv.Lemmas
import Mathlib.Analysis.SpecialFunctions.Trigonometric.Deriv

/-!
C58: cosines and sines as noise operators, and Taylor expansions of kernels in them. C59: the real Fourier operators.
-/

set_option autoImplicit false

namespace Verif

open Finset Spec

/-! ## Cosines and sines -/

theorem realOperators_some {n : ℕ} {f N : Option ℕ} {check : Bool} {o : ℕ × (ℕ → ℂ)}
    (h : realIsotropicOperators n f N check = some o) :
    o.1 = f.getD (N.getD n / 2) + (f.getD (N.getD n / 2) - 1) ∧ ∀ a, ∀ m < n, o.2 (a * n + m) =
      ((if a < f.getD (N.getD n / 2) then Real.cos ((a : ℝ) * ((nkPoints n m : ℤ) : ℝ) * (2 * Real.pi / (N.getD n : ℕ)))
        else Real.sin (((f.getD (N.getD n / 2) - 1 - (a - f.getD (N.getD n / 2)) : ℕ) : ℝ) * ((nkPoints n m : ℤ) : ℝ) *
          (2 * Real.pi / (N.getD n : ℕ))) : ℝ) : ℂ) / ((Real.sqrt n : ℝ) : ℂ) := by
  unfold realIsotropicOperators at h
  dsimp only at h
  split_ifs at h
  obtain rfl := Option.some.inj h
  refine ⟨rfl, fun a m hm => ?_⟩
  dsimp only
  rw [flatten_entry _ _ hm]

theorem real_kernel_sum (f : ℕ) (hf : 0 < f) (n : ℂ) (hn : n ≠ 0) (e c : ℕ → ℂ) (x y : ℝ) (s : ℝ) (hs : (s : ℂ) * (s : ℂ) = n)
    (h1 : ∀ a < f, e a = c a * n) (h2 : ∀ a, 1 ≤ a → a < f → e (2 * f - 1 - a) = c a * n) :
    ∑ a ∈ range (f + (f - 1)), e a *
      (starRingEnd ℂ) (((if a < f then Real.cos (a * x) else Real.sin (((f - 1 - (a - f) : ℕ) : ℝ) * x) : ℝ) : ℂ) / (s : ℂ)) *
      (((if a < f then Real.cos (a * y) else Real.sin (((f - 1 - (a - f) : ℕ) : ℝ) * y) : ℝ) : ℂ) / (s : ℂ)) =
      ∑ k ∈ range f, c k * ((Real.cos (k * (x - y)) : ℝ) : ℂ) := by
  have hs0 : (s : ℂ) ≠ 0 := fun h => hn (by rw [← hs, h, mul_zero])
  obtain ⟨g, rfl⟩ : ∃ g, f = g + 1 := ⟨f - 1, by omega⟩
  rw [sum_range_add]
  have e1 : ∀ a ∈ range (g + 1), e a *
      (starRingEnd ℂ) (((if a < g + 1 then Real.cos (a * x) else Real.sin (((g + 1 - 1 - (a - (g + 1)) : ℕ) : ℝ) * x) : ℝ) : ℂ) / (s : ℂ)) *
      (((if a < g + 1 then Real.cos (a * y) else Real.sin (((g + 1 - 1 - (a - (g + 1)) : ℕ) : ℝ) * y) : ℝ) : ℂ) / (s : ℂ)) =
      c a * ((Real.cos (a * x) : ℝ) : ℂ) * ((Real.cos (a * y) : ℝ) : ℂ) := by
    intro a ha
    have ha' := mem_range.1 ha
    rw [if_pos ha', if_pos ha', h1 a ha', map_div₀, Complex.conj_ofReal, Complex.conj_ofReal, ← hs]
    field_simp
  have e2 : ∀ b ∈ range g, e (g + 1 + b) *
      (starRingEnd ℂ) (((if g + 1 + b < g + 1 then Real.cos ((g + 1 + b : ℕ) * x) else Real.sin (((g + 1 - 1 - (g + 1 + b - (g + 1)) : ℕ) : ℝ) * x) : ℝ) : ℂ) / (s : ℂ)) *
      (((if g + 1 + b < g + 1 then Real.cos ((g + 1 + b : ℕ) * y) else Real.sin (((g + 1 - 1 - (g + 1 + b - (g + 1)) : ℕ) : ℝ) * y) : ℝ) : ℂ) / (s : ℂ)) =
      (fun k => c (k + 1) * ((Real.sin ((k + 1 : ℕ) * x) : ℝ) : ℂ) * ((Real.sin ((k + 1 : ℕ) * y) : ℝ) : ℂ)) (g - 1 - b) := by
    intro b hb
    have hb' := mem_range.1 hb
    have i1 : g + 1 - 1 - (g + 1 + b - (g + 1)) = g - b := by omega
    have i2 : g - 1 - b + 1 = g - b := by omega
    have i3 : g + 1 + b = 2 * (g + 1) - 1 - (g - b) := by omega
    have i4 : ¬ g + 1 + b < g + 1 := by omega
    rw [if_neg i4, if_neg i4, i1]
    beta_reduce
    rw [i2, i3, h2 (g - b) (by omega) (by omega), map_div₀, Complex.conj_ofReal, Complex.conj_ofReal, ← hs]
    field_simp
  rw [sum_congr rfl e1, sum_congr (s₁ := range (g + 1 - 1)) rfl e2]
  rw [show g + 1 - 1 = g from rfl, sum_range_reflect (fun k => c (k + 1) * ((Real.sin ((k + 1 : ℕ) * x) : ℝ) : ℂ) * ((Real.sin ((k + 1 : ℕ) * y) : ℝ) : ℂ)) g]
  rw [sum_range_succ', sum_range_succ' (fun k => c k * ((Real.cos (k * (x - y)) : ℝ) : ℂ))]
  have e3 : ∀ A B C : ℂ, A + B + C = (A + C) + B := fun A B C => by ring
  rw [e3, ← sum_add_distrib]
  congr 1
  · refine sum_congr rfl fun k _ => ?_
    rw [mul_sub, Real.cos_sub]
    push_cast
    ring
  · simp

theorem cos_congr_mod {n : ℕ} (hn : 0 < n) (k : ℕ) {z w : ℤ} (h : z ≡ w [ZMOD n]) :
    Real.cos (k * (z * (2 * Real.pi / (n : ℕ)))) = Real.cos (k * (2 * Real.pi * w / n)) := by
  obtain ⟨q, hq⟩ := h.dvd
  have hw : (w : ℝ) = z + n * q := by
    have : w = z + n * q := by linarith
    rw [this]; push_cast; ring
  have hn' : (n : ℝ) ≠ 0 := by exact_mod_cast hn.ne'
  have e : (k : ℝ) * (2 * Real.pi * w / n) = k * (z * (2 * Real.pi / (n : ℕ))) + ((k * q : ℤ) : ℝ) * (2 * Real.pi) := by
    rw [hw]; push_cast; field_simp
  rw [e, Real.cos_add_int_mul_two_pi]

/-- **C58.** The operators `cos(k x)`, `sin(k x)` with equal coefficients `c k` for the cosine and the sine of each frequency
produce the kernel `∑ c k cos(k (x - x'))` on the periodic grid. -/
theorem C58_cos (n : ℕ) (hn : 0 < n) (f : ℕ) (hf : 0 < f) (check : Bool) (c e : ℕ → ℂ)
    (h1 : ∀ a < f, e a = c a * n) (h2 : ∀ a, 1 ≤ a → a < f → e (2 * f - 1 - a) = c a * n) :
    ∃ o, realIsotropicOperators n (some f) none check = some o ∧ o.1 = 2 * f - 1 ∧
      ∃ K, getDiagonalKernel ⟨o.1, n, o.2, 2 * f - 1, e⟩ = some K ∧ ∀ i < n, ∀ j < n,
        K (i * n + j) = ∑ k ∈ range f, c k * ((Real.cos (k * (2 * Real.pi * ((i : ℝ) - j) / n)) : ℝ) : ℂ) := by
  obtain ⟨o, ho⟩ : ∃ o, realIsotropicOperators n (some f) none check = some o := by
    unfold realIsotropicOperators periodicSample
    simp [hn]
  obtain ⟨hc, hd⟩ := realOperators_some ho
  simp only [Option.getD_some, Option.getD_none] at hc hd
  have hc' : o.1 = 2 * f - 1 := by omega
  refine ⟨o, ho, hc', ?_⟩
  obtain ⟨K, hK, hv⟩ := getDiagonalKernel_entries ⟨o.1, n, o.2, 2 * f - 1, e⟩ hc'.symm
  refine ⟨K, hK, fun i hi j hj => ?_⟩
  have hnc : (n : ℂ) ≠ 0 := by exact_mod_cast hn.ne'
  refine (hv i j hj).trans ?_
  unfold noiseKernel
  have key := real_kernel_sum f hf (n : ℂ) hnc e c (((nkPoints n i : ℤ) : ℝ) * (2 * Real.pi / (n : ℕ)))
    (((nkPoints n j : ℤ) : ℝ) * (2 * Real.pi / (n : ℕ))) (Real.sqrt n) sqrt_mul_self' h1 h2
  refine Eq.trans ?_ (key.trans ?_)
  · dsimp only
    rw [hc]
    refine sum_congr rfl fun a _ => ?_
    rw [hd a i hi, hd a j hj, mul_assoc (a : ℝ), mul_assoc (a : ℝ), mul_assoc _ ((nkPoints n i : ℤ) : ℝ),
      mul_assoc _ ((nkPoints n j : ℤ) : ℝ)]
  · refine sum_congr rfl fun k _ => ?_
    rw [← sub_mul]
    have hm : nkPoints n i - nkPoints n j ≡ (i : ℤ) - j [ZMOD n] :=
      Int.ModEq.sub (nkPoints_emod hi dvd_rfl) (nkPoints_emod hj dvd_rfl)
    have := cos_congr_mod hn k hm
    rw [Int.cast_sub, Int.cast_sub, Int.cast_natCast, Int.cast_natCast] at this
    rw [this]

/-- Coefficients of that form: three frequencies, five eigenvalues. -/
example : ∃ c e : ℕ → ℂ, (∀ a < 3, e a = c a * (8 : ℕ)) ∧ (∀ a, 1 ≤ a → a < 3 → e (2 * 3 - 1 - a) = c a * (8 : ℕ)) ∧ c 1 ≠ c 2 := by
  refine ⟨fun a => a, mirrored 3 fun a => (a : ℂ) * 8, ?_, ?_, by norm_num⟩
  · intro a ha
    simp [mirrored, ha]
  · intro a h1 h2
    have : a = 1 ∨ a = 2 := by omega
    rcases this with rfl | rfl <;> simp [mirrored]

/-! ## The explicit Taylor expansion -/

theorem cosMatrix_det (k : ℕ) : (cosMatrix k).det ≠ 0 := by
  have e : cosMatrix k = Matrix.diagonal (fun m : Fin k => (-1 : ℝ) ^ (m : ℕ) / ((2 * (m : ℕ)).factorial : ℝ)) *
      (Matrix.vandermonde fun i : Fin k => ((i : ℕ) : ℝ) ^ 2).transpose := by
    ext m i
    rw [Matrix.diagonal_mul, Matrix.transpose_apply, Matrix.vandermonde_apply, cosMatrix, Matrix.of_apply, ← pow_mul]
  rw [e, Matrix.det_mul, Matrix.det_diagonal, Matrix.det_transpose]
  refine mul_ne_zero (prod_ne_zero_iff.2 fun m _ => div_ne_zero (pow_ne_zero _ (by norm_num)) (by positivity)) ?_
  rw [Matrix.det_vandermonde_ne_zero_iff]
  intro a b hab
  have : ((a : ℕ) : ℝ) = (b : ℕ) := by
    have ha : (0 : ℝ) ≤ (a : ℕ) := by positivity
    have hb : (0 : ℝ) ≤ (b : ℕ) := by positivity
    exact (pow_left_inj₀ ha hb two_ne_zero).1 hab
  exact Fin.ext (by exact_mod_cast this)

/-- The number of coefficients which are used is the number asked for, if none of them is negligible. -/
theorem lt_nonzeroTerms {size : ℕ} {p : ℕ → ℝ} {t m : ℕ} (hm : m < t) (hms : m < size)
    (h : ∀ m' ≤ m, ∀ q < size, 1e-8 * p q < |p m'|) : m < nonzeroTerms size p t := by
  unfold nonzeroTerms
  refine lt_min ?_ hm
  have hmax : ∃ q < size, arrayMax size p = p q := by
    unfold arrayMax
    have : ∀ (l : List ℕ) (q : ℕ), (∃ q' ∈ q :: l, (l.map p).foldl max (p q) = p q') := by
      intro l
      induction l with
      | nil => intro q; exact ⟨q, by simp, rfl⟩
      | cons a l ih =>
        intro q
        rw [List.map_cons, List.foldl_cons]
        rcases max_choice (p q) (p a) with h | h
        · rw [h]
          obtain ⟨q', hq', e⟩ := ih q
          exact ⟨q', by rcases List.mem_cons.1 hq' with h | h <;> simp [h], e⟩
        · rw [h]
          obtain ⟨q', hq', e⟩ := ih a
          exact ⟨q', List.mem_cons_of_mem _ hq', e⟩
    obtain ⟨q, hq, e⟩ := this (List.range size) 0
    refine ⟨q, ?_, e⟩
    rcases List.mem_cons.1 hq with rfl | hq
    · omega
    · exact List.mem_range.1 hq
  obtain ⟨q, hq, hmq⟩ := hmax
  by_contra hlt
  rw [not_lt] at hlt
  have hlen : (List.range size).findIdx (fun m => decide (|p m| ≤ 1e-8 * arrayMax size p)) < (List.range size).length := by
    rw [List.length_range]; omega
  have := List.findIdx_getElem (w := hlen)
  rw [List.getElem_range, decide_eq_true_eq] at this
  have h2 := h _ hlt q hq
  rw [← hmq] at h2
  exact absurd this (not_le.2 h2)

/-- The equations which the coefficients of the cosines solve. -/
theorem cosCoefficients_solve (size : ℕ) (p : ℕ → ℝ) (m : ℕ) (hm : m < nonzeroTerms size p size) (f : ℕ) (hf : nonzeroTerms size p size ≤ f) :
    ∑ i ∈ range f, cosCoefficients size p none i * ((-1) ^ m / ((2 * m).factorial : ℝ) * (i : ℝ) ^ (2 * m)) = p m := by
  obtain ⟨k, hk⟩ : ∃ k, k = nonzeroTerms size p size := ⟨_, rfl⟩
  rw [← hk] at hm hf
  have hsub : range k ⊆ range f := range_subset_range.2 hf
  have hc : ∀ i, cosCoefficients size p none i = if h : i < k then ((cosMatrix k)⁻¹.mulVec fun m => p m) ⟨i, h⟩ else 0 := by
    intro i
    unfold cosCoefficients
    simp only [Option.getD_none]
    rw [hk]
  rw [← sum_subset hsub fun i _ hi => by rw [hc i, dif_neg (by simpa using hi), zero_mul]]
  have hsol : (cosMatrix k).mulVec ((cosMatrix k)⁻¹.mulVec fun m => p m) = fun m : Fin k => p m := by
    rw [Matrix.mulVec_mulVec, Matrix.mul_nonsing_inv _ (isUnit_iff_ne_zero.2 (cosMatrix_det k)), Matrix.one_mulVec]
  have := congrFun hsol ⟨m, hm⟩
  dsimp only [Matrix.mulVec, dotProduct] at this
  rw [← this, ← Fin.sum_univ_eq_sum_range (fun i => cosCoefficients size p none i * ((-1) ^ m / ((2 * m).factorial : ℝ) * (i : ℝ) ^ (2 * m))) k]
  refine Fintype.sum_congr _ _ fun i => ?_
  rw [hc i, dif_pos i.2, mul_comm]
  rfl

theorem contDiff_cos_mul (k : ℝ) : ContDiff ℝ ⊤ fun x : ℝ => Real.cos (k * x) := Real.contDiff_cos.comp (contDiff_const.mul contDiff_id)

theorem iteratedDeriv_cos_sum (f : ℕ) (c : ℕ → ℝ) (r : ℕ) (x : ℝ) :
    iteratedDeriv r (fun x => ∑ k ∈ range f, c k * Real.cos (k * x)) x =
      ∑ k ∈ range f, c k * ((k : ℝ) ^ r * iteratedDeriv r Real.cos (k * x)) := by
  have h : ∀ k : ℕ, ContDiff ℝ r fun x : ℝ => c k * Real.cos (k * x) := fun k =>
    contDiff_const.mul ((contDiff_cos_mul k).of_le (by exact_mod_cast le_top))
  rw [iteratedDeriv_fun_sum fun k _ => (h k).contDiffAt]
  refine sum_congr rfl fun k _ => ?_
  rw [iteratedDeriv_const_mul_field, iteratedDeriv_comp_const_mul (Real.contDiff_cos.of_le (by exact_mod_cast le_top))]

/-- **C58.** The operators of the explicit Taylor expansion, with as many terms as coefficients, produce a kernel `g(x - x')` on the
periodic grid, where `g` has no odd derivatives at the origin, and the Taylor coefficients of `g` in `x ^ 2` are the given ones as
far as none of them is negligible (smaller than the fraction `1e-8` of the largest). -/
theorem C58_taylor (n : ℕ) (hn : 0 < n) (size : ℕ) (hsize : 0 < size) (p : ℕ → ℝ) :
    ∃ ops K, ∃ g : ℝ → ℝ, explicitTaylor n size p (some size) = some ops ∧ getDiagonalKernel ops = some K ∧
      (∀ i < n, ∀ j < n, K (i * n + j) = ((g (2 * Real.pi * ((i : ℝ) - j) / n) : ℝ) : ℂ)) ∧
      (∀ m < size, (∀ m' ≤ m, ∀ q < size, 1e-8 * p q < |p m'|) → iteratedDeriv (2 * m) g 0 = ((2 * m).factorial : ℝ) * p m) ∧
      (∀ m, iteratedDeriv (2 * m + 1) g 0 = 0) ∧ (∀ r : ℕ, ContDiff ℝ r g) ∧ ops.dim = n ∧ ops.count = ops.values := by
  obtain ⟨o, ho, hc, K, hK, hv⟩ := C58_cos n hn size hsize true (fun a => ((cosCoefficients size p none a : ℝ) : ℂ))
    (fun a => ((mirrored size (cosCoefficients size p none) a * n : ℝ) : ℂ))
    (fun a ha => by rw [mirrored, if_pos ha]; push_cast; ring)
    (fun a h1 h2 => by
      rw [mirrored, if_neg (by omega)]
      have : size - 1 - (2 * size - 1 - a - size) = a := by omega
      rw [this]; push_cast; ring)
  refine ⟨⟨o.1, n, o.2, size + (size - 1), fun a => ((mirrored size (cosCoefficients size p none) a * n : ℝ) : ℂ)⟩, K, fun x => ∑ k ∈ range size, cosCoefficients size p none k * Real.cos (k * x), ?_, ?_, ?_, ?_, ?_, ?_, rfl, by show o.1 = size + (size - 1); omega⟩
  · unfold explicitTaylor
    rw [Option.getD_some, ho]
    rfl
  · have : size + (size - 1) = 2 * size - 1 := by omega
    rw [this]
    exact hK
  · intro i hi j hj
    rw [hv i hi j hj]
    push_cast
    rfl
  · intro m hm hp
    have hlt := lt_nonzeroTerms hm hm hp
    have hle : nonzeroTerms size p size ≤ size := min_le_right _ _
    rw [iteratedDeriv_cos_sum, ← cosCoefficients_solve size p m hlt size hle, mul_sum]
    refine sum_congr rfl fun k _ => ?_
    rw [Real.iteratedDeriv_even_cos]
    have hfac : ((2 * m).factorial : ℝ) ≠ 0 := by positivity
    have : ((-1 : ℝ → ℝ) ^ m * Real.cos) ((k : ℝ) * 0) = (-1) ^ m := by simp
    rw [this]
    field_simp
  · intro m
    rw [iteratedDeriv_cos_sum]
    refine sum_eq_zero fun k _ => ?_
    rw [Real.iteratedDeriv_odd_cos]
    simp
  · intro r
    exact ContDiff.sum fun k _ => contDiff_const.mul ((contDiff_cos_mul k).of_le (by exact_mod_cast le_top))

/-- Coefficients none of which is negligible. -/
example : ∀ m' ≤ 1, ∀ q < 2, (1e-8 : ℝ) * (fun m : ℕ => if m = 0 then (3 : ℝ) else -1) q < |(fun m : ℕ => if m = 0 then (3 : ℝ) else -1) m'| := by
  intro m' h1 q h2
  have a : m' = 0 ∨ m' = 1 := by omega
  have b : q = 0 ∨ q = 1 := by omega
  rcases a with rfl | rfl <;> rcases b with rfl | rfl <;> norm_num

/-- C58 is false for the code when the number of terms is not the number of coefficients: then there are `2 n_terms - 1` operators
and `2 size - 1` eigenvalues, and the kernel cannot be computed. -/
theorem C58_terms_negation (n : ℕ) (hn : 0 < n) (size t : ℕ) (hs : 1 < size) (ht : 1 < t) (hne : size ≠ t) (p : ℕ → ℝ) :
    ∃ ops, explicitTaylor n size p (some t) = some ops ∧ ops.count = 2 * t - 1 ∧ ops.values = 2 * size - 1 ∧
      getDiagonalKernel ops = none := by
  obtain ⟨o, ho, hc, -⟩ := C58_cos n hn t (by omega) true (fun _ => 0) (fun _ => 0) (by simp) (by simp)
  refine ⟨⟨o.1, n, o.2, size + (size - 1), fun a => ((mirrored size (cosCoefficients size p none) a * n : ℝ) : ℂ)⟩, ?_, hc, ?_, ?_⟩
  · unfold explicitTaylor
    rw [Option.getD_some, ho]
    rfl
  · show size + (size - 1) = _
    omega
  · unfold getDiagonalKernel einsumLength
    dsimp only
    rw [hc, if_neg (by omega), if_neg (by omega), if_neg (by omega)]
    rfl

/-! ## The linear operators -/

/-- The kernel of the linear operators: the coefficients of the powers of the *product* of the two positions, each measured from
the middle of the grid in units in which the cell has the length `2 π`. -/
theorem C58_linear_kernel (n size : ℕ) (p : ℕ → ℝ) :
    ∃ K, getDiagonalKernel (linearTaylor n size p (some size)) = some K ∧ ∀ i < n, ∀ j < n, ∃ x y : ℤ,
      x ≡ (n / 2 : ℕ) - i [ZMOD n] ∧ y ≡ (n / 2 : ℕ) - j [ZMOD n] ∧ -(n : ℤ) ≤ 2 * x ∧ 2 * x < n ∧ -(n : ℤ) ≤ 2 * y ∧ 2 * y < n ∧
      K (i * n + j) = ((∑ t ∈ range size, p t * ((2 * Real.pi * x / n) * (2 * Real.pi * y / n)) ^ t : ℝ) : ℂ) := by
  obtain ⟨K, hK, hv⟩ := getDiagonalKernel_entries (linearTaylor n size p (some size)) rfl
  refine ⟨K, hK, fun i hi j hj => ⟨displacementNx n (n / 2) i, displacementNx n (n / 2) j, ?_, ?_, ?_, ?_, ?_, ?_, ?_⟩⟩
  · unfold displacementNx
    have := (Int.mod_modEq (((n / 2 : ℕ) : ℤ) - i + (n / 2 : ℕ)) n).sub_right ((n / 2 : ℕ) : ℤ)
    rwa [add_sub_cancel_right] at this
  · unfold displacementNx
    have := (Int.mod_modEq (((n / 2 : ℕ) : ℤ) - j + (n / 2 : ℕ)) n).sub_right ((n / 2 : ℕ) : ℤ)
    rwa [add_sub_cancel_right] at this
  all_goals try
    unfold displacementNx
    have h1 := fun z => Int.emod_nonneg z (show (n : ℤ) ≠ 0 by omega)
    have h2 := fun z => Int.emod_lt_of_pos z (show (0 : ℤ) < n by omega)
    first
      | (have a1 := h1 (((n / 2 : ℕ) : ℤ) - i + (n / 2 : ℕ)); have a2 := h2 (((n / 2 : ℕ) : ℤ) - i + (n / 2 : ℕ)); omega)
      | (have a1 := h1 (((n / 2 : ℕ) : ℤ) - j + (n / 2 : ℕ)); have a2 := h2 (((n / 2 : ℕ) : ℤ) - j + (n / 2 : ℕ)); omega)
  refine (hv i j hj).trans ?_
  rw [Complex.ofReal_sum]
  refine sum_congr rfl fun t _ => ?_
  show ((p t : ℝ) : ℂ) * (starRingEnd ℂ) (flatten n (fun t j => (((2 * Real.pi * (displacementNx n (n / 2) j : ℝ) / (n : ℝ)) ^ t : ℝ) : ℂ)) (t * n + i)) *
    flatten n (fun t j => (((2 * Real.pi * (displacementNx n (n / 2) j : ℝ) / (n : ℝ)) ^ t : ℝ) : ℂ)) (t * n + j) = _
  rw [flatten_entry _ _ hi, flatten_entry _ _ hj, Complex.conj_ofReal, mul_pow]
  push_cast
  ring

/-- C58 is false for the linear operators: the kernel is not a function of `x - x'`. With the single coefficient of the first
power on three points the kernel vanishes at the middle of the grid, and not at the first point. -/
theorem C58_linear_negation : ∃ (n size : ℕ) (p : ℕ → ℝ) (K : ℕ → ℂ), getDiagonalKernel (linearTaylor n size p (some size)) = some K ∧
    1 < n ∧ K (1 * n + 1) = 0 ∧ K (0 * n + 0) ≠ 0 := by
  obtain ⟨K, hK, hv⟩ := C58_linear_kernel 3 2 fun t => if t = 1 then 1 else 0
  refine ⟨3, 2, _, K, hK, by norm_num, ?_, ?_⟩
  · obtain ⟨x, y, h1, h2, h3, h4, h5, h6, h7⟩ := hv 1 (by norm_num) 1 (by norm_num)
    have hx : x = 0 := by
      obtain ⟨q, hq⟩ := h1.dvd
      push_cast at hq h3 h4
      omega
    rw [h7, hx]
    norm_num [sum_range_succ]
  · obtain ⟨x, y, h1, h2, h3, h4, h5, h6, h7⟩ := hv 0 (by norm_num) 0 (by norm_num)
    have hx : x = 1 := by
      obtain ⟨q, hq⟩ := h1.dvd
      push_cast at hq h3 h4
      omega
    have hy : y = 1 := by
      obtain ⟨q, hq⟩ := h2.dvd
      push_cast at hq h5 h6
      omega
    rw [h7, hx, hy]
    norm_num [sum_range_succ, Real.pi_ne_zero]

/-! ## C59: the real Fourier operators -/

theorem isotropicEigenvalues_eq {n : ℕ} (hn : 0 < n) (β : ℕ → ℂ) (a : ℕ) :
    isotropicEigenvalues n β (some n) a = ∑ j ∈ range n, phase n (a * j : ℤ) * β j := by
  have hnc : (n : ℂ) ≠ 0 := by exact_mod_cast hn.ne'
  unfold isotropicEigenvalues
  simp only [Option.getD_some]
  rw [div_self hnc, mul_one, ifft_eq]
  have e2 : FftNorm.ifftScale n .forward = 1 := rfl
  rw [e2, one_mul]
  refine sum_congr rfl fun j hj => ?_
  rw [pad1_eq n n β (mem_range.1 hj), if_pos (freq_onGrid (mem_range.1 hj)), slot_freq (mem_range.1 hj)]

theorem neg_emod_neg {n : ℕ} (hn : 0 < n) (j : ℕ) (hj : j < n) : ((-(((-(j : ℤ)) % n).toNat : ℤ)) % n).toNat = j := by
  rw [toNat_emod_cast hn]
  have : (-((-(j : ℤ)) % n)) % n = j := by
    have h1 : -((-(j : ℤ)) % n) ≡ j [ZMOD n] := by
      have := (Int.mod_modEq (-(j : ℤ)) n).neg
      rwa [neg_neg] at this
    rw [h1.eq, Int.emod_eq_of_lt (by positivity) (by exact_mod_cast hj)]
  rw [this, Int.toNat_natCast]

theorem sum_reflect {n : ℕ} (hn : 0 < n) (β : ℕ → ℂ) (hβ : ∀ j < n, β ((-(j : ℤ)) % n).toNat = β j) (z : ℤ) :
    ∑ j ∈ range n, phase n (-z * j) * β j = ∑ j ∈ range n, phase n (z * j) * β j := by
  refine sum_nbij' (fun j => ((-(j : ℤ)) % n).toNat) (fun j => ((-(j : ℤ)) % n).toNat) ?_ ?_ ?_ ?_ ?_
  · exact fun j _ => mem_range.2 (toNat_emod_lt hn _)
  · exact fun j _ => mem_range.2 (toNat_emod_lt hn _)
  · exact fun j hj => neg_emod_neg hn j (mem_range.1 hj)
  · exact fun j hj => neg_emod_neg hn j (mem_range.1 hj)
  · intro j hj
    rw [hβ j (mem_range.1 hj)]
    congr 1
    refine phase_congr hn ?_
    rw [toNat_emod_cast hn]
    have h1 : (n : ℤ) ∣ -(j : ℤ) - (-(j : ℤ)) % n := Int.dvd_self_sub_emod
    have h2 := h1.mul_left z
    have e3 : z * (-(j : ℤ) - (-(j : ℤ)) % n) = -z * j - z * ((-(j : ℤ)) % n) := by ring
    rwa [e3] at h2

/-- **C59.** What is true of the real Fourier solver: for a real even kernel it returns, and the given kernel is the sum of cosines
whose coefficients are the eigenvalues divided by the number of points. Not true is the claim that the operators and eigenvalues
which are returned make this kernel: see `C59_negation`. -/
theorem C59_partial (n : ℕ) (hn : 0 < n) (β : ℕ → ℂ) (hre : ∀ j < n, (β j).im = 0) (hβ : ∀ j < n, β ((-(j : ℤ)) % n).toNat = β j)
    (check : Bool) : ∃ ops, realIsotropicFft n β none check = some ops ∧ ops.values = n ∧ ∀ x < n,
      β x = (1 / n : ℂ) * ∑ a ∈ range n, ops.eigenvalue a * ((Real.cos (2 * Real.pi * a * x / n) : ℝ) : ℂ) := by
  obtain ⟨o, ho⟩ : ∃ o, realIsotropicOperators n none (some n) check = some o := by
    unfold realIsotropicOperators periodicSample
    simp [hn]
  have hnc : (n : ℂ) ≠ 0 := by exact_mod_cast hn.ne'
  have hpal : ∀ a < n - 1, isotropicEigenvalues n β (some n) (1 + a) = isotropicEigenvalues n β (some n) (1 + (n - 1 - 1 - a)) := by
    intro a ha
    rw [isotropicEigenvalues_eq hn, isotropicEigenvalues_eq hn, ← sum_reflect hn β hβ]
    refine sum_congr rfl fun j _ => ?_
    congr 1
    refine phase_congr hn ?_
    have e : ((1 + (n - 1 - 1 - a) : ℕ) : ℤ) = n - (1 + a) := by omega
    rw [e]
    refine ⟨-j, ?_⟩
    push_cast
    ring
  refine ⟨⟨o.1, n, o.2, n, isotropicEigenvalues n β (some n)⟩, ?_, rfl, fun x hx => ?_⟩
  · unfold realIsotropicFft
    rw [if_neg (not_not.2 hre)]
    dsimp only
    rw [ho]
    show (if _ then _ else _) = _
    rw [if_neg (not_not.2 hpal)]
  · dsimp only
    have key := sum_phase_inverse hn β (x : ℤ)
    have key' := sum_phase_inverse hn β (-(x : ℤ))
    rw [Int.emod_eq_of_lt (by positivity) (by exact_mod_cast hx), Int.toNat_natCast] at key
    rw [hβ x hx] at key'
    have : ∑ a ∈ range n, isotropicEigenvalues n β (some n) a * ((Real.cos (2 * Real.pi * a * x / n) : ℝ) : ℂ) = n * β x := by
      have e : ∀ a ∈ range n, isotropicEigenvalues n β (some n) a * ((Real.cos (2 * Real.pi * a * x / n) : ℝ) : ℂ) =
          (1 / 2) * (phase n (-(a * (x : ℤ))) * ∑ j ∈ range n, phase n (a * j : ℤ) * β j) +
          (1 / 2) * (phase n (-(a * (-(x : ℤ)))) * ∑ j ∈ range n, phase n (a * j : ℤ) * β j) := by
        intro a _
        rw [isotropicEigenvalues_eq hn, Complex.ofReal_cos, Complex.cos, phase, phase]
        have i1 : ((2 * Real.pi * a * x / n : ℝ) : ℂ) * Complex.I = 2 * Real.pi * Complex.I * ((-(a * (-(x : ℤ))) : ℤ) : ℂ) / n := by
          push_cast; ring
        have i2 : -((2 * Real.pi * a * x / n : ℝ) : ℂ) * Complex.I = 2 * Real.pi * Complex.I * ((-(a * (x : ℤ)) : ℤ) : ℂ) / n := by
          push_cast; ring
        rw [i1, i2]
        ring
      rw [sum_congr rfl e, sum_add_distrib, ← mul_sum, ← mul_sum, key, key']
      ring
    rw [this]
    field_simp

/-- The kernel `2, 1, 0, 1` on four points. -/
example : ∃ β : ℕ → ℂ, (∀ j < 4, (β j).im = 0) ∧ (∀ j : ℕ, j < 4 → β ((-(j : ℤ)) % (4 : ℕ)).toNat = β j) ∧ β 0 ≠ β 1 := by
  refine ⟨fun j => if j = 0 then 2 else if j = 2 then 0 else 1, fun j hj => ?_, fun j hj => ?_, by norm_num⟩
  · interval_cases j <;> simp
  · interval_cases j <;> norm_num <;> decide

/-- C59 is false for the code: on four or more points there are fewer operators than eigenvalues, and the kernel of what is
returned cannot be computed, for every real even kernel. -/
theorem C59_negation (n : ℕ) (hn : 4 ≤ n) (β : ℕ → ℂ) (hre : ∀ j < n, (β j).im = 0)
    (hβ : ∀ j < n, β ((-(j : ℤ)) % n).toNat = β j) (check : Bool) :
    ∃ ops, realIsotropicFft n β none check = some ops ∧ ops.count < ops.values ∧ getDiagonalKernel ops = none := by
  obtain ⟨ops, ho, hv, -⟩ := C59_partial n (by omega) β hre hβ check
  have hc : ops.count = n / 2 + (n / 2 - 1) := by
    unfold realIsotropicFft at ho
    rw [if_neg (not_not.2 hre)] at ho
    dsimp only at ho
    obtain ⟨o, h1, h2⟩ := Option.bind_eq_some_iff.1 ho
    split_ifs at h2
    obtain rfl := Option.some.inj h2
    exact (realOperators_some h1).1
  refine ⟨ops, ho, by omega, ?_⟩
  unfold getDiagonalKernel einsumLength
  rw [hv, hc, if_neg (by omega), if_neg (by omega), if_neg (by omega)]
  rfl

/-- On three points the kernel is computed, but it is constant: with the kernel `1, 0, 0` every entry is `1`. -/
theorem C59_negation_small : ∃ (β : ℕ → ℂ) (ops : DiagonalNoiseOperators) (K : ℕ → ℂ), realIsotropicFft 3 β none true = some ops ∧
    getDiagonalKernel ops = some K ∧ β 1 = 0 ∧ K (1 * 3 + 0) = 1 := by
  have hβ : ∀ j : ℕ, j < 3 → (fun k : ℕ => if k = 0 then (1 : ℂ) else 0) ((-(j : ℤ)) % (3 : ℕ)).toNat = (fun k : ℕ => if k = 0 then (1 : ℂ) else 0) j := by
    intro j hj
    obtain rfl | rfl | rfl : j = 0 ∨ j = 1 ∨ j = 2 := by omega
    all_goals simp
    all_goals decide
  have hre : ∀ j : ℕ, j < 3 → ((fun k : ℕ => if k = 0 then (1 : ℂ) else 0) j).im = 0 := by
    intro j _
    show (if j = 0 then (1 : ℂ) else 0).im = 0
    split_ifs <;> simp
  obtain ⟨ops, ho, hv, hsum⟩ := C59_partial 3 (by norm_num) _ hre hβ true
  have hs := hsum 0 (by norm_num)
  refine ⟨fun k : ℕ => if k = 0 then (1 : ℂ) else 0, ops, ?_⟩
  unfold realIsotropicFft at ho
  rw [if_neg (not_not.2 hre)] at ho
  dsimp only at ho
  obtain ⟨o, h1, h2⟩ := Option.bind_eq_some_iff.1 ho
  split_ifs at h2 with hp
  obtain ⟨c1, c2⟩ := realOperators_some h1
  have hops := Option.some.inj h2
  have hK : ∃ K, getDiagonalKernel ops = some K ∧ K (1 * 3 + 0) = 1 := by
    rw [← hops] at hs ⊢
    simp only [Option.getD_some, Option.getD_none] at c1 c2
    norm_num at c1
    unfold getDiagonalKernel
    dsimp only
    rw [c1]
    refine ⟨_, rfl, ?_⟩
    beta_reduce
    rw [flatten_entry _ _ (by norm_num)]
    have e0 : ∀ m < 3, o.2 (0 * 3 + m) = 1 / ((Real.sqrt (3 : ℕ) : ℝ) : ℂ) := by
      intro m hm
      rw [c2 0 m hm]
      norm_num
    have hq : ((Real.sqrt (3 : ℕ) : ℝ) : ℂ) * ((Real.sqrt (3 : ℕ) : ℝ) : ℂ) = (3 : ℕ) := sqrt_mul_self'
    have hq0 : ((Real.sqrt (3 : ℕ) : ℝ) : ℂ) ≠ 0 := fun h => by rw [h, mul_zero] at hq; norm_num at hq
    have e1 : ∀ a ∈ range 3, isotropicEigenvalues 3 (fun k : ℕ => if k = 0 then (1 : ℂ) else 0) (some 3) (einsumIndex 3 a) *
        (starRingEnd ℂ) (o.2 (einsumIndex 1 a * 3 + 1)) * o.2 (einsumIndex 1 a * 3 + 0) =
        (1 / (3 : ℕ) : ℂ) * (isotropicEigenvalues 3 (fun k : ℕ => if k = 0 then (1 : ℂ) else 0) (some 3) a *
          ((Real.cos (2 * Real.pi * a * (0 : ℕ) / (3 : ℕ)) : ℝ) : ℂ)) := by
      intro a _
      have i1 : einsumIndex 3 a = a := rfl
      have i2 : einsumIndex 1 a = 0 := rfl
      rw [i1, i2, e0 1 (by norm_num), e0 0 (by norm_num), map_div₀, Complex.conj_ofReal, map_one]
      have i3 : Real.cos (2 * Real.pi * a * (0 : ℕ) / (3 : ℕ)) = 1 := by simp
      rw [i3, ← hq]
      field_simp
      simp
    rw [sum_congr rfl e1, ← mul_sum]
    simpa using hs.symm
  obtain ⟨K, k1, k2⟩ := hK
  refine ⟨K, ?_, k1, by simp, k2⟩
  rw [← hops]
  unfold realIsotropicFft
  rw [if_neg (not_not.2 hre)]
  dsimp only
  rw [h1]
  show (if _ then _ else _) = _
  rw [if_neg (not_not.2 hp)]

/-- **C59.** The number of terms: with `t` terms the solver returns `2 t + 1` eigenvalues, and on `2 t + 1` points the same as without this argument. -/
theorem C59_terms (n t : ℕ) (β : ℕ → ℂ) (check : Bool) :
    (∀ ops, realIsotropicFft n β (some t) check = some ops → ops.values = 2 * t + 1) ∧
    (n = 2 * t + 1 → realIsotropicFft n β (some t) check = realIsotropicFft n β none check) := by
  constructor
  · intro ops ho
    unfold realIsotropicFft at ho
    split_ifs at ho
    obtain ⟨o, h1, h2⟩ := Option.bind_eq_some_iff.1 ho
    dsimp only at h2
    split_ifs at h2
    obtain rfl := Option.some.inj h2
    rfl
  · rintro rfl
    rfl

end Verif
