import Verif.Lemmas.Convert

/-!
# C09 – C16: conversion of vectors between bases

`same` stands for the outcome of python's identity test of two basis objects; all theorems hold for every outcome
in which only equal objects are identical.
-/

set_option autoImplicit false

namespace Verif

open Finset Spec

/-! ## General facts about orthonormal states -/

theorem dot_expand (b : Basis) (v : ℕ → ℂ) (j : ℕ) (m : ℕ) (φ : ℕ → ℂ) :
    ∑ x ∈ range m, (starRingEnd ℂ) (φ x) * expand b v x =
      ∑ i ∈ range (size b), (∑ x ∈ range m, (starRingEnd ℂ) (φ x) * state b i x) * v i := by
  unfold expand
  simp only [mul_sum, sum_mul]
  rw [sum_comm]
  exact sum_congr rfl fun i _ => sum_congr rfl fun x _ => by ring

theorem dot_state_expand {b : Basis} (h : Orthonormal' (size b) (points b) (state b)) (v : ℕ → ℂ) {j : ℕ}
    (hj : j < size b) : ∑ x ∈ range (points b), (starRingEnd ℂ) (state b j x) * expand b v x = v j := by
  rw [dot_expand b v j]
  have : ∀ i ∈ range (size b), (∑ x ∈ range (points b), (starRingEnd ℂ) (state b j x) * state b i x) * v i =
      if j = i then v i else 0 := by
    intro i hi; rw [h j hj i (mem_range.1 hi)]; split <;> simp
  rw [sum_congr rfl this, sum_ite_eq, if_pos (mem_range.2 hj)]

theorem dot_expand_expand {b : Basis} (h : Orthonormal' (size b) (points b) (state b)) (v w : ℕ → ℂ) :
    dot (points b) (expand b v) (expand b w) = dot (size b) v w := by
  unfold dot
  have h1 : ∀ x ∈ range (points b), (starRingEnd ℂ) (expand b v x) * expand b w x =
      ∑ i ∈ range (size b), (starRingEnd ℂ) (v i) * ((starRingEnd ℂ) (state b i x) * expand b w x) := by
    intro x _
    rw [expand, map_sum, sum_mul]
    exact sum_congr rfl fun i _ => by rw [map_mul, mul_assoc]
  rw [sum_congr rfl h1, sum_comm]
  apply sum_congr rfl; intro i hi
  rw [← mul_sum, dot_state_expand h w (mem_range.1 hi)]

theorem overlapKernel_sum (a b : Basis) (v : ℕ → ℂ) (j : ℕ) :
    ∑ i ∈ range (size a), overlapKernel a b j i * v i =
      ∑ x ∈ range (points a), (starRingEnd ℂ) (state b j x) * expand a v x := by
  rw [dot_expand a v j]; rfl

theorem expand_congr (b : Basis) {v w : ℕ → ℂ} (h : ∀ j < size b, v j = w j) (x : ℕ) :
    expand b v x = expand b w x :=
  sum_congr rfl fun j hj => by rw [h j (mem_range.1 hj)]

theorem compatible_fundamental_right (b : Basis) : Compatible b (.fundamental (points b)) := by
  cases b <;> rfl

theorem compatible_fundamental_left (b : Basis) : Compatible (.fundamental (points b)) b := by
  cases b <;> rfl

theorem expand_fundamental {n : ℕ} (v : ℕ → ℂ) {x : ℕ} (hx : x < n) : expand (.fundamental n) v x = v x := by
  unfold expand
  simp only [state, size, mul_ite, mul_one, mul_zero]
  rw [sum_ite_eq, if_pos (mem_range.2 hx)]

theorem sum_state_fundamental {n : ℕ} (φ : ℕ → ℂ) {j : ℕ} (hj : j < n) :
    ∑ x ∈ range n, (starRingEnd ℂ) (state (.fundamental n) j x) * φ x = φ j := by
  simp only [state, conj_ite_one, ite_mul, one_mul, zero_mul]
  rw [sum_ite_eq', if_pos (mem_range.2 hj)]

/-! ## C10 -/

/-- **C10.** Whichever of the internal routes is taken (same object, both momentum-like, axis by axis for stacked
bases, generic), converting a vector between compatible bases expands it into its function on the grid and projects
on the states of the target basis. -/
theorem C10_route (same : Basis → Basis → Bool) (hs : Sound same) (a b : Basis) (ha : Valid a) (hb : Valid b)
    (ho : OrthonormalParts a) (hc : Compatible a b) :
    ∃ f, Basis.convert same a b = some f ∧
      ∀ v, ∀ j < size b, f v j = ∑ x ∈ range (points a), (starRingEnd ℂ) (state b j x) * expand a v x := by
  obtain ⟨f, h1, h2⟩ := convert_kernel same hs a b ha hb ho hc
  refine ⟨f, h1, fun v j hj => ?_⟩
  rw [h2 v j hj, overlapKernel_sum]

/-- **C10.** The conversion raises exactly for incompatible bases: different numbers of grid points, or (two stacked
bases) a different number of axes or an axis with a different number of points. -/
theorem C10_raises (same : Basis → Basis → Bool) (hs : Sound same) (a b : Basis) (ha : Valid a) (hb : Valid b)
    (ho : OrthonormalParts a) : Basis.convert same a b = none ↔ ¬ Compatible a b := by
  constructor
  · intro h hc
    obtain ⟨f, h1, _⟩ := convert_kernel same hs a b ha hb ho hc
    rw [h] at h1; cases h1
  · exact convert_none same a b

/-- **C10.** The result does not depend on which objects are identical. -/
theorem C10_identity_irrelevant (same same' : Basis → Basis → Bool) (hs : Sound same) (hs' : Sound same')
    (a b : Basis) (ha : Valid a) (hb : Valid b) (ho : OrthonormalParts a) (f g : (ℕ → ℂ) → ℕ → ℂ)
    (hf : Basis.convert same a b = some f) (hg : Basis.convert same' a b = some g) :
    ∀ v, ∀ j < size b, f v j = g v j := by
  have hc : Compatible a b := by
    by_contra h; rw [convert_none same a b h] at hf; cases hf
  obtain ⟨f', h1, h2⟩ := convert_kernel same hs a b ha hb ho hc
  obtain ⟨g', h3, h4⟩ := convert_kernel same' hs' a b ha hb ho hc
  rw [hf] at h1; rw [hg] at h3
  cases h1; cases h3
  intro v j hj
  rw [h2 v j hj, h4 v j hj]

-- a stacked basis of a momentum axis and an evenly spaced axis, converted to another stacked basis
example : ∃ f, Basis.convert (fun _ _ => false) (.tuple [.transformed 3 5, .evenlySpaced 2 3 (-1)])
    (.tuple [.truncated 4 5, .transformed 5 6]) = some f ∧
    ∀ v, ∀ j < 20, f v j = ∑ x ∈ range 30, (starRingEnd ℂ)
      (state (.tuple [.truncated 4 5, .transformed 5 6]) j x) *
      expand (.tuple [.transformed 3 5, .evenlySpaced 2 3 (-1)]) v x :=
  C10_route (fun _ _ => false) (fun _ _ h => by cases h) (.tuple [.transformed 3 5, .evenlySpaced 2 3 (-1)])
    (.tuple [.truncated 4 5, .transformed 5 6]) (by simp [Valid, Valids]) (by simp [Valid, Valids])
    ⟨trivial, trivial, trivial⟩ ⟨rfl, rfl, trivial⟩

-- raising: same total number of points, different axes
example : Basis.convert (fun _ _ => false) (.tuple [.fundamental 2, .fundamental 3])
    (.tuple [.fundamental 3, .fundamental 2]) = none :=
  (C10_raises (fun _ _ => false) (fun _ _ h => by cases h) (.tuple [.fundamental 2, .fundamental 3])
    (.tuple [.fundamental 3, .fundamental 2]) ⟨trivial, trivial, trivial⟩ ⟨trivial, trivial, trivial⟩
    ⟨trivial, trivial, trivial⟩).2 (by simp [Compatible, Compatibles, points])

/-! ## C09 -/

/-- **C09.** Converting between the fundamental position and momentum bases of any size is lossless in both
directions, preserves inner products, and takes momentum component `k` to be the overlap with the plane wave
`exp(2πi k x / n) / √n`. -/
theorem C09_fourier (same : Basis → Basis → Bool) (hs : Sound same) (n : ℕ) :
    ∃ f g, Basis.convert same (.fundamental n) (.fundamentalTransformed n) = some f ∧
      Basis.convert same (.fundamentalTransformed n) (.fundamental n) = some g ∧
      (∀ v, ∀ x < n, g (f v) x = v x) ∧ (∀ v, ∀ k < n, f (g v) k = v k) ∧
      (∀ v w, dot n (f v) (f w) = dot n v w) ∧ (∀ v w, dot n (g v) (g w) = dot n v w) ∧
      (∀ v, ∀ k < n, f v k = ∑ x ∈ range n,
        Complex.exp (-(2 * Real.pi * Complex.I * k * x / n)) / (Real.sqrt n : ℂ) * v x) := by
  obtain ⟨f, hf, kf⟩ := C10_route same hs (.fundamental n) (.fundamentalTransformed n) trivial trivial trivial rfl
  obtain ⟨g, hg, kg⟩ := C10_route same hs (.fundamentalTransformed n) (.fundamental n) trivial trivial trivial rfl
  have oT := state_orthonormal (.fundamentalTransformed n) trivial trivial
  have kf' : ∀ v, ∀ k < n, f v k = fft .ortho n v k := by
    intro v k hk
    rw [kf v k hk, fft_kernel n v k hk]
    apply sum_congr rfl; intro x hx
    have hx' : x < n := mem_range.1 hx
    rw [expand_fundamental v hx']; rfl
  have kg' : ∀ v, ∀ x < n, g v x = ifft .ortho n v x := by
    intro v x hx
    rw [kg v x hx, ifft_kernel n v x hx]
    refine (sum_state_fundamental _ hx).trans ?_
    unfold expand
    exact sum_congr rfl fun k _ => mul_comm _ _
  refine ⟨f, g, hf, hg, ?_, ?_, ?_, ?_, ?_⟩
  · intro v x hx
    rw [kg' _ x hx, ifft_congr .ortho n (kf' v), ifft_fft .ortho v hx]
  · intro v k hk
    rw [kf' _ k hk, fft_congr .ortho n (kg' v), fft_ifft .ortho v hk]
  · intro v w
    have h := fft_adjoint n v (fft .ortho n w)
    unfold dot
    rw [sum_congr rfl fun k hk => by rw [kf' v k (mem_range.1 hk), kf' w k (mem_range.1 hk)], h]
    exact sum_congr rfl fun x hx => by rw [ifft_fft .ortho w (mem_range.1 hx)]
  · intro v w
    have h := fft_adjoint n (ifft .ortho n v) w
    unfold dot
    rw [sum_congr rfl fun k hk => by rw [kg' v k (mem_range.1 hk), kg' w k (mem_range.1 hk)], ← h]
    exact sum_congr rfl fun x hx => by rw [fft_ifft .ortho v (mem_range.1 hx)]
  · intro v k hk
    rw [kf' v k hk, fft_kernel n v k hk]
    apply sum_congr rfl; intro x _
    congr 1
    beta_reduce
    unfold planeWave
    rw [map_div₀, Complex.conj_ofReal, ← Complex.exp_conj]
    congr 2
    simp only [map_div₀, map_mul, Complex.conj_I, Complex.conj_ofReal, map_ofNat, map_natCast, Int.cast_natCast]
    ring

/-! ## C11 -/

/-- **C11.** Converting to another basis and back is the identity when every state of the first basis is a combination
of states of the second. -/
theorem C11_round_trip (same : Basis → Basis → Bool) (hs : Sound same) (a b : Basis) (ha : Valid a)
    (hb : Valid b) (hoa : OrthonormalParts a) (hob : OrthonormalParts b) (hc : Compatible a b)
    (hc' : Compatible b a) (hspan : SpanLe a b) :
    ∃ f g, Basis.convert same a b = some f ∧ Basis.convert same b a = some g ∧
      ∀ v, ∀ i < size a, g (f v) i = v i := by
  obtain ⟨f, hf, kf⟩ := C10_route same hs a b ha hb hoa hc
  obtain ⟨g, hg, kg⟩ := C10_route same hs b a hb ha hob hc'
  have oa := state_orthonormal a ha hoa
  have ob := state_orthonormal b hb hob
  have hp := compatible_points a b hc
  refine ⟨f, g, hf, hg, fun v i hi => ?_⟩
  rw [kg _ i hi, ← hp]
  -- the function of the converted vector is the function of the vector
  have hfun : ∀ x < points a, expand b (f v) x = expand a v x := by
    choose! c hcx using hspan
    have h1 : ∀ x < points a, expand a v x = expand b (fun j => ∑ i ∈ range (size a), v i * c i j) x := by
      intro x hx
      have e : expand a v x = ∑ i ∈ range (size a), v i * expand b (c i) x :=
        sum_congr rfl fun i hi => by rw [← hcx i (mem_range.1 hi) x hx]
      rw [e]
      unfold expand
      simp only [mul_sum, sum_mul]
      rw [sum_comm]
      exact sum_congr rfl fun j _ => sum_congr rfl fun i _ => by ring
    intro x hx
    rw [h1 x hx]
    apply expand_congr
    intro j hj
    rw [kf v j hj, ← dot_state_expand ob (fun j => ∑ i ∈ range (size a), v i * c i j) hj, ← hp]
    exact sum_congr rfl fun x hx => by rw [h1 x (mem_range.1 hx)]
  rw [← dot_state_expand oa v hi]
  exact sum_congr rfl fun x hx => by rw [hfun x (mem_range.1 hx)]

/-- **C11.** Converting out to the fundamental basis and back is always the identity; converting from the
fundamental basis and back is the orthogonal projection on the states of the basis: it is idempotent, self-adjoint, and
fixes exactly the functions spanned by the basis. -/
theorem C11_fundamental (same : Basis → Basis → Bool) (hs : Sound same) (b : Basis) (hb : Valid b)
    (ho : OrthonormalParts b) :
    ∃ f g, Basis.convert same b (.fundamental (points b)) = some f ∧
      Basis.convert same (.fundamental (points b)) b = some g ∧
      (∀ v, ∀ x < points b, f v x = expand b v x) ∧
      (∀ φ, ∀ j < size b, g φ j = ∑ x ∈ range (points b), (starRingEnd ℂ) (state b j x) * φ x) ∧
      (∀ v, ∀ i < size b, g (f v) i = v i) ∧
      (∀ φ, ∀ x < points b, f (g (f (g φ))) x = f (g φ) x) ∧
      (∀ φ ψ, dot (points b) (f (g φ)) ψ = dot (points b) φ (f (g ψ))) ∧
      (∀ φ, (∀ x < points b, f (g φ) x = φ x) ↔ ∃ c, ∀ x < points b, φ x = expand b c x) := by
  obtain ⟨f, hf, kf⟩ := C10_route same hs b (.fundamental (points b)) hb trivial ho (compatible_fundamental_right b)
  obtain ⟨g, hg, kg⟩ := C10_route same hs (.fundamental (points b)) b trivial hb trivial
    (compatible_fundamental_left b)
  have ob := state_orthonormal b hb ho
  have F : ∀ v, ∀ x < points b, f v x = expand b v x := by
    intro v x hx; rw [kf v x hx, sum_state_fundamental _ hx]
  have G : ∀ φ, ∀ j < size b, g φ j = ∑ x ∈ range (points b), (starRingEnd ℂ) (state b j x) * φ x := by
    intro φ j hj
    rw [kg φ j hj]
    exact sum_congr rfl fun x hx => by rw [expand_fundamental φ (mem_range.1 hx)]
  have GF : ∀ v, ∀ i < size b, g (f v) i = v i := by
    intro v i hi
    rw [G _ i hi, sum_congr rfl fun x hx => by rw [F v x (mem_range.1 hx)], dot_state_expand ob v hi]
  refine ⟨f, g, hf, hg, F, G, GF, ?_, ?_, ?_⟩
  · intro φ x hx
    rw [F _ x hx, F _ x hx]
    exact expand_congr b (GF _) x
  · intro φ ψ
    have h1 : dot (points b) (f (g φ)) ψ = ∑ j ∈ range (size b), (starRingEnd ℂ) (g φ j) * g ψ j := by
      unfold dot
      have : ∀ x ∈ range (points b), (starRingEnd ℂ) (f (g φ) x) * ψ x =
          ∑ j ∈ range (size b), (starRingEnd ℂ) (g φ j) * ((starRingEnd ℂ) (state b j x) * ψ x) := by
        intro x hx
        rw [F _ x (mem_range.1 hx), expand, map_sum, sum_mul]
        exact sum_congr rfl fun j _ => by rw [map_mul, mul_assoc]
      rw [sum_congr rfl this, sum_comm]
      exact sum_congr rfl fun j hj => by rw [← mul_sum, ← G ψ j (mem_range.1 hj)]
    have h2 : dot (points b) φ (f (g ψ)) = ∑ j ∈ range (size b), (starRingEnd ℂ) (g φ j) * g ψ j := by
      unfold dot
      have : ∀ x ∈ range (points b), (starRingEnd ℂ) (φ x) * f (g ψ) x =
          ∑ j ∈ range (size b), (starRingEnd ℂ) ((starRingEnd ℂ) (state b j x) * φ x) * g ψ j := by
        intro x hx
        rw [F _ x (mem_range.1 hx), expand, mul_sum]
        exact sum_congr rfl fun j _ => by rw [map_mul, Complex.conj_conj]; ring
      rw [sum_congr rfl this, sum_comm]
      exact sum_congr rfl fun j hj => by rw [← sum_mul, ← map_sum, ← G φ j (mem_range.1 hj)]
    rw [h1, h2]
  · intro φ
    constructor
    · intro h
      exact ⟨g φ, fun x hx => by rw [← h x hx, F _ x hx]⟩
    · rintro ⟨c, hcx⟩ x hx
      rw [F _ x hx, hcx x hx]
      apply expand_congr
      intro j hj
      rw [G φ j hj, sum_congr rfl fun x hx => by rw [hcx x (mem_range.1 hx)], dot_state_expand ob c hj]

-- every truncated momentum basis lies in the span of the full momentum basis
example : SpanLe (.transformed 3 5) (.fundamentalTransformed 5) := by
  intro i hi
  refine ⟨unit (slot 5 (freq 3 i)), fun x hx => ?_⟩
  have hi' : i < 3 := hi
  have hg : OnGrid 5 (freq 3 i) := onGrid_mono (by norm_num) (freq_onGrid hi')
  have hlt := slot_lt hg
  unfold expand unit
  simp only [size, state, ite_mul, one_mul, zero_mul]
  rw [sum_ite_eq', if_pos (mem_range.2 hlt)]
  apply planeWave_congr (by norm_num)
  rw [slot_emod hg]
  exact Int.dvd_of_emod_eq_zero (by simp [Int.sub_emod])

/-! ## C12 -/

/-- **C12.** The conversions in the two directions are adjoint. -/
theorem C12_adjoint (same : Basis → Basis → Bool) (hs : Sound same) (a b : Basis) (ha : Valid a)
    (hb : Valid b) (hoa : OrthonormalParts a) (hob : OrthonormalParts b) (hc : Compatible a b)
    (hc' : Compatible b a) :
    ∃ f g, Basis.convert same a b = some f ∧ Basis.convert same b a = some g ∧
      ∀ v w, dot (size b) (f v) w = dot (size a) v (g w) := by
  obtain ⟨f, hf, kf⟩ := convert_kernel same hs a b ha hb hoa hc
  obtain ⟨g, hg, kg⟩ := convert_kernel same hs b a hb ha hob hc'
  have hp := compatible_points a b hc
  refine ⟨f, g, hf, hg, fun v w => ?_⟩
  unfold dot
  have h1 : ∀ j ∈ range (size b), (starRingEnd ℂ) (f v j) * w j =
      ∑ i ∈ range (size a), (starRingEnd ℂ) (v i) * (overlapKernel b a i j * w j) := by
    intro j hj
    rw [kf v j (mem_range.1 hj), map_sum, sum_mul]
    apply sum_congr rfl; intro i _
    have e : (starRingEnd ℂ) (overlapKernel a b j i) = overlapKernel b a i j := by
      unfold overlapKernel
      rw [map_sum, ← hp]
      exact sum_congr rfl fun x _ => by rw [map_mul, Complex.conj_conj, mul_comm]
    rw [map_mul, e]; ring
  rw [sum_congr rfl h1, sum_comm]
  apply sum_congr rfl; intro i hi
  rw [← mul_sum, kg w i (mem_range.1 hi)]

/-- **C12.** Conversion never increases the norm of a vector. -/
theorem C12_norm_le (same : Basis → Basis → Bool) (hs : Sound same) (a b : Basis) (ha : Valid a)
    (hb : Valid b) (hoa : OrthonormalParts a) (hob : OrthonormalParts b) (hc : Compatible a b) :
    ∃ f, Basis.convert same a b = some f ∧
      ∀ v, ∑ j ∈ range (size b), ‖f v j‖ ^ 2 ≤ ∑ i ∈ range (size a), ‖v i‖ ^ 2 := by
  obtain ⟨f, hf, kf⟩ := C10_route same hs a b ha hb hoa hc
  have oa := state_orthonormal a ha hoa
  have ob := state_orthonormal b hb hob
  have hp := compatible_points a b hc
  refine ⟨f, hf, fun v => ?_⟩
  have e1 := dot_expand_expand oa v v
  have e2 := dot_expand_expand ob (f v) (f v)
  rw [← hp] at e2
  have e3 : dot (points a) (expand b (f v)) (expand a v) = dot (size b) (f v) (f v) := by
    unfold dot
    have : ∀ x ∈ range (points a), (starRingEnd ℂ) (expand b (f v) x) * expand a v x =
        ∑ j ∈ range (size b), (starRingEnd ℂ) (f v j) * ((starRingEnd ℂ) (state b j x) * expand a v x) := by
      intro x _
      rw [expand, map_sum, sum_mul]
      exact sum_congr rfl fun j _ => by rw [map_mul, mul_assoc]
    rw [sum_congr rfl this, sum_comm]
    exact sum_congr rfl fun j hj => by rw [← mul_sum, ← kf v j (mem_range.1 hj)]
  have e4 : dot (points a) (expand a v) (expand b (f v)) = dot (size b) (f v) (f v) := by
    have : dot (points a) (expand a v) (expand b (f v)) =
        (starRingEnd ℂ) (dot (points a) (expand b (f v)) (expand a v)) := by
      unfold dot; rw [map_sum]
      exact sum_congr rfl fun x _ => by rw [map_mul, Complex.conj_conj, mul_comm]
    rw [this, e3]
    unfold dot; rw [map_sum]
    exact sum_congr rfl fun x _ => by rw [map_mul, Complex.conj_conj, mul_comm]
  have hr : ∀ (n : ℕ) (u : ℕ → ℂ), dot n u u = ((∑ i ∈ range n, ‖u i‖ ^ 2 : ℝ) : ℂ) := by
    intro n u; unfold dot; push_cast
    exact sum_congr rfl fun i _ => Complex.conj_mul' _
  have key : dot (points a) (fun x => expand a v x - expand b (f v) x) (fun x => expand a v x - expand b (f v) x) =
      dot (size a) v v - dot (size b) (f v) (f v) := by
    have : dot (points a) (fun x => expand a v x - expand b (f v) x)
        (fun x => expand a v x - expand b (f v) x) =
        dot (points a) (expand a v) (expand a v) - dot (points a) (expand a v) (expand b (f v))
        - dot (points a) (expand b (f v)) (expand a v) + dot (points a) (expand b (f v)) (expand b (f v)) := by
      unfold dot
      rw [← sum_sub_distrib, ← sum_sub_distrib, ← sum_add_distrib]
      exact sum_congr rfl fun x _ => by rw [map_sub]; ring
    rw [this, e1, e2, e3, e4]; ring
  rw [hr, hr, hr] at key
  have key' : ∑ x ∈ range (points a), ‖expand a v x - expand b (f v) x‖ ^ 2 =
      ∑ i ∈ range (size a), ‖v i‖ ^ 2 - ∑ j ∈ range (size b), ‖f v j‖ ^ 2 := by exact_mod_cast key
  have : 0 ≤ ∑ x ∈ range (points a), ‖expand a v x - expand b (f v) x‖ ^ 2 :=
    sum_nonneg fun _ _ => by positivity
  linarith

/-- **C12.** Conversion to the fundamental basis preserves inner products. -/
theorem C12_isometry (same : Basis → Basis → Bool) (hs : Sound same) (b : Basis) (hb : Valid b)
    (ho : OrthonormalParts b) :
    ∃ f, Basis.convert same b (.fundamental (points b)) = some f ∧
      ∀ v w, dot (points b) (f v) (f w) = dot (size b) v w := by
  obtain ⟨f, g, hf, _, F, _⟩ := C11_fundamental same hs b hb ho
  refine ⟨f, hf, fun v w => ?_⟩
  rw [← dot_expand_expand (state_orthonormal b hb ho) v w]
  unfold dot
  exact sum_congr rfl fun x hx => by rw [F v x (mem_range.1 hx), F w x (mem_range.1 hx)]

/-! ## C13 -/

/-- **C13.** The evenly spaced basis with `n` states, any step and any (also negative or large) offset: state `j` is
the fundamental state `(offset + step * j) mod (n * step)`. Converting out puts coefficient `j` there and zero
elsewhere, converting back reads it. -/
theorem C13_evenly_spaced (same : Basis → Basis → Bool) (hs : Sound same) (n step : ℕ) (offset : ℤ)
    (hstep : 0 < step) :
    ∃ f g, Basis.convert same (.evenlySpaced n step offset) (.fundamental (n * step)) = some f ∧
      Basis.convert same (.fundamental (n * step)) (.evenlySpaced n step offset) = some g ∧
      (∀ v, ∀ j < n, f v ((offset + step * j) % (n * step : ℕ)).toNat = v j) ∧
      (∀ v, ∀ x < n * step, (∀ j < n, (x : ℤ) ≠ (offset + step * j) % (n * step : ℕ)) → f v x = 0) ∧
      (∀ φ, ∀ j < n, g φ j = φ ((offset + step * j) % (n * step : ℕ)).toNat) := by
  obtain ⟨f, g, hf, hg, F, G, -⟩ := C11_fundamental same hs (.evenlySpaced n step offset) hstep trivial
  have ho := state_orthonormal (.evenlySpaced n step offset) hstep trivial
  have hp : ∀ j < n, (0 : ℤ) < (n * step : ℕ) := fun j hj => by
    exact_mod_cast Nat.mul_pos (by omega) hstep
  have hG : ∀ φ, ∀ j < n, g φ j = φ ((offset + step * j) % (n * step : ℕ)).toNat := by
    intro φ j hj
    have h1 := Int.emod_nonneg (offset + step * j) (hp j hj).ne'
    have h2 := Int.emod_lt_of_pos (offset + step * j) (hp j hj)
    rw [G φ j hj]
    simp only [state, conj_ite_one, points]
    apply sum_ite_mul_eq
    · generalize (offset + step * j) % (n * step : ℕ) = z at h1 h2 ⊢; omega
    · intro x _
      generalize (offset + step * j) % (n * step : ℕ) = z at h1 h2 ⊢; omega
  refine ⟨f, g, hf, hg, ?_, ?_, hG⟩
  · intro v j hj
    rw [← hG (f v) j hj]
    obtain ⟨f', g', hf', hg', -, -, h, -⟩ := C11_fundamental same hs (.evenlySpaced n step offset) hstep trivial
    rw [hf] at hf'; rw [hg] at hg'; cases hf'; cases hg'
    exact h v j hj
  · intro v x hx hne
    rw [F v x hx]
    unfold expand
    apply sum_eq_zero; intro j hj
    simp only [state]
    rw [if_neg (hne j (mem_range.1 hj)), mul_zero]

/-- **C13.** The momentum version: the same selection among the states of the fundamental momentum basis. -/
theorem C13_evenly_spaced_transformed (same : Basis → Basis → Bool) (hs : Sound same) (n step : ℕ) (offset : ℤ)
    (hstep : 0 < step) :
    ∃ f g, Basis.convert same (.evenlySpacedTransformed n step offset) (.fundamentalTransformed (n * step)) = some f ∧
      Basis.convert same (.fundamentalTransformed (n * step)) (.evenlySpacedTransformed n step offset) = some g ∧
      (∀ v, ∀ j < n, f v ((offset + step * j) % (n * step : ℕ)).toNat = v j) ∧
      (∀ v, ∀ k < n * step, (∀ j < n, (k : ℤ) ≠ (offset + step * j) % (n * step : ℕ)) → f v k = 0) ∧
      (∀ φ, ∀ j < n, g φ j = φ ((offset + step * j) % (n * step : ℕ)).toNat) := by
  obtain ⟨f, hf, kf⟩ := convert_kernel same hs (.evenlySpacedTransformed n step offset)
    (.fundamentalTransformed (n * step)) hstep trivial trivial rfl
  obtain ⟨g, hg, kg⟩ := convert_kernel same hs (.fundamentalTransformed (n * step))
    (.evenlySpacedTransformed n step offset) trivial hstep trivial rfl
  have hp : ∀ j < n, 0 < n * step := fun j hj => Nat.mul_pos (by omega) hstep
  have hmod : ∀ j < n, ∀ k < n * step, (((n * step : ℕ) : ℤ) ∣ (offset + step * j) - k ↔
      k = ((offset + step * j) % (n * step : ℕ)).toNat) := by
    intro j hj k hk
    have hp' : (0 : ℤ) < (n * step : ℕ) := by exact_mod_cast hp j hj
    have h1 := Int.emod_nonneg (offset + step * j) hp'.ne'
    have h3 : (k : ℤ) % (n * step : ℕ) = k := Int.emod_eq_of_lt (by omega) (by exact_mod_cast hk)
    constructor
    · intro h
      have h2 := Int.emod_eq_emod_iff_emod_sub_eq_zero.2 (Int.emod_eq_zero_of_dvd h)
      rw [h3] at h2
      generalize (offset + step * j) % (n * step : ℕ) = z at h1 h2 ⊢; omega
    · intro h
      apply Int.dvd_of_emod_eq_zero
      rw [← Int.emod_eq_emod_iff_emod_sub_eq_zero, h3]
      generalize (offset + step * j) % (n * step : ℕ) = z at h1 h ⊢; omega
  have hG : ∀ φ, ∀ j < n, g φ j = φ ((offset + step * j) % (n * step : ℕ)).toNat := by
    intro φ j hj
    have hp' : (0 : ℤ) < (n * step : ℕ) := by exact_mod_cast hp j hj
    have h1 := Int.emod_nonneg (offset + step * j) hp'.ne'
    have h2 := Int.emod_lt_of_pos (offset + step * j) hp'
    rw [kg φ j hj]
    simp only [size]
    have : ∀ k ∈ range (n * step), overlapKernel (.fundamentalTransformed (n * step))
        (.evenlySpacedTransformed n step offset) j k * φ k =
        (if k = ((offset + step * j) % (n * step : ℕ)).toNat then 1 else 0) * φ k := by
      intro k hk
      unfold overlapKernel
      simp only [state, points]
      rw [planeWave_inner (hp j hj)]
      simp only [← hmod j hj k (mem_range.1 hk), dvd_sub_comm]
    rw [sum_congr rfl this]
    apply sum_ite_mul_eq
    · generalize (offset + step * j) % (n * step : ℕ) = z at h1 h2 ⊢; omega
    · intro x _; rfl
  have hF : ∀ v, ∀ k < n * step, f v k = ∑ j ∈ range n,
      (if k = ((offset + step * j) % (n * step : ℕ)).toNat then 1 else 0) * v j := by
    intro v k hk
    rw [kf v k hk]
    apply sum_congr rfl; intro j hj
    have hj' : j < n := mem_range.1 hj
    unfold overlapKernel
    simp only [state, points]
    rw [planeWave_inner (hp j hj')]
    simp only [← hmod j hj' k hk]
  refine ⟨f, g, hf, hg, ?_, ?_, hG⟩
  · intro v j hj
    have hp' : (0 : ℤ) < (n * step : ℕ) := by exact_mod_cast hp j hj
    have h1 := Int.emod_nonneg (offset + step * j) hp'.ne'
    have h2 := Int.emod_lt_of_pos (offset + step * j) hp'
    rw [hF v _ (by generalize (offset + step * j) % (n * step : ℕ) = z at h1 h2 ⊢; omega)]
    apply sum_ite_mul_eq j hj
    intro i hi
    constructor
    · intro h
      have hk : ((offset + step * i) % (n * step : ℕ)).toNat < n * step := by
        have h1 := Int.emod_nonneg (offset + step * i) hp'.ne'
        have h2 := Int.emod_lt_of_pos (offset + step * i) hp'
        generalize (offset + step * i) % (n * step : ℕ) = z at h1 h2 ⊢; omega
      have e1 := (hmod i hi _ hk).2 rfl
      have e2 := (hmod j hj _ hk).2 h.symm
      apply evenly_dvd hstep offset hi hj
      have := dvd_sub e2 e1
      rwa [sub_sub_sub_cancel_right] at this
    · rintro rfl; rfl
  · intro v k hk hne
    rw [hF v k hk]
    apply sum_ite_mul_zero
    intro j hj h
    have hp' : (0 : ℤ) < (n * step : ℕ) := by exact_mod_cast hp j hj
    have h1 := Int.emod_nonneg (offset + step * j) hp'.ne'
    have := hne j hj
    generalize (offset + step * j) % (n * step : ℕ) = z at h1 h this; omega

-- a negative offset: state 0 of the basis (4 states, step 3, offset -1) is point 11 of 12
example : ((-1 + (3 : ℕ) * (0 : ℕ)) % ((4 * 3 : ℕ) : ℤ)).toNat = 11 := by decide

/-! ## C14 -/

/-- **C14.** The truncated basis with `n` of `N` states keeps exactly the fundamental states whose centred label lies
on the centred grid of `n` points, under the same label. -/
theorem C14_truncated (same : Basis → Basis → Bool) (hs : Sound same) (n N : ℕ) (h : n ≤ N) :
    ∃ f g, Basis.convert same (.truncated n N) (.fundamental N) = some f ∧
      Basis.convert same (.fundamental N) (.truncated n N) = some g ∧
      (∀ v, ∀ j < n, ∀ x < N, freq N x = freq n j → f v x = v j) ∧
      (∀ v, ∀ x < N, ¬ OnGrid n (freq N x) → f v x = 0) ∧
      (∀ φ, ∀ j < n, ∀ x < N, freq N x = freq n j → g φ j = φ x) := by
  obtain ⟨f, g, hf, hg, F, G, -⟩ := C11_fundamental same hs (.truncated n N) h trivial
  refine ⟨f, g, hf, hg, ?_, ?_, ?_⟩
  · intro v j hj x hx e
    rw [F v x hx]
    unfold expand
    simp only [size, state]
    rw [sum_congr rfl fun i _ => mul_comm _ _]
    apply sum_ite_mul_eq j hj
    intro i hi
    constructor
    · intro hx'
      have h1 := congrArg (freq N) hx'
      rw [freq_slot (onGrid_mono h (freq_onGrid hi)), e] at h1
      rw [← slot_freq hi, ← h1, slot_freq hj]
    · rintro rfl
      rw [← e, slot_freq hx]
  · intro v x hx hne
    rw [F v x hx]
    unfold expand
    apply sum_eq_zero; intro i hi
    have hi' : i < n := mem_range.1 hi
    simp only [state]
    rw [if_neg, mul_zero]
    rintro rfl
    apply hne
    rw [freq_slot (onGrid_mono h (freq_onGrid hi'))]
    exact freq_onGrid hi'
  · intro φ j hj x hx e
    rw [G φ j hj]
    simp only [state, conj_ite_one, points]
    apply sum_ite_mul_eq x hx
    intro y hy
    rw [← e, slot_freq hx]

/-- **C14.** The momentum basis with `n` of `N` states keeps exactly the plane waves whose wave number lies on the
centred grid of `n` points, under the same wave number. -/
theorem C14_transformed (same : Basis → Basis → Bool) (hs : Sound same) (n N : ℕ) (h : n ≤ N) :
    ∃ f g, Basis.convert same (.transformed n N) (.fundamentalTransformed N) = some f ∧
      Basis.convert same (.fundamentalTransformed N) (.transformed n N) = some g ∧
      (∀ v, ∀ j < n, ∀ k < N, freq N k = freq n j → f v k = v j) ∧
      (∀ v, ∀ k < N, ¬ OnGrid n (freq N k) → f v k = 0) ∧
      (∀ φ, ∀ j < n, ∀ k < N, freq N k = freq n j → g φ j = φ k) := by
  obtain ⟨f, hf, kf⟩ := convert_kernel same hs (.transformed n N) (.fundamentalTransformed N) h trivial trivial rfl
  obtain ⟨g, hg, kg⟩ := convert_kernel same hs (.fundamentalTransformed N) (.transformed n N) trivial h trivial rfl
  have hov : ∀ j < n, ∀ k < N, ((N : ℤ) ∣ freq n j - k ↔ freq N k = freq n j) := by
    intro j hj k hk
    constructor
    · intro hd
      apply onGrid_unique (freq_onGrid hk) (onGrid_mono h (freq_onGrid hj))
      rw [freq_emod]
      exact (Int.emod_eq_emod_iff_emod_sub_eq_zero.2 (Int.emod_eq_zero_of_dvd hd)).symm
    · intro e
      rw [← e]
      apply Int.dvd_of_emod_eq_zero
      rw [← Int.emod_eq_emod_iff_emod_sub_eq_zero, freq_emod]
  have hinj : ∀ i < n, ∀ j < n, freq n i = freq n j → i = j := by
    intro i hi j hj e; rw [← slot_freq hi, ← slot_freq hj, e]
  have hF : ∀ v, ∀ k < N, f v k = ∑ i ∈ range n, (if freq N k = freq n i then 1 else 0) * v i := by
    intro v k hk
    rw [kf v k hk]
    apply sum_congr rfl; intro i hi
    unfold overlapKernel
    simp only [state, points]
    rw [planeWave_inner (by omega)]
    simp only [hov i (mem_range.1 hi) k hk]
  refine ⟨f, g, hf, hg, ?_, ?_, ?_⟩
  · intro v j hj k hk e
    rw [hF v k hk]
    apply sum_ite_mul_eq j hj
    intro i hi
    rw [e]
    exact ⟨fun h => (hinj j hj i hi h).symm, fun h => by rw [h]⟩
  · intro v k hk hne
    rw [hF v k hk]
    apply sum_ite_mul_zero
    intro i hi e
    exact hne (e ▸ freq_onGrid hi)
  · intro φ j hj k hk e
    rw [kg φ j hj]
    simp only [size]
    have : ∀ k' ∈ range N, overlapKernel (.fundamentalTransformed N) (.transformed n N) j k' * φ k' =
        (if freq N k' = freq n j then 1 else 0) * φ k' := by
      intro k' hk'
      unfold overlapKernel
      simp only [state, points]
      rw [planeWave_inner (by omega)]
      simp only [← hov j hj k' (mem_range.1 hk'), dvd_sub_comm]
    rw [sum_congr rfl this]
    apply sum_ite_mul_eq k hk
    intro k' hk'
    rw [← e]
    constructor
    · intro h'; rw [← slot_freq hk', ← slot_freq hk, h']
    · rintro rfl; rfl

-- the labels kept by 4 of 7 states: 0, 1, -2, -1 out of 0, 1, 2, 3, -3, -2, -1
example : (List.range 7).filter (fun x => decide (OnGrid 4 (freq 7 x))) = [0, 1, 5, 6] := by decide

end Verif
