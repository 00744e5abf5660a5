import Verif.Spec.Basis
import Verif.Lemmas.Kron
import Verif.Lemmas.Grid

/-!
Every basis object acts through its states: the methods of `Basis.methods b` are the linear maps with the
kernels given by `Spec.state b` and `Spec.plane b`.
-/

set_option autoImplicit false

namespace Verif

open Finset Spec

/-- `S j x` are orthonormal for `j < n` on `m` points. -/
def Orthonormal' (n m : ℕ) (S : ℕ → ℕ → ℂ) : Prop :=
  ∀ j < n, ∀ j' < n, ∑ x ∈ range m, (starRingEnd ℂ) (S j x) * S j' x = if j = j' then 1 else 0

/-- A square array with orthonormal rows and columns. -/
def Unitary' (m : ℕ) (D : ℕ → ℕ → ℂ) : Prop :=
  Orthonormal' m m D ∧ Orthonormal' m m (fun x k => D k x)

/-- The methods of an object act through the states `S` and plane waves `D`. -/
structure Lawful (b : Methods) (S D : ℕ → ℕ → ℂ) : Prop where
  intoF : HasKernel b.intoF b.n b.fn (fun x j => S j x)
  fromF : HasKernel b.fromF b.fn b.n (fun j x => (starRingEnd ℂ) (S j x))
  intoT : HasKernel b.intoT b.n b.fn (fun k j => ∑ x ∈ range b.fn, (starRingEnd ℂ) (D k x) * S j x)
  fromT : HasKernel b.fromT b.fn b.n (fun j k => ∑ x ∈ range b.fn, (starRingEnd ℂ) (S j x) * D k x)
  unitary : Unitary' b.fn D
  asT : b.asTransformed = true → D = fun k x : ℕ => planeWave b.fn k x

theorem planeWave_eq (n : ℕ) (k : ℤ) (x : ℕ) : planeWave n k x = FftNorm.fftScale n .ortho * phase n (k * x) := by
  unfold planeWave phase FftNorm.fftScale
  rw [div_eq_mul_inv, mul_comm, one_div]
  congr 3
  push_cast; ring

theorem ortho_scale_sq {n : ℕ} (hn : 0 < n) :
    FftNorm.fftScale n .ortho * FftNorm.fftScale n .ortho * n = 1 := by
  have := fft_scale_mul .ortho hn
  rwa [ortho_scale_eq] at this

theorem planeWave_inner {n : ℕ} (hn : 0 < n) (k k' : ℤ) :
    ∑ x ∈ range n, (starRingEnd ℂ) (planeWave n k x) * planeWave n k' x = if (n : ℤ) ∣ k' - k then 1 else 0 := by
  have h : ∀ x ∈ range n, (starRingEnd ℂ) (planeWave n k x) * planeWave n k' x =
      FftNorm.fftScale n .ortho * FftNorm.fftScale n .ortho * phase n ((k' - k) * x) := by
    intro x _
    rw [planeWave_eq, planeWave_eq, map_mul, ortho_scale_conj, phase_conj]
    have : phase n ((k' - k) * x) = phase n (-(k * x)) * phase n (k' * x) := by rw [← phase_add]; congr 1; ring
    rw [this]; ring
  rw [sum_congr rfl h, ← mul_sum, sum_phase hn]
  split
  · exact ortho_scale_sq hn
  · simp

theorem planeWave_inner' {n : ℕ} {j j' : ℕ} (hj : j < n) (hj' : j' < n) :
    ∑ x ∈ range n, (starRingEnd ℂ) (planeWave n j x) * planeWave n j' x = if j = j' then 1 else 0 := by
  rw [planeWave_inner (by omega)]
  simp only [dvd_sub_iff_eq hj' hj, eq_comm]

theorem planeWave_symm (n k x : ℕ) : planeWave n k x = planeWave n x k := by
  rw [planeWave_eq, planeWave_eq, mul_comm (k : ℤ)]

theorem planeWave_unitary (n : ℕ) : Unitary' n (fun k x : ℕ => planeWave n k x) := by
  constructor
  · intro j hj j' hj'; exact planeWave_inner' hj hj'
  · intro j hj j' hj'
    simp only [planeWave_symm n _ j, planeWave_symm n _ j']
    exact planeWave_inner' hj hj'

theorem planeWave_congr {n : ℕ} (hn : 0 < n) {k k' : ℤ} (h : (n : ℤ) ∣ k - k') (x : ℕ) :
    planeWave n k x = planeWave n k' x := by
  rw [planeWave_eq, planeWave_eq]
  congr 1
  apply phase_congr hn
  rw [← sub_mul]; exact Dvd.dvd.mul_right h _

theorem fft_kernel (n : ℕ) : HasKernel (fft .ortho n) n n (fun k x => (starRingEnd ℂ) (planeWave n k x)) := by
  intro v k _
  rw [fft_eq, mul_sum]
  apply sum_congr rfl; intro x _
  beta_reduce
  rw [planeWave_eq, map_mul, ortho_scale_conj, phase_conj]; ring

theorem ifft_kernel (n : ℕ) : HasKernel (ifft .ortho n) n n (fun x k => planeWave n k x) := by
  intro v k _
  rw [ifft_eq, mul_sum]
  apply sum_congr rfl; intro x _
  beta_reduce
  rw [planeWave_eq, ortho_scale_eq, mul_comm (k : ℤ)]; ring

/-- A class given by delta-like maps in the fundamental representation. -/
theorem lawful_asFundamental {n fn : ℕ} {asF fromF : (ℕ → ℂ) → ℕ → ℂ} {S : ℕ → ℕ → ℂ}
    (h1 : HasKernel asF n fn (fun x j => S j x))
    (h2 : HasKernel fromF fn n (fun j x => (starRingEnd ℂ) (S j x))) :
    Lawful (asFundamentalClass n fn asF fromF) S (fun k x : ℕ => planeWave fn k x) where
  intoF := h1
  fromF := h2
  intoT := h1.comp (fft_kernel fn)
  fromT := (ifft_kernel fn).comp h2
  unitary := planeWave_unitary fn
  asT := by intro h; cases h

/-- A class given by maps in the transformed representation: `C j k` is the coefficient of plane wave `k` in state
`j`. -/
theorem lawful_asTransformed {n fn : ℕ} {asT fromT : (ℕ → ℂ) → ℕ → ℂ} {S C : ℕ → ℕ → ℂ}
    (h1 : HasKernel asT n fn (fun k j => C j k))
    (h2 : HasKernel fromT fn n (fun j k => (starRingEnd ℂ) (C j k)))
    (hS : ∀ j < n, ∀ x < fn, S j x = ∑ k ∈ range fn, planeWave fn k x * C j k) :
    Lawful (asTransformedClass n fn asT fromT) S (fun k x : ℕ => planeWave fn k x) := by
  have hC : ∀ k < fn, ∀ j < n, ∑ x ∈ range fn, (starRingEnd ℂ) (planeWave fn k x) * S j x = C j k := by
    intro k hk j hj
    have : ∀ x ∈ range fn, (starRingEnd ℂ) (planeWave fn k x) * S j x =
        ∑ k' ∈ range fn, (starRingEnd ℂ) (planeWave fn k x) * planeWave fn k' x * C j k' := by
      intro x hx
      rw [hS j hj x (mem_range.1 hx), mul_sum]
      exact sum_congr rfl fun _ _ => by ring
    rw [sum_congr rfl this, sum_comm]
    have h3 : ∀ k' ∈ range fn, ∑ x ∈ range fn, (starRingEnd ℂ) (planeWave fn k x) * planeWave fn k' x * C j k' =
        if k = k' then C j k' else 0 := by
      intro k' hk'
      rw [← sum_mul, planeWave_inner' hk (mem_range.1 hk')]
      split <;> simp
    rw [sum_congr rfl h3, sum_ite_eq, if_pos (mem_range.2 hk)]
  have hC' : ∀ j < n, ∀ k < fn, ∑ x ∈ range fn, (starRingEnd ℂ) (S j x) * planeWave fn k x =
      (starRingEnd ℂ) (C j k) := by
    intro j hj k hk
    rw [← hC k hk j hj, map_sum]
    apply sum_congr rfl; intro x _
    rw [map_mul, Complex.conj_conj, mul_comm]
  refine ⟨?_, ?_, ?_, ?_, planeWave_unitary fn, fun _ => rfl⟩
  · refine (h1.comp (ifft_kernel fn)).congr ?_
    intro x hx j hj
    exact (hS j hj x hx).symm
  · refine ((fft_kernel fn).comp h2).congr ?_
    intro j hj x hx
    rw [hS j hj x hx, map_sum]
    apply sum_congr rfl; intro k _
    rw [map_mul, mul_comm]
  · exact h1.congr fun k hk j hj => (hC k hk j hj).symm
  · exact h2.congr fun j hj k hk => (hC' j hj k hk).symm

theorem conj_ite_one (p : Prop) [Decidable p] : (starRingEnd ℂ) (if p then (1 : ℂ) else 0) = if p then 1 else 0 := by
  split <;> simp

/-- The one-axis map which sends coefficient `j` to slot `s j`. -/
theorem sum_ite_mul_eq {n : ℕ} (c : ℕ) (hc : c < n) (v : ℕ → ℂ) (p : ℕ → Prop) [DecidablePred p]
    (h : ∀ j < n, p j ↔ j = c) : ∑ j ∈ range n, (if p j then (1 : ℂ) else 0) * v j = v c := by
  have : ∀ j ∈ range n, (if p j then (1 : ℂ) else 0) * v j = if j = c then v j else 0 := by
    intro j hj; simp only [h j (mem_range.1 hj)]; split <;> simp
  rw [sum_congr rfl this, sum_ite_eq', if_pos (mem_range.2 hc)]

theorem sum_ite_mul_zero {n : ℕ} (v : ℕ → ℂ) (p : ℕ → Prop) [DecidablePred p]
    (h : ∀ j < n, ¬ p j) : ∑ j ∈ range n, (if p j then (1 : ℂ) else 0) * v j = 0 := by
  apply sum_eq_zero; intro j hj; simp [h j (mem_range.1 hj)]

theorem pad_up_kernel {n fn : ℕ} (hle : n ≤ fn) :
    HasKernel (pad1 n fn) n fn (fun x j => if x = slot fn (freq n j) then 1 else 0) := by
  intro v x hx
  rw [pad1_eq n fn v hx]
  symm
  split
  · rename_i h
    apply sum_ite_mul_eq _ (slot_lt h)
    intro j hj
    constructor
    · rintro rfl
      rw [freq_slot (onGrid_mono hle (freq_onGrid hj)), slot_freq hj]
    · rintro rfl
      rw [freq_slot h, slot_freq hx]
  · rename_i h
    apply sum_ite_mul_zero
    rintro j hj rfl
    apply h
    rw [freq_slot (onGrid_mono hle (freq_onGrid hj))]
    exact freq_onGrid hj

theorem pad_down_kernel {n fn : ℕ} (hle : n ≤ fn) :
    HasKernel (pad1 fn n) fn n (fun j x => if x = slot fn (freq n j) then 1 else 0) := by
  intro v j hj
  have h := onGrid_mono hle (freq_onGrid hj)
  rw [pad1_eq fn n v hj, if_pos h]
  symm
  exact sum_ite_mul_eq _ (slot_lt h) v (fun x => x = slot fn (freq n j)) (fun _ _ => Iff.rfl)

theorem padSample_kernel {n step : ℕ} (hs : 0 < step) (offset : ℤ) :
    HasKernel (padSampleAxis n step offset) n (n * step)
      (fun x j => if (x : ℤ) = (offset + step * j) % (n * step : ℕ) then 1 else 0) := by
  intro v x hx
  have hn : 0 < n := Nat.pos_of_ne_zero fun h => by subst h; simp at hx
  unfold padSampleAxis
  set o := offset % step with ho
  set q := offset / (step : ℤ) with hq
  have hs' : (0 : ℤ) < step := by exact_mod_cast hs
  have hn' : (0 : ℤ) < n := by exact_mod_cast hn
  have ho1 : 0 ≤ o := Int.emod_nonneg _ hs'.ne'
  have ho2 : o < step := Int.emod_lt_of_pos _ hs'
  have hoff : offset = step * q + o := (Int.mul_ediv_add_emod offset step).symm
  have key : ∀ j : ℕ, (offset + step * j) % (n * step : ℕ) = step * ((q + j) % n) + o := by
    intro j
    have e : offset + step * j = step * (q + j) + o := by rw [hoff]; ring
    rw [e]
    have e2 : (step : ℤ) * (q + j) + o = (step * ((q + j) % n) + o) + (n * step : ℕ) * ((q + j) / n) := by
      have := Int.mul_ediv_add_emod (q + j) n
      push_cast
      linear_combination (-(step : ℤ)) * this
    rw [e2, Int.add_mul_emod_self_left]
    have h1 : 0 ≤ (q + j) % (n : ℤ) := Int.emod_nonneg _ hn'.ne'
    have h2 : (q + j) % (n : ℤ) < n := Int.emod_lt_of_pos _ hn'
    apply Int.emod_eq_of_lt
    · positivity
    · push_cast; nlinarith
  simp only [key]
  symm
  split
  · rename_i h
    obtain ⟨h1, h2⟩ := h
    set y := (x - o.toNat) / step with hy
    have hxy : (x : ℤ) = step * y + o := by
      have := Nat.div_add_mod (x - o.toNat) step
      rw [h2, add_zero, ← hy] at this
      have h3 : (x : ℤ) = (x - o.toNat : ℕ) + o := by omega
      rw [h3, ← this]; push_cast; ring
    have hyn : y < n := by
      have : (step : ℤ) * y < step * n := by push_cast at hx; nlinarith [show (x : ℤ) < n * step by exact_mod_cast hx]
      have := lt_of_mul_lt_mul_left this hs'.le
      exact_mod_cast this
    unfold roll
    have hc1 : 0 ≤ ((y : ℤ) - q) % n := Int.emod_nonneg _ hn'.ne'
    have hc2 : ((y : ℤ) - q) % n < n := Int.emod_lt_of_pos _ hn'
    have hc3 : (((y : ℤ) - q) % n).toNat < n := by
      generalize ((y : ℤ) - q) % n = z at hc1 hc2 ⊢; omega
    apply sum_ite_mul_eq _ hc3
    intro j hj
    rw [hxy]
    constructor
    · intro h
      have h4 : (y : ℤ) = (q + j) % n := by
        have : (step : ℤ) * y = step * ((q + j) % n) := by linarith
        exact mul_left_cancel₀ hs'.ne' this
      have h5 : ((y : ℤ) - q) % n = j := by
        rw [h4, Int.emod_sub_emod, add_sub_cancel_left, Int.emod_eq_of_lt (by omega) (by omega)]
      omega
    · rintro rfl
      rw [Int.toNat_of_nonneg hc1, Int.add_emod_emod, add_sub_cancel,
        Int.emod_eq_of_lt (Int.natCast_nonneg y) (by exact_mod_cast hyn)]
  · rename_i h
    apply sum_ite_mul_zero
    intro j hj hx2
    apply h
    have h1 : 0 ≤ (q + j) % (n : ℤ) := Int.emod_nonneg _ hn'.ne'
    obtain ⟨t, ht⟩ := Int.eq_ofNat_of_zero_le h1
    have h3 : x = step * t + o.toNat := by
      rw [ht] at hx2; zify; rw [Int.toNat_of_nonneg ho1]; exact hx2
    constructor
    · omega
    · rw [h3, Nat.add_sub_cancel, Nat.mul_mod_right]

theorem truncateSample_kernel {n step : ℕ} (hs : 0 < step) (offset : ℤ) :
    HasKernel (truncateSampleAxis n step offset) (n * step) n
      (fun j x => if (x : ℤ) = (offset + step * j) % (n * step : ℕ) then 1 else 0) := by
  intro v j hj
  have hn : 0 < n := by omega
  unfold truncateSampleAxis roll
  set o := offset % step with ho
  set q := offset / (step : ℤ) with hq
  have hs' : (0 : ℤ) < step := by exact_mod_cast hs
  have hn' : (0 : ℤ) < n := by exact_mod_cast hn
  have ho1 : 0 ≤ o := Int.emod_nonneg _ hs'.ne'
  have ho2 : o < step := Int.emod_lt_of_pos _ hs'
  have hoff : offset = step * q + o := (Int.mul_ediv_add_emod offset step).symm
  have h1 : 0 ≤ (q + j) % (n : ℤ) := Int.emod_nonneg _ hn'.ne'
  have h2 : (q + j) % (n : ℤ) < n := Int.emod_lt_of_pos _ hn'
  have key : (offset + step * j) % (n * step : ℕ) = step * ((q + j) % n) + o := by
    have e : offset + step * j = step * (q + j) + o := by rw [hoff]; ring
    rw [e]
    have e2 : (step : ℤ) * (q + j) + o = (step * ((q + j) % n) + o) + (n * step : ℕ) * ((q + j) / n) := by
      have := Int.mul_ediv_add_emod (q + j) n
      push_cast
      linear_combination (-(step : ℤ)) * this
    rw [e2, Int.add_mul_emod_self_left]
    apply Int.emod_eq_of_lt
    · positivity
    · push_cast; nlinarith
  beta_reduce
  rw [key]
  obtain ⟨t, ht⟩ := Int.eq_ofNat_of_zero_le h1
  have e1 : ((j : ℤ) - -q) % n = t := by rw [sub_neg_eq_add, add_comm, ht]
  rw [e1, Int.toNat_natCast]
  symm
  apply sum_ite_mul_eq
  · have : (t : ℤ) < n := by omega
    have : t < n := by omega
    have : o.toNat < step := by omega
    calc o.toNat + step * t < step + step * t := by omega
      _ = step * (t + 1) := by ring
      _ ≤ step * n := Nat.mul_le_mul_left _ (by omega)
      _ = n * step := by ring
  · intro x _
    rw [ht]
    constructor
    · intro h; zify; rw [Int.toNat_of_nonneg ho1, h]; ring
    · rintro rfl; push_cast; rw [Int.toNat_of_nonneg ho1]; ring


theorem lawful_fundamental (n : ℕ) :
    Lawful (fundamentalMethods n) (fun j x => if x = j then 1 else 0) (fun k x : ℕ => planeWave n k x) := by
  apply lawful_asFundamental
  · exact hasKernel_id n
  · refine (hasKernel_id n).congr fun j _ x _ => ?_
    rw [conj_ite_one]; simp only [eq_comm]

theorem lawful_truncated {n fn : ℕ} (h : n ≤ fn) :
    Lawful (truncatedMethods n fn) (fun j x => if x = slot fn (freq n j) then 1 else 0)
      (fun k x : ℕ => planeWave fn k x) := by
  apply lawful_asFundamental
  · exact pad_up_kernel h
  · refine (pad_down_kernel h).congr fun j _ x _ => ?_
    rw [conj_ite_one]

theorem lawful_transformed {n fn : ℕ} (h : n ≤ fn) :
    Lawful (transformedMethods n fn) (fun j x => planeWave fn (freq n j) x) (fun k x : ℕ => planeWave fn k x) := by
  apply lawful_asTransformed (C := fun j k => if k = slot fn (freq n j) then 1 else 0)
  · exact pad_up_kernel h
  · refine (pad_down_kernel h).congr fun j _ x _ => ?_
    rw [conj_ite_one]
  · intro j hj x hx
    have hg := onGrid_mono h (freq_onGrid hj)
    have hlt := slot_lt hg
    simp only [mul_ite, mul_one, mul_zero, sum_ite_eq', mem_range, hlt, if_true]
    apply planeWave_congr (by omega)
    rw [slot_emod hg]
    exact Int.dvd_of_emod_eq_zero (by simp [Int.sub_emod])

theorem lawful_fundamentalTransformed (n : ℕ) :
    Lawful (fundamentalTransformedMethods n) (fun j x : ℕ => planeWave n j x) (fun k x : ℕ => planeWave n k x) := by
  apply lawful_asTransformed (C := fun j k => if k = j then 1 else 0)
  · exact hasKernel_id n
  · refine (hasKernel_id n).congr fun j _ x _ => ?_
    rw [conj_ite_one]; simp only [eq_comm]
  · intro j hj x _
    simp only [mul_ite, mul_one, mul_zero, sum_ite_eq', mem_range, hj, if_true]

theorem lawful_evenlySpaced {n step : ℕ} (hs : 0 < step) (offset : ℤ) :
    Lawful (evenlySpacedMethods n step offset)
      (fun j x => if (x : ℤ) = (offset + step * j) % (n * step : ℕ) then 1 else 0)
      (fun k x : ℕ => planeWave (n * step) k x) := by
  apply lawful_asFundamental
  · exact padSample_kernel hs offset
  · refine (truncateSample_kernel hs offset).congr fun j _ x _ => ?_
    rw [conj_ite_one]

theorem lawful_evenlySpacedTransformed {n step : ℕ} (hs : 0 < step) (offset : ℤ) :
    Lawful (evenlySpacedTransformedMethods n step offset)
      (fun j x : ℕ => planeWave (n * step) (offset + step * j) x)
      (fun k x : ℕ => planeWave (n * step) k x) := by
  apply lawful_asTransformed
    (C := fun j k => if (k : ℤ) = (offset + step * j) % (n * step : ℕ) then 1 else 0)
  · exact padSample_kernel hs offset
  · refine (truncateSample_kernel hs offset).congr fun j _ x _ => ?_
    rw [conj_ite_one]
  · intro j hj x hx
    have hpos : 0 < n * step := by omega
    have hpos' : (0 : ℤ) < (n * step : ℕ) := by exact_mod_cast hpos
    have h1 : 0 ≤ (offset + step * j) % (n * step : ℕ) := Int.emod_nonneg _ hpos'.ne'
    have h2 : (offset + step * j) % (n * step : ℕ) < (n * step : ℕ) := Int.emod_lt_of_pos _ hpos'
    obtain ⟨t, ht⟩ := Int.eq_ofNat_of_zero_le h1
    rw [ht] at h2
    have h2' : t < n * step := by exact_mod_cast h2
    have e : ∀ k : ℕ, (k : ℤ) = t ↔ k = t := fun k => by omega
    simp only [ht, e, mul_ite, mul_one, mul_zero, sum_ite_eq', mem_range, h2', if_true]
    apply planeWave_congr hpos
    rw [← ht]
    exact Int.dvd_of_emod_eq_zero (by simp [Int.sub_emod])

theorem intoState_kernel (n m : ℕ) (raw : ℕ → ℕ → ℂ) :
    HasKernel (intoStateBasis n raw) n m (fun k j => raw j k) := by
  intro v k _
  exact sum_congr rfl fun j _ => mul_comm _ _

theorem fromState_kernel (n m : ℕ) (raw : ℕ → ℕ → ℂ) :
    HasKernel (fromStateBasis m raw) m n (fun j k => (starRingEnd ℂ) (raw j k)) := by
  intro v k _; rfl

theorem lawful_explicit (n : ℕ) (raw : ℕ → ℕ → ℂ) {b : Methods} {S D : ℕ → ℕ → ℂ} (h : Lawful b S D) :
    Lawful (explicitMethods n raw b) (fun j x => ∑ k ∈ range b.n, raw j k * S k x) D := by
  refine ⟨?_, ?_, ?_, ?_, h.unitary, by intro h; cases h⟩
  · refine ((intoState_kernel n b.n raw).comp h.intoF).congr fun x _ j _ => ?_
    exact sum_congr rfl fun k _ => mul_comm _ _
  · refine (h.fromF.comp (fromState_kernel n b.n raw)).congr fun j _ x _ => ?_
    rw [map_sum]
    exact sum_congr rfl fun k _ => by rw [map_mul]
  · refine ((intoState_kernel n b.n raw).comp h.intoT).congr fun k _ j _ => ?_
    simp only [sum_mul, mul_sum]
    rw [sum_comm]
    exact sum_congr rfl fun x _ => sum_congr rfl fun i _ => by ring
  · refine (h.fromT.comp (fromState_kernel n b.n raw)).congr fun j _ k _ => ?_
    simp only [sum_mul, mul_sum, map_sum, map_mul]
    rw [sum_comm]
    exact sum_congr rfl fun x _ => sum_congr rfl fun i _ => by ring

/-- An axis of a tuple with its states and plane waves. -/
structure LawAxis where
  b : Methods
  S : ℕ → ℕ → ℂ
  D : ℕ → ℕ → ℂ
  law : Lawful b S D

/-- The kernel of the expansion in the states of an axis. -/
def LawAxis.kS (a : LawAxis) : AxisKernel := ⟨a.b.n, a.b.fn, fun x j => a.S j x⟩

/-- The kernel of the inverse Fourier transform of an axis. -/
noncomputable def LawAxis.kD (a : LawAxis) : AxisKernel := ⟨a.b.fn, a.b.fn, fun x k => planeWave a.b.fn k x⟩

theorem fundamentalMethods_fn (n : ℕ) : (fundamentalMethods n).fn = n := rfl

theorem fundamentalTransformedMethods_fn (n : ℕ) : (fundamentalTransformedMethods n).fn = n := rfl

theorem axis_intoF (a : LawAxis) :
    HasKernel ((convertGeneric false a.b (fundamentalMethods a.b.fn)).getD fun v => v) a.kS.n a.kS.m a.kS.K := by
  have : (convertGeneric false a.b (fundamentalMethods a.b.fn)) = some a.b.intoF := by
    unfold convertGeneric
    rw [fundamentalMethods_fn, if_pos rfl]
    simp [fundamentalMethods, asFundamentalClass]
  rw [this]
  exact a.law.intoF

theorem axis_fromF (a : LawAxis) :
    HasKernel ((convertGeneric false (fundamentalMethods a.b.fn) a.b).getD fun v => v)
      a.kS.swap.conj.n a.kS.swap.conj.m a.kS.swap.conj.K := by
  have : (convertGeneric false (fundamentalMethods a.b.fn) a.b) = some a.b.fromF := by
    unfold convertGeneric
    rw [fundamentalMethods_fn, if_pos rfl]
    simp [fundamentalMethods, asFundamentalClass]
  rw [this]
  exact a.law.fromF

theorem axis_intoT (a : LawAxis) :
    HasKernel ((convertGeneric false a.b (fundamentalTransformedMethods a.b.fn)).getD fun v => v)
      (a.kD.swap.conj.comp a.kS).n (a.kD.swap.conj.comp a.kS).m (a.kD.swap.conj.comp a.kS).K := by
  unfold convertGeneric
  rw [fundamentalTransformedMethods_fn, if_pos rfl]
  by_cases h : a.b.asTransformed = true
  · simp only [Bool.false_eq_true, if_false, h, Bool.true_and]
    have h2 := a.law.intoT
    rw [a.law.asT h] at h2
    exact h2
  · simp only [Bool.false_eq_true, if_false, h, Bool.false_and]
    exact a.law.intoF.comp (fft_kernel a.b.fn)

theorem axis_fromT (a : LawAxis) :
    HasKernel ((convertGeneric false (fundamentalTransformedMethods a.b.fn) a.b).getD fun v => v)
      (a.kS.swap.conj.comp a.kD).n (a.kS.swap.conj.comp a.kD).m (a.kS.swap.conj.comp a.kD).K := by
  unfold convertGeneric
  rw [fundamentalTransformedMethods_fn, if_pos rfl]
  by_cases h : a.b.asTransformed = true
  · have : (fundamentalTransformedMethods a.b.fn).asTransformed = true := rfl
    simp only [Bool.false_eq_true, if_false, h, this, Bool.and_self, if_true]
    have h2 := a.law.fromT
    rw [a.law.asT h] at h2
    exact h2
  · simp only [Bool.false_eq_true, if_false, h, Bool.and_false]
    exact (ifft_kernel a.b.fn).comp a.law.fromF

theorem forall₂_map_left {α β γ : Type*} (R : β → γ → Prop) (f : α → β) (g : α → γ) (l : List α)
    (h : ∀ a, R (f a) (g a)) : List.Forall₂ R (l.map f) (l.map g) := by
  induction l with
  | nil => exact .nil
  | cons a l ih => exact .cons (h a) ih

theorem kD_M (l : List LawAxis) : kronM (l.map LawAxis.kD) = kronM (l.map LawAxis.kS) := by
  induction l with
  | nil => rfl
  | cons a l ih => simp only [List.map_cons, kronM, ih]; rfl

theorem kD_N (l : List LawAxis) : kronN (l.map LawAxis.kD) = kronM (l.map LawAxis.kS) := by
  induction l with
  | nil => rfl
  | cons a l ih => simp only [List.map_cons, kronM, kronN, ih]; rfl

theorem kron_sizes (l : List LawAxis) :
    (l.map fun a => a.b.n) = (l.map LawAxis.kS).map AxisKernel.n ∧
    (l.map fun a => a.b.fn) = (l.map LawAxis.kS).map AxisKernel.m := by
  constructor <;> simp only [List.map_map] <;> rfl

theorem lawful_tuple (l : List LawAxis) :
    Lawful (tupleMethods (l.map LawAxis.b)) (fun j x => kron (l.map LawAxis.kS) x j)
      (fun k x => kron (l.map LawAxis.kD) x k) := by
  have hn : (tupleMethods (l.map LawAxis.b)).n = kronN (l.map LawAxis.kS) := by
    rw [kronN_eq]; simp only [tupleMethods, List.map_map]; rfl
  have hfn : (tupleMethods (l.map LawAxis.b)).fn = kronM (l.map LawAxis.kS) := by
    rw [kronM_eq]; simp only [tupleMethods, List.map_map]; rfl
  refine ⟨?_, ?_, ?_, ?_, ?_, by intro h; cases h⟩
  · have h := convertTupleVector_kernel (l.map LawAxis.kS)
      (axesInto (l.map LawAxis.b) fundamentalMethods) (by
        unfold axesInto; rw [List.map_map]
        exact forall₂_map_left _ _ _ l fun a => axis_intoF a)
    rw [hn, hfn]
    convert h using 3 <;> simp [tupleMethods, List.map_map] <;> rfl
  · have h := convertTupleVector_kernel ((l.map LawAxis.kS).map fun a => a.swap.conj)
      (axesFrom (l.map LawAxis.b) fundamentalMethods) (by
        unfold axesFrom; rw [List.map_map, List.map_map]
        exact forall₂_map_left _ _ _ l fun a => axis_fromF a)
    rw [hn, hfn]
    have e : ((l.map LawAxis.kS).map fun a => a.swap.conj) =
        ((l.map LawAxis.kS).map AxisKernel.swap).map AxisKernel.conj := by simp
    rw [e, kronN_conj, kronM_conj, kronN_swap, kronM_swap] at h
    have h' := h.congr (K' := fun j x => (starRingEnd ℂ) (kron (l.map LawAxis.kS) x j)) (by
      intro j _ x _; rw [kron_conj, kron_swap])
    convert h' using 2 <;> simp [tupleMethods, List.map_map] <;> rfl
  · have h := convertTupleVector_kernel (l.map fun a => a.kD.swap.conj.comp a.kS)
      (axesInto (l.map LawAxis.b) fundamentalTransformedMethods) (by
        unfold axesInto; rw [List.map_map]
        exact forall₂_map_left _ _ _ l fun a => axis_intoT a)
    have e : (l.map fun a => a.kD.swap.conj.comp a.kS) =
        (l.map fun a => (a.kD.swap.conj, a.kS)).map fun p => p.1.comp p.2 := by simp
    have eN : kronN (l.map fun a => a.kD.swap.conj.comp a.kS) = kronN (l.map LawAxis.kS) := by
      rw [kronN_eq, kronN_eq]; simp only [List.map_map]; rfl
    have eM : kronM (l.map fun a => a.kD.swap.conj.comp a.kS) = kronM (l.map LawAxis.kS) := by
      rw [kronM_eq, kronM_eq]; simp only [List.map_map]; rfl
    rw [eN, eM] at h
    rw [hn, hfn]
    have h' := h.congr (K' := fun k j => ∑ x ∈ range (kronM (l.map LawAxis.kS)),
        (starRingEnd ℂ) (kron (l.map LawAxis.kD) x k) * kron (l.map LawAxis.kS) x j) (by
      intro k _ j _
      rw [e, kron_comp _ (by
        intro p hp; rw [List.mem_map] at hp; obtain ⟨a, _, rfl⟩ := hp; rfl)]
      have e1 : (l.map fun a => (a.kD.swap.conj, a.kS)).map Prod.snd = l.map LawAxis.kS := by simp
      have e2 : (l.map fun a => (a.kD.swap.conj, a.kS)).map Prod.fst =
        ((l.map LawAxis.kD).map AxisKernel.swap).map AxisKernel.conj := by simp
      rw [e1, e2]
      exact sum_congr rfl fun x _ => by rw [kron_conj, kron_swap])
    convert h' using 2 <;> simp [tupleMethods, List.map_map] <;> rfl
  · have h := convertTupleVector_kernel (l.map fun a => a.kS.swap.conj.comp a.kD)
      (axesFrom (l.map LawAxis.b) fundamentalTransformedMethods) (by
        unfold axesFrom; rw [List.map_map]
        exact forall₂_map_left _ _ _ l fun a => axis_fromT a)
    have e : (l.map fun a => a.kS.swap.conj.comp a.kD) =
        (l.map fun a => (a.kS.swap.conj, a.kD)).map fun p => p.1.comp p.2 := by simp
    have eN : kronN (l.map fun a => a.kS.swap.conj.comp a.kD) = kronM (l.map LawAxis.kS) := by
      rw [kronN_eq, kronM_eq]; simp only [List.map_map]; rfl
    have eM : kronM (l.map fun a => a.kS.swap.conj.comp a.kD) = kronN (l.map LawAxis.kS) := by
      rw [kronM_eq, kronN_eq]; simp only [List.map_map]; rfl
    rw [eN, eM] at h
    rw [hn, hfn]
    have h' := h.congr (K' := fun j k => ∑ x ∈ range (kronM (l.map LawAxis.kS)),
        (starRingEnd ℂ) (kron (l.map LawAxis.kS) x j) * kron (l.map LawAxis.kD) x k) (by
      intro k _ j _
      rw [e, kron_comp _ (by
        intro p hp; rw [List.mem_map] at hp; obtain ⟨a, _, rfl⟩ := hp; rfl)]
      have e1 : (l.map fun a => (a.kS.swap.conj, a.kD)).map Prod.snd = l.map LawAxis.kD := by simp
      have e2 : (l.map fun a => (a.kS.swap.conj, a.kD)).map Prod.fst =
        ((l.map LawAxis.kS).map AxisKernel.swap).map AxisKernel.conj := by simp
      rw [e1, e2, kD_M]
      exact sum_congr rfl fun x _ => by rw [kron_conj, kron_swap])
    convert h' using 2 <;> simp [tupleMethods, List.map_map] <;> rfl
  · rw [hfn]
    constructor
    · have h := kron_orthonormal (l.map LawAxis.kD) (by
        intro a ha
        rw [List.mem_map] at ha; obtain ⟨a, _, rfl⟩ := ha
        intro j hj j' hj'
        exact planeWave_inner' hj hj')
      rw [kD_N, kD_M] at h
      exact h
    · have h := kron_orthonormal ((l.map LawAxis.kD).map AxisKernel.swap) (by
        intro a ha
        rw [List.map_map, List.mem_map] at ha; obtain ⟨a, _, rfl⟩ := ha
        intro j hj j' hj'
        exact (planeWave_unitary a.b.fn).2 j hj j' hj')
      rw [kronN_swap, kronM_swap, kD_N, kD_M] at h
      intro j hj j' hj'
      have := h j hj j' hj'
      simp only [kron_swap] at this
      exact this

mutual
theorem methods_sizes : ∀ b : Basis, b.methods.n = size b ∧ b.methods.fn = points b
  | .fundamental _ => ⟨rfl, rfl⟩
  | .truncated _ _ => ⟨rfl, rfl⟩
  | .transformed _ _ => ⟨rfl, rfl⟩
  | .fundamentalTransformed _ => ⟨rfl, rfl⟩
  | .evenlySpaced _ _ _ => ⟨rfl, rfl⟩
  | .evenlySpacedTransformed _ _ _ => ⟨rfl, rfl⟩
  | .tuple axes => methodsList_sizes axes
  | .explicit n raw inner => ⟨rfl, (methods_sizes inner).2⟩

theorem methodsList_sizes : ∀ l : List Basis, ((Basis.methodsList l).map Methods.n).prod = sizes l ∧
    ((Basis.methodsList l).map Methods.fn).prod = pointss l
  | [] => ⟨rfl, rfl⟩
  | b :: bs => by
    have h1 := methods_sizes b
    have h2 := methodsList_sizes bs
    simp only [Basis.methodsList, List.map_cons, List.prod_cons, sizes, pointss, h1.1, h1.2, h2.1, h2.2, and_self]
end

mutual
/-- Every valid basis object acts through its states. -/
theorem lawful_basis : ∀ b : Basis, Valid b → Lawful b.methods (state b) (plane b)
  | .fundamental n, _ => lawful_fundamental n
  | .truncated n fn, h => lawful_truncated h
  | .transformed n fn, h => lawful_transformed h
  | .fundamentalTransformed n, _ => lawful_fundamentalTransformed n
  | .evenlySpaced n step offset, h => lawful_evenlySpaced h offset
  | .evenlySpacedTransformed n step offset, h => lawful_evenlySpacedTransformed h offset
  | .tuple axes, h => by
    obtain ⟨l, h1, h2, h3⟩ := lawful_basisList axes h
    have hl := lawful_tuple l
    rw [h1] at hl
    have e1 : state (.tuple axes) = fun j x => kron (l.map LawAxis.kS) x j := by
      funext j x; exact (h2 j x).symm
    have e2 : plane (.tuple axes) = fun j x => kron (l.map LawAxis.kD) x j := by
      funext j x; exact (h3 j x).symm
    rw [e1, e2]
    exact hl
  | .explicit n raw inner, h => by
    have hi := lawful_basis inner h
    have := lawful_explicit n raw hi
    rw [(methods_sizes inner).1] at this
    exact this

theorem lawful_basisList : ∀ bs : List Basis, Valids bs → ∃ l : List LawAxis,
    l.map LawAxis.b = Basis.methodsList bs ∧ (∀ j x, kron (l.map LawAxis.kS) x j = states bs j x) ∧
    (∀ k x, kron (l.map LawAxis.kD) x k = planes bs k x)
  | [], _ => ⟨[], rfl, fun _ _ => rfl, fun _ _ => rfl⟩
  | b :: bs, h => by
    obtain ⟨l, h1, h2, h3⟩ := lawful_basisList bs h.2
    have hb := lawful_basis b h.1
    have hs := methods_sizes b
    have hN : kronN (l.map LawAxis.kS) = sizes bs := by
      rw [kronN_eq, ← (methodsList_sizes bs).1, ← h1]; simp only [List.map_map]; rfl
    have hM : kronM (l.map LawAxis.kS) = pointss bs := by
      rw [kronM_eq, ← (methodsList_sizes bs).2, ← h1]; simp only [List.map_map]; rfl
    refine ⟨⟨b.methods, state b, plane b, hb⟩ :: l, ?_, ?_, ?_⟩
    · simp only [List.map_cons, h1, Basis.methodsList]
    · intro j x
      simp only [List.map_cons, kron, hN, hM, h2, states]; rfl
    · intro k x
      simp only [List.map_cons, kron, kD_N, kD_M, hM, h3, planes]
      simp only [LawAxis.kD, hs.2]
end

end Verif
