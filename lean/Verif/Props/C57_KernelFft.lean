import Verif.Model.KernelFft
import Verif.Props.C60_AxisKernel
import Verif.Lemmas.Grid

/-!
C57: noise operators of isotropic kernels by Fourier transforms.
-/

set_option autoImplicit false

namespace Verif

open Finset Spec

/-! ## One axis -/

theorem toNat_emod_lt {N : ℕ} (hN : 0 < N) (z : ℤ) : (z % N).toNat < N := by
  have := Int.emod_lt_of_pos z (show (0 : ℤ) < N by omega)
  have := Int.emod_nonneg z (show (N : ℤ) ≠ 0 by omega)
  omega

theorem toNat_emod_cast {N : ℕ} (hN : 0 < N) (z : ℤ) : ((z % N).toNat : ℤ) = z % N :=
  Int.toNat_of_nonneg (Int.emod_nonneg z (show (N : ℤ) ≠ 0 by omega))

/-- The inverse transform of a transform, at any integer. -/
theorem sum_phase_inverse {N : ℕ} (hN : 0 < N) (f : ℕ → ℂ) (z : ℤ) :
    ∑ a ∈ range N, phase N (-(a * z : ℤ)) * ∑ j ∈ range N, phase N (a * j : ℤ) * f j = N * f (z % N).toNat := by
  have e : ∀ a ∈ range N, phase N (-(a * z : ℤ)) * ∑ j ∈ range N, phase N (a * j : ℤ) * f j =
      ∑ j ∈ range N, phase N (a * ((j : ℤ) - z)) * f j := by
    intro a _
    rw [mul_sum]
    refine sum_congr rfl fun j _ => ?_
    rw [← mul_assoc, ← phase_add]
    congr 2
    ring
  rw [sum_congr rfl e, sum_comm]
  have e2 : ∀ j ∈ range N, ∑ a ∈ range N, phase N (a * ((j : ℤ) - z)) * f j = if j = (z % N).toNat then N * f j else 0 := by
    intro j hj
    rw [← sum_mul, sum_phase' hN]
    have hc := toNat_emod_cast hN z
    have hiff : (N : ℤ) ∣ (j : ℤ) - z ↔ j = (z % N).toNat := by
      rw [← dvd_sub_iff_eq (mem_range.1 hj) (toNat_emod_lt hN z), hc]
      constructor
      · intro h
        have := dvd_add h (Int.dvd_self_sub_emod (x := z) (m := N))
        rwa [sub_add_sub_cancel] at this
      · intro h
        have := dvd_sub h (Int.dvd_self_sub_emod (x := z) (m := N))
        rwa [sub_sub_sub_cancel_right] at this
    by_cases h : j = (z % N).toNat
    · rw [if_pos h, if_pos (hiff.2 h)]
    · rw [if_neg h, if_neg (fun h' => h (hiff.1 h')), zero_mul]
  rw [sum_congr rfl e2, sum_ite_eq' (range N), if_pos (mem_range.2 (toNat_emod_lt hN z))]

theorem isotropicOperators_entry (n N : ℕ) (a m : ℕ) (hm : m < n) :
    flatten n (fun a m => Complex.exp (Complex.I * (a : ℂ) * ((2 * Real.pi / (N : ℝ) : ℝ) : ℂ) * ((nkPoints n m : ℤ) : ℂ)) /
      ((Real.sqrt n : ℝ) : ℂ)) (a * n + m) = phase N (a * nkPoints n m) / ((Real.sqrt n : ℝ) : ℂ) := by
  rw [flatten_entry _ _ hm, phase]
  congr 2
  push_cast
  ring

theorem nkPoints_emod {n N m : ℕ} (hm : m < n) (h : N ∣ n) : (nkPoints n m) % N = (m : ℤ) % N := by
  rw [nkPoints_eq_freq hm]
  have hd : ((N : ℕ) : ℤ) ∣ (n : ℤ) := by exact_mod_cast h
  rw [← Int.emod_emod_of_dvd (freq n m) hd, freq_emod, Int.emod_emod_of_dvd _ hd]

theorem sqrt_mul_self' {n : ℕ} : ((Real.sqrt n : ℝ) : ℂ) * ((Real.sqrt n : ℝ) : ℂ) = (n : ℂ) := by
  rw [← Complex.ofReal_mul, Real.mul_self_sqrt (by positivity)]
  simp

/-- The operators are returned exactly when the length of the sample divides the number of points, or without the assertion. -/
theorem C57_refuses (n : ℕ) (β : ℕ → ℂ) (N : ℕ) (hN : 0 < N) (check : Bool) :
    (isotropicFft n β (some N) check).isSome ↔ (check = true → N ∣ n) := by
  unfold isotropicFft isotropicOperators periodicSample
  simp only [Option.getD_some, Option.isSome_map]
  rw [Nat.dvd_iff_mod_eq_zero]
  by_cases h : n % N = 0 <;> cases check <;> simp [h, hN]

/-- **C57.** The kernel of the Fourier operators of `N` frequencies, at two points of the grid: the value of the given kernel at
the displacement which is congruent to the displacement of the points modulo `N` and lies in `[-N/2, N/2)`; zero if the given
kernel has no such displacement. -/
theorem C57_kernel (n : ℕ) (β : ℕ → ℂ) (N : ℕ) (hN : 0 < N) (check : Bool) (ops : DiagonalNoiseOperators)
    (h : isotropicFft n β (some N) check = some ops) :
    ops.dim = n ∧ ops.count = N ∧ ∃ K, getDiagonalKernel ops = some K ∧ ∀ i < n, ∀ j < n, ∀ f : ℤ, OnGrid N f →
      f ≡ nkPoints n i - nkPoints n j [ZMOD N] →
      (OnGrid n f → K (i * n + j) = β (slot n f)) ∧ (¬ OnGrid n f → K (i * n + j) = 0) := by
  unfold isotropicFft isotropicOperators at h
  simp only [Option.getD_some, Option.map_eq_some_iff] at h
  obtain ⟨o, ho, h⟩ := h
  split_ifs at ho
  obtain rfl := Option.some.inj ho
  have hvc : ops.values = ops.count := by subst h; rfl
  obtain ⟨K, hK, hv⟩ := getDiagonalKernel_entries ops hvc
  subst h
  refine ⟨rfl, rfl, ?_⟩
  refine ⟨K, hK, fun i hi j hj f hf hmod => ?_⟩
  have hn : (n : ℂ) ≠ 0 := by
    have : 0 < n := by omega
    exact_mod_cast this.ne'
  have hNc : (N : ℂ) ≠ 0 := by exact_mod_cast hN.ne'
  have key : K (i * n + j) = pad1 n N β ((nkPoints n i - nkPoints n j) % N).toNat := by
    refine (hv i j hj).trans ?_
    unfold noiseKernel
    have e : ∀ a ∈ range N, isotropicEigenvalues n β (some N) a *
        (starRingEnd ℂ) (phase N (a * nkPoints n i) / ((Real.sqrt n : ℝ) : ℂ)) * (phase N (a * nkPoints n j) / ((Real.sqrt n : ℝ) : ℂ)) =
        1 / (N : ℂ) * (phase N (-(a * (nkPoints n i - nkPoints n j) : ℤ)) * ∑ x ∈ range N, phase N (a * x : ℤ) * pad1 n N β x) := by
      intro a _
      unfold isotropicEigenvalues
      simp only [Option.getD_some]
      rw [ifft_eq, map_div₀, Complex.conj_ofReal, phase_conj]
      have e1 : phase N (-(a * (nkPoints n i - nkPoints n j) : ℤ)) = phase N (-(a * nkPoints n i)) * phase N (a * nkPoints n j) := by
        rw [← phase_add]; congr 1; ring
      rw [e1]
      have e2 : FftNorm.ifftScale N .forward = 1 := rfl
      rw [e2]
      have hs : ((Real.sqrt n : ℝ) : ℂ) ≠ 0 := fun h0 => hn (by rw [← sqrt_mul_self', h0, mul_zero])
      have hq : ((Real.sqrt n : ℝ) : ℂ) * ((Real.sqrt n : ℝ) : ℂ) = (n : ℂ) := sqrt_mul_self'
      generalize phase N (-(a * nkPoints n i)) = A
      generalize phase N (a * nkPoints n j) = B
      generalize ∑ x ∈ range N, phase N (a * x : ℤ) * pad1 n N β x = S
      rw [← hq]
      field_simp
    refine (sum_congr rfl fun a ha => ?_).trans ((sum_congr rfl e).trans ?_)
    · beta_reduce
      dsimp only
      rw [isotropicOperators_entry n N a i hi, isotropicOperators_entry n N a j hj]
    · rw [← mul_sum, sum_phase_inverse hN]
      field_simp
  have hslot : ((nkPoints n i - nkPoints n j) % N).toNat = slot N f := by
    have h1 := slot_emod hf
    rw [hmod.eq] at h1
    have := toNat_emod_cast hN (nkPoints n i - nkPoints n j)
    omega
  rw [key, hslot, pad1_eq n N β (slot_lt hf), freq_slot hf]
  exact ⟨fun hg => if_pos hg, fun hg => if_neg hg⟩

/-- **C57.** With the assertion the number of frequencies divides the number of points, and the kernel of the operators repeats
after as many points: its value is the value of the given kernel at the smallest congruent displacement. -/
theorem C57_kernel_periodic (n : ℕ) (β : ℕ → ℂ) (N : ℕ) (hN : 0 < N) (ops : DiagonalNoiseOperators)
    (h : isotropicFft n β (some N) true = some ops) :
    ∃ K, getDiagonalKernel ops = some K ∧ ∀ i < n, ∀ j < n, ∀ f : ℤ, -(N : ℤ) ≤ 2 * f → 2 * f < N →
      f ≡ i - j [ZMOD N] → K (i * n + j) = β (f % n).toNat := by
  have hd : N ∣ n := (C57_refuses n β N hN true).1 (by rw [h]; rfl) rfl
  obtain ⟨-, -, K, hK, hv⟩ := C57_kernel n β N hN true ops h
  refine ⟨K, hK, fun i hi j hj f h1 h2 hf => ?_⟩
  have a1 : (i : ℤ) ≡ nkPoints n i [ZMOD N] := (nkPoints_emod hi hd).symm
  have a2 : (j : ℤ) ≡ nkPoints n j [ZMOD N] := (nkPoints_emod hj hd).symm
  have hg : OnGrid n f := onGrid_mono (Nat.le_of_dvd (by omega) hd) ⟨h1, h2⟩
  rw [(hv i hi j hj f ⟨h1, h2⟩ (hf.trans (a1.sub a2))).1 hg, ← slot_emod hg, Int.toNat_natCast]

/-- **C57.** With all frequencies the operators rebuild the isotropic kernel. -/
theorem C57_rebuild (n : ℕ) (hn : 0 < n) (β : ℕ → ℂ) (check : Bool) :
    ∃ ops K, isotropicFft n β none check = some ops ∧ ops.dim = n ∧ ops.count = n ∧ getDiagonalKernel ops = some K ∧
      ∀ k < n * n, K k = diagonalFromIsotropic n β k := by
  have hs : isotropicFft n β none check = isotropicFft n β (some n) check := rfl
  obtain ⟨ops, hops⟩ := Option.isSome_iff_exists.1 ((C57_refuses n β n hn check).2 fun _ => dvd_rfl)
  obtain ⟨hd, hc, K, hK, hv⟩ := C57_kernel n β n hn check ops hops
  refine ⟨ops, K, by rw [hs, hops], hd, hc, hK, fun k hk => ?_⟩
  have e : k = (k / n) * n + k % n := (Nat.div_add_mod' k n).symm
  have h1 : k / n < n := Nat.div_lt_of_lt_mul hk
  have h2 : k % n < n := Nat.mod_lt _ hn
  rw [e]
  have hz := toNat_emod_lt hn (((k / n : ℕ) : ℤ) - (k % n : ℕ))
  have hmod : freq n ((((k / n : ℕ) : ℤ) - (k % n : ℕ)) % n).toNat ≡ nkPoints n (k / n) - nkPoints n (k % n) [ZMOD n] := by
    have h3 : freq n ((((k / n : ℕ) : ℤ) - (k % n : ℕ)) % n).toNat % n = _ := freq_emod
    rw [toNat_emod_cast hn, Int.emod_emod] at h3
    unfold Int.ModEq
    rw [h3]
    have a1 : ((k / n : ℕ) : ℤ) ≡ nkPoints n (k / n) [ZMOD n] := (nkPoints_emod h1 dvd_rfl).symm
    have a2 : ((k % n : ℕ) : ℤ) ≡ nkPoints n (k % n) [ZMOD n] := (nkPoints_emod h2 dvd_rfl).symm
    exact a1.sub a2
  rw [(hv _ h1 _ h2 _ (freq_onGrid hz) hmod).1 (freq_onGrid hz), slot_freq hz]
  rw [diagonalFromIsotropic, flatten_entry _ _ h2]

/-- **C57.** The operators are orthonormal. -/
theorem C57_orthonormal (n : ℕ) (β : ℕ → ℂ) (N : ℕ) (hN : 0 < N) (hn : 0 < n) (ops : DiagonalNoiseOperators)
    (h : isotropicFft n β (some N) true = some ops) (a b : ℕ) (ha : a < N) (hb : b < N) :
    ∑ m ∈ range n, (starRingEnd ℂ) (ops.data (a * n + m)) * ops.data (b * n + m) = if a = b then 1 else 0 := by
  have hd : N ∣ n := (C57_refuses n β N hN true).1 (by rw [h]; rfl) rfl
  unfold isotropicFft isotropicOperators at h
  simp only [Option.getD_some, Option.map_eq_some_iff] at h
  obtain ⟨o, ho, h⟩ := h
  split_ifs at ho
  obtain rfl := Option.some.inj ho
  subst h
  obtain ⟨r, rfl⟩ := hd
  have hr : 0 < r := Nat.pos_of_mul_pos_left hn
  have e : ∀ m ∈ range (N * r), (starRingEnd ℂ) (phase N (a * nkPoints (N * r) m) / ((Real.sqrt (N * r : ℕ) : ℝ) : ℂ)) *
      (phase N (b * nkPoints (N * r) m) / ((Real.sqrt (N * r : ℕ) : ℝ) : ℂ)) =
      1 / ((N * r : ℕ) : ℂ) * phase (N * r) ((m : ℤ) * (r * ((b : ℤ) - a))) := by
    intro m hm
    rw [map_div₀, Complex.conj_ofReal, phase_conj, div_mul_div_comm, sqrt_mul_self', ← phase_add]
    have e1 : -((a : ℤ) * nkPoints (N * r) m) + b * nkPoints (N * r) m = nkPoints (N * r) m * ((b : ℤ) - a) := by ring
    have e2 : phase N (nkPoints (N * r) m * ((b : ℤ) - a)) = phase N (m * ((b : ℤ) - a)) := by
      refine phase_congr hN ?_
      rw [← sub_mul]
      refine Dvd.dvd.mul_right ?_ _
      exact Int.ModEq.dvd (show ((m : ℤ)) % N = (nkPoints (N * r) m) % N from
        (nkPoints_emod (mem_range.1 hm) (dvd_mul_right N r)).symm)
    have e3 : phase (N * r) ((m : ℤ) * (r * ((b : ℤ) - a))) = phase N (m * ((b : ℤ) - a)) := by
      rw [mul_comm N r, ← phase_mul_scale N r hr]
      congr 1; ring
    rw [e1, e2, e3]
    ring
  refine (sum_congr rfl fun m hm => ?_).trans ((sum_congr rfl e).trans ?_)
  · dsimp only
    rw [isotropicOperators_entry _ N a m (mem_range.1 hm), isotropicOperators_entry _ N b m (mem_range.1 hm)]
  · rw [← mul_sum, sum_phase' hn]
    have hiff : ((N * r : ℕ) : ℤ) ∣ (r : ℤ) * ((b : ℤ) - a) ↔ a = b := by
      rw [Nat.cast_mul, mul_comm (N : ℤ), mul_dvd_mul_iff_left (by exact_mod_cast hr.ne'), dvd_sub_iff_eq hb ha]
      exact eq_comm
    by_cases hab : a = b
    · rw [if_pos hab, if_pos (hiff.2 hab)]
      have : ((N * r : ℕ) : ℂ) ≠ 0 := by exact_mod_cast hn.ne'
      field_simp
    · rw [if_neg hab, if_neg fun h' => hab (hiff.1 h'), mul_zero]

/-- **C57.** For a kernel with `β(-x) = conj β(x)` the eigenvalues are real. -/
theorem C57_real (n : ℕ) (hn : 0 < n) (β : ℕ → ℂ) (hβ : ∀ j < n, β ((-(j : ℤ)) % n).toNat = (starRingEnd ℂ) (β j))
    (check : Bool) (ops : DiagonalNoiseOperators) (h : isotropicFft n β none check = some ops) (a : ℕ) :
    (ops.eigenvalue a).im = 0 := by
  unfold isotropicFft isotropicOperators at h
  simp only [Option.getD_none, Option.map_eq_some_iff] at h
  obtain ⟨o, ho, h⟩ := h
  split_ifs at ho
  obtain rfl := Option.some.inj ho
  subst h
  show (isotropicEigenvalues n β (some n) a).im = 0
  have hnc : (n : ℂ) ≠ 0 := by exact_mod_cast hn.ne'
  have e : isotropicEigenvalues n β (some n) a = ∑ j ∈ range n, phase n (a * j : ℤ) * β j := by
    unfold isotropicEigenvalues
    simp only [Option.getD_some]
    rw [div_self hnc, mul_one, ifft_eq]
    have e2 : FftNorm.ifftScale n .forward = 1 := rfl
    rw [e2, one_mul]
    refine sum_congr rfl fun j hj => ?_
    rw [pad1_eq n n β (mem_range.1 hj), if_pos (freq_onGrid (mem_range.1 hj)), slot_freq (mem_range.1 hj)]
  rw [e, ← Complex.conj_eq_iff_im, map_sum]
  have hinv : ∀ j < n, ((-(((-(j : ℤ)) % n).toNat : ℤ)) % n).toNat = j := by
    intro j hj
    rw [toNat_emod_cast hn]
    have : (-((-(j : ℤ)) % n)) % n = j := by
      have h1 : -((-(j : ℤ)) % n) ≡ j [ZMOD n] := by
        have := (Int.mod_modEq (-(j : ℤ)) n).neg
        rwa [neg_neg] at this
      rw [h1.eq, Int.emod_eq_of_lt (by positivity) (by exact_mod_cast hj)]
    rw [this, Int.toNat_natCast]
  refine sum_nbij' (fun j => ((-(j : ℤ)) % n).toNat) (fun j => ((-(j : ℤ)) % n).toNat) ?_ ?_ ?_ ?_ ?_
  · exact fun j _ => mem_range.2 (toNat_emod_lt hn _)
  · exact fun j _ => mem_range.2 (toNat_emod_lt hn _)
  · exact fun j hj => hinv j (mem_range.1 hj)
  · exact fun j hj => hinv j (mem_range.1 hj)
  · intro j hj
    rw [map_mul, hβ j (mem_range.1 hj), phase_conj]
    congr 1
    refine phase_congr hn ?_
    rw [toNat_emod_cast hn]
    have h1 : (n : ℤ) ∣ -(j : ℤ) - (-(j : ℤ)) % n := Int.dvd_self_sub_emod
    have h2 := h1.mul_left (a : ℤ)
    have e3 : (a : ℤ) * (-(j : ℤ) - (-(j : ℤ)) % n) = -((a : ℤ) * j) - a * ((-(j : ℤ)) % n) := by ring
    rwa [e3] at h2

/-- A kernel with a complex entry which has the symmetry. -/
example : ∀ j : ℕ, j < 3 → (fun k : ℕ => if k = 0 then (1 : ℂ) else if k = 1 then Complex.I else -Complex.I) ((-(j : ℤ)) % (3 : ℕ)).toNat =
    (starRingEnd ℂ) ((fun k : ℕ => if k = 0 then (1 : ℂ) else if k = 1 then Complex.I else -Complex.I) j) := by
  intro j hj
  obtain rfl | rfl | rfl : j = 0 ∨ j = 1 ∨ j = 2 := by omega
  · simp
  · have : ((-((1 : ℕ) : ℤ)) % (3 : ℕ)).toNat = 2 := by decide
    simp only [this]
    simp
  · have : ((-((2 : ℕ) : ℤ)) % (3 : ℕ)).toNat = 1 := by decide
    simp only [this]
    simp

/-- Two frequencies on four points: the displacement `-1` is represented by the entry three of the kernel. -/
example : OnGrid 2 (-1) ∧ (-1 : ℤ) ≡ nkPoints 4 1 - nkPoints 4 0 [ZMOD (2 : ℕ)] ∧ slot 4 (-1) = 3 := by
  refine ⟨by unfold OnGrid; norm_num, ?_, by unfold slot; decide⟩
  rw [nkPoints_eq_freq (by norm_num), nkPoints_eq_freq (by norm_num)]
  unfold freq
  decide

end Verif
