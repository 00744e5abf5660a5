import Verif.Model.Interp
import Verif.Lemmas.Basis

/-!
# C19, C20: Fourier interpolation
-/

set_option autoImplicit false

namespace Verif

open Finset Spec

/-! ## Operations on arrays given by products of one-axis kernels -/

/-- The operation on arrays is the product of one-axis kernels. -/
def HasKernelN (T : (List ℕ → ℂ) → List ℕ → ℂ) (l : List AxisKernel) : Prop :=
  ∀ arr is, InShape (l.map AxisKernel.m) is →
    T arr is = nsum (l.map AxisKernel.n) fun js => kprod l is js * arr js

theorem foldl_kernelN (fs : List ((ℕ → ℂ) → ℕ → ℂ)) (l : List AxisKernel)
    (h : List.Forall₂ (fun f (a : AxisKernel) => HasKernel f a.n a.m a.K) fs l) :
    HasKernelN (fun arr => fs.zipIdx.foldl (fun arr fax => applyAlong fax.2 fax.1 arr) arr) l := by
  intro arr is his
  have := foldl_applyAlong l fs 0 [] arr is rfl h his
  simpa using this

theorem kprod_comp : ∀ (l2 l1 : List AxisKernel), List.Forall₂ (fun b a : AxisKernel => b.n = a.m) l2 l1 →
    ∀ is js, InShape (l2.map AxisKernel.m) is → InShape (l1.map AxisKernel.n) js →
    nsum (l1.map AxisKernel.m) (fun ks => kprod l2 is ks * kprod l1 ks js) =
      kprod (List.zipWith AxisKernel.comp l2 l1) is js
  | [], [], _, _, _, _, _ => by simp [nsum, kprod]
  | b :: l2, a :: l1, .cons h hs, i :: is, j :: js, hi, hj => by
    simp only [List.map_cons, nsum, kprod, List.zipWith_cons_cons, AxisKernel.comp]
    rw [sum_mul]
    apply sum_congr rfl; intro k _
    rw [← kprod_comp l2 l1 hs is js hi.2 hj.2, ← nsum_mul_left]
    congr 1; funext ks; ring
  | _ :: _, _ :: _, .cons _ _, [], _, hi, _ => absurd hi (by simp [InShape])
  | _ :: _, _ :: _, .cons _ _, _ :: _, [], _, hj => absurd hj (by simp [InShape])

theorem nsum_nsum_comm (ns ms : List ℕ) (f : List ℕ → List ℕ → ℂ) :
    nsum ns (fun is => nsum ms fun js => f is js) = nsum ms fun js => nsum ns fun is => f is js := by
  induction ns generalizing f with
  | nil => rfl
  | cons n ns ih =>
    simp only [nsum]
    rw [nsum_sum]
    exact sum_congr rfl fun i _ => ih _

theorem HasKernelN.comp {T2 T1 : (List ℕ → ℂ) → List ℕ → ℂ} {l2 l1 : List AxisKernel} (h2 : HasKernelN T2 l2)
    (h1 : HasKernelN T1 l1) (h : List.Forall₂ (fun b a : AxisKernel => b.n = a.m) l2 l1) :
    HasKernelN (fun arr => T2 (T1 arr)) (List.zipWith AxisKernel.comp l2 l1) := by
  have hm : ∀ (l2 l1 : List AxisKernel), List.Forall₂ (fun b a : AxisKernel => b.n = a.m) l2 l1 →
      (List.zipWith AxisKernel.comp l2 l1).map AxisKernel.m = l2.map AxisKernel.m ∧
      (List.zipWith AxisKernel.comp l2 l1).map AxisKernel.n = l1.map AxisKernel.n ∧
      l2.map AxisKernel.n = l1.map AxisKernel.m := by
    intro l2 l1 h
    induction h with
    | nil => exact ⟨rfl, rfl, rfl⟩
    | cons h _ ih =>
      simp only [List.zipWith_cons_cons, List.map_cons, ih.1, ih.2.1, ih.2.2, h]
      exact ⟨rfl, rfl, trivial⟩
  obtain ⟨e1, e2, e3⟩ := hm l2 l1 h
  intro arr is his
  rw [e1] at his
  show T2 (T1 arr) is = _
  rw [h2 _ is his, e2, e3]
  have : nsum (l1.map AxisKernel.m) (fun ks => kprod l2 is ks * T1 arr ks) =
      nsum (l1.map AxisKernel.m) (fun ks => nsum (l1.map AxisKernel.n) fun js =>
        kprod l2 is ks * kprod l1 ks js * arr js) := by
    apply nsum_congr
    intro ks hks
    rw [h1 arr ks hks, ← nsum_mul_left]
    congr 1; funext js; ring
  rw [this, nsum_nsum_comm]
  apply nsum_congr
  intro js hjs
  rw [← kprod_comp l2 l1 h is js his hjs, mul_comm, ← nsum_mul_left]
  congr 1; funext ks; ring

/-- If every one-axis kernel is a delta at the given indices, so is the product. -/
theorem nsum_kprod_delta : ∀ (l : List AxisKernel) (is js₀ : List ℕ), InShape (l.map AxisKernel.n) js₀ →
    is.length = l.length →
    (∀ i < l.length, ∀ j < (l.map AxisKernel.n).getD i 0,
      (l.getD i ⟨0, 0, fun _ _ => 0⟩).K (is.getD i 0) j = if j = js₀.getD i 0 then 1 else 0) →
    ∀ arr : List ℕ → ℂ, nsum (l.map AxisKernel.n) (fun js => kprod l is js * arr js) = arr js₀
  | [], [], [], _, _, _, arr => by simp [nsum, kprod]
  | a :: l, i :: is, j₀ :: js₀, hj, hl, h, arr => by
    have h0 := h 0 (by simp)
    simp only [List.map_cons, List.getD_cons_zero] at h0
    have hr := nsum_kprod_delta l is js₀ hj.2 (by simpa using hl) (fun t ht j hj => by
      have := h (t + 1) (by simpa using ht) j (by simpa using hj)
      simpa using this)
    simp only [List.map_cons, nsum, kprod]
    have : ∀ j ∈ range a.n, nsum (l.map AxisKernel.n) (fun js => a.K i j * kprod l is js * arr (j :: js)) =
        (if j = j₀ then 1 else 0) * arr (j :: js₀) := by
      intro j hj'
      rw [h0 j (mem_range.1 hj'), ← hr fun js => arr (j :: js), ← nsum_mul_left]
      congr 1; funext js; ring
    rw [sum_congr rfl this]
    exact sum_ite_mul_eq j₀ hj.1 _ (fun j => j = j₀) (fun _ _ => Iff.rfl)
  | [], _ :: _, _, _, hl, _, _ => by simp at hl
  | _ :: _, [], _, _, hl, _, _ => by simp at hl
  | [], [], _ :: _, hj, _, _, _ => absurd hj (by simp [InShape])
  | _ :: _, _ :: _, [], hj, _, _, _ => absurd hj (by simp [InShape])

/-! ## One axis -/

/-- Interpolation along one axis. -/
noncomputable def interp1 (n s : ℕ) (v : ℕ → ℂ) : ℕ → ℂ := ifft .forward s (pad1 n s (fft .forward n v))

theorem interp1_eq (n s : ℕ) (v : ℕ → ℂ) (x : ℕ) (hs : 0 < s) :
    interp1 n s v x = ∑ j ∈ range n, if OnGrid s (freq n j) then
      fft .forward n v j * phase s (freq n j * x) else 0 := by
  unfold interp1
  rw [ifft_eq]
  simp only [FftNorm.ifftScale, one_mul]
  have h1 : ∀ k ∈ range s, phase s ((x : ℤ) * k) * pad1 n s (fft .forward n v) k =
      if OnGrid n (freq s k) then fft .forward n v (slot n (freq s k)) * phase s (freq s k * x) else 0 := by
    intro k hk
    have hk' : k < s := mem_range.1 hk
    rw [pad1_eq n s _ hk']
    split
    · rw [mul_comm]; congr 1
      apply phase_congr hs
      rw [mul_comm (freq s k), ← mul_sub]
      exact Dvd.dvd.mul_left (Int.dvd_of_emod_eq_zero (Int.emod_eq_emod_iff_emod_sub_eq_zero.1
        freq_emod.symm)) _
    · simp
  rw [sum_congr rfl h1, ← sum_filter, ← sum_filter]
  apply sum_bij' (fun k _ => slot n (freq s k)) (fun j _ => slot s (freq n j))
  · intro k hk
    rw [mem_filter, mem_range] at hk ⊢
    exact ⟨slot_lt hk.2, by rw [freq_slot hk.2]; exact freq_onGrid hk.1⟩
  · intro j hj
    rw [mem_filter, mem_range] at hj ⊢
    exact ⟨slot_lt hj.2, by rw [freq_slot hj.2]; exact freq_onGrid hj.1⟩
  · intro k hk
    rw [mem_filter, mem_range] at hk
    rw [freq_slot hk.2, slot_freq hk.1]
  · intro j hj
    rw [mem_filter, mem_range] at hj
    rw [freq_slot hj.2, slot_freq hj.1]
  · intro k hk
    rw [mem_filter, mem_range] at hk
    rw [freq_slot hk.2]

theorem interp1_points (n r : ℕ) (hr : 0 < r) (v : ℕ → ℂ) {j : ℕ} (hj : j < n) :
    interp1 n (n * r) v (r * j) = v j := by
  have hn : 0 < n := by omega
  rw [interp1_eq n (n * r) v _ (Nat.mul_pos hn hr)]
  conv_rhs => rw [← ifft_fft .forward v hj, ifft_eq]
  simp only [FftNorm.ifftScale, one_mul]
  apply sum_congr rfl; intro k hk
  rw [if_pos (onGrid_mono (Nat.le_mul_of_pos_right n hr) (freq_onGrid (mem_range.1 hk))), mul_comm]
  congr 1
  have e : freq n k * ((r * j : ℕ) : ℤ) = (r : ℤ) * (freq n k * j) := by push_cast; ring
  rw [e, mul_comm n r, phase_mul_scale n r hr]
  apply phase_congr hn
  rw [mul_comm (freq n k), ← mul_sub]
  exact Dvd.dvd.mul_left (Int.dvd_of_emod_eq_zero (Int.emod_eq_emod_iff_emod_sub_eq_zero.1 freq_emod)) _

theorem interp1_kernel (n r : ℕ) (hr : 0 < r) : HasKernel (fun v => pad1 n (n * r) v) n (n * r)
    (fun x j => if x = slot (n * r) (freq n j) then 1 else 0) :=
  pad_up_kernel (Nat.le_mul_of_pos_right n hr)

/-! ## C19 -/

/-- **C19.** Along one axis, for every pair of lengths, the interpolated function is the trigonometric polynomial through
the kept frequencies: `Σ c_f exp(2πi f x / s)` over the frequencies `f` on both grids, with `c_f` the Fourier
coefficients `(1/n) Σ_y v_y exp(-2πi f y / n)` of the data. -/
theorem C19_trigonometric (n s : ℕ) (v : ℕ → ℂ) (x : ℕ) (hx : x < s) :
    interpolateFftn [(n, some s)] (fun idx => v (idx.headD 0)) [x] =
      ∑ j ∈ range n, if OnGrid s (freq n j) then
        ((∑ y ∈ range n, v y * Complex.exp (-(2 * Real.pi * Complex.I * freq n j * y / n))) / n) *
          Complex.exp (2 * Real.pi * Complex.I * freq n j * x / s) else 0 := by
  have h0 : interpolateFftn [(n, some s)] (fun idx => v (idx.headD 0)) [x] = interp1 n s v x := by
    unfold interpolateFftn ifftn fftn interp1 pad1
    simp only [List.map_cons, List.map_nil, List.zipIdx_cons, List.zipIdx_nil, List.foldl_cons, List.foldl_nil,
      alongIf, PadAxis.newLen, PadAxis.len]
    unfold applyAlong
    simp only [List.set_cons_zero, List.getD_cons_zero]
    apply ifft_congr
    intro k hk
    rw [padFtPoints_eq _ _ _ (by simp [InShape, PadAxis.newLen, hk]),
      padFtPoints_eq _ _ _ (by simp [InShape, PadAxis.newLen, hk])]
    simp [idxSource]
  rw [h0, interp1_eq n s v x (by omega)]
  apply sum_congr rfl; intro j hj
  have hj' : j < n := mem_range.1 hj
  split
  · congr 1
    · rw [fft_eq]
      simp only [FftNorm.fftScale]
      rw [one_div, inv_mul_eq_div]
      congr 1
      apply sum_congr rfl; intro y _
      rw [mul_comm]
      congr 1
      have : phase n (-((j : ℤ) * y)) = phase n (-(freq n j * y)) := by
        apply phase_congr (by omega)
        have e : -((j : ℤ) * y) - -(freq n j * y) = (freq n j - j) * y := by ring
        rw [e]
        exact Dvd.dvd.mul_right (Int.dvd_of_emod_eq_zero (Int.emod_eq_emod_iff_emod_sub_eq_zero.1 freq_emod)) _
      rw [this]
      unfold phase
      congr 1; push_cast; ring
    · unfold phase
      congr 1; push_cast; ring
  · rfl

/-- The kernels of the transform, the padding and the inverse transform of an axis. -/
theorem axis_kernels (a : PadAxis) (h : ∀ s, a.2 = some s → ∃ r, 0 < r ∧ s = a.1 * r) :
    ∃ F P G : AxisKernel,
      (F.n = a.len ∧ F.m = a.len ∧ HasKernel (alongIf (fft .forward a.len) a) F.n F.m F.K) ∧
      (P.n = a.len ∧ P.m = a.newLen ∧ HasKernel (alongIf (pad1 a.len a.newLen) a) P.n P.m P.K) ∧
      (G.n = a.newLen ∧ G.m = a.newLen ∧ HasKernel (alongIf (ifft .forward a.newLen) a) G.n G.m G.K) := by
  obtain ⟨n, o⟩ := a
  cases o with
  | none =>
    refine ⟨⟨n, n, _⟩, ⟨n, n, _⟩, ⟨n, n, _⟩, ⟨rfl, rfl, hasKernel_id n⟩, ⟨rfl, rfl, hasKernel_id n⟩,
      ⟨rfl, rfl, hasKernel_id n⟩⟩
  | some s =>
    obtain ⟨r, hr, e⟩ := h s rfl
    have e' : s = n * r := e
    refine ⟨⟨n, n, fun k x => FftNorm.fftScale n .forward * phase n (-(k * x : ℤ))⟩,
      ⟨n, s, fun x j => if x = slot s (freq n j) then 1 else 0⟩,
      ⟨s, s, fun k x => FftNorm.ifftScale s .forward * phase s (k * x : ℤ)⟩,
      ⟨rfl, rfl, ?_⟩, ⟨rfl, rfl, ?_⟩, ⟨rfl, rfl, ?_⟩⟩
    · intro v k _
      show fft .forward n v k = _
      rw [fft_eq, mul_sum]
      exact sum_congr rfl fun x _ => by ring
    · subst e'; exact interp1_kernel n r hr
    · intro v k _
      show ifft .forward s v k = _
      rw [ifft_eq, mul_sum]
      exact sum_congr rfl fun x _ => by ring

theorem padFtPoints_peel [Zero ℂ] (a : PadAxis) (as : List PadAxis) (arr : List ℕ → ℂ) (i : ℕ) (is : List ℕ)
    (h : InShape ((a :: as).map PadAxis.newLen) (i :: is)) (b : AxisKernel)
    (hb : b.n = a.len ∧ b.m = a.newLen ∧ HasKernel (alongIf (pad1 a.len a.newLen) a) b.n b.m b.K) :
    padFtPoints (a :: as) arr (i :: is) = ∑ j ∈ range a.len, b.K i j * padFtPoints as (fun js => arr (j :: js)) is := by
  classical
  have hi : i < a.newLen := h.1
  have hk := hb.2.2 (fun j => padFtPoints as (fun js => arr (j :: js)) is) i (by rw [hb.2.1]; exact hi)
  rw [hb.1] at hk
  rw [← hk, padFtPoints_eq _ _ _ h]
  have his : InShape (as.map PadAxis.newLen) is := h.2
  have key : ∀ j, padFtPoints as (fun js => arr (j :: js)) is =
      if idxHas as is then arr (j :: idxSource as is) else 0 := fun j => padFtPoints_eq _ _ _ his
  obtain ⟨n, o⟩ := a
  cases o with
  | none =>
    simp only [alongIf, key, idxHas, idxSource, axisHas, axisSource, true_and]
  | some s =>
    have hi' : i < s := hi
    simp only [alongIf, PadAxis.len, PadAxis.newLen]
    rw [pad1_eq n s _ hi']
    simp only [key, idxHas, idxSource, axisHas, axisSource]
    by_cases h1 : OnGrid n (freq s i) <;> by_cases h2 : idxHas as is <;> simp [h1, h2]

theorem interp_kernels : ∀ (axes : List PadAxis), (∀ a ∈ axes, ∀ s, a.2 = some s → ∃ r, 0 < r ∧ s = a.1 * r) →
    ∃ lF lP lG : List AxisKernel, HasKernelN (fftn axes) lF ∧ HasKernelN (padFtPoints axes) lP ∧
      HasKernelN (ifftn axes) lG ∧
      List.Forall₂ (fun a (F : AxisKernel) => F.n = PadAxis.len a ∧ F.m = PadAxis.len a ∧
        HasKernel (alongIf (fft .forward a.len) a) F.n F.m F.K) axes lF ∧
      List.Forall₂ (fun a (P : AxisKernel) => P.n = PadAxis.len a ∧ P.m = PadAxis.newLen a ∧
        HasKernel (alongIf (pad1 a.len a.newLen) a) P.n P.m P.K) axes lP ∧
      List.Forall₂ (fun a (G : AxisKernel) => G.n = PadAxis.newLen a ∧ G.m = PadAxis.newLen a ∧
        HasKernel (alongIf (ifft .forward a.newLen) a) G.n G.m G.K) axes lG := by
  intro axes h
  have hch : ∀ a ∈ axes, ∃ FPG : AxisKernel × AxisKernel × AxisKernel,
      (FPG.1.n = a.len ∧ FPG.1.m = a.len ∧
        HasKernel (alongIf (fft .forward a.len) a) FPG.1.n FPG.1.m FPG.1.K) ∧
      (FPG.2.1.n = a.len ∧ FPG.2.1.m = a.newLen ∧
        HasKernel (alongIf (pad1 a.len a.newLen) a) FPG.2.1.n FPG.2.1.m FPG.2.1.K) ∧
      (FPG.2.2.n = a.newLen ∧ FPG.2.2.m = a.newLen ∧
        HasKernel (alongIf (ifft .forward a.newLen) a) FPG.2.2.n FPG.2.2.m FPG.2.2.K) := by
    intro a ha
    obtain ⟨F, P, G, h1, h2, h3⟩ := axis_kernels a (h a ha)
    exact ⟨(F, P, G), h1, h2, h3⟩
  haveI : Nonempty AxisKernel := ⟨⟨0, 0, fun _ _ => 0⟩⟩
  choose! k hk using hch
  have hF : List.Forall₂ (fun a (F : AxisKernel) => F.n = PadAxis.len a ∧ F.m = PadAxis.len a ∧
        HasKernel (alongIf (fft .forward a.len) a) F.n F.m F.K) axes (axes.map fun a => (k a).1) := by
    rw [List.forall₂_map_right_iff]
    exact List.forall₂_same.2 fun a ha => (hk a ha).1
  have hP : List.Forall₂ (fun a (P : AxisKernel) => P.n = PadAxis.len a ∧ P.m = PadAxis.newLen a ∧
        HasKernel (alongIf (pad1 a.len a.newLen) a) P.n P.m P.K) axes (axes.map fun a => (k a).2.1) := by
    rw [List.forall₂_map_right_iff]
    exact List.forall₂_same.2 fun a ha => (hk a ha).2.1
  have hG : List.Forall₂ (fun a (G : AxisKernel) => G.n = PadAxis.newLen a ∧ G.m = PadAxis.newLen a ∧
        HasKernel (alongIf (ifft .forward a.newLen) a) G.n G.m G.K) axes (axes.map fun a => (k a).2.2) := by
    rw [List.forall₂_map_right_iff]
    exact List.forall₂_same.2 fun a ha => (hk a ha).2.2
  refine ⟨_, _, _, ?_, ?_, ?_, hF, hP, hG⟩
  · apply foldl_kernelN
    rw [List.forall₂_map_left_iff]
    exact hF.imp fun a F h => h.2.2
  · generalize (axes.map fun a => (k a).2.1) = lP at hP
    clear hF hG hk k h
    intro arr is his
    induction hP generalizing arr is with
    | nil =>
      cases is with
      | nil => simp [padFtPoints, product, assignBlock, inBlock, blockSource, nsum, kprod]
      | cons _ _ => simp [InShape] at his
    | cons hb _ ih =>
      rename_i a b as lP hrest
      cases is with
      | nil => simp [InShape] at his
      | cons i is =>
        have hmap : ∀ (as : List PadAxis) (lP : List AxisKernel), List.Forall₂
            (fun a (P : AxisKernel) => P.n = PadAxis.len a ∧ P.m = PadAxis.newLen a ∧
              HasKernel (alongIf (pad1 a.len a.newLen) a) P.n P.m P.K) as lP →
            lP.map AxisKernel.m = as.map PadAxis.newLen := by
          intro as lP h
          induction h with
          | nil => rfl
          | cons h _ ih => simp only [List.map_cons, ih, h.2.1]
        have his' : InShape ((a :: as).map PadAxis.newLen) (i :: is) := by
          rw [← hmap (a :: as) (b :: lP) (.cons hb hrest)]; exact his
        rw [padFtPoints_peel a as arr i is his' b hb]
        simp only [List.map_cons, nsum, kprod, hb.1]
        apply sum_congr rfl; intro j _
        rw [ih (fun js => arr (j :: js)) is his.2, ← nsum_mul_left]
        congr 1; funext js; ring
  · apply foldl_kernelN
    rw [List.forall₂_map_left_iff]
    exact hG.imp fun a F h => h.2.2

/-- The index of the fine grid on top of an index of the coarse grid. -/
def refineIdx : List PadAxis → List ℕ → List ℕ
  | a :: as, i :: is => (i * (a.newLen / a.len)) :: refineIdx as is
  | _, _ => []

/-- **C19.** Interpolating any array onto a grid refined by an integer factor (a factor of its own, possibly one, for
each listed axis; axes not listed stay as they are) takes the original values at the original points. In
particular interpolating to the same shape is the identity. -/
theorem C19_points (axes : List PadAxis) (points : List ℕ → ℂ) (idx : List ℕ)
    (h : ∀ a ∈ axes, ∀ s, a.2 = some s → ∃ r, 0 < r ∧ s = a.1 * r) (hidx : InShape (oldShape axes) idx) :
    interpolateFftn axes points (refineIdx axes idx) = points idx := by
  obtain ⟨lF, lP, lG, hF, hP, hG, kF, kP, kG⟩ := interp_kernels axes h
  have f1 : List.Forall₂ (fun b a : AxisKernel => b.n = a.m) lP lF := by
    clear hF hP hG kG
    induction axes generalizing lF lP idx with
    | nil => cases kF; cases kP; exact .nil
    | cons a as ih =>
      cases kF with
      | cons f fs => cases kP with
        | cons p ps =>
          cases idx with
          | nil => simp [oldShape, InShape] at hidx
          | cons i is =>
            exact .cons (by rw [p.1, f.2.1]) (ih is (fun a ha => h a (by simp [ha])) hidx.2 _ _ fs ps)
  have f2 : List.Forall₂ (fun b a : AxisKernel => b.n = a.m) lG (List.zipWith AxisKernel.comp lP lF) := by
    clear hF hP hG f1
    induction axes generalizing lF lP lG idx with
    | nil => cases kF; cases kP; cases kG; exact .nil
    | cons a as ih =>
      cases kF with
      | cons f fs => cases kP with
        | cons p ps => cases kG with
          | cons g gs =>
            cases idx with
            | nil => simp [oldShape, InShape] at hidx
            | cons i is =>
              exact .cons (by rw [g.1]; exact p.2.1.symm)
                (ih is (fun a ha => h a (by simp [ha])) hidx.2 _ _ _ fs ps gs)
  have hT := hG.comp (hP.comp hF f1) f2
  have hmain : ∀ (axes : List PadAxis) (lF lP lG : List AxisKernel) (idx : List ℕ),
      (∀ a ∈ axes, ∀ s, a.2 = some s → ∃ r, 0 < r ∧ s = a.1 * r) → InShape (oldShape axes) idx →
      List.Forall₂ (fun a (F : AxisKernel) => F.n = PadAxis.len a ∧ F.m = PadAxis.len a ∧
        HasKernel (alongIf (fft .forward a.len) a) F.n F.m F.K) axes lF →
      List.Forall₂ (fun a (P : AxisKernel) => P.n = PadAxis.len a ∧ P.m = PadAxis.newLen a ∧
        HasKernel (alongIf (pad1 a.len a.newLen) a) P.n P.m P.K) axes lP →
      List.Forall₂ (fun a (G : AxisKernel) => G.n = PadAxis.newLen a ∧ G.m = PadAxis.newLen a ∧
        HasKernel (alongIf (ifft .forward a.newLen) a) G.n G.m G.K) axes lG →
      let l := List.zipWith AxisKernel.comp lG (List.zipWith AxisKernel.comp lP lF)
      l.map AxisKernel.n = oldShape axes ∧ InShape (l.map AxisKernel.m) (refineIdx axes idx) ∧
      (refineIdx axes idx).length = l.length ∧
      ∀ i < l.length, ∀ j < (l.map AxisKernel.n).getD i 0,
        (l.getD i ⟨0, 0, fun _ _ => 0⟩).K ((refineIdx axes idx).getD i 0) j =
          if j = idx.getD i 0 then 1 else 0 := by
    intro axes
    induction axes with
    | nil =>
      intro lF lP lG idx _ hidx kF kP kG
      cases kF; cases kP; cases kG
      cases idx with
      | nil => simp [oldShape, InShape, refineIdx]
      | cons _ _ => simp [oldShape, InShape] at hidx
    | cons a as ih =>
      intro lF lP lG idx h hidx kF kP kG
      cases kF with
      | cons f fs => cases kP with
        | cons p ps => cases kG with
          | cons g gs =>
            rename_i F lF P lP G lG
            cases idx with
            | nil => simp [oldShape, InShape] at hidx
            | cons i is =>
              obtain ⟨i1, i2, i3, i4⟩ := ih lF lP lG is (fun a ha => h a (by simp [ha])) hidx.2 fs ps gs
              have hi : i < a.1 := hidx.1
              have hlt : i * (a.newLen / a.len) < a.newLen := by
                obtain ⟨n, o⟩ := a
                have hi' : i < n := hi
                cases o with
                | none =>
                  simp only [PadAxis.newLen, PadAxis.len]
                  rw [Nat.div_self (by omega)]; omega
                | some s =>
                  obtain ⟨r, hr, e⟩ := h (n, some s) (by simp) s rfl
                  have e' : s = n * r := e
                  subst e'
                  simp only [PadAxis.newLen, PadAxis.len]
                  rw [Nat.mul_div_cancel_left r (by omega)]
                  exact Nat.mul_lt_mul_of_pos_right hi' hr
              refine ⟨?_, ?_, ?_, ?_⟩
              · simp only [List.zipWith_cons_cons, List.map_cons, i1]
                simp only [AxisKernel.comp, oldShape, List.map_cons, f.1]; rfl
              · simp only [List.zipWith_cons_cons, List.map_cons, refineIdx]
                exact ⟨by show _ < G.m; rw [g.2.1]; exact hlt, i2⟩
              · simp only [List.zipWith_cons_cons, refineIdx, List.length_cons, i3]
              · intro t ht j hj
                cases t with
                | succ t =>
                  have := i4 t (by simpa using ht) j (by simpa using hj)
                  simpa [refineIdx] using this
                | zero =>
                  simp only [List.zipWith_cons_cons, List.getD_cons_zero, refineIdx, List.map_cons] at hj ⊢
                  have hj' : j < a.len := by rw [← f.1]; exact hj
                  -- apply the composite of the three one-axis maps to a unit vector
                  have hc := (f.2.2.comp (by rw [f.2.1, ← p.1]; exact p.2.2)).comp
                    (by rw [p.2.1, ← g.1]; exact g.2.2)
                  have hx := hc (fun t => if t = j then 1 else 0) (i * (a.newLen / a.len))
                    (by rw [g.2.1]; exact hlt)
                  beta_reduce at hx
                  simp only [mul_ite, mul_one, mul_zero] at hx
                  rw [sum_ite_eq', if_pos (mem_range.2 (by rw [f.1]; exact hj'))] at hx
                  simp only [AxisKernel.comp]
                  rw [← hx]
                  obtain ⟨n, o⟩ := a
                  have hi' : i < n := hi
                  cases o with
                  | none =>
                    have hi0 : i * (PadAxis.newLen (n, none) / PadAxis.len (n, none)) = i := by
                      show i * (n / n) = i
                      rw [Nat.div_self (by omega), Nat.mul_one]
                    simp only [alongIf, hi0, eq_comm]
                  | some s =>
                    obtain ⟨r, hr, e⟩ := h (n, some s) (by simp) s rfl
                    have e' : s = n * r := e
                    subst e'
                    have hi0 : i * (PadAxis.newLen (n, some (n * r)) / PadAxis.len (n, some (n * r))) = r * i := by
                      show i * (n * r / n) = r * i
                      rw [Nat.mul_div_cancel_left r (by omega), Nat.mul_comm i r]
                    simp only [alongIf, hi0]
                    simp only [PadAxis.newLen, PadAxis.len]
                    have := interp1_points n r hr (fun t => if t = j then 1 else 0) hi'
                    unfold interp1 at this
                    rw [this]
                    simp only [eq_comm]
  obtain ⟨m1, m2, m3, m4⟩ := hmain axes lF lP lG idx h hidx kF kP kG
  refine (hT points (refineIdx axes idx) m2).trans ?_
  exact nsum_kprod_delta _ _ idx (by rw [m1]; exact hidx) m3 m4 points

-- a 4 × 3 × 2 array interpolated to 8 × 3 × 6
example : (∀ a ∈ ([(4, some 8), (3, none), (2, some 6)] : List PadAxis), ∀ s, a.2 = some s →
    ∃ r, 0 < r ∧ s = a.1 * r) ∧ InShape (oldShape [(4, some 8), (3, none), (2, some 6)]) [3, 2, 1] ∧
    refineIdx [(4, some 8), (3, none), (2, some 6)] [3, 2, 1] = [6, 2, 3] := by
  refine ⟨?_, ?_, by decide⟩
  · intro a ha s hs
    simp only [List.mem_cons, List.not_mem_nil, or_false] at ha
    rcases ha with rfl | rfl | rfl
    · cases hs; exact ⟨2, by norm_num, by norm_num⟩
    · cases hs
    · cases hs; exact ⟨3, by norm_num, by norm_num⟩
  · simp [InShape, oldShape]

end Verif
