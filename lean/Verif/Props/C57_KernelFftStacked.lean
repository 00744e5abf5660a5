import Verif.Props.C57_KernelFft

/-!
C57 on a grid with several axes.
-/

set_option autoImplicit false

namespace Verif

open Finset Spec

/-- The list `f` holds, for each axis, the displacement of the points `i` and `j` reduced modulo the length `N` of the sample
to `[-N/2, N/2)`. The points are labelled as by `nk_points`. -/
def IsDisplacement : List ℕ → List ℕ → List ℕ → List ℕ → List ℤ → Prop
  | n :: ns, N :: Ns, i :: is, j :: js, f :: fs =>
    (OnGrid N f ∧ f ≡ nkPoints n i - nkPoints n j [ZMOD N]) ∧ IsDisplacement ns Ns is js fs
  | [], [], [], [], [] => True
  | _, _, _, _, _ => False

/-- The product of the phases of the axes. -/
noncomputable def mphase : List ℕ → List ℤ → List ℤ → ℂ
  | N :: Ns, a :: as, z :: zs => phase N (a * z) * mphase Ns as zs
  | _, _, _ => 1

theorem exp_stackedPhase : ∀ (Ns : List ℕ) (as zs : List ℤ),
    Complex.exp (Complex.I * ((stackedPhase Ns as zs : ℝ) : ℂ)) = mphase Ns as zs
  | [], _, _ => by simp [stackedPhase, mphase, List.zipWith3]
  | _ :: _, [], _ => by simp [stackedPhase, mphase, List.zipWith3]
  | _ :: _, _ :: _, [] => by simp [stackedPhase, mphase, List.zipWith3]
  | N :: Ns, a :: as, z :: zs => by
    have ih := exp_stackedPhase Ns as zs
    have e : stackedPhase (N :: Ns) (a :: as) (z :: zs) = 2 * Real.pi / (N : ℝ) * (a : ℝ) * (z : ℝ) + stackedPhase Ns as zs := by
      simp [stackedPhase, List.zipWith3]
    rw [e, mphase, ← ih, Complex.ofReal_add, mul_add, Complex.exp_add]
    congr 1
    rw [phase]
    congr 1
    push_cast
    ring

theorem mphase_nk : ∀ (Ns is : List ℕ) (zs : List ℤ), InShape Ns is →
    mphase Ns (List.zipWith (fun n j => nkPoints n j) Ns is) zs = mphase Ns (is.map fun i : ℕ => (i : ℤ)) zs
  | [], [], _, _ => rfl
  | _ :: _, _ :: _, [], _ => rfl
  | N :: Ns, i :: is, z :: zs, h => by
    have hN : 0 < N := lt_of_le_of_lt (Nat.zero_le _) h.1
    show phase N (nkPoints N i * z) * mphase Ns _ zs = phase N (i * z) * mphase Ns _ zs
    rw [mphase_nk Ns is zs h.2]
    congr 1
    refine phase_congr hN ?_
    rw [← sub_mul]
    refine Dvd.dvd.mul_right ?_ _
    exact Int.ModEq.dvd (show ((i : ℤ)) % N = (nkPoints N i) % N from (nkPoints_emod h.1 dvd_rfl).symm)

theorem mphase_conj_mul : ∀ (Ns : List ℕ) (as xs ys : List ℤ), xs.length = Ns.length → ys.length = Ns.length →
    (starRingEnd ℂ) (mphase Ns as xs) * mphase Ns as ys = mphase Ns as (List.zipWith (fun x y => -(x - y)) xs ys)
  | [], _, _, _, _, _ => by simp [mphase]
  | _ :: _, [], _, _, _, _ => by simp [mphase]
  | N :: Ns, a :: as, x :: xs, y :: ys, h1, h2 => by
    have ih := mphase_conj_mul Ns as xs ys (by simpa using h1) (by simpa using h2)
    show (starRingEnd ℂ) (phase N (a * x) * mphase Ns as xs) * (phase N (a * y) * mphase Ns as ys) =
      phase N (a * -(x - y)) * mphase Ns as _
    rw [← ih, map_mul, phase_conj]
    have e : phase N (a * -(x - y)) = phase N (-(a * x)) * phase N (a * y) := by rw [← phase_add]; congr 1; ring
    rw [e]
    ring

/-- The inverse transform on several axes of a transform, at any integers. -/
theorem nsum_mphase_inverse : ∀ (Ns : List ℕ) (_ : ∀ N ∈ Ns, 0 < N) (F : List ℕ → ℂ) (zs : List ℤ), zs.length = Ns.length →
    nsum Ns (fun as => mphase Ns (as.map fun a : ℕ => (a : ℤ)) (zs.map fun z => -z) *
      nsum Ns fun js => mphase Ns (as.map fun a : ℕ => (a : ℤ)) (js.map fun j : ℕ => (j : ℤ)) * F js) =
      (Ns.prod : ℂ) * F (List.zipWith (fun (N : ℕ) (z : ℤ) => (z % N).toNat) Ns zs)
  | [], _, F, [], _ => by simp [nsum, mphase]
  | N :: Ns, hN, F, z :: zs, hz => by
    have hN0 : 0 < N := hN N (by simp)
    have ih := fun F => nsum_mphase_inverse Ns (fun M hM => hN M (by simp [hM])) F zs (by simpa using hz)
    show ∑ a ∈ range N, nsum Ns (fun as => phase N (a * -z) * mphase Ns (as.map fun a : ℕ => (a : ℤ)) (zs.map fun z => -z) *
      ∑ j ∈ range N, nsum Ns fun js => phase N (a * j : ℤ) * mphase Ns (as.map fun a : ℕ => (a : ℤ)) (js.map fun j : ℕ => (j : ℤ)) *
        F (j :: js)) = _
    have e : ∀ a ∈ range N, nsum Ns (fun as => phase N (a * -z) * mphase Ns (as.map fun a : ℕ => (a : ℤ)) (zs.map fun z => -z) *
        ∑ j ∈ range N, nsum Ns fun js => phase N (a * j : ℤ) * mphase Ns (as.map fun a : ℕ => (a : ℤ)) (js.map fun j : ℕ => (j : ℤ)) *
          F (j :: js)) = phase N (-(a * z : ℤ)) * ∑ j ∈ range N, phase N (a * j : ℤ) * ((Ns.prod : ℂ) *
            F (j :: List.zipWith (fun (N : ℕ) (z : ℤ) => (z % N).toNat) Ns zs)) := by
      intro a _
      simp only [mul_assoc]
      rw [nsum_mul_left]
      have e1 : (a : ℤ) * -z = -(a * z : ℤ) := by ring
      rw [e1]
      congr 1
      simp only [mul_sum]
      rw [nsum_sum]
      refine sum_congr rfl fun j _ => ?_
      rw [← ih fun js => F (j :: js), ← nsum_mul_left]
      refine nsum_congr _ _ _ fun as _ => ?_
      rw [nsum_mul_left]
      ring
    rw [sum_congr rfl e, sum_phase_inverse hN0]
    show _ = ((N * Ns.prod : ℕ) : ℂ) * F ((z % N).toNat :: _)
    push_cast
    ring

theorem fftAxes_len : ∀ (ns Ns : List ℕ), ns.length = Ns.length →
    (fftAxes ns Ns).map PadAxis.newLen = Ns ∧ (fftAxes ns Ns).map PadAxis.len = ns
  | [], [], _ => ⟨rfl, rfl⟩
  | n :: ns, N :: Ns, h => by
    have ih := fftAxes_len ns Ns (by simpa using h)
    exact ⟨by show N :: (fftAxes ns Ns).map PadAxis.newLen = _; rw [ih.1], by
      show n :: (fftAxes ns Ns).map PadAxis.len = _; rw [ih.2]⟩

theorem ifftn_eq (ns Ns : List ℕ) (h : ns.length = Ns.length) (arr : List ℕ → ℂ) (is : List ℕ) (his : InShape Ns is) :
    ifftn (fftAxes ns Ns) arr is = nsum Ns fun js =>
      mphase Ns (is.map fun a : ℕ => (a : ℤ)) (js.map fun j : ℕ => (j : ℤ)) * arr js := by
  obtain ⟨l, hl⟩ : ∃ l : List AxisKernel, l = Ns.map fun N => ⟨N, N, fun k x => phase N (k * x : ℤ)⟩ := ⟨_, rfl⟩
  have hn : l.map AxisKernel.n = Ns := by rw [hl, List.map_map]; exact List.map_id _
  have hm : l.map AxisKernel.m = Ns := by rw [hl, List.map_map]; exact List.map_id _
  have hf : List.Forall₂ (fun f (a : AxisKernel) => HasKernel f a.n a.m a.K)
      ((fftAxes ns Ns).map fun a => alongIf (ifft .forward a.newLen) a) l := by
    rw [hl]
    clear his hl hn hm l arr is
    induction ns generalizing Ns with
    | nil => cases Ns with
      | nil => exact List.Forall₂.nil
      | cons => simp at h
    | cons n ns ih => cases Ns with
      | nil => simp at h
      | cons N Ns =>
        refine List.Forall₂.cons ?_ (ih Ns (by simpa using h))
        intro v k _
        show ifft .forward N v k = _
        rw [ifft_eq]
        have e2 : FftNorm.ifftScale N .forward = 1 := rfl
        rw [e2, one_mul]
  have := foldl_applyAlong l _ 0 [] arr is rfl hf (by rw [hm]; exact his)
  rw [hn] at this
  refine Eq.trans this ?_
  refine nsum_congr _ _ _ fun js hjs => ?_
  congr 1
  rw [hl]
  clear this hf hn hm hl l h arr ns
  induction Ns generalizing is js with
  | nil => rfl
  | cons N Ns ih =>
    match is, js, his, hjs with
    | i :: is, j :: js, his, hjs =>
      show phase N (i * j : ℤ) * kprod _ is js = phase N (i * j : ℤ) * mphase Ns _ _
      rw [ih is his.2 js hjs.2]

theorem displacement_facts : ∀ (ns Ns is js : List ℕ) (fs : List ℤ) (_ : ∀ N ∈ Ns, 0 < N), IsDisplacement ns Ns is js fs →
    List.zipWith (fun (N : ℕ) (z : ℤ) => (z % N).toNat) Ns (List.zipWith (fun x y => x - y)
      (List.zipWith (fun n j => nkPoints n j) ns is) (List.zipWith (fun n j => nkPoints n j) ns js)) = List.zipWith slot Ns fs ∧
    InShape Ns (List.zipWith slot Ns fs) ∧
    (idxHas (fftAxes ns Ns) (List.zipWith slot Ns fs) ↔ List.Forall₂ OnGrid ns fs) ∧
    idxSource (fftAxes ns Ns) (List.zipWith slot Ns fs) = List.zipWith slot ns fs
  | [], [], [], [], [], _, _ => ⟨rfl, trivial, by simp [idxHas, fftAxes], rfl⟩
  | n :: ns, N :: Ns, i :: is, j :: js, f :: fs, hN, h => by
    obtain ⟨h1, h2, h3, h4⟩ := displacement_facts ns Ns is js fs (fun M hM => hN M (by simp [hM])) h.2
    have hN0 : 0 < N := hN N (by simp)
    obtain ⟨hf, hmod⟩ := h.1
    have hslot : ((nkPoints n i - nkPoints n j) % N).toNat = slot N f := by
      have h1 := slot_emod hf
      rw [hmod.eq] at h1
      have := toNat_emod_cast hN0 (nkPoints n i - nkPoints n j)
      omega
    refine ⟨?_, ⟨slot_lt hf, h2⟩, ?_, ?_⟩
    · show ((nkPoints n i - nkPoints n j) % N).toNat :: _ = slot N f :: _
      rw [hslot, h1]
    · show (OnGrid n (freq N (slot N f)) ∧ idxHas (fftAxes ns Ns) (List.zipWith slot Ns fs)) ↔ _
      rw [freq_slot hf, h3, List.forall₂_cons]
    · show slot n (freq N (slot N f)) :: idxSource (fftAxes ns Ns) (List.zipWith slot Ns fs) = _
      rw [freq_slot hf, h4]
      rfl

theorem length_of_inShape : ∀ {ns is : List ℕ}, InShape ns is → is.length = ns.length
  | [], [], _ => rfl
  | _ :: _, _ :: _, h => by simp [length_of_inShape h.2]

theorem displacement_self : ∀ (ns is js : List ℕ), InShape ns is → InShape ns js →
    IsDisplacement ns ns is js (List.zipWith freq ns (wrappedDisplacement ns is js)) ∧
    List.Forall₂ OnGrid ns (List.zipWith freq ns (wrappedDisplacement ns is js)) ∧
    List.zipWith slot ns (List.zipWith freq ns (wrappedDisplacement ns is js)) = wrappedDisplacement ns is js
  | [], [], [], _, _ => ⟨trivial, List.Forall₂.nil, rfl⟩
  | n :: ns, i :: is, j :: js, hi, hj => by
    obtain ⟨a1, a2, a3⟩ := displacement_self ns is js hi.2 hj.2
    have hn : 0 < n := lt_of_le_of_lt (Nat.zero_le _) hi.1
    have hz := toNat_emod_lt hn ((i : ℤ) - j)
    refine ⟨⟨⟨freq_onGrid hz, ?_⟩, a1⟩, List.Forall₂.cons (freq_onGrid hz) a2, ?_⟩
    · have h3 : freq n (((i : ℤ) - j) % n).toNat % n = _ := freq_emod
      rw [toNat_emod_cast hn, Int.emod_emod] at h3
      unfold Int.ModEq
      rw [h3]
      have b1 : (i : ℤ) ≡ nkPoints n i [ZMOD n] := (nkPoints_emod hi.1 dvd_rfl).symm
      have b2 : (j : ℤ) ≡ nkPoints n j [ZMOD n] := (nkPoints_emod hj.1 dvd_rfl).symm
      exact b1.sub b2
    · show slot n (freq n (((i : ℤ) - j) % n).toNat) :: _ = (((i : ℤ) - j) % n).toNat :: _
      rw [slot_freq hz]
      exact congrArg _ a3

open Classical in
/-- **C57.** The kernel of the Fourier operators on a grid with several axes: the value of the given kernel at the displacement of
each axis modulo the length of the sample, zero if the given kernel has no such displacement. -/
theorem C57_stacked_kernel (ns : List ℕ) (β : ℕ → ℂ) (Ns : List ℕ) (hlen : ns.length = Ns.length) (hN : ∀ N ∈ Ns, 0 < N)
    (check : Bool) (ops : DiagonalNoiseOperators) (h : isotropicStackedFft ns β (some Ns) check = some ops) :
    ops.dim = ns.prod ∧ ops.count = Ns.prod ∧ ∃ K, getDiagonalKernel ops = some K ∧ ∀ i j f, InShape ns i → InShape ns j →
      IsDisplacement ns Ns i j f → K (ravel ns i * ns.prod + ravel ns j) =
        if List.Forall₂ OnGrid ns f then β (ravel ns (List.zipWith slot ns f)) else 0 := by
  unfold isotropicStackedFft isotropicStackedOperators at h
  simp only [Option.getD_some, Option.map_eq_some_iff] at h
  obtain ⟨o, ho, h⟩ := h
  split_ifs at ho
  obtain rfl := Option.some.inj ho
  have hvc : ops.values = ops.count := by subst h; rfl
  obtain ⟨K, hK, hv⟩ := getDiagonalKernel_entries ops hvc
  subst h
  refine ⟨rfl, rfl, K, hK, fun i j f hi hj hf => ?_⟩
  have hprod : 0 < ns.prod := lt_of_le_of_lt (Nat.zero_le _) (ravel_lt ns i hi)
  have hn : (ns.prod : ℂ) ≠ 0 := by exact_mod_cast hprod.ne'
  have hNp : 0 < Ns.prod := List.prod_pos hN
  have hNc : (Ns.prod : ℂ) ≠ 0 := by exact_mod_cast hNp.ne'
  obtain ⟨f1, f2, f3, f4⟩ := displacement_facts ns Ns i j f hN hf
  obtain ⟨P, hP⟩ : ∃ P, P = padFtPoints (fftAxes ns Ns) fun idx => β (ravel ns idx) := ⟨_, rfl⟩
  have hent : ∀ a x, InShape ns x → flatten ns.prod (fun a m =>
      Complex.exp (Complex.I * ((stackedPhase Ns (stackedNkPoints Ns a) (stackedNkPoints ns m) : ℝ) : ℂ)) /
        ((Real.sqrt ns.prod : ℝ) : ℂ)) (a * ns.prod + ravel ns x) =
      mphase Ns (stackedNkPoints Ns a) (List.zipWith (fun n j => nkPoints n j) ns x) / ((Real.sqrt ns.prod : ℝ) : ℂ) := by
    intro a x hx
    rw [flatten_entry _ _ (ravel_lt ns x hx), exp_stackedPhase]
    congr 2
    unfold stackedNkPoints
    rw [unravel_ravel ns x hx]
  have hl : ∀ x, InShape ns x → (List.zipWith (fun n j => nkPoints n j) ns x).length = Ns.length := fun x hx => by
    rw [List.length_zipWith, length_of_inShape hx, min_self, hlen]
  obtain ⟨zs, hzs⟩ : ∃ zs, zs = List.zipWith (fun x y => x - y) (List.zipWith (fun n j => nkPoints n j) ns i)
    (List.zipWith (fun n j => nkPoints n j) ns j) := ⟨_, rfl⟩
  have hzl : zs.length = Ns.length := by rw [hzs, List.length_zipWith, hl i hi, hl j hj, min_self]
  have key : K (ravel ns i * ns.prod + ravel ns j) = P (List.zipWith slot Ns f) := by
    refine (hv (ravel ns i) (ravel ns j) (ravel_lt ns j hj)).trans ?_
    unfold noiseKernel
    dsimp only
    obtain ⟨G, hG⟩ : ∃ G : List ℕ → ℂ, G = fun as : List ℕ => 1 / (Ns.prod : ℂ) *
      (mphase Ns (as.map fun a : ℕ => (a : ℤ)) (zs.map fun z => -z) *
        nsum Ns fun js => mphase Ns (as.map fun a : ℕ => (a : ℤ)) (js.map fun j : ℕ => (j : ℤ)) * P js) := ⟨_, rfl⟩
    have e : ∀ a ∈ range Ns.prod, isotropicStackedEigenvalues ns β (some Ns) a *
        (starRingEnd ℂ) (mphase Ns (stackedNkPoints Ns a) (List.zipWith (fun n j => nkPoints n j) ns i) / ((Real.sqrt ns.prod : ℝ) : ℂ)) *
        (mphase Ns (stackedNkPoints Ns a) (List.zipWith (fun n j => nkPoints n j) ns j) / ((Real.sqrt ns.prod : ℝ) : ℂ)) =
        G (unravel Ns a) := by
      intro a ha
      rw [hG]
      have hin := unravel_inShape Ns a (mem_range.1 ha)
      unfold isotropicStackedEigenvalues stackedNkPoints
      simp only [Option.getD_some]
      rw [ifftn_eq ns Ns hlen _ _ hin, ← hP, map_div₀, Complex.conj_ofReal, mphase_nk Ns _ _ hin, mphase_nk Ns _ _ hin]
      have e1 := mphase_conj_mul Ns ((unravel Ns a).map fun a : ℕ => (a : ℤ)) _ _ (hl i hi) (hl j hj)
      have e2 : List.zipWith (fun x y : ℤ => -(x - y)) (List.zipWith (fun n j => nkPoints n j) ns i)
          (List.zipWith (fun n j => nkPoints n j) ns j) = zs.map fun z => -z := by
        rw [hzs, List.map_zipWith]
      rw [e2] at e1
      rw [← e1]
      have hq : ((Real.sqrt ns.prod : ℝ) : ℂ) * ((Real.sqrt ns.prod : ℝ) : ℂ) = (ns.prod : ℂ) := sqrt_mul_self'
      have hs : ((Real.sqrt ns.prod : ℝ) : ℂ) ≠ 0 := fun h0 => hn (by rw [← hq, h0, mul_zero])
      generalize (starRingEnd ℂ) (mphase Ns ((unravel Ns a).map fun a : ℕ => (a : ℤ)) _) = A
      generalize mphase Ns ((unravel Ns a).map fun a : ℕ => (a : ℤ)) (List.zipWith (fun n j => nkPoints n j) ns j) = B
      generalize nsum Ns _ = S
      rw [← hq]
      field_simp
    refine (sum_congr rfl fun a ha => ?_).trans ((sum_congr rfl e).trans ?_)
    · rw [hent a i hi, hent a j hj]
    · rw [sum_unravel, hG, nsum_mul_left, nsum_mphase_inverse Ns hN P zs hzl, hzs, f1]
      field_simp
  rw [key, hP, padFtPoints_eq _ _ _ (by rw [(fftAxes_len ns Ns hlen).1]; exact f2), f4]
  by_cases hg : List.Forall₂ OnGrid ns f
  · rw [if_pos hg, if_pos (f3.2 hg)]
  · rw [if_neg hg, if_neg fun h' => hg (f3.1 h')]

/-- **C57.** On a grid with several axes, the operators of all frequencies rebuild the isotropic kernel. -/
theorem C57_stacked_rebuild (ns : List ℕ) (hn : ∀ n ∈ ns, 0 < n) (β : ℕ → ℂ) (check : Bool) :
    ∃ ops K, isotropicStackedFft ns β none check = some ops ∧ ops.dim = ns.prod ∧ ops.count = ns.prod ∧
      getDiagonalKernel ops = some K ∧ ∀ k < ns.prod * ns.prod, K k = diagonalFromIsotropicStacked ns β k := by
  have hper : periodicSample ns ns = true := by
    unfold periodicSample
    simp only [decide_true, Bool.true_and]
    clear β check
    induction ns with
    | nil => rfl
    | cons n ns ih =>
      simp only [List.zipWith_cons_cons, List.all_cons, id, Bool.and_eq_true]
      exact ⟨by simpa using hn n (by simp), ih fun m hm => hn m (by simp [hm])⟩
  obtain ⟨ops, hops⟩ : ∃ ops, isotropicStackedFft ns β none check = some ops := by
    unfold isotropicStackedFft isotropicStackedOperators
    simp only [Option.getD_none, Option.getD_some, hper]
    rw [if_neg (by simp)]
    exact ⟨_, rfl⟩
  obtain ⟨hd, hc, K, hK, hv⟩ := C57_stacked_kernel ns β ns rfl hn check ops hops
  refine ⟨ops, K, hops, hd, hc, hK, fun k hk => ?_⟩
  have h0 : 0 < ns.prod := List.prod_pos hn
  have e : k = (k / ns.prod) * ns.prod + k % ns.prod := (Nat.div_add_mod' k _).symm
  have h1 : k / ns.prod < ns.prod := Nat.div_lt_of_lt_mul hk
  have h2 : k % ns.prod < ns.prod := Nat.mod_lt _ h0
  rw [e]
  have i1 := unravel_inShape ns _ h1
  have i2 := unravel_inShape ns _ h2
  obtain ⟨a1, a2, a3⟩ := displacement_self ns _ _ i1 i2
  have := hv _ _ _ i1 i2 a1
  rw [ravel_unravel ns _ h1, ravel_unravel ns _ h2, if_pos a2, a3] at this
  rw [this]
  exact (flatten_entry (fun i j => β (ravel ns (wrappedDisplacement ns (unravel ns i) (unravel ns j)))) _ h2).symm

theorem inShape_zeros : ∀ {ns is : List ℕ}, InShape ns is → InShape ns (ns.map fun _ => 0)
  | [], [], _ => trivial
  | _ :: _, _ :: _, h => ⟨lt_of_le_of_lt (Nat.zero_le _) h.1, inShape_zeros h.2⟩

theorem mapM_forall₂ {α β : Type} (R : α → β → Prop) (f : α → Option β) : ∀ (L : List α),
    (∀ x ∈ L, ∃ y, f x = some y ∧ R x y) → ∃ l, L.mapM f = some l ∧ List.Forall₂ R L l
  | [], _ => ⟨[], rfl, List.Forall₂.nil⟩
  | x :: L, h => by
    obtain ⟨y, hy, hR⟩ := h x (by simp)
    obtain ⟨l, hl, hF⟩ := mapM_forall₂ R f L fun z hz => h z (by simp [hz])
    exact ⟨y :: l, by rw [List.mapM_cons, hy, hl]; rfl, List.Forall₂.cons hR hF⟩

/-- **C57.** The operators found axis by axis (`get_periodic_noise_operators_real_isotropic_stacked_fft`) rebuild the product of
the kernels of the axes. -/
theorem C57_axis_kernel (ns : List ℕ) (hn : ∀ n ∈ ns, 0 < n) (β : ℕ → ℂ) (check : Bool) :
    ∃ ops K, realIsotropicStackedFft ns β none check = some ops ∧ ops.dim = ns.prod ∧ ops.count = ns.prod ∧
      ops.values = ops.count ∧ getDiagonalKernel ops = some K ∧ ∀ k < ns.prod * ns.prod, K k =
        diagonalFromIsotropicStacked ns (isotropicFromAxis ns (axisFromIsotropic ns β)) k := by
  obtain ⟨L, hL⟩ : ∃ L, L = (List.zipWith (fun n β' => (n, β')) ns (axisFromIsotropic ns β)).zipIdx := ⟨_, rfl⟩
  have hlen : (axisFromIsotropic ns β).length = ns.length := by simp [axisFromIsotropic]
  have hz : L.map (fun p => p.1) = List.zipWith (fun n β' => (n, β')) ns (axisFromIsotropic ns β) := by
    rw [hL, List.zipIdx_map_fst]
  have hz1 : L.map (fun p => p.1.1) = ns := by
    have : L.map (fun p => p.1.1) = (L.map fun p => p.1).map Prod.fst := by rw [List.map_map]; rfl
    rw [this, hz]
    exact List.map_fst_zip (by rw [hlen])
  have hz2 : L.map (fun p => p.1.2) = axisFromIsotropic ns β := by
    have : L.map (fun p => p.1.2) = (L.map fun p => p.1).map Prod.snd := by rw [List.map_map]; rfl
    rw [this, hz]
    exact List.map_snd_zip (by rw [hlen])
  obtain ⟨l, hl, hF⟩ := mapM_forall₂ (fun (p : (ℕ × (ℕ → ℂ)) × ℕ) (ops : DiagonalNoiseOperators) =>
      ops.values = ops.count ∧ ops.dim = p.1.1 ∧ ops.count = p.1.1 ∧ ∃ K, getDiagonalKernel ops = some K ∧
        ∀ k < ops.dim * ops.dim, K k = diagonalFromIsotropic ops.dim p.1.2 k)
    (fun p => isotropicFft p.1.1 p.1.2 none check) L (fun p hp => by
      have hp1 : 0 < p.1.1 := hn _ (by rw [← hz1]; exact List.mem_map_of_mem hp)
      obtain ⟨ops, K, h1, h2, h3, h4, h5⟩ := C57_rebuild p.1.1 hp1 p.1.2 check
      refine ⟨ops, h1, ?_, h2, h3, K, h4, by rw [h2]; exact h5⟩
      rw [h3]
      unfold isotropicFft at h1
      simp only [Option.map_eq_some_iff] at h1
      obtain ⟨o, -, h1⟩ := h1
      rw [← h1]
      rfl)
  have hdim : l.map DiagonalNoiseOperators.dim = ns := by
    rw [← hz1]
    clear hl hz1 hz2 hz hL
    induction hF with
    | nil => rfl
    | cons h _ ih => rw [List.map_cons, List.map_cons, ih, h.2.1]
  have hcount : l.map DiagonalNoiseOperators.count = ns := by
    rw [← hz1]
    clear hl hz1 hz2 hz hL hdim
    induction hF with
    | nil => rfl
    | cons h _ ih => rw [List.map_cons, List.map_cons, ih, h.2.2.1]
  have hval : ∀ ops ∈ l, ops.values = ops.count := by
    clear hl hz1 hz2 hz hL hdim hcount
    induction hF with
    | nil => simp
    | cons h _ ih => 
      intro o ho
      rcases List.mem_cons.1 ho with rfl | ho
      · exact h.1
      · exact ih o ho
  have hβs : List.Forall₂ (fun (ops : DiagonalNoiseOperators) (β : ℕ → ℂ) => ∃ K, getDiagonalKernel ops = some K ∧
      ∀ k < ops.dim * ops.dim, K k = diagonalFromIsotropic ops.dim β k) l (axisFromIsotropic ns β) := by
    rw [← hz2]
    clear hl hz1 hz2 hz hL hdim hcount hval
    induction hF with
    | nil => exact List.Forall₂.nil
    | cons h _ ih => exact List.Forall₂.cons h.2.2.2 ih
  obtain ⟨K, hK, hv⟩ := C60_isotropic l hval _ hβs
  refine ⟨operatorsFromAxis l, K, ?_, ?_, ?_, ?_, hK, ?_⟩
  · unfold realIsotropicStackedFft
    rw [← hL]
    show (L.mapM fun p => isotropicFft p.1.1 p.1.2 none check).map operatorsFromAxis = _
    rw [hl]
    rfl
  · show (l.map DiagonalNoiseOperators.dim).prod = _
    rw [hdim]
  · show (l.map DiagonalNoiseOperators.count).prod = _
    rw [hcount]
  · show (l.map DiagonalNoiseOperators.values).prod = (l.map DiagonalNoiseOperators.count).prod
    rw [List.map_congr_left hval]
  · rw [hdim] at hv
    exact hv

/-- **C57.** Axis by axis the operators rebuild a kernel which is the product of kernels of the axes and does not vanish at the
origin. For other kernels the claim is false: see `C57_axis_negation`. -/
theorem C57_axis_partial (ns : List ℕ) (hne : ns ≠ []) (hn : ∀ n ∈ ns, 0 < n) (ks : List (ℕ → ℂ)) (hlen : ks.length = ns.length)
    (β : ℕ → ℂ) (hβ : ∀ k < ns.prod, β k = isotropicFromAxis ns ks k) (h0 : β 0 ≠ 0) (check : Bool) :
    ∃ ops K, realIsotropicStackedFft ns β none check = some ops ∧ getDiagonalKernel ops = some K ∧
      ∀ k < ns.prod * ns.prod, K k = diagonalFromIsotropicStacked ns β k := by
  obtain ⟨ops, K, h1, -, -, -, h3, h4⟩ := C57_axis_kernel ns hn β check
  refine ⟨ops, K, h1, h3, fun k hk => ?_⟩
  have hp : 0 < ns.prod := List.prod_pos hn
  rw [h4 k hk]
  have h2 : k % ns.prod < ns.prod := Nat.mod_lt _ hp
  have hk1 : k / ns.prod < ns.prod := Nat.div_lt_of_lt_mul hk
  have key : ∀ q < ns.prod, isotropicFromAxis ns (axisFromIsotropic ns β) q = β q := by
    intro q hq
    have hrt := C60_axis_roundtrip ns hne ks hlen (by rw [← hβ 0 hp]; exact h0) q hq
    rw [hβ q hq, ← hrt]
    unfold isotropicFromAxis
    rw [outerProduct_eq _ _ (by simp [axisFromIsotropic, length_of_inShape (unravel_inShape ns q hq)]),
      outerProduct_eq _ _ (by simp [axisFromIsotropic, length_of_inShape (unravel_inShape ns q hq)])]
    have hl1 : (axisFromIsotropic ns β).length = (axisFromIsotropic ns fun k => outerProduct ks (unravel ns k)).length := by
      simp [axisFromIsotropic]
    rw [hl1]
    refine prod_congr rfl fun i hi => ?_
    have hi' : i < ns.length := by simpa [axisFromIsotropic] using hi
    simp only [axisFromIsotropic, List.getD_eq_getElem?_getD, List.getElem?_map, List.getElem?_range hi', Option.map_some,
      Option.getD_some]
    rw [hβ 0 hp]
    congr 1
    refine hβ _ (ravel_lt ns _ ?_)
    have hin := unravel_inShape ns q hq
    generalize unravel ns q = x at hin ⊢
    clear hrt hl1 hi hβ h0 h1 h3 h4 hne hlen hp hk h2 hk1 hn hq
    induction ns generalizing x i with
    | nil => simp at hi'
    | cons n ns ih =>
      match x, hin with
      | a :: as, hin =>
        cases i with
        | zero =>
          exact ⟨hin.1, inShape_zeros hin.2⟩
        | succ i => exact ⟨lt_of_le_of_lt (Nat.zero_le _) hin.1, ih i (by simpa using hi') as hin.2⟩
  have e : k = (k / ns.prod) * ns.prod + k % ns.prod := (Nat.div_add_mod' k _).symm
  rw [e]
  have k1 := fun γ : ℕ → ℂ =>
    flatten_entry (fun i j => γ (ravel ns (wrappedDisplacement ns (unravel ns i) (unravel ns j)))) (k / ns.prod) h2
  refine (k1 _).trans (Eq.trans ?_ (k1 β).symm)
  exact key _ (ravel_lt _ _ (wrappedDisplacement_inShape _ _ _ (unravel_inShape _ _ hk1) (unravel_inShape _ _ h2)))

/-- C57 is false for the code which goes axis by axis: the kernel `1, 1, 1, 0` on a grid of two by two points is rebuilt with the
value one at the displacement `(1, 1)`. -/
theorem C57_axis_negation : ∃ (ns : List ℕ) (β : ℕ → ℂ) (ops : DiagonalNoiseOperators) (K : ℕ → ℂ),
    realIsotropicStackedFft ns β none true = some ops ∧ getDiagonalKernel ops = some K ∧ ns.prod = 4 ∧ (∀ j, (β j).im = 0) ∧
      K (3 * 4 + 0) = 1 ∧ diagonalFromIsotropicStacked ns β (3 * 4 + 0) = 0 := by
  obtain ⟨ops, K, h1, -, -, -, h3, h4⟩ := C57_axis_kernel [2, 2] (by simp) (fun j => if j < 3 then 1 else 0) true
  refine ⟨[2, 2], fun j => if j < 3 then 1 else 0, ops, K, h1, h3, by norm_num, fun j => by
    show (if j < 3 then (1 : ℂ) else 0).im = 0
    split_ifs <;> simp, ?_, ?_⟩
  · rw [h4 _ (by norm_num)]
    norm_num [diagonalFromIsotropicStacked, isotropicFromAxis, axisFromIsotropic, flatten, unravel, ravel, List.zipWith3,
      outerProduct, List.range_succ]
  · norm_num [diagonalFromIsotropicStacked, flatten, unravel, ravel, List.zipWith3]

/-- A product kernel on two by two points which is not zero at the origin. -/
example : ∀ k : ℕ, k < ([2, 2] : List ℕ).prod →
    (fun k : ℕ => if k = 0 then (6 : ℂ) else if k = 1 then 3 else if k = 2 then 2 else 1) k =
      isotropicFromAxis [2, 2] [fun i => if i = 0 then 3 else 1, fun i => if i = 0 then 2 else 1] k := by
  intro k hk
  have hk : k < 4 := hk
  obtain rfl | rfl | rfl | rfl : k = 0 ∨ k = 1 ∨ k = 2 ∨ k = 3 := by omega
  all_goals norm_num [isotropicFromAxis, outerProduct, unravel]

end Verif
