import Verif.Lemmas.Basis

/-!
Orthonormality of the states of a basis, and the closed form of `Basis.convert`.
-/

set_option autoImplicit false

namespace Verif

open Finset Spec

theorem ortho_delta (n m : ℕ) (s : ℕ → ℕ) (hs : ∀ j < n, s j < m)
    (hinj : ∀ j < n, ∀ j' < n, s j = s j' → j = j') :
    Orthonormal' n m (fun j x => if x = s j then 1 else 0) := by
  intro j hj j' hj'
  simp only [conj_ite_one]
  rw [sum_ite_mul_eq (s j) (hs j hj) _ (fun x => x = s j) (fun _ _ => Iff.rfl)]
  by_cases h : j = j'
  · subst h; simp
  · rw [if_neg h, if_neg fun e => h (hinj j hj j' hj' e)]

theorem ortho_plane (n m : ℕ) (hm : 0 < n → 0 < m) (k : ℕ → ℤ)
    (hinj : ∀ j < n, ∀ j' < n, (m : ℤ) ∣ k j' - k j → j = j') :
    Orthonormal' n m (fun j x => planeWave m (k j) x) := by
  intro j hj j' hj'
  rw [planeWave_inner (hm (by omega))]
  by_cases h : j = j'
  · subst h; simp
  · rw [if_neg h, if_neg fun e => h (hinj j hj j' hj' e)]

theorem freq_dvd {n fn : ℕ} (h : n ≤ fn) {j j' : ℕ} (hj : j < n) (hj' : j' < n)
    (hd : (fn : ℤ) ∣ freq n j' - freq n j) : j = j' := by
  have h1 := onGrid_mono h (freq_onGrid hj)
  have h2 := onGrid_mono h (freq_onGrid hj')
  have h3 := onGrid_unique h2 h1
    (Int.emod_eq_emod_iff_emod_sub_eq_zero.2 (Int.emod_eq_zero_of_dvd hd))
  rw [← slot_freq hj, ← slot_freq hj', h3]

theorem evenly_dvd {n step : ℕ} (hs : 0 < step) (offset : ℤ) {j j' : ℕ} (hj : j < n) (hj' : j' < n)
    (hd : ((n * step : ℕ) : ℤ) ∣ (offset + step * j') - (offset + step * j)) : j = j' := by
  have e : (offset + step * j') - (offset + step * j) = step * ((j' : ℤ) - j) := by ring
  rw [e, Nat.cast_mul, mul_comm (n : ℤ)] at hd
  have := Int.dvd_of_mul_dvd_mul_left (by exact_mod_cast hs.ne') hd
  exact ((dvd_sub_iff_eq hj' hj).1 this).symm

theorem ortho_explicit (n : ℕ) (raw : ℕ → ℕ → ℂ) (m p : ℕ) (S : ℕ → ℕ → ℂ) (hS : Orthonormal' m p S)
    (hr : Orthonormal' n m raw) : Orthonormal' n p (fun j x => ∑ k ∈ range m, raw j k * S k x) := by
  intro j hj j' hj'
  rw [← hr j hj j' hj']
  have h1 : ∀ x ∈ range p, (starRingEnd ℂ) (∑ k ∈ range m, raw j k * S k x) * ∑ k ∈ range m, raw j' k * S k x =
      ∑ k ∈ range m, ∑ k' ∈ range m, (starRingEnd ℂ) (raw j k) * raw j' k' * ((starRingEnd ℂ) (S k x) * S k' x) := by
    intro x _
    rw [map_sum, sum_mul_sum]
    exact sum_congr rfl fun k _ => sum_congr rfl fun k' _ => by rw [map_mul]; ring
  rw [sum_congr rfl h1, sum_comm]
  apply sum_congr rfl; intro k hk
  rw [sum_comm]
  have h2 : ∀ k' ∈ range m, ∑ x ∈ range p, (starRingEnd ℂ) (raw j k) * raw j' k' *
      ((starRingEnd ℂ) (S k x) * S k' x) = if k = k' then (starRingEnd ℂ) (raw j k) * raw j' k' else 0 := by
    intro k' hk'
    rw [← mul_sum, hS k (mem_range.1 hk) k' (mem_range.1 hk')]
    split <;> simp
  rw [sum_congr rfl h2, sum_ite_eq, if_pos hk]

mutual
/-- The states of a basis are orthonormal. -/
theorem state_orthonormal : ∀ b : Basis, Valid b → OrthonormalParts b →
    Orthonormal' (size b) (points b) (state b)
  | .fundamental n, _, _ => ortho_delta n n (fun j => j) (fun j hj => hj) fun _ _ _ _ h => h
  | .truncated n fn, h, _ => ortho_delta n fn (fun j => slot fn (freq n j))
      (fun j hj => slot_lt (onGrid_mono h (freq_onGrid hj))) fun j hj j' hj' e => by
        have := slot_inj (onGrid_mono h (freq_onGrid hj)) (onGrid_mono h (freq_onGrid hj')) e
        rw [← slot_freq hj, ← slot_freq hj', this]
  | .transformed n fn, h, _ => ortho_plane n fn (fun hn => lt_of_lt_of_le hn h) (fun j => freq n j)
      fun j hj j' hj' => freq_dvd h hj hj'
  | .fundamentalTransformed n, _, _ => ortho_plane n n (fun h => h) (fun j => (j : ℤ))
      fun j hj j' hj' e => ((dvd_sub_iff_eq hj' hj).1 e).symm
  | .evenlySpaced n step offset, h, _ => by
    have hs : 0 < step := h
    have hp : ∀ j < n, (0 : ℤ) < (n * step : ℕ) := fun j hj => by
      exact_mod_cast Nat.mul_pos (by omega) hs
    have := ortho_delta n (n * step) (fun j => ((offset + step * j) % (n * step : ℕ)).toNat)
      (fun j hj => by
        have h1 := Int.emod_nonneg (offset + step * j) (hp j hj).ne'
        have h2 := Int.emod_lt_of_pos (offset + step * j) (hp j hj)
        generalize (offset + step * j) % (n * step : ℕ) = z at h1 h2 ⊢
        omega)
      (fun j hj j' hj' e => by
        apply evenly_dvd hs offset hj hj'
        have h1 := Int.emod_nonneg (offset + step * j) (hp j hj).ne'
        have h2 := Int.emod_nonneg (offset + step * j') (hp j hj).ne'
        have h3 : (offset + step * j') % (n * step : ℕ) = (offset + step * j) % (n * step : ℕ) := by
          generalize (offset + step * j) % (n * step : ℕ) = z at h1 e ⊢
          generalize (offset + step * j') % (n * step : ℕ) = z' at h2 e ⊢
          beta_reduce at e
          omega
        exact Int.dvd_of_emod_eq_zero (Int.emod_eq_emod_iff_emod_sub_eq_zero.1 h3))
    intro j hj j' hj'
    rw [← this j hj j' hj']
    apply sum_congr rfl; intro x _
    have hcast : ∀ i < n, ((x : ℤ) = (offset + step * i) % (n * step : ℕ) ↔
        x = ((offset + step * i) % (n * step : ℕ)).toNat) := by
      intro i hi
      have h1 := Int.emod_nonneg (offset + step * i) (hp i hi).ne'
      generalize (offset + step * i) % (n * step : ℕ) = z at h1 ⊢
      omega
    simp only [state, hcast j hj, hcast j' hj']
  | .evenlySpacedTransformed n step offset, h, _ =>
      ortho_plane n (n * step) (fun hn => Nat.mul_pos hn h) (fun j => offset + step * j)
        fun j hj j' hj' => evenly_dvd h offset hj hj'
  | .tuple axes, h, ho => states_orthonormal axes h ho
  | .explicit n raw inner, h, ho =>
    ortho_explicit n raw (size inner) (points inner) (state inner) (state_orthonormal inner h ho.1) ho.2

/-- Product states are orthonormal. -/
theorem states_orthonormal : ∀ l : List Basis, Valids l → OrthonormalPartss l →
    Orthonormal' (sizes l) (pointss l) (states l)
  | [], _, _ => by
    intro j hj j' hj'
    simp only [sizes] at hj hj'
    have : j = j' := by omega
    simp [pointss, states, this]
  | b :: bs, h, ho => by
    have h1 := state_orthonormal b h.1 ho.1
    have h2 := states_orthonormal bs h.2 ho.2
    intro j hj j' hj'
    simp only [sizes] at hj hj'
    have hN : 0 < sizes bs := Nat.pos_of_ne_zero fun h => by rw [h] at hj; simp at hj
    have := sum_kron_split (points b) (pointss bs)
      (fun x => (starRingEnd ℂ) (state b (j / sizes bs) x) * state b (j' / sizes bs) x)
      (fun x => (starRingEnd ℂ) (states bs (j % sizes bs) x) * states bs (j' % sizes bs) x)
    rw [h1 _ (by rw [Nat.div_lt_iff_lt_mul hN]; exact hj) _
      (by rw [Nat.div_lt_iff_lt_mul hN]; exact hj'), h2 _ (Nat.mod_lt j hN) _ (Nat.mod_lt j' hN)] at this
    simp only [pointss, states, map_mul]
    refine (sum_congr rfl fun x _ => ?_).trans (this.trans ?_)
    · ring
    · by_cases hjj : j = j'
      · subst hjj; simp
      · rw [if_neg hjj]
        by_cases h1 : j / sizes bs = j' / sizes bs
        · have h2 : j % sizes bs ≠ j' % sizes bs := by
            intro h2
            apply hjj
            rw [← Nat.div_add_mod j (sizes bs), ← Nat.div_add_mod j' (sizes bs), h1, h2]
          simp [h2]
        · simp [h1]
end

/-- The overlap of state `j` of `b` with state `i` of `a`. -/
noncomputable def overlapKernel (a b : Basis) (j i : ℕ) : ℂ :=
  ∑ x ∈ range (points a), (starRingEnd ℂ) (state b j x) * state a i x

/-- Both bases are tuples. -/
def BothTuple : Basis → Basis → Prop
  | .tuple _, .tuple _ => True
  | _, _ => False

theorem convert_not_tuple (same : Basis → Basis → Bool) (a b : Basis) (h : ¬ BothTuple a b) :
    Basis.convert same a b = convertGeneric (same a b) a.methods b.methods ∧
      (Compatible a b ↔ points a = points b) := by
  cases a <;> cases b <;> first
    | exact absurd trivial h
    | exact ⟨by simp [Basis.convert], by simp [Compatible]⟩

theorem convertGeneric_kernel (s : Bool) (a b : Basis) (hs : s = true → a = b) (ha : Valid a) (hb : Valid b)
    (ho : OrthonormalParts a) (hp : points a = points b) :
    ∃ f, convertGeneric s a.methods b.methods = some f ∧ HasKernel f (size a) (size b) (overlapKernel a b) := by
  have la := lawful_basis a ha
  have lb := lawful_basis b hb
  have sa := methods_sizes a
  have sb := methods_sizes b
  unfold convertGeneric
  rw [if_pos (by rw [sa.2, sb.2, hp])]
  by_cases h1 : s = true
  · rw [if_pos h1]
    refine ⟨_, rfl, ?_⟩
    have := hs h1
    subst this
    refine (hasKernel_id (size a)).congr fun i hi j hj => ?_
    exact (state_orthonormal a ha ho i hi j hj).symm
  · rw [if_neg h1]
    by_cases h2 : (a.methods.asTransformed && b.methods.asTransformed) = true
    · rw [if_pos h2]
      refine ⟨_, rfl, ?_⟩
      rw [Bool.and_eq_true] at h2
      have h3 := la.intoT
      have h4 := lb.fromT
      rw [la.asT h2.1, sa.1, sa.2] at h3
      rw [lb.asT h2.2, sb.1, sb.2, ← hp] at h4
      have hk := h3.comp h4
      refine hk.congr fun j _ i _ => ?_
      unfold overlapKernel
      have hu := (planeWave_unitary (points a)).2
      simp only [sum_mul_sum]
      rw [sum_comm]
      have e1 : ∀ x ∈ range (points a), ∑ k ∈ range (points a), ∑ x' ∈ range (points a),
          (starRingEnd ℂ) (state b j x) * planeWave (points a) k x *
            ((starRingEnd ℂ) (planeWave (points a) k x') * state a i x') =
          (starRingEnd ℂ) (state b j x) * state a i x := by
        intro x hx
        rw [sum_comm]
        have e2 : ∀ x' ∈ range (points a), ∑ k ∈ range (points a),
            (starRingEnd ℂ) (state b j x) * planeWave (points a) k x *
            ((starRingEnd ℂ) (planeWave (points a) k x') * state a i x') =
            if x' = x then (starRingEnd ℂ) (state b j x) * state a i x' else 0 := by
          intro x' hx'
          have := hu x' (mem_range.1 hx') x (mem_range.1 hx)
          rw [← ite_mul_zero_right_aux x' x ((starRingEnd ℂ) (state b j x) * state a i x'), ← this, sum_mul]
          exact sum_congr rfl fun k _ => by ring
        rw [sum_congr rfl e2, sum_ite_eq', if_pos hx]
      exact sum_congr rfl e1
    · rw [if_neg h2]
      refine ⟨_, rfl, ?_⟩
      have h3 := la.intoF
      have h4 := lb.fromF
      rw [sa.1, sa.2] at h3
      rw [sb.1, sb.2, ← hp] at h4
      exact h3.comp h4
where
  ite_mul_zero_right_aux (x' x : ℕ) (c : ℂ) : (if x' = x then (1 : ℂ) else 0) * c = if x' = x then c else 0 := by
    split <;> simp

mutual
theorem compatible_points : ∀ a b : Basis, Compatible a b → points a = points b := by
  intro a b h
  by_cases hb : BothTuple a b
  · cases a <;> cases b <;> first | exact absurd hb id | skip
    rename_i as bs
    exact compatibles_points as bs h
  · exact (convert_not_tuple (fun _ _ => false) a b hb).2.1 h

theorem compatibles_points : ∀ as bs : List Basis, Compatibles as bs → pointss as = pointss bs
  | [], [], _ => rfl
  | a :: as, b :: bs, h => by
    simp only [pointss]
    rw [compatible_points a b h.1, compatibles_points as bs h.2]
  | [], _ :: _, h => absurd h id
  | _ :: _, [], h => absurd h id
end

mutual
/-- Closed form of the conversion between two compatible bases: the kernel is the overlap of the states. -/
theorem convert_kernel (same : Basis → Basis → Bool) (hs : ∀ a b, same a b = true → a = b) :
    ∀ a b : Basis, Valid a → Valid b → OrthonormalParts a → Compatible a b →
    ∃ f, Basis.convert same a b = some f ∧ HasKernel f (size a) (size b) (overlapKernel a b) := by
  intro a b ha hb ho hc
  by_cases ht : BothTuple a b
  · cases a <;> cases b <;> first | exact absurd ht id | skip
    rename_i as bs
    have hc' : Compatibles as bs := hc
    obtain ⟨fs, l, h1, h2, h3, h4, h5⟩ := convertList_kernel same hs as bs ha hb ho hc'
    have hfn : (tupleMethods (Basis.methodsList bs)).fn = (tupleMethods (Basis.methodsList as)).fn := by
      simp only [tupleMethods]
      rw [(methodsList_sizes bs).2, (methodsList_sizes as).2, compatibles_points as bs hc']
    refine ⟨convertTupleVector ((Basis.methodsList as).map Methods.n) ((Basis.methodsList bs).map Methods.n) fs,
      ?_, ?_⟩
    · simp only [Basis.convert]
      rw [if_pos hfn, h1]; rfl
    · have h := convertTupleVector_kernel l fs h2
      rw [h3, h4] at h
      have eN : kronN l = sizes as := by rw [kronN_eq, h3, (methodsList_sizes as).1]
      have eM : kronM l = sizes bs := by rw [kronM_eq, h4, (methodsList_sizes bs).1]
      rw [eN, eM] at h
      exact h.congr fun j hj i hi => h5 j i
  · have h := convert_not_tuple same a b ht
    rw [h.1]
    exact convertGeneric_kernel (same a b) a b (hs a b) ha hb ho (h.2.1 hc)

theorem convertList_kernel (same : Basis → Basis → Bool) (hs : ∀ a b, same a b = true → a = b) :
    ∀ as bs : List Basis, Valids as → Valids bs → OrthonormalPartss as → Compatibles as bs →
    ∃ (fs : List ((ℕ → ℂ) → ℕ → ℂ)) (l : List AxisKernel), Basis.convertList same as bs = some fs ∧
      List.Forall₂ (fun f (a : AxisKernel) => HasKernel f a.n a.m a.K) fs l ∧
      l.map AxisKernel.n = (Basis.methodsList as).map Methods.n ∧
      l.map AxisKernel.m = (Basis.methodsList bs).map Methods.n ∧
      ∀ j i, kron l j i = ∑ x ∈ range (pointss as), (starRingEnd ℂ) (states bs j x) * states as i x
  | [], [], _, _, _, _ => ⟨[], [], by simp [Basis.convertList], .nil, rfl, rfl, by
      intro j i; simp [kron, pointss, states]⟩
  | a :: as, b :: bs, ha, hb, ho, hc => by
    obtain ⟨f, h1, h2⟩ := convert_kernel same hs a b ha.1 hb.1 ho.1 hc.1
    obtain ⟨fs, l, i1, i2, i3, i4, i5⟩ := convertList_kernel same hs as bs ha.2 hb.2 ho.2 hc.2
    have hp := compatible_points a b hc.1
    have hps := compatibles_points as bs hc.2
    have eN : kronN l = sizes as := by rw [kronN_eq, i3, (methodsList_sizes as).1]
    have eM : kronM l = sizes bs := by rw [kronM_eq, i4, (methodsList_sizes bs).1]
    refine ⟨f :: fs, ⟨size a, size b, overlapKernel a b⟩ :: l, ?_, ?_, ?_, ?_, ?_⟩
    · simp only [Basis.convertList, h1, i1, Option.bind_some, Option.map_some]
    · exact .cons h2 i2
    · simp only [List.map_cons, Basis.methodsList, i3, (methods_sizes a).1]
    · simp only [List.map_cons, Basis.methodsList, i4, (methods_sizes b).1]
    · intro j i
      simp only [kron, eN, eM, i5, pointss, states, overlapKernel]
      have := sum_kron_split (points a) (pointss as)
        (fun x => (starRingEnd ℂ) (state b (j / sizes bs) x) * state a (i / sizes as) x)
        (fun x => (starRingEnd ℂ) (states bs (j % sizes bs) x) * states as (i % sizes as) x)
      rw [← this]
      apply sum_congr rfl; intro x _
      rw [map_mul, ← hps]; ring
  | [], _ :: _, _, _, _, h => absurd h id
  | _ :: _, [], _, _, _, h => absurd h id
end

mutual
/-- Conversion between incompatible bases raises. -/
theorem convert_none (same : Basis → Basis → Bool) : ∀ a b : Basis, ¬ Compatible a b →
    Basis.convert same a b = none := by
  intro a b hc
  by_cases ht : BothTuple a b
  · cases a <;> cases b <;> first | exact absurd ht id | skip
    rename_i as bs
    simp only [Basis.convert]
    split
    · rw [convertList_none same as bs hc]; rfl
    · rfl
  · have h := convert_not_tuple same a b ht
    rw [h.1]
    unfold convertGeneric
    rw [if_neg]
    rw [(methods_sizes a).2, (methods_sizes b).2]
    exact fun e => hc (h.2.2 e.symm)

theorem convertList_none (same : Basis → Basis → Bool) : ∀ as bs : List Basis, ¬ Compatibles as bs →
    Basis.convertList same as bs = none
  | [], [], h => absurd trivial h
  | a :: as, b :: bs, h => by
    simp only [Basis.convertList]
    by_cases h1 : Compatible a b
    · have h2 : ¬ Compatibles as bs := fun h2 => h ⟨h1, h2⟩
      rw [convertList_none same as bs h2]
      cases Basis.convert same a b <;> rfl
    · rw [convert_none same a b h1]; rfl
  | [], _ :: _, _ => by simp [Basis.convertList]
  | _ :: _, [], _ => by simp [Basis.convertList]
end

end Verif
