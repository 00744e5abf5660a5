import Verif.Props.C45_Unfurl

/-!
# C47, C54: the bases and states of single samples of a wavepacket
-/

set_option autoImplicit false

namespace Verif

open Finset Spec

/-! ## Helpers -/

/-- The offsets are the centred labels of the sample. -/
def IsOffset : List (ℕ × ℕ) → List ℤ → List ℕ → Prop
  | [], [], [] => True
  | (ns, _) :: axes, o :: os, a :: as => o = freq ns a ∧ IsOffset axes os as
  | _, _, _ => False

theorem unfurledSampleBasis_cons (a : ℕ × ℕ) (axes : List (ℕ × ℕ)) (o : ℤ) (os : List ℤ) :
    unfurledSampleBasis (a :: axes) (o :: os) = .tuple (.evenlySpacedTransformed a.2 a.1 o ::
      List.zipWith (fun a o => .evenlySpacedTransformed a.2 a.1 o) axes os) := rfl

/-- The axes of the sampled basis. -/
abbrev sampleAxes (axes : List (ℕ × ℕ)) (os : List ℤ) : List Basis :=
  List.zipWith (fun a o => .evenlySpacedTransformed a.2 a.1 o) axes os

theorem sizes_sampled : ∀ (axes : List (ℕ × ℕ)) (os : List ℤ) (a : List ℕ), IsOffset axes os a →
    sizes (sampleAxes axes os) = (stateShape axes).prod ∧ pointss (sampleAxes axes os) = (unfurledShape axes).prod
  | [], [], [], _ => ⟨rfl, rfl⟩
  | (ns, nx) :: axes, o :: os, a :: as, h => by
    obtain ⟨h1, h2⟩ := sizes_sampled axes os as h.2
    refine ⟨?_, ?_⟩
    · show nx * sizes (sampleAxes axes os) = nx * (stateShape axes).prod
      rw [h1]
    · show nx * ns * pointss (sampleAxes axes os) = ns * nx * (unfurledShape axes).prod
      rw [h2, Nat.mul_comm nx]
  | [], _ :: _, _, h => by simp [IsOffset] at h
  | [], [], _ :: _, h => by simp [IsOffset] at h
  | _ :: _, [], _, h => by simp [IsOffset] at h
  | _ :: _, _ :: _, [], h => by simp [IsOffset] at h

theorem states_sampled : ∀ (axes : List (ℕ × ℕ)) (os : List ℤ) (a j p x : List ℕ), IsOffset axes os a →
    InShape (stateShape axes) j → InShape (unfurledShape axes) x → AtMomentum axes a j p →
    states (sampleAxes axes os) (ravel (stateShape axes) j) (ravel (unfurledShape axes) x) = waves (unfurledShape axes) p x
  | [], [], [], [], [], [], _, _, _, _ => rfl
  | (ns, nx) :: axes, o :: os, a :: as, j :: js, p :: ps, x :: xs, ho, hj, hx, h => by
    have ih := states_sampled axes os as js ps xs ho.2 hj.2 hx.2 h.2
    obtain ⟨s1, s2⟩ := sizes_sampled axes os as ho.2
    have h1 := ravel_lt _ _ hj.2
    have h2 := ravel_lt _ _ hx.2
    change ravel (stateShape axes) js < (stateShape axes).prod at h1
    change ravel (unfurledShape axes) xs < (unfurledShape axes).prod at h2
    show state (.evenlySpacedTransformed nx ns o)
        ((j * (stateShape axes).prod + ravel (stateShape axes) js) / sizes (sampleAxes axes os))
        ((x * (unfurledShape axes).prod + ravel (unfurledShape axes) xs) / pointss (sampleAxes axes os)) *
      states (sampleAxes axes os) ((j * (stateShape axes).prod + ravel (stateShape axes) js) % sizes (sampleAxes axes os))
        ((x * (unfurledShape axes).prod + ravel (unfurledShape axes) xs) % pointss (sampleAxes axes os)) =
      planeWave (ns * nx) p x * waves (unfurledShape axes) ps xs
    rw [s1, s2, Nat.mul_comm j, Nat.mul_comm x, Nat.mul_add_div (by omega), Nat.mul_add_div (by omega), Nat.mul_add_mod,
      Nat.mul_add_mod, Nat.div_eq_of_lt h1, Nat.div_eq_of_lt h2, Nat.mod_eq_of_lt h1, Nat.mod_eq_of_lt h2, ih]
    congr 1
    show planeWave (nx * ns) (o + ns * ((j + 0 : ℕ) : ℤ)) (x + 0) = planeWave (ns * nx) p x
    have hx0 : x < ns * nx := hx.1
    rw [Nat.add_zero, Nat.add_zero, Nat.mul_comm nx ns]
    apply planeWave_congr (by omega)
    have d0 : ((ns * nx : ℕ) : ℤ) ∣ p - (ns * freq nx j + freq ns a) := h.1
    have d2 : (nx : ℤ) ∣ (j : ℤ) - freq nx j := Int.ModEq.dvd (show freq nx j ≡ (j : ℤ) [ZMOD nx] from freq_emod)
    have d4 : ((ns * nx : ℕ) : ℤ) ∣ ns * ((j : ℤ) - freq nx j) := by
      rw [Nat.cast_mul]
      exact mul_dvd_mul_left _ d2
    have ho1 : o = freq ns a := ho.1
    have := dvd_sub d4 d0
    rw [ho1]
    rwa [show (ns : ℤ) * ((j : ℤ) - freq nx j) - (p - (ns * freq nx j + freq ns a)) = freq ns a + ns * (j : ℤ) - p by ring]
      at this
  | [], [], [], [], [], _ :: _, _, _, h, _ => by simp [unfurledShape, InShape] at h
  | [], [], [], [], _ :: _, _, _, _, _, h => by simp [AtMomentum] at h
  | [], [], [], _ :: _, _, _, _, _, _, h => by simp [AtMomentum] at h
  | [], [], _ :: _, _, _, _, h, _, _, _ => by simp [IsOffset] at h
  | [], _ :: _, _, _, _, _, h, _, _, _ => by simp [IsOffset] at h
  | _ :: _, [], _, _, _, _, h, _, _, _ => by simp [IsOffset] at h
  | _ :: _, _ :: _, [], _, _, _, h, _, _, _ => by simp [IsOffset] at h
  | _ :: _, _ :: _, _ :: _, [], _, _, _, h, _, _ => by simp [stateShape, InShape] at h
  | _ :: _, _ :: _, _ :: _, _ :: _, [], _, _, _, _, h => by simp [AtMomentum] at h
  | _ :: _, _ :: _, _ :: _, _ :: _, _ :: _, [], _, _, h, _ => by simp [unfurledShape, InShape] at h

theorem wrapIndex_freq {n a : ℕ} (ha : a < n) {o : ℤ} (h : (n : ℤ) ∣ o - a) : wrapIndex o n 0 = freq n a := by
  have hn : (0 : ℤ) < n := by omega
  have h1 := Int.emod_nonneg (o + (n : ℤ) / 2) hn.ne'
  have h2 := Int.emod_lt_of_pos (o + (n : ℤ) / 2) hn
  apply onGrid_unique (n := n)
  · unfold wrapIndex OnGrid
    rw [sub_zero, add_zero]
    omega
  · exact freq_onGrid ha
  · rw [freq_emod]
    unfold wrapIndex
    rw [sub_zero, add_zero, Int.sub_emod, Int.emod_emod, ← Int.sub_emod, add_sub_cancel_right]
    exact (Int.emod_eq_emod_iff_emod_sub_eq_zero).2 (Int.emod_eq_zero_of_dvd h)

/-- The offsets are the index of the sample up to multiples of the numbers of samples. -/
def Labels : List (ℕ × ℕ) → List ℤ → List ℕ → Prop
  | [], [], [] => True
  | (ns, _) :: axes, o :: os, a :: as => (ns : ℤ) ∣ o - a ∧ Labels axes os as
  | _, _, _ => False

theorem sampledBasis_eq : ∀ (axes : List (ℕ × ℕ)) (os : List ℤ) (a : List ℕ), InShape (sampleShape axes) a →
    Labels axes os a → ∃ os', sampledBasis axes os = .tuple (sampleAxes axes os') ∧ IsOffset axes os' a
  | [], [], [], _, _ => ⟨[], rfl, trivial⟩
  | (ns, nx) :: axes, o :: os, a :: as, ha, h => by
    obtain ⟨os', h1, h2⟩ := sampledBasis_eq axes os as ha.2 h.2
    refine ⟨freq ns a :: os', ?_, rfl, h2⟩
    have h1' := Basis.tuple.inj h1
    show Basis.tuple (_ :: _) = Basis.tuple (_ :: _)
    dsimp only
    rw [wrapIndex_freq ha.1 h.1]
    exact congrArg (fun l => Basis.tuple (_ :: l)) h1'
  | [], _ :: _, _, _, h => by simp [Labels] at h
  | [], [], _ :: _, _, h => by simp [Labels] at h
  | _ :: _, [], _, _, h => by simp [Labels] at h
  | _ :: _, _ :: _, [], _, h => by simp [Labels] at h

theorem labels_nat : ∀ (axes : List (ℕ × ℕ)) (a : List ℕ), InShape (sampleShape axes) a →
    Labels axes (a.map fun i : ℕ => (i : ℤ)) a
  | [], [], _ => trivial
  | (ns, nx) :: axes, a :: as, h => ⟨by simp, labels_nat axes as h.2⟩
  | [], _ :: _, h => by simp [sampleShape, InShape] at h
  | _ :: _, [], h => by simp [sampleShape, InShape] at h

theorem labels_nk : ∀ (axes : List (ℕ × ℕ)) (a : List ℕ), InShape (sampleShape axes) a →
    Labels axes (List.zipWith (fun n j => nkPoints n j) (sampleShape axes) a) a
  | [], [], _ => trivial
  | (ns, nx) :: axes, a :: as, h => by
    refine ⟨?_, labels_nk axes as h.2⟩
    show (ns : ℤ) ∣ nkPoints ns a - a
    rw [nkPoints_eq_freq h.1]
    exact Int.ModEq.dvd (show (a : ℤ) ≡ freq ns a [ZMOD ns] from freq_emod.symm)
  | [], _ :: _, h => by simp [sampleShape, InShape] at h
  | _ :: _, [], h => by simp [sampleShape, InShape] at h

/-! ## C47 -/

/-- **C47.** The states of the basis of a sample `a` are those plane waves of the large cell which unfurling gives to the
sample, in the same order; it does not matter whether the sample is given by its index or by its centred label, or by any
other label equal to it up to multiples of the number of samples. -/
theorem C47_momenta (axes : List (ℕ × ℕ)) (os : List ℤ) (a : List ℕ) (ha : InShape (sampleShape axes) a)
    (h : Labels axes os a) :
    size (sampledBasis axes os) = (stateShape axes).prod ∧ points (sampledBasis axes os) = (unfurledShape axes).prod ∧
    ∀ j p, InShape (stateShape axes) j → InShape (unfurledShape axes) p → AtMomentum axes a j p →
      ∀ x < (unfurledShape axes).prod, state (sampledBasis axes os) (ravel (stateShape axes) j) x =
        state (.tuple ((unfurledShape axes).map .fundamentalTransformed)) (ravel (unfurledShape axes) p) x := by
  obtain ⟨os', e, ho⟩ := sampledBasis_eq axes os a ha h
  obtain ⟨s1, s2⟩ := sizes_sampled axes os' a ho
  rw [e]
  refine ⟨s1, s2, fun j p hj hp hm x hx => ?_⟩
  have hx' := unravel_inShape (unfurledShape axes) x hx
  rw [← ravel_unravel (unfurledShape axes) x hx]
  exact (states_sampled axes os' a j p _ ho hj hx' hm).trans (states_fT _ _ _ hp hx').symm

/-- **C47.** The bases of the samples tile the large cell: states of all samples together are orthonormal, and there are as
many of them as there are points. -/
theorem C47_tile (axes : List (ℕ × ℕ)) :
    (sampleShape axes).prod * (stateShape axes).prod = (unfurledShape axes).prod ∧
    ∀ a a' j j' : ℕ, a < (sampleShape axes).prod → a' < (sampleShape axes).prod → j < (stateShape axes).prod →
      j' < (stateShape axes).prod →
      dot (unfurledShape axes).prod
        (state (sampledBasis axes ((unravel (sampleShape axes) a).map fun i : ℕ => (i : ℤ))) j)
        (state (sampledBasis axes ((unravel (sampleShape axes) a').map fun i : ℕ => (i : ℤ))) j') =
        if a = a' ∧ j = j' then 1 else 0 := by
  refine ⟨?_, fun a a' j j' ha ha' hj hj' => ?_⟩
  · induction axes with
    | nil => rfl
    | cons a axes ih =>
      show a.1 * (sampleShape axes).prod * (a.2 * (stateShape axes).prod) = a.1 * a.2 * (unfurledShape axes).prod
      rw [← ih]; ring
  · have sa := unravel_inShape _ a ha
    have sa' := unravel_inShape _ a' ha'
    have sj := unravel_inShape _ j hj
    have sj' := unravel_inShape _ j' hj'
    obtain ⟨p1, p2⟩ := places_spec axes _ _ sa sj
    obtain ⟨q1, q2⟩ := places_spec axes _ _ sa' sj'
    have h1 := (C47_momenta axes _ _ sa (labels_nat axes _ sa)).2.2 _ _ sj p1 p2
    have h2 := (C47_momenta axes _ _ sa' (labels_nat axes _ sa')).2.2 _ _ sj' q1 q2
    rw [ravel_unravel _ _ hj] at h1
    rw [ravel_unravel _ _ hj'] at h2
    have o := state_orthonormal (.tuple ((unfurledShape axes).map .fundamentalTransformed)) (valids_fT _)
      (orthonormalPartss_fT _)
    have hsz : size (.tuple ((unfurledShape axes).map .fundamentalTransformed)) = (unfurledShape axes).prod := sizes_fT _
    have hpz : points (.tuple ((unfurledShape axes).map .fundamentalTransformed)) = (unfurledShape axes).prod := pointss_fT _
    rw [hsz, hpz] at o
    unfold dot
    rw [sum_congr rfl fun x hx => by rw [h1 x (mem_range.1 hx), h2 x (mem_range.1 hx)],
      o _ (ravel_lt _ _ p1) _ (ravel_lt _ _ q1)]
    congr 1
    apply propext
    constructor
    · intro e
      have e' : places axes (unravel (sampleShape axes) a) (unravel (stateShape axes) j) =
          places axes (unravel (sampleShape axes) a') (unravel (stateShape axes) j') := by
        rw [← unravel_ravel _ _ p1, e, unravel_ravel _ _ q1]
      rw [e'] at p2
      obtain ⟨f1, f2⟩ := sources_eq axes _ _ _ sa sj p2
      obtain ⟨g1, g2⟩ := sources_eq axes _ _ _ sa' sj' q2
      refine ⟨?_, ?_⟩
      · rw [← ravel_unravel _ a ha, ← ravel_unravel _ a' ha', f1.symm.trans g1]
      · rw [← ravel_unravel _ j hj, ← ravel_unravel _ j' hj', f2.symm.trans g2]
    · rintro ⟨rfl, rfl⟩; rfl

-- sample 2 of 3 with four states: labels 2 and -1 are the same sample
example : Labels [(3, 4)] [-1] [2] ∧ Labels [(3, 4)] [2] [2] := by
  refine ⟨⟨?_, trivial⟩, ⟨?_, trivial⟩⟩ <;> simp

/-! ## C54 -/

theorem sampled_expand (axes : List (ℕ × ℕ)) (os : List ℤ) (a : List ℕ) (ha : InShape (sampleShape axes) a)
    (h : Labels axes os a) (v : ℕ → ℂ) (X : List ℕ) (hX : InShape (unfurledShape axes) X) :
    expand (sampledBasis axes os) v (ravel (unfurledShape axes) X) = blochPhase axes a X *
      expand (.tuple ((stateShape axes).map .fundamentalTransformed)) v (ravel (stateShape axes) (reduce axes X)) /
        (Real.sqrt ((sampleShape axes).prod : ℕ) : ℂ) := by
  obtain ⟨s1, s2, s3⟩ := C47_momenta axes os a ha h
  have hr := reduce_inShape axes X hX
  unfold expand
  have hsz : size (.tuple ((stateShape axes).map .fundamentalTransformed)) = (stateShape axes).prod := sizes_fT _
  rw [s1, hsz, ← nsum_ravel, ← nsum_ravel, div_eq_mul_inv, mul_right_comm, ← nsum_mul_left]
  apply nsum_congr
  intro j hj
  obtain ⟨p1, p2⟩ := places_spec axes a j ha hj
  rw [s3 j _ hj p1 p2 _ (ravel_lt _ _ hX)]
  have e1 : state (.tuple ((unfurledShape axes).map .fundamentalTransformed)) (ravel (unfurledShape axes) (places axes a j))
      (ravel (unfurledShape axes) X) = _ := states_fT _ _ _ p1 hX
  have e2 : state (.tuple ((stateShape axes).map .fundamentalTransformed)) (ravel (stateShape axes) j)
      (ravel (stateShape axes) (reduce axes X)) = _ := states_fT _ _ _ hj hr
  rw [e1, e2, waves_place axes a j _ X ha hj p1 hX p2]
  ring

/-- **C54.** `get_all_wavepacket_states` returns one state for each sample, in order; the state of a sample is, at every point
of the large cell, the Bloch state at the point below times the Bloch phase of the sample (divided by the root of the number of
samples, so that its norm over the large cell is that of the Bloch state over the small one). -/
theorem C54_wavepacket_states_partial (same : Basis → Basis → Bool) (hs : Sound same) (axes : List (ℕ × ℕ)) (b : Basis)
    (hb : Valid b) (ho : OrthonormalParts b) (hshape : b.fundamentalShape = stateShape axes) (data : ℕ → ℂ) :
    ∃ l : List StateVector,
      getAllWavepacketStates same ⟨.tuple ((sampleShape axes).map .fundamentalTransformed), b, data⟩ = some l ∧
      l.length = (sampleShape axes).prod ∧
      ∀ i, (h : i < l.length) → ∀ X, InShape (unfurledShape axes) X →
        expand l[i].basis l[i].data (ravel (unfurledShape axes) X) =
          blochPhase axes (unravel (sampleShape axes) i) X *
            expand b (block (size b) data i) (ravel (stateShape axes) (reduce axes X)) /
              (Real.sqrt ((sampleShape axes).prod : ℕ) : ℂ) := by
  obtain ⟨h1, c, h2, h3⟩ := momentum_data same hs axes b hb ho hshape data
  unfold getAllWavepacketStates
  rw [h1, h2]
  refine ⟨_, rfl, by simp, fun i hi X hX => ?_⟩
  have hi' : i < (sampleShape axes).prod := by simpa using hi
  have ha := unravel_inShape _ i hi'
  have hr := reduce_inShape axes X hX
  have hpts : points b = (stateShape axes).prod := by rw [← fundamentalShape_prod, hshape]
  simp only [List.getElem_map, List.getElem_range]
  unfold stackedNkPoints
  rw [sampled_expand axes _ _ ha (labels_nk axes _ ha) _ X hX, h3 i hi' _ (by rw [hpts]; exact ravel_lt _ _ hr)]

/-- **C54.** `get_wavepacket_state_vector` returns the same states one at a time, and raises for an index which is not a
sample. -/
theorem C54_wavepacket_state_partial (same : Basis → Basis → Bool) (hs : Sound same) (axes : List (ℕ × ℕ)) (b : Basis)
    (hb : Valid b) (ho : OrthonormalParts b) (hshape : b.fundamentalShape = stateShape axes) (data : ℕ → ℂ) (i : ℕ) :
    (i < (sampleShape axes).prod → ∃ s : StateVector,
      getWavepacketStateVector same ⟨.tuple ((sampleShape axes).map .fundamentalTransformed), b, data⟩ i = some s ∧
      ∀ X, InShape (unfurledShape axes) X → expand s.basis s.data (ravel (unfurledShape axes) X) =
          blochPhase axes (unravel (sampleShape axes) i) X *
            expand b (block (size b) data i) (ravel (stateShape axes) (reduce axes X)) /
              (Real.sqrt ((sampleShape axes).prod : ℕ) : ℂ)) ∧
    ((sampleShape axes).prod ≤ i →
      getWavepacketStateVector same ⟨.tuple ((sampleShape axes).map .fundamentalTransformed), b, data⟩ i = none) := by
  obtain ⟨h1, c, h2, h3⟩ := momentum_data same hs axes b hb ho hshape data
  unfold getWavepacketStateVector
  rw [h1, h2]
  refine ⟨fun hi => ?_, fun hi => ?_⟩
  · refine ⟨_, if_pos hi, fun X hX => ?_⟩
    have ha := unravel_inShape _ i hi
    have hr := reduce_inShape axes X hX
    have hpts : points b = (stateShape axes).prod := by rw [← fundamentalShape_prod, hshape]
    dsimp only
    rw [sampled_expand axes _ _ ha (labels_nat axes _ ha) _ X hX, h3 i hi _ (by rw [hpts]; exact ravel_lt _ _ hr)]
  · exact if_neg (by omega)

/-- **C54, negation.** `get_all_eigenstates` raises for every wavepacket with more than one momentum per sample, whatever the
eigenvalues are. -/
theorem C54_eigenstates_negation (same : Basis → Basis → Bool) (hs : Sound same) (axes : List (ℕ × ℕ)) (b : Basis)
    (hb : Valid b) (ho : OrthonormalParts b) (hshape : b.fundamentalShape = stateShape axes) (data : ℕ → ℂ) (n : ℕ)
    (eigenvalue : ℕ → ℂ) (h0 : 0 < (sampleShape axes).prod) (h1 : (stateShape axes).prod ≠ 1) :
    getAllEigenstates same ⟨.tuple ((sampleShape axes).map .fundamentalTransformed), b, data⟩ n eigenvalue = none := by
  obtain ⟨e1, c, e2, _⟩ := momentum_data same hs axes b hb ho hshape data
  unfold getAllEigenstates
  rw [e1, e2]
  refine if_neg ?_
  rintro ⟨f1, f2⟩
  have s1 : (Basis.tuple ((sampleShape axes).map .fundamentalTransformed)).n = (sampleShape axes).prod :=
    ((methods_sizes _).1).trans (sizes_fT _)
  have s2 : (Basis.tuple ((stateShape axes).map .fundamentalTransformed)).n = (stateShape axes).prod :=
    ((methods_sizes _).1).trans (sizes_fT _)
  dsimp only at f1
  rw [s1, s2, f2] at f1
  exact h1 (Nat.eq_of_mul_eq_mul_left h0 (f1.trans (Nat.mul_one _).symm))

-- the hypotheses hold for a wavepacket with six samples and twenty points
example : (Basis.tuple [.fundamental 4, .transformed 3 5]).fundamentalShape = stateShape [(3, 4), (2, 5)] ∧
    0 < (sampleShape [(3, 4), (2, 5)]).prod ∧ (stateShape [(3, 4), (2, 5)]).prod ≠ 1 := by
  refine ⟨rfl, ?_, ?_⟩ <;> simp [sampleShape, stateShape]

end Verif
