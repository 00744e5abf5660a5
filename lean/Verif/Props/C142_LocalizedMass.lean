import Verif.Model.LocalizedMass
import Verif.Props.C91_WannierHamiltonian
import Verif.Props.C135_EffectiveMass

/-!
C142: effective masses from localised states, and the plots of effective masses.
-/

set_option autoImplicit false

namespace Verif

open Finset Spec Filter Topology Matrix

/-- **C142**, one band: the energy read is the matrix element of the Hamiltonian between the Wannier state and the one moved by one cell
along the axis. -/
theorem C142_energy_partial (same : Basis → Basis → Bool) (hs : Sound same) (axes : List (ℕ × ℕ)) (b : Basis)
    (hb : Valid b) (ho : OrthonormalParts b) (hshape : b.fundamentalShape = stateShape axes) (hfull : b.shape = stateShape axes)
    (data : ℕ → ℂ) (op : LocalizationOperator) (hS : op.samples = sampleShape axes) (hnew : op.new = 1)
    (hw : Orthonormal ⟨op.old, sampleShape axes, b, data⟩) (T : ℕ → ℕ → ℂ) (h : ℕ → ℂ) (hT : BlochEigen axes b op.old data T h)
    (axis : ℕ) (hpos : 0 ∉ op.samples) (h2 : 2 ≤ op.samples.getD axis 0) :
    ∃ W, wannierStates same ⟨op.old, sampleShape axes, b, data⟩ op = some W ∧
      localizedEnergy h op axis 0 = some (sandwich (unfurledShape axes).prod T
        (block (unfurledShape axes).prod W
          (ravel op.samples ((List.range op.samples.length).map fun i => if i = axis then 1 else 0)))
        (block (unfurledShape axes).prod W 0)) := by
  obtain ⟨W, h1, h3⟩ := C91_entries_partial same hs axes b hb ho hshape hfull data op hS hw T h hT
  refine ⟨W, h1, ?_⟩
  have hlt := ravel_lt _ _ (inShape_unit op.samples axis hpos h2)
  have hP : 0 < op.samples.prod := lt_of_le_of_lt (Nat.zero_le _) hlt
  have h4 := h3 0 (by omega) 0 (by omega) 0 hP _ hlt
  simp only [Nat.zero_mul, Nat.zero_add] at h4
  unfold localizedEnergy
  dsimp only
  rw [if_neg (by
    rintro (h | h)
    · omega
    · exact hpos h), ← h4, hnew]
  congr 2
  ring

/-- **C142**, one band with phases: the energy read, by its modulus, is the component of the Fourier series of the energies divided by the root
of the number of samples. -/
theorem localizedEnergy_one (same : Basis → Basis → Bool) (hs : Sound same) (h : ℕ → ℂ) (op : LocalizationOperator) (hnew : op.new = 1)
    (hold : op.old = 1) (hunit : ∀ a < op.samples.prod, ‖op.entry a 0 0‖ = 1) (hreal : ∀ a < op.samples.prod, (h a).im = 0)
    (axis : ℕ) (hpos : 0 ∉ op.samples) (h2 : 2 ≤ op.samples.getD axis 0) :
    ∃ e c, localizedEnergy h op axis 0 = some e ∧ lowestComponent same (fT op.samples) h axis 0 = some c ∧
      ‖e‖ * Real.sqrt op.samples.prod = ‖c‖ := by
  set ns := op.samples with hns
  set k := ravel ns ((List.range ns.length).map fun i => if i = axis then 1 else 0) with hk
  have hlt : k < ns.prod := ravel_lt _ _ (inShape_unit ns axis hpos h2)
  have hP : 0 < ns.prod := lt_of_le_of_lt (Nat.zero_le _) hlt
  refine ⟨fullWannierHamiltonian h op k, _, ?_, lowestComponent_fT same hs ns hpos axis h2 h 0, ?_⟩
  · unfold localizedEnergy
    dsimp only
    rw [← hns, ← hk, if_neg (by
      rintro (h | h)
      · omega
      · exact hpos h), hnew]
    congr 2
    ring
  · have he := fullWannier_entry h op (t := 0) (i := 0) (t' := k) (j := 0) hP (by omega) hlt (by omega)
    rw [show ((0 * op.new + 0) * op.samples.prod + k) * op.new + 0 = k by rw [hnew]; ring] at he
    have hloc : ∀ a ∈ range ns.prod, (starRingEnd ℂ) (state (fT ns) a k) * state (fT ns) a 0 *
        localizedHamiltonian h op ((a * op.new + 0) * op.new + 0) =
        (1 / (Real.sqrt ns.prod : ℂ)) * (starRingEnd ℂ) (h a * state (fT ns) a k) := by
      intro a ha
      rw [localizedHamiltonian, flatten3_at _ (by omega) (by omega), hold, sum_range_one, Nat.zero_mul, Nat.zero_add]
      have hz : state (fT ns) a 0 = 1 / (Real.sqrt ns.prod : ℂ) := states_fT_zero ns a
      have hu : op.entry a 0 0 * (starRingEnd ℂ) (op.entry a 0 0) = 1 := by
        rw [Complex.mul_conj, Complex.normSq_eq_norm_sq, hunit a (mem_range.1 ha)]; simp
      have hr : (starRingEnd ℂ) (h a) = h a := Complex.conj_eq_iff_im.2 (hreal a (mem_range.1 ha))
      rw [hz, map_mul, hr]
      linear_combination ((starRingEnd ℂ) (state (fT ns) a k) * (1 / (Real.sqrt ns.prod : ℂ)) * h a) * hu
    rw [he, sum_congr rfl hloc, ← mul_sum, ← map_sum, norm_mul, RCLike.norm_conj]
    have hsq : 0 < Real.sqrt ns.prod := Real.sqrt_pos.2 (by exact_mod_cast hP)
    rw [norm_div, norm_one, Complex.norm_real, Real.norm_of_nonneg hsq.le]
    have hex : expand (fT ns) (fun j => h (0 * ns.prod + j)) k = ∑ a ∈ range ns.prod, h a * state (fT ns) a k := by
      unfold expand
      rw [(fT_facts ns).1]
      exact sum_congr rfl fun a _ => by simp only [Nat.zero_mul, Nat.zero_add]
    rw [hex]
    field_simp

/-- **C142**, the two effective masses do not agree: for a band of real energies, localised with phases, the effective mass from the
localised states is that from the Fourier series of the energies times the root of the number of samples. -/
theorem C142_ratio (same : Basis → Basis → Bool) (hs : Sound same) (hbar : ℝ) {d : ℕ} (A : Matrix (Fin d) (Fin d) ℝ) (h : ℕ → ℂ)
    (op : LocalizationOperator) (hnew : op.new = 1) (hold : op.old = 1) (hunit : ∀ a < op.samples.prod, ‖op.entry a 0 0‖ = 1)
    (hreal : ∀ a < op.samples.prod, (h a).im = 0) (axis : Fin d) (hpos : 0 ∉ op.samples) (h2 : 2 ≤ op.samples.getD axis 0) :
    ∃ mass, getEffectiveMass same hbar A (fT op.samples) h axis 0 = some mass ∧
      getLocalizedEffectiveMass hbar A h op axis 0 = some (Real.sqrt op.samples.prod * mass) := by
  obtain ⟨e, c, he, hc, hec⟩ := localizedEnergy_one same hs h op hnew hold hunit hreal axis hpos h2
  have hn : (fT op.samples).n = op.samples.prod := by rw [Basis.n_eq, (fT_facts op.samples).1]
  have hP : 0 < op.samples.prod := lt_of_le_of_lt (Nat.zero_le _) (ravel_lt _ _ (inShape_unit op.samples axis hpos h2))
  have hsq : 0 < Real.sqrt op.samples.prod := Real.sqrt_pos.2 (by exact_mod_cast hP)
  refine ⟨_, by rw [getEffectiveMass, hc]; rfl, ?_⟩
  rw [getLocalizedEffectiveMass, he, Option.map_some, hn]
  beta_reduce
  rw [← hec]
  congr 1
  rcases eq_or_ne ‖e‖ 0 with h0 | h0
  · rw [h0]; simp
  · field_simp

/-- Four samples of a band of energies `2, 1, 0, 1`, localised with the phases `1, -1, 1, -1`: the hypotheses of `C142_ratio`. -/
example (same : Basis → Basis → Bool) (hs : Sound same) :
    let op : LocalizationOperator := ⟨[4], 1, 1, fun a => (-1) ^ a⟩
    ∃ mass, getEffectiveMass same 1 (1 : Matrix (Fin 1) (Fin 1) ℝ) (fT [4]) (fun a => if a = 0 then 2 else if a = 2 then 0 else 1) 0 0 = some mass ∧
      getLocalizedEffectiveMass 1 (1 : Matrix (Fin 1) (Fin 1) ℝ) (fun a => if a = 0 then 2 else if a = 2 then 0 else 1) op 0 0 =
        some (Real.sqrt 4 * mass) := by
  intro op
  have := C142_ratio same hs 1 (1 : Matrix (Fin 1) (Fin 1) ℝ) (fun a => if a = 0 then 2 else if a = 2 then 0 else 1) op rfl rfl
    (fun a _ => by simp [op, LocalizationOperator.entry]) (fun a _ => by split_ifs <;> simp) 0 (by simp [op]) (by simp [op])
  simpa [op] using this

/-- **C142 (negation).** With more and more samples the effective mass from the localised states of the lowest band of a free particle grows
beyond every bound, whatever the phases. -/
theorem C142_free_particle_negation (same : Basis → Basis → Bool) (hs : Sound same) (hbar m : ℝ) (hh : hbar ≠ 0) (hm : 0 < m)
    (A : Matrix (Fin 1) (Fin 1) ℝ) (hA : A 0 0 ≠ 0) (phases : ℕ → ℕ → ℂ) (hp : ∀ M a, ‖phases M a‖ = 1) (eigenvalue : ℕ → ℕ → ℂ)
    (he : ∀ M, ∀ j < 2 * M + 1, eigenvalue M j =
      (hbar ^ 2 * freeWave |A 0 0| (2 * M + 1) 0 (freq (2 * M + 1) j) ^ 2 / (2 * m) : ℝ)) :
    ∃ mass : ℕ → ℝ, (∀ M, 0 < M → getLocalizedEffectiveMass hbar A (eigenvalue M) ⟨[2 * M + 1], 1, 1, phases M⟩ 0 0 = some (mass M)) ∧
      Tendsto mass atTop atTop := by
  obtain ⟨mass, h1, h2⟩ := C135_limit same hs hbar m hh hm A hA 0 eigenvalue (fun M j hj => by
    rw [Nat.zero_mul, Nat.zero_add]; exact he M j hj)
  refine ⟨fun M => Real.sqrt ((2 * M + 1 : ℕ) : ℝ) * mass M, fun M hM => ?_, ?_⟩
  · obtain ⟨m', k1, k2⟩ := C142_ratio same hs hbar A (eigenvalue M) ⟨[2 * M + 1], 1, 1, phases M⟩ rfl rfl
      (fun a _ => by simp [LocalizationOperator.entry, hp]) (fun a ha => by
        rw [he M a (by simpa using ha), Complex.ofReal_im]) 0 (by simp) (by simp; omega)
    have : m' = mass M := Option.some.inj (k1.symm.trans (h1 M hM))
    rw [k2, this]
    simp
  · refine Tendsto.atTop_mul_pos hm ?_ h2
    refine Real.tendsto_sqrt_atTop.comp (tendsto_natCast_atTop_atTop.comp ?_)
    exact tendsto_atTop_mono (fun M => by show M ≤ 2 * M + 1; omega) tendsto_id

/-- **C142 (negation).** With two or more bands, localised one by one, the energy read for the first band is zero, whatever the energies: the
array is not in the order of the indices assumed. -/
theorem C142_bands_negation (h : ℕ → ℂ) (op : LocalizationOperator) (n : ℕ) (hn : op.samples = [n]) (h2 : 2 ≤ n) (hbands : 2 ≤ op.new)
    (hdiag : ∀ a < n, ∀ i < op.new, ∀ c < op.old, i ≠ c → op.entry a i c = 0) :
    localizedEnergy h op 0 0 = some 0 := by
  have hprod : op.samples.prod = n := by rw [hn]; simp
  unfold localizedEnergy
  dsimp only
  rw [if_neg (by rw [hn]; simp; omega)]
  congr 1
  have hk : ravel op.samples ((List.range op.samples.length).map fun i => if i = 0 then 1 else 0) = 1 := by
    rw [hn]; simp [ravel]
  have he := fullWannier_entry h op (t := 0) (i := 0) (t' := 0) (j := 1) (by omega) (by omega) (by omega) (by omega)
  rw [show ((0 * op.new + 0) * op.samples.prod + 0) * op.new + 1 = 1 by simp] at he
  rw [hk, show ((0 * op.samples.prod + 0) * op.new + 0) * op.samples.prod + 1 = 1 by simp, he]
  refine sum_eq_zero fun a ha => ?_
  have ha' : a < n := by rw [← hprod]; exact mem_range.1 ha
  rw [localizedHamiltonian, flatten3_at _ (by omega) (by omega)]
  rw [sum_eq_zero, mul_zero]
  intro c hc
  rcases eq_or_ne c 0 with rfl | hc0
  · rw [hdiag a ha' 1 (by omega) 0 (mem_range.1 hc) (by omega), map_zero, mul_zero]
  · rw [hdiag a ha' 0 (by omega) c (mem_range.1 hc) (Ne.symm hc0), zero_mul, zero_mul]

/-- Two bands of three samples, with phases. -/
example (h : ℕ → ℂ) : localizedEnergy h ⟨[3], 2, 2, fun k => if k % 4 = 0 then Complex.I else if k % 4 = 3 then -1 else 0⟩ 0 0 = some 0 := by
  refine C142_bands_negation h _ 3 rfl (by norm_num) (by norm_num) fun a ha i hi c hc hic => ?_
  have hi' : i < 2 := hi
  have hc' : c < 2 := hc
  show (if _ then _ else _) = _
  dsimp only
  rw [if_neg (by omega), if_neg (by omega)]

/-- **C142**, plots: without a true mass the mass is drawn; with one, the relative difference, which for a free particle of this mass tends to zero. The point
is at the mean over the samples of the energies of the band. -/
theorem C142_drawn (same : Basis → Basis → Bool) (hs : Sound same) (hbar m : ℝ) (hh : hbar ≠ 0) (hm : 0 < m)
    (A : Matrix (Fin 1) (Fin 1) ℝ) (hA : A 0 0 ≠ 0) (b : ℕ) (eigenvalue : ℕ → ℕ → ℂ)
    (he : ∀ M, ∀ j < 2 * M + 1, eigenvalue M (b * (2 * M + 1) + j) =
      (hbar ^ 2 * freeWave |A 0 0| (2 * M + 1) b (freq (2 * M + 1) j) ^ 2 / (2 * m) : ℝ)) :
    ∃ mass error : ℕ → ℝ, (∀ M, 0 < M →
        plotMassAgainstEnergy same hbar A (fT [2 * M + 1]) (eigenvalue M) 0 none b =
          some ((∑ j ∈ range (2 * M + 1), (eigenvalue M (b * (2 * M + 1) + j)).re) / (2 * M + 1 : ℕ), mass M) ∧
        plotMassAgainstEnergy same hbar A (fT [2 * M + 1]) (eigenvalue M) 0 (some m) b =
          some ((∑ j ∈ range (2 * M + 1), (eigenvalue M (b * (2 * M + 1) + j)).re) / (2 * M + 1 : ℕ), error M)) ∧
      Tendsto mass atTop (𝓝 m) ∧ Tendsto error atTop (𝓝 0) := by
  obtain ⟨mass, h1, h2⟩ := C135_limit same hs hbar m hh hm A hA b eigenvalue he
  have hn : ∀ M, (fT [2 * M + 1]).n = 2 * M + 1 := fun M => by rw [Basis.n_eq, (fT_facts _).1]; simp
  refine ⟨mass, fun M => (mass M - m) / m, fun M hM => ⟨?_, ?_⟩, h2, ?_⟩
  · rw [plotMassAgainstEnergy, h1 M hM, hn]; rfl
  · rw [plotMassAgainstEnergy, h1 M hM, hn]; rfl
  · have := (h2.sub_const m).div_const m
    rwa [sub_self, zero_div] at this

/-- The energies of a free particle of mass two satisfy the hypothesis. -/
example : ∃ (hbar m : ℝ) (A : Matrix (Fin 1) (Fin 1) ℝ) (eigenvalue : ℕ → ℕ → ℂ), hbar ≠ 0 ∧ 0 < m ∧ A 0 0 ≠ 0 ∧
    ∀ M, ∀ j < 2 * M + 1, eigenvalue M (1 * (2 * M + 1) + j) =
      (hbar ^ 2 * freeWave |A 0 0| (2 * M + 1) 1 (freq (2 * M + 1) j) ^ 2 / (2 * m) : ℝ) :=
  ⟨1, 2, !![3], fun M k => ((1 : ℝ) ^ 2 * freeWave |(!![3] : Matrix (Fin 1) (Fin 1) ℝ) 0 0| (2 * M + 1) 1 (freq (2 * M + 1) (k - 1 * (2 * M + 1))) ^ 2 /
      (2 * 2) : ℝ), one_ne_zero, by norm_num, by simp, fun M j _ => by beta_reduce; rw [Nat.add_sub_cancel_left]⟩

/-- **C142**, occupations against energy: for real energies the heights are positive and add up to one. -/
theorem C142_occupation (kB temperature : ℝ) (bands samples : ℕ) (hb : 0 < bands) (hs : 0 < samples) (eigenvalue : ℕ → ℂ)
    (hreal : ∀ k < bands * samples, (eigenvalue k).im = 0) :
    (∀ b < bands, 0 < (plotOccupationAgainstEnergy kB temperature bands samples eigenvalue b).2) ∧
      ∑ b ∈ range bands, (plotOccupationAgainstEnergy kB temperature bands samples eigenvalue b).2 = 1 := by
  have hexp : ∀ k < bands * samples, Complex.exp (-eigenvalue k / (temperature * kB)) =
      ((Real.exp (-(eigenvalue k).re / (temperature * kB)) : ℝ) : ℂ) := by
    intro k hk
    have : eigenvalue k = ((eigenvalue k).re : ℂ) := Complex.ext rfl (by simp [hreal k hk])
    rw [this]
    push_cast
    simp
  set w : ℕ → ℝ := fun k => Real.exp (-(eigenvalue k).re / (temperature * kB)) with hw
  have hidx : ∀ b < bands, ∀ j < samples, b * samples + j < bands * samples := fun b hb j hj => by
    calc b * samples + j < b * samples + samples := by omega
      _ = (b + 1) * samples := by ring
      _ ≤ bands * samples := Nat.mul_le_mul_right _ hb
  have hZ : ∑ k ∈ range (bands * samples), Complex.exp (-eigenvalue k / (temperature * kB)) =
      ((∑ k ∈ range (bands * samples), w k : ℝ) : ℂ) := by
    push_cast
    exact sum_congr rfl fun k hk => hexp k (mem_range.1 hk)
  have hZpos : 0 < ∑ k ∈ range (bands * samples), w k :=
    sum_pos (fun k _ => Real.exp_pos _) ⟨0, mem_range.2 (Nat.mul_pos hb hs)⟩
  have hval : ∀ b < bands, (plotOccupationAgainstEnergy kB temperature bands samples eigenvalue b).2 =
      (∑ j ∈ range samples, w (b * samples + j)) / ∑ k ∈ range (bands * samples), w k := by
    intro b hb'
    unfold plotOccupationAgainstEnergy getBandOccupation
    dsimp only
    rw [hZ, sum_congr rfl fun j hj => hexp _ (hidx b hb' j (mem_range.1 hj)), ← Complex.ofReal_sum, ← Complex.ofReal_div, Complex.norm_real,
      Real.norm_of_nonneg]
    exact div_nonneg (sum_nonneg fun j _ => (Real.exp_pos _).le) hZpos.le
  refine ⟨fun b hb' => ?_, ?_⟩
  · rw [hval b hb']
    exact div_pos (sum_pos (fun j _ => Real.exp_pos _) ⟨0, mem_range.2 hs⟩) hZpos
  · rw [sum_congr rfl fun b hb' => hval b (mem_range.1 hb'), ← sum_div, ← sum_range_mul' , div_self hZpos.ne']

/-- Two bands of three samples each, with different energies. -/
example : ∃ eigenvalue : ℕ → ℂ, (∀ k < 2 * 3, (eigenvalue k).im = 0) ∧ eigenvalue 0 ≠ eigenvalue 5 :=
  ⟨fun k => k, fun k _ => by simp, by norm_num⟩

end Verif
