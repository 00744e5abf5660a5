import Verif.Model.PlotBands
import Verif.Props.C127_PlotLine
import Verif.Props.C53_TightBinding
import Verif.Props.C49_Shape
import Verif.Props.C128_Occupations
import Verif.Props.C107_Generate
import Verif.Props.C132_Collapse
import Verif.Props.C121_Overlaps
import Verif.Props.C134_KernelPlots

/-!
C138: energies of bands against momentum and position, and the momenta of the samples.
-/

set_option autoImplicit false

namespace Verif

open Finset Spec Matrix

variable {d : ℕ}

namespace Spec

/-- The momentum of a sample with indices `full` of `ns` samples: fractions `freq / n` of the reciprocal lattice vectors of the unit cell. -/
noncomputable def sampleMomentum (A : Matrix (Fin d) (Fin d) ℝ) (ns full : List ℕ) : Fin d → ℝ :=
  ∑ i : Fin d, ((freq (ns.getD i 0) (full.getD i 0) : ℝ) / (ns.getD i 0 : ℝ)) • ((2 * Real.pi) • (A⁻¹)ᵀ) i

end Spec

/-! ## The vectors of the large cell -/

theorem getD_pos {ns : List ℕ} (h0 : 0 ∉ ns) {i : ℕ} (hi : i < ns.length) : 0 < ns.getD i 0 := by
  rw [List.getD_eq_getElem?_getD, List.getElem?_eq_getElem hi, Option.getD_some]
  exact Nat.pos_of_ne_zero fun h => h0 (h ▸ List.getElem_mem hi)

theorem sampleVectors_row (A : Matrix (Fin d) (Fin d) ℝ) (list : Basis) (i : Fin d) :
    sampleVectors A list i = (list.fundamentalShape.getD i 0 : ℝ) • A i := by
  funext c
  show A i c * _ = _ * A i c
  ring

theorem sampleVectors_inv (A : Matrix (Fin d) (Fin d) ℝ) (list : Basis) (ns : List ℕ) (hl : list.fundamentalShape = ns)
    (hd : ns.length = d) (h0 : 0 ∉ ns) (i : Fin d) :
    ((2 * Real.pi) • ((sampleVectors A list)⁻¹)ᵀ) i = (1 / (ns.getD i 0 : ℝ)) • ((2 * Real.pi) • (A⁻¹)ᵀ) i := by
  have hn : ∀ j : Fin d, (ns.getD j 0 : ℝ) ≠ 0 := fun j => by
    have := getD_pos h0 (i := j) (by rw [hd]; exact j.2)
    exact_mod_cast this.ne'
  have e : sampleVectors A list = Matrix.diagonal (fun j : Fin d => (ns.getD j 0 : ℝ)) * A := by
    ext j c
    rw [Matrix.diagonal_mul, ← hl]
    show A j c * _ = _ * A j c
    ring
  have hinv : (Matrix.diagonal (fun j : Fin d => (ns.getD j 0 : ℝ)))⁻¹ = Matrix.diagonal (fun j : Fin d => 1 / (ns.getD j 0 : ℝ)) := by
    apply Matrix.inv_eq_right_inv
    rw [Matrix.diagonal_mul_diagonal, ← Matrix.diagonal_one]
    congr 1
    funext j
    exact mul_one_div_cancel (hn j)
  funext c
  rw [e, Matrix.mul_inv_rev, hinv]
  simp only [Pi.smul_apply, Matrix.smul_apply, Matrix.transpose_apply, smul_eq_mul, Matrix.mul_diagonal]
  ring

theorem waveVector_sample (A : Matrix (Fin d) (Fin d) ℝ) (list : Basis) (ns : List ℕ) (hl : list.fundamentalShape = ns)
    (hd : ns.length = d) (h0 : 0 ∉ ns) (full : List ℕ) : waveVector (sampleVectors A list) ns full = sampleMomentum A ns full := by
  unfold waveVector sampleMomentum
  refine sum_congr rfl fun i _ => ?_
  rw [sampleVectors_inv A list ns hl hd h0 i, smul_smul]
  congr 1
  ring

theorem vnorm_smul_nonneg (c : ℝ) (hc : 0 ≤ c) (v : Fin d → ℝ) : vnorm (c • v) = c * vnorm v := by
  unfold vnorm
  rw [dotProduct_smul, smul_dotProduct, smul_eq_mul, smul_eq_mul, ← mul_assoc, Real.sqrt_mul (by positivity), Real.sqrt_mul_self hc]

/-! ## The momenta of the samples -/

/-- **C138.** `get_wavepacket_fundamental_sample_frequencies`: the momentum of a sample is the sum of its fractions of the reciprocal
lattice vectors of the unit cell, for any basis of the samples. -/
theorem C138_frequencies (A : Matrix (Fin d) (Fin d) ℝ) (list : Basis) (ns : List ℕ) (hl : list.fundamentalShape = ns)
    (hd : ns.length = d) (h0 : 0 ∉ ns) (full : List ℕ) (hf : InShape ns full) :
    getSampleFrequency A list (ravel ns full) = sampleMomentum A ns full := by
  unfold getSampleFrequency
  rw [← waveVector_sample A list ns hl hd h0]
  have e : (getFundamentalSampleBasis list).fundamentalShape = ns := by unfold getFundamentalSampleBasis; rw [hl]; exact fundamentalShape_fT ns
  dsimp only
  rw [e]
  funext c
  unfold kPointAtIndex tensordot00 waveVector dkStacked stackedNkPoints
  rw [unravel_ravel _ _ hf, Finset.sum_apply]
  refine sum_congr rfl fun i _ => ?_
  beta_reduce
  rw [nk_getD ns full hf i (by rw [hd]; exact i.2)]
  show _ = (_ : ℝ) * _
  ring

/-- **C138.** They are the fractions at which the hamiltonians of the samples are generated (`get_wavepacket_sample_fractions`), times the reciprocal
lattice vectors. -/
theorem C138_fractions (same : Basis → Basis → Bool) (hs : Sound same) (A : Matrix (Fin d) (Fin d) ℝ) (ns : List ℕ)
    (hd : ns.length = d) (h0 : 0 ∉ ns) :
    ∃ φ, sampleFractions same (fT ns) = some φ ∧ ∀ k < ns.prod,
      getSampleFrequency A (fT ns) k = ∑ i : Fin d, φ i k • ((2 * Real.pi) • (A⁻¹)ᵀ) i := by
  obtain ⟨φ, h1, h2⟩ := C90_fractions_partial same hs ns
  refine ⟨φ, h1, fun k hk => ?_⟩
  have hin := unravel_inShape ns k hk
  have e := C138_frequencies A (fT ns) ns (fundamentalShape_fT ns) hd h0 _ hin
  rw [ravel_unravel ns k hk] at e
  rw [e]
  unfold sampleMomentum
  refine sum_congr rfl fun i _ => ?_
  have := h2 _ hin i (by rw [hd]; exact i.2)
  rw [ravel_unravel ns k hk] at this
  rw [this]

/-- **C138.** No momentum is sampled twice: the momenta of two samples differ by a reciprocal lattice vector only if they are the same sample. -/
theorem C138_distinct (A : Matrix (Fin d) (Fin d) ℝ) (hA : A.det ≠ 0) (list : Basis) (ns : List ℕ) (hl : list.fundamentalShape = ns)
    (hd : ns.length = d) (h0 : 0 ∉ ns) (k k' : ℕ) (hk : k < ns.prod) (hk' : k' < ns.prod) (m : Fin d → ℤ)
    (h : getSampleFrequency A list k - getSampleFrequency A list k' = ∑ i : Fin d, (m i : ℝ) • ((2 * Real.pi) • (A⁻¹)ᵀ) i) :
    k = k' := by
  have hin := unravel_inShape ns k hk
  have hin' := unravel_inShape ns k' hk'
  rw [← ravel_unravel ns k hk, ← ravel_unravel ns k' hk', C138_frequencies A list ns hl hd h0 _ hin,
    C138_frequencies A list ns hl hd h0 _ hin'] at h
  have hu : IsUnit A.det := isUnit_iff_ne_zero.2 hA
  have key : ∀ j : Fin d, (freq (ns.getD j 0) ((unravel ns k).getD j 0) : ℝ) / (ns.getD j 0 : ℝ) -
      (freq (ns.getD j 0) ((unravel ns k').getD j 0) : ℝ) / (ns.getD j 0 : ℝ) = m j := by
    intro j
    have dual : ∀ c : Fin d → ℝ, (∑ i : Fin d, c i • ((2 * Real.pi) • (A⁻¹)ᵀ) i) ⬝ᵥ A j = 2 * Real.pi * c j := by
      intro c
      rw [sum_dotProduct, sum_eq_single j]
      · rw [smul_dotProduct]
        have : ((2 * Real.pi) • (A⁻¹)ᵀ) j ⬝ᵥ A j = 2 * Real.pi * (A * A⁻¹) j j := by
          simp only [dotProduct, Matrix.smul_apply, Matrix.transpose_apply, smul_eq_mul, Matrix.mul_apply, mul_sum]
          exact sum_congr rfl fun x _ => by ring
        rw [this, Matrix.mul_nonsing_inv _ hu, Matrix.one_apply_eq, smul_eq_mul]
        ring
      · intro i _ hij
        rw [smul_dotProduct]
        have : ((2 * Real.pi) • (A⁻¹)ᵀ) i ⬝ᵥ A j = 2 * Real.pi * (A * A⁻¹) j i := by
          simp only [dotProduct, Matrix.smul_apply, Matrix.transpose_apply, smul_eq_mul, Matrix.mul_apply, mul_sum]
          exact sum_congr rfl fun x _ => by ring
        rw [this, Matrix.mul_nonsing_inv _ hu, Matrix.one_apply_ne (Ne.symm hij), smul_eq_mul]
        ring
      · intro hj; exact absurd (mem_univ j) hj
    have := congrArg (fun v => v ⬝ᵥ A j) h
    simp only [sub_dotProduct] at this
    unfold sampleMomentum at this
    rw [dual, dual, dual] at this
    have hpi := Real.pi_pos
    have h3 : 2 * Real.pi * ((freq (ns.getD j 0) ((unravel ns k).getD j 0) : ℝ) / (ns.getD j 0 : ℝ) -
      (freq (ns.getD j 0) ((unravel ns k').getD j 0) : ℝ) / (ns.getD j 0 : ℝ) - m j) = 0 := by linear_combination this
    rcases mul_eq_zero.1 h3 with h4 | h4
    · exfalso; linarith
    · linarith
  have heq : unravel ns k = unravel ns k' := by
    apply List.ext_getElem?
    intro p
    by_cases hp : p < ns.length
    · have hn := getD_pos h0 hp
      have hlt := inShape_getD _ _ hin p hp
      have hlt' := inShape_getD _ _ hin' p hp
      have hkey := key ⟨p, by rw [← hd]; exact hp⟩
      dsimp only at hkey
      set n := ns.getD p 0
      set a := (unravel ns k).getD p 0 with ha
      set b := (unravel ns k').getD p 0 with hb
      have hnR : (n : ℝ) ≠ 0 := by exact_mod_cast hn.ne'
      have : (freq n a : ℝ) - freq n b = m ⟨p, by rw [← hd]; exact hp⟩ * n := by
        field_simp at hkey
        linarith
      have hz : freq n a - freq n b = m ⟨p, by rw [← hd]; exact hp⟩ * n := by exact_mod_cast this
      generalize m ⟨p, by rw [← hd]; exact hp⟩ = z at hz
      have hab : a = b := by
        have hz0 : z = 0 := by
          have h1 : freq n a - freq n b < n := by unfold freq; split <;> split <;> omega
          have h2 : -(n : ℤ) < freq n a - freq n b := by unfold freq; split <;> split <;> omega
          rw [hz] at h1 h2
          have hnz : (0 : ℤ) < n := by exact_mod_cast hn
          have h3 : z < 1 := by nlinarith
          have h4 : -1 < z := by nlinarith
          omega
        rw [hz0, zero_mul] at hz
        unfold freq at hz
        split at hz <;> split at hz <;> omega
      have l1 := inShape_length _ _ hin
      have l2 := inShape_length _ _ hin'
      rw [ha, hb, List.getD_eq_getElem?_getD, List.getD_eq_getElem?_getD] at hab
      rw [List.getElem?_eq_getElem (by omega), List.getElem?_eq_getElem (by omega)] at hab ⊢
      simpa using hab
    · have l1 := inShape_length _ _ hin
      have l2 := inShape_length _ _ hin'
      rw [List.getElem?_eq_none (by omega), List.getElem?_eq_none (by omega)]
  rw [← ravel_unravel ns k hk, ← ravel_unravel ns k' hk', heq]

/-! ## Lines of energies -/

theorem planeCoefficient_fT (ns : List ℕ) (v : ℕ → ℂ) (k : ℕ) (hk : k < ns.prod) :
    planeCoefficient ns (expand (fT ns) v) k = v k := by
  have h := dot_state_expand (state_orthonormal (fT ns) (valids_fT _) (orthonormalPartss_fT _)) v (j := k) (by rw [size_fT]; exact hk)
  rw [(fT_facts ns).2.1] at h
  exact h

theorem bandEnergies_fT (same : Basis → Basis → Bool) (hs : Sound same) (ns : List ℕ) (eigenvalue : ℕ → ℂ) (band : ℕ) :
    ∃ data, convertBandEnergies same (fT ns) (fT ns).asTransformedBasis eigenvalue band = some data ∧
      ∀ k < ns.prod, data k = eigenvalue (band * ns.prod + k) := by
  obtain ⟨f, hf, kf⟩ := list_identity same hs ns
  have e : (fT ns).asTransformedBasis = fT ns := by unfold Basis.asTransformedBasis; rw [show (fT ns).fundamentalShape = ns from fundamentalShape_fT ns]
  have hn : (fT ns).n = ns.prod := by rw [Basis.n_eq, size_fT]
  refine ⟨f fun j => eigenvalue (band * ns.prod + j), ?_, fun k hk => kf _ k hk⟩
  unfold convertBandEnergies
  rw [e, hf, Option.map_some, hn]

/-- **C138.** A line of `plot_wavepacket_eigenvalues_1d_k`: the energies of the band at the samples along one reciprocal lattice vector, through the
sample with the largest absolute energy, in ascending order of momentum. The coordinate is the momentum of the sample projected on
the reciprocal lattice vector `b`, points are `|b| / n` apart, and the last point, one `|b|` after the first, repeats the energy
of the first. -/
theorem C138_line_k (same : Basis → Basis → Bool) (hs : Sound same) (A : Matrix (Fin d) (Fin d) ℝ) (ns : List ℕ) (hd : ns.length = d)
    (h0 : 0 ∉ ns) (eigenvalue : ℕ → ℂ) (a : Fin d) (measure : Measure) (band : ℕ) (n : ℕ) (hn : ns.getD a 0 = n) (h2 : 2 ≤ n) :
    ∃ top line, InShape ns top ∧
      (∀ k < ns.prod, ‖eigenvalue (band * ns.prod + k)‖ ≤ ‖eigenvalue (band * ns.prod + ravel ns top)‖) ∧
      plotBandEnergies1dK same A (fT ns) eigenvalue a measure band = some line ∧ line.n = n + 1 ∧
      (∀ j < n, line.values j = getMeasuredData (fun i => eigenvalue (band * ns.prod +
        ravel ns (top.set a (slot n ((i : ℤ) - (n : ℤ) / 2))))) measure j) ∧
      (∀ j < n, line.coordinates j = ((2 * Real.pi) • (A⁻¹)ᵀ) a ⬝ᵥ sampleMomentum A ns (top.set a (slot n ((j : ℤ) - (n : ℤ) / 2))) /
        vnorm (((2 * Real.pi) • (A⁻¹)ᵀ) a)) ∧
      (∀ j < n, line.coordinates (j + 1) - line.coordinates j = vnorm (((2 * Real.pi) • (A⁻¹)ᵀ) a) / n) ∧
      line.values n = line.values 0 := by
  obtain ⟨data, h3, h4⟩ := bandEnergies_fT same hs ns eigenvalue band
  have hS : getFundamentalSampleBasis (fT ns) = fT ns := by
    unfold getFundamentalSampleBasis; rw [show (fT ns).fundamentalShape = ns from fundamentalShape_fT ns]
  have hsh : (fT ns).fundamentalShape = ns := fundamentalShape_fT ns
  have hN : (fT ns).n = ns.prod := by rw [Basis.n_eq, size_fT]
  have hpos : 0 < ns.prod := Nat.pos_of_ne_zero fun h => h0 (List.prod_eq_zero_iff.1 h)
  obtain ⟨top, t1, t2, t3⟩ := C126_line_default_partial same (sampleVectors A (fT ns)) (fT ns) (by rw [hN]; exact hpos)
    (by rw [hN, hsh]) [a] data
  rw [hsh] at t1 t2
  obtain ⟨line, l1, l2, l3, l4, l5⟩ := C126_line_k same hs (sampleVectors A (fT ns)) (fT ns) (valids_fT _) (orthonormalPartss_fT _)
    (by rw [hsh, hd]) a data measure top (by rw [hsh]; exact t1) n (by rw [hsh]; exact hn) h2
  rw [hsh] at l3 l4
  have hal : (a : ℕ) < top.length := by rw [← inShape_length _ _ t1, hd]; exact a.2
  have hn0 : (0 : ℝ) < n := by positivity
  have hg : ∀ i < n, OnGrid n ((i : ℤ) - (n : ℤ) / 2) := fun i hi => by constructor <;> omega
  have hin : ∀ i < n, InShape ns (top.set a (slot n ((i : ℤ) - (n : ℤ) / 2))) := fun i hi =>
    set_inShape _ _ _ _ t1 (by rw [hn]; exact slot_lt (hg i hi))
  have hK := sampleVectors_inv A (fT ns) ns hsh hd h0 a
  have hv : vnorm (((2 * Real.pi) • ((sampleVectors A (fT ns))⁻¹)ᵀ) a) = vnorm (((2 * Real.pi) • (A⁻¹)ᵀ) a) / n := by
    rw [hK, hn, vnorm_smul_nonneg _ (by positivity)]; ring
  refine ⟨top, line, t1, fun k hk => ?_, ?_, l2, fun j hj => ?_, fun j hj => ?_, fun j hj => ?_, l5⟩
  · rw [← h4 k hk, ← h4 _ (ravel_lt _ _ t1)]
    exact t2 k (by rw [hN]; exact hk)
  · unfold plotBandEnergies1dK
    rw [h3, Option.bind_some, hS, t3]
    exact l1
  · rw [l4 j hj]
    refine measured_congr _ _ _ _ fun i hi => ?_
    have hi' : i < n := by omega
    rw [planeCoefficient_fT ns data _ (ravel_lt _ _ (hin i hi')), h4 _ (ravel_lt _ _ (hin i hi'))]
  · rw [l3 j hj.le, hv, waveVector_sample A (fT ns) ns hsh hd h0, hK, hn]
    have e := sum_set (fun i j => (freq (ns.getD i 0) j : ℝ) / (ns.getD i 0 : ℝ)) (fun i => ((2 * Real.pi) • (A⁻¹)ᵀ) i) top a hal
      (slot n ((j : ℤ) - (n : ℤ) / 2)) 0
    have e' : sampleMomentum A ns (top.set a (slot n ((j : ℤ) - (n : ℤ) / 2))) = sampleMomentum A ns (top.set a 0) +
        (((j : ℝ) - ((n / 2 : ℕ) : ℝ)) / n) • ((2 * Real.pi) • (A⁻¹)ᵀ) a := by
      refine e.trans ?_
      congr 2
      beta_reduce
      rw [hn, freq_slot (hg j hj), show freq n 0 = 0 by unfold freq; rw [if_pos (by omega)]; rfl]
      push_cast
      have : (((n : ℤ) / 2 : ℤ) : ℝ) = ((n / 2 : ℕ) : ℝ) := by norm_cast
      rw [this]
      ring
    rw [e', dotProduct_add, dotProduct_smul, add_div, smul_dotProduct, smul_eq_mul, smul_eq_mul,
      mul_div_assoc ((((j : ℝ) - ((n / 2 : ℕ) : ℝ)) / n)), dot_self_norm]
    have hn1 : (1 / (n : ℝ)) ≠ 0 := by positivity
    rw [show vnorm (((2 * Real.pi) • (A⁻¹)ᵀ) a) / n = 1 / n * vnorm (((2 * Real.pi) • (A⁻¹)ᵀ) a) by ring, mul_div_mul_left _ _ hn1]
    ring
  · rw [l3 (j + 1) (by omega), l3 j hj.le, hv]
    push_cast
    ring

/-- **C138.** A line of `plot_wavepacket_eigenvalues_1d_x`: the transformed energies `Σ_K e^{i K·R} E(K) / √N` at the lattice vectors `R` along one vector of
the unit cell; points are the length of the vector apart. (The line goes through the lattice vector with the largest transformed energy.) -/
theorem C138_line_x (same : Basis → Basis → Bool) (hs : Sound same) (A : Matrix (Fin d) (Fin d) ℝ) (ns : List ℕ) (hd : ns.length = d)
    (h0 : 0 ∉ ns) (eigenvalue : ℕ → ℂ) (a : Fin d) (measure : Measure) (band : ℕ) (n : ℕ) (hn : ns.getD a 0 = n) (h2 : 2 ≤ n) :
    ∃ top line, InShape ns top ∧
      (∀ k < ns.prod, ‖expand (fT ns) (fun j => eigenvalue (band * ns.prod + j)) k‖ ≤
        ‖expand (fT ns) (fun j => eigenvalue (band * ns.prod + j)) (ravel ns top)‖) ∧
      plotBandEnergies1dX same A (fT ns) eigenvalue a measure band = some line ∧ line.n = n + 1 ∧
      (∀ j < n, line.values j = getMeasuredData (fun i => expand (fT ns) (fun j => eigenvalue (band * ns.prod + j))
        (ravel ns (top.set a i))) measure j) ∧
      (∀ j < n, line.coordinates j = A a ⬝ᵥ (∑ i : Fin d, ((top.set a j).getD i 0 : ℝ) • A i) / vnorm (A a)) ∧
      (∀ j < n, line.coordinates (j + 1) - line.coordinates j = vnorm (A a)) ∧
      line.values n = line.values 0 := by
  obtain ⟨data, h3, h4⟩ := bandEnergies_fT same hs ns eigenvalue band
  have hS : getFundamentalSampleBasis (fT ns) = fT ns := by
    unfold getFundamentalSampleBasis; rw [show (fT ns).fundamentalShape = ns from fundamentalShape_fT ns]
  have hsh : (fT ns).fundamentalShape = ns := fundamentalShape_fT ns
  have hpos : 0 < ns.prod := Nat.pos_of_ne_zero fun h => h0 (List.prod_eq_zero_iff.1 h)
  have hexp : expand (fT ns) data = expand (fT ns) (fun j => eigenvalue (band * ns.prod + j)) := by
    funext x
    exact expand_congr _ (fun j hj => h4 j (by rwa [size_fT] at hj)) x
  obtain ⟨top, t1, t2, t3⟩ := C126_position_default same hs (sampleVectors A (fT ns)) (fT ns) (valids_fT _) (orthonormalPartss_fT _)
    (by rw [(fT_facts ns).2.1]; exact hpos) [a] data
  rw [hsh] at t1 t2
  obtain ⟨line, l1, l2, l3, l4, l5⟩ := C126_line_x same hs (sampleVectors A (fT ns)) (fT ns) (valids_fT _) (orthonormalPartss_fT _)
    (by rw [hsh, hd]) a data measure top (by rw [hsh]; exact t1) n (by rw [hsh]; exact hn) h2
  rw [hsh] at l3 l4
  rw [hexp] at l4 t2
  have hal : (a : ℕ) < top.length := by rw [← inShape_length _ _ t1, hd]; exact a.2
  have hn0 : (0 : ℝ) < n := by positivity
  have hrow : sampleVectors A (fT ns) a = (n : ℝ) • A a := by rw [sampleVectors_row, hsh, hn]
  have hgrid : gridPoint (sampleVectors A (fT ns)) ns (top.set a 0) = ∑ i : Fin d, ((top.set a 0).getD i 0 : ℝ) • A i := by
    unfold gridPoint
    refine sum_congr rfl fun i _ => ?_
    rw [sampleVectors_row, hsh, smul_smul]
    congr 1
    have := getD_pos h0 (i := i) (by rw [hd]; exact i.2)
    have : (ns.getD i 0 : ℝ) ≠ 0 := by exact_mod_cast this.ne'
    field_simp
  refine ⟨top, line, t1, fun k hk => t2 k (by rw [(fT_facts ns).2.1]; exact hk), ?_, l2, l4, fun j hj => ?_, fun j hj => ?_, l5⟩
  · unfold plotBandEnergies1dX
    rw [h3, Option.bind_some, hS, t3]
    exact l1
  · have e := sum_set (fun _ j => (j : ℝ)) (fun i => A i) top a hal j 0
    rw [l3 j hj.le, hgrid, hrow, e, vnorm_smul_nonneg _ hn0.le, dotProduct_add, add_div, dotProduct_smul, smul_dotProduct, smul_eq_mul,
      smul_eq_mul, mul_div_mul_left _ _ hn0.ne', mul_div_assoc ((j : ℝ) - _), dot_self_norm]
    push_cast
    field_simp
    ring
  · rw [l3 (j + 1) (by omega), l3 j hj.le, hrow, vnorm_smul_nonneg _ hn0.le, mul_div_cancel_left₀ _ hn0.ne']
    push_cast
    ring

/-- **C138.** `plot_wavepacket_eigenvalues_1d_k` draws one line for each chosen band, in the order chosen (all bands by default), and
raises for a band which does not exist. -/
theorem C138_lines (same : Basis → Basis → Bool) (hs : Sound same) (A : Matrix (Fin d) (Fin d) ℝ) (ns : List ℕ) (hd : ns.length = d)
    (h0 : 0 ∉ ns) (count : ℕ) (eigenvalue : ℕ → ℂ) (a : Fin d) (measure : Measure) (h2 : 2 ≤ ns.getD a 0) (bands : List ℕ) :
    ((∀ b ∈ bands, b < count) → ∃ lines, plotEigenvalues1dK same A count (fT ns) eigenvalue a measure (some bands) = some lines ∧
      lines.map some = bands.map (plotBandEnergies1dK same A (fT ns) eigenvalue a measure)) ∧
    ((∃ b ∈ bands, count ≤ b) → plotEigenvalues1dK same A count (fT ns) eigenvalue a measure (some bands) = none) ∧
    plotEigenvalues1dK same A count (fT ns) eigenvalue a measure none =
      plotEigenvalues1dK same A count (fT ns) eigenvalue a measure (some (List.range count)) := by
  refine ⟨fun h => ?_, fun h => ?_, rfl⟩
  · have hline : ∀ b, ∃ line, plotBandEnergies1dK same A (fT ns) eigenvalue a measure b = some line := fun b => by
      obtain ⟨_, line, _, _, h, _⟩ := C138_line_k same hs A ns hd h0 eigenvalue a measure b _ rfl h2
      exact ⟨line, h⟩
    choose line hline using hline
    refine ⟨bands.map line, ?_, ?_⟩
    · unfold plotEigenvalues1dK
      rw [Option.getD_some]
      exact mapM_some_map bands _ line fun b hb => by rw [if_pos (h b hb), hline]
    · rw [List.map_map]
      exact List.map_congr_left fun b _ => (hline b).symm
  · obtain ⟨b, hb, hbc⟩ := h
    unfold plotEigenvalues1dK
    rw [Option.getD_some]
    exact mapM_eq_none bands _ b hb (if_neg (by omega))

/-- **C138 (negation).** The lines of different bands need not belong to the same momenta: energies of two bands of two by two samples for which no
line of samples along the first axis has the energies drawn for both bands. -/
theorem C138_lines_negation (same : Basis → Basis → Bool) (hs : Sound same) (A : Matrix (Fin 2) (Fin 2) ℝ) :
    ∃ (eigenvalue : ℕ → ℂ) (line0 line1 : DrawnLine),
      plotEigenvalues1dK same A 2 (fT [2, 2]) eigenvalue 0 .real none = some [line0, line1] ∧
      ∀ r < 2, ¬ ((∀ j < 2, line0.values j = (eigenvalue (ravel [2, 2] [slot 2 ((j : ℤ) - 1), r])).re) ∧
        ∀ j < 2, line1.values j = (eigenvalue (4 + ravel [2, 2] [slot 2 ((j : ℤ) - 1), r])).re) := by
  let E : ℕ → ℂ := fun k => if k / 4 = k % 2 then 2 else 1
  have key : ∀ band < 2, ∃ line, plotBandEnergies1dK same A (fT [2, 2]) E 0 .real band = some line ∧ ∀ j < 2, line.values j = 2 := by
    intro band hb
    obtain ⟨top, line, t1, t2, l1, _, l3, _⟩ := C138_line_k same hs A [2, 2] rfl (by simp) E 0 .real band 2 rfl (le_refl 2)
    refine ⟨line, l1, fun j hj => ?_⟩
    match top, t1 with
    | [p, q], ht =>
      obtain ⟨hp, hq, _⟩ := ht
      have hmax := t2 band (by simpa using (by omega : band < 4))
      have hq' : q = band := by
        have e1 : E (band * [2, 2].prod + band) = 2 := by
          show (if (band * 4 + band) / 4 = (band * 4 + band) % 2 then (2 : ℂ) else 1) = 2
          rw [if_pos (by rcases (show band = 0 ∨ band = 1 by omega) with h | h <;> rw [h])]
        rw [e1] at hmax
        by_contra hne
        have e2 : E (band * [2, 2].prod + ravel [2, 2] [p, q]) = 1 := by
          show (if (band * 4 + (p * 2 + (q * 1 + 0))) / 4 = (band * 4 + (p * 2 + (q * 1 + 0))) % 2 then (2 : ℂ) else 1) = 1
          rw [if_neg (by omega)]
        rw [e2] at hmax
        norm_num at hmax
      rw [l3 j hj]
      have hs2 : slot 2 ((j : ℤ) - (2 : ℕ) / 2) < 2 := slot_lt (by constructor <;> omega)
      show (E (band * 4 + (slot 2 ((j : ℤ) - (2 : ℕ) / 2) * 2 + (q * 1 + 0)))).re = 2
      have e3 : E (band * 4 + (slot 2 ((j : ℤ) - (2 : ℕ) / 2) * 2 + (q * 1 + 0))) = 2 := by
        show (if _ then (2 : ℂ) else 1) = 2
        rw [if_pos (by rw [hq']; rcases (show band = 0 ∨ band = 1 by omega) with h | h <;> rw [h] <;> omega)]
      rw [e3]
      rfl
  obtain ⟨line0, a0, b0⟩ := key 0 (by norm_num)
  obtain ⟨line1, a1, b1⟩ := key 1 (by norm_num)
  refine ⟨E, line0, line1, ?_, ?_⟩
  · unfold plotEigenvalues1dK
    rw [Option.getD_none, show List.range 2 = [0, 1] from rfl]
    simp [a0, a1]
  · rintro r hr ⟨h1, h2⟩
    have hs2 : slot 2 (((0 : ℕ) : ℤ) - 1) < 2 := slot_lt (by constructor <;> norm_num)
    have c0 := h1 0 (by norm_num)
    have c1 := h2 0 (by norm_num)
    rw [b0 0 (by norm_num)] at c0
    rw [b1 0 (by norm_num)] at c1
    generalize slot 2 (((0 : ℕ) : ℤ) - 1) = z at hs2 c0 c1
    interval_cases r
    · have : E (4 + ravel [2, 2] [z, 0]) = 1 := by
        show (if (4 + (z * 2 + (0 * 1 + 0))) / 4 = (4 + (z * 2 + (0 * 1 + 0))) % 2 then (2 : ℂ) else 1) = 1
        rw [if_neg (by omega)]
      rw [this] at c1
      norm_num at c1
    · have : E (ravel [2, 2] [z, 1]) = 1 := by
        show (if (z * 2 + (1 * 1 + 0)) / 4 = (z * 2 + (1 * 1 + 0)) % 2 then (2 : ℂ) else 1) = 1
        rw [if_neg (by omega)]
      rw [this] at c0
      norm_num at c0

/-- **C138.** `plot_wavepacket_eigenvalues_2d_k` with an index: the energy at each sample of the slice, at the momentum of the sample projected on
the reciprocal lattice vectors of the chosen axes; momenta ascend along both axes. By default the slice is one through the largest energy. -/
theorem C138_plane (same : Basis → Basis → Bool) (hs : Sound same) (A : Matrix (Fin d) (Fin d) ℝ) (ns : List ℕ) (hd : ns.length = d)
    (h0 : 0 ∉ ns) (axes : List (Fin d)) (hnd : axes.Nodup) (eigenvalue : ℕ → ℂ) :
    (∀ top, InShape ns top →
      ∃ s, plotEigenvalues2dK same A (fT ns) eigenvalue axes (some (offAxes (axes.map Fin.val) top)) = some s ∧
        s.shape = axes.map (fun a : Fin d => ns.getD a 0) ∧
        ∀ full, InShape ns full → AgreeOff (axes.map Fin.val) full top →
          ∀ position, position = axes.map (fun a : Fin d => (freq (ns.getD a 0) (full.getD a 0) + (ns.getD a 0 : ℤ) / 2).toNat) →
          s.values position = eigenvalue (ravel ns full) ∧
          s.coordinates position = projectPoint (axes.map fun a : Fin d => ((2 * Real.pi) • (A⁻¹)ᵀ) a) (sampleMomentum A ns full)) ∧
    ∃ top, InShape ns top ∧ (∀ k < ns.prod, ‖eigenvalue k‖ ≤ ‖eigenvalue (ravel ns top)‖) ∧
      plotEigenvalues2dK same A (fT ns) eigenvalue axes none =
        plotEigenvalues2dK same A (fT ns) eigenvalue axes (some (offAxes (axes.map Fin.val) top)) := by
  have hS : getFundamentalSampleBasis (fT ns) = fT ns := by
    unfold getFundamentalSampleBasis; rw [show (fT ns).fundamentalShape = ns from fundamentalShape_fT ns]
  have hsh : (fT ns).fundamentalShape = ns := fundamentalShape_fT ns
  have hpos : 0 < ns.prod := Nat.pos_of_ne_zero fun h => h0 (List.prod_eq_zero_iff.1 h)
  unfold plotEigenvalues2dK
  rw [hS]
  constructor
  · intro top htop
    obtain ⟨s, _, h1, h2, h3⟩ := C126_momentum same hs (sampleVectors A (fT ns)) (fT ns) (valids_fT _) (orthonormalPartss_fT _)
      (by rw [hsh, hd]) axes hnd eigenvalue top (by rw [hsh]; exact htop)
    rw [hsh] at h2 h3
    refine ⟨s, h1, h2, fun full hf ha position hp => ?_⟩
    obtain ⟨e1, e2⟩ := h3 full hf ha position hp
    rw [planeCoefficient_fT ns eigenvalue _ (ravel_lt _ _ hf)] at e1
    refine ⟨e1, e2.trans ?_⟩
    rw [waveVector_sample A (fT ns) ns hsh hd h0]
    congr 1
    refine List.map_congr_left fun a _ => ?_
    rw [sampleVectors_inv A (fT ns) ns hsh hd h0 a, smul_smul]
    have := getD_pos h0 (i := a) (by rw [hd]; exact a.2)
    have : (ns.getD a 0 : ℝ) ≠ 0 := by exact_mod_cast this.ne'
    rw [mul_one_div_cancel this, one_smul]
  · obtain ⟨top, t1, t2, t3⟩ := C126_momentum_default same hs (sampleVectors A (fT ns)) (fT ns) (valids_fT _) (orthonormalPartss_fT _)
      (by rw [(fT_facts ns).2.1]; exact hpos) axes eigenvalue
    rw [hsh] at t1 t2
    refine ⟨top, t1, fun k hk => ?_, t3⟩
    have := t2 k (by rw [(fT_facts ns).2.1]; exact hk)
    rwa [planeCoefficient_fT ns eigenvalue _ hk, planeCoefficient_fT ns eigenvalue _ (ravel_lt _ _ t1)] at this

/-! ## Samples at any fractions -/

/-- **C138.** A line of `plot_uneven_wavepacket_eigenvalues_1d_k`: every sample is drawn exactly once, at its momentum projected on the reciprocal
lattice vector of the axis, with its own energy, in ascending order of momentum. -/
theorem C138_uneven (argsort : ℕ → (ℕ → ℝ) → ℕ → ℕ) (hsort : ∀ n key, IsArgsort n key (argsort n key)) (A : Matrix (Fin d) (Fin d) ℝ)
    (samples : ℕ) (fractions : ℕ → Fin d → ℝ) (eigenvalue : ℕ → ℂ) (a : Fin d) (measure : Measure) (band : ℕ) :
    ∃ (line : DrawnLine) (order : ℕ → ℕ), plotUnevenEigenvalues1dK argsort A samples fractions eigenvalue a measure band = some line ∧ line.n = samples ∧
      (∀ i < samples, order i < samples) ∧ (∀ s < samples, ∃! i, i < samples ∧ order i = s) ∧
      (∀ i j, i ≤ j → j < samples → line.coordinates i ≤ line.coordinates j) ∧
      (∀ i, line.coordinates i = (∑ c : Fin d, fractions (order i) c • ((2 * Real.pi) • (A⁻¹)ᵀ) c) ⬝ᵥ ((2 * Real.pi) • (A⁻¹)ᵀ) a /
        vnorm (((2 * Real.pi) • (A⁻¹)ᵀ) a)) ∧
      ∀ i, line.values i = getMeasuredData (fun i => eigenvalue (band * samples + order i)) measure i := by
  have hs := hsort samples fun s => getProjectedBlochPhase A (fractions s) (dkStacked A a)
  refine ⟨⟨samples, fun i => getProjectedBlochPhase A (fractions (argsort samples (fun s => getProjectedBlochPhase A (fractions s) (dkStacked A a)) i))
      (dkStacked A a), getMeasuredData (fun i => eigenvalue (band * samples + argsort samples
        (fun s => getProjectedBlochPhase A (fractions s) (dkStacked A a)) i)) measure⟩,
    argsort samples fun s => getProjectedBlochPhase A (fractions s) (dkStacked A a), rfl, rfl, hs.1, ?_, hs.2.2, fun i => ?_, fun i => rfl⟩
  · intro s hs'
    obtain ⟨i, hi, e⟩ := mem_image.1 ((argsort_surj hs).symm ▸ mem_range.2 hs')
    have hi := mem_range.1 hi
    exact ⟨i, ⟨hi, e⟩, fun j hj => hs.2.1 j hj.1 i hi (hj.2.trans e.symm)⟩
  · show getProjectedBlochPhase _ _ _ = _
    unfold getProjectedBlochPhase dkStacked
    simp only [dotProduct, sum_div, Finset.sum_apply, Pi.smul_apply, smul_eq_mul, mul_div_assoc]

/-! ## Drawing the samples -/

theorem insert_none (l : List ℕ) : ∀ m, l.foldl (fun s axis => s.insertIdx (min axis s.length) none) (List.replicate m (none : Option ℕ)) =
    List.replicate (m + l.length) none := by
  induction l with
  | nil => intro m; rfl
  | cons a l ih =>
    intro m
    rw [List.foldl_cons]
    have : (List.replicate m (none : Option ℕ)).insertIdx (min a (List.replicate m (none : Option ℕ)).length) none =
        List.replicate (m + 1) none := by
      apply List.eq_replicate_iff.2
      constructor
      · rw [List.length_insertIdx_of_le_length (by omega), List.length_replicate]
      · intro b hb
        rcases List.eq_or_mem_of_mem_insertIdx hb with h | h
        · exact h
        · exact List.eq_of_mem_replicate h
    rw [this, ih (m + 1), List.length_cons]
    congr 1
    omega

theorem keptBySlice_none (m : ℕ) (full : List ℕ) : keptBySlice (List.replicate m none) full = true := by
  unfold keptBySlice
  rw [List.all_eq_true]
  intro p hp
  have := List.eq_of_mem_replicate (List.of_mem_zip hp).1
  rw [this]

theorem keptBySlice_mark (axes full top : List ℕ) (h : top.length = full.length) :
    keptBySlice (markAxes axes top) full = true ↔ AgreeOff axes full top := by
  unfold keptBySlice
  rw [List.all_eq_true]
  constructor
  · intro hall i hi
    by_cases hlt : i < full.length
    · have hlt' : i < top.length := by omega
      have hz : i < ((markAxes axes top).zip full).length := by rw [List.length_zip, markAxes_length]; omega
      have := hall _ (List.getElem_mem hz)
      rw [List.getElem_zip] at this
      simp only [markAxes, List.getElem_mapIdx, if_neg hi, beq_iff_eq] at this
      rw [List.getD_eq_getElem?_getD, List.getD_eq_getElem?_getD, List.getElem?_eq_getElem hlt, List.getElem?_eq_getElem hlt', this]
    · rw [List.getD_eq_getElem?_getD, List.getD_eq_getElem?_getD, List.getElem?_eq_none (by omega), List.getElem?_eq_none (by omega)]
  · intro ha p hp
    obtain ⟨i, hi, rfl⟩ := List.mem_iff_getElem.1 hp
    rw [List.getElem_zip]
    have hi' := hi
    rw [List.length_zip, markAxes_length] at hi'
    simp only [markAxes, List.getElem_mapIdx]
    by_cases hm : i ∈ axes
    · rw [if_pos hm]
    · rw [if_neg hm]
      have := ha i hm
      rw [List.getD_eq_getElem?_getD, List.getD_eq_getElem?_getD, List.getElem?_eq_getElem (by omega), List.getElem?_eq_getElem (by omega)] at this
      simpa using this.symm

/-- **C138.** `plot_wavepacket_sample_frequencies` with an index draws the samples of the slice, once each and in order: two Cartesian components of
their momenta. Without an index every sample is drawn. Only part of the claim, that by default the slice at the index zero of the other axes is
drawn: see `C138_points_negation`. -/
theorem C138_points_partial (A : Matrix (Fin d) (Fin d) ℝ) (ns : List ℕ) (hd : ns.length = d) (h0 : 0 ∉ ns) (a b : Fin d) (hab : a ≠ b) :
    (∀ top, InShape ns top → ∃ ks : List ℕ, plotSampleFrequencies A (fT ns) (a, b) (some (offAxes [(a : ℕ), (b : ℕ)] top)) =
        some (ks.map fun k => (sampleMomentum A ns (unravel ns k) a, sampleMomentum A ns (unravel ns k) b)) ∧
      ks.Pairwise (· < ·) ∧ ∀ k, k ∈ ks ↔ k < ns.prod ∧ AgreeOff [(a : ℕ), (b : ℕ)] (unravel ns k) top) ∧
    plotSampleFrequencies A (fT ns) (a, b) none =
      some ((List.range ns.prod).map fun k => (sampleMomentum A ns (unravel ns k) a, sampleMomentum A ns (unravel ns k) b)) := by
  have hsh : (fT ns).fundamentalShape = ns := fundamentalShape_fT ns
  have hfreq : ∀ k < ns.prod, getSampleFrequency A (fT ns) k = sampleMomentum A ns (unravel ns k) := fun k hk => by
    have := C138_frequencies A (fT ns) ns hsh hd h0 _ (unravel_inShape ns k hk)
    rwa [ravel_unravel ns k hk] at this
  constructor
  · intro top htop
    have hlen := inShape_length _ _ htop
    have hslice : sliceIgnoringAxes (offAxes [(a : ℕ), (b : ℕ)] top) [(a : ℕ), (b : ℕ)] = markAxes [(a : ℕ), (b : ℕ)] top := by
      apply sliceIgnoring_eq
      · simp [Fin.val_inj, hab]
      · intro x hx
        rcases List.mem_cons.1 hx with rfl | hx
        · omega
        · rw [List.mem_singleton.1 hx]; omega
    refine ⟨(List.range ns.prod).filter fun k => keptBySlice (markAxes [(a : ℕ), (b : ℕ)] top) (unravel ns k), ?_, ?_, fun k => ?_⟩
    · unfold plotSampleFrequencies
      dsimp only
      rw [shape_fT, hsh, Option.getD_some, hslice, if_neg]
      · congr 1
        refine List.map_congr_left fun k hk => ?_
        have hk' := List.mem_range.1 (List.mem_of_mem_filter hk)
        rw [hfreq k hk']
      · rintro (h | h | h)
        · exact h rfl
        · rw [markAxes_length] at h; omega
        · rw [List.any_eq_true] at h
          obtain ⟨p, hp, hp'⟩ := h
          obtain ⟨i, hi, rfl⟩ := List.mem_iff_getElem.1 hp
          have hi' := hi
          rw [List.length_zip, markAxes_length] at hi'
          rw [List.getElem_zip] at hp'
          simp only [markAxes, List.getElem_mapIdx] at hp'
          by_cases hm : i ∈ [(a : ℕ), (b : ℕ)]
          · rw [if_pos hm] at hp'; exact absurd hp' (by simp)
          · rw [if_neg hm] at hp'
            have := inShape_getD _ _ htop i (by omega)
            rw [List.getD_eq_getElem?_getD, List.getD_eq_getElem?_getD, List.getElem?_eq_getElem (by omega), List.getElem?_eq_getElem (by omega)] at this
            simp only [Option.getD_some] at this
            simp only [decide_eq_true_eq] at hp'
            omega
    · exact List.Pairwise.filter _ (List.pairwise_lt_range)
    · rw [List.mem_filter, List.mem_range]
      refine and_congr_right fun hk => ?_
      exact keptBySlice_mark _ _ _ (by rw [← hlen, ← inShape_length _ _ (unravel_inShape ns k hk)])
  · have hslice : sliceIgnoringAxes ([] : List ℕ) [(a : ℕ), (b : ℕ)] = List.replicate 2 none := by
      unfold sliceIgnoringAxes
      have := insert_none ([(a : ℕ), (b : ℕ)].mergeSort fun a b => decide (a ≤ b)) 0
      rw [List.length_mergeSort] at this
      exact this
    have h2 : 2 ≤ ns.length := by
      have ha := a.2
      have hb := b.2
      have : (a : ℕ) ≠ b := fun h => hab (Fin.ext h)
      omega
    unfold plotSampleFrequencies
    dsimp only
    rw [shape_fT, hsh, Option.getD_none, hslice, if_neg]
    · congr 1
      rw [List.filter_eq_self.2 fun k _ => keptBySlice_none 2 _]
      refine List.map_congr_left fun k hk => ?_
      rw [hfreq k (List.mem_range.1 hk)]
    · rintro (h | h | h)
      · exact h rfl
      · rw [List.length_replicate] at h; omega
      · rw [List.any_eq_true] at h
        obtain ⟨p, hp, hp'⟩ := h
        have := List.eq_of_mem_replicate (List.of_mem_zip hp).1
        rw [this] at hp'
        exact absurd hp' (by simp)

/-- **C138 (negation).** In three dimensions the points drawn by default are not those of the slice at index zero of the remaining axis. -/
theorem C138_points_negation (A : Matrix (Fin 3) (Fin 3) ℝ) :
    ∃ all slice, plotSampleFrequencies A (fT [1, 1, 2]) (0, 1) none = some all ∧
      plotSampleFrequencies A (fT [1, 1, 2]) (0, 1) (some [0]) = some slice ∧ all.length = 2 ∧ slice.length = 1 := by
  obtain ⟨h1, h2⟩ := C138_points_partial A [1, 1, 2] rfl (by simp) 0 1 (by decide)
  obtain ⟨ks, k1, k2, k3⟩ := h1 [0, 0, 0] ⟨by norm_num, by norm_num, by norm_num, trivial⟩
  refine ⟨_, _, h2, k1, by simp, ?_⟩
  rw [List.length_map]
  have h0 : (0 : ℕ) ∈ ks := (k3 0).2 ⟨by norm_num, fun i _ => rfl⟩
  have honly : ∀ k ∈ ks, k = 0 := by
    intro k hk
    obtain ⟨e1, e2⟩ := (k3 k).1 hk
    have e1' : k < 2 := by simpa using e1
    have e3 := e2 2 (by decide)
    interval_cases k
    · rfl
    · exact absurd e3 (by decide)
  match ks, h0, honly, k2 with
  | [x], _, _, _ => rfl
  | x :: y :: l, _, ho, hp =>
    have := (List.pairwise_cons.1 hp).1 y (by simp)
    rw [ho x (by simp), ho y (by simp)] at this
    exact absurd this (lt_irrefl 0)

-- one dimension, a cell of length 3 with five samples: the last sample has momentum `-2π/15`
example : sampleMomentum (!![3] : Matrix (Fin 1) (Fin 1) ℝ) [5] [4] 0 = -(2 * Real.pi / 15) := by
  unfold sampleMomentum
  have e : (!![3] : Matrix (Fin 1) (Fin 1) ℝ)⁻¹ = !![1 / 3] := by
    apply Matrix.inv_eq_right_inv
    ext i j
    fin_cases i; fin_cases j
    simp [Matrix.mul_apply]
  rw [e, Fin.sum_univ_one]
  show ((freq 5 4 : ℝ) / (5 : ℕ)) * (2 * Real.pi * (1 / 3)) = _
  rw [show freq 5 4 = -1 from rfl]
  push_cast
  ring

-- the hypotheses of the lines of energies hold for three by two samples
example : ([3, 2] : List ℕ).length = 2 ∧ 0 ∉ ([3, 2] : List ℕ) ∧ 2 ≤ ([3, 2] : List ℕ).getD ((1 : Fin 2) : ℕ) 0 :=
  ⟨rfl, by simp, le_refl 2⟩

end Verif
