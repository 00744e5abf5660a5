import Verif.Props.C69_Hamiltonian
import Verif.Props.C94_ExplicitZ
import Verif.Props.C48_Bloch
import Verif.Props.C107_Generate

/-!
# C110: Bloch's theorem for the hamiltonians of the momentum basis
-/

set_option autoImplicit false

namespace Verif

open Finset Spec Matrix

variable {d : ℕ}

/-- The matrix elements of an operator given by a sum over dyads. -/
theorem sesq_rank_one (n m : ℕ) (a : ℕ → ℕ → ℂ) (e : ℕ → ℂ) (u v : ℕ → ℂ) :
    sesq n (fun i j => ∑ k ∈ range m, (starRingEnd ℂ) (a i k) * e k * a j k) u v =
      ∑ k ∈ range m, e k * ((starRingEnd ℂ) (∑ i ∈ range n, u i * a i k) * ∑ j ∈ range n, v j * a j k) := by
  unfold sesq
  simp only [mul_sum, sum_mul, map_sum, map_mul]
  rw [sum_congr rfl fun i _ => sum_comm]
  rw [sum_comm]
  refine sum_congr rfl fun k _ => ?_
  rw [sum_comm]
  refine sum_congr rfl fun j _ => sum_congr rfl fun i _ => ?_
  ring

/-- The matrix elements of the total hamiltonian. -/
theorem total_sesq (same : Basis → Basis → Bool) (hs : Sound same) (hbar : ℝ) (A : Matrix (Fin d) (Fin d) ℝ)
    (axes : List Basis) (hv : Valids axes) (ho : OrthonormalPartss axes) (V : ℕ → ℂ) (mass : ℝ) (fraction : Option (Fin d → ℝ)) :
    ∃ H, totalHamiltonian same hbar A axes V mass fraction = some H ∧ H.b0 = .tuple axes ∧ H.b1 = .tuple axes ∧
      ∀ u v, sesq (sizes axes) H.entry u v =
        (∑ k ∈ range (axes.map points).prod, (hamiltonianFromMass hbar A axes mass fraction).data k *
          ((starRingEnd ℂ) (toMomentum (axes.map points) (expand (.tuple axes) u) k) *
            toMomentum (axes.map points) (expand (.tuple axes) v) k)) +
        ∑ x ∈ range (axes.map points).prod, expand (.tuple axes) V x * ((starRingEnd ℂ) (expand (.tuple axes) u x) * expand (.tuple axes) v x) := by
  obtain ⟨H, hH, h0, h1, hent⟩ := total_entries same hs hbar A axes hv ho V mass fraction
  obtain ⟨mom, hmom⟩ : ∃ mom, mom = (axes.map points).map Basis.fundamentalTransformed := ⟨_, rfl⟩
  have hpt : pointss mom = pointss axes := by rw [hmom, pointss_momentum, pointss_eq]
  obtain ⟨D, hD⟩ : ∃ D, D = hamiltonianFromMass hbar A axes mass fraction := ⟨_, rfl⟩
  rw [← hmom, ← hD] at hent
  refine ⟨H, hH, h0, h1, fun u v => ?_⟩
  have e1 : sesq (sizes axes) H.entry u v =
      sesq (sizes axes) (fun i j => ∑ k ∈ range (pointss axes),
          (starRingEnd ℂ) ((starRingEnd ℂ) (overlapKernel (.tuple mom) (.tuple axes) i k)) * D.data k *
            (starRingEnd ℂ) (overlapKernel (.tuple mom) (.tuple axes) j k)) u v +
      sesq (sizes axes) (fun i j => ∑ x ∈ range (pointss axes), (starRingEnd ℂ) (state (.tuple axes) i x) * expand (.tuple axes) V x *
          state (.tuple axes) j x) u v := by
    unfold sesq
    rw [← sum_add_distrib]
    refine sum_congr rfl fun i hi => ?_
    rw [← sum_add_distrib]
    refine sum_congr rfl fun j hj => ?_
    rw [hent i (mem_range.1 hi) j (mem_range.1 hj)]
    simp only [Complex.conj_conj]
    ring
  have key : ∀ v k, ∑ i ∈ range (sizes axes), v i * (starRingEnd ℂ) (overlapKernel (.tuple mom) (.tuple axes) i k) =
      toMomentum (axes.map points) (expand (.tuple axes) v) k := by
    intro v k
    unfold toMomentum overlapKernel expand
    rw [show points (.tuple mom) = (axes.map points).prod from hpt.trans (pointss_eq axes)]
    simp only [map_sum, map_mul, Complex.conj_conj, mul_sum]
    rw [sum_comm]
    refine sum_congr rfl fun x _ => ?_
    refine sum_congr rfl fun i _ => ?_
    rw [hmom]
    show _ * (_ * (starRingEnd ℂ) (state (fT (axes.map points)) k x)) = _
    ring
  rw [e1, ← hD, ← pointss_eq]
  congr 1
  · rw [sesq_rank_one _ _ (fun i k => (starRingEnd ℂ) (overlapKernel (.tuple mom) (.tuple axes) i k))]
    refine sum_congr rfl fun k _ => ?_
    rw [key, key]
  · rw [sesq_rank_one]
    exact sum_congr rfl fun x _ => rfl

/-- On every axis the momentum of component `j` of sample `a` is one of the momenta of the grid of the large cell. -/
def InWindow : List (ℕ × ℕ) → List ℕ → List ℕ → Prop
  | (ns, nx) :: axes, a :: as, j :: js => OnGrid (ns * nx) (ns * freq nx j + freq ns a) ∧ InWindow axes as js
  | _, _, _ => True

theorem freq_of_dvd {n p : ℕ} {z : ℤ} (hp : p < n) (hz : OnGrid n z) (h : (n : ℤ) ∣ p - z) : freq n p = z := by
  have h1 := freq_onGrid hp
  have h2 : (n : ℤ) ∣ freq n p - z := by
    have : (n : ℤ) ∣ freq n p - p := by
      unfold freq
      split_ifs
      · simp
      · simp
    have := dvd_add this h
    rwa [sub_add_sub_cancel] at this
  obtain ⟨c, hc⟩ := h2
  unfold OnGrid at h1 hz
  have : c = 0 := by
    have hn : (0 : ℤ) < n := by omega
    by_contra hne
    rcases lt_or_gt_of_ne hne with h | h
    · nlinarith
    · nlinarith
  subst this
  linarith

theorem window_freq : ∀ (axes : List (ℕ × ℕ)) (a j p : List ℕ), InShape (sampleShape axes) a → InShape (stateShape axes) j →
    InShape (unfurledShape axes) p → AtMomentum axes a j p → InWindow axes a j → ∀ i < axes.length,
    freq ((unfurledShape axes).getD i 0) (p.getD i 0) = (sampleShape axes).getD i 0 * freq ((stateShape axes).getD i 0) (j.getD i 0) +
      freq ((sampleShape axes).getD i 0) (a.getD i 0)
  | (ns, nx) :: axes, a :: as, j :: js, p :: ps, _, _, hp, h, hw, 0, _ => freq_of_dvd hp.1 hw.1 h.1
  | (ns, nx) :: axes, a :: as, j :: js, p :: ps, ha, hj, hp, h, hw, i + 1, hi =>
    window_freq axes as js ps ha.2 hj.2 hp.2 h.2 hw.2 i (by simpa using hi)
  | [], _, _, _, _, _, _, _, _, _, hi => by simp at hi
  | _ :: _, [], _, _, h, _, _, _, _, _, _ => by simp [sampleShape, InShape] at h
  | _ :: _, _ :: _, [], _, _, h, _, _, _, _, _ => by simp [stateShape, InShape] at h
  | _ :: _, _ :: _, _ :: _, [], _, _, h, _, _, _, _ => by simp [unfurledShape, InShape] at h

/-- The lattice vectors of the large cell: each is repeated as often as there are samples. -/
def largeCell (axes : List (ℕ × ℕ)) (A : Matrix (Fin d) (Fin d) ℝ) : Matrix (Fin d) (Fin d) ℝ := fun i =>
  ((sampleShape axes).getD i 0 : ℝ) • A i

theorem largeCell_det (axes : List (ℕ × ℕ)) (A : Matrix (Fin d) (Fin d) ℝ) (hA : IsUnit A.det)
    (h : ∀ i : Fin d, (sampleShape axes).getD i 0 ≠ 0) : IsUnit (largeCell axes A).det := by
  have : largeCell axes A = Matrix.diagonal (fun i : Fin d => ((sampleShape axes).getD i 0 : ℝ)) * A := by
    ext i j
    rw [Matrix.diagonal_mul]
    rfl
  rw [this, Matrix.det_mul, Matrix.det_diagonal]
  refine IsUnit.mul (isUnit_iff_ne_zero.2 (Finset.prod_ne_zero_iff.2 fun i _ => ?_)) hA
  exact_mod_cast h i

/-- The potential of the large cell: that of the small cell at the point below. -/
def RepeatedPotential (axes : List (ℕ × ℕ)) (b : Basis) (V V' : ℕ → ℂ) : Prop :=
  ∀ X, InShape (unfurledShape axes) X → V' (ravel (unfurledShape axes) X) = expand b V (ravel (stateShape axes) (reduce axes X))

/-- The Bloch state as coefficients on the grid of the large cell. -/
noncomputable def blochCoeff (axes : List (ℕ × ℕ)) (b : Basis) (v : ℕ → ℂ) (a : ℕ) (X : ℕ) : ℂ :=
  blochWave axes b v (unravel (sampleShape axes) a) (unravel (unfurledShape axes) X)

theorem expand_position (ns : List ℕ) (v : ℕ → ℂ) {x : ℕ} (hx : x < ns.prod) : expand (.tuple (ns.map Basis.fundamental)) v x = v x := by
  unfold expand
  rw [show size (.tuple (ns.map Basis.fundamental)) = ns.prod from sizes_position ns]
  rw [sum_congr rfl fun j hj => by
    rw [show state (.tuple (ns.map Basis.fundamental)) j x = _ from states_position ns j x (mem_range.1 hj) hx]]
  simp [hx]

theorem toMomentum_congr (ns : List ℕ) {E E' : ℕ → ℂ} (h : ∀ x < ns.prod, E x = E' x) (k : ℕ) : toMomentum ns E k = toMomentum ns E' k := by
  unfold toMomentum
  exact sum_congr rfl fun x hx => by rw [h x (mem_range.1 hx)]

/-- The momentum components of a Bloch state. -/
theorem bloch_momentum (axes : List (ℕ × ℕ)) (b : Basis) (v : ℕ → ℂ) {a : ℕ} (ha : a < (sampleShape axes).prod)
    (a' j : List ℕ) (ha' : InShape (sampleShape axes) a') (hj : InShape (stateShape axes) j) :
    toMomentum (unfurledShape axes) (blochCoeff axes b v a) (ravel (unfurledShape axes) (places axes a' j)) =
      if ravel (sampleShape axes) a' = a then toMomentum (stateShape axes) (expand b v) (ravel (stateShape axes) j) else 0 := by
  obtain ⟨hp, hm⟩ := places_spec axes a' j ha' hj
  have hjl := ravel_lt _ _ hj
  have e : ∀ X ∈ range (unfurledShape axes).prod,
      state (fT (unfurledShape axes)) (ravel (unfurledShape axes) (places axes a' j)) X =
        blochWave axes (fT (stateShape axes)) (unit (ravel (stateShape axes) j)) (unravel (sampleShape axes) (ravel (sampleShape axes) a'))
          (unravel (unfurledShape axes) X) := by
    intro X hX
    have sX := unravel_inShape _ X (mem_range.1 hX)
    have h1 := states_fT _ _ _ hp sX
    rw [ravel_unravel _ X (mem_range.1 hX)] at h1
    rw [show state (fT (unfurledShape axes)) _ X = _ from h1, waves_place axes a' j _ _ ha' hj hp sX hm, unravel_ravel _ _ ha']
    unfold blochWave
    congr 2
    unfold expand
    rw [(fT_facts _).1, sum_eq_single (ravel (stateShape axes) j)]
    · rw [unit, if_pos rfl, one_mul]
      exact (states_fT _ _ _ hj (reduce_inShape axes _ sX)).symm
    · intro k _ hk
      rw [unit, if_neg hk, zero_mul]
    · intro h; exact absurd (mem_range.2 hjl) h
  unfold toMomentum
  rw [sum_congr rfl fun X hX => by rw [e X hX]]
  unfold blochCoeff
  rw [blochWave_dot axes _ b _ v _ a (ravel_lt _ _ ha') ha]
  refine if_congr Iff.rfl ?_ rfl
  unfold dot
  refine sum_congr rfl fun x hx => ?_
  congr 2
  unfold expand
  rw [(fT_facts _).1, sum_eq_single (ravel (stateShape axes) j)]
  · rw [unit, if_pos rfl, one_mul]
  · intro k _ hk
    rw [unit, if_neg hk, zero_mul]
  · intro h; exact absurd (mem_range.2 hjl) h

/-- The fractions of sample `a`. -/
noncomputable def fractionOf (axes : List (ℕ × ℕ)) (a : ℕ) (i : Fin d) : ℝ := sampleFraction (sampleShape axes) (unravel (sampleShape axes) a) i

/-- The kinetic energy of the large cell is that of the small cell at the fractions of the sample. -/
theorem kinetic_place (hbar : ℝ) (hh : hbar ≠ 0) (A : Matrix (Fin d) (Fin d) ℝ) (hA : IsUnit A.det) (axes : List (ℕ × ℕ))
    (hd : axes.length = d) (baxes : List Basis) (hb : baxes.map points = stateShape axes) (mass : ℝ) (hm : 0 < mass) (a : ℕ)
    (ha : a < (sampleShape axes).prod) (j : List ℕ) (hj : InShape (stateShape axes) j)
    (hw : InWindow axes (unravel (sampleShape axes) a) j) :
    (hamiltonianFromMass hbar (largeCell axes A) ((unfurledShape axes).map Basis.fundamental) mass none).data
        (ravel (unfurledShape axes) (places axes (unravel (sampleShape axes) a) j)) =
      (hamiltonianFromMass hbar A baxes mass (some (fractionOf axes a))).data (ravel (stateShape axes) j) := by
  have sa := unravel_inShape _ a ha
  obtain ⟨hp, hat⟩ := places_spec axes _ j sa hj
  have hlen : (sampleShape axes).length = d := by simp [sampleShape, hd]
  have hne : ∀ i : Fin d, (sampleShape axes).getD i 0 ≠ 0 := fun i =>
    (Nat.zero_lt_of_lt (inShape_getD _ _ sa i (by rw [hlen]; exact i.2))).ne'
  obtain ⟨E, hE, hEq, -⟩ := C69_kinetic hbar hh A hA baxes (by
    have := congrArg List.length hb; simp [stateShape] at this; omega) mass hm (some (fractionOf axes a)) (fractionOf axes a) (Or.inl rfl) j
    (by rw [hb]; exact hj)
  obtain ⟨E', hE', hEq', -⟩ := C69_kinetic hbar hh (largeCell axes A) (largeCell_det axes A hA hne)
    ((unfurledShape axes).map Basis.fundamental) (by simp [unfurledShape, hd]) mass hm none 0 (Or.inr ⟨rfl, rfl⟩)
    (places axes (unravel (sampleShape axes) a) j) (by rw [map_points_position]; exact hp)
  rw [map_points_position] at hE' hEq'
  rw [hb] at hE hEq
  rw [hE, hE']
  congr 1
  have hfr := window_freq axes _ j _ sa hj hp hat hw
  obtain ⟨q, hq⟩ : ∃ q : Fin d → ℝ, ∀ i, q ⬝ᵥ A i = 2 * Real.pi * ((freq ((stateShape axes).getD i 0) (j.getD i 0) : ℝ) + fractionOf axes a i) :=
    ⟨_, fun i => kinetic_vector A hA (fun i => freq ((stateShape axes).getD i 0) (j.getD i 0)) (fractionOf axes a) i⟩
  rw [hEq q hq, hEq' q fun i => ?_]
  rw [hfr i (by rw [hd]; exact i.2)]
  unfold largeCell
  rw [dotProduct_smul, hq i, smul_eq_mul]
  unfold fractionOf sampleFraction
  have := hne i
  push_cast
  rw [Pi.zero_apply]
  field_simp
  ring

/-- **C110.** Bloch's theorem. The matrix elements of the hamiltonian of the large cell, with the repeated potential and no Bloch
fraction, between Bloch states: zero for different samples, and for the same sample the matrix elements of the hamiltonian of the small
cell at the fractions of the sample - if all momenta which occur in the basis are below the largest momentum of the grid of
the large cell. -/
theorem C110_matrix_partial (same : Basis → Basis → Bool) (hs : Sound same) (hbar : ℝ) (hh : hbar ≠ 0) (A : Matrix (Fin d) (Fin d) ℝ)
    (hA : IsUnit A.det) (axes : List (ℕ × ℕ)) (hd : axes.length = d) (baxes : List Basis) (hv : Valids baxes)
    (ho : OrthonormalPartss baxes) (hb : baxes.map points = stateShape axes) (V V' : ℕ → ℂ)
    (hV : RepeatedPotential axes (.tuple baxes) V V') (mass : ℝ) (hm : 0 < mass)
    (hw : ∀ a j, InShape (sampleShape axes) a → InShape (stateShape axes) j →
      (∃ i < sizes baxes, toMomentum (stateShape axes) (state (.tuple baxes) i) (ravel (stateShape axes) j) ≠ 0) → InWindow axes a j) :
    ∃ H', totalHamiltonian same hbar (largeCell axes A) ((unfurledShape axes).map Basis.fundamental) V' mass none = some H' ∧
      ∀ a < (sampleShape axes).prod, ∃ H, totalHamiltonian same hbar A baxes V mass (some (fractionOf axes a)) = some H ∧
        ∀ a' < (sampleShape axes).prod, ∀ u v, sesq (unfurledShape axes).prod H'.entry (blochCoeff axes (.tuple baxes) u a')
          (blochCoeff axes (.tuple baxes) v a) = if a' = a then sesq (sizes baxes) H.entry u v else 0 := by
  obtain ⟨H', hH', -, -, hS'⟩ := total_sesq same hs hbar (largeCell axes A) ((unfurledShape axes).map Basis.fundamental)
    (valids_position _) (orthonormal_position _) V' mass none
  refine ⟨H', hH', fun a ha => ?_⟩
  obtain ⟨H, hH, -, -, hS⟩ := total_sesq same hs hbar A baxes hv ho V mass (some (fractionOf axes a))
  refine ⟨H, hH, fun a' ha' u v => ?_⟩
  rw [map_points_position, sizes_position] at hS'
  rw [hb] at hS
  rw [hS', hS]
  have e0 : ∀ w : ℕ → ℂ, ∀ k, toMomentum (unfurledShape axes) (expand (.tuple ((unfurledShape axes).map Basis.fundamental)) w) k =
      toMomentum (unfurledShape axes) w k := fun w k => toMomentum_congr _ (fun x hx => expand_position _ w hx) k
  simp only [e0]
  -- the potential energy
  have hpot : ∑ x ∈ range (unfurledShape axes).prod, expand (.tuple ((unfurledShape axes).map Basis.fundamental)) V' x *
      ((starRingEnd ℂ) (expand (.tuple ((unfurledShape axes).map Basis.fundamental)) (blochCoeff axes (.tuple baxes) u a') x) *
        expand (.tuple ((unfurledShape axes).map Basis.fundamental)) (blochCoeff axes (.tuple baxes) v a) x) =
      if a' = a then ∑ x ∈ range (stateShape axes).prod, expand (.tuple baxes) V x *
        ((starRingEnd ℂ) (expand (.tuple baxes) u x) * expand (.tuple baxes) v x) else 0 := by
    have e1 : ∀ x ∈ range (unfurledShape axes).prod, expand (.tuple ((unfurledShape axes).map Basis.fundamental)) V' x *
        ((starRingEnd ℂ) (expand (.tuple ((unfurledShape axes).map Basis.fundamental)) (blochCoeff axes (.tuple baxes) u a') x) *
          expand (.tuple ((unfurledShape axes).map Basis.fundamental)) (blochCoeff axes (.tuple baxes) v a) x) =
        (starRingEnd ℂ) (blochWave axes (.tuple baxes) u (unravel (sampleShape axes) a') (unravel (unfurledShape axes) x)) *
          blochWave axes (.tuple ((stateShape axes).map Basis.fundamental)) (fun y => expand (.tuple baxes) V y * expand (.tuple baxes) v y)
            (unravel (sampleShape axes) a) (unravel (unfurledShape axes) x) := by
      intro x hx
      have hx' := mem_range.1 hx
      have sx := unravel_inShape _ x hx'
      have hVx := hV _ sx
      rw [ravel_unravel _ x hx'] at hVx
      rw [expand_position _ _ hx', expand_position _ _ hx', expand_position _ _ hx', hVx]
      have hr := ravel_lt _ _ (reduce_inShape axes _ sx)
      unfold blochCoeff
      have e2 : blochWave axes (.tuple ((stateShape axes).map Basis.fundamental)) (fun y => expand (.tuple baxes) V y * expand (.tuple baxes) v y)
            (unravel (sampleShape axes) a) (unravel (unfurledShape axes) x) =
          expand (.tuple baxes) V (ravel (stateShape axes) (reduce axes (unravel (unfurledShape axes) x))) *
            blochWave axes (.tuple baxes) v (unravel (sampleShape axes) a) (unravel (unfurledShape axes) x) := by
        unfold blochWave
        rw [show expand (.tuple ((stateShape axes).map Basis.fundamental)) _ (ravel (List.map Prod.snd axes) _) = _ from
          expand_position (stateShape axes) _ hr]
        show _ * (expand (.tuple baxes) V (ravel (stateShape axes) _) * expand (.tuple baxes) v (ravel (stateShape axes) _)) / _ =
          _ * (_ * expand (.tuple baxes) v (ravel (stateShape axes) _) / _)
        ring
      rw [e2]
      ring
    rw [sum_congr rfl e1, blochWave_dot axes _ _ _ _ a' a ha' ha]
    refine if_congr Iff.rfl ?_ rfl
    unfold dot
    refine sum_congr rfl fun x hx => ?_
    rw [expand_position _ _ (mem_range.1 hx)]
    ring
  rw [hpot]
  -- the kinetic energy
  have hcoef : ∀ (w : ℕ → ℂ) k, toMomentum (stateShape axes) (expand (.tuple baxes) w) k ≠ 0 →
      ∃ i < sizes baxes, toMomentum (stateShape axes) (state (.tuple baxes) i) k ≠ 0 := by
    intro w k hne
    by_contra hcon
    push Not at hcon
    apply hne
    unfold toMomentum expand
    simp only [mul_sum]
    rw [sum_comm]
    refine sum_eq_zero fun i hi => ?_
    have := hcon i (mem_range.1 hi)
    unfold toMomentum at this
    rw [sum_congr rfl fun x _ => show (starRingEnd ℂ) (state (fT (stateShape axes)) k x) * (w i * state (.tuple baxes) i x) =
      w i * ((starRingEnd ℂ) (state (fT (stateShape axes)) k x) * state (.tuple baxes) i x) by ring, ← mul_sum, this, mul_zero]
  have hkin : ∑ k ∈ range (unfurledShape axes).prod,
      (hamiltonianFromMass hbar (largeCell axes A) ((unfurledShape axes).map Basis.fundamental) mass none).data k *
        ((starRingEnd ℂ) (toMomentum (unfurledShape axes) (blochCoeff axes (.tuple baxes) u a') k) *
          toMomentum (unfurledShape axes) (blochCoeff axes (.tuple baxes) v a) k) =
      if a' = a then ∑ k ∈ range (stateShape axes).prod, (hamiltonianFromMass hbar A baxes mass (some (fractionOf axes a))).data k *
        ((starRingEnd ℂ) (toMomentum (stateShape axes) (expand (.tuple baxes) u) k) *
          toMomentum (stateShape axes) (expand (.tuple baxes) v) k) else 0 := by
    rw [sum_unfurled]
    have e3 : ∀ a₀ j, InShape (sampleShape axes) a₀ → InShape (stateShape axes) j →
        (hamiltonianFromMass hbar (largeCell axes A) ((unfurledShape axes).map Basis.fundamental) mass none).data
          (ravel (unfurledShape axes) (places axes a₀ j)) *
          ((starRingEnd ℂ) (toMomentum (unfurledShape axes) (blochCoeff axes (.tuple baxes) u a') (ravel (unfurledShape axes) (places axes a₀ j))) *
            toMomentum (unfurledShape axes) (blochCoeff axes (.tuple baxes) v a) (ravel (unfurledShape axes) (places axes a₀ j))) =
        if ravel (sampleShape axes) a₀ = a then (if a' = a then
          (hamiltonianFromMass hbar A baxes mass (some (fractionOf axes a))).data (ravel (stateShape axes) j) *
            ((starRingEnd ℂ) (toMomentum (stateShape axes) (expand (.tuple baxes) u) (ravel (stateShape axes) j)) *
              toMomentum (stateShape axes) (expand (.tuple baxes) v) (ravel (stateShape axes) j)) else 0) else 0 := by
      intro a₀ j ha₀ hj
      rw [bloch_momentum axes _ u ha' a₀ j ha₀ hj, bloch_momentum axes _ v ha a₀ j ha₀ hj]
      by_cases h1 : ravel (sampleShape axes) a₀ = a
      · rw [if_pos h1, if_pos h1]
        by_cases h2 : a' = a
        · rw [if_pos (h1.trans h2.symm), if_pos h2]
          by_cases h3 : toMomentum (stateShape axes) (expand (.tuple baxes) v) (ravel (stateShape axes) j) = 0
          · rw [h3]; ring
          · have hau : unravel (sampleShape axes) a = a₀ := by rw [← h1, unravel_ravel _ _ ha₀]
            rw [← hau, kinetic_place hbar hh A hA axes hd baxes hb mass hm a ha j hj
              (hau ▸ hw a₀ j ha₀ hj (hcoef v _ h3))]
        · rw [if_neg (fun h => h2 (h.symm.trans h1)), if_neg h2, map_zero, zero_mul, mul_zero]
      · rw [if_neg h1, if_neg h1, mul_zero, mul_zero]
    rw [nsum_congr _ _ _ fun a₀ ha₀ => nsum_congr _ _ _ fun j hj => e3 a₀ j ha₀ hj]
    rw [show (nsum (sampleShape axes) fun a₀ => nsum (stateShape axes) fun j => if ravel (sampleShape axes) a₀ = a then (if a' = a then
          (hamiltonianFromMass hbar A baxes mass (some (fractionOf axes a))).data (ravel (stateShape axes) j) *
            ((starRingEnd ℂ) (toMomentum (stateShape axes) (expand (.tuple baxes) u) (ravel (stateShape axes) j)) *
              toMomentum (stateShape axes) (expand (.tuple baxes) v) (ravel (stateShape axes) j)) else 0) else 0) =
        ∑ k ∈ range (sampleShape axes).prod, ∑ l ∈ range (stateShape axes).prod, if k = a then (if a' = a then
          (hamiltonianFromMass hbar A baxes mass (some (fractionOf axes a))).data l *
            ((starRingEnd ℂ) (toMomentum (stateShape axes) (expand (.tuple baxes) u) l) *
              toMomentum (stateShape axes) (expand (.tuple baxes) v) l) else 0) else 0 by
      rw [← nsum_ravel]
      exact congrArg _ (funext fun a₀ => nsum_ravel (stateShape axes) fun l => if ravel (sampleShape axes) a₀ = a then (if a' = a then
          (hamiltonianFromMass hbar A baxes mass (some (fractionOf axes a))).data l *
            ((starRingEnd ℂ) (toMomentum (stateShape axes) (expand (.tuple baxes) u) l) *
              toMomentum (stateShape axes) (expand (.tuple baxes) v) l) else 0) else 0)]
    rw [sum_eq_single a]
    · simp only [if_pos]
      by_cases h2 : a' = a
      · simp only [if_pos h2]
      · simp only [if_neg h2, sum_const_zero]
    · intro k _ hk
      simp only [if_neg hk, sum_const_zero]
    · intro h; exact absurd (mem_range.2 ha) h
  rw [hkin]
  by_cases h : a' = a
  · simp only [if_pos h]
  · simp only [if_neg h, add_zero]

/-- With an odd number of points along every axis no momentum is outside of the grid of the large cell. -/
theorem inWindow_of_odd : ∀ (axes : List (ℕ × ℕ)) (a j : List ℕ), (∀ p ∈ axes, p.2 % 2 = 1) → InShape (sampleShape axes) a →
    InShape (stateShape axes) j → InWindow axes a j
  | (ns, nx) :: axes, a :: as, j :: js, h, ha, hj => by
    refine ⟨?_, inWindow_of_odd axes as js (fun p hp => h p (List.mem_cons_of_mem _ hp)) ha.2 hj.2⟩
    have h1 := freq_onGrid ha.1
    have h2 := freq_onGrid hj.1
    have h3 : nx % 2 = 1 := h (ns, nx) List.mem_cons_self
    unfold OnGrid at *
    generalize freq ns a = A at *
    generalize freq nx j = J at *
    dsimp only at h1 h2
    have h4 : -((nx : ℤ) - 1) ≤ 2 * J := by omega
    have h5 : 2 * J ≤ (nx : ℤ) - 1 := by omega
    have hn : (0 : ℤ) ≤ ns := by omega
    push_cast
    constructor
    · nlinarith [mul_le_mul_of_nonneg_left h4 hn]
    · nlinarith [mul_le_mul_of_nonneg_left h5 hn]
  | [], _, _, _, _, _ => by simp [InWindow]
  | _ :: _, [], _, _, h, _ => by simp [sampleShape, InShape] at h
  | _ :: _, _ :: _, [], _, _, h => by simp [stateShape, InShape] at h

/-- A plane wave of the large cell as a Bloch state in any complete basis of the small cell. -/
theorem plane_is_bloch (axes : List (ℕ × ℕ)) (baxes : List Basis) (hv : Valids baxes)
    (ho : OrthonormalPartss baxes) (hb : baxes.map points = stateShape axes) (hc : sizes baxes = (stateShape axes).prod)
    (a j : List ℕ) (ha : InShape (sampleShape axes) a) (hj : InShape (stateShape axes) j) :
    ∃ u : ℕ → ℂ, ∀ X < (unfurledShape axes).prod, state (fT (unfurledShape axes)) (ravel (unfurledShape axes) (places axes a j)) X =
      blochCoeff axes (.tuple baxes) u (ravel (sampleShape axes) a) X := by
  have o := state_orthonormal (.tuple baxes) hv ho
  rw [show size (.tuple baxes) = (stateShape axes).prod from hc,
    show points (.tuple baxes) = (stateShape axes).prod from (pointss_eq baxes).trans (by rw [hb])] at o
  refine ⟨fun k => ∑ y ∈ range (stateShape axes).prod, (starRingEnd ℂ) (state (.tuple baxes) k y) * state (fT (stateShape axes)) (ravel (stateShape axes) j) y,
    fun X hX => ?_⟩
  have sX := unravel_inShape _ X hX
  obtain ⟨hp, hm⟩ := places_spec axes a j ha hj
  have h1 := states_fT _ _ _ hp sX
  rw [ravel_unravel _ X hX] at h1
  rw [show state (fT (unfurledShape axes)) _ X = _ from h1, waves_place axes a j _ _ ha hj hp sX hm]
  unfold blochCoeff blochWave
  rw [unravel_ravel _ _ ha]
  congr 2
  have hr := ravel_lt _ _ (reduce_inShape axes _ sX)
  unfold expand
  rw [show size (.tuple baxes) = (stateShape axes).prod from hc]
  rw [show ravel (List.map Prod.snd axes) _ = ravel (stateShape axes) (reduce axes (unravel (unfurledShape axes) X)) from rfl,
    project_complete o _ hr]
  exact (states_fT _ _ _ hj (reduce_inShape axes _ sX)).symm

/-- **C110.** In a complete basis and for an odd number of points along every axis: the Bloch state of an eigenvector of the
hamiltonian of the small cell at the fractions of a sample is an eigenvector of the hamiltonian of the large cell, with
the same eigenvalue. -/
theorem C110_eigenstates_partial (same : Basis → Basis → Bool) (hs : Sound same) (hbar : ℝ) (hh : hbar ≠ 0) (A : Matrix (Fin d) (Fin d) ℝ)
    (hA : IsUnit A.det) (axes : List (ℕ × ℕ)) (hd : axes.length = d) (hodd : ∀ p ∈ axes, p.2 % 2 = 1) (baxes : List Basis) (hv : Valids baxes)
    (ho : OrthonormalPartss baxes) (hb : baxes.map points = stateShape axes) (hc : sizes baxes = (stateShape axes).prod) (V V' : ℕ → ℂ)
    (hV : RepeatedPotential axes (.tuple baxes) V V') (mass : ℝ) (hm : 0 < mass) :
    ∃ H', totalHamiltonian same hbar (largeCell axes A) ((unfurledShape axes).map Basis.fundamental) V' mass none = some H' ∧
      ∀ a < (sampleShape axes).prod, ∃ H, totalHamiltonian same hbar A baxes V mass (some (fractionOf axes a)) = some H ∧
        ∀ (E : ℂ) (v : ℕ → ℂ), (∀ i < sizes baxes, ∑ k ∈ range (sizes baxes), H.entry i k * v k = E * v i) →
          ∀ X < (unfurledShape axes).prod, ∑ Y ∈ range (unfurledShape axes).prod, H'.entry X Y * blochCoeff axes (.tuple baxes) v a Y =
            E * blochCoeff axes (.tuple baxes) v a X := by
  obtain ⟨H', hH', h⟩ := C110_matrix_partial same hs hbar hh A hA axes hd baxes hv ho hb V V' hV mass hm
    fun a j ha hj _ => inWindow_of_odd axes a j hodd ha hj
  refine ⟨H', hH', fun a ha => ?_⟩
  obtain ⟨H, hH, hsq⟩ := h a ha
  refine ⟨H, hH, fun E v hE X hX => ?_⟩
  have o := state_orthonormal (.tuple baxes) hv ho
  obtain ⟨f, hf⟩ : ∃ f : ℕ → ℂ, f = fun X => ∑ Y ∈ range (unfurledShape axes).prod, H'.entry X Y * blochCoeff axes (.tuple baxes) v a Y -
    E * blochCoeff axes (.tuple baxes) v a X := ⟨_, rfl⟩
  suffices hz : f X = 0 by rw [hf] at hz; exact sub_eq_zero.1 hz
  rw [← expand_toMomentum (unfurledShape axes) f hX]
  unfold expand
  rw [(fT_facts _).1, sum_unfurled, nsum_congr _ _ (fun _ => 0) fun a₀ ha₀ => ?_]
  · have := nsum_ravel (sampleShape axes) fun _ => 0
    rw [this, sum_const_zero]
  rw [nsum_congr _ _ (fun _ => 0) fun j hj => ?_]
  · have := nsum_ravel (stateShape axes) fun _ => 0
    rw [this, sum_const_zero]
  obtain ⟨u, hu⟩ := plane_is_bloch axes baxes hv ho hb hc a₀ j ha₀ hj
  have key : toMomentum (unfurledShape axes) f (ravel (unfurledShape axes) (places axes a₀ j)) = 0 := by
    unfold toMomentum
    rw [sum_congr rfl fun X hX => by rw [hu X (mem_range.1 hX)]]
    have h1 := hsq (ravel (sampleShape axes) a₀) (ravel_lt _ _ ha₀) u v
    have h2 := blochWave_dot axes (.tuple baxes) (.tuple baxes) u v _ a (ravel_lt _ _ ha₀) ha
    have h3 : ∑ X ∈ range (unfurledShape axes).prod, (starRingEnd ℂ) (blochCoeff axes (.tuple baxes) u (ravel (sampleShape axes) a₀) X) * f X =
        sesq (unfurledShape axes).prod H'.entry (blochCoeff axes (.tuple baxes) u (ravel (sampleShape axes) a₀)) (blochCoeff axes (.tuple baxes) v a) -
        E * ∑ X ∈ range (unfurledShape axes).prod, (starRingEnd ℂ) (blochCoeff axes (.tuple baxes) u (ravel (sampleShape axes) a₀) X) *
          blochCoeff axes (.tuple baxes) v a X := by
      unfold sesq
      rw [mul_sum, ← sum_sub_distrib]
      refine sum_congr rfl fun X _ => ?_
      rw [hf]
      dsimp only
      rw [mul_sub, mul_sum]
      congr 1
      · exact sum_congr rfl fun Y _ => by ring
      · ring
    rw [h3, h1]
    unfold blochCoeff
    rw [h2]
    by_cases hq : ravel (sampleShape axes) a₀ = a
    · rw [if_pos hq, if_pos hq]
      have h4 := dot_expand_expand o u v
      rw [show points (.tuple baxes) = (stateShape axes).prod from (pointss_eq baxes).trans (by rw [hb])] at h4
      rw [h4]
      unfold sesq dot
      rw [show size (.tuple baxes) = sizes baxes from rfl, mul_sum, ← sum_sub_distrib]
      refine sum_eq_zero fun i hi => ?_
      have h5 := hE i (mem_range.1 hi)
      rw [sum_congr rfl fun k _ => show (starRingEnd ℂ) (u i) * H.entry i k * v k = (starRingEnd ℂ) (u i) * (H.entry i k * v k) by ring,
        ← mul_sum, h5]
      ring
    · rw [if_neg hq, if_neg hq, mul_zero, sub_zero]
  rw [key, zero_mul]

/-- A case which meets the hypotheses: two axes with three and two samples and three and five points. -/
example : ∃ V', RepeatedPotential [(3, 3), (2, 5)] (.tuple [.fundamental 3, .transformed 5 5]) (fun k => (k : ℂ)) V' ∧
    (∀ p ∈ [(3, 3), (2, 5)], p.2 % 2 = 1) ∧ [Basis.fundamental 3, .transformed 5 5].map points = stateShape [(3, 3), (2, 5)] ∧
    sizes [.fundamental 3, .transformed 5 5] = (stateShape [(3, 3), (2, 5)]).prod ∧ Valids [.fundamental 3, .transformed 5 5] := by
  refine ⟨fun X => expand (.tuple [.fundamental 3, .transformed 5 5]) (fun k => (k : ℂ))
    (ravel (stateShape [(3, 3), (2, 5)]) (reduce [(3, 3), (2, 5)] (unravel (unfurledShape [(3, 3), (2, 5)]) X))), fun X hX => ?_, by decide, rfl, rfl,
    ⟨trivial, le_refl _, trivial⟩⟩
  show expand _ _ (ravel _ (reduce _ (unravel _ (ravel _ X)))) = _
  rw [unravel_ravel _ _ hX]

/-- The hamiltonian generator of the momentum basis for a potential and a mass. -/
noncomputable def hamiltonianAt (same : Basis → Basis → Bool) (hbar : ℝ) (A : Matrix (Fin d) (Fin d) ℝ) (baxes : List Basis) (V : ℕ → ℂ)
    (mass : ℝ) (φ : ℕ → ℝ) : Operator :=
  (totalHamiltonian same hbar A baxes V mass (some fun i => φ i)).getD ⟨.tuple baxes, .tuple baxes, [], fun _ => 0⟩

/-- **C110.** The wavepackets generated from the hamiltonian of a real potential, in a complete basis with an odd number of points along every
axis: the Bloch states of all bands and samples are orthonormal eigenstates of the hamiltonian of the large cell, and the energies returned
are their eigenvalues. -/
theorem C110_generated_partial (same : Basis → Basis → Bool) (hs : Sound same) (eigh : Operator → ℕ → ℕ → EigResult) (heigh : IsEighRoutine eigh)
    (hbar : ℝ) (hh : hbar ≠ 0) (A : Matrix (Fin d) (Fin d) ℝ) (hA : IsUnit A.det) (axes : List (ℕ × ℕ)) (hd : axes.length = d)
    (hodd : ∀ p ∈ axes, p.2 % 2 = 1) (hpos : 0 < (sampleShape axes).prod) (baxes : List Basis) (hv : Valids baxes)
    (ho : OrthonormalPartss baxes) (hb : baxes.map points = stateShape axes) (hc : sizes baxes = (stateShape axes).prod)
    (hnd : d = (Basis.tuple baxes).fundamentalShape.length) (V V' : ℕ → ℂ) (hreal : ∀ x < pointss baxes, (expand (.tuple baxes) V x).im = 0)
    (hV : RepeatedPotential axes (.tuple baxes) V V') (mass : ℝ) (hm : 0 < mass)
    (band : Basis) (bands offset step : ℕ) (hband : AsksFor band bands offset step) (h0 : 0 < bands) (hst : 0 < step)
    (hr : offset + step * (bands - 1) < sizes baxes) :
    ∃ H' w e, totalHamiltonian same hbar (largeCell axes A) ((unfurledShape axes).map Basis.fundamental) V' mass none = some H' ∧
      generateWavepacket same eigh (hamiltonianAt same hbar A baxes V mass) (fT (sampleShape axes)) band = some (w, e) ∧
      w.basis = .tuple baxes ∧ ∀ ψ : ℕ → ℕ → ℕ → ℂ, (∀ c a X, ψ c a X = blochCoeff axes (.tuple baxes)
        (fun k => w.data ((c * (sampleShape axes).prod + a) * sizes baxes + k)) a X) →
        ∀ c < bands, ∀ a < (sampleShape axes).prod,
          (∀ X < (unfurledShape axes).prod, ∑ Y ∈ range (unfurledShape axes).prod, H'.entry X Y * ψ c a Y =
            e (c * (sampleShape axes).prod + a) * ψ c a X) ∧
          ∀ c' < bands, ∀ a' < (sampleShape axes).prod, ∑ X ∈ range (unfurledShape axes).prod, (starRingEnd ℂ) (ψ c a X) * ψ c' a' X =
            if c = c' ∧ a = a' then 1 else 0 := by
  obtain ⟨H', hH', hE⟩ := C110_eigenstates_partial same hs hbar hh A hA axes hd hodd baxes hv ho hb hc V V' hV mass hm
  have hgen : ∀ φ, HermitianOperator (hamiltonianAt same hbar A baxes V mass φ) ∧ (hamiltonianAt same hbar A baxes V mass φ).b0 = .tuple baxes := by
    intro φ
    obtain ⟨H, h1, h2, -⟩ := C71_hermitian same hs hbar A baxes hv ho V mass hm (some fun i => φ i) hreal
    obtain ⟨H₂, h1', h3, h4, -⟩ := C71_energy same hs hbar A baxes hv ho V mass (some fun i => φ i)
    rw [h1] at h1'; cases h1'
    unfold hamiltonianAt
    rw [h1, Option.getD_some]
    exact ⟨⟨by rw [h3, h4], by rw [h3]; exact h2⟩, h3⟩
  have hlen : (sampleShape axes).length = d := by simp [sampleShape, hd]
  obtain ⟨w, e, hw, -, -, hwb, hall⟩ := C107_generate_partial same hs eigh heigh (.tuple baxes) (hamiltonianAt same hbar A baxes V mass) hgen
    (sampleShape axes) hpos (hlen.trans hnd) (by
      intro φ φ' hφ
      unfold hamiltonianAt
      rw [show (fun i : Fin d => φ i) = fun i : Fin d => φ' i from funext fun i => hφ i (by rw [hlen]; exact i.2)]) band bands offset step hband h0 hr
  refine ⟨H', w, e, hH', hw, hwb, fun ψ hψ c hc' a ha => ?_⟩
  have hψ' : ∀ c a, ψ c a = blochCoeff axes (.tuple baxes) (fun k => w.data ((c * (sampleShape axes).prod + a) * sizes baxes + k)) a :=
    fun c a => funext (hψ c a)
  simp only [hψ']
  have sa := unravel_inShape _ a ha
  obtain ⟨lam, vec, -, -, heig, horth⟩ := hall _ sa
  rw [ravel_unravel _ a ha] at heig horth
  constructor
  · obtain ⟨H, hH, h⟩ := hE a ha
    refine h _ _ fun i hi => ?_
    have h1 := (heig c hc').2 i hi
    have h2 : hamiltonianAt same hbar A baxes V mass (sampleFraction (sampleShape axes) (unravel (sampleShape axes) a)) = H := by
      unfold hamiltonianAt
      rw [show (fun i : Fin d => sampleFraction (sampleShape axes) (unravel (sampleShape axes) a) i) = fractionOf axes a from rfl, hH]
      rfl
    rw [h2] at h1
    exact h1
  · intro c' hc'' a' ha'
    have h1 := blochWave_dot axes (.tuple baxes) (.tuple baxes) (fun k => w.data ((c * (sampleShape axes).prod + a) * sizes baxes + k))
      (fun k => w.data ((c' * (sampleShape axes).prod + a') * sizes baxes + k)) a a' ha ha'
    unfold blochCoeff
    rw [h1]
    have o := state_orthonormal (.tuple baxes) hv ho
    have h4 := dot_expand_expand o (fun k => w.data ((c * (sampleShape axes).prod + a) * sizes baxes + k))
      (fun k => w.data ((c' * (sampleShape axes).prod + a') * sizes baxes + k))
    rw [show points (.tuple baxes) = (stateShape axes).prod from (pointss_eq baxes).trans (by rw [hb])] at h4
    rw [h4]
    by_cases hq : a = a'
    · subst hq
      rw [if_pos rfl]
      refine (horth hst c hc' c' hc'').trans ?_
      simp
    · rw [if_neg hq, if_neg fun h => hq h.2]

/-- A case which meets all hypotheses: one axis, three points, two samples, a potential with three different values, the two lowest bands. -/
example (same : Basis → Basis → Bool) (hs : Sound same) : ∃ (eigh : Operator → ℕ → ℕ → EigResult) (V' : ℕ → ℂ) (H' : Operator) (w : WavepacketList) (e : ℕ → ℂ),
    IsEighRoutine eigh ∧ V' 0 = 0 ∧ V' 4 = 1 ∧ V' 5 = 2 ∧
      totalHamiltonian same 1 (largeCell [(2, 3)] (1 : Matrix (Fin 1) (Fin 1) ℝ)) ([6].map Basis.fundamental) V' 1 none = some H' ∧
      generateWavepacket same eigh (hamiltonianAt same 1 (1 : Matrix (Fin 1) (Fin 1) ℝ) [.fundamental 3] (fun k => (k : ℂ)) 1) (fT [2])
        (.fundamental 2) = some (w, e) := by
  obtain ⟨eigh, heigh⟩ := exists_eighRoutine
  have hx : ∀ x < 3, expand (.tuple [.fundamental 3]) (fun k => (k : ℂ)) x = x := fun x hx => expand_position [3] _ (by simpa using hx)
  obtain ⟨H', w, e, h1, h2, -⟩ := C110_generated_partial same hs eigh heigh 1 one_ne_zero (1 : Matrix (Fin 1) (Fin 1) ℝ) (by simp) [(2, 3)] rfl
    (by decide) (by decide) [.fundamental 3] (valids_position [3]) (orthonormal_position [3]) rfl rfl rfl (fun k => (k : ℂ))
    (fun X => ((X % 3 : ℕ) : ℂ)) (fun x h => by rw [hx x h]; exact Complex.natCast_im x) (by
      intro X hX
      match X, hX with
      | [x], h =>
        have hr : ravel (stateShape [(2, 3)]) (reduce [(2, 3)] [x]) = x % 3 := by simp [ravel, stateShape, reduce]
        rw [hr, hx _ (Nat.mod_lt _ (by decide))]
        simp [ravel, unfurledShape]) 1 one_pos (.fundamental 2) 2 0 1
    ⟨rfl, Or.inr ⟨fun n s o h => by (cases h), rfl, rfl⟩⟩ (by decide) (by decide) (by decide)
  exact ⟨eigh, _, H', w, e, heigh, by simp, by simp, by simp, h1, h2⟩

/-- The momentum components of the state with one momentum. -/
theorem toMomentum_unit (ns : List ℕ) {j k : ℕ} (hj : j < ns.prod) (hk : k < ns.prod) :
    toMomentum ns (expand (fT ns) (unit j)) k = if k = j then 1 else 0 := by
  obtain ⟨h1, h2, h3⟩ := fT_facts ns
  have := h3 k hk j hj
  unfold toMomentum
  refine Eq.trans (sum_congr rfl fun x _ => ?_) this
  congr 1
  unfold expand
  rw [h1, sum_eq_single j]
  · rw [unit, if_pos rfl, one_mul]
  · intro i _ hi
    rw [unit, if_neg hi, zero_mul]
  · intro h; exact absurd (mem_range.2 hj) h

/-- **C110, negation.** With an even number of points Bloch's theorem is false of the hamiltonians: two points, three samples, no potential. In the last
sample the state with momentum index -1 has `(- 1 - 1 / 3) ^ 2` times the energy of one reciprocal vector, and in the large cell,
whose grid does not contain this momentum, `(2 / 3) ^ 2`. -/
theorem C110_negation (same : Basis → Basis → Bool) (hs : Sound same) :
    ∃ H H', totalHamiltonian same 1 (1 : Matrix (Fin 1) (Fin 1) ℝ) ([2].map Basis.fundamentalTransformed) (fun _ => 0) 1 (some (fractionOf [(3, 2)] 2)) = some H ∧
      totalHamiltonian same 1 (largeCell [(3, 2)] (1 : Matrix (Fin 1) (Fin 1) ℝ)) ([6].map Basis.fundamental) (fun _ => 0) 1 none = some H' ∧
      RepeatedPotential [(3, 2)] (fT [2]) (fun _ => 0) (fun _ => 0) ∧
      sesq 2 H.entry (unit 1) (unit 1) = (((8 * Real.pi / 3) ^ 2 / 2 : ℝ) : ℂ) ∧
      sesq 6 H'.entry (blochCoeff [(3, 2)] (fT [2]) (unit 1) 2) (blochCoeff [(3, 2)] (fT [2]) (unit 1) 2) = (((4 * Real.pi / 3) ^ 2 / 2 : ℝ) : ℂ) := by
  obtain ⟨H, hH, -, -, hS⟩ := total_sesq same hs 1 (1 : Matrix (Fin 1) (Fin 1) ℝ) ([2].map Basis.fundamentalTransformed) (valids_momentum _)
    (orthonormal_momentum _) (fun _ => 0) 1 (some (fractionOf [(3, 2)] 2))
  obtain ⟨H', hH', -, -, hS'⟩ := total_sesq same hs 1 (largeCell [(3, 2)] (1 : Matrix (Fin 1) (Fin 1) ℝ)) ([6].map Basis.fundamental)
    (valids_position _) (orthonormal_position _) (fun _ => 0) 1 none
  have hz : ∀ (b : Basis) x, expand b (fun _ => 0) x = 0 := fun b x => by unfold expand; simp
  have hdet : IsUnit (1 : Matrix (Fin 1) (Fin 1) ℝ).det := by simp
  refine ⟨H, H', hH, hH', fun X _ => (hz _ _).symm, ?_, ?_⟩
  · have h := hS (unit 1) (unit 1)
    simp only [hz, zero_mul, sum_const_zero, add_zero] at h
    refine (show sesq 2 H.entry (unit 1) (unit 1) = _ from h).trans ?_
    have hp : ([2].map Basis.fundamentalTransformed).map points = [2] := rfl
    rw [hp]
    have e : ∀ k ∈ range [2].prod, toMomentum [2] (expand (.tuple ([2].map Basis.fundamentalTransformed)) (unit 1)) k = if k = 1 then 1 else 0 :=
      fun k hk => toMomentum_unit [2] (by decide) (mem_range.1 hk)
    rw [sum_congr rfl fun k hk => by rw [e k hk], sum_eq_single 1]
    · rw [if_pos rfl, map_one, mul_one, mul_one]
      obtain ⟨E, hE, hq, -⟩ := C69_kinetic 1 one_ne_zero (1 : Matrix (Fin 1) (Fin 1) ℝ) hdet ([2].map Basis.fundamentalTransformed) rfl 1 one_pos
        (some (fractionOf [(3, 2)] 2)) _ (Or.inl rfl) [1] ⟨by decide, trivial⟩
      rw [hp] at hE hq
      refine (show _ = ((E : ℝ) : ℂ) from hE).trans ?_
      rw [hq (fun _ => -(8 * Real.pi / 3)) ?_]
      · simp only [dotProduct, univ_unique, sum_const, card_singleton, one_smul]
        push_cast
        ring
      · intro i
        fin_cases i
        simp only [dotProduct, univ_unique, sum_singleton]
        have f1 : freq 2 1 = -1 := by decide
        have f2 : freq 3 2 = -1 := by decide
        show -(8 * Real.pi / 3) * (1 : Matrix (Fin 1) (Fin 1) ℝ) 0 0 = 2 * Real.pi * ((freq 2 1 : ℤ) + (((freq 3 2 : ℤ) : ℝ) / ((3 : ℕ) : ℝ)))
        rw [f1, f2, Matrix.one_apply_eq]
        push_cast
        ring
    · intro k _ hk
      rw [if_neg hk, mul_zero, mul_zero]
    · intro h; exact absurd (mem_range.2 (by decide)) h
  · have h := hS' (blochCoeff [(3, 2)] (fT [2]) (unit 1) 2) (blochCoeff [(3, 2)] (fT [2]) (unit 1) 2)
    simp only [hz, zero_mul, sum_const_zero, add_zero] at h
    refine (show sesq 6 H'.entry _ _ = _ from h).trans ?_
    rw [show ([6].map Basis.fundamental).map points = unfurledShape [(3, 2)] from rfl, sum_unfurled]
    have e : ∀ a j, a < 3 → j < 2 → toMomentum (unfurledShape [(3, 2)])
        (expand (.tuple [.fundamental 6]) (blochCoeff [(3, 2)] (fT [2]) (unit 1) 2)) (ravel (unfurledShape [(3, 2)]) (places [(3, 2)] [a] [j])) =
        if a = 2 then (if j = 1 then 1 else 0) else 0 := by
      intro a j ha hj
      rw [toMomentum_congr (unfurledShape [(3, 2)]) (E := expand (.tuple [.fundamental 6]) (blochCoeff [(3, 2)] (fT [2]) (unit 1) 2))
        (E' := blochCoeff [(3, 2)] (fT [2]) (unit 1) 2) (fun x hx => expand_position (unfurledShape [(3, 2)]) _ hx), bloch_momentum [(3, 2)] _ _ (by decide) [a] [j] ⟨ha, trivial⟩ ⟨hj, trivial⟩]
      refine if_congr (by simp [ravel, sampleShape]) ?_ rfl
      rw [show ravel (stateShape [(3, 2)]) [j] = j by simp [ravel, stateShape]]
      exact toMomentum_unit [2] (by decide) (by simpa using hj)
    simp only [sampleShape, stateShape, List.map_cons, List.map_nil, nsum]
    rw [sum_eq_single 2, sum_eq_single 1]
    · rw [e 2 1 (by decide) (by decide), if_pos rfl, if_pos rfl, map_one, mul_one, mul_one]
      have hpl : places [(3, 2)] [2] [1] = [2] := by decide
      rw [hpl]
      obtain ⟨E, hE, hq, -⟩ := C69_kinetic 1 one_ne_zero (largeCell [(3, 2)] (1 : Matrix (Fin 1) (Fin 1) ℝ))
        (largeCell_det _ _ hdet fun i => by fin_cases i; simp [sampleShape]) ([6].map Basis.fundamental) rfl 1 one_pos
        none 0 (Or.inr ⟨rfl, rfl⟩) [2] ⟨by decide, trivial⟩
      refine (show _ = ((E : ℝ) : ℂ) from hE).trans ?_
      rw [hq (fun _ => 4 * Real.pi / 3) ?_]
      · simp only [dotProduct, univ_unique, sum_const, card_singleton, one_smul]
        push_cast
        ring
      · intro i
        fin_cases i
        simp only [dotProduct, univ_unique, sum_singleton]
        have f1 : freq 6 2 = 2 := by decide
        show (4 * Real.pi / 3) * (((3 : ℕ) : ℝ) * (1 : Matrix (Fin 1) (Fin 1) ℝ) 0 0) = 2 * Real.pi * ((freq 6 2 : ℤ) + 0)
        rw [f1, Matrix.one_apply_eq]
        push_cast
        ring
    · intro j hj hne
      rw [e 2 j (by decide) (mem_range.1 hj), if_pos rfl, if_neg hne, mul_zero, mul_zero]
    · intro h; exact absurd (mem_range.2 (by decide)) h
    · intro a ha hne
      refine sum_eq_zero fun j hj => ?_
      rw [e a j (mem_range.1 ha) (mem_range.1 hj), if_neg hne, mul_zero, mul_zero]
    · intro h; exact absurd (mem_range.2 (by decide)) h

end Verif
