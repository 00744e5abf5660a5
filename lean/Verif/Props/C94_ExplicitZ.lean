import Verif.Props.C92_Generator
import Verif.Lemmas.Eigen

/-!
C94: the hamiltonian in a basis with explicit states normal to the surface is the momentum basis hamiltonian in that basis.
-/

set_option autoImplicit false

namespace Verif

open Finset Spec Matrix

/-- Conversion of an operator on the grid. -/
theorem convert_grid_operator (same : Basis → Basis → Bool) (hs : Sound same) (axes : List Basis) (hv : Valids axes) (H : Operator)
    (h0 : H.b0 = .tuple ((axes.map points).map Basis.fundamental)) (h1 : H.b1 = .tuple ((axes.map points).map Basis.fundamental)) :
    ∃ O, convertOperator same H (.tuple axes) (.tuple axes) = some O ∧ O.b0 = .tuple axes ∧ O.b1 = .tuple axes ∧
      ∀ i < sizes axes, ∀ j < sizes axes, O.entry i j = ∑ x ∈ range (pointss axes), ∑ y ∈ range (pointss axes),
        (starRingEnd ℂ) (states axes i x) * H.entry x y * states axes j y := by
  have va : Valid (.tuple ((axes.map points).map Basis.fundamental)) := valids_position _
  have oa : OrthonormalParts (.tuple ((axes.map points).map Basis.fundamental)) := orthonormal_position _
  have ca : Compatible (.tuple ((axes.map points).map Basis.fundamental)) (.tuple axes) := position_compatibles axes
  obtain ⟨C, f, f', hC, hf, hf', h⟩ := C17_matrix same hs _ (.tuple axes) _ (.tuple axes) va hv oa ca va hv oa ca
  rw [hf] at hf'; cases hf'
  obtain ⟨g, hg, kg⟩ := convert_kernel same hs _ (.tuple axes) va hv oa ca
  rw [hf] at hg; cases hg
  have hn : (Basis.tuple axes).n = sizes axes := tuple_n axes
  have hsz : size (.tuple ((axes.map points).map Basis.fundamental)) = pointss axes := by
    show sizes _ = _
    rw [sizes_position, pointss_eq]
  refine ⟨⟨.tuple axes, .tuple axes, [(Basis.tuple axes).n * (Basis.tuple axes).n], flatten (Basis.tuple axes).n (C H.entry)⟩, ?_, rfl, rfl,
    fun i hi j hj => ?_⟩
  · rw [convertOperator, h0, h1, hC, Option.map_some]
  · show flatten (Basis.tuple axes).n (C H.entry) (i * (Basis.tuple axes).n + j) = _
    rw [flatten_entry _ _ (by rw [hn]; exact hj), h _ i hi j hj, hsz]
    refine sum_congr rfl fun x hx => sum_congr rfl fun y hy => ?_
    have hx' := mem_range.1 hx
    have hy' := mem_range.1 hy
    rw [unit_kernel kg hi (by rw [hsz]; exact hx'), unit_kernel kg hj (by rw [hsz]; exact hy'), overlap_position axes (by rw [← pointss_eq]; exact hx'),
      overlap_position axes (by rw [← pointss_eq]; exact hy'), Complex.conj_conj]
    rfl

theorem map_points_position (ns : List ℕ) : (ns.map Basis.fundamental).map points = ns := by
  induction ns with
  | nil => rfl
  | cons n ns ih => rw [List.map_cons, List.map_cons, ih]; rfl

/-- The total hamiltonian on the grid. -/
theorem position_entries {d : ℕ} (same : Basis → Basis → Bool) (hs : Sound same) (hbar : ℝ) (A : Matrix (Fin d) (Fin d) ℝ) (ns : List ℕ)
    (V : ℕ → ℂ) (mass : ℝ) (fraction : Option (Fin d → ℝ)) :
    ∃ H, totalHamiltonian same hbar A (ns.map Basis.fundamental) V mass fraction = some H ∧ H.b0 = .tuple (ns.map Basis.fundamental) ∧
      H.b1 = .tuple (ns.map Basis.fundamental) ∧ ∀ x < ns.prod, ∀ y < ns.prod, H.entry x y =
        (∑ k ∈ range ns.prod, states (ns.map Basis.fundamentalTransformed) k x *
          (hamiltonianFromMass hbar A (ns.map Basis.fundamental) mass fraction).data k *
          (starRingEnd ℂ) (states (ns.map Basis.fundamentalTransformed) k y)) + if x = y then V x else 0 := by
  obtain ⟨H, hH, h0, h1, he⟩ := total_entries same hs hbar A (ns.map Basis.fundamental) (valids_position ns) (orthonormal_position ns) V mass fraction
  refine ⟨H, hH, h0, h1, fun x hx y hy => ?_⟩
  rw [sizes_position, pointss_position, map_points_position] at he
  rw [he x hx y hy]
  have hov : ∀ k, ∀ z < ns.prod, overlapKernel (.tuple (ns.map Basis.fundamentalTransformed)) (.tuple (ns.map Basis.fundamental)) z k =
      states (ns.map Basis.fundamentalTransformed) k z := by
    intro k z hz
    unfold overlapKernel
    rw [show points (.tuple (ns.map Basis.fundamentalTransformed)) = ns.prod from pointss_momentum ns, sum_eq_single z]
    · show (starRingEnd ℂ) (states _ z z) * states _ k z = _
      rw [states_position ns z z hz hz, if_pos rfl, map_one, one_mul]
    · intro w hw hwz
      show (starRingEnd ℂ) (states _ z w) * states _ k w = _
      rw [states_position ns z w hz (mem_range.1 hw), if_neg hwz, map_zero, zero_mul]
    · intro h; exact absurd (mem_range.2 hz) h
  congr 1
  · exact sum_congr rfl fun k _ => by rw [hov k x hx, hov k y hy]
  · have hex : ∀ z < ns.prod, expand (.tuple (ns.map Basis.fundamental)) V z = V z := by
      intro z hz
      unfold expand
      rw [show size (.tuple (ns.map Basis.fundamental)) = ns.prod from sizes_position ns, sum_eq_single z]
      · show _ * states _ z z = _
        rw [states_position ns z z hz hz, if_pos rfl, mul_one]
      · intro w hw hwz
        show _ * states _ w z = _
        rw [states_position ns w z (mem_range.1 hw) hz, if_neg (Ne.symm hwz), mul_zero]
      · intro h; exact absurd (mem_range.2 hz) h
    rw [sum_eq_single x]
    · show (starRingEnd ℂ) (states _ x x) * _ * states _ y x = _
      rw [states_position ns x x hx hx, states_position ns y x hy hx, if_pos rfl, map_one, one_mul, hex x hx]
      split_ifs <;> simp
    · intro w hw hwx
      show (starRingEnd ℂ) (states _ x w) * _ * states _ y w = _
      rw [states_position ns x w hx (mem_range.1 hw), if_neg hwx, map_zero, zero_mul, zero_mul]
    · intro h; exact absurd (mem_range.2 hx) h

/-- The elements of the grid hamiltonian between two grid functions. -/
theorem elements_split (N : ℕ) (s t : ℕ → ℂ) (p : ℕ → ℕ → ℂ) (D V : ℕ → ℂ) :
    ∑ x ∈ range N, ∑ y ∈ range N, (starRingEnd ℂ) (s x) * ((∑ k ∈ range N, p k x * D k * (starRingEnd ℂ) (p k y)) + if x = y then V x else 0) * t y =
      (∑ k ∈ range N, D k * ((starRingEnd ℂ) (∑ x ∈ range N, (starRingEnd ℂ) (p k x) * s x) * ∑ y ∈ range N, (starRingEnd ℂ) (p k y) * t y)) +
        ∑ x ∈ range N, (starRingEnd ℂ) (s x) * V x * t x := by
  simp only [mul_add, add_mul, sum_add_distrib]
  congr 1
  · simp only [map_sum, map_mul, Complex.conj_conj, mul_sum, sum_mul]
    rw [sum_congr rfl fun x _ => sum_comm, sum_comm]
    refine sum_congr rfl fun k _ => ?_
    rw [sum_comm]
    refine sum_congr rfl fun y _ => sum_congr rfl fun x _ => ?_
    ring
  · refine sum_congr rfl fun x hx => ?_
    rw [sum_eq_single x]
    · rw [if_pos rfl]
    · intro y _ hyx
      rw [if_neg (Ne.symm hyx), mul_zero, zero_mul]
    · intro h; exact absurd hx h

theorem planeWave_component {n r k j : ℕ} (hr : r ≤ n) (hk : k < n) (hj : j < r) :
    ∑ x ∈ range n, (starRingEnd ℂ) (planeWave n k x) * planeWave n (freq r j) x = if k = slot n (freq r j) then 1 else 0 := by
  have hg := onGrid_mono hr (freq_onGrid hj)
  have hc : ∀ x, planeWave n (freq r j) x = planeWave n (slot n (freq r j) : ℕ) x := by
    intro x
    refine planeWave_congr (by omega) ?_ x
    have := Int.ModEq.dvd (freq_emod (n := n) (j := slot n (freq r j)))
    rw [freq_slot hg] at this
    rw [← dvd_neg, neg_sub]
    exact this
  simp only [hc]
  exact planeWave_inner' hk (slot_lt hg)

/-- The momentum components of the states of the basis. -/
theorem components_three (n0 n1 nz r0 r1 r2 : ℕ) (hr0 : r0 ≤ n0) (hr1 : r1 ≤ n1) (e : ℕ → ℕ → ℂ) {j : ℕ} (hj : j < r0 * r1 * r2)
    {k0 k1 kz : ℕ} (hk0 : k0 < n0) (hk1 : k1 < n1) (hkz : kz < nz) :
    ∑ x ∈ range (n0 * n1 * nz), (starRingEnd ℂ) (states ([n0, n1, nz].map Basis.fundamentalTransformed) ((k0 * n1 + k1) * nz + kz) x) *
      states [.transformed r0 n0, .transformed r1 n1, .explicit r2 e (.fundamental nz)] j x =
    (if k0 = slot n0 (freq r0 (j / r2 / r1)) then 1 else 0) * ((if k1 = slot n1 (freq r1 (j / r2 % r1)) then 1 else 0) *
      ∑ z ∈ range nz, (starRingEnd ℂ) (planeWave nz kz z) * e (j % r2) z) := by
  have h2 : 0 < r2 := Nat.pos_of_ne_zero fun h => by rw [h, mul_zero] at hj; omega
  have h1 : 0 < r1 := Nat.pos_of_ne_zero fun h => by rw [h, mul_zero, zero_mul] at hj; omega
  have hj0 : j / r2 / r1 < r0 := Nat.div_lt_of_lt_mul (by
    have : j / r2 < r0 * r1 := Nat.div_lt_of_lt_mul (by rwa [mul_comm])
    rwa [mul_comm])
  rw [sum_three, ← planeWave_component hr0 hk0 hj0, ← planeWave_component hr1 hk1 (Nat.mod_lt (j / r2) h1), sum_mul]
  refine sum_congr rfl fun x0 _ => ?_
  rw [sum_mul, mul_sum]
  refine sum_congr rfl fun x1 hx1 => ?_
  rw [mul_sum, mul_sum]
  refine sum_congr rfl fun z hz => ?_
  obtain ⟨d0, d1, d2⟩ := three_digits (x0 := x0) (mem_range.1 hx1) (mem_range.1 hz)
  obtain ⟨c0, c1, c2⟩ := three_digits (x0 := k0) hk1 hkz
  show (starRingEnd ℂ) (states [.fundamentalTransformed n0, .fundamentalTransformed n1, .fundamentalTransformed nz] _ _) * _ = _
  rw [states_three, states_three]
  have hs : size (.explicit r2 e (.fundamental nz)) = r2 := rfl
  have hp : points (.explicit r2 e (.fundamental nz)) = nz := rfl
  have hs1 : size (.transformed r1 n1) = r1 := rfl
  have hp1 : points (.transformed r1 n1) = n1 := rfl
  have ht : ∀ n, size (.fundamentalTransformed n) = n := fun _ => rfl
  have ht' : ∀ n, points (.fundamentalTransformed n) = n := fun _ => rfl
  rw [hs, hp, hs1, hp1, ht, ht, ht', ht', d0, d1, d2, c0, c1, c2, state_explicit _ _ _ (mem_range.1 hz)]
  show (starRingEnd ℂ) (planeWave n0 _ _ * (planeWave n1 _ _ * planeWave nz _ _)) * (planeWave n0 _ _ * (planeWave n1 _ _ * _)) = _
  rw [map_mul, map_mul]
  ring

/-- The kinetic energy is the sum of the one in the surface and the one normal to it. -/
theorem kinetic_split (hbar : ℝ) (hh : hbar ≠ 0) (A : Matrix (Fin 3) (Fin 3) ℝ) (hA : IsUnit A.det) (h02 : A 0 2 = 0) (h12 : A 1 2 = 0)
    (h20 : A 2 0 = 0) (h21 : A 2 1 = 0) (mass : ℝ) (hm : 0 < mass) (φ : Fin 3 → ℝ) (axes axes' axes'' : List Basis) {n0 n1 nz r0 r1 : ℕ}
    (ha : axes.map points = [n0, n1, nz]) (ha' : axes'.map points = [r0, r1]) (ha'' : axes''.map points = [nz])
    {k0 k1 kz a0 a1 : ℕ} (hk0 : k0 < n0) (hk1 : k1 < n1) (hkz : kz < nz) (ha0 : a0 < r0) (ha1 : a1 < r1)
    (e0 : freq n0 k0 = freq r0 a0) (e1 : freq n1 k1 = freq r1 a1) :
    (hamiltonianFromMass hbar A axes mass (some φ)).data ((k0 * n1 + k1) * nz + kz) =
      (hamiltonianFromMass hbar !![A 0 0, A 0 1; A 1 0, A 1 1] axes' mass (some fun i : Fin 2 => φ i.castSucc)).data (a0 * r1 + a1) +
      (hamiltonianFromMass hbar !![A 2 2] axes'' mass (some fun _ => φ 2)).data kz := by
  have hdet : A.det = (!![A 0 0, A 0 1; A 1 0, A 1 1] : Matrix (Fin 2) (Fin 2) ℝ).det * A 2 2 := by
    rw [det_fin_three, det_fin_two_of, h02, h12, h20, h21]; ring
  rw [hdet, IsUnit.mul_iff] at hA
  have hA1 : IsUnit (!![A 2 2] : Matrix (Fin 1) (Fin 1) ℝ).det := by rw [det_fin_one_of]; exact hA.2
  have hA3 : IsUnit A.det := by rw [hdet]; exact hA.1.mul hA.2
  have hlen : ∀ {l : List Basis} {ns : List ℕ}, l.map points = ns → l.length = ns.length := by
    intro l ns h; rw [← h, List.length_map]
  obtain ⟨E3, hE3, hq3, -⟩ := C69_kinetic hbar hh A hA3 axes (hlen ha) mass hm (some φ) φ (.inl rfl) [k0, k1, kz]
    (by rw [ha]; exact ⟨hk0, hk1, hkz, trivial⟩)
  obtain ⟨E2, hE2, hq2, -⟩ := C69_kinetic hbar hh _ hA.1 axes' (hlen ha') mass hm (some fun i : Fin 2 => φ i.castSucc) _ (.inl rfl) [a0, a1]
    (by rw [ha']; exact ⟨ha0, ha1, trivial⟩)
  obtain ⟨E1, hE1, hq1, -⟩ := C69_kinetic hbar hh _ hA1 axes'' (hlen ha'') mass hm (some fun _ : Fin 1 => φ 2) _ (.inl rfl) [kz]
    (by rw [ha'']; exact ⟨hkz, trivial⟩)
  rw [ha] at hE3 hq3; rw [ha'] at hE2 hq2; rw [ha''] at hE1 hq1
  have i3 : ravel [n0, n1, nz] [k0, k1, kz] = (k0 * n1 + k1) * nz + kz := by simp [ravel]; ring
  have i2 : ravel [r0, r1] [a0, a1] = a0 * r1 + a1 := by simp [ravel]
  have i1 : ravel [nz] [kz] = kz := by simp [ravel]
  rw [i3] at hE3; rw [i2] at hE2; rw [i1] at hE1
  rw [hE3, hE2, hE1, ← Complex.ofReal_add]
  congr 1
  obtain ⟨q2, hq2e⟩ : ∃ q : Fin 2 → ℝ, !![A 0 0, A 0 1; A 1 0, A 1 1] *ᵥ q =
      fun i : Fin 2 => 2 * Real.pi * (freq ([r0, r1].getD i 0) ([a0, a1].getD i 0) + φ i.castSucc) :=
    ⟨_, mulVec_mulVec _ _ _ |>.trans (by rw [mul_nonsing_inv _ hA.1, one_mulVec])⟩
  obtain ⟨q1, hq1e⟩ : ∃ q : Fin 1 → ℝ, !![A 2 2] *ᵥ q = fun i : Fin 1 => 2 * Real.pi * (freq ([nz].getD i 0) ([kz].getD i 0) + φ 2) :=
    ⟨_, mulVec_mulVec _ _ _ |>.trans (by rw [mul_nonsing_inv _ hA1, one_mulVec])⟩
  have f2 := hq2 q2 fun i => by rw [dotProduct_comm]; exact congrFun hq2e i
  have f1 := hq1 q1 fun i => by rw [dotProduct_comm]; exact congrFun hq1e i
  have f3 := hq3 ![q2 0, q2 1, q1 0] fun i => by
    have b0 := congrFun hq2e 0
    have b1 := congrFun hq2e 1
    have b2 := congrFun hq1e 0
    simp only [mulVec, dotProduct, Fin.sum_univ_two, Fin.sum_univ_one, of_apply, cons_val', cons_val_zero, cons_val_one, Fin.isValue] at b0 b1 b2
    fin_cases i
    · simp only [dotProduct, Fin.sum_univ_three, Fin.isValue, cons_val_zero, cons_val_one, cons_val_two]
      simp [h02, e0] at b0 ⊢
      linarith
    · simp only [dotProduct, Fin.sum_univ_three, Fin.isValue, cons_val_zero, cons_val_one, cons_val_two]
      simp [h12, e1] at b1 ⊢
      linarith
    · simp only [dotProduct, Fin.sum_univ_three, Fin.isValue, cons_val_zero, cons_val_one, cons_val_two]
      simp [h20, h21] at b2 ⊢
      linarith
  rw [f1, f2, f3]
  simp only [dotProduct, Fin.sum_univ_two, Fin.sum_univ_one, Fin.sum_univ_three, cons_val_zero, cons_val_one, Fin.isValue]
  show hbar ^ 2 * (q2 0 * q2 0 + q2 1 * q2 1 + q1 0 * q1 0) / (2 * mass) = _
  ring

/-- The kinetic energies used for the plane of the surface. -/
theorem xy_entries (same : Basis → Basis → Bool) (hs : Sound same) (hbar : ℝ) (A : Matrix (Fin 2) (Fin 2) ℝ) (r0 r1 : ℕ) (mass : ℝ)
    (fraction : Option (Fin 2 → ℝ)) :
    ∃ K, hamiltonianFromMassInBasis same hbar A [.transformed r0 r0, .transformed r1 r1] mass fraction = some K ∧
      ∀ a < r0 * r1, K.entry a a = (hamiltonianFromMass hbar A [.transformed r0 r0, .transformed r1 r1] mass fraction).data a := by
  obtain ⟨axes, haxes⟩ : ∃ axes : List Basis, axes = [.transformed r0 r0, .transformed r1 r1] := ⟨_, rfl⟩
  rw [← haxes]
  have hv : Valids axes := by rw [haxes]; exact ⟨le_rfl, le_rfl, trivial⟩
  have ho : OrthonormalPartss axes := by rw [haxes]; exact ⟨trivial, trivial, trivial⟩
  have hpt : axes.map points = [r0, r1] := by rw [haxes]; rfl
  have hsz : sizes axes = r0 * r1 := by rw [haxes]; simp [sizes, size]
  obtain ⟨D, hD⟩ : ∃ D, D = hamiltonianFromMass hbar A axes mass fraction := ⟨_, rfl⟩
  have hmm : momentumAxes axes = [r0, r1].map Basis.fundamentalTransformed := by rw [← hpt]; exact momentumAxes_eq axes
  have hD0 : D.b0 = .tuple ([r0, r1].map Basis.fundamentalTransformed) := by rw [hD, ← hmm]; rfl
  have hD1 : D.b1 = .tuple ([r0, r1].map Basis.fundamentalTransformed) := by rw [hD, ← hmm]; rfl
  obtain ⟨K, hK, -, -, -, hKe⟩ := convert_diagonal same hs (.tuple ([r0, r1].map Basis.fundamentalTransformed)) (.tuple axes) (valids_momentum _) hv
    (orthonormal_momentum _) (by rw [← hpt]; exact momentum_compatibles axes) (asOperator D) hD0 hD1 D.data
    (fun i hi j hj => by
      show flatten D.b0.n (fun i j => if i = j then D.data i else 0) (i * D.b1.n + j) = _
      rw [hD0, hD1, flatten_entry _ _ (by rw [tuple_n]; exact hj)])
  refine ⟨K, by rw [hamiltonianFromMassInBasis, ← hD]; exact hK, fun a ha => ?_⟩
  rw [hKe a (by show a < sizes axes; rw [hsz]; exact ha) a (by show a < sizes axes; rw [hsz]; exact ha), ← hD]
  have hov : ∀ k < r0 * r1, overlapKernel (.tuple ([r0, r1].map Basis.fundamentalTransformed)) (.tuple axes) a k = if a = k then 1 else 0 := by
    intro k hk
    rw [← state_orthonormal (.tuple axes) hv ho a (by show a < sizes axes; rw [hsz]; exact ha) k (by show k < sizes axes; rw [hsz]; exact hk)]
    unfold overlapKernel
    have : points (.tuple axes) = points (.tuple ([r0, r1].map Basis.fundamentalTransformed)) := by
      show pointss axes = pointss _
      rw [pointss_momentum, pointss_eq, hpt]
    rw [this]
    refine sum_congr rfl fun x _ => ?_
    congr 1
    show states [.fundamentalTransformed r0, .fundamentalTransformed r1] k x = states axes k x
    rw [haxes]
    simp only [states, sizes, pointss, size, points, state, mul_one, Nat.div_one, Nat.mod_one]
    have hr1 : 0 < r1 := Nat.pos_of_ne_zero fun h => by rw [h, mul_zero] at hk; omega
    have hr0 : 0 < r0 := Nat.pos_of_ne_zero fun h => by rw [h, zero_mul] at hk; omega
    have hc : ∀ {n : ℕ} (_ : 0 < n) (k x : ℕ), planeWave n (freq n k) x = planeWave n k x := by
      intro n hn k x
      refine planeWave_congr hn ?_ x
      have := Int.ModEq.dvd (freq_emod (n := n) (j := k))
      rw [← dvd_neg, neg_sub]
      exact this
    rw [hc hr0, hc hr1]
  have hsm : size (.tuple ([r0, r1].map Basis.fundamentalTransformed)) = r0 * r1 := by
    show sizes _ = _
    rw [sizes_momentum]; simp
  rw [hsm, sum_eq_single a]
  · rw [hov a ha, if_pos rfl, map_one, one_mul, mul_one]
  · intro k hk hka
    rw [hov k (mem_range.1 hk), if_neg (Ne.symm hka), zero_mul, zero_mul]
  · intro h; exact absurd (mem_range.2 ha) h

theorem parseval {n : ℕ} (s t : ℕ → ℂ) : ∑ k ∈ range n, ((starRingEnd ℂ) (∑ x ∈ range n, (starRingEnd ℂ) (planeWave n k x) * s x) *
    ∑ y ∈ range n, (starRingEnd ℂ) (planeWave n k y) * t y) = ∑ x ∈ range n, (starRingEnd ℂ) (s x) * t x := by
  have h := elements_split n s t (fun k x => planeWave n k x) (fun _ => 1) fun _ => 0
  simp only [one_mul, mul_one, mul_zero, zero_mul, sum_const_zero, add_zero, ite_self] at h
  rw [← h]
  refine sum_congr rfl fun x hx => ?_
  have hu : ∀ y ∈ range n, ∑ k ∈ range n, planeWave n k x * (starRingEnd ℂ) (planeWave n k y) = if x = y then 1 else 0 := by
    intro y hy
    have := (planeWave_unitary n).2 y (mem_range.1 hy) x (mem_range.1 hx)
    simp only [eq_comm (a := x)]
    rw [← this]
    exact sum_congr rfl fun k _ => mul_comm _ _
  rw [sum_congr rfl fun y hy => by rw [hu y hy], sum_eq_single x]
  · rw [if_pos rfl, mul_one]
  · intro y _ hyx; rw [if_neg (Ne.symm hyx), mul_zero, zero_mul]
  · intro h; exact absurd hx h

/-- The kinetic energy normal to the surface between the eigenstates of the hamiltonian normal to it. -/
theorem normal_energy (same : Basis → Basis → Bool) (hs : Sound same) (hbar length : ℝ) (nz : ℕ) (Vz : ℕ → ℂ) (mass φ : ℝ) (Hz : Operator)
    (hHz : configHamiltonian same hbar length nz Vz mass (some φ) = some Hz) (r2 : ℕ) (r : EigResult)
    (hr : IsEigh nz r2 (matrix nz nz Hz.data) r.eigenvalues r.vectors) {i j : ℕ} (hi : i < r2) (hj : j < r2) :
    ∑ k ∈ range nz, (hamiltonianFromMass hbar !![length] [.fundamental nz] mass (some fun _ => φ)).data k *
      ((starRingEnd ℂ) (∑ z ∈ range nz, (starRingEnd ℂ) (planeWave nz k z) * r.vectors z i) *
        ∑ z ∈ range nz, (starRingEnd ℂ) (planeWave nz k z) * r.vectors z j) =
      (if i = j then r.eigenvalues j else 0) - ∑ z ∈ range nz, (starRingEnd ℂ) (r.vectors z i) * Vz z * r.vectors z j := by
  obtain ⟨H, hH, h0, h1, he⟩ := position_entries same hs hbar !![length] [nz] Vz mass (some fun _ => φ)
  have : H = Hz := by
    unfold configHamiltonian at hHz
    exact Option.some.inj (hH.symm.trans hHz)
  subst this
  simp only [List.prod_cons, List.prod_nil, mul_one] at he
  have hst : ∀ k z, states ([nz].map Basis.fundamentalTransformed) k z = planeWave nz k z := by
    intro k z
    simp [states, sizes, pointss, state]
  simp only [hst] at he
  have hb : H.b1.n = nz := by rw [h1, tuple_n, sizes_position]; simp
  have hm : ∀ x y : Fin nz, matrix nz nz H.data x y = H.entry x y := by
    intro x y
    show H.data (x * nz + y) = H.data (x * H.b1.n + y)
    rw [hb]
  rw [eq_sub_iff_add_eq]
  refine (elements_split nz (fun z => r.vectors z i) (fun z => r.vectors z j) (fun k x => planeWave nz k x) _ Vz).symm.trans ?_
  have heig : ∀ x ∈ range nz, ∑ y ∈ range nz, (starRingEnd ℂ) (r.vectors x i) *
      ((∑ k ∈ range nz, planeWave nz k x * (hamiltonianFromMass hbar !![length] [.fundamental nz] mass (some fun _ => φ)).data k *
        (starRingEnd ℂ) (planeWave nz k y)) + if x = y then Vz x else 0) * r.vectors y j =
      r.eigenvalues j * ((starRingEnd ℂ) (r.vectors x i) * r.vectors x j) := by
    intro x hx
    have h2 := hr.2.1 j hj ⟨x, mem_range.1 hx⟩
    simp only [hm] at h2
    rw [Fin.sum_univ_eq_sum_range (fun y => H.entry x y * r.vectors y j) nz] at h2
    rw [← mul_assoc, mul_comm (r.eigenvalues j), mul_assoc, ← h2, mul_sum]
    refine sum_congr rfl fun y hy => ?_
    rw [he x (mem_range.1 hx) y (mem_range.1 hy), mul_assoc]
    rfl
  rw [sum_congr rfl heig, ← mul_sum]
  have h3 := hr.2.2 i hi j hj
  rw [Fin.sum_univ_eq_sum_range (fun z => (starRingEnd ℂ) (r.vectors z i) * r.vectors z j) nz] at h3
  rw [h3, mul_ite, mul_one, mul_zero]

theorem utilVectors_explicit (r2 : ℕ) (e : ℕ → ℕ → ℂ) (nz : ℕ) {j : ℕ} (hj : j < r2) (z : ℕ) :
    utilVectors (.explicit r2 e (.fundamental nz)) j z = e j z := by
  show ∑ j' ∈ range r2, (if j' = j then (1 : ℂ) else 0) * e j' z = _
  simp only [ite_mul, one_mul, zero_mul]
  rw [sum_ite_eq', if_pos (mem_range.2 hj)]

/-- A function of the height only. -/
theorem height_elements (n0 n1 nz r0 r1 r2 : ℕ) (hr0 : r0 ≤ n0) (hr1 : r1 ≤ n1) (e : ℕ → ℕ → ℂ) (Vz : ℕ → ℂ) {i j : ℕ}
    (hi : i < r0 * r1 * r2) (hj : j < r0 * r1 * r2) :
    ∑ x ∈ range (n0 * n1 * nz), (starRingEnd ℂ) (states [.transformed r0 n0, .transformed r1 n1, .explicit r2 e (.fundamental nz)] i x) * Vz (x % nz) *
      states [.transformed r0 n0, .transformed r1 n1, .explicit r2 e (.fundamental nz)] j x =
    if i / r2 = j / r2 then ∑ z ∈ range nz, (starRingEnd ℂ) (e (i % r2) z) * Vz z * e (j % r2) z else 0 := by
  have h2 : 0 < r2 := Nat.pos_of_ne_zero fun h => by rw [h, mul_zero] at hj; omega
  have h1 : 0 < r1 := Nat.pos_of_ne_zero fun h => by rw [h, mul_zero, zero_mul] at hj; omega
  have hd : ∀ {j}, j < r0 * r1 * r2 → j / r2 / r1 < r0 := fun {j} hj => Nat.div_lt_of_lt_mul (by
    have : j / r2 < r0 * r1 := Nat.div_lt_of_lt_mul (by rwa [mul_comm])
    rwa [mul_comm])
  have hi0 := hd hi
  have hj0 := hd hj
  have hn0 : 0 < n0 := lt_of_lt_of_le (Nat.zero_lt_of_lt hi0) hr0
  have hn1 : 0 < n1 := lt_of_lt_of_le h1 hr1
  rw [grid_elements n0 n1 nz r0 r1 r2 e (fun x => Vz (x % nz))]
  have hdvd : ∀ {n r a b : ℕ}, r ≤ n → a < r → b < r → ((n : ℤ) ∣ freq r b - freq r a ↔ a = b) := by
    intro n r a b hr ha hb
    constructor
    · intro h
      have g1 := freq_onGrid ha
      have g2 := freq_onGrid hb
      unfold OnGrid at g1 g2
      have h5 := Int.eq_zero_of_abs_lt_dvd h (by rw [abs_lt]; omega)
      have h6 : freq r a = freq r b := by omega
      rw [← slot_freq ha, ← slot_freq hb, h6]
    · intro h; rw [h, sub_self]; exact dvd_zero _
  have hin : ∀ z < nz, (∑ x0 ∈ range n0, phase n0 ((freq r0 (j / r2 / r1) - freq r0 (i / r2 / r1)) * x0) *
      ((∑ x1 ∈ range n1, phase n1 ((freq r1 (j / r2 % r1) - freq r1 (i / r2 % r1)) * x1) * Vz (((x0 * n1 + x1) * nz + z) % nz)) / n1)) / n0 =
      if i / r2 = j / r2 then Vz z else 0 := by
    intro z hz
    have : ∀ x0 x1 : ℕ, ((x0 * n1 + x1) * nz + z) % nz = z := by
      intro x0 x1
      rw [mul_comm, Nat.mul_add_mod, Nat.mod_eq_of_lt hz]
    simp only [this, ← sum_mul]
    rw [sum_phase hn1, sum_phase hn0]
    simp only [hdvd hr0 hi0 hj0, hdvd hr1 (Nat.mod_lt (i / r2) h1) (Nat.mod_lt (j / r2) h1)]
    have e1 := Nat.div_add_mod' (i / r2) r1
    have e2 := Nat.div_add_mod' (j / r2) r1
    have hc0 : (n0 : ℂ) ≠ 0 := by exact_mod_cast hn0.ne'
    have hc1 : (n1 : ℂ) ≠ 0 := by exact_mod_cast hn1.ne'
    by_cases h : i / r2 = j / r2
    · rw [if_pos h, h, if_pos rfl, if_pos rfl]
      field_simp
    · rw [if_neg h]
      by_cases ha : i / r2 / r1 = j / r2 / r1
      · rw [if_neg (fun hb : i / r2 % r1 = j / r2 % r1 => h (by rw [← e1, ← e2, ha, hb]))]
        simp
      · rw [if_neg ha]; simp
  rw [sum_congr rfl fun z hz => by rw [hin z (mem_range.1 hz)]]
  split_ifs with h
  · exact sum_congr rfl fun z _ => by ring
  · simp

/-- **C94** (for real states normal to the surface): for a lattice with its third vector normal to the first two, the hamiltonian is the
one of the momentum basis builder for the same potential on the grid, converted to the new basis. It does not depend on the potential
`Vz` used for the states normal to the surface. The missing part is a Bloch fraction normal to the surface, which makes
these states complex; see `C92_elements_negation`. -/
theorem C94_converted_partial (same : Basis → Basis → Bool) (hs : Sound same) (hbar : ℝ) (hh : hbar ≠ 0) (A : Matrix (Fin 3) (Fin 3) ℝ)
    (hA : IsUnit A.det) (h02 : A 0 2 = 0) (h12 : A 1 2 = 0) (h20 : A 2 0 = 0) (h21 : A 2 1 = 0) (n0 n1 nz : ℕ) (V Vz : ℕ → ℂ) (mass : ℝ)
    (hm : 0 < mass) (φ : Fin 3 → ℝ) (r0 r1 r2 : ℕ) (hr0 : r0 ≤ n0) (hr1 : r1 ≤ n1) (hg0 : sizeGuard r0 n0 = true) (hg1 : sizeGuard r1 n1 = true)
    (Hz : Operator) (hHz : configHamiltonian same hbar (A 2 2) nz Vz mass (some (φ 2)) = some Hz) (r : EigResult)
    (hr : IsEigh nz r2 (matrix nz nz Hz.data) r.eigenvalues r.vectors) (hreal : ∀ j < r2, ∀ z < nz, (r.vectors z j).im = 0) :
    ∃ Hm O H, totalHamiltonian same hbar A ([n0, n1, nz].map Basis.fundamental) V mass (some φ) = some Hm ∧
      convertOperator same Hm (.tuple (explicitZAxes n0 n1 nz r0 r1 r2 r)) (.tuple (explicitZAxes n0 n1 nz r0 r1 r2 r)) = some O ∧
      explicitZHamiltonian same hbar A n0 n1 nz V Vz mass φ r0 r1 r2 r = some H ∧
      ∀ i < r0 * r1 * r2, ∀ j < r0 * r1 * r2, H.entry i j = O.entry i j := by
  obtain ⟨axes, haxes⟩ : ∃ axes, axes = explicitZAxes n0 n1 nz r0 r1 r2 r := ⟨_, rfl⟩
  have hv : Valids axes := by rw [haxes]; exact ⟨hr0, hr1, trivial, trivial⟩
  have hpt : axes.map points = [n0, n1, nz] := by rw [haxes]; rfl
  have hsz : sizes axes = r0 * r1 * r2 := by rw [haxes]; simp [explicitZAxes, sizes, size]; ring
  have hps : pointss axes = n0 * n1 * nz := by rw [haxes]; simp [explicitZAxes, pointss, points]; ring
  obtain ⟨Hm, hHm, m0, m1, hme⟩ := position_entries same hs hbar A [n0, n1, nz] V mass (some φ)
  obtain ⟨O, hO, -, -, hOe⟩ := convert_grid_operator same hs axes hv Hm (by rw [hpt]; exact m0) (by rw [hpt]; exact m1)
  obtain ⟨K, hK, hKe⟩ := xy_entries same hs hbar !![A 0 0, A 0 1; A 1 0, A 1 1] r0 r1 mass (some fun i : Fin 2 => φ i.castSucc)
  obtain ⟨Z, hZ⟩ : ∃ Z, Z = blochZHamiltonian n0 n1 nz V Vz r0 r1 r2 r := ⟨_, rfl⟩
  obtain ⟨res, hres, hrese⟩ := elementwise_self (· + ·) [r0 * r1 * r2 * (r0 * r1 * r2)]
    (flatten (r0 * r1 * r2) fun i j => if i = j then K.entry (i / r2) (i / r2) else 0) Z.data
  refine ⟨Hm, O, ⟨.tuple axes, .tuple axes, [r0 * r1 * r2 * (r0 * r1 * r2)], res⟩, hHm, by rw [← haxes]; exact hO, ?_, fun i hi j hj => ?_⟩
  · rw [explicitZHamiltonian, hg0, hg1, Bool.and_self, if_pos rfl, xyHamiltonian, hK, Option.map_some, Option.bind_some, addOperator]
    have : (blochZHamiltonian n0 n1 nz V Vz r0 r1 r2 r).shape = [r0 * r1 * r2 * (r0 * r1 * r2)] := rfl
    rw [this, ← hZ, hres, Option.map_some, haxes]
  · have h2 : 0 < r2 := Nat.pos_of_ne_zero fun h => by rw [h, mul_zero] at hj; omega
    have h1 : 0 < r1 := Nat.pos_of_ne_zero fun h => by rw [h, mul_zero, zero_mul] at hj; omega
    have hir : i / r2 < r0 * r1 := Nat.div_lt_of_lt_mul (by rwa [mul_comm])
    have hi0 : i / r2 / r1 < r0 := Nat.div_lt_of_lt_mul (by rwa [mul_comm])
    have hi1 : i / r2 % r1 < r1 := Nat.mod_lt _ h1
    have hjr : j / r2 < r0 * r1 := Nat.div_lt_of_lt_mul (by rwa [mul_comm])
    have hj0 : j / r2 / r1 < r0 := Nat.div_lt_of_lt_mul (by rwa [mul_comm])
    have hj1 : j / r2 % r1 < r1 := Nat.mod_lt _ h1
    have hi2 : i % r2 < r2 := Nat.mod_lt _ h2
    have hj2 : j % r2 < r2 := Nat.mod_lt _ h2
    -- the entry of the model
    have hH : Operator.entry ⟨.tuple axes, .tuple axes, [r0 * r1 * r2 * (r0 * r1 * r2)], res⟩ i j =
        (if i = j then K.entry (i / r2) (i / r2) else 0) + ((if i = j then r.eigenvalues (i % r2) else 0) +
          ∑ x ∈ range (n0 * n1 * nz), (starRingEnd ℂ) (states axes i x) * (V x - Vz (x % nz)) * states axes j x) := by
      show res (i * (Basis.tuple axes).n + j) = _
      rw [tuple_n, hsz, hrese _ (by simpa using add_mul_lt hi hj), flatten_entry _ _ hj, hZ]
      congr 1
      unfold blochZHamiltonian
      dsimp only
      rw [flatten_entry _ _ hj]
      congr 1
      rw [C92_elements_partial n0 n1 nz r0 r1 r2 hr0 hr1 V Vz _ (fun j hj z hz => by rw [utilVectors_explicit _ _ _ hj]; exact hreal j hj z hz) i j hi hj,
        haxes, explicitZAxes, grid_elements n0 n1 nz r0 r1 r2 _ (fun x => V x - Vz (x % nz)),
        grid_elements n0 n1 nz r0 r1 r2 _ (fun x => V x - Vz (x % nz))]
      refine sum_congr rfl fun z _ => ?_
      rw [utilVectors_explicit _ _ _ hi2, utilVectors_explicit _ _ _ hj2]
    rw [hH, hOe i (by rw [hsz]; exact hi) j (by rw [hsz]; exact hj), hps]
    -- the converted operator
    have hprod : [n0, n1, nz].prod = n0 * n1 * nz := by simp; ring
    rw [hprod] at hme
    rw [sum_congr rfl fun x hx => sum_congr rfl fun y hy => by rw [hme x (mem_range.1 hx) y (mem_range.1 hy)], elements_split]
    have hsub : ∑ x ∈ range (n0 * n1 * nz), (starRingEnd ℂ) (states axes i x) * (V x - Vz (x % nz)) * states axes j x =
        ∑ x ∈ range (n0 * n1 * nz), (starRingEnd ℂ) (states axes i x) * V x * states axes j x -
          ∑ x ∈ range (n0 * n1 * nz), (starRingEnd ℂ) (states axes i x) * Vz (x % nz) * states axes j x := by
      rw [← sum_sub_distrib]
      exact sum_congr rfl fun x _ => by ring
    rw [hsub]
    have hht := height_elements n0 n1 nz r0 r1 r2 hr0 hr1 (fun j z => r.vectors z j) Vz hi hj
    have haxes' : axes = [.transformed r0 n0, .transformed r1 n1, .explicit r2 (fun j z => r.vectors z j) (.fundamental nz)] := haxes
    rw [← haxes'] at hht
    rw [hht]
    -- the kinetic energy
    have hkin : ∑ k ∈ range (n0 * n1 * nz), (hamiltonianFromMass hbar A ([n0, n1, nz].map Basis.fundamental) mass (some φ)).data k *
        ((starRingEnd ℂ) (∑ x ∈ range (n0 * n1 * nz), (starRingEnd ℂ) (states ([n0, n1, nz].map Basis.fundamentalTransformed) k x) * states axes i x) *
          ∑ y ∈ range (n0 * n1 * nz), (starRingEnd ℂ) (states ([n0, n1, nz].map Basis.fundamentalTransformed) k y) * states axes j y) =
        if i / r2 = j / r2 then (if i % r2 = j % r2 then K.entry (i / r2) (i / r2) + r.eigenvalues (j % r2) else 0) -
          ∑ z ∈ range nz, (starRingEnd ℂ) (r.vectors z (i % r2)) * Vz z * r.vectors z (j % r2) else 0 := by
      rw [sum_three]
      have hterm : ∀ k0 ∈ range n0, ∀ k1 ∈ range n1, ∀ kz ∈ range nz,
          (hamiltonianFromMass hbar A ([n0, n1, nz].map Basis.fundamental) mass (some φ)).data ((k0 * n1 + k1) * nz + kz) *
          ((starRingEnd ℂ) (∑ x ∈ range (n0 * n1 * nz), (starRingEnd ℂ) (states ([n0, n1, nz].map Basis.fundamentalTransformed) ((k0 * n1 + k1) * nz + kz) x) *
            states axes i x) *
          ∑ y ∈ range (n0 * n1 * nz), (starRingEnd ℂ) (states ([n0, n1, nz].map Basis.fundamentalTransformed) ((k0 * n1 + k1) * nz + kz) y) * states axes j y) =
          if k0 = slot n0 (freq r0 (i / r2 / r1)) ∧ k1 = slot n1 (freq r1 (i / r2 % r1)) ∧ i / r2 = j / r2 then
            (K.entry (i / r2) (i / r2) + (hamiltonianFromMass hbar !![A 2 2] [.fundamental nz] mass (some fun _ => φ 2)).data kz) *
            ((starRingEnd ℂ) (∑ z ∈ range nz, (starRingEnd ℂ) (planeWave nz kz z) * r.vectors z (i % r2)) *
              ∑ z ∈ range nz, (starRingEnd ℂ) (planeWave nz kz z) * r.vectors z (j % r2)) else 0 := by
        intro k0 hk0 k1 hk1 kz hkz
        rw [haxes', components_three n0 n1 nz r0 r1 r2 hr0 hr1 _ hi (mem_range.1 hk0) (mem_range.1 hk1) (mem_range.1 hkz),
          components_three n0 n1 nz r0 r1 r2 hr0 hr1 _ hj (mem_range.1 hk0) (mem_range.1 hk1) (mem_range.1 hkz)]
        have g0 := onGrid_mono hr0 (freq_onGrid hi0)
        have g1 := onGrid_mono hr1 (freq_onGrid hi1)
        by_cases c0 : k0 = slot n0 (freq r0 (i / r2 / r1))
        · by_cases c1 : k1 = slot n1 (freq r1 (i / r2 % r1))
          · by_cases c2 : i / r2 = j / r2
            · have hc : k0 = slot n0 (freq r0 (i / r2 / r1)) ∧ k1 = slot n1 (freq r1 (i / r2 % r1)) ∧ i / r2 = j / r2 := ⟨c0, c1, c2⟩
              rw [if_pos hc, ← c2, if_pos c0, if_pos c1]
              have hks := kinetic_split hbar hh A hA h02 h12 h20 h21 mass hm φ ([n0, n1, nz].map Basis.fundamental)
                [.transformed r0 r0, .transformed r1 r1] [.fundamental nz] (map_points_position _) rfl rfl (mem_range.1 hk0) (mem_range.1 hk1) (mem_range.1 hkz)
                hi0 hi1 (by rw [c0]; exact freq_slot g0) (by rw [c1]; exact freq_slot g1)
              rw [hks, show points (Basis.transformed r1 r1) = r1 from rfl, Nat.div_add_mod' (i / r2) r1, hKe (i / r2) hir]
              simp only [one_mul]
            · rw [if_neg (fun h : k0 = slot n0 (freq r0 (i / r2 / r1)) ∧ k1 = slot n1 (freq r1 (i / r2 % r1)) ∧ i / r2 = j / r2 => c2 h.2.2)]
              have hne : ¬ (k0 = slot n0 (freq r0 (j / r2 / r1)) ∧ k1 = slot n1 (freq r1 (j / r2 % r1))) := by
                rintro ⟨d0, d1⟩
                have q0 := slot_inj g0 (onGrid_mono hr0 (freq_onGrid hj0)) (c0.symm.trans d0)
                have q1 := slot_inj g1 (onGrid_mono hr1 (freq_onGrid hj1)) (c1.symm.trans d1)
                have w0 : i / r2 / r1 = j / r2 / r1 := by rw [← slot_freq hi0, q0, slot_freq hj0]
                have w1 : i / r2 % r1 = j / r2 % r1 := by rw [← slot_freq hi1, q1, slot_freq hj1]
                exact c2 (by rw [← Nat.div_add_mod' (i / r2) r1, w0, w1, Nat.div_add_mod'])
              by_cases d0 : k0 = slot n0 (freq r0 (j / r2 / r1))
              · rw [if_neg (fun d1 : k1 = slot n1 (freq r1 (j / r2 % r1)) => hne ⟨d0, d1⟩)]; simp
              · rw [if_neg d0]; simp
          · rw [if_neg (fun h : k0 = slot n0 (freq r0 (i / r2 / r1)) ∧ k1 = slot n1 (freq r1 (i / r2 % r1)) ∧ i / r2 = j / r2 => c1 h.2.1), if_neg c1]; simp
        · rw [if_neg (fun h : k0 = slot n0 (freq r0 (i / r2 / r1)) ∧ k1 = slot n1 (freq r1 (i / r2 % r1)) ∧ i / r2 = j / r2 => c0 h.1), if_neg c0]; simp
      rw [sum_congr rfl fun k0 hk0 => sum_congr rfl fun k1 hk1 => sum_congr rfl fun kz hkz => hterm k0 hk0 k1 hk1 kz hkz]
      by_cases c2 : i / r2 = j / r2
      · rw [if_pos c2, sum_eq_single (slot n0 (freq r0 (i / r2 / r1))), sum_eq_single (slot n1 (freq r1 (i / r2 % r1)))]
        · simp only [c2, and_self, if_true]
          simp only [add_mul, sum_add_distrib]
          rw [← mul_sum, parseval, normal_energy same hs hbar (A 2 2) nz Vz mass (φ 2) Hz hHz r2 r hr hi2 hj2]
          have h3 := hr.2.2 (i % r2) hi2 (j % r2) hj2
          rw [Fin.sum_univ_eq_sum_range (fun z => (starRingEnd ℂ) (r.vectors z (i % r2)) * r.vectors z (j % r2)) nz] at h3
          rw [h3]
          split_ifs <;> ring
        · intro k1 _ hk1
          exact sum_eq_zero fun kz _ => if_neg fun h => hk1 h.2.1
        · intro h; exact absurd (mem_range.2 (slot_lt (onGrid_mono hr1 (freq_onGrid hi1)))) h
        · intro k0 _ hk0
          exact sum_eq_zero fun k1 _ => sum_eq_zero fun kz _ => if_neg fun h => hk0 h.1
        · intro h; exact absurd (mem_range.2 (slot_lt (onGrid_mono hr0 (freq_onGrid hi0)))) h
      · rw [if_neg c2]
        exact sum_eq_zero fun k0 _ => sum_eq_zero fun k1 _ => sum_eq_zero fun kz _ => if_neg fun h => c2 h.2.2
    rw [hkin]
    have hdm : i = j ↔ i / r2 = j / r2 ∧ i % r2 = j % r2 := by
      constructor
      · intro h; rw [h]; exact ⟨rfl, rfl⟩
      · rintro ⟨a, b⟩; rw [← Nat.div_add_mod' i r2, ← Nat.div_add_mod' j r2, a, b]
    by_cases c2 : i / r2 = j / r2
    · by_cases c3 : i % r2 = j % r2
      · rw [if_pos (hdm.2 ⟨c2, c3⟩), if_pos (hdm.2 ⟨c2, c3⟩), if_pos c2, if_pos c2, if_pos c3, c3]; ring
      · rw [if_neg (fun h => c3 (hdm.1 h).2), if_neg (fun h => c3 (hdm.1 h).2), if_pos c2, if_pos c2, if_neg c3]; ring
    · rw [if_neg (fun h => c2 (hdm.1 h).1), if_neg (fun h => c2 (hdm.1 h).1), if_neg c2, if_neg c2]; ring

theorem freq_reflect {n k : ℕ} (hk : k < n) : freq n ((n - k) % n) ^ 2 = freq n k ^ 2 := by
  rcases Nat.eq_zero_or_pos k with rfl | h
  · simp
  · rw [Nat.mod_eq_of_lt (by omega)]
    have : freq n (n - k) = -freq n k ∨ freq n (n - k) = freq n k := by
      unfold freq; split_ifs <;> omega
    rcases this with h | h <;> rw [h]
    ring

theorem planeWave_reflect {n k : ℕ} (hk : k < n) (x : ℕ) : planeWave n ((n - k) % n : ℕ) x = (starRingEnd ℂ) (planeWave n k x) := by
  rw [planeWave_eq, planeWave_eq, map_mul, ortho_scale_conj, phase_conj]
  congr 1
  refine phase_congr (by omega) ?_
  have h1 : ((n : ℤ)) ∣ (((n - k) % n : ℕ) : ℤ) + k := by
    rcases Nat.eq_zero_or_pos k with rfl | h
    · simp
    · rw [Nat.mod_eq_of_lt (by omega)]; exact ⟨1, by omega⟩
  have : (((n - k) % n : ℕ) : ℤ) * x - -(k * x) = ((((n - k) % n : ℕ) : ℤ) + k) * x := by ring
  rw [this]
  exact Dvd.dvd.mul_right h1 _

/-- Without a Bloch fraction normal to the surface the hamiltonian normal to it is real and symmetric, so that all of its eigenstates can be
chosen real: the hypotheses of `C94_converted_partial` can be met for every number of states and every real potential. -/
theorem C94_real_states (same : Basis → Basis → Bool) (hs : Sound same) (hbar : ℝ) (hh : hbar ≠ 0) (length : ℝ) (hl : length ≠ 0) (nz : ℕ)
    (Vz : ℕ → ℂ) (hV : ∀ z < nz, (Vz z).im = 0) (mass : ℝ) (hm : 0 < mass) :
    ∃ Hz, configHamiltonian same hbar length nz Vz mass (some 0) = some Hz ∧
      (∀ x < nz, ∀ y < nz, (Hz.entry x y).im = 0 ∧ Hz.entry x y = Hz.entry y x) ∧
      ∃ r : EigResult, IsEigh nz nz (matrix nz nz Hz.data) r.eigenvalues r.vectors ∧ ∀ j < nz, ∀ z < nz, (r.vectors z j).im = 0 := by
  obtain ⟨H, hH, h0, h1, he⟩ := position_entries same hs hbar !![length] [nz] Vz mass (some fun _ => (0 : ℝ))
  simp only [List.prod_cons, List.prod_nil, mul_one] at he
  have hst : ∀ k z, states ([nz].map Basis.fundamentalTransformed) k z = planeWave nz k z := by
    intro k z
    simp [states, sizes, pointss, state]
  simp only [hst] at he
  have hb : H.b1.n = nz := by rw [h1, tuple_n, sizes_position]; simp
  have hD : ∀ k < nz, (hamiltonianFromMass hbar !![length] ([nz].map Basis.fundamental) mass (some fun _ => (0 : ℝ))).data k =
      ((hbar ^ 2 * ((2 * Real.pi / length) ^ 2 * ((freq nz k ^ 2 : ℤ) : ℝ)) / (2 * mass) : ℝ) : ℂ) := by
    intro k hk
    obtain ⟨E, hE, hq, -⟩ := C69_kinetic hbar hh !![length] (by simpa using hl) ([nz].map Basis.fundamental) rfl mass hm (some fun _ => (0 : ℝ)) _
      (Or.inl rfl) [k] ⟨hk, trivial⟩
    have hr : ravel (([nz].map Basis.fundamental).map points) [k] = k := by simp [ravel, points]
    rw [hr] at hE
    rw [hE, hq (fun _ => 2 * Real.pi * freq nz k / length)]
    · simp only [dotProduct, Fin.sum_univ_one]
      push_cast; ring
    · intro i
      fin_cases i
      simp [dotProduct, points]
      field_simp
  have hsum : ∀ x y, (starRingEnd ℂ) (∑ k ∈ range nz, planeWave nz k x *
      (hamiltonianFromMass hbar !![length] ([nz].map Basis.fundamental) mass (some fun _ => (0 : ℝ))).data k * (starRingEnd ℂ) (planeWave nz k y)) =
      ∑ k ∈ range nz, planeWave nz k x *
      (hamiltonianFromMass hbar !![length] ([nz].map Basis.fundamental) mass (some fun _ => (0 : ℝ))).data k * (starRingEnd ℂ) (planeWave nz k y) := by
    intro x y
    rw [map_sum]
    have hinv : ∀ k < nz, (nz - (nz - k) % nz) % nz = k := by
      intro k hk
      rcases Nat.eq_zero_or_pos k with rfl | h
      · simp
      · rw [Nat.mod_eq_of_lt (show nz - k < nz by omega), Nat.sub_sub_self hk.le, Nat.mod_eq_of_lt hk]
    refine sum_nbij' (fun k => (nz - k) % nz) (fun k => (nz - k) % nz) ?_ ?_ ?_ ?_ ?_
    · intro k hk; exact mem_range.2 (Nat.mod_lt _ (by have := mem_range.1 hk; omega))
    · intro k hk; exact mem_range.2 (Nat.mod_lt _ (by have := mem_range.1 hk; omega))
    · intro k hk; exact hinv k (mem_range.1 hk)
    · intro k hk; exact hinv k (mem_range.1 hk)
    · intro k hk
      have hk' := mem_range.1 hk
      rw [hD k hk', hD _ (Nat.mod_lt _ (by omega)), freq_reflect hk', planeWave_reflect hk', planeWave_reflect hk', map_mul, map_mul, Complex.conj_ofReal]
  have hre : ∀ x < nz, ∀ y < nz, (H.entry x y).im = 0 := by
    intro x hx y hy
    rw [he x hx y hy, Complex.add_im, Complex.conj_eq_iff_im.1 (hsum x y), zero_add]
    split_ifs
    · exact hV x hx
    · rfl
  have hsym : ∀ x < nz, ∀ y < nz, H.entry x y = H.entry y x := by
    intro x hx y hy
    rw [he x hx y hy, he y hy x hx, ← hsum x y, map_sum]
    congr 1
    · refine sum_congr rfl fun k hk => ?_
      rw [hD k (mem_range.1 hk), map_mul, map_mul, Complex.conj_conj, Complex.conj_ofReal]; ring
    · simp only [eq_comm (a := x)]
      split_ifs with h
      · rw [h]
      · rfl
  refine ⟨H, hH, fun x hx y hy => ⟨hre x hx y hy, hsym x hx y hy⟩, ?_⟩
  have hR : Matrix.IsHermitian (Matrix.of fun x y : Fin nz => (H.entry x y).re) := by
    ext x y
    simp only [conjTranspose_apply, of_apply, star_trivial]
    rw [hsym y y.2 x x.2]
  refine ⟨⟨fun j => if h : j < nz then (hR.eigenvalues ⟨j, h⟩ : ℂ) else 0,
    fun i j => if h : i < nz ∧ j < nz then ((hR.eigenvectorBasis ⟨j, h.2⟩ ⟨i, h.1⟩ : ℝ) : ℂ) else 0⟩, ⟨?_, ?_, ?_⟩, ?_⟩
  · intro j hj
    simp [hj]
  · intro j hj i
    have := congrFun (hR.mulVec_eigenvectorBasis ⟨j, hj⟩) i
    simp only [mulVec, dotProduct, of_apply, Pi.smul_apply, smul_eq_mul] at this
    simp only [hj, i.2, and_self, dif_pos, Fin.is_lt, Fin.eta]
    rw [← Complex.ofReal_mul, ← this, Complex.ofReal_sum]
    refine sum_congr rfl fun k _ => ?_
    rw [Complex.ofReal_mul]
    congr 1
    show H.data (i * nz + k) = _
    have : H.data (i * nz + k) = H.entry i k := by show _ = H.data (i * H.b1.n + k); rw [hb]
    rw [this]
    exact Complex.ext rfl (hre i i.2 k k.2)
  · intro j hj j' hj'
    have := orthonormal_iff_ite.1 hR.eigenvectorBasis.orthonormal ⟨j, hj⟩ ⟨j', hj'⟩
    simp only [hj, hj', and_self, dif_pos, Fin.is_lt, Fin.eta, Complex.conj_ofReal]
    simp only [PiLp.inner_apply, RCLike.inner_apply, Fin.mk.injEq, conj_trivial] at this
    have h2 := congrArg (fun x : ℝ => (x : ℂ)) this
    simp only [Complex.ofReal_sum, Complex.ofReal_mul] at h2
    rw [show ((if j = j' then (1:ℝ) else 0 : ℝ) : ℂ) = if j = j' then 1 else 0 by split_ifs <;> simp] at h2
    rw [← h2]
    exact sum_congr rfl fun k _ => mul_comm _ _
  · intro j hj z hz
    simp [hj, hz]

/-- For every real potential a hamiltonian is built, with the states normal to the surface of the previous theorem. -/
example (V Vz : ℕ → ℂ) (hV : ∀ z < 8, (Vz z).im = 0) (φ0 φ1 : ℝ) : ∃ r H, explicitZHamiltonian (fun _ _ => false) 1 !![1, 0, 0; 1, 2, 0; 0, 0, 3] 8 8 8 V Vz 1
    ![φ0, φ1, 0] 3 3 5 r = some H := by
  obtain ⟨Hz, hHz, -, r, hr, hre⟩ := C94_real_states (fun _ _ => false) (fun _ _ h => by cases h) 1 one_ne_zero 3 (by norm_num) 8 Vz hV 1 one_pos
  obtain ⟨Hm, O, H, -, -, hH, -⟩ := C94_converted_partial (fun _ _ => false) (fun _ _ h => by cases h) 1 one_ne_zero !![1, 0, 0; 1, 2, 0; 0, 0, 3]
    (by simp [det_fin_three]) rfl rfl rfl rfl 8 8 8 V Vz 1 one_pos ![φ0, φ1, 0] 3 3 5 (by norm_num) (by norm_num)
    (by decide) (by decide) Hz hHz r ⟨fun j hj => hr.1 j (by omega), fun j hj => hr.2.1 j (by omega), fun j hj j' hj' => hr.2.2 j (by omega) j' (by omega)⟩
    (fun j hj z hz => hre j (by omega) z hz)
  exact ⟨r, H, hH⟩

end Verif
