import Verif.Props.C110_BlochTheorem
import Verif.Props.C53_TightBinding

/-!
# C111: The hamiltonian in the Bloch basis
-/

set_option autoImplicit false

namespace Verif

open Finset Spec Matrix

variable {d : ℕ}

/-- Converting to the same basis keeps the vectors. -/
theorem convert_identity (same : Basis → Basis → Bool) (hs : Sound same) (b : Basis) (hv : Valid b) (ho : OrthonormalParts b) :
    ∃ f, Basis.convert same b b = some f ∧ ∀ v, ∀ j < size b, f v j = v j := by
  obtain ⟨f, hf, kf⟩ := C10_route same hs b b hv hv ho (compatible_refl b)
  exact ⟨f, hf, fun v j hj => (kf v j hj).trans (dot_state_expand (state_orthonormal b hv ho) v hj)⟩

/-- **C111.** The Bloch basis of wavepackets whose samples are already the momenta holds the given states. -/
theorem C111_basis (same : Basis → Basis → Bool) (hs : Sound same) (w : WavepacketList) (ns : List ℕ) (hl : w.list = fT ns)
    (hband : Valid w.band) (hbando : OrthonormalParts w.band) (hv : Valid w.basis) (ho : OrthonormalParts w.basis) (e : ℕ → ℂ) :
    ∃ B, getBlochBasis same w = some B ∧ getFullBlochHamiltonian same w e = some (B, e) ∧
      B.bands = size w.band ∧ B.samples = ns ∧ B.basis = w.basis ∧
      ∀ k < size w.band * ns.prod * size w.basis, B.data k = w.data k := by
  have hL : w.list.asTransformedBasis = fT ns := by rw [hl, Basis.asTransformedBasis, fundamentalShape_fT]
  obtain ⟨f, hf, kf⟩ := convert_identity same hs (.tuple [w.band, fT ns]) ⟨hband, valids_fT _, trivial⟩ ⟨hbando, orthonormalPartss_fT _, trivial⟩
  obtain ⟨g, hg, kg⟩ := convert_identity same hs w.basis hv ho
  have h1 : getBlochBasis same w = some ⟨w.band.n, ns, w.basis, flatten w.basis.n fun i => g fun k => f (fun l => w.data (l * w.basis.n + k)) i⟩ := by
    unfold getBlochBasis convertWavepacket WavepacketList.states
    dsimp only
    rw [hL, hl, hf, Option.bind_some, hg, Option.map_some, Option.map_some, fundamentalShape_fT]
  refine ⟨_, h1, by rw [getFullBlochHamiltonian, h1, Option.map_some], Basis.n_eq _, rfl, rfl, fun k hk => ?_⟩
  dsimp only
  rw [Basis.n_eq]
  have hpos : 0 < size w.basis := Nat.pos_of_ne_zero fun h => by rw [h] at hk; omega
  have hq : k / size w.basis < size w.band * ns.prod := (Nat.div_lt_iff_lt_mul hpos).2 hk
  have hk' : k = k / size w.basis * size w.basis + k % size w.basis := (Nat.div_add_mod' _ _).symm
  rw [hk', flatten_entry _ _ (Nat.mod_lt _ hpos), kg _ _ (Nat.mod_lt _ hpos), kf _ _ (by
    show _ < size w.band * (size (fT ns) * 1)
    rw [size_fT, mul_one]; exact hq)]

/-- Every axis index reduced modulo the number of samples. -/
def wrapSample (ns : List ℕ) (idx : List ℤ) : List ℕ := List.zipWith (fun (n : ℕ) i => (i % (n : ℤ)).toNat) ns idx

theorem wrapSample_inShape : ∀ (ns : List ℕ) (idx : List ℤ), idx.length = ns.length → (∀ n ∈ ns, 0 < n) → InShape ns (wrapSample ns idx)
  | [], [], _, _ => trivial
  | n :: ns, i :: idx, h, hp => by
    have hn := hp n List.mem_cons_self
    have h1 := Int.emod_lt_of_pos i (by exact_mod_cast hn : (0 : ℤ) < n)
    have h2 := Int.emod_nonneg i (by exact_mod_cast hn.ne' : (n : ℤ) ≠ 0)
    exact ⟨by show (i % (n : ℤ)).toNat < n; omega, wrapSample_inShape ns idx (by simpa using h) fun m hm => hp m (List.mem_cons_of_mem _ hm)⟩
  | [], _ :: _, h, _ => by simp at h
  | _ :: _, [], h, _ => by simp at h

theorem getFlatIndex_wrap (ns : List ℕ) (idx : List ℤ) (hlen : idx.length = ns.length) (hpos : ∀ n ∈ ns, 0 < n) :
    getFlatIndex .wrap ns idx = some (ravel ns (wrapSample ns idx)) := by
  rw [C04_wrap_mod ns idx hlen hpos]
  have hs := wrapSample_inShape ns idx hlen hpos
  have : List.zipWith (fun (n : ℕ) i => i % (n : ℤ)) ns idx = (wrapSample ns idx).map fun i : ℕ => (i : ℤ) := by
    clear hs
    unfold wrapSample
    induction ns generalizing idx with
    | nil => simp
    | cons n ns ih =>
      cases idx with
      | nil => simp
      | cons i idx =>
        have h2 := Int.emod_nonneg i (by exact_mod_cast (hpos n List.mem_cons_self).ne' : (n : ℤ) ≠ 0)
        simp only [List.zipWith_cons_cons, List.map_cons]
        rw [ih idx (by simpa using hlen) fun m hm => hpos m (List.mem_cons_of_mem _ hm), Int.toNat_of_nonneg h2]
  rw [this, getFlatIndex, ravelCoords_natCast _ _ _ hs, Option.map_some]

/-- **C111.** The states at a Bloch momentum, for any integer index of the sample on every axis (taken modulo the number of samples): for every band
the state of this sample. If the states of each sample are orthonormal the basis at this momentum is orthonormal, and its states are the states of the sample. -/
theorem C111_at_k (B : BlochWavefunctions) (idx : List ℤ) (hlen : idx.length = B.samples.length) (hpos : ∀ n ∈ B.samples, 0 < n) :
    ∃ s b, vectorsAtBlochKStacked B idx = some s ∧ basisAtBlochK B idx = some b ∧ size s.listBasis = B.bands ∧ s.basis = B.basis ∧
      size b = B.bands ∧ points b = points B.basis ∧
      (∀ c < B.bands, ∀ k < size B.basis, s.data (c * size B.basis + k) =
        B.data ((c * B.samples.prod + ravel B.samples (wrapSample B.samples idx)) * size B.basis + k)) ∧
      (∀ c < B.bands, ∀ x, state b c x =
        expand B.basis (fun k => B.data ((c * B.samples.prod + ravel B.samples (wrapSample B.samples idx)) * size B.basis + k)) x) ∧
      (Valid B.basis → OrthonormalParts B.basis → (∀ c < B.bands, ∀ c' < B.bands, ∑ k ∈ range (size B.basis),
          (starRingEnd ℂ) (B.data ((c * B.samples.prod + ravel B.samples (wrapSample B.samples idx)) * size B.basis + k)) *
            B.data ((c' * B.samples.prod + ravel B.samples (wrapSample B.samples idx)) * size B.basis + k) = if c = c' then 1 else 0) →
        Valid b ∧ OrthonormalParts b) := by
  have hr := ravel_lt _ _ (wrapSample_inShape B.samples idx hlen hpos)
  obtain ⟨p, hp⟩ : ∃ p, p = ravel B.samples (wrapSample B.samples idx) := ⟨_, rfl⟩
  rw [← hp] at hr ⊢
  have h1 : vectorsAtBlochKStacked B idx = some ⟨.fundamental B.bands, B.basis,
      flatten B.basis.n fun b k => B.data ((b * B.samples.prod + p) * B.basis.n + k)⟩ := by
    rw [vectorsAtBlochKStacked, getFlatIndex_wrap _ _ hlen hpos, Option.bind_some, ← hp, vectorsAtBlochK, if_pos hr]
  have hd : ∀ c, ∀ k < size B.basis, flatten B.basis.n (fun b k => B.data ((b * B.samples.prod + p) * B.basis.n + k)) (c * size B.basis + k) =
      B.data ((c * B.samples.prod + p) * size B.basis + k) := by
    intro c k hk
    rw [Basis.n_eq, flatten_entry _ _ hk]
  have hraw : ∀ c, ∀ k < size B.basis, block B.basis.n (flatten B.basis.n fun b k => B.data ((b * B.samples.prod + p) * B.basis.n + k)) c k =
      B.data ((c * B.samples.prod + p) * size B.basis + k) := by
    intro c k hk
    rw [← hd c k hk, block, Basis.n_eq]
  refine ⟨_, .explicit B.bands (block B.basis.n (flatten B.basis.n fun b k => B.data ((b * B.samples.prod + p) * B.basis.n + k))) B.basis, h1, by rw [basisAtBlochK, h1, Option.map_some], rfl, rfl, rfl, rfl, fun c _ k hk => hd c k hk, fun c _ x => ?_, fun hv ho h => ⟨hv, ho, ?_⟩⟩
  · rw [state, expand]
    exact sum_congr rfl fun k hk => by rw [hraw c k (mem_range.1 hk)]
  · intro c hc c' hc'
    rw [← h c hc c' hc']
    exact sum_congr rfl fun k hk => by rw [hraw c k (mem_range.1 hk), hraw c' k (mem_range.1 hk)]

/-- Three by two samples: the index `(-1, 5)` is the sample `(2, 1)`. -/
example : wrapSample [3, 2] [-1, 5] = [2, 1] ∧ ravel [3, 2] [2, 1] = 5 := by decide

/-- **C111.** The hamiltonian of the Bloch basis of all bands generated from a hamiltonian of a real potential, in a complete basis with
an odd number of points along every axis, is the hamiltonian of the large cell: for every function on the large cell, its components in the Bloch basis multiplied by the
eigenvalues are the components of the hamiltonian applied to it. -/
theorem C111_hamiltonian_partial (same : Basis → Basis → Bool) (hs : Sound same) (eigh : Operator → ℕ → ℕ → EigResult) (heigh : IsEighRoutine eigh)
    (hbar : ℝ) (hh : hbar ≠ 0) (A : Matrix (Fin d) (Fin d) ℝ) (hA : IsUnit A.det) (axes : List (ℕ × ℕ)) (hd : axes.length = d)
    (hodd : ∀ p ∈ axes, p.2 % 2 = 1) (hpos : 0 < (sampleShape axes).prod) (baxes : List Basis) (hv : Valids baxes)
    (ho : OrthonormalPartss baxes) (hshape : (Basis.tuple baxes).fundamentalShape = stateShape axes)
    (hfull : (Basis.tuple baxes).shape = stateShape axes) (hb : baxes.map points = stateShape axes) (hc : sizes baxes = (stateShape axes).prod)
    (V V' : ℕ → ℂ) (hreal : ∀ x < pointss baxes, (expand (.tuple baxes) V x).im = 0)
    (hV : RepeatedPotential axes (.tuple baxes) V V') (mass : ℝ) (hm : 0 < mass) :
    ∃ H' w e B, totalHamiltonian same hbar (largeCell axes A) ((unfurledShape axes).map Basis.fundamental) V' mass none = some H' ∧
      generateWavepacket same eigh (hamiltonianAt same hbar A baxes V mass) (fT (sampleShape axes)) (.fundamental (sizes baxes)) = some (w, e) ∧
      getFullBlochHamiltonian same w e = some (B, e) ∧
      ∀ φ, ∃ c φ', blochFrom same B φ = some c ∧ blochInto same B (fun m => e m * c m) = some φ' ∧
        ∀ X < (unfurledShape axes).prod, φ' X = ∑ Y ∈ range (unfurledShape axes).prod, H'.entry X Y * φ Y := by
  have hsp : 0 < sizes baxes := by
    rw [hc]
    refine Nat.pos_of_ne_zero fun h => ?_
    obtain ⟨p, hp, h0⟩ : ∃ p ∈ axes, p.2 = 0 := by
      have := List.prod_eq_zero_iff.1 h
      unfold stateShape at this
      simpa using this
    have := hodd p hp
    omega
  have hnd : d = (Basis.tuple baxes).fundamentalShape.length := by rw [hshape]; simp [stateShape, hd]
  obtain ⟨H', w, e, hH', hw, hwb, hall⟩ := C110_generated_partial same hs eigh heigh hbar hh A hA axes hd hodd hpos baxes hv ho hb hc hnd
    V V' hreal hV mass hm (.fundamental (sizes baxes)) (sizes baxes) 0 1 ⟨rfl, Or.inr ⟨fun n s o h => by (cases h), rfl, rfl⟩⟩ hsp one_pos (by omega)
  have hall' := hall _ fun _ _ _ => rfl
  have hwl : w.list = fT (sampleShape axes) ∧ w.band = .fundamental (sizes baxes) := by
    unfold generateWavepacket at hw
    obtain ⟨φ, -, h2⟩ := Option.bind_eq_some_iff.1 hw
    unfold generateUneven at h2
    simp only at h2
    split at h2
    · cases h2; exact ⟨rfl, rfl⟩
    · cases h2
  obtain ⟨B, -, hB, b1, b2, b3, b4⟩ := C111_basis same hs w (sampleShape axes) hwl.1 (by rw [hwl.2]; trivial) (by rw [hwl.2]; trivial)
    (by rw [hwb]; exact hv) (by rw [hwb]; exact ho) e
  refine ⟨H', w, e, B, hH', hw, hB, fun φ => ?_⟩
  rw [hwl.2] at b1 b4
  rw [hwb] at b3 b4
  obtain ⟨bn, bs, bb, bd⟩ := B
  dsimp only at b1 b2 b3 b4
  subst b1 b2 b3
  have hn : size (.tuple baxes) = points (.tuple baxes) := hc.trans (by rw [← hb]; exact (pointss_eq baxes).symm)
  obtain ⟨c, hc1, hc2⟩ := C48_from same hs axes (sizes baxes) (.tuple baxes) hv ho hshape bd φ
  obtain ⟨φ', hf1, hf2⟩ := C48_into_partial same hs axes (sizes baxes) (.tuple baxes) hv ho hshape hfull hn bd (fun m => e m * c m)
  refine ⟨c, φ', hc1, hf1, fun X hX => ?_⟩
  obtain ⟨P, hP⟩ : ∃ P, P = (sampleShape axes).prod := ⟨_, rfl⟩
  obtain ⟨N, hN⟩ : ∃ N, N = (unfurledShape axes).prod := ⟨_, rfl⟩
  obtain ⟨S, hS⟩ : ∃ S : ℕ → ℕ → ℂ, S = fun m X => blochWave axes (.tuple baxes) (block (size (.tuple baxes)) bd m)
    (unravel (sampleShape axes) (m % (sampleShape axes).prod)) (unravel (unfurledShape axes) X) := ⟨_, rfl⟩
  have hNP : N = sizes baxes * P := by
    rw [hN, hP, hc]
    unfold unfurledShape sampleShape stateShape
    clear * -
    induction axes with
    | nil => rfl
    | cons p axes ih => simp only [List.map_cons, List.prod_cons, ih]; ring
  -- the states in terms of band and sample
  have hSm : ∀ m < N, ∀ X < N, S m X = blochCoeff axes (.tuple baxes)
      (fun k => w.data ((m / P * (sampleShape axes).prod + m % P) * sizes baxes + k)) (m % P) X := by
    intro m hm' X hX
    rw [hS]
    dsimp only
    unfold blochCoeff
    rw [← hP]
    refine blochWave_congr axes (fun x _ => ?_) _ _ (unravel_inShape _ X (hN ▸ hX))
    unfold expand
    refine sum_congr rfl fun k hk => ?_
    have hk' : k < sizes baxes := mem_range.1 hk
    rw [block, show size (.tuple baxes) = sizes baxes from rfl, Nat.div_add_mod', b4]
    show m * sizes baxes + k < sizes baxes * (sampleShape axes).prod * sizes baxes
    rw [← hP, ← hNP]
    calc m * sizes baxes + k < m * sizes baxes + sizes baxes := by omega
      _ = (m + 1) * sizes baxes := by ring
      _ ≤ N * sizes baxes := Nat.mul_le_mul_right _ hm'
  have hPpos : 0 < P := hP ▸ hpos
  have hqm : ∀ m < N, m / P < sizes baxes ∧ m % P < P := fun m h => ⟨(Nat.div_lt_iff_lt_mul hPpos).2 (hNP ▸ h), Nat.mod_lt _ hPpos⟩
  have horth : Orthonormal' N N S := by
    intro m hm' m' hm''
    have h := (hall' (m / P) (hqm m hm').1 (m % P) (hP ▸ (hqm m hm').2)).2 (m' / P) (hqm m' hm'').1 (m' % P) (hP ▸ (hqm m' hm'').2)
    rw [← hN] at h
    rw [sum_congr rfl fun X hX => by rw [hSm m hm' X (mem_range.1 hX), hSm m' hm'' X (mem_range.1 hX)], h]
    refine if_congr ⟨fun ⟨h1, h2⟩ => ?_, fun h => by rw [h]; exact ⟨rfl, rfl⟩⟩ rfl rfl
    rw [← Nat.div_add_mod' m P, ← Nat.div_add_mod' m' P, h1, h2]
  have heig : ∀ m < N, ∀ X < N, ∑ Y ∈ range N, H'.entry X Y * S m Y = e m * S m X := by
    intro m hm' X hX
    have h := (hall' (m / P) (hqm m hm').1 (m % P) (hP ▸ (hqm m hm').2)).1 X (hN ▸ hX)
    rw [← hN, ← hP, Nat.div_add_mod' m P] at h
    rw [sum_congr rfl fun Y hY => by rw [hSm m hm' Y (mem_range.1 hY)], hSm m hm' X hX, ← hP, Nat.div_add_mod']
    exact h
  rw [← hN] at hX ⊢
  have hX' : X < (unfurledShape axes).prod := hN ▸ hX
  have h1 := hf2 _ (unravel_inShape _ X hX')
  rw [ravel_unravel _ X hX'] at h1
  rw [h1, ← hP, ← hNP]
  have h2 : ∀ m ∈ range N, c m = ∑ Y ∈ range N, (starRingEnd ℂ) (S m Y) * φ Y := by
    intro m hm'
    rw [hc2 m (by rw [← hP, ← hNP]; exact mem_range.1 hm'), ← hN, hS]
  have h3 : ∀ Y ∈ range N, H'.entry X Y * φ Y = ∑ m ∈ range N, c m * (H'.entry X Y * S m Y) := by
    intro Y hY
    have := project_complete horth φ (mem_range.1 hY)
    rw [← this, mul_sum]
    exact sum_congr rfl fun m hm' => by rw [h2 m hm']; ring
  rw [sum_congr rfl h3, sum_comm]
  refine sum_congr rfl fun m hm' => ?_
  rw [← mul_sum, heig m (mem_range.1 hm') X hX, hS, ← hP]
  ring

/-- A case which meets the hypotheses: one axis, three points, two samples. -/
example : ([(2, 3)] : List (ℕ × ℕ)).length = 1 ∧ (∀ p ∈ ([(2, 3)] : List (ℕ × ℕ)), p.2 % 2 = 1) ∧ (Basis.tuple [.fundamental 3]).fundamentalShape = stateShape [(2, 3)] ∧
    (Basis.tuple [.fundamental 3]).shape = stateShape [(2, 3)] ∧ [Basis.fundamental 3].map points = stateShape [(2, 3)] ∧
    sizes [.fundamental 3] = (stateShape [(2, 3)]).prod ∧ RepeatedPotential [(2, 3)] (.tuple [.fundamental 3]) (fun k => (k : ℂ)) (fun X => ((X % 3 : ℕ) : ℂ)) := by
  refine ⟨rfl, by decide, rfl, rfl, rfl, rfl, ?_⟩
  intro X hX
  match X, hX with
  | [x], h =>
    have hr : ravel (stateShape [(2, 3)]) (reduce [(2, 3)] [x]) = x % 3 := by simp [ravel, stateShape, reduce]
    rw [hr, show expand (.tuple [.fundamental 3]) (fun k => (k : ℂ)) (x % 3) = _ from expand_position [3] _ (by simpa using Nat.mod_lt x (by decide))]
    simp [ravel, unfurledShape]

/-- **C111, negation.** For samples in a truncated basis the hamiltonian in the Bloch basis has fewer eigenvalues than the Bloch basis has
states: the states are converted to all samples, the eigenvalues are not. -/
theorem C111_truncated_negation (same : Basis → Basis → Bool) (hs : Sound same) (w : WavepacketList) (n N : ℕ) (hn : n < N)
    (hl : w.list = .tuple [.transformed n N]) (hband : Valid w.band) (hbando : OrthonormalParts w.band) (hb0 : 0 < size w.band)
    (hv : Valid w.basis) (ho : OrthonormalParts w.basis) (e : ℕ → ℂ) :
    ∃ B, getFullBlochHamiltonian same w e = some (B, e) ∧ size w.band * size w.list < B.bands * B.samples.prod := by
  have hL : w.list.asTransformedBasis = fT [N] := by rw [hl]; rfl
  obtain ⟨f, hf, -⟩ := C10_route same hs (.tuple [w.band, w.list]) (.tuple [w.band, fT [N]])
    ⟨hband, by rw [hl]; exact ⟨hn.le, trivial⟩, trivial⟩ ⟨hband, valids_fT [N], trivial⟩ ⟨hbando, by rw [hl]; exact ⟨trivial, trivial⟩, trivial⟩
    ⟨compatible_refl _, by rw [hl]; exact ⟨rfl, trivial⟩, trivial⟩
  obtain ⟨g, hg, -⟩ := convert_identity same hs w.basis hv ho
  refine ⟨⟨w.band.n, w.list.fundamentalShape, w.basis, flatten w.basis.n fun i => g fun k => f (fun l => w.data (l * w.basis.n + k)) i⟩, ?_, ?_⟩
  · unfold getFullBlochHamiltonian getBlochBasis convertWavepacket WavepacketList.states
    dsimp only
    rw [hL, hf, Option.bind_some, hg, Option.map_some, Option.map_some, Option.map_some]
  · dsimp only
    rw [Basis.n_eq, hl]
    show size w.band * (n * 1) < size w.band * ([N] : List ℕ).prod
    simpa using Nat.mul_lt_mul_of_pos_left hn hb0

/-- One sample of two. -/
example : ∃ w : WavepacketList, w.list = .tuple [.transformed 1 2] ∧ size w.band = 3 ∧ size w.list = 1 :=
  ⟨⟨.fundamental 3, .tuple [.transformed 1 2], .fundamental 4, fun k => k⟩, rfl, rfl, rfl⟩

/-- **C111.** `get_bloch_hamiltonian` has for each band a diagonal operator over the samples, with the eigenvalues of the band. -/
theorem C111_list_partial (w : WavepacketList) (e : ℕ → ℂ) (c : ℕ) (hc : c < size w.band) :
    ∃ d, selectDiagonalOperator (getBlochHamiltonian w e) c = some d ∧ d.b0 = w.list ∧ d.b1 = w.list ∧ ∀ k < size w.list, d.data k = e (c * size w.list + k) := by
  refine ⟨⟨w.list, w.list, block w.list.n e c⟩, ?_, rfl, rfl, fun k _ => ?_⟩
  · unfold selectDiagonalOperator getBlochHamiltonian
    dsimp only
    rw [if_pos (by rw [Basis.n_eq]; exact hc)]
  · show e (c * w.list.n + k) = _
    rw [Basis.n_eq]

/-- **C111, negation.** It is not, as documented, a list with one operator for each sample: with two bands at three samples there is no third operator. -/
theorem C111_list_negation (d e : ℕ → ℂ) : selectDiagonalOperator (getBlochHamiltonian ⟨.fundamental 2, .fundamentalTransformed 3, .fundamental 4, d⟩ e) 2 = none := rfl

example : (2 : ℕ) < size (.fundamental 3) := by decide

end Verif
