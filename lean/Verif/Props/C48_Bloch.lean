import Verif.Model.Bloch
import Verif.Props.C47_Sampled

/-!
# C48: the basis of Bloch states
-/

set_option autoImplicit false

namespace Verif

open Finset Spec

/-! ## Helpers -/

theorem project_complete {n : ℕ} {S : ℕ → ℕ → ℂ} (h : Orthonormal' n n S) (φ : ℕ → ℂ) {x : ℕ} (hx : x < n) :
    ∑ k ∈ range n, (∑ y ∈ range n, (starRingEnd ℂ) (S k y) * φ y) * S k x = φ x := by
  simp only [sum_mul]
  rw [sum_comm]
  have : ∀ y ∈ range n, ∑ k ∈ range n, (starRingEnd ℂ) (S k y) * φ y * S k x = if x = y then φ y else 0 := by
    intro y hy
    have := complete_of_orthonormal h hx (mem_range.1 hy)
    rw [sum_congr rfl fun k _ => show (starRingEnd ℂ) (S k y) * φ y * S k x =
      (S k x * (starRingEnd ℂ) (S k y)) * φ y by ring, ← sum_mul, this]
    split <;> simp
  rw [sum_congr rfl this, sum_ite_eq, if_pos (mem_range.2 hx)]

theorem state_pair (L b : Basis) (a k x0 x : ℕ) (hk : k < size b) (hx : x < points b) :
    state (.tuple [L, b]) (a * size b + k) (x0 * points b + x) = state L a x0 * state b k x := by
  show state L ((a * size b + k) / (size b * 1)) ((x0 * points b + x) / (points b * 1)) *
    (state b ((a * size b + k) % (size b * 1) / 1) ((x0 * points b + x) % (points b * 1) / 1) * 1) = _
  rw [Nat.mul_one, Nat.mul_one, Nat.div_one, Nat.div_one, mul_one, Nat.mul_comm a, Nat.mul_comm x0, Nat.mul_add_div (by omega),
    Nat.mul_add_div (by omega), Nat.mul_add_mod, Nat.mul_add_mod, Nat.div_eq_of_lt hk, Nat.div_eq_of_lt hx,
    Nat.mod_eq_of_lt hk, Nat.mod_eq_of_lt hx, Nat.add_zero, Nat.add_zero]

theorem expand_pair (L b : Basis) (y : ℕ → ℂ) (x0 x : ℕ) (hx : x < points b) :
    expand (.tuple [L, b]) y (x0 * points b + x) =
      ∑ a ∈ range (size L), state L a x0 * expand b (block (size b) y a) x := by
  show ∑ j ∈ range (size L * (size b * 1)), y j * state (.tuple [L, b]) j _ = _
  rw [Nat.mul_one, sum_range_mul']
  apply sum_congr rfl; intro a _
  unfold expand
  rw [mul_sum]
  apply sum_congr rfl; intro k hk
  rw [state_pair L b a k x0 x (mem_range.1 hk) hx]
  unfold block
  ring

/-- Converting the second axis only acts on each block. -/
theorem convert_pair (same : Basis → Basis → Bool) (hs : Sound same) (L b c : Basis) (hL : Valid L) (hb : Valid b)
    (hc : Valid c) (oL : OrthonormalParts L) (ob : OrthonormalParts b) (hLL : Compatible L L) (hbc : Compatible b c) :
    ∃ f, Basis.convert same (.tuple [L, b]) (.tuple [L, c]) = some f ∧
      ∀ y, ∀ a < size L, ∀ k < size c, f y (a * size c + k) =
        ∑ x ∈ range (points b), (starRingEnd ℂ) (state c k x) * expand b (block (size b) y a) x := by
  obtain ⟨f, hf, kf⟩ := C10_route same hs (.tuple [L, b]) (.tuple [L, c]) ⟨hL, hb, trivial⟩ ⟨hL, hc, trivial⟩
    ⟨oL, ob, trivial⟩ ⟨hLL, hbc, trivial⟩
  refine ⟨f, hf, fun y a ha k hk => ?_⟩
  have hp := compatible_points b c hbc
  have o := state_orthonormal L hL oL
  rw [kf y _ (by
    show a * size c + k < size L * (size c * 1)
    rw [Nat.mul_one]
    calc a * size c + k < a * size c + size c := by omega
      _ = (a + 1) * size c := by ring
      _ ≤ size L * size c := Nat.mul_le_mul_right _ ha)]
  show ∑ X ∈ range (points L * (points b * 1)), _ = _
  rw [Nat.mul_one, sum_range_mul', sum_comm]
  apply sum_congr rfl; intro x hx
  have hx' := mem_range.1 hx
  have : ∀ x0 ∈ range (points L), (starRingEnd ℂ) (state (.tuple [L, c]) (a * size c + k) (x0 * points b + x)) *
      expand (.tuple [L, b]) y (x0 * points b + x) = (starRingEnd ℂ) (state c k x) *
        ∑ a' ∈ range (size L), ((starRingEnd ℂ) (state L a x0) * state L a' x0) * expand b (block (size b) y a') x := by
    intro x0 _
    rw [expand_pair L b y x0 x hx']
    conv_lhs => rw [hp]
    rw [state_pair L c a k x0 x hk (hp ▸ hx'), map_mul, mul_sum, mul_sum]
    exact sum_congr rfl fun a' _ => by ring
  rw [sum_congr rfl this, ← mul_sum, sum_comm]
  congr 1
  have : ∀ a' ∈ range (size L), ∑ x0 ∈ range (points L), ((starRingEnd ℂ) (state L a x0) * state L a' x0) *
      expand b (block (size b) y a') x = if a = a' then expand b (block (size b) y a') x else 0 := by
    intro a' ha'
    rw [← sum_mul, o a ha a' (mem_range.1 ha')]
    split <;> simp
  rw [sum_congr rfl this, sum_ite_eq, if_pos (mem_range.2 ha)]

theorem compatible_fT (ns : List ℕ) :
    Compatible (.tuple (ns.map .fundamentalTransformed)) (.tuple (ns.map .fundamentalTransformed)) := by
  show Compatibles _ _
  induction ns with
  | nil => trivial
  | cons n ns ih => exact ⟨rfl, ih⟩

mutual
theorem compatible_symm : ∀ a b : Basis, Compatible a b → Compatible b a
  | .tuple as, .tuple bs, h => compatibles_symm as bs h
  | .tuple _, .fundamental _, h => h.symm
  | .tuple _, .truncated _ _, h => h.symm
  | .tuple _, .transformed _ _, h => h.symm
  | .tuple _, .fundamentalTransformed _, h => h.symm
  | .tuple _, .evenlySpaced _ _ _, h => h.symm
  | .tuple _, .evenlySpacedTransformed _ _ _, h => h.symm
  | .tuple _, .explicit _ _ _, h => h.symm
  | .fundamental _, b, h => by cases b <;> exact h.symm
  | .truncated _ _, b, h => by cases b <;> exact h.symm
  | .transformed _ _, b, h => by cases b <;> exact h.symm
  | .fundamentalTransformed _, b, h => by cases b <;> exact h.symm
  | .evenlySpaced _ _ _, b, h => by cases b <;> exact h.symm
  | .evenlySpacedTransformed _ _ _, b, h => by cases b <;> exact h.symm
  | .explicit _ _ _, b, h => by cases b <;> exact h.symm

theorem compatibles_symm : ∀ as bs : List Basis, Compatibles as bs → Compatibles bs as
  | [], [], _ => trivial
  | a :: as, b :: bs, h => ⟨compatible_symm a b h.1, compatibles_symm as bs h.2⟩
  | [], _ :: _, h => by simp [Compatibles] at h
  | _ :: _, [], h => by simp [Compatibles] at h
end

theorem rearrange_place (axes : List (ℕ × ℕ)) (data : ℕ → ℂ) (a j p : List ℕ) (ha : InShape (sampleShape axes) a)
    (hj : InShape (stateShape axes) j) (hp : InShape (unfurledShape axes) p) (h : AtMomentum axes a j p) :
    unfurlRearrange axes data (ravel (unfurledShape axes) p) =
      block (stateShape axes).prod data (ravel (sampleShape axes) a) (ravel (stateShape axes) j) := by
  unfold block
  rw [unfurlRearrange_eq axes data p hp, (sources_eq axes a j p ha hj h).1, (sources_eq axes a j p ha hj h).2,
    ravel_append _ _ _ _ ha]

theorem rearrange_expand (axes : List (ℕ × ℕ)) (c : ℕ → ℂ) (X : List ℕ) (hX : InShape (unfurledShape axes) X) :
    expand (.tuple ((unfurledShape axes).map .fundamentalTransformed)) (unfurlRearrange axes c)
        (ravel (unfurledShape axes) X) =
      ∑ a ∈ range (sampleShape axes).prod, blochWave axes (.tuple ((stateShape axes).map .fundamentalTransformed))
        (block (stateShape axes).prod c a) (unravel (sampleShape axes) a) X := by
  have hr := reduce_inShape axes X hX
  show ∑ k ∈ range (sizes _), unfurlRearrange axes c k * states _ k _ = _
  rw [sizes_fT, sum_unfurled, ← nsum_ravel]
  apply nsum_congr
  intro a ha
  rw [unravel_ravel _ _ ha]
  unfold blochWave
  have e : expand (.tuple ((stateShape axes).map .fundamentalTransformed))
      (block (stateShape axes).prod c (ravel (sampleShape axes) a)) (ravel (axes.map Prod.snd) (reduce axes X)) =
      nsum (stateShape axes) fun j => block (stateShape axes).prod c (ravel (sampleShape axes) a) (ravel (stateShape axes) j) *
        waves (stateShape axes) j (reduce axes X) := by
    show ∑ k ∈ range (sizes _), _ * states _ k _ = _
    rw [sizes_fT, ← nsum_ravel]
    exact nsum_congr _ _ _ fun j hj => by rw [← states_fT _ _ _ hj hr]; rfl
  rw [e, div_eq_mul_inv, mul_right_comm, ← nsum_mul_left]
  apply nsum_congr
  intro j hj
  obtain ⟨p1, p2⟩ := places_spec axes a j ha hj
  rw [rearrange_place axes c a j _ ha hj p1 p2, states_fT _ _ _ p1 hX, waves_place axes a j _ X ha hj p1 hX p2]
  show _ = blochPhase axes a X * (Real.sqrt ((sampleShape axes).prod : ℕ) : ℂ)⁻¹ * _
  ring

/-! ### The inverse rearrangement -/

/-- Slots after shifting, one axis: state and sample. -/
def shift1 (ns nx a j : ℕ) : ℕ × ℕ :=
  ((((j : ℤ) - -((nx : ℤ) / 2)) % (nx : ℤ)).toNat, (((a : ℤ) - -((ns : ℤ) / 2)) % (ns : ℤ)).toNat)

/-- All axes. -/
def shiftPairs : List (ℕ × ℕ) → List ℕ → List ℕ → List (ℕ × ℕ)
  | (ns, nx) :: axes, a :: as, j :: js => shift1 ns nx a j :: shiftPairs axes as js
  | _, _, _ => []

theorem flipAxes_nodup (nd : ℕ) : (flipAxes nd).Nodup := by
  unfold flipAxes
  rw [List.nodup_append]
  refine ⟨?_, ?_, ?_⟩
  · exact List.nodup_range.map fun a b h => by simpa using h
  · exact List.nodup_range.map fun a b h => by simpa using h
  · intro x hx y hy
    simp at hx hy
    omega

theorem transpose_flip (ps : List (ℕ × ℕ)) (n : ℕ) (hn : ps.length = n) :
    transposeIndex (flipAxes n) (ps.map Prod.snd ++ ps.map Prod.fst) = flatPairs ps := by
  have hlen : (flipAxes n).length = 2 * n := by simp [flipAxes]; omega
  unfold transposeIndex
  apply List.ext_getElem?
  intro i
  rw [hlen, List.getElem?_map]
  by_cases hi : i < 2 * n
  · rw [List.getElem?_range hi, Option.map_some, List.getD_eq_getElem?_getD]
    obtain ⟨k, rfl | rfl⟩ : ∃ k, i = 2 * k ∨ i = 2 * k + 1 := ⟨i / 2, by omega⟩
    · have hk : k < n := by omega
      have : (flipAxes n).idxOf (2 * k) = n + k := by
        apply idxOf_of_getElem? (flipAxes_nodup n)
        unfold flipAxes
        rw [List.getElem?_append_right (by simp)]
        simp [List.getElem?_range hk]
      rw [this, flatPairs_even, List.getElem?_append_right (by simp [hn]), List.getElem?_map, List.length_map, hn,
        Nat.add_sub_cancel_left, List.getElem?_eq_getElem (by omega)]
      rfl
    · have hk : k < n := by omega
      have : (flipAxes n).idxOf (2 * k + 1) = k := by
        apply idxOf_of_getElem? (flipAxes_nodup n)
        unfold flipAxes
        rw [List.getElem?_append_left (by simpa using hk)]
        simp [List.getElem?_range hk]
      rw [this, flatPairs_odd, List.getElem?_append_left (by simpa [hn] using hk), List.getElem?_map,
        List.getElem?_eq_getElem (by omega)]
      rfl
  · rw [List.getElem?_eq_none (by simpa using hi), Option.map_none, List.getElem?_eq_none (by rw [flatPairs_length]; omega)]

theorem shift1_spec {ns nx a j : ℕ} (ha : a < ns) (hj : j < nx) :
    ((shift1 ns nx a j).1 : ℤ) = freq nx j + (nx : ℤ) / 2 ∧ ((shift1 ns nx a j).2 : ℤ) = freq ns a + (ns : ℤ) / 2 := by
  have key : ∀ {n i : ℕ}, i < n → ((((i : ℤ) - -((n : ℤ) / 2)) % (n : ℤ)).toNat : ℤ) = freq n i + (n : ℤ) / 2 := by
    intro n i hi
    obtain ⟨h0, h1⟩ := freq_half hi
    have hn : (0 : ℤ) < n := by omega
    rw [Int.toNat_of_nonneg (Int.emod_nonneg _ hn.ne'), sub_neg_eq_add]
    rw [← Int.emod_eq_of_lt h0 h1, Int.add_emod, ← freq_emod, ← Int.add_emod]
  exact ⟨key hj, key ha⟩

theorem shiftPairs_length : ∀ (axes : List (ℕ × ℕ)) (a j : List ℕ), InShape (sampleShape axes) a → InShape (stateShape axes) j →
    (shiftPairs axes a j).length = axes.length
  | [], [], [], _, _ => rfl
  | (ns, nx) :: axes, a :: as, j :: js, ha, hj => by
    rw [shiftPairs, List.length_cons, List.length_cons, shiftPairs_length axes as js ha.2 hj.2]
  | [], _ :: _, _, h, _ => by simp [sampleShape, InShape] at h
  | [], [], _ :: _, _, h => by simp [stateShape, InShape] at h
  | _ :: _, [], _, h, _ => by simp [sampleShape, InShape] at h
  | _ :: _, _ :: _, [], _, h => by simp [stateShape, InShape] at h

/-- Joined slots. -/
def joinPairs : List (ℕ × ℕ) → List (ℕ × ℕ) → List ℕ
  | a :: axes, q :: qs => (q.1 * a.1 + q.2) :: joinPairs axes qs
  | _, _ => []

theorem join_ravel : ∀ (axes : List (ℕ × ℕ)) (a j : List ℕ), InShape (sampleShape axes) a → InShape (stateShape axes) j →
    InShape (unfurledShape axes) (joinPairs axes (shiftPairs axes a j)) ∧
    ravel (axes.flatMap fun a => [a.2, a.1]) (flatPairs (shiftPairs axes a j)) =
      ravel (unfurledShape axes) (joinPairs axes (shiftPairs axes a j)) ∧
    rollAxes (unfurledShape axes) (axes.map fun a => (a.1 : ℤ) / 2 + a.1 * ((a.2 : ℤ) / 2)) id
      (joinPairs axes (shiftPairs axes a j)) = places axes a j
  | [], [], [], _, _ => ⟨trivial, rfl, rfl⟩
  | (ns, nx) :: axes, a :: as, j :: js, ha, hj => by
    obtain ⟨i1, i2, i3⟩ := join_ravel axes as js ha.2 hj.2
    obtain ⟨e1, e2⟩ := shift1_spec (ns := ns) (nx := nx) ha.1 hj.1
    obtain ⟨u0, u1⟩ := freq_half (n := ns) (a := a) ha.1
    obtain ⟨v0, v1⟩ := freq_half (n := nx) (a := j) hj.1
    set q := shift1 ns nx a j with hq
    have q1 : q.1 < nx := by omega
    have q2 : q.2 < ns := by omega
    refine ⟨⟨?_, i1⟩, ?_, ?_⟩
    · show q.1 * ns + q.2 < ns * nx
      calc q.1 * ns + q.2 < q.1 * ns + ns := by omega
        _ = ns * (q.1 + 1) := by ring
        _ ≤ ns * nx := Nat.mul_le_mul_left _ q1
    · show q.1 * ([ns] ++ axes.flatMap fun a => [a.2, a.1]).prod + (q.2 * (axes.flatMap fun a => [a.2, a.1]).prod +
        ravel (axes.flatMap fun a => [a.2, a.1]) (flatPairs (shiftPairs axes as js))) =
          (q.1 * ns + q.2) * (unfurledShape axes).prod + ravel (unfurledShape axes) (joinPairs axes (shiftPairs axes as js))
      rw [i2, List.prod_append, List.prod_singleton, prod_pairs]
      ring
    · show _ :: _ = _ :: _
      congr 1
      show ((((q.1 * ns + q.2 : ℕ) : ℤ) - ((ns : ℤ) / 2 + ns * ((nx : ℤ) / 2))) % ((ns * nx : ℕ) : ℤ)).toNat = place1 ns nx a j
      unfold place1
      congr 2
      push_cast
      rw [e1, e2]
      ring
  | [], _ :: _, _, h, _ => by simp [sampleShape, InShape] at h
  | [], [], _ :: _, _, h => by simp [stateShape, InShape] at h
  | _ :: _, [], _, h, _ => by simp [sampleShape, InShape] at h
  | _ :: _, _ :: _, [], _, h => by simp [stateShape, InShape] at h

theorem inShape_append : ∀ (s t i j : List ℕ), InShape s i → InShape t j → InShape (s ++ t) (i ++ j)
  | [], _, [], _, _, h => h
  | _ :: s, t, _ :: i, j, h, h' => ⟨h.1, inShape_append s t i j h.2 h'⟩
  | [], _, _ :: _, _, h, _ => by simp [InShape] at h
  | _ :: _, _, [], _, h, _ => by simp [InShape] at h

theorem zip_shift_sample : ∀ (axes : List (ℕ × ℕ)) (a j : List ℕ), InShape (sampleShape axes) a →
    InShape (stateShape axes) j →
    List.zipWith3 (fun (n : ℕ) (s : ℤ) (j : ℕ) => (((j : ℤ) - s) % (n : ℤ)).toNat) (sampleShape axes)
      ((sampleShape axes).map fun n : ℕ => -((n : ℤ) / 2)) a = (shiftPairs axes a j).map Prod.snd
  | [], [], [], _, _ => rfl
  | (ns, nx) :: axes, a :: as, j :: js, ha, hj => congrArg (_ :: ·) (zip_shift_sample axes as js ha.2 hj.2)
  | [], _ :: _, _, h, _ => by simp [sampleShape, InShape] at h
  | [], [], _ :: _, _, h => by simp [stateShape, InShape] at h
  | _ :: _, [], _, h, _ => by simp [sampleShape, InShape] at h
  | _ :: _, _ :: _, [], _, h => by simp [stateShape, InShape] at h

theorem zip_shift_state : ∀ (axes : List (ℕ × ℕ)) (a j : List ℕ), InShape (sampleShape axes) a →
    InShape (stateShape axes) j →
    List.zipWith3 (fun (n : ℕ) (s : ℤ) (j : ℕ) => (((j : ℤ) - s) % (n : ℤ)).toNat) (stateShape axes)
      ((stateShape axes).map fun n : ℕ => -((n : ℤ) / 2)) j = (shiftPairs axes a j).map Prod.fst
  | [], [], [], _, _ => rfl
  | (ns, nx) :: axes, a :: as, j :: js, ha, hj => congrArg (_ :: ·) (zip_shift_state axes as js ha.2 hj.2)
  | [], _ :: _, _, h, _ => by simp [sampleShape, InShape] at h
  | [], [], _ :: _, _, h => by simp [stateShape, InShape] at h
  | _ :: _, [], _, h, _ => by simp [sampleShape, InShape] at h
  | _ :: _, _ :: _, [], _, h => by simp [stateShape, InShape] at h

theorem inShape_length : ∀ (s i : List ℕ), InShape s i → s.length = i.length
  | [], [], _ => rfl
  | _ :: s, _ :: i, h => congrArg (· + 1) (inShape_length s i h.2)
  | [], _ :: _, h => by simp [InShape] at h
  | _ :: _, [], h => by simp [InShape] at h

theorem furl_place (axes : List (ℕ × ℕ)) (u : ℕ → ℂ) (a j : List ℕ) (ha : InShape (sampleShape axes) a)
    (hj : InShape (stateShape axes) j) :
    block (stateShape axes).prod (furlRearrange axes u) (ravel (sampleShape axes) a) (ravel (stateShape axes) j) =
      u (ravel (unfurledShape axes) (places axes a j)) := by
  obtain ⟨i1, i2, i3⟩ := join_ravel axes a j ha hj
  have hl := shiftPairs_length axes a j ha hj
  unfold block furlRearrange
  rw [← ravel_append _ _ _ _ ha, unravel_ravel _ _ (inShape_append _ _ _ _ ha hj)]
  unfold ifftshiftAxes rollAxes
  rw [List.map_append, zipWith3_append _ _ _ _ _ _ _ (by simp) (inShape_length _ _ ha), zip_shift_sample axes a j ha hj,
    zip_shift_state axes a j ha hj]
  beta_reduce
  rw [transpose_flip _ _ hl]
  unfold reshapeAxes
  rw [i2, unravel_ravel _ _ i1]
  beta_reduce
  rw [← i3]
  rfl

/-! ### Bloch waves -/

/-- The momentum basis with the given shape. -/
abbrev fT (ns : List ℕ) : Basis := .tuple (ns.map .fundamentalTransformed)

theorem fT_facts (ns : List ℕ) : size (fT ns) = ns.prod ∧ points (fT ns) = ns.prod ∧ Orthonormal' ns.prod ns.prod (state (fT ns)) := by
  have hsz : size (fT ns) = ns.prod := sizes_fT _
  have hpz : points (fT ns) = ns.prod := pointss_fT _
  have o := state_orthonormal (fT ns) (valids_fT _) (orthonormalPartss_fT _)
  rw [hsz, hpz] at o
  exact ⟨hsz, hpz, o⟩

/-- The coefficients of a function in the momentum basis. -/
noncomputable def toMomentum (ns : List ℕ) (E : ℕ → ℂ) : ℕ → ℂ := fun k =>
  ∑ x ∈ range ns.prod, (starRingEnd ℂ) (state (fT ns) k x) * E x

theorem expand_toMomentum (ns : List ℕ) (E : ℕ → ℂ) {x : ℕ} (hx : x < ns.prod) :
    expand (fT ns) (toMomentum ns E) x = E x := by
  obtain ⟨h1, h2, h3⟩ := fT_facts ns
  unfold expand toMomentum
  rw [h1]
  exact project_complete h3 E hx

theorem blochWave_congr (axes : List (ℕ × ℕ)) {b b' : Basis} {v v' : ℕ → ℂ}
    (h : ∀ x < (stateShape axes).prod, expand b v x = expand b' v' x) (a X : List ℕ) (hX : InShape (unfurledShape axes) X) :
    blochWave axes b v a X = blochWave axes b' v' a X := by
  unfold blochWave
  rw [show expand b v (ravel (List.map Prod.snd axes) (reduce axes X)) = _ from
    h _ (ravel_lt _ _ (reduce_inShape axes X hX))]

theorem blochWave_sampled (axes : List (ℕ × ℕ)) (b : Basis) (v : ℕ → ℂ) (a X : List ℕ) (ha : InShape (sampleShape axes) a)
    (hX : InShape (unfurledShape axes) X) :
    blochWave axes b v a X = expand (sampledBasis axes (a.map fun i : ℕ => (i : ℤ)))
      (toMomentum (stateShape axes) (expand b v)) (ravel (unfurledShape axes) X) := by
  rw [sampled_expand axes _ a ha (labels_nat axes a ha) _ X hX]
  rw [blochWave_congr axes (b' := fT (stateShape axes)) (v' := toMomentum (stateShape axes) (expand b v))
    (fun x hx => (expand_toMomentum _ _ hx).symm) a X hX]
  rfl

theorem blochWave_dot (axes : List (ℕ × ℕ)) (b b' : Basis) (v v' : ℕ → ℂ) (a a' : ℕ) (ha : a < (sampleShape axes).prod)
    (ha' : a' < (sampleShape axes).prod) :
    ∑ X ∈ range (unfurledShape axes).prod,
      (starRingEnd ℂ) (blochWave axes b v (unravel (sampleShape axes) a) (unravel (unfurledShape axes) X)) *
        blochWave axes b' v' (unravel (sampleShape axes) a') (unravel (unfurledShape axes) X) =
      if a = a' then dot (stateShape axes).prod (expand b v) (expand b' v') else 0 := by
  have sa := unravel_inShape _ a ha
  have sa' := unravel_inShape _ a' ha'
  set B := sampledBasis axes ((unravel (sampleShape axes) a).map fun i : ℕ => (i : ℤ)) with hB
  set B' := sampledBasis axes ((unravel (sampleShape axes) a').map fun i : ℕ => (i : ℤ)) with hB'
  have s1 : size B = (stateShape axes).prod := (C47_momenta axes _ _ sa (labels_nat axes _ sa)).1
  have s1' : size B' = (stateShape axes).prod := (C47_momenta axes _ _ sa' (labels_nat axes _ sa')).1
  have key : ∀ X ∈ range (unfurledShape axes).prod,
      (starRingEnd ℂ) (blochWave axes b v (unravel (sampleShape axes) a) (unravel (unfurledShape axes) X)) *
        blochWave axes b' v' (unravel (sampleShape axes) a') (unravel (unfurledShape axes) X) =
      ∑ j ∈ range (stateShape axes).prod, ∑ j' ∈ range (stateShape axes).prod,
        ((starRingEnd ℂ) (toMomentum (stateShape axes) (expand b v) j) * toMomentum (stateShape axes) (expand b' v') j') *
          ((starRingEnd ℂ) (state B j X) * state B' j' X) := by
    intro X hX
    have sX := unravel_inShape _ X (mem_range.1 hX)
    rw [blochWave_sampled axes b v _ _ sa sX, blochWave_sampled axes b' v' _ _ sa' sX, ravel_unravel _ X (mem_range.1 hX)]
    unfold expand
    rw [← hB, ← hB', s1, s1', map_sum, sum_mul_sum]
    refine sum_congr rfl fun j _ => sum_congr rfl fun j' _ => ?_
    rw [map_mul]
    ring
  rw [sum_congr rfl key, sum_comm]
  have key2 : ∀ j ∈ range (stateShape axes).prod, ∑ X ∈ range (unfurledShape axes).prod,
      ∑ j' ∈ range (stateShape axes).prod,
        ((starRingEnd ℂ) (toMomentum (stateShape axes) (expand b v) j) * toMomentum (stateShape axes) (expand b' v') j') *
          ((starRingEnd ℂ) (state B j X) * state B' j' X) =
      if a = a' then (starRingEnd ℂ) (toMomentum (stateShape axes) (expand b v) j) *
        toMomentum (stateShape axes) (expand b' v') j else 0 := by
    intro j hj
    rw [sum_comm]
    have : ∀ j' ∈ range (stateShape axes).prod, ∑ X ∈ range (unfurledShape axes).prod,
        ((starRingEnd ℂ) (toMomentum (stateShape axes) (expand b v) j) * toMomentum (stateShape axes) (expand b' v') j') *
          ((starRingEnd ℂ) (state B j X) * state B' j' X) =
        if j = j' then (if a = a' then (starRingEnd ℂ) (toMomentum (stateShape axes) (expand b v) j) *
          toMomentum (stateShape axes) (expand b' v') j' else 0) else 0 := by
      intro j' hj'
      rw [← mul_sum]
      have := (C47_tile axes).2 a a' j j' ha ha' (mem_range.1 hj) (mem_range.1 hj')
      unfold dot at this
      rw [this]
      by_cases h1 : a = a' <;> by_cases h2 : j = j' <;> simp [h1, h2]
    rw [sum_congr rfl this, sum_ite_eq, if_pos hj]
  rw [sum_congr rfl key2]
  by_cases h : a = a'
  · simp only [if_pos h]
    obtain ⟨h1, h2, h3⟩ := fT_facts (stateShape axes)
    have o := state_orthonormal (fT (stateShape axes)) (valids_fT _) (orthonormalPartss_fT _)
    have := dot_expand_expand o (toMomentum (stateShape axes) (expand b v)) (toMomentum (stateShape axes) (expand b' v'))
    rw [h1, h2] at this
    unfold dot at this ⊢
    rw [← this]
    exact sum_congr rfl fun x hx => by
      rw [expand_toMomentum _ _ (mem_range.1 hx), expand_toMomentum _ _ (mem_range.1 hx)]
  · simp only [if_neg h, sum_const_zero]

theorem blochWave_sum (axes : List (ℕ × ℕ)) (b : Basis) {ι : Type} (s : Finset ι) (c : ι → ℂ) (v : ι → ℕ → ℂ) (a X : List ℕ) :
    blochWave axes b (fun k => ∑ i ∈ s, c i * v i k) a X = ∑ i ∈ s, c i * blochWave axes b (v i) a X := by
  unfold blochWave expand
  simp only [sum_mul]
  rw [sum_comm, mul_sum, sum_div]
  refine sum_congr rfl fun i _ => ?_
  rw [← mul_div_assoc]
  congr 1
  rw [mul_sum, mul_sum, mul_sum]
  exact sum_congr rfl fun k _ => by ring

theorem blochWave_coeff (axes : List (ℕ × ℕ)) (b : Basis) {v v' : ℕ → ℂ} (h : ∀ k < size b, v k = v' k) (a X : List ℕ) :
    blochWave axes b v a X = blochWave axes b v' a X := by
  unfold blochWave expand
  rw [sum_congr rfl fun k hk => by rw [h k (mem_range.1 hk)]]

/-! ## C48 -/

/-- **C48.** The Bloch states of different samples are orthogonal, whatever the periodic parts; for the same sample their inner
product over the large cell is that of the periodic parts over the small cell. -/
theorem C48_orthogonal (axes : List (ℕ × ℕ)) (b : Basis) (hb : Valid b) (ho : OrthonormalParts b)
    (hshape : b.fundamentalShape = stateShape axes) (v v' : ℕ → ℂ) (a a' : ℕ) (ha : a < (sampleShape axes).prod)
    (ha' : a' < (sampleShape axes).prod) :
    ∑ X ∈ range (unfurledShape axes).prod,
      (starRingEnd ℂ) (blochWave axes b v (unravel (sampleShape axes) a) (unravel (unfurledShape axes) X)) *
        blochWave axes b v' (unravel (sampleShape axes) a') (unravel (unfurledShape axes) X) =
      if a = a' then dot (size b) v v' else 0 := by
  rw [blochWave_dot axes b b v v' a a' ha ha']
  have o := state_orthonormal b hb ho
  have := dot_expand_expand o v v'
  rw [show points b = (stateShape axes).prod by rw [← fundamentalShape_prod, hshape]] at this
  rw [this]

/-- **C48.** The matrix element of the conversion from the fundamental basis: the component of a function along the Bloch state
`m` (band `m / samples`, sample `m % samples`) is its inner product with that Bloch state. -/
theorem C48_from (same : Basis → Basis → Bool) (hs : Sound same) (axes : List (ℕ × ℕ)) (bands : ℕ) (b : Basis)
    (hb : Valid b) (ho : OrthonormalParts b) (hshape : b.fundamentalShape = stateShape axes) (data φ : ℕ → ℂ) :
    ∃ c, blochFrom same ⟨bands, sampleShape axes, b, data⟩ φ = some c ∧
      ∀ m < bands * (sampleShape axes).prod, c m = ∑ X ∈ range (unfurledShape axes).prod,
        (starRingEnd ℂ) (blochWave axes b (block (size b) data m)
          (unravel (sampleShape axes) (m % (sampleShape axes).prod)) (unravel (unfurledShape axes) X)) * φ X := by
  have hlen : (sampleShape axes).length = b.fundamentalShape.length := by rw [hshape]; simp [sampleShape, stateShape]
  have hpts : points b = (stateShape axes).prod := by rw [← fundamentalShape_prod, hshape]
  have hbn : b.n = size b := (methods_sizes b).1
  have hbt : b.asTransformedBasis = fT (stateShape axes) := by rw [Basis.asTransformedBasis, hshape]
  have hLt : (fT (sampleShape axes)).asTransformedBasis = fT (sampleShape axes) := by
    rw [Basis.asTransformedBasis, fundamentalShape_fT]
  have hcomp : Compatible (fT (stateShape axes)) b := hbt ▸ compatible_symm _ _ (compatible_asTransformed b)
  obtain ⟨g, hg, kg⟩ := convert_pair same hs (fT (sampleShape axes)) (fT (stateShape axes)) b (valids_fT _) (valids_fT _) hb
    (orthonormalPartss_fT _) (orthonormalPartss_fT _) (compatible_fT _) hcomp
  obtain ⟨f1, f2, f3⟩ := fT_facts (stateShape axes)
  obtain ⟨l1, l2, l3⟩ := fT_facts (sampleShape axes)
  obtain ⟨u1, u2, u3⟩ := fT_facts (unfurledShape axes)
  have hax : (⟨bands, sampleShape axes, b, data⟩ : BlochWavefunctions).axes = axes := by
    show (sampleShape axes).zip b.fundamentalShape = axes
    rw [hshape, zip_axes]
  unfold blochFrom
  rw [if_pos hlen, hax]
  dsimp only [BlochWavefunctions.list]
  rw [hLt, hbt, hg]
  refine ⟨_, rfl, fun m hm => ?_⟩
  set u := (fT (unfurledShape axes)).methods.fromF φ with hu
  have ku : ∀ p < (unfurledShape axes).prod, u p = ∑ X ∈ range (unfurledShape axes).prod,
      (starRingEnd ℂ) (state (fT (unfurledShape axes)) p X) * φ X := by
    intro p hp
    have := (lawful_basis (fT (unfurledShape axes)) (valids_fT _)).fromF φ p
      (by rw [(methods_sizes _).1, u1]; exact hp)
    rw [(methods_sizes _).2, u2] at this
    exact this
  have hns : 0 < (sampleShape axes).prod := Nat.pos_of_ne_zero fun e => by rw [e] at hm; omega
  set a := m % (sampleShape axes).prod with ha
  have ha' : a < (sampleShape axes).prod := Nat.mod_lt _ hns
  have sa := unravel_inShape _ a ha'
  have blk : ∀ x < (stateShape axes).prod,
      expand (fT (stateShape axes)) (block (size (fT (stateShape axes))) (furlRearrange axes u) a) x =
      ∑ X ∈ range (unfurledShape axes).prod, (starRingEnd ℂ) (blochPhase axes (unravel (sampleShape axes) a)
        (unravel (unfurledShape axes) X) / (Real.sqrt ((sampleShape axes).prod : ℕ) : ℂ)) * φ X *
          if x = ravel (stateShape axes) (reduce axes (unravel (unfurledShape axes) X)) then 1 else 0 := by
    intro x hx
    unfold expand
    rw [f1]
    have : ∀ k ∈ range (stateShape axes).prod, block (stateShape axes).prod (furlRearrange axes u) a k *
        state (fT (stateShape axes)) k x = ∑ X ∈ range (unfurledShape axes).prod,
          (starRingEnd ℂ) (blochPhase axes (unravel (sampleShape axes) a)
            (unravel (unfurledShape axes) X) / (Real.sqrt ((sampleShape axes).prod : ℕ) : ℂ)) * φ X *
            (state (fT (stateShape axes)) k x * (starRingEnd ℂ) (state (fT (stateShape axes)) k
              (ravel (stateShape axes) (reduce axes (unravel (unfurledShape axes) X))))) := by
      intro k hk
      have sk := unravel_inShape _ k (mem_range.1 hk)
      obtain ⟨p1, p2⟩ := places_spec axes _ _ sa sk
      have e := furl_place axes u _ _ sa sk
      rw [ravel_unravel _ _ ha', ravel_unravel _ _ (mem_range.1 hk)] at e
      rw [e, ku _ (ravel_lt _ _ p1), sum_mul]
      apply sum_congr rfl; intro X hX
      have sX := unravel_inShape _ X (mem_range.1 hX)
      have e1 : state (fT (unfurledShape axes)) (ravel (unfurledShape axes)
          (places axes (unravel (sampleShape axes) a) (unravel (stateShape axes) k))) X =
          waves (unfurledShape axes) (places axes (unravel (sampleShape axes) a) (unravel (stateShape axes) k))
            (unravel (unfurledShape axes) X) := by
        conv_lhs => rw [← ravel_unravel _ X (mem_range.1 hX)]
        exact states_fT _ _ _ p1 sX
      have e2 : state (fT (stateShape axes)) k (ravel (stateShape axes) (reduce axes (unravel (unfurledShape axes) X))) =
          waves (stateShape axes) (unravel (stateShape axes) k) (reduce axes (unravel (unfurledShape axes) X)) := by
        conv_lhs => rw [← ravel_unravel _ k (mem_range.1 hk)]
        exact states_fT _ _ _ sk (reduce_inShape axes _ sX)
      rw [e1, e2, waves_place axes _ _ _ _ sa sk p1 sX p2, map_div₀, map_mul, map_div₀]
      ring
    rw [sum_congr rfl this, sum_comm]
    apply sum_congr rfl; intro X hX
    have sX := unravel_inShape _ X (mem_range.1 hX)
    rw [← mul_sum, complete_of_orthonormal f3 hx (ravel_lt _ _ (reduce_inShape axes _ sX))]
  have gval : ∀ k < size b, g (furlRearrange axes u) (a * size b + k) = ∑ X ∈ range (unfurledShape axes).prod,
      (starRingEnd ℂ) (blochPhase axes (unravel (sampleShape axes) a)
        (unravel (unfurledShape axes) X) / (Real.sqrt ((sampleShape axes).prod : ℕ) : ℂ)) * φ X *
        (starRingEnd ℂ) (state b k (ravel (stateShape axes) (reduce axes (unravel (unfurledShape axes) X)))) := by
    intro k hk
    rw [kg _ a (by rw [l1]; exact ha') k hk, f2, sum_congr rfl fun x hx => by rw [blk x (mem_range.1 hx), mul_sum], sum_comm]
    apply sum_congr rfl; intro X hX
    have sX := unravel_inShape _ X (mem_range.1 hX)
    have hr := ravel_lt _ _ (reduce_inShape axes _ sX)
    rw [sum_eq_single (ravel (stateShape axes) (reduce axes (unravel (unfurledShape axes) X)))]
    · rw [if_pos rfl]; ring
    · intro x _ hx
      rw [if_neg hx]; ring
    · intro h; exact absurd (mem_range.2 hr) h
  dsimp only
  rw [hbn, ← ha, sum_congr rfl fun k hk => by rw [gval k (mem_range.1 hk), sum_mul], sum_comm]
  apply sum_congr rfl; intro X hX
  unfold blochWave expand
  conv_rhs => rw [map_div₀, map_mul, map_sum, mul_sum, sum_div, sum_mul]
  apply sum_congr rfl; intro k _
  rw [map_div₀, map_mul]
  show _ = (starRingEnd ℂ) _ * ((starRingEnd ℂ) (data (m * size b + k)) * _) / (starRingEnd ℂ) _ * _
  have e1 : (axes.map Prod.fst) = sampleShape axes := rfl
  have e2 : (axes.map Prod.snd) = stateShape axes := rfl
  rw [e1, e2]
  ring

/-- **C48.** The conversion to the fundamental basis gives the sum of the Bloch states with the given coefficients, provided the
basis of the Bloch states is not truncated. -/
theorem C48_into_partial (same : Basis → Basis → Bool) (hs : Sound same) (axes : List (ℕ × ℕ)) (bands : ℕ) (b : Basis)
    (hb : Valid b) (ho : OrthonormalParts b) (hshape : b.fundamentalShape = stateShape axes)
    (hfull : b.shape = stateShape axes) (hn : size b = points b) (data v : ℕ → ℂ) :
    ∃ φ, blochInto same ⟨bands, sampleShape axes, b, data⟩ v = some φ ∧
      ∀ X, InShape (unfurledShape axes) X → φ (ravel (unfurledShape axes) X) =
        ∑ m ∈ range (bands * (sampleShape axes).prod), v m * blochWave axes b (block (size b) data m)
          (unravel (sampleShape axes) (m % (sampleShape axes).prod)) X := by
  have hlen : (sampleShape axes).length = b.fundamentalShape.length := by rw [hshape]; simp [sampleShape, stateShape]
  have hpts : points b = (stateShape axes).prod := by rw [← fundamentalShape_prod, hshape]
  have hbn : b.n = size b := (methods_sizes b).1
  have hbt : b.asTransformedBasis = fT (stateShape axes) := by rw [Basis.asTransformedBasis, hshape]
  have hLt : (fT (sampleShape axes)).asTransformedBasis = fT (sampleShape axes) := by
    rw [Basis.asTransformedBasis, fundamentalShape_fT]
  have hcomp : Compatible b (fT (stateShape axes)) := hbt ▸ compatible_asTransformed b
  obtain ⟨f, hf, kf⟩ := convert_pair same hs (fT (sampleShape axes)) b (fT (stateShape axes)) (valids_fT _) hb (valids_fT _)
    (orthonormalPartss_fT _) ho (compatible_fT _) hcomp
  obtain ⟨f1, f2, f3⟩ := fT_facts (stateShape axes)
  obtain ⟨l1, l2, l3⟩ := fT_facts (sampleShape axes)
  obtain ⟨u1, u2, u3⟩ := fT_facts (unfurledShape axes)
  have hax : (⟨bands, sampleShape axes, b, data⟩ : BlochWavefunctions).axes = axes := by
    show (sampleShape axes).zip b.fundamentalShape = axes
    rw [hshape, zip_axes]
  unfold blochInto
  rw [if_pos hlen, hax]
  dsimp only [BlochWavefunctions.list]
  rw [hLt, hbt, hf, Option.bind_some, if_pos (by rw [hfull, hshape, hbn, hn, hpts]; exact ⟨rfl, rfl⟩), hfull, zip_axes]
  refine ⟨_, rfl, fun X hX => ?_⟩
  set y := flatten b.n fun j k => ∑ i ∈ range bands, v (i * (sampleShape axes).prod + j) *
    data ((i * (sampleShape axes).prod + j) * b.n + k) with hy
  have ex : ∀ c : ℕ → ℂ, ∀ x < (unfurledShape axes).prod, (fT (unfurledShape axes)).methods.intoF c x =
      expand (fT (unfurledShape axes)) c x := by
    intro c x hx
    have := (lawful_basis (fT (unfurledShape axes)) (valids_fT _)).intoF c x
      (by rw [(methods_sizes _).2, u2]; exact hx)
    rw [(methods_sizes _).1] at this
    rw [this]
    exact sum_congr rfl fun _ _ => mul_comm _ _
  rw [ex _ _ (ravel_lt _ _ hX), rearrange_expand axes _ X hX]
  rw [sum_range_mul', sum_comm]
  apply sum_congr rfl; intro a ha
  have ha' := mem_range.1 ha
  have e : ∀ x < (stateShape axes).prod, expand (fT (stateShape axes)) (block (stateShape axes).prod (f y) a) x =
      expand b (block (size b) y a) x := by
    intro x hx
    rw [← expand_toMomentum (stateShape axes) (expand b (block (size b) y a)) hx]
    apply expand_congr
    intro k hk
    have := kf y a (by rw [l1]; exact ha') k hk
    rw [hpts, f1] at this
    exact this
  rw [blochWave_congr axes e _ X hX]
  rw [blochWave_coeff axes b (v' := fun k => ∑ i ∈ range bands, v (i * (sampleShape axes).prod + a) *
    block (size b) data (i * (sampleShape axes).prod + a) k) (fun k hk => by
      unfold block
      rw [hy, hbn]
      unfold flatten
      rw [Nat.mul_comm a, Nat.mul_add_div (by omega), Nat.mul_add_mod, Nat.div_eq_of_lt hk, Nat.mod_eq_of_lt hk,
        Nat.add_zero])]
  rw [blochWave_sum axes b (range bands) (fun i => v (i * (sampleShape axes).prod + a))
    (fun i => block (size b) data (i * (sampleShape axes).prod + a))]
  apply sum_congr rfl; intro i _
  rw [Nat.mul_comm i, Nat.mul_add_mod, Nat.mod_eq_of_lt ha']

theorem sampled_valid : ∀ (axes : List (ℕ × ℕ)) (os : List ℤ) (a : List ℕ), InShape (sampleShape axes) a → IsOffset axes os a →
    Valid (.tuple (sampleAxes axes os)) ∧ OrthonormalParts (.tuple (sampleAxes axes os)) ∧
      Compatible (.tuple (sampleAxes axes os)) (fT (unfurledShape axes))
  | [], [], [], _, _ => ⟨trivial, trivial, trivial⟩
  | (ns, nx) :: axes, o :: os, a :: as, ha, h => by
    obtain ⟨h1, h2, h3⟩ := sampled_valid axes os as ha.2 h.2
    exact ⟨⟨Nat.zero_lt_of_lt ha.1, h1⟩, ⟨trivial, h2⟩, ⟨Nat.mul_comm _ _, h3⟩⟩
  | [], _ :: _, _, _, h => by simp [IsOffset] at h
  | [], [], _ :: _, _, h => by simp [IsOffset] at h
  | _ :: _, [], _, _, h => by simp [IsOffset] at h
  | _ :: _, _ :: _, [], _, h => by simp [IsOffset] at h

/-- **C48.** `get_bloch_states` gives the Bloch states: together with `C48_from` and `C48_into_partial`, the comparison of the
conversions with the explicit basis of these states, which the code makes for small bases, never fails. -/
theorem C48_states (same : Basis → Basis → Bool) (hs : Sound same) (axes : List (ℕ × ℕ)) (bands : ℕ) (b : Basis)
    (hb : Valid b) (ho : OrthonormalParts b) (hshape : b.fundamentalShape = stateShape axes) (data : ℕ → ℂ) (m : ℕ)
    (hm : m < bands * (sampleShape axes).prod) :
    ∃ s, blochVector same ⟨bands, sampleShape axes, b, data⟩ m = some s ∧
      ∀ X, InShape (unfurledShape axes) X →
        expand (.tuple ((unfurledShape axes).map .fundamentalTransformed)) s (ravel (unfurledShape axes) X) =
          blochWave axes b (block (size b) data m) (unravel (sampleShape axes) (m % (sampleShape axes).prod)) X := by
  have hbn : b.n = size b := (methods_sizes b).1
  have hpts : points b = (stateShape axes).prod := by rw [← fundamentalShape_prod, hshape]
  have hbt : b.asTransformedBasis = fT (stateShape axes) := by rw [Basis.asTransformedBasis, hshape]
  have hns : 0 < (sampleShape axes).prod := Nat.pos_of_ne_zero fun e => by rw [e] at hm; omega
  have sa := unravel_inShape (sampleShape axes) (m % (sampleShape axes).prod) (Nat.mod_lt _ hns)
  have hax : (⟨bands, sampleShape axes, b, data⟩ : BlochWavefunctions).axes = axes := by
    show (sampleShape axes).zip b.fundamentalShape = axes
    rw [hshape, zip_axes]
  obtain ⟨g, hg, kg⟩ := expand_convert same hs b (fT (stateShape axes)) hb (valids_fT _) ho (orthonormalPartss_fT _)
    (hbt ▸ compatible_asTransformed b) (by rw [(fT_facts _).1, (fT_facts _).2.1])
  obtain ⟨os, hos, io⟩ := sampledBasis_eq axes _ _ sa (labels_nat axes _ sa)
  have h1 := C47_momenta axes _ _ sa (labels_nat axes _ sa)
  obtain ⟨vs, os', cs⟩ := sampled_valid axes os _ sa io
  obtain ⟨h, hh, kh⟩ := expand_convert same hs (sampledBasis axes ((unravel (sampleShape axes)
    (m % (sampleShape axes).prod)).map fun i : ℕ => (i : ℤ))) (fT (unfurledShape axes)) (hos ▸ vs) (valids_fT _) (hos ▸ os')
    (orthonormalPartss_fT _) (hos ▸ cs) (by rw [(fT_facts _).1, (fT_facts _).2.1])
  unfold blochVector
  rw [hax]
  dsimp only
  rw [hbt, hg, Option.bind_some, hh]
  refine ⟨_, rfl, fun X hX => ?_⟩
  rw [kh _ _ (by rw [h1.2.1]; exact ravel_lt _ _ hX), sampled_expand axes _ _ sa (labels_nat axes _ sa) _ X hX]
  have hr := ravel_lt _ _ (reduce_inShape axes X hX)
  rw [hbn, show expand (.tuple ((stateShape axes).map .fundamentalTransformed)) _ _ = _ from
    kg (block (size b) data m) _ (by rw [hpts]; exact hr)]
  rfl

/-- **C48.** If the wavefunctions of each sample are orthonormal, converting to the fundamental basis and back changes nothing. -/
theorem C48_round_trip_partial (same : Basis → Basis → Bool) (hs : Sound same) (axes : List (ℕ × ℕ)) (bands : ℕ) (b : Basis)
    (hb : Valid b) (ho : OrthonormalParts b) (hshape : b.fundamentalShape = stateShape axes)
    (hfull : b.shape = stateShape axes) (hn : size b = points b) (data v : ℕ → ℂ)
    (horth : ∀ i < bands, ∀ i' < bands, ∀ a < (sampleShape axes).prod,
      dot (size b) (block (size b) data (i * (sampleShape axes).prod + a))
        (block (size b) data (i' * (sampleShape axes).prod + a)) = if i = i' then 1 else 0) :
    ∃ φ c, blochInto same ⟨bands, sampleShape axes, b, data⟩ v = some φ ∧
      blochFrom same ⟨bands, sampleShape axes, b, data⟩ φ = some c ∧ ∀ m < bands * (sampleShape axes).prod, c m = v m := by
  obtain ⟨φ, hφ, kφ⟩ := C48_into_partial same hs axes bands b hb ho hshape hfull hn data v
  obtain ⟨c, hc, kc⟩ := C48_from same hs axes bands b hb ho hshape data φ
  refine ⟨φ, c, hφ, hc, fun m hm => ?_⟩
  have hns : 0 < (sampleShape axes).prod := Nat.pos_of_ne_zero fun e => by rw [e] at hm; omega
  rw [kc m hm]
  have e : ∀ X ∈ range (unfurledShape axes).prod, (starRingEnd ℂ) (blochWave axes b (block (size b) data m)
      (unravel (sampleShape axes) (m % (sampleShape axes).prod)) (unravel (unfurledShape axes) X)) * φ X =
      ∑ m' ∈ range (bands * (sampleShape axes).prod), v m' * ((starRingEnd ℂ) (blochWave axes b (block (size b) data m)
      (unravel (sampleShape axes) (m % (sampleShape axes).prod)) (unravel (unfurledShape axes) X)) *
        blochWave axes b (block (size b) data m')
          (unravel (sampleShape axes) (m' % (sampleShape axes).prod)) (unravel (unfurledShape axes) X)) := by
    intro X hX
    have := kφ _ (unravel_inShape _ X (mem_range.1 hX))
    rw [ravel_unravel _ X (mem_range.1 hX)] at this
    rw [this, mul_sum]
    exact sum_congr rfl fun _ _ => by ring
  rw [sum_congr rfl e, sum_comm]
  refine (sum_eq_single m ?_ ?_).trans ?_
  · intro m' hm' hne
    rw [← mul_sum, C48_orthogonal axes b hb ho hshape _ _ _ _ (Nat.mod_lt _ hns) (Nat.mod_lt _ hns)]
    split
    · rename_i h
      have q := horth (m / (sampleShape axes).prod) ((Nat.div_lt_iff_lt_mul hns).2 hm) (m' / (sampleShape axes).prod)
        ((Nat.div_lt_iff_lt_mul hns).2 (mem_range.1 hm')) (m % (sampleShape axes).prod) (Nat.mod_lt _ hns)
      rw [Nat.div_add_mod', h, Nat.div_add_mod'] at q
      rw [q, if_neg (fun e => hne (by rw [← Nat.div_add_mod' m' (sampleShape axes).prod, ← e, ← h, Nat.div_add_mod'])),
        mul_zero]
    · rw [mul_zero]
  · intro h; exact absurd (mem_range.2 hm) h
  · rw [← mul_sum, C48_orthogonal axes b hb ho hshape _ _ _ _ (Nat.mod_lt _ hns) (Nat.mod_lt _ hns), if_pos rfl]
    have q := horth (m / (sampleShape axes).prod) ((Nat.div_lt_iff_lt_mul hns).2 hm) (m / (sampleShape axes).prod)
        ((Nat.div_lt_iff_lt_mul hns).2 hm) (m % (sampleShape axes).prod) (Nat.mod_lt _ hns)
    rw [Nat.div_add_mod', if_pos rfl] at q
    rw [q, mul_one]

/-- **C48, negation.** For Bloch states in a truncated basis the conversion to the fundamental basis always raises, although
the conversion from it works (`C48_from`). -/
theorem C48_truncated_negation (same : Basis → Basis → Bool) (axes : List (ℕ × ℕ)) (bands : ℕ) (b : Basis)
    (ht : size b ≠ points b) (data v : ℕ → ℂ) : blochInto same ⟨bands, sampleShape axes, b, data⟩ v = none := by
  unfold blochInto
  split
  · have h : ¬(b.shape.prod = b.fundamentalShape.prod ∧ b.n = b.fundamentalShape.prod) := by
      rintro ⟨_, h⟩
      rw [show b.n = size b from (methods_sizes b).1, fundamentalShape_prod] at h
      exact ht h
    simp only [if_neg h]
    cases Basis.convert same _ _ <;> rfl
  · rfl

-- the hypotheses: six samples, Bloch states with twenty points, and a truncated basis
example : (Basis.tuple [.fundamental 4, .fundamentalTransformed 5]).fundamentalShape = stateShape [(3, 4), (2, 5)] ∧
    (Basis.tuple [.fundamental 4, .fundamentalTransformed 5]).shape = stateShape [(3, 4), (2, 5)] ∧
    size (Basis.tuple [.fundamental 4, .fundamentalTransformed 5]) = points (Basis.tuple [.fundamental 4, .fundamentalTransformed 5]) ∧
    size (Basis.tuple [.fundamental 4, .transformed 3 5]) ≠ points (Basis.tuple [.fundamental 4, .transformed 3 5]) := by
  refine ⟨rfl, rfl, rfl, ?_⟩
  simp [size, points, sizes, pointss]

-- orthonormal wavefunctions: one band, two samples, the first state and the second state of a basis with two states
example : ∀ i < 1, ∀ i' < 1, ∀ a < (sampleShape [(2, 2)]).prod,
    dot (size (.tuple [.fundamental 2])) (block (size (.tuple [.fundamental 2])) (fun k => if k = 0 ∨ k = 3 then 1 else 0)
        (i * (sampleShape [(2, 2)]).prod + a))
      (block (size (.tuple [.fundamental 2])) (fun k => if k = 0 ∨ k = 3 then 1 else 0)
        (i' * (sampleShape [(2, 2)]).prod + a)) = if i = i' then 1 else 0 := by
  intro i hi i' hi' a ha
  have ha' : a < 2 := by simpa [sampleShape] using ha
  obtain rfl : i = 0 := by omega
  obtain rfl : i' = 0 := by omega
  interval_cases a <;> simp [dot, block, size, sizes, sum_range_succ]

end Verif
