import Verif.Model.Wavepacket
import Verif.Spec.Wavepacket
import Verif.Lemmas.Convert
import Mathlib.Tactic.Ring
import Mathlib.Tactic.Linarith

/-! Index bookkeeping of `_unfurl_momentum_basis_wavepacket`. -/

set_option autoImplicit false

namespace Verif

open Finset Spec

/-- Interleaved pairs. -/
def flatPairs (ps : List (ℕ × ℕ)) : List ℕ := ps.flatMap fun p => [p.1, p.2]

theorem flatPairs_cons (p : ℕ × ℕ) (ps : List (ℕ × ℕ)) : flatPairs (p :: ps) = p.1 :: p.2 :: flatPairs ps := rfl

theorem flatPairs_length (ps : List (ℕ × ℕ)) : (flatPairs ps).length = 2 * ps.length := by
  induction ps with
  | nil => rfl
  | cons p ps ih => rw [flatPairs_cons, List.length_cons, List.length_cons, ih, List.length_cons]; ring

theorem flatPairs_even (ps : List (ℕ × ℕ)) (i : ℕ) : (flatPairs ps)[2 * i]? = (ps[i]?).map Prod.fst := by
  induction ps generalizing i with
  | nil => simp [flatPairs]
  | cons p ps ih =>
    rw [flatPairs_cons]
    cases i with
    | zero => simp
    | succ i =>
      rw [show 2 * (i + 1) = 2 * i + 1 + 1 by ring, List.getElem?_cons_succ, List.getElem?_cons_succ,
        List.getElem?_cons_succ, ih]

theorem flatPairs_odd (ps : List (ℕ × ℕ)) (i : ℕ) : (flatPairs ps)[2 * i + 1]? = (ps[i]?).map Prod.snd := by
  induction ps generalizing i with
  | nil => simp [flatPairs]
  | cons p ps ih =>
    rw [flatPairs_cons]
    cases i with
    | zero => simp
    | succ i =>
      rw [show 2 * (i + 1) + 1 = 2 * i + 1 + 1 + 1 by ring, List.getElem?_cons_succ, List.getElem?_cons_succ,
        List.getElem?_cons_succ, ih]

theorem unfurlAxes_eq (nd : ℕ) : unfurlAxes nd = flatPairs ((List.range nd).map fun i => (nd + i, i)) := by
  unfold unfurlAxes flatPairs
  rw [List.flatMap_map]

theorem unfurlAxes_nodup (nd : ℕ) : (unfurlAxes nd).Nodup := by
  unfold unfurlAxes
  rw [List.nodup_flatMap]
  refine ⟨fun i hi => ?_, ?_⟩
  · have := List.mem_range.1 hi
    simp; omega
  · refine List.nodup_range.pairwise_of_forall_ne fun i hi j hj hij => ?_
    have h1 := List.mem_range.1 hi
    have h2 := List.mem_range.1 hj
    intro x hx hx'
    simp at hx hx'
    omega

theorem idxOf_of_getElem? {l : List ℕ} (hl : l.Nodup) {k v : ℕ} (h : l[k]? = some v) : l.idxOf v = k := by
  obtain ⟨hk, e⟩ := List.getElem?_eq_some_iff.1 h
  rw [← e]
  exact hl.idxOf_getElem k hk

theorem transpose_unfurl (ps : List (ℕ × ℕ)) (n : ℕ) (hn : ps.length = n) :
    transposeIndex (unfurlAxes n) (flatPairs ps) = ps.map Prod.snd ++ ps.map Prod.fst := by
  have hlen : (unfurlAxes n).length = 2 * n := by rw [unfurlAxes_eq, flatPairs_length]; simp
  unfold transposeIndex
  apply List.ext_getElem?
  intro i
  rw [hlen, List.getElem?_map]
  by_cases hi : i < 2 * n
  · rw [List.getElem?_range hi, Option.map_some, List.getD_eq_getElem?_getD]
    by_cases h1 : i < n
    · have : (unfurlAxes n).idxOf i = 2 * i + 1 := by
        apply idxOf_of_getElem? (unfurlAxes_nodup n)
        rw [unfurlAxes_eq, flatPairs_odd]
        simp [List.getElem?_range h1]
      rw [this, flatPairs_odd, List.getElem?_append_left (by simpa [hn] using h1), List.getElem?_map,
        List.getElem?_eq_getElem (by omega)]
      rfl
    · have : (unfurlAxes n).idxOf i = 2 * (i - n) := by
        apply idxOf_of_getElem? (unfurlAxes_nodup n)
        rw [unfurlAxes_eq, flatPairs_even]
        have : i - n < n := by omega
        simp [List.getElem?_range this]
        omega
      rw [this, flatPairs_even, List.getElem?_append_right (by simp; omega), List.getElem?_map, List.length_map, hn,
        List.getElem?_eq_getElem (by omega)]
      rfl
  · rw [List.getElem?_eq_none (by simpa using hi), Option.map_none, List.getElem?_eq_none (by simp; omega)]

/-- Position on each axis split into the number of the block and the position in the block. -/
def splitIdx : List (ℕ × ℕ) → List ℕ → List (ℕ × ℕ)
  | a :: axes, i :: is => (i / a.1, i % a.1) :: splitIdx axes is
  | _, _ => []

theorem splitIdx_length : ∀ (axes : List (ℕ × ℕ)) (is : List ℕ), InShape (unfurledShape axes) is →
    (splitIdx axes is).length = axes.length
  | [], [], _ => rfl
  | a :: axes, i :: is, h => by
    rw [splitIdx, List.length_cons, List.length_cons, splitIdx_length axes is h.2]
  | [], _ :: _, h => by simp [unfurledShape, InShape] at h
  | _ :: _, [], h => by simp [unfurledShape, InShape] at h

theorem prod_pairs (axes : List (ℕ × ℕ)) :
    (axes.flatMap fun a => [a.2, a.1]).prod = (unfurledShape axes).prod := by
  induction axes with
  | nil => rfl
  | cons a axes ih =>
    rw [List.flatMap_cons, List.prod_append, ih]
    show [a.2, a.1].prod * _ = a.1 * a.2 * (unfurledShape axes).prod
    rw [List.prod_cons, List.prod_singleton]
    ring

theorem split_ravel : ∀ (axes : List (ℕ × ℕ)) (is : List ℕ), InShape (unfurledShape axes) is →
    InShape (axes.flatMap fun a => [a.2, a.1]) (flatPairs (splitIdx axes is)) ∧
      ravel (axes.flatMap fun a => [a.2, a.1]) (flatPairs (splitIdx axes is)) = ravel (unfurledShape axes) is
  | [], [], _ => ⟨trivial, rfl⟩
  | (ns, nx) :: axes, i :: is, h => by
    obtain ⟨h1, h2⟩ := split_ravel axes is h.2
    have hi : i < ns * nx := h.1
    have hs : 0 < ns := Nat.pos_of_ne_zero fun e => by simp [e] at hi
    refine ⟨⟨Nat.div_lt_of_lt_mul hi, Nat.mod_lt _ hs, h1⟩, ?_⟩
    show i / ns * ([ns] ++ axes.flatMap fun a => [a.2, a.1]).prod + (i % ns * (axes.flatMap fun a => [a.2, a.1]).prod +
      ravel (axes.flatMap fun a => [a.2, a.1]) (flatPairs (splitIdx axes is))) =
        i * (unfurledShape axes).prod + ravel (unfurledShape axes) is
    rw [h2, List.prod_append, List.prod_singleton, prod_pairs]
    have e := Nat.div_add_mod i ns
    have e2 : i * (unfurledShape axes).prod = (ns * (i / ns) + i % ns) * (unfurledShape axes).prod := by rw [e]
    rw [e2]
    ring
  | [], _ :: _, h => by simp [unfurledShape, InShape] at h
  | _ :: _, [], h => by simp [unfurledShape, InShape] at h

/-- The place at which the result of the rearrangement at `p` is read, for one axis: sample and state. -/
def source1 (ns nx p : ℕ) : ℕ × ℕ :=
  let q := (((p : ℤ) - -((ns : ℤ) / 2 + ns * ((nx : ℤ) / 2))) % ((ns * nx : ℕ) : ℤ)).toNat
  ((((q % ns : ℕ) : ℤ) - (ns : ℤ) / 2) % (ns : ℤ) |>.toNat, (((q / ns : ℕ) : ℤ) - (nx : ℤ) / 2) % (nx : ℤ) |>.toNat)

/-- For all axes. -/
def sources : List (ℕ × ℕ) → List ℕ → List (ℕ × ℕ)
  | a :: axes, p :: ps => source1 a.1 a.2 p :: sources axes ps
  | _, _ => []

theorem rollAxes_inShape : ∀ (shape : List ℕ) (shift : List ℤ) (idx : List ℕ), InShape shape idx → shift.length = shape.length →
    InShape shape (List.zipWith3 (fun n s j => (((j : ℕ) : ℤ) - s) % ((n : ℕ) : ℤ) |>.toNat) shape shift idx)
  | [], [], [], _, _ => trivial
  | n :: ns, s :: ss, i :: is, h, hl => by
    refine ⟨?_, rollAxes_inShape ns ss is h.2 (by simpa using hl)⟩
    have : (0 : ℤ) < n := by exact_mod_cast (Nat.zero_le i).trans_lt h.1
    have h1 := Int.emod_nonneg ((i : ℤ) - s) this.ne'
    have h2 := Int.emod_lt_of_pos ((i : ℤ) - s) this
    show (((i : ℤ) - s) % (n : ℤ)).toNat < n
    omega
  | [], _ :: _, _, _, hl => by simp at hl
  | _ :: _, [], _, _, hl => by simp at hl
  | [], [], _ :: _, h, _ => by simp [InShape] at h
  | _ :: _, _ :: _, [], h, _ => by simp [InShape] at h

theorem zipWith3_append {α β γ δ : Type*} (f : α → β → γ → δ) : ∀ (a a' : List α) (b b' : List β) (c c' : List γ),
    a.length = b.length → a.length = c.length →
    List.zipWith3 f (a ++ a') (b ++ b') (c ++ c') = List.zipWith3 f a b c ++ List.zipWith3 f a' b' c'
  | [], _, [], _, [], _, _, _ => rfl
  | x :: a, a', y :: b, b', z :: c, c', h1, h2 => by
    show f x y z :: List.zipWith3 f (a ++ a') (b ++ b') (c ++ c') = _
    rw [zipWith3_append f a a' b b' c c' (by simpa using h1) (by simpa using h2)]
    rfl
  | [], _, _ :: _, _, _, _, h, _ => by simp at h
  | _ :: _, _, [], _, _, _, h, _ => by simp at h
  | [], _, [], _, _ :: _, _, _, h => by simp at h
  | _ :: _, _, _ :: _, _, [], _, _, h => by simp at h

theorem unfurlRearrange_eq (axes : List (ℕ × ℕ)) (data : ℕ → ℂ) (p : List ℕ) (hp : InShape (unfurledShape axes) p) :
    unfurlRearrange axes data (ravel (unfurledShape axes) p) =
      data (ravel (sampleShape axes ++ stateShape axes)
        ((sources axes p).map Prod.fst ++ (sources axes p).map Prod.snd)) := by
  unfold unfurlRearrange
  rw [unravel_ravel _ _ hp]
  unfold rollAxes
  have hq := rollAxes_inShape (unfurledShape axes) (axes.map fun a => -((a.1 : ℤ) / 2 + a.1 * ((a.2 : ℤ) / 2))) p hp
    (by simp [unfurledShape])
  set q := List.zipWith3 (fun n s j => (((j : ℕ) : ℤ) - s) % ((n : ℕ) : ℤ) |>.toNat) (unfurledShape axes)
    (axes.map fun a => -((a.1 : ℤ) / 2 + a.1 * ((a.2 : ℤ) / 2))) p with hqd
  unfold reshapeAxes
  obtain ⟨s1, s2⟩ := split_ravel axes q hq
  rw [← s2, unravel_ravel _ _ s1]
  beta_reduce
  rw [transpose_unfurl _ _ (splitIdx_length axes q hq)]
  unfold fftshiftAxes rollAxes
  rw [List.map_append, zipWith3_append _ _ _ _ _ _ _ (by simp) (by simp [sampleShape, splitIdx_length axes q hq])]
  congr 3
  · rw [hqd]
    clear hq s1 s2 hqd q
    induction axes generalizing p with
    | nil => cases p <;> rfl
    | cons a axes ih =>
      cases p with
      | nil => simp [unfurledShape, InShape] at hp
      | cons x p =>
        show _ :: _ = _ :: _
        congr 1
        exact ih p hp.2
  · rw [hqd]
    clear hq s1 s2 hqd q
    induction axes generalizing p with
    | nil => cases p <;> rfl
    | cons a axes ih =>
      cases p with
      | nil => simp [unfurledShape, InShape] at hp
      | cons x p =>
        show _ :: _ = _ :: _
        congr 1
        exact ih p hp.2

theorem freq_half {n a : ℕ} (ha : a < n) : 0 ≤ freq n a + (n : ℤ) / 2 ∧ freq n a + (n : ℤ) / 2 < n := by
  unfold freq; split <;> omega

theorem source1_eq {ns nx a j p : ℕ} (ha : a < ns) (hj : j < nx)
    (h : ((ns * nx : ℕ) : ℤ) ∣ p - (ns * freq nx j + freq ns a)) : source1 ns nx p = (a, j) := by
  obtain ⟨u0, u1⟩ := freq_half ha
  obtain ⟨v0, v1⟩ := freq_half hj
  have hN : (0 : ℤ) < ns := by omega
  have key : ((p : ℤ) - -((ns : ℤ) / 2 + ns * ((nx : ℤ) / 2))) % ((ns * nx : ℕ) : ℤ) =
      ns * (freq nx j + (nx : ℤ) / 2) + (freq ns a + (ns : ℤ) / 2) := by
    obtain ⟨c, hc⟩ := h
    have e : (p : ℤ) - -((ns : ℤ) / 2 + ns * ((nx : ℤ) / 2)) =
        ns * (freq nx j + (nx : ℤ) / 2) + (freq ns a + (ns : ℤ) / 2) + ((ns * nx : ℕ) : ℤ) * c := by
      linear_combination hc
    rw [e, Int.add_mul_emod_self_left]
    apply Int.emod_eq_of_lt
    · positivity
    · push_cast
      nlinarith
  obtain ⟨u, hu⟩ := Int.eq_ofNat_of_zero_le u0
  obtain ⟨v, hv⟩ := Int.eq_ofNat_of_zero_le v0
  rw [hu] at u1 key
  rw [hv] at v1 key
  have hu1 : u < ns := by exact_mod_cast u1
  unfold source1
  dsimp only
  rw [key]
  have e2 : ((ns : ℤ) * (v : ℤ) + (u : ℤ)).toNat = u + ns * v := by
    rw [show (ns : ℤ) * (v : ℤ) + (u : ℤ) = ((u + ns * v : ℕ) : ℤ) by push_cast; ring, Int.toNat_natCast]
  rw [e2, Nat.add_mul_mod_self_left, Nat.mod_eq_of_lt hu1, Nat.add_mul_div_left _ _ (by omega), Nat.div_eq_of_lt hu1,
    zero_add]
  have f1 : (((u : ℕ) : ℤ) - (ns : ℤ) / 2) % (ns : ℤ) = a := by
    rw [show ((u : ℕ) : ℤ) - (ns : ℤ) / 2 = freq ns a by rw [← show freq ns a + (ns : ℤ) / 2 = (u : ℤ) from hu]; ring,
      freq_emod, Int.emod_eq_of_lt (by omega) (by omega)]
  have f2 : (((v : ℕ) : ℤ) - (nx : ℤ) / 2) % (nx : ℤ) = j := by
    rw [show ((v : ℕ) : ℤ) - (nx : ℤ) / 2 = freq nx j by rw [← show freq nx j + (nx : ℤ) / 2 = (v : ℤ) from hv]; ring,
      freq_emod, Int.emod_eq_of_lt (by omega) (by omega)]
  rw [f1, f2, Int.toNat_natCast, Int.toNat_natCast]

theorem sources_eq : ∀ (axes : List (ℕ × ℕ)) (a j p : List ℕ), InShape (sampleShape axes) a → InShape (stateShape axes) j →
    AtMomentum axes a j p → (sources axes p).map Prod.fst = a ∧ (sources axes p).map Prod.snd = j
  | [], [], [], [], _, _, _ => ⟨rfl, rfl⟩
  | (ns, nx) :: axes, a :: as, j :: js, p :: ps, ha, hj, h => by
    obtain ⟨e1, e2⟩ := sources_eq axes as js ps ha.2 hj.2 h.2
    have := source1_eq ha.1 hj.1 h.1
    simp only [sources, List.map_cons, this, e1, e2, and_self]
  | [], [], [], _ :: _, _, _, h => by simp [AtMomentum] at h
  | [], [], _ :: _, _, _, _, h => by simp [AtMomentum] at h
  | [], _ :: _, _, _, _, _, h => by simp [AtMomentum] at h
  | _ :: _, [], _, _, _, _, h => by simp [AtMomentum] at h
  | _ :: _, _ :: _, [], _, _, _, h => by simp [AtMomentum] at h
  | _ :: _, _ :: _, _ :: _, [], _, _, h => by simp [AtMomentum] at h

/-- The slot of a momentum, one axis. -/
def place1 (ns nx a j : ℕ) : ℕ := ((ns * freq nx j + freq ns a) % ((ns * nx : ℕ) : ℤ)).toNat

/-- The slots of the momenta of all axes. -/
def places : List (ℕ × ℕ) → List ℕ → List ℕ → List ℕ
  | (ns, nx) :: axes, a :: as, j :: js => place1 ns nx a j :: places axes as js
  | _, _, _ => []

theorem place1_spec {ns nx a j : ℕ} (ha : a < ns) (hj : j < nx) :
    place1 ns nx a j < ns * nx ∧ ((ns * nx : ℕ) : ℤ) ∣ place1 ns nx a j - (ns * freq nx j + freq ns a) := by
  have hN : 0 < ns * nx := Nat.mul_pos (by omega) (by omega)
  have hN' : (0 : ℤ) < ((ns * nx : ℕ) : ℤ) := by exact_mod_cast hN
  have h1 := Int.emod_nonneg (ns * freq nx j + freq ns a) hN'.ne'
  have h2 := Int.emod_lt_of_pos (ns * freq nx j + freq ns a) hN'
  unfold place1
  refine ⟨by omega, ?_⟩
  rw [Int.toNat_of_nonneg h1]
  exact (Int.mod_modEq _ _).symm.dvd

theorem places_spec : ∀ (axes : List (ℕ × ℕ)) (a j : List ℕ), InShape (sampleShape axes) a → InShape (stateShape axes) j →
    InShape (unfurledShape axes) (places axes a j) ∧ AtMomentum axes a j (places axes a j)
  | [], [], [], _, _ => ⟨trivial, trivial⟩
  | (ns, nx) :: axes, a :: as, j :: js, ha, hj => by
    obtain ⟨e1, e2⟩ := places_spec axes as js ha.2 hj.2
    obtain ⟨f1, f2⟩ := place1_spec ha.1 hj.1
    exact ⟨⟨f1, e1⟩, ⟨f2, e2⟩⟩
  | [], _ :: _, _, h, _ => by simp [sampleShape, InShape] at h
  | [], [], _ :: _, _, h => by simp [stateShape, InShape] at h
  | _ :: _, [], _, h, _ => by simp [sampleShape, InShape] at h
  | _ :: _, _ :: _, [], _, h => by simp [stateShape, InShape] at h

theorem source1_spec {ns nx p : ℕ} (hp : p < ns * nx) : (source1 ns nx p).1 < ns ∧ (source1 ns nx p).2 < nx ∧
    ((ns * nx : ℕ) : ℤ) ∣ p - (ns * freq nx (source1 ns nx p).2 + freq ns (source1 ns nx p).1) := by
  have hs : 0 < ns := Nat.pos_of_ne_zero fun e => by simp [e] at hp
  have hx : 0 < nx := Nat.pos_of_ne_zero fun e => by simp [e] at hp
  have hs' : (0 : ℤ) < ns := by exact_mod_cast hs
  have hx' : (0 : ℤ) < nx := by exact_mod_cast hx
  have hN' : (0 : ℤ) < ((ns * nx : ℕ) : ℤ) := by exact_mod_cast Nat.mul_pos hs hx
  have q0 := Int.emod_nonneg ((p : ℤ) - -((ns : ℤ) / 2 + ns * ((nx : ℤ) / 2))) hN'.ne'
  have q1 := Int.emod_lt_of_pos ((p : ℤ) - -((ns : ℤ) / 2 + ns * ((nx : ℤ) / 2))) hN'
  have qd : ((ns * nx : ℕ) : ℤ) ∣ ((p : ℤ) - -((ns : ℤ) / 2 + ns * ((nx : ℤ) / 2))) -
      ((p : ℤ) - -((ns : ℤ) / 2 + ns * ((nx : ℤ) / 2))) % ((ns * nx : ℕ) : ℤ) := Int.dvd_self_sub_emod
  unfold source1
  dsimp only
  obtain ⟨q, hq⟩ := Int.eq_ofNat_of_zero_le q0
  rw [hq] at q1 qd
  rw [hq, Int.toNat_natCast]
  have hq1 : q < ns * nx := by exact_mod_cast q1
  set u := q % ns with hu
  set v := q / ns with hv
  have hu1 : u < ns := Nat.mod_lt _ hs
  have hv1 : v < nx := Nat.div_lt_of_lt_mul hq1
  have hquv : q = ns * v + u := (Nat.div_add_mod q ns).symm
  have a0 := Int.emod_nonneg ((u : ℤ) - (ns : ℤ) / 2) hs'.ne'
  have a1 := Int.emod_lt_of_pos ((u : ℤ) - (ns : ℤ) / 2) hs'
  have b0 := Int.emod_nonneg ((v : ℤ) - (nx : ℤ) / 2) hx'.ne'
  have b1 := Int.emod_lt_of_pos ((v : ℤ) - (nx : ℤ) / 2) hx'
  set a := (((u : ℤ) - (ns : ℤ) / 2) % (ns : ℤ)).toNat with ha
  set j := (((v : ℤ) - (nx : ℤ) / 2) % (nx : ℤ)).toNat with hj
  have ha1 : a < ns := by omega
  have hj1 : j < nx := by omega
  refine ⟨ha1, hj1, ?_⟩
  have fa : freq ns a = (u : ℤ) - (ns : ℤ) / 2 := by
    apply onGrid_unique (freq_onGrid ha1) (by unfold OnGrid; omega)
    rw [freq_emod, ha, Int.toNat_of_nonneg a0, Int.emod_emod]
  have fj : freq nx j = (v : ℤ) - (nx : ℤ) / 2 := by
    have hv2 : (v : ℤ) < nx := by exact_mod_cast hv1
    have hv3 : (0 : ℤ) ≤ v := Int.natCast_nonneg v
    clear_value v
    apply onGrid_unique (freq_onGrid hj1) (by unfold OnGrid; omega)
    rw [freq_emod, hj, Int.toNat_of_nonneg b0, Int.emod_emod]
  rw [fa, fj]
  obtain ⟨c, hc⟩ := qd
  refine ⟨c, ?_⟩
  rw [hquv] at hc
  push_cast at hc ⊢
  linear_combination hc

theorem sources_spec : ∀ (axes : List (ℕ × ℕ)) (p : List ℕ), InShape (unfurledShape axes) p →
    InShape (sampleShape axes) ((sources axes p).map Prod.fst) ∧ InShape (stateShape axes) ((sources axes p).map Prod.snd) ∧
      AtMomentum axes ((sources axes p).map Prod.fst) ((sources axes p).map Prod.snd) p
  | [], [], _ => ⟨trivial, trivial, trivial⟩
  | (ns, nx) :: axes, p :: ps, h => by
    obtain ⟨e1, e2, e3⟩ := sources_spec axes ps h.2
    obtain ⟨f1, f2, f3⟩ := source1_spec h.1
    exact ⟨⟨f1, e1⟩, ⟨f2, e2⟩, ⟨f3, e3⟩⟩
  | [], _ :: _, h => by simp [unfurledShape, InShape] at h
  | _ :: _, [], h => by simp [unfurledShape, InShape] at h

theorem atMomentum_unique : ∀ (axes : List (ℕ × ℕ)) (a j p p' : List ℕ), InShape (unfurledShape axes) p →
    InShape (unfurledShape axes) p' → AtMomentum axes a j p → AtMomentum axes a j p' → p = p'
  | [], [], [], [], [], _, _, _, _ => rfl
  | (ns, nx) :: axes, a :: as, j :: js, p :: ps, p' :: ps', h, h', m, m' => by
    rw [atMomentum_unique axes as js ps ps' h.2 h'.2 m.2 m'.2]
    congr 1
    apply (dvd_sub_iff_eq h.1 h'.1).1
    have := dvd_sub m.1 m'.1
    rwa [sub_sub_sub_cancel_right] at this
  | [], _, _, _ :: _, _, h, _, _, _ => by simp [unfurledShape, InShape] at h
  | _ :: _, _, _, [], _, h, _, _, _ => by simp [unfurledShape, InShape] at h
  | [], _, _, [], _ :: _, _, h, _, _ => by simp [unfurledShape, InShape] at h
  | _ :: _, _, _, _ :: _, [], _, h, _, _ => by simp [unfurledShape, InShape] at h
  | [], _ :: _, _, [], [], _, _, h, _ => by simp [AtMomentum] at h
  | [], [], _ :: _, [], [], _, _, h, _ => by simp [AtMomentum] at h
  | _ :: _, [], _, _ :: _, _ :: _, _, _, h, _ => by simp [AtMomentum] at h
  | _ :: _, _ :: _, [], _ :: _, _ :: _, _, _, h, _ => by simp [AtMomentum] at h

theorem sum_place1 (ns nx : ℕ) (f : ℕ → ℂ) :
    ∑ p ∈ range (ns * nx), f p = ∑ a ∈ range ns, ∑ j ∈ range nx, f (place1 ns nx a j) := by
  rw [← Finset.sum_product' (range ns) (range nx) fun a j => f (place1 ns nx a j)]
  refine Finset.sum_nbij' (fun p => source1 ns nx p) (fun x => place1 ns nx x.1 x.2) ?_ ?_ ?_ ?_ ?_
  · intro p hp
    obtain ⟨h1, h2, _⟩ := source1_spec (mem_range.1 hp)
    exact Finset.mem_product.2 ⟨mem_range.2 h1, mem_range.2 h2⟩
  · intro x hx
    obtain ⟨h1, h2⟩ := Finset.mem_product.1 hx
    exact mem_range.2 (place1_spec (mem_range.1 h1) (mem_range.1 h2)).1
  · intro p hp
    obtain ⟨h1, h2, h3⟩ := source1_spec (mem_range.1 hp)
    obtain ⟨g1, g2⟩ := place1_spec h1 h2
    apply (dvd_sub_iff_eq g1 (mem_range.1 hp)).1
    have := dvd_sub g2 h3
    rwa [sub_sub_sub_cancel_right] at this
  · intro x hx
    obtain ⟨h1, h2⟩ := Finset.mem_product.1 hx
    exact source1_eq (mem_range.1 h1) (mem_range.1 h2) (place1_spec (mem_range.1 h1) (mem_range.1 h2)).2
  · intro p hp
    obtain ⟨h1, h2, h3⟩ := source1_spec (mem_range.1 hp)
    obtain ⟨g1, g2⟩ := place1_spec h1 h2
    have := dvd_sub g2 h3
    rw [sub_sub_sub_cancel_right] at this
    rw [(dvd_sub_iff_eq g1 (mem_range.1 hp)).1 this]

theorem nsum_comm_range (ns : List ℕ) (m : ℕ) (f : ℕ → List ℕ → ℂ) :
    ∑ j ∈ range m, nsum ns (f j) = nsum ns (fun is => ∑ j ∈ range m, f j is) := (nsum_sum ns m f).symm

/-- The slots of the large cell are the places of all components of all samples. -/
theorem nsum_places (axes : List (ℕ × ℕ)) (f : List ℕ → ℂ) :
    nsum (unfurledShape axes) f = nsum (sampleShape axes) fun a => nsum (stateShape axes) fun j => f (places axes a j) := by
  induction axes generalizing f with
  | nil => rfl
  | cons a axes ih =>
    obtain ⟨ns, nx⟩ := a
    show ∑ p ∈ range (ns * nx), nsum (unfurledShape axes) (fun ps => f (p :: ps)) =
      ∑ a ∈ range ns, nsum (sampleShape axes) fun as => ∑ j ∈ range nx, nsum (stateShape axes) fun js =>
        f (place1 ns nx a j :: places axes as js)
    rw [sum_place1]
    apply sum_congr rfl; intro a _
    rw [nsum_sum]
    exact sum_congr rfl fun j _ => ih _

end Verif
