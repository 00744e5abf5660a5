import Verif.Model.Dynamics
import Verif.Props.C03_Index

/-!
# C38, C83: hop operators, and rate matrices built from jump rates
-/

set_option autoImplicit false

namespace Verif

open Finset Spec

/-- Index `i` is index `j` displaced by `s`, with periodic boundaries, on every axis. -/
def Displaced : List ℕ → List ℤ → List ℕ → List ℕ → Prop
  | [], [], [], [] => True
  | n :: ns, s :: ss, j :: js, i :: is => (i : ℤ) ≡ j + s [ZMOD n] ∧ Displaced ns ss js is
  | _, _, _, _ => False

theorem rollIndex_spec : ∀ (ns : List ℕ) (ss : List ℤ) (is : List ℕ), ss.length = ns.length → InShape ns is →
    InShape ns (rollIndex ns ss is) ∧ Displaced ns ss (rollIndex ns ss is) is
  | [], [], [], _, _ => ⟨trivial, trivial⟩
  | n :: ns, s :: ss, i :: is, h, hi => by
    obtain ⟨h1, h2⟩ := rollIndex_spec ns ss is (by simpa using h) hi.2
    have hn : (0 : ℤ) < n := by have := hi.1; omega
    have hlt := Int.emod_lt_of_pos ((i : ℤ) - s) hn
    have hge := Int.emod_nonneg ((i : ℤ) - s) hn.ne'
    refine ⟨⟨by omega, h1⟩, ?_, h2⟩
    rw [Int.toNat_of_nonneg hge]
    have := (Int.mod_modEq ((i : ℤ) - s) n).add_right s
    simpa using this.symm

theorem Displaced.unique : ∀ (ns : List ℕ) (ss : List ℤ) (js js' is : List ℕ), InShape ns js → InShape ns js' →
    Displaced ns ss js is → Displaced ns ss js' is → js = js'
  | [], [], [], [], [], _, _, _, _ => rfl
  | n :: ns, s :: ss, j :: js, j' :: js', i :: is, h, h', hd, hd' => by
    have h1 := (hd.1.symm.trans hd'.1).add_right_cancel' s
    have h2 : j = j' := by
      have := Int.natCast_modEq_iff.1 h1
      rw [Nat.ModEq, Nat.mod_eq_of_lt h.1, Nat.mod_eq_of_lt h'.1] at this
      exact this
    rw [h2, Displaced.unique ns ss js js' is h.2 h'.2 hd.2 hd'.2]

theorem Displaced.neg : ∀ (ns : List ℕ) (ss : List ℤ) (js is : List ℕ), Displaced ns ss js is →
    Displaced ns (ss.map Neg.neg) is js
  | [], [], [], [], _ => trivial
  | n :: ns, s :: ss, j :: js, i :: is, h => by
    refine ⟨?_, Displaced.neg ns ss js is h.2⟩
    have := h.1.symm.add_right (-s)
    simpa using this

theorem Displaced.length : ∀ (ns : List ℕ) (ss : List ℤ) (js is : List ℕ), Displaced ns ss js is → ss.length = ns.length
  | [], [], [], [], _ => rfl
  | n :: ns, s :: ss, j :: js, i :: is, h => by simp [Displaced.length ns ss js is h.2]

theorem ravel_inj (shape i j : List ℕ) (hi : InShape shape i) (hj : InShape shape j) (h : ravel shape i = ravel shape j) :
    i = j := by
  rw [← unravel_ravel shape i hi, ← unravel_ravel shape j hj, h]

theorem stackedNkPoints_length (ns : List ℕ) (k : ℕ) : (stackedNkPoints ns k).length = ns.length := by
  unfold stackedNkPoints
  have : ∀ (ns : List ℕ) (k : ℕ), (unravel ns k).length = ns.length := by
    intro ns
    induction ns with
    | nil => intro k; rfl
    | cons n ns ih => intro k; simp [unravel, ih]
  simp [this]

/-- **C38.** The hop vectors of `ndim` axes are exactly the vectors with entries -1, 0, 1, each once; hop 0 is zero; other
indices raise. -/
theorem C38_hop_vectors (ndim : ℕ) :
    getHopShift 0 ndim = some (List.replicate ndim 0) ∧
    (∀ hop, 3 ^ ndim ≤ hop → getHopShift hop ndim = none) ∧
    (∀ hop s, getHopShift hop ndim = some s → s.length = ndim ∧ ∀ x ∈ s, x = -1 ∨ x = 0 ∨ x = 1) ∧
    (∀ s : List ℤ, s.length = ndim → (∀ x ∈ s, x = -1 ∨ x = 0 ∨ x = 1) → ∃! hop, getHopShift hop ndim = some s) := by
  have h3 : nkPoints 3 0 = 0 ∧ nkPoints 3 1 = 1 ∧ nkPoints 3 2 = -1 := by decide
  have hget : ∀ hop, hop < 3 ^ ndim → getHopShift hop ndim = some (stackedNkPoints (List.replicate ndim 3) hop) :=
    fun hop h => by unfold getHopShift; exact if_pos h
  have hsome : ∀ hop s, getHopShift hop ndim = some s → hop < 3 ^ ndim ∧ s = stackedNkPoints (List.replicate ndim 3) hop := by
    intro hop s h
    unfold getHopShift at h
    split_ifs at h with h1
    exact ⟨h1, (Option.some.inj h).symm⟩
  have hprod : (List.replicate ndim 3).prod = 3 ^ ndim := by rw [List.prod_replicate]
  refine ⟨?_, fun hop h => ?_, ?_, ?_⟩
  · rw [hget 0 (by positivity)]
    congr 1
    clear hget hsome hprod
    have : ∀ m : ℕ, stackedNkPoints (List.replicate m 3) 0 = List.replicate m 0 := by
      intro m
      induction m with
      | zero => rfl
      | succ m ih =>
        unfold stackedNkPoints at ih ⊢
        simp only [List.replicate_succ, unravel, Nat.zero_div, Nat.zero_mod, List.zipWith_cons_cons, ih, h3.1]
    exact this ndim
  · unfold getHopShift; exact if_neg (by omega)
  · intro hop s h
    obtain ⟨h1, rfl⟩ := hsome hop s h
    refine ⟨by rw [stackedNkPoints_length, List.length_replicate], ?_⟩
    have : ∀ (m hop : ℕ), ∀ x ∈ stackedNkPoints (List.replicate m 3) hop, x = -1 ∨ x = 0 ∨ x = 1 := by
      intro m
      induction m with
      | zero => intro hop x hx; simp [stackedNkPoints] at hx
      | succ m ih =>
        intro hop x hx
        unfold stackedNkPoints at hx ih
        simp only [List.replicate_succ, unravel, List.zipWith_cons_cons, List.mem_cons] at hx
        rcases hx with rfl | hx
        · have hlt : hop / (List.replicate m 3).prod % 3 < 3 := Nat.mod_lt _ (by omega)
          generalize hop / (List.replicate m 3).prod % 3 = a at hlt
          have ha : a = 0 ∨ a = 1 ∨ a = 2 := by omega
          rcases ha with rfl | rfl | rfl
          · exact Or.inr (Or.inl h3.1)
          · exact Or.inr (Or.inr h3.2.1)
          · exact Or.inl h3.2.2
        · exact ih hop x hx
    exact this ndim hop
  · intro s hs hx
    -- the slots of the entries
    let slots : List ℕ := s.map fun x => (x % 3).toNat
    have hin : ∀ (m : ℕ) (s : List ℤ), s.length = m → InShape (List.replicate m 3) (s.map fun x => (x % 3).toNat) := by
      intro m
      induction m with
      | zero => intro s hs; rw [List.length_eq_zero_iff.1 hs]; trivial
      | succ m ih =>
        intro s hs
        match s, hs with
        | x :: s, hs => exact ⟨by show (x % 3).toNat < 3; omega, ih s (by simpa using hs)⟩
    have hval : ∀ (m : ℕ) (s : List ℤ), s.length = m → (∀ x ∈ s, x = -1 ∨ x = 0 ∨ x = 1) →
        List.zipWith (fun n j => nkPoints n j) (List.replicate m 3) (s.map fun x => (x % 3).toNat) = s := by
      intro m
      induction m with
      | zero => intro s hs _; rw [List.length_eq_zero_iff.1 hs]; rfl
      | succ m ih =>
        intro s hs hx
        match s, hs with
        | x :: s, hs =>
          simp only [List.replicate_succ, List.map_cons, List.zipWith_cons_cons]
          rw [ih s (by simpa using hs) (fun y hy => hx y (List.mem_cons_of_mem _ hy))]
          congr 1
          rcases hx x List.mem_cons_self with rfl | rfl | rfl
          · exact h3.2.2
          · exact h3.1
          · exact h3.2.1
    have hinj : ∀ (m : ℕ) (a b : List ℕ), InShape (List.replicate m 3) a → InShape (List.replicate m 3) b →
        List.zipWith (fun n j => nkPoints n j) (List.replicate m 3) a =
          List.zipWith (fun n j => nkPoints n j) (List.replicate m 3) b → a = b := by
      intro m
      induction m with
      | zero =>
        intro a b ha hb _
        match a, b, ha, hb with
        | [], [], _, _ => rfl
      | succ m ih =>
        intro a b ha hb h
        match a, b, ha, hb with
        | x :: a, y :: b, ha, hb =>
          simp only [List.replicate_succ, List.zipWith_cons_cons, List.cons.injEq] at h
          rw [C03_nk_points_injective 3 x y ha.1 hb.1 h.1, ih a b ha.2 hb.2 h.2]
    have hslots : InShape (List.replicate ndim 3) slots := hin ndim s hs
    refine ⟨ravel (List.replicate ndim 3) slots, ?_, ?_⟩
    · show getHopShift _ _ = _
      rw [hget _ (by rw [← hprod]; exact ravel_lt _ _ hslots)]
      congr 1
      unfold stackedNkPoints
      rw [unravel_ravel _ _ hslots]
      exact hval ndim s hs hx
    · intro hop hhop
      obtain ⟨h1, h2⟩ := hsome hop s hhop
      rw [← hprod] at h1
      rw [← ravel_unravel _ hop h1]
      congr 1
      refine hinj ndim _ _ (unravel_inShape _ _ h1) hslots ?_
      rw [hval ndim s hs hx, h2]
      rfl

/-- The entries of the hop operator. -/
theorem hop_entry {hop : ℕ} {shape : List ℕ} {s : List ℤ} (hs : getHopShift hop shape.length = some s)
    {op : List ℕ → List ℕ → ℝ} (hop' : buildHopOperator hop shape = some op) {i j : List ℕ} (hi : InShape shape i)
    (hj : InShape shape j) : (Displaced shape s j i → op i j = 1) ∧ (¬ Displaced shape s j i → op i j = 0) := by
  have hlen : s.length = shape.length := ((C38_hop_vectors shape.length).2.2.1 hop s hs).1
  unfold buildHopOperator at hop'
  rw [hs, Option.map_some] at hop'
  have := Option.some.inj hop'
  subst this
  obtain ⟨h1, h2⟩ := rollIndex_spec shape s i hlen hi
  constructor
  · intro hd
    show (if _ then (1 : ℝ) else 0) = 1
    rw [if_pos]
    rw [Displaced.unique shape s _ _ i h1 hj h2 hd]
  · intro hd
    show (if _ then (1 : ℝ) else 0) = 0
    rw [if_neg]
    intro h
    rw [ravel_inj shape _ _ h1 hj h] at h2
    exact hd h2

/-- **C38.** For every shape (any number of axes) and hop: the operator exists, and moves the amplitude at index `j` to the
index displaced by the hop vector with periodic boundaries. -/
theorem C38_translation (hop : ℕ) (shape : List ℕ) (hh : hop < 3 ^ shape.length) :
    ∃ s op, getHopShift hop shape.length = some s ∧ buildHopOperator hop shape = some op ∧
      ∀ (psi : List ℕ → ℝ) (i j : List ℕ), InShape shape i → InShape shape j → Displaced shape s j i →
        ∑ k ∈ range shape.prod, op i (unravel shape k) * psi (unravel shape k) = psi j := by
  have hg : getHopShift hop shape.length = some (stackedNkPoints (List.replicate shape.length 3) hop) := by
    unfold getHopShift; exact if_pos hh
  refine ⟨_, _, hg, by unfold buildHopOperator; rw [hg]; rfl, ?_⟩
  intro psi i j hi hj hd
  have hb := fun k (hk : InShape shape k) => hop_entry hg (op := _) (by unfold buildHopOperator; rw [hg]; rfl) hi hk
  rw [sum_eq_single (ravel shape j)]
  · have e := unravel_ravel shape j hj
    rw [e, (hb j hj).1 hd, one_mul]
  · intro k hk hne
    have hk' := unravel_inShape shape k (mem_range.1 hk)
    rw [(hb _ hk').2, zero_mul]
    intro hd'
    apply hne
    rw [Displaced.unique shape _ j _ i hj hk' hd hd', ravel_unravel shape k (mem_range.1 hk)]
  · intro h
    exact absurd (mem_range.2 (ravel_lt shape j hj)) h

/-- **C38.** Every hop operator is unitary (its entries are real): the rows are orthonormal and the columns are
orthonormal. -/
theorem C38_unitary (hop : ℕ) (shape : List ℕ) (op : List ℕ → List ℕ → ℝ) (ho : buildHopOperator hop shape = some op)
    (i j : List ℕ) (hi : InShape shape i) (hj : InShape shape j) :
    (∑ k ∈ range shape.prod, op i (unravel shape k) * op j (unravel shape k) = if i = j then 1 else 0) ∧
    (∑ k ∈ range shape.prod, op (unravel shape k) i * op (unravel shape k) j = if i = j then 1 else 0) := by
  cases hs : getHopShift hop shape.length with
  | none => unfold buildHopOperator at ho; rw [hs] at ho; simp at ho
  | some s =>
    have hlen : s.length = shape.length := ((C38_hop_vectors shape.length).2.2.1 hop s hs).1
    constructor
    · obtain ⟨h1, h2⟩ := rollIndex_spec shape s i hlen hi
      rw [sum_eq_single (ravel shape (rollIndex shape s i))]
      · rw [unravel_ravel _ _ h1, (hop_entry hs ho hi h1).1 h2, one_mul]
        split_ifs with hij
        · subst hij; exact (hop_entry hs ho hi h1).1 h2
        · refine (hop_entry hs ho hj h1).2 fun hd => hij ?_
          exact Displaced.unique shape _ _ _ _ hi hj (h2.neg) (hd.neg)
      · intro k hk hne
        have hk' := unravel_inShape shape k (mem_range.1 hk)
        rw [(hop_entry hs ho hi hk').2, zero_mul]
        intro hd
        apply hne
        rw [Displaced.unique shape _ _ _ _ h1 hk' h2 hd, ravel_unravel shape k (mem_range.1 hk)]
      · intro h; exact absurd (mem_range.2 (ravel_lt shape _ h1)) h
    · obtain ⟨h1, h2⟩ := rollIndex_spec shape (s.map Neg.neg) i (by simpa using hlen) hi
      have h2' : Displaced shape s i (rollIndex shape (s.map Neg.neg) i) := by
        have := h2.neg
        rwa [List.map_map, show (Neg.neg ∘ Neg.neg : ℤ → ℤ) = id from by funext x; simp, List.map_id] at this
      rw [sum_eq_single (ravel shape (rollIndex shape (s.map Neg.neg) i))]
      · rw [unravel_ravel _ _ h1, (hop_entry hs ho h1 hi).1 h2', one_mul]
        split_ifs with hij
        · subst hij; exact (hop_entry hs ho h1 hi).1 h2'
        · refine (hop_entry hs ho h1 hj).2 fun hd => hij ?_
          exact Displaced.unique shape _ _ _ _ hi hj h2' hd
      · intro k hk hne
        have hk' := unravel_inShape shape k (mem_range.1 hk)
        rw [(hop_entry hs ho hk' hi).2, zero_mul]
        intro hd
        apply hne
        rw [Displaced.unique shape _ _ _ _ h1 hk' h2 hd.neg, ravel_unravel shape k (mem_range.1 hk)]
      · intro h; exact absurd (mem_range.2 (ravel_lt shape _ h1)) h

theorem displaced_zero : ∀ (ns i j : List ℕ), InShape ns i → InShape ns j →
    (Displaced ns (List.replicate ns.length 0) j i ↔ i = j)
  | [], [], [], _, _ => ⟨fun _ => rfl, fun _ => trivial⟩
  | n :: ns, i :: is, j :: js, hi, hj => by
    have ih := displaced_zero ns is js hi.2 hj.2
    simp only [List.length_cons, List.replicate_succ, Displaced, add_zero, List.cons.injEq]
    rw [ih]
    apply and_congr_left'
    rw [Int.natCast_modEq_iff, Nat.ModEq, Nat.mod_eq_of_lt hi.1, Nat.mod_eq_of_lt hj.1]

/-- **C38.** Hop 0 is the identity; every hop has an opposite hop (of the opposite vector), and the product of the two
operators is the identity. -/
theorem C38_inverse (shape : List ℕ) :
    (∃ op, buildHopOperator 0 shape = some op ∧
      ∀ i j, InShape shape i → InShape shape j → op i j = if i = j then 1 else 0) ∧
    ∀ hop op, buildHopOperator hop shape = some op → ∃ s hop' op', getHopShift hop shape.length = some s ∧
      getHopShift hop' shape.length = some (s.map Neg.neg) ∧ buildHopOperator hop' shape = some op' ∧
      ∀ i j, InShape shape i → InShape shape j →
        ∑ k ∈ range shape.prod, op i (unravel shape k) * op' (unravel shape k) j = if i = j then 1 else 0 := by
  constructor
  · have h0 := (C38_hop_vectors shape.length).1
    have hb : buildHopOperator 0 shape = some (fun i j =>
        if ravel shape (rollIndex shape (List.replicate shape.length 0) i) = ravel shape j then 1 else 0) := by
      unfold buildHopOperator; rw [h0]; rfl
    refine ⟨_, hb, fun i j hi hj => ?_⟩
    have h1 := hop_entry h0 hb hi hj
    rw [displaced_zero shape i j hi hj] at h1
    by_cases hij : i = j
    · rw [if_pos hij]; exact h1.1 hij
    · rw [if_neg hij]; exact h1.2 hij
  · intro hop op ho
    cases hs : getHopShift hop shape.length with
    | none => unfold buildHopOperator at ho; rw [hs] at ho; simp at ho
    | some s =>
      obtain ⟨hlen, hval⟩ := (C38_hop_vectors shape.length).2.2.1 hop s hs
      obtain ⟨hop', hh', _⟩ := (C38_hop_vectors shape.length).2.2.2 (s.map Neg.neg) (by simpa using hlen) (by
        intro x hx
        obtain ⟨y, hy, rfl⟩ := List.mem_map.1 hx
        rcases hval y hy with rfl | rfl | rfl <;> simp)
      have hb' : buildHopOperator hop' shape = some (fun i j =>
          if ravel shape (rollIndex shape (s.map Neg.neg) i) = ravel shape j then 1 else 0) := by
        unfold buildHopOperator; rw [hh']; rfl
      refine ⟨s, hop', _, rfl, hh', hb', fun i j hi hj => ?_⟩
      rw [← (C38_unitary hop shape op ho i j hi hj).1]
      apply sum_congr rfl; intro k hk
      have hk' := unravel_inShape shape k (mem_range.1 hk)
      congr 1
      by_cases hd : Displaced shape s (unravel shape k) j
      · rw [(hop_entry hh' hb' hk' hj).1 hd.neg, (hop_entry hs ho hj hk').1 hd]
      · rw [(hop_entry hs ho hj hk').2 hd]
        refine (hop_entry hh' hb' hk' hj).2 fun hd' => hd ?_
        have := hd'.neg
        rwa [List.map_map, show (Neg.neg ∘ Neg.neg : ℤ → ℤ) = id from by funext x; simp, List.map_id] at this

/-- Hop 5 of two axes is `(1, -1)`; on a 3 by 4 grid it moves `(2, 0)` to `(0, 3)`. -/
example : getHopShift 5 2 = some [1, -1] ∧ Displaced [3, 4] [1, -1] [2, 0] [0, 3] := by
  refine ⟨by decide, ?_⟩
  unfold Displaced; refine ⟨by decide, ?_⟩
  unfold Displaced; exact ⟨by decide, trivial⟩

/-! ## C83 -/

theorem Displaced.shift_unique : ∀ (ns : List ℕ) (ss ss' : List ℤ) (js is : List ℕ), (∀ n ∈ ns, 3 ≤ n) →
    (∀ x ∈ ss, x = -1 ∨ x = 0 ∨ x = 1) → (∀ x ∈ ss', x = -1 ∨ x = 0 ∨ x = 1) →
    Displaced ns ss js is → Displaced ns ss' js is → ss = ss'
  | [], [], [], [], [], _, _, _, _, _ => rfl
  | n :: ns, s :: ss, s' :: ss', j :: js, i :: is, hn, hs, hs', hd, hd' => by
    have h1 := (hd.1.symm.trans hd'.1).add_left_cancel' (j : ℤ)
    have hn3 := hn n List.mem_cons_self
    have h2 : s = s' := by
      have h3 := h1.dvd
      obtain ⟨c, hc⟩ := h3
      rcases hs s List.mem_cons_self with rfl | rfl | rfl <;> rcases hs' s' List.mem_cons_self with rfl | rfl | rfl <;>
        first
        | rfl
        | (exfalso
           rcases lt_trichotomy c 0 with h | h | h
           · nlinarith
           · subst h; omega
           · nlinarith)
    rw [h2, Displaced.shift_unique ns ss ss' js is (fun m hm => hn m (List.mem_cons_of_mem _ hm))
      (fun x hx => hs x (List.mem_cons_of_mem _ hx)) (fun x hx => hs' x (List.mem_cons_of_mem _ hx)) hd.2 hd'.2]

theorem hop_some {shape : List ℕ} {hop : ℕ} (h : hop < 3 ^ shape.length) :
    ∃ s op, getHopShift hop shape.length = some s ∧ buildHopOperator hop shape = some op := by
  have hg : getHopShift hop shape.length = some (stackedNkPoints (List.replicate shape.length 3) hop) := by
    unfold getHopShift; exact if_pos h
  exact ⟨_, _, hg, by unfold buildHopOperator; rw [hg]; rfl⟩

/-- **C83 (partial).** The rate matrix built from jump rates, when the number of bands is passed: on a supercell of at
least three by three cells the rate from site `i`, band `n0` to the site one hop away, band `n1`, is the jump rate of that
hop, all other rates are zero; the total rate leaving a band towards another band is the sum of the jump rates. Missing:
without the number of bands (see `C83_negation`). -/
theorem C83_a_matrix_partial (B : ℕ) (jump : ℕ → ℕ → ℕ → ℂ) (shape : List ℕ) (h2 : shape.length = 2) :
    ∃ A, getAMatrixFromJumpMatrix B jump shape (some B) = some A ∧
      (∀ i j, InShape shape i → InShape shape j → ∀ n0 n1 hop s, (∀ n ∈ shape, 3 ≤ n) → hop < 9 →
        getHopShift hop 2 = some s → Displaced shape s i j → A i n0 j n1 = jump n0 n1 hop) ∧
      (∀ i j, InShape shape i → InShape shape j → ∀ n0 n1,
        (∀ hop s, getHopShift hop 2 = some s → ¬ Displaced shape s i j) → A i n0 j n1 = 0) ∧
      (∀ i, InShape shape i → ∀ n0 n1,
        ∑ k ∈ range shape.prod, A i n0 (unravel shape k) n1 = ∑ hop ∈ range 9, jump n0 n1 hop) := by
  have hA : getAMatrixFromJumpMatrix B jump shape (some B) = some (fun i n0 j n1 => ∑ hop ∈ range 9,
      match buildHopOperator hop shape with
      | some op => jump n0 n1 hop * (op j i : ℂ)
      | none => 0) := by
    unfold getAMatrixFromJumpMatrix
    exact if_pos ⟨rfl, h2⟩
  have h9 : ∀ hop, hop < 9 → hop < 3 ^ shape.length := by rw [h2]; intro hop h; omega
  refine ⟨_, hA, ?_, ?_, ?_⟩
  · intro i j hi hj n0 n1 hop s hn hhop hs hd
    rw [sum_eq_single hop]
    · obtain ⟨s', op, hs', ho⟩ := hop_some (h9 hop hhop)
      rw [h2, hs] at hs'
      have := Option.some.inj hs'
      subst this
      rw [ho]
      dsimp only
      rw [(hop_entry (by rw [h2]; exact hs) ho hj hi).1 hd]
      simp
    · intro hop' hh' hne
      obtain ⟨s', op, hs', ho⟩ := hop_some (h9 hop' (mem_range.1 hh'))
      rw [ho]
      dsimp only
      rw [(hop_entry hs' ho hj hi).2, Complex.ofReal_zero, mul_zero]
      intro hd'
      rw [h2] at hs'
      obtain ⟨hl, hv⟩ := (C38_hop_vectors 2).2.2.1 hop s hs
      obtain ⟨_, hv'⟩ := (C38_hop_vectors 2).2.2.1 hop' s' hs'
      have hss := Displaced.shift_unique shape s s' i j hn hv hv' hd hd'
      subst hss
      exact hne ((C38_hop_vectors 2).2.2.2 s hl hv |>.unique hs' hs)
    · intro h; exact absurd (mem_range.2 hhop) h
  · intro i j hi hj n0 n1 hno
    apply sum_eq_zero; intro hop hh
    obtain ⟨s', op, hs', ho⟩ := hop_some (h9 hop (mem_range.1 hh))
    rw [ho]
    dsimp only
    rw [(hop_entry hs' ho hj hi).2, Complex.ofReal_zero, mul_zero]
    rw [h2] at hs'
    exact hno hop s' hs'
  · intro i hi n0 n1
    rw [sum_comm]
    apply sum_congr rfl; intro hop hh
    obtain ⟨s', op, hs', ho⟩ := hop_some (h9 hop (mem_range.1 hh))
    rw [ho]
    dsimp only
    have hlen : s'.length = shape.length := ((C38_hop_vectors shape.length).2.2.1 hop s' hs').1
    obtain ⟨r1, r2⟩ := rollIndex_spec shape (s'.map Neg.neg) i (by simpa using hlen) hi
    have r2' : Displaced shape s' i (rollIndex shape (s'.map Neg.neg) i) := by
      have := r2.neg
      rwa [List.map_map, show (Neg.neg ∘ Neg.neg : ℤ → ℤ) = id from by funext x; simp, List.map_id] at this
    rw [sum_eq_single (ravel shape (rollIndex shape (s'.map Neg.neg) i))]
    · rw [unravel_ravel _ _ r1, (hop_entry hs' ho r1 hi).1 r2']
      simp
    · intro k hk hne
      have hk' := unravel_inShape shape k (mem_range.1 hk)
      rw [(hop_entry hs' ho hk' hi).2, Complex.ofReal_zero, mul_zero]
      intro hd
      apply hne
      rw [Displaced.unique shape _ _ _ _ r1 hk' r2 hd.neg, ravel_unravel shape k (mem_range.1 hk)]
    · intro h; exact absurd (mem_range.2 (ravel_lt shape _ r1)) h

/-- A supercell of three by four cells, and the cells `(0, 0)` and `(2, 1)`. -/
example : ∃ shape i j : List ℕ, shape.length = 2 ∧ InShape shape i ∧ InShape shape j ∧ (∀ n ∈ shape, 3 ≤ n) ∧ i ≠ j :=
  ⟨[3, 4], [0, 0], [2, 1], rfl, by simp [InShape], by simp [InShape], by simp, by simp⟩

/-- **C83 (negation).** Without the number of bands, it raises for every jump matrix with at least two bands. -/
theorem C83_negation (B : ℕ) (hB : 2 ≤ B) (jump : ℕ → ℕ → ℕ → ℂ) (shape : List ℕ) :
    getAMatrixFromJumpMatrix B jump shape none = none := by
  unfold getAMatrixFromJumpMatrix
  refine if_neg ?_
  rintro ⟨h, _⟩
  simp only [Option.getD_none] at h
  nlinarith [Nat.mul_le_mul hB hB]

end Verif
