import Verif.Model.Collapse
import Verif.Props.C38_Hops
import Verif.Props.C48_Bloch
import Verif.Props.C121_Overlaps

/-!
# C132: collapse operators made of hops of a whole supercell
-/

set_option autoImplicit false

namespace Verif

open Finset Spec

namespace Spec

/-- The rate at which the operators transfer the population of site `i`, band `n0` to site `j`, band `n1`. -/
noncomputable def hopRate (ops : List (List ℕ → ℕ → List ℕ → ℕ → ℝ)) (i : List ℕ) (n0 : ℕ) (j : List ℕ) (n1 : ℕ) : ℝ :=
  (ops.map fun L => L j n1 i n0 ^ 2).sum

/-- Every cell of the supercell sees the same rates. -/
def SameRates (shape : List ℕ) (A : List ℕ → ℕ → List ℕ → ℕ → ℝ) : Prop :=
  ∀ (n0 n1 : ℕ) (s : List ℤ) (i j i' j' : List ℕ), InShape shape i → InShape shape j → InShape shape i' → InShape shape j' →
    Displaced shape s i j → Displaced shape s i' j' → A i n0 j n1 = A i' n0 j' n1

/-- Sites at most one cell apart along every axis. -/
def OneHop (shape : List ℕ) (i j : List ℕ) : Prop :=
  ∃ s : List ℤ, (∀ x ∈ s, x = -1 ∨ x = 0 ∨ x = 1) ∧ Displaced shape s i j

end Spec

theorem pyIndices_some : ∀ (shape : List ℕ) (s : List ℤ), (∀ n ∈ shape, 2 ≤ n) → s.length = shape.length →
    (∀ x ∈ s, x = -1 ∨ x = 0 ∨ x = 1) → ∃ t, pyIndices shape s = some t ∧ InShape shape t ∧
      Displaced shape s (List.replicate shape.length 0) t
  | [], [], _, _, _ => ⟨[], rfl, trivial, trivial⟩
  | n :: ns, x :: ss, hn, hl, hs => by
    obtain ⟨t, h1, h2, h3⟩ := pyIndices_some ns ss (fun m hm => hn m (List.mem_cons_of_mem _ hm)) (by simpa using hl)
      fun y hy => hs y (List.mem_cons_of_mem _ hy)
    have hn2 := hn n List.mem_cons_self
    have hn0 : (0 : ℤ) < n := by omega
    obtain ⟨k, hk, hlt, hd⟩ : ∃ k, pyIndex n x = some k ∧ k < n ∧ (k : ℤ) ≡ x [ZMOD n] := by
      unfold pyIndex
      rcases hs x List.mem_cons_self with rfl | rfl | rfl
      · refine ⟨n - 1, ?_, by omega, ?_⟩
        · split_ifs <;> first | omega | (congr 1; omega)
        · rw [Int.modEq_iff_dvd]; exact ⟨-1, by push_cast [Nat.cast_sub (by omega : 1 ≤ n)]; ring⟩
      · refine ⟨0, ?_, by omega, by rfl⟩
        split_ifs <;> first | omega | rfl | (congr 1; omega)
      · refine ⟨1, ?_, by omega, by rfl⟩
        split_ifs <;> first | omega | rfl | (congr 1; omega)
    refine ⟨k :: t, ?_, ⟨hlt, h2⟩, ?_⟩
    · unfold pyIndices
      rw [hk, h1]; rfl
    · refine ⟨?_, h3⟩
      simpa using hd

theorem sum_filterMap_id {α : Type*} (l : List (Option α)) (f : α → ℝ) :
    ((l.filterMap id).map f).sum = (l.map fun o => (o.map f).getD 0).sum := by
  induction l with
  | nil => rfl
  | cons a l ih =>
    cases a with
    | none => rw [List.filterMap_cons_none rfl, ih]; simp
    | some a =>
      show (f a :: (l.filterMap id).map f).sum = _
      rw [List.sum_cons, ih, List.map_cons, List.sum_cons]; rfl

theorem sum_flatMap' {α β : Type*} (l : List α) (g : α → List β) (f : β → ℝ) :
    ((l.flatMap g).map f).sum = (l.map fun a => ((g a).map f).sum).sum := by
  induction l with
  | nil => rfl
  | cons a l ih => simp [List.flatMap_cons, ih]

theorem sum_list_range (n : ℕ) (f : ℕ → ℝ) : ((List.range n).map f).sum = ∑ k ∈ range n, f k := by
  induction n with
  | zero => rfl
  | succ n ih => rw [List.range_succ, List.map_append, List.sum_append, ih, sum_range_succ]; simp

theorem sum_list_filter (l : List ℕ) (p : ℕ → Prop) [DecidablePred p] (f : ℕ → ℝ) :
    ((l.filter fun k => p k).map f).sum = (l.map fun k => if p k then f k else 0).sum := by
  induction l with
  | nil => rfl
  | cons a l ih =>
    by_cases h : p a
    · rw [List.filter_cons_of_pos (by simpa using h), List.map_cons, List.map_cons, List.sum_cons, List.sum_cons, ih, if_pos h]
    · rw [List.filter_cons_of_neg (by simpa using h), List.map_cons, List.sum_cons, ih, if_neg h, zero_add]

/-- The rate of the operator of one hop. -/
noncomputable def keptRate (factor rate : ℝ) : ℝ := if factor * rate < 1 then 0 else factor * rate

theorem simplifiedCollapseStep_some (shape : List ℕ) (h2 : shape.length = 2) (hn : ∀ n ∈ shape, 2 ≤ n) (A : SiteOperator)
    (factor : ℝ) (n0 n1 hop : ℕ) (hhop : hop < 9) :
    ∃ (s : List ℤ) (target : List ℕ) (o : Option SiteOperator), getHopShift hop 2 = some s ∧ InShape shape target ∧
      Displaced shape s [0, 0] target ∧ simplifiedCollapseStep shape A factor (n0, n1, hop) = some o ∧
      (∀ L, o = some L → 1 ≤ factor * A [0, 0] n0 target n1 ∧ ∀ i m j n, InShape shape i → InShape shape j →
        (m = n1 ∧ n = n0 ∧ Displaced shape s j i → L i m j n = Real.sqrt (factor * A [0, 0] n0 target n1)) ∧
        (¬ (m = n1 ∧ n = n0 ∧ Displaced shape s j i) → L i m j n = 0)) ∧
      (o = none → factor * A [0, 0] n0 target n1 < 1) := by
  obtain ⟨s, op, hs, ho⟩ := hop_some (shape := shape) (hop := hop) (by rw [h2]; omega)
  have hs' := hs
  rw [h2] at hs'
  obtain ⟨hl, hv⟩ := (C38_hop_vectors 2).2.2.1 hop s hs'
  obtain ⟨t, ht1, ht2, ht3⟩ := pyIndices_some shape s hn (by rw [hl, h2]) hv
  rw [h2] at ht3
  by_cases hlt : factor * A [0, 0] n0 t n1 < 1
  · refine ⟨s, t, none, hs', ht2, ht3, ?_, fun L h => by simp at h, fun _ => hlt⟩
    unfold simplifiedCollapseStep
    dsimp only
    rw [hs', Option.bind_some, ht1, Option.bind_some, ho, Option.map_some, if_pos hlt]
  · refine ⟨s, t, some fun i m j n => if m = n1 ∧ n = n0 then Real.sqrt (factor * A [0, 0] n0 t n1) * op i j else 0, hs', ht2,
      ht3, ?_, ?_, fun h => by simp at h⟩
    · unfold simplifiedCollapseStep
      dsimp only
      rw [hs', Option.bind_some, ht1, Option.bind_some, ho, Option.map_some, if_neg hlt]
    · intro L hL
      have := Option.some.inj hL
      subst this
      refine ⟨not_lt.1 hlt, fun i m j n hi hj => ⟨fun h => ?_, fun h => ?_⟩⟩
      · beta_reduce
        rw [if_pos ⟨h.1, h.2.1⟩, (hop_entry hs ho hi hj).1 h.2.2, mul_one]
      · beta_reduce
        by_cases hb : m = n1 ∧ n = n0
        · rw [if_pos hb, (hop_entry hs ho hi hj).2 fun hd => h ⟨hb.1, hb.2, hd⟩, mul_zero]
        · rw [if_neg hb]

theorem mapM_eq_none {α β : Type*} (l : List α) (f : α → Option β) (a : α) (ha : a ∈ l) (h : f a = none) : l.mapM f = none := by
  induction l with
  | nil => simp at ha
  | cons b l ih =>
    rw [List.mapM_cons]
    rcases List.mem_cons.1 ha with rfl | hb
    · rw [h]; rfl
    · rw [ih hb]
      cases f b <;> rfl

open Classical in
/-- The rates of the operators, for supercells of at least two cells along each axis. -/
theorem simplified_rate (shape : List ℕ) (h2 : shape.length = 2) (hn : ∀ n ∈ shape, 2 ≤ n) (nb : ℕ) (A : SiteOperator)
    (hA : Spec.SameRates shape A) (factor : ℝ) :
    ∃ ops, getSimplifiedCollapseOperators shape nb A factor = some ops ∧
      (∀ i j n0 n1, InShape shape i → InShape shape j → n0 < nb → n1 < nb →
        Spec.hopRate ops i n0 j n1 = if n0 = n1 then 0 else ∑ hop ∈ range 9,
          if ∃ s, getHopShift hop 2 = some s ∧ Displaced shape s i j then keptRate factor (A i n0 j n1) else 0) ∧
      ∀ L ∈ ops, ∃ n0 n1 s rate, n0 < nb ∧ n1 < nb ∧ n0 ≠ n1 ∧ (∀ x ∈ s, x = -1 ∨ x = 0 ∨ x = 1) ∧ 1 ≤ factor * rate ∧
        (∀ i j, InShape shape i → InShape shape j → Displaced shape s i j → A i n0 j n1 = rate) ∧
        ∀ i m j n, InShape shape i → InShape shape j →
          (m = n1 ∧ n = n0 ∧ Displaced shape s j i → L i m j n = Real.sqrt (factor * rate)) ∧
          (¬ (m = n1 ∧ n = n0 ∧ Displaced shape s j i) → L i m j n = 0) := by
  have hstep := fun (t : ℕ × ℕ × ℕ) (ht : t.2.2 < 9) => simplifiedCollapseStep_some shape h2 hn A factor t.1 t.2.1 t.2.2 ht
  choose s target o hs htarget hd ho hsome hnone using hstep
  have hzero : InShape shape [0, 0] := by
    obtain ⟨a, b, rfl⟩ : ∃ a b, shape = [a, b] := List.length_eq_two.1 h2
    have ha := hn a (by simp)
    have hb := hn b (by simp)
    exact ⟨by omega, by omega, trivial⟩
  set triples := (List.range nb).flatMap fun n0 => ((List.range nb).filter fun n1 => ¬ n0 = n1).flatMap fun n1 =>
      (List.range 9).map fun hop => (n0, n1, hop) with htr
  have hmem : ∀ t ∈ triples, t.1 < nb ∧ t.2.1 < nb ∧ t.1 ≠ t.2.1 ∧ t.2.2 < 9 := by
    intro t ht
    rw [htr, List.mem_flatMap] at ht
    obtain ⟨a, ha, ht⟩ := ht
    rw [List.mem_flatMap] at ht
    obtain ⟨b, hb, ht⟩ := ht
    rw [List.mem_map] at ht
    obtain ⟨c, hc, rfl⟩ := ht
    rw [List.mem_filter] at hb
    exact ⟨List.mem_range.1 ha, List.mem_range.1 hb.1, by simpa using hb.2, List.mem_range.1 hc⟩
  set out : ℕ × ℕ × ℕ → Option SiteOperator := fun t => if h : t.2.2 < 9 then o t h else none with hout
  have hmap : triples.mapM (simplifiedCollapseStep shape A factor) = some (triples.map out) := by
    refine mapM_some_map _ _ _ fun t ht => ?_
    have h9 := (hmem t ht).2.2.2
    rw [hout]; dsimp only
    rw [dif_pos h9]
    exact ho t h9
  refine ⟨(triples.map out).filterMap id, ?_, ?_, ?_⟩
  · unfold getSimplifiedCollapseOperators
    rw [if_pos h2]
    rw [← htr, hmap, Option.map_some]
  · intro i j n0 n1 hi hj hn0 hn1
    unfold Spec.hopRate
    rw [sum_filterMap_id, List.map_map]
    have hval : ∀ a b c, c < 9 → ((fun o : Option SiteOperator => (o.map fun L => L j n1 i n0 ^ 2).getD 0) ∘ out) (a, b, c) =
        if n1 = b ∧ n0 = a ∧ ∃ s, getHopShift c 2 = some s ∧ Displaced shape s i j then keptRate factor (A i n0 j n1)
        else 0 := by
      intro a b c hc
      rw [Function.comp]
      have ho' : out (a, b, c) = o (a, b, c) hc := by rw [hout]; exact dif_pos hc
      rw [ho']
      have hrate : Displaced shape (s (a, b, c) hc) i j → A [0, 0] a (target (a, b, c) hc) b = A i a j b := fun h =>
        hA a b _ _ _ _ _ hzero (htarget _ hc) hi hj (hd _ hc) h
      have hiff : (∃ s, getHopShift c 2 = some s ∧ Displaced shape s i j) ↔ Displaced shape (s (a, b, c) hc) i j := by
        constructor
        · rintro ⟨s', h1, h2⟩
          have := (hs (a, b, c) hc).symm.trans h1
          rw [Option.some.inj this]; exact h2
        · exact fun h => ⟨_, hs (a, b, c) hc, h⟩
      have hite : (if n1 = b ∧ n0 = a ∧ ∃ s, getHopShift c 2 = some s ∧ Displaced shape s i j then
          keptRate factor (A i n0 j n1) else 0) =
          if n1 = b ∧ n0 = a ∧ Displaced shape (s (a, b, c) hc) i j then keptRate factor (A i n0 j n1) else 0 :=
        if_congr (by rw [hiff]) rfl rfl
      rw [hite]
      cases hcase : o (a, b, c) hc with
      | none =>
        have hl := hnone _ hc hcase
        dsimp only at hl
        split_ifs with h
        · obtain ⟨rfl, rfl, h⟩ := h
          unfold keptRate
          rw [← hrate h, if_pos hl]; rfl
        · rfl
      | some L =>
        obtain ⟨hge, hL⟩ := hsome _ hc L hcase
        dsimp only at hge hL
        rw [Option.map_some, Option.getD_some]
        split_ifs with h
        · rw [(hL j n1 i n0 hj hi).1 h, Real.sq_sqrt (by linarith)]
          obtain ⟨rfl, rfl, h⟩ := h
          unfold keptRate
          rw [← hrate h, if_neg (not_lt.2 hge)]
        · rw [(hL j n1 i n0 hj hi).2 h]; norm_num
    rw [htr, sum_flatMap', sum_list_range, sum_eq_single n0]
    · rw [sum_flatMap', sum_list_filter (List.range nb) (fun k => ¬ n0 = k), sum_list_range, sum_eq_single n1]
      · by_cases h01 : n0 = n1
        · rw [if_neg (by simpa using h01), if_pos h01]
        · rw [if_pos h01, if_neg h01, List.map_map, sum_list_range]
          refine sum_congr rfl fun c hc => ?_
          have := hval n0 n1 c (mem_range.1 hc)
          rw [Function.comp, this]
          refine if_congr ?_ rfl rfl
          simp
      · intro b _ hb
        split_ifs with h
        · rfl
        · rw [List.map_map, sum_list_range]
          refine sum_eq_zero fun c hc => ?_
          rw [Function.comp, hval n0 b c (mem_range.1 hc), if_neg fun h => hb h.1.symm]
      · intro h; exact absurd (mem_range.2 hn1) h
    · intro a _ ha
      rw [sum_flatMap', sum_list_filter (List.range nb) (fun k => ¬ a = k), sum_list_range]
      refine sum_eq_zero fun b _ => ?_
      split_ifs with h
      · rfl
      · rw [List.map_map, sum_list_range]
        refine sum_eq_zero fun c hc => ?_
        rw [Function.comp, hval a b c (mem_range.1 hc), if_neg fun h => ha h.2.1.symm]
    · intro h; exact absurd (mem_range.2 hn0) h
  · intro L hL
    rw [List.mem_filterMap] at hL
    obtain ⟨x, hx, hxL⟩ := hL
    rw [List.mem_map] at hx
    obtain ⟨t, ht, rfl⟩ := hx
    obtain ⟨h1, h3, h4, h9⟩ := hmem t ht
    have ho' : out t = o t h9 := by rw [hout]; exact dif_pos h9
    have hxL' : o t h9 = some L := by rw [← ho']; exact hxL
    obtain ⟨hge, hent⟩ := hsome t h9 L hxL'
    refine ⟨t.1, t.2.1, s t h9, A [0, 0] t.1 (target t h9) t.2.1, h1, h3, h4, ?_, hge, ?_, hent⟩
    · exact ((C38_hop_vectors 2).2.2.1 _ _ (hs t h9)).2
    · intro i j hi hj hdd
      exact hA _ _ _ _ _ _ _ hi hj hzero (htarget t h9) hdd (hd t h9)

/-- **C132 (partial).** In a supercell of at least three by three cells with the same rates in every cell, the collapse operators
transfer population from site `i`, band `n0` to a site at most one cell away in another band, at exactly the rate times the factor,
whenever that is at least one, and nothing else: transfers inside a band, transfers further than one cell, and rates which come out
below one are dropped. Each operator moves every cell of the supercell by the same hop. Missing: smaller supercells, see
`C132_small_negation`. -/
theorem C132_rates_partial (shape : List ℕ) (h2 : shape.length = 2) (h3 : ∀ n ∈ shape, 3 ≤ n) (nb : ℕ)
    (A : List ℕ → ℕ → List ℕ → ℕ → ℝ) (hA : Spec.SameRates shape A) (factor : ℝ) :
    ∃ ops, getSimplifiedCollapseOperators shape nb A factor = some ops ∧
      (∀ i j n0 n1, InShape shape i → InShape shape j → n0 < nb → n1 < nb →
        (n0 ≠ n1 → Spec.OneHop shape i j → 1 ≤ factor * A i n0 j n1 → Spec.hopRate ops i n0 j n1 = factor * A i n0 j n1) ∧
        (n0 = n1 ∨ ¬ Spec.OneHop shape i j ∨ factor * A i n0 j n1 < 1 → Spec.hopRate ops i n0 j n1 = 0)) ∧
      ∀ L ∈ ops, ∃ n0 n1 s rate, n0 < nb ∧ n1 < nb ∧ n0 ≠ n1 ∧ (∀ x ∈ s, x = -1 ∨ x = 0 ∨ x = 1) ∧ 1 ≤ factor * rate ∧
        (∀ i j, InShape shape i → InShape shape j → Displaced shape s i j → A i n0 j n1 = rate) ∧
        ∀ i m j n, InShape shape i → InShape shape j →
          (m = n1 ∧ n = n0 ∧ Displaced shape s j i → L i m j n = Real.sqrt (factor * rate)) ∧
          (¬ (m = n1 ∧ n = n0 ∧ Displaced shape s j i) → L i m j n = 0) := by
  classical
  obtain ⟨ops, h1, hr, hL⟩ := simplified_rate shape h2 (fun n hn => le_trans (by norm_num) (h3 n hn)) nb A hA factor
  refine ⟨ops, h1, fun i j n0 n1 hi hj hn0 hn1 => ⟨fun hne hone hge => ?_, fun h => ?_⟩, hL⟩
  · rw [hr i j n0 n1 hi hj hn0 hn1, if_neg hne]
    obtain ⟨s, hv, hd⟩ := hone
    have hl := hd.length
    obtain ⟨hop, hhop, huniq⟩ := (C38_hop_vectors 2).2.2.2 s (by rw [hl, h2]) hv
    have h9 : hop < 9 := by
      by_contra hc
      have := (C38_hop_vectors 2).2.1 hop (by omega)
      rw [this] at hhop; simp at hhop
    rw [sum_eq_single hop]
    · rw [if_pos ⟨s, hhop, hd⟩]
      exact if_neg (not_lt.2 hge)
    · intro hop' _ hne'
      rw [if_neg]
      rintro ⟨s', hs', hd'⟩
      have hv' := ((C38_hop_vectors 2).2.2.1 hop' s' hs').2
      have hss := Displaced.shift_unique shape s s' i j h3 hv hv' hd hd'
      subst hss
      exact hne' (huniq hop' hs')
    · intro h; exact absurd (mem_range.2 h9) h
  · rw [hr i j n0 n1 hi hj hn0 hn1]
    split_ifs with h01
    · rfl
    · refine sum_eq_zero fun hop _ => ?_
      split_ifs with hd
      · rcases h with h | h | h
        · exact absurd h h01
        · obtain ⟨s, hs, hd⟩ := hd
          exact absurd ⟨s, ((C38_hop_vectors 2).2.2.1 hop s hs).2, hd⟩ h
        · exact if_pos h
      · rfl

/-- Two by two cells, the same rate everywhere. -/
def evenRates : List ℕ → ℕ → List ℕ → ℕ → ℝ := fun _ _ _ _ => 5

/-- **C132 (negation).** In a supercell of two by two cells with the same rates in every cell, the population is transferred to the
neighbouring cell at *twice* the rate, to the one across the diagonal at four times; with a single cell along an axis, and at least two
bands, it raises. -/
theorem C132_small_negation :
    (∃ ops, Spec.SameRates [2, 2] evenRates ∧ getSimplifiedCollapseOperators [2, 2] 2 evenRates 1 = some ops ∧
      Spec.hopRate ops [0, 0] 0 [0, 0] 1 = evenRates [0, 0] 0 [0, 0] 1 ∧
      Spec.hopRate ops [0, 0] 0 [1, 0] 1 = 2 * evenRates [0, 0] 0 [1, 0] 1 ∧
      Spec.hopRate ops [0, 0] 0 [1, 1] 1 = 4 * evenRates [0, 0] 0 [1, 1] 1) ∧
    ∀ (n nb : ℕ) (A : List ℕ → ℕ → List ℕ → ℕ → ℝ) (factor : ℝ), 2 ≤ nb →
      getSimplifiedCollapseOperators [1, n] nb A factor = none := by
  classical
  constructor
  · have hA : Spec.SameRates [2, 2] evenRates := fun _ _ _ _ _ _ _ _ _ _ _ _ _ => rfl
    obtain ⟨ops, h1, hr, -⟩ := simplified_rate [2, 2] rfl (by simp) 2 evenRates hA 1
    have hin : ∀ a b, a < 2 → b < 2 → InShape [2, 2] [a, b] := fun a b ha hb => ⟨ha, hb, trivial⟩
    have hk : keptRate 1 5 = 5 := by unfold keptRate; norm_num
    have hhop : getHopShift 0 2 = some [0, 0] ∧ getHopShift 1 2 = some [0, 1] ∧ getHopShift 2 2 = some [0, -1] ∧
        getHopShift 3 2 = some [1, 0] ∧ getHopShift 4 2 = some [1, 1] ∧ getHopShift 5 2 = some [1, -1] ∧
        getHopShift 6 2 = some [-1, 0] ∧ getHopShift 7 2 = some [-1, 1] ∧ getHopShift 8 2 = some [-1, -1] := by decide
    obtain ⟨e0, e1, e2, e3, e4, e5, e6, e7, e8⟩ := hhop
    have hdisp : ∀ (s0 s1 : ℤ) (i0 i1 j0 j1 : ℕ), Displaced [2, 2] [s0, s1] [i0, i1] [j0, j1] ↔
        ((j0 : ℤ) % 2 = (i0 + s0) % 2 ∧ (j1 : ℤ) % 2 = (i1 + s1) % 2) := by
      intros
      simp [Displaced, Int.ModEq]
    refine ⟨ops, hA, h1, ?_, ?_, ?_⟩
    · rw [hr _ _ 0 1 (hin _ _ (by norm_num) (by norm_num)) (hin _ _ (by norm_num) (by norm_num)) (by norm_num) (by norm_num),
        if_neg (by norm_num)]
      simp only [sum_range_succ, sum_range_zero, e0, e1, e2, e3, e4, e5, e6, e7, e8, Option.some.injEq, exists_eq_left', hdisp]
      unfold evenRates
      rw [hk]; norm_num
    · rw [hr _ _ 0 1 (hin _ _ (by norm_num) (by norm_num)) (hin _ _ (by norm_num) (by norm_num)) (by norm_num) (by norm_num),
        if_neg (by norm_num)]
      simp only [sum_range_succ, sum_range_zero, e0, e1, e2, e3, e4, e5, e6, e7, e8, Option.some.injEq, exists_eq_left', hdisp]
      unfold evenRates
      rw [hk]; norm_num
    · rw [hr _ _ 0 1 (hin _ _ (by norm_num) (by norm_num)) (hin _ _ (by norm_num) (by norm_num)) (by norm_num) (by norm_num),
        if_neg (by norm_num)]
      simp only [sum_range_succ, sum_range_zero, e0, e1, e2, e3, e4, e5, e6, e7, e8, Option.some.injEq, exists_eq_left', hdisp]
      unfold evenRates
      rw [hk]; norm_num
  · intro n nb A factor hnb
    have h3 : getHopShift 3 2 = some [1, 0] := by decide
    unfold getSimplifiedCollapseOperators
    rw [if_pos (by rfl), mapM_eq_none _ _ (0, 1, 3)]
    · rfl
    · rw [List.mem_flatMap]
      refine ⟨0, List.mem_range.2 (by omega), ?_⟩
      rw [List.mem_flatMap]
      refine ⟨1, ?_, ?_⟩
      · rw [List.mem_filter]
        exact ⟨List.mem_range.2 (by omega), by decide⟩
      · exact List.mem_map.2 ⟨3, List.mem_range.2 (by norm_num), rfl⟩
    · unfold simplifiedCollapseStep
      dsimp only
      rw [h3]
      rfl

/-- **C132 (negation).** Collapse operators from a function of the bands and the hop: it raises for every supercell and number of bands
with more than one state altogether. -/
theorem C132_function_negation (n0 n1 nb : ℕ) (h : 2 ≤ n0 * n1 * nb) (fn : ℕ → ℕ → ℤ × ℤ → ℝ) :
    getCollapseOperatorsFromFunction n0 n1 nb fn = none := by
  have hnb : 0 < nb := Nat.pos_of_ne_zero fun e => by simp [e] at h
  have hn1 : 0 < n1 := Nat.pos_of_ne_zero fun e => by simp [e] at h
  have hn0 : 0 < n0 := Nat.pos_of_ne_zero fun e => by simp [e] at h
  have hmem : ∀ i d, i < n0 * n1 * nb → d < 9 → (i, 0, d) ∈ ((List.range (n0 * n1 * nb)).flatMap fun i =>
      (List.range nb).flatMap fun m => (List.range 9).map fun d => (i, m, d)) := by
    intro i d hi hd
    rw [List.mem_flatMap]
    refine ⟨i, List.mem_range.2 hi, ?_⟩
    rw [List.mem_flatMap]
    exact ⟨0, List.mem_range.2 hnb, List.mem_map.2 ⟨d, List.mem_range.2 hd, rfl⟩⟩
  unfold getCollapseOperatorsFromFunction
  by_cases hb : 2 ≤ n1 * nb
  · refine mapM_eq_none _ _ _ (hmem (n0 * n1 * nb - 1) 0 (by omega) (by norm_num)) ?_
    dsimp only
    rw [if_neg]
    intro hc
    have : n0 * 2 ≤ n0 * (n1 * nb) := Nat.mul_le_mul_left _ hb
    rw [← mul_assoc] at this
    omega
  · have e1 : n1 = 1 := by
      by_contra hne
      have : 2 * 1 ≤ n1 * nb := Nat.mul_le_mul (by omega) (by omega)
      omega
    have e2 : nb = 1 := by
      by_contra hne
      have : 1 * 2 ≤ n1 * nb := Nat.mul_le_mul (by omega) (by omega)
      omega
    subst e1 e2
    have h2 : 2 ≤ n0 := by simpa using h
    refine mapM_eq_none _ _ _ (hmem 0 6 (by omega) (by norm_num)) ?_
    dsimp only
    rw [if_neg]
    intro hc
    have hc2 := hc.2
    have : ((1 : ℤ) % n0) = 1 := Int.emod_eq_of_lt (by norm_num) (by omega)
    norm_num [this] at hc2

/-- One band of a single cell: nine operators. -/
example : ((getCollapseOperatorsFromFunction 1 1 1 fun _ _ _ => 2).map List.length) = some 9 := by
  unfold getCollapseOperatorsFromFunction
  rw [mapM_some_map _ _ (fun t a b => if a = t.1 ∧ b = 0 then 2 else 0)]
  · rw [Option.map_some, List.length_map]
    decide
  · intro t ht
    have h : t.1 = 0 ∧ t.2.1 = 0 := by
      revert t; decide
    dsimp only
    have e : ∀ z : ℤ, (z % ((1 : ℕ) : ℤ)).toNat = 0 := fun z => by simp
    rw [e, e, h.1, h.2, if_pos ⟨by norm_num, by norm_num⟩]

/-- Two bands of four by three cells, the rates of a jump to the next cell along the first axis and the other band: seven times the
factor. -/
example : ∃ (A : List ℕ → ℕ → List ℕ → ℕ → ℝ) (ops : List (List ℕ → ℕ → List ℕ → ℕ → ℝ)), Spec.SameRates [4, 3] A ∧
    getSimplifiedCollapseOperators [4, 3] 2 A 2 = some ops ∧ Spec.hopRate ops [3, 1] 0 [0, 1] 1 = 14 ∧
    Spec.hopRate ops [0, 1] 0 [3, 1] 1 = 0 := by
  classical
  refine ⟨fun i n0 j n1 => if n0 = 0 ∧ n1 = 1 ∧ Displaced [4, 3] [1, 0] i j then 7 else 0, ?_⟩
  have hA : Spec.SameRates [4, 3] (fun i n0 j n1 => if n0 = 0 ∧ n1 = 1 ∧ Displaced [4, 3] [1, 0] i j then (7 : ℝ) else 0) := by
    intro n0 n1 s i j i' j' hi hj hi' hj' hd hd'
    have hiff : Displaced [4, 3] [1, 0] i j ↔ Displaced [4, 3] [1, 0] i' j' := by
      obtain ⟨s0, s1, rfl⟩ : ∃ a b, s = [a, b] := List.length_eq_two.1 hd.length
      obtain ⟨i0, i1, rfl⟩ : ∃ a b, i = [a, b] := List.length_eq_two.1 (inShape_length _ _ hi).symm
      obtain ⟨j0, j1, rfl⟩ : ∃ a b, j = [a, b] := List.length_eq_two.1 (inShape_length _ _ hj).symm
      obtain ⟨i0', i1', rfl⟩ : ∃ a b, i' = [a, b] := List.length_eq_two.1 (inShape_length _ _ hi').symm
      obtain ⟨j0', j1', rfl⟩ : ∃ a b, j' = [a, b] := List.length_eq_two.1 (inShape_length _ _ hj').symm
      simp only [Displaced, Int.ModEq, and_true] at hd hd' ⊢
      push_cast at *
      omega
    simp only [hiff]
  obtain ⟨ops, h1, h, -⟩ := C132_rates_partial [4, 3] rfl (by simp) 2 _ hA 2
  have hin : ∀ a b, a < 4 → b < 3 → InShape [4, 3] [a, b] := fun a b ha hb => ⟨ha, hb, trivial⟩
  refine ⟨ops, hA, h1, ?_, ?_⟩
  · have hd : Displaced [4, 3] [1, 0] [3, 1] [0, 1] := ⟨by decide, by decide, trivial⟩
    have := (h [3, 1] [0, 1] 0 1 (hin _ _ (by norm_num) (by norm_num)) (hin _ _ (by norm_num) (by norm_num)) (by norm_num)
      (by norm_num)).1 (by norm_num) ⟨[1, 0], by simp, hd⟩ (by rw [if_pos ⟨rfl, rfl, hd⟩]; norm_num)
    rw [this, if_pos ⟨rfl, rfl, hd⟩]; norm_num
  · refine (h [0, 1] [3, 1] 0 1 (hin _ _ (by norm_num) (by norm_num)) (hin _ _ (by norm_num) (by norm_num)) (by norm_num)
      (by norm_num)).2 (Or.inr (Or.inr ?_))
    rw [if_neg]
    · norm_num
    · rintro ⟨-, -, hd, -⟩
      revert hd; decide

end Verif
