import Verif.Model.DiagonalizedSse
import Verif.Props.C25_States

/-!
# C167: the solver for collapse operators of rank one
-/

set_option autoImplicit false

namespace Verif

open Spec

namespace Spec

/-- The arguments the solver should be given: the amplitude of each operator, and the states of its bra and ket on the points of their bases, one after
the other. -/
noncomputable def rankOneCall (times : TimeBasis) (initial hamiltonian : List ℂ) (operators : List RankOneOperator) : BraKetCall where
  initial := initial
  hamiltonian := hamiltonian
  amplitudes := operators.flatMap RankOneOperator.data
  bra := operators.flatMap fun o => (List.range (points o.bra)).map fun x => (starRingEnd ℂ) (state o.bra 0 x)
  ket := operators.flatMap fun o => (List.range (points o.ket)).map (state o.ket 0)
  n := times.n
  step := times.step
  dt := times.deltaT / (times.n * times.step)

/-- An operator with one state as its bra and one as its ket, and one amplitude. -/
def RankOne (o : RankOneOperator) : Prop := size o.bra = 1 ∧ size o.ket = 1 ∧ o.data.length = 1

end Spec

/-! ## Helpers -/

theorem addCollapse_eq (call : BraKetCall) (o : RankOneOperator) (h1 : size o.bra = 1) (h2 : o.data.length = 1) :
    addCollapseOperator call o = some { call with ket := call.ket ++ [1, 1], amplitudes := call.amplitudes ++ o.data } := by
  obtain ⟨a, ha⟩ := List.length_eq_one_iff.1 h2
  have hn : o.bra.n = 1 := by rw [Basis.n_eq]; exact h1
  have hl : (getBasisStates o.bra).listBasis.n = 1 := hn
  unfold addCollapseOperator getStateDualVector getStateVector
  simp only [hl, if_true, Nat.lt_one_iff, Option.bind_some, ha, hn, List.range_one, List.map_cons, List.map_nil]
  have hb : (getBasisStates o.bra).basis.n = 1 := hn
  simp [getBasisStates, block, flatten, conjVec, hn]

theorem foldlM_collapse (operators : List RankOneOperator) (h : ∀ o ∈ operators, size o.bra = 1 ∧ o.data.length = 1) (call : BraKetCall) :
    operators.foldlM addCollapseOperator call = some { call with
      ket := call.ket ++ List.replicate (2 * operators.length) 1, amplitudes := call.amplitudes ++ operators.flatMap RankOneOperator.data } := by
  induction operators generalizing call with
  | nil => simp
  | cons o os ih =>
    rw [List.foldlM_cons, addCollapse_eq call o (h o (by simp)).1 (h o (by simp)).2]
    show List.foldlM addCollapseOperator _ os = _
    rw [ih (fun o ho => h o (by simp [ho]))]
    simp only [List.append_assoc, List.flatMap_cons, List.length_cons, mul_add, mul_one, List.replicate_succ, List.cons_append, List.nil_append]

/-! ## Theorems -/

/-- **C167, partial.** Without collapse operators the solver is given the state, the Hamiltonian and the times, and the data of the trajectories are its
results, one after the other. Missing: collapse operators (`C167_negation`). -/
theorem C167_trajectories_partial (solver : ℕ → BraKetCall → List ℂ) (times : TimeBasis) (h0 : times.offset = 0) (initial hamiltonian : List ℂ)
    (trajectories : ℕ) (hl : ∀ i < trajectories, (solver i (rankOneCall times initial hamiltonian [])).length = times.n * initial.length) :
    ∃ data, solveDiagonalizedSse solver times initial hamiltonian [] trajectories = some data ∧
      data.length = trajectories * (times.n * initial.length) ∧
      ∀ i < trajectories, ∀ t < times.n, ∀ j < initial.length,
        data[(i * times.n + t) * initial.length + j]? = (solver i (rankOneCall times initial hamiltonian []))[t * initial.length + j]? := by
  have hc : braKetCall times initial hamiltonian [] = some (rankOneCall times initial hamiltonian []) := by
    unfold braKetCall
    rw [if_pos h0]
    simp [rankOneCall, TimeBasis.fundamentalDt, TimeBasis.fundamentalN]
  unfold solveDiagonalizedSse
  rw [hc, Option.bind_some, if_pos hl]
  generalize rankOneCall times initial hamiltonian [] = call at hl ⊢
  refine ⟨_, rfl, ?_, ?_⟩
  · rw [List.length_flatMap, List.map_congr_left (g := fun _ => times.n * initial.length) fun i hi => hl i (List.mem_range.1 hi)]
    simp
  · intro i hi t ht j hj
    have key : ∀ m : ℕ, (∀ k < m, (solver k call).length = times.n * initial.length) → ∀ i < m, ∀ r < times.n * initial.length,
        ((List.range m).flatMap fun k => solver k call)[i * (times.n * initial.length) + r]? = (solver i call)[r]? := by
      intro m
      induction m with
      | zero => intro _ i hi; omega
      | succ m ih =>
        intro hm i hi r hr
        have hlen : ((List.range m).flatMap fun k => solver k call).length = m * (times.n * initial.length) := by
          rw [List.length_flatMap, List.map_congr_left (g := fun _ => times.n * initial.length) fun i hi =>
            hm i (by have := List.mem_range.1 hi; omega)]
          simp
        rw [List.range_succ, List.flatMap_append]
        rcases Nat.lt_succ_iff_lt_or_eq.1 hi with h | h
        · have : i * (times.n * initial.length) + r < m * (times.n * initial.length) := by
            calc _ < (i + 1) * (times.n * initial.length) := by rw [add_mul, one_mul]; omega
              _ ≤ _ := Nat.mul_le_mul_right _ h
          rw [List.getElem?_append_left (by rw [hlen]; exact this)]
          exact ih (fun k hk => hm k (by omega)) i h r hr
        · subst h
          rw [List.getElem?_append_right (by rw [hlen]; omega), hlen, Nat.add_sub_cancel_left]
          simp
    have hr : t * initial.length + j < times.n * initial.length := by
      calc _ < (t + 1) * initial.length := by rw [add_mul, one_mul]; omega
        _ ≤ _ := Nat.mul_le_mul_right _ ht
    rw [← key trajectories hl i hi _ hr]
    congr 1
    ring

/-- **C167.** Times which do not begin at zero raise. -/
theorem C167_rejects (solver : ℕ → BraKetCall → List ℂ) (times : TimeBasis) (h0 : times.offset ≠ 0) (initial hamiltonian : List ℂ)
    (operators : List RankOneOperator) (trajectories : ℕ) :
    solveDiagonalizedSse solver times initial hamiltonian operators trajectories = none := by
  unfold solveDiagonalizedSse braKetCall
  rw [if_neg h0, Option.bind_none]

/-- **C167, negation.** With collapse operators of rank one the solver is given no bras, and two ones for each operator as the kets: neither the bra nor the ket of an
operator reaches the solver, so that operators with equal amplitudes have equal trajectories, whichever the solver. -/
theorem C167_negation (times : TimeBasis) (h0 : times.offset = 0) (initial hamiltonian : List ℂ) (operators : List RankOneOperator)
    (ho : ∀ o ∈ operators, RankOne o) :
    (∃ call, braKetCall times initial hamiltonian operators = some call ∧ call.bra = [] ∧ call.ket = List.replicate (2 * operators.length) 1 ∧
      call.amplitudes = (rankOneCall times initial hamiltonian operators).amplitudes ∧
      (operators ≠ [] → (∀ o ∈ operators, 0 < points o.bra) → call.bra ≠ (rankOneCall times initial hamiltonian operators).bra)) ∧
    ∀ others : List RankOneOperator, (∀ o ∈ others, RankOne o) → others.map RankOneOperator.data = operators.map RankOneOperator.data →
      ∀ (solver : ℕ → BraKetCall → List ℂ) (trajectories : ℕ),
        solveDiagonalizedSse solver times initial hamiltonian others trajectories =
          solveDiagonalizedSse solver times initial hamiltonian operators trajectories := by
  have hc : ∀ os : List RankOneOperator, (∀ o ∈ os, RankOne o) → braKetCall times initial hamiltonian os = some
      ⟨initial, hamiltonian, os.flatMap RankOneOperator.data, [], List.replicate (2 * os.length) 1, times.n, times.step, times.fundamentalDt⟩ := by
    intro os hos
    unfold braKetCall
    rw [if_pos h0, foldlM_collapse os fun o h => ⟨(hos o h).1, (hos o h).2.2⟩]
    simp
  refine ⟨⟨_, hc operators ho, rfl, rfl, rfl, fun hne hp h => ?_⟩, fun others hos he solver trajectories => ?_⟩
  · obtain ⟨o, os, rfl⟩ := List.exists_cons_of_ne_nil hne
    have := congrArg List.length h
    simp only [rankOneCall, List.flatMap_cons, List.length_nil, List.length_append, List.length_map, List.length_range] at this
    have := hp o (by simp)
    omega
  · have hlen : others.length = operators.length := by simpa using congrArg List.length he
    have hd : others.flatMap RankOneOperator.data = operators.flatMap RankOneOperator.data := by
      rw [List.flatMap_def, List.flatMap_def, he]
    unfold solveDiagonalizedSse
    rw [hc others hos, hc operators ho, hlen, hd]

/-! ## Concrete cases -/

/-- The first and the second of two points as the one state of a basis: an operator which measures the one gives the trajectories of the operator which measures
the other. -/
example (solver : ℕ → BraKetCall → List ℂ) (initial hamiltonian : List ℂ) :
    let first : Basis := .explicit 1 (fun _ x => if x = 0 then 1 else 0) (.fundamental 2)
    let second : Basis := .explicit 1 (fun _ x => if x = 1 then 1 else 0) (.fundamental 2)
    solveDiagonalizedSse solver ⟨5, 10, 0, 1⟩ initial hamiltonian [⟨first, first, [3]⟩] 2 =
      solveDiagonalizedSse solver ⟨5, 10, 0, 1⟩ initial hamiltonian [⟨second, second, [3]⟩] 2 := by
  intro first second
  refine (C167_negation ⟨5, 10, 0, 1⟩ rfl initial hamiltonian [⟨second, second, [3]⟩] ?_).2 [⟨first, first, [3]⟩] ?_ rfl solver 2
  · simp [RankOne, second, size]
  · simp [RankOne, first, size]

end Verif
