import Verif.Model.PotentialFiles
import Verif.Props.C150_PotentialPlots

/-!
# C169: potentials read from files
-/

set_option autoImplicit false

namespace Verif

open Spec

namespace Spec

/-- The nested lists of the values of `f` on a grid. -/
def gridLists (n0 n1 n2 : ℕ) (f : ℕ → ℕ → ℕ → ℝ) : List (List (List ℝ)) :=
  (List.range n0).map fun i => (List.range n1).map fun j => (List.range n2).map (f i j)

/-- One dimensional data with the values of `f` on the grid, of which the last index runs fastest. -/
def FlatData (n0 n1 n2 : ℕ) (f : ℕ → ℕ → ℕ → ℝ) (a : NumberArray) : Prop :=
  a.shape = [n0 * n1 * n2] ∧ ∀ i < n0, ∀ j < n1, ∀ k < n2, a.entry [(i * n1 + j) * n2 + k] = f i j k

end Spec

/-! ## Helpers -/

theorem arrayOfLists_grid (n0 n1 n2 : ℕ) (h0 : 0 < n0) (h1 : 0 < n1) (f : ℕ → ℕ → ℕ → ℝ) :
    ∃ a, arrayOfLists (gridLists n0 n1 n2 f) = some a ∧ a.shape = [n0, n1, n2] ∧ ∀ i < n0, ∀ j < n1, ∀ k < n2, a.entry [i, j, k] = f i j k := by
  obtain ⟨m0, rfl⟩ := Nat.exists_eq_add_of_lt h0
  obtain ⟨m1, rfl⟩ := Nat.exists_eq_add_of_lt h1
  have e0 : (gridLists (0 + m0 + 1) (0 + m1 + 1) n2 f).head? = some ((List.range (0 + m1 + 1)).map fun j => (List.range n2).map (f 0 j)) := by
    simp [gridLists, List.range_succ_eq_map]
  have e1 : ((List.range (0 + m1 + 1)).map fun j => (List.range n2).map (f 0 j)).head? = some ((List.range n2).map (f 0 0)) := by
    simp [List.range_succ_eq_map]
  unfold arrayOfLists
  rw [e0, Option.bind_some, e1, Option.bind_some, if_pos]
  · refine ⟨_, rfl, by simp [gridLists], fun i hi j hj k hk => ?_⟩
    dsimp only
    rw [show ([i, j, k] : List ℕ).getD 0 0 = i from rfl, show ([i, j, k] : List ℕ).getD 1 0 = j from rfl, show ([i, j, k] : List ℕ).getD 2 0 = k from rfl]
    simp only [gridLists, List.getD_eq_getElem?_getD, List.getElem?_map, List.getElem?_range hi,
      List.getElem?_range hj, List.getElem?_range hk, Option.map_some, Option.getD_some]
  · intro r hr
    obtain ⟨i, _, rfl⟩ := List.mem_map.1 hr
    refine ⟨by simp, fun c hc => ?_⟩
    obtain ⟨j, _, rfl⟩ := List.mem_map.1 hc
    simp

theorem flat_ravelled (n0 n1 n2 : ℕ) (f : ℕ → ℕ → ℕ → ℝ) (a : NumberArray) (hs : a.shape = [n0, n1, n2])
    (hf : ∀ i < n0, ∀ j < n1, ∀ k < n2, a.entry [i, j, k] = f i j k) : FlatData n0 n1 n2 f a.ravelled := by
  refine ⟨by simp [NumberArray.ravelled, hs, mul_assoc], fun i hi j hj k hk => ?_⟩
  have : (i * n1 + j) * n2 + k = ravel [n0, n1, n2] [i, j, k] := by simp [ravel]; ring
  unfold NumberArray.ravelled
  dsimp only
  rw [hs, List.getD_cons_zero, this, unravel_ravel _ _ (show InShape [n0, n1, n2] [i, j, k] from ⟨hi, hj, hk, trivial⟩)]
  exact hf i hi j hj k hk

/-! ## Theorems -/

/-- **C169, partial.** A potential read from the grid of numbers in a file has the vectors of the file, as many points as there are numbers along each axis, and when its
data are reshaped to one dimension they are the numbers of the file. Missing: the data themselves are not of one dimension (`C169_grid_negation`). -/
theorem C169_grid_partial (delta0 delta1 delta2 : List ℝ) (n0 n1 n2 : ℕ) (h0 : 0 < n0) (h1 : 0 < n1) (f : ℕ → ℕ → ℕ → ℝ) :
    ∃ p, loadPotentialGrid delta0 delta1 delta2 (gridLists n0 n1 n2 f) = some p ∧ p.axes = [(delta0, n0), (delta1, n1), (delta2, n2)] ∧
      FlatData n0 n1 n2 f p.data.ravelled := by
  obtain ⟨a, ha, hs, hf⟩ := arrayOfLists_grid n0 n1 n2 h0 h1 f
  refine ⟨⟨_, a⟩, by rw [loadPotentialGrid, ha, Option.map_some, hs]; rfl, rfl, flat_ravelled n0 n1 n2 f a hs hf⟩

/-- **C169, negation.** The data of every potential read from a file have three axes, although the data of a potential have one. -/
theorem C169_grid_negation (delta0 delta1 delta2 : List ℝ) (points : List (List (List ℝ))) :
    (∀ p, loadPotentialGrid delta0 delta1 delta2 points = some p → p.data.shape.length = 3 ∧ ∀ n0 n1 n2 f, ¬ FlatData n0 n1 n2 f p.data) ∧
    ∀ heights p, loadUnevenPotential delta0 delta1 heights points = some p → p.data.shape.length = 3 := by
  have key : ∀ a, arrayOfLists points = some a → a.shape.length = 3 := by
    intro a ha
    unfold arrayOfLists at ha
    simp only [Option.bind_eq_some_iff] at ha
    obtain ⟨row, _, column, _, ha⟩ := ha
    split at ha
    · cases ha; rfl
    · cases ha
  refine ⟨fun p hp => ?_, fun heights p hp => ?_⟩
  · unfold loadPotentialGrid at hp
    obtain ⟨a, ha, rfl⟩ := Option.map_eq_some_iff.1 hp
    refine ⟨key a ha, fun n0 n1 n2 f h => ?_⟩
    have := congrArg List.length h.1
    rw [key a ha] at this
    simp at this
  · unfold loadUnevenPotential at hp
    obtain ⟨a, ha, rfl⟩ := Option.map_eq_some_iff.1 hp
    exact key a ha

/-- **C169.** The even potential made from one read from a file has the vectors in the surface with the height zero, a third axis of length one with as many points as
there are heights, and one dimensional data with the numbers of the file. -/
theorem C169_mock (delta0 delta1 heights : List ℝ) (n0 n1 : ℕ) (h0 : 0 < n0) (h1 : 0 < n1) (f : ℕ → ℕ → ℕ → ℝ) :
    ∃ p, loadUnevenPotential delta0 delta1 heights (gridLists n0 n1 heights.length f) = some p ∧
      (mockEvenPotential p).axes = [(delta0 ++ [0], n0), (delta1 ++ [0], n1), ([0, 0, 1], heights.length)] ∧
      FlatData n0 n1 heights.length f (mockEvenPotential p).data := by
  obtain ⟨a, ha, hs, hf⟩ := arrayOfLists_grid n0 n1 heights.length h0 h1 f
  refine ⟨⟨delta0, n0, delta1, n1, heights, a⟩, by rw [loadUnevenPotential, ha, Option.map_some, hs]; rfl, rfl,
    flat_ravelled n0 n1 heights.length f a hs hf⟩

/-- **C169, negation.** That there is a height for each number along the third axis is not checked. -/
theorem C169_heights_negation : ∃ p, loadUnevenPotential [1, 0] [0, 1] [0, 1, 2] (gridLists 1 1 2 fun _ _ _ => 1) = some p ∧
    (mockEvenPotential p).data.shape = [2] ∧ ((mockEvenPotential p).axes.map Prod.snd).prod = 3 := by
  obtain ⟨a, ha, hs, _⟩ := arrayOfLists_grid 1 1 2 (by norm_num) (by norm_num) fun _ _ _ => 1
  refine ⟨⟨[1, 0], 1, [0, 1], 1, [0, 1, 2], a⟩, by rw [loadUnevenPotential, ha, Option.map_some, hs]; rfl, ?_, ?_⟩
  · simp [mockEvenPotential, NumberArray.ravelled, hs]
  · simp [mockEvenPotential]

/-- **C169.** Rows of different lengths raise. -/
theorem C169_ragged (delta0 delta1 delta2 heights : List ℝ) (points : List (List (List ℝ)))
    (h : (∃ r ∈ points, ∃ r' ∈ points, r.length ≠ r'.length) ∨ ∃ r ∈ points, ∃ r' ∈ points, ∃ c ∈ r, ∃ c' ∈ r', c.length ≠ c'.length) :
    loadPotentialGrid delta0 delta1 delta2 points = none ∧ loadUnevenPotential delta0 delta1 heights points = none := by
  have key : arrayOfLists points = none := by
    cases hp : arrayOfLists points with
    | none => rfl
    | some a =>
      exfalso
      unfold arrayOfLists at hp
      simp only [Option.bind_eq_some_iff] at hp
      obtain ⟨row, _, column, _, hp⟩ := hp
      split at hp
      · rename_i hall
        rcases h with ⟨r, hr, r', hr', hne⟩ | ⟨r, hr, r', hr', c, hc, c', hc', hne⟩
        · exact hne ((hall r hr).1.trans (hall r' hr').1.symm)
        · exact hne (((hall r hr).2 c hc).trans ((hall r' hr').2 c' hc').symm)
      · cases hp
  unfold loadPotentialGrid loadUnevenPotential
  rw [key]
  exact ⟨rfl, rfl⟩

/-- **C169.** The locations of a point potential are drawn as the distinct pairs of the coordinates of its points, each once; without points drawing raises. -/
theorem C169_locations (n : ℕ) (x y : ℕ → ℝ) (hn : 0 < n) :
    ∃ xs ys, plotPointLocations n x y = some (xs, ys) ∧ xs.length = ys.length ∧ (xs.zip ys).Nodup ∧
      (∀ a b, (a, b) ∈ xs.zip ys ↔ ∃ i < n, x i = a ∧ y i = b) ∧ plotPointLocations 0 x y = none := by
  have hne : pointPotentialXy n x y ≠ [] := List.ne_nil_of_mem ((mem_pointPotentialXy n x y (x 0, y 0)).2 ⟨0, hn, rfl, rfl⟩)
  have hz : ∀ l : List (ℝ × ℝ), (l.map Prod.fst).zip (l.map Prod.snd) = l := fun l => by
    induction l with
    | nil => rfl
    | cons a l ih => rw [List.map_cons, List.map_cons, List.zip_cons_cons, ih]
  refine ⟨_, _, by unfold plotPointLocations; dsimp only; rw [if_neg hne], by simp, ?_, ?_, ?_⟩
  · rw [hz]
    exact (C150_locations n x y).2.imp fun {p q} h hpq => by rw [hpq] at h; rcases h with h | h <;> simp at h
  · intro a b
    rw [hz]
    exact mem_pointPotentialXy n x y (a, b)
  · unfold plotPointLocations
    dsimp only
    rw [if_pos]
    exact List.eq_nil_iff_forall_not_mem.2 fun p hp => by
      obtain ⟨i, hi, _⟩ := (mem_pointPotentialXy 0 x y p).1 hp
      omega

/-! ## Concrete cases -/

example : ∃ p, loadUnevenPotential [2, 0] [0, 3] [0, 1, 4] (gridLists 2 1 3 fun i _ k => 10 * i + k) = some p ∧
    (mockEvenPotential p).data.shape = [6] ∧ (mockEvenPotential p).data.entry [4] = 11 := by
  obtain ⟨p, h1, -, h3, h4⟩ := C169_mock [2, 0] [0, 3] [0, 1, 4] 2 1 (by norm_num) (by norm_num) fun i _ k => 10 * i + k
  exact ⟨p, h1, by rw [h3]; simp, by have := h4 1 (by norm_num) 0 (by norm_num) 1 (by simp); simp at this; rw [this]; norm_num⟩

example : (∃ r ∈ ([[[1]], [[1], [2]]] : List (List (List ℝ))), ∃ r' ∈ ([[[1]], [[1], [2]]] : List (List (List ℝ))), r.length ≠ r'.length) :=
  ⟨[[1]], by simp, [[1], [2]], by simp, by simp⟩

end Verif
