import Verif.Model.Reduce
import Verif.Spec.Reduce
import Verif.Props.C29_Operators
import Verif.Props.C07_DataInAxes
import Verif.Lemmas.Kron

/-!
# C30, C76, C82: sums and averages over axes, probabilities, momentum interpolation
-/

set_option autoImplicit false

namespace Verif

open Finset Spec

variable {α : Type*}

theorem zipIdx_filter_keep {β : Type*} (axes : List ℕ) : ∀ (l : List β) (k : ℕ),
    ((l.zipIdx k).filter fun p => decide (p.2 ∉ axes)).map Prod.fst = keepFrom axes k l
  | [], k => rfl
  | x :: l, k => by
    have := zipIdx_filter_keep axes l (k + 1)
    by_cases h : k ∈ axes <;> simp [List.zipIdx_cons, keepFrom, h, this] at this ⊢ <;> exact this

theorem zipIdx_filter_lose {β : Type*} (axes : List ℕ) : ∀ (l : List β) (k : ℕ),
    ((l.zipIdx k).filter fun p => decide (p.2 ∈ axes)).map Prod.fst = loseFrom axes k l
  | [], k => rfl
  | x :: l, k => by
    have := zipIdx_filter_lose axes l (k + 1)
    by_cases h : k ∈ axes <;> simp [List.zipIdx_cons, loseFrom, h, this] at this ⊢ <;> exact this

theorem dropAxes_eq {β : Type*} (axes : List ℕ) (l : List β) : dropAxes axes l = keepFrom axes 0 l :=
  zipIdx_filter_keep axes l 0

theorem takeAxes_eq {β : Type*} (axes : List ℕ) (l : List β) : takeAxes axes l = loseFrom axes 0 l :=
  zipIdx_filter_lose axes l 0

theorem flagAxes_cons (k n : ℕ) (ns axes : List ℕ) :
    flagAxes k (n :: ns) axes = (n, decide (k ∈ axes)) :: flagAxes (k + 1) ns axes := by
  simp [flagAxes, List.zipIdx_cons]

theorem keep_inShape (axes : List ℕ) : ∀ (shape : List ℕ) (k : ℕ) (idx : List ℕ), InShape shape idx →
    InShape (keepFrom axes k shape) (keepFrom axes k idx)
  | [], k, [], _ => trivial
  | [], k, _ :: _, h => by simp [InShape] at h
  | _ :: _, k, [], h => by simp [InShape] at h
  | n :: ns, k, i :: is, h => by
    have := keep_inShape axes ns (k + 1) is h.2
    by_cases hk : k ∈ axes
    · simpa [keepFrom, hk] using this
    · simp only [keepFrom, hk, if_false]; exact ⟨h.1, this⟩

theorem keep_lose_prod (axes : List ℕ) : ∀ (shape : List ℕ) (k : ℕ),
    shape.prod = (keepFrom axes k shape).prod * (loseFrom axes k shape).prod
  | [], k => rfl
  | n :: ns, k => by
    have := keep_lose_prod axes ns (k + 1)
    by_cases hk : k ∈ axes <;> simp [keepFrom, loseFrom, hk, this] <;> ring

/-- The sum over marked axes, entry by entry. -/
theorem sumFlags_eq [AddCommMonoid α] (axes : List ℕ) : ∀ (shape : List ℕ) (k : ℕ) (data : ℕ → α) (j : List ℕ),
    InShape (keepFrom axes k shape) j →
    sumFlags (flagAxes k shape axes) (fun idx => data (ravel shape idx)) j =
      ∑ m ∈ range shape.prod, if keepFrom axes k (unravel shape m) = j then data m else 0
  | [], k, data, j, hj => by
    cases j with
    | nil => simp [flagAxes, sumFlags, keepFrom, unravel, ravel]
    | cons => simp [keepFrom, InShape] at hj
  | n :: ns, k, data, j, hj => by
    rw [flagAxes_cons, List.prod_cons, sum_range_mul']
    have hun : ∀ i, ∀ m < ns.prod, unravel (n :: ns) (i * ns.prod + m) = (i % n) :: unravel ns m := by
      intro i m hm
      have hp : 0 < ns.prod := by omega
      rw [unravel]
      rw [unravel_mul_add]
      congr 1
      rw [Nat.mul_comm, Nat.mul_add_div hp, Nat.div_eq_of_lt hm, Nat.add_zero]
    by_cases hk : k ∈ axes
    · simp only [hk, decide_true, sumFlags]
      simp only [keepFrom, hk, if_true] at hj
      apply sum_congr rfl; intro i hi
      have := sumFlags_eq axes ns (k + 1) (fun m => data (i * ns.prod + m)) j hj
      rw [show (fun is => data (ravel (n :: ns) (i :: is))) = fun is => data (i * ns.prod + ravel ns is) from rfl, this]
      apply sum_congr rfl; intro m hm
      rw [hun i m (mem_range.1 hm)]
      simp [keepFrom, hk]
    · simp only [hk, decide_false]
      simp only [keepFrom, hk, if_false] at hj
      cases j with
      | nil => simp [InShape] at hj
      | cons j0 j =>
        rw [sumFlags]
        have := sumFlags_eq axes ns (k + 1) (fun m => data (j0 * ns.prod + m)) j hj.2
        rw [show (fun is => data (ravel (n :: ns) (j0 :: is))) = fun is => data (j0 * ns.prod + ravel ns is) from rfl, this]
        rw [sum_eq_single_of_mem j0 (mem_range.2 hj.1)]
        · apply sum_congr rfl; intro m hm
          rw [hun j0 m (mem_range.1 hm), Nat.mod_eq_of_lt hj.1]
          simp [keepFrom, hk]
        · intro i hi hne
          apply sum_eq_zero; intro m hm
          rw [hun i m (mem_range.1 hm), Nat.mod_eq_of_lt (mem_range.1 hi), if_neg]
          simp [keepFrom, hk, hne]

/-- Sums over axes: which arguments are accepted, and the result. -/
theorem sumAxes_eq [AddCommMonoid α] (shape axes : List ℕ) (data : ℕ → α) (h : ∀ a ∈ axes, a < shape.length)
    (hnd : axes.Nodup) :
    ∃ f, sumAxes shape axes data = some f ∧
      (∀ j, InShape (keepFrom axes 0 shape) j → f (ravel (keepFrom axes 0 shape) j) = marginal shape axes data j) ∧
      ∑ k ∈ range (keepFrom axes 0 shape).prod, f k = ∑ m ∈ range shape.prod, data m := by
  refine ⟨_, if_pos ⟨h, hnd⟩, ?_, ?_⟩
  · intro j hj
    beta_reduce
    rw [dropAxes_eq, unravel_ravel _ j hj, sumFlags_eq axes shape 0 data j hj]
    rfl
  · have : ∀ k ∈ range (keepFrom axes 0 shape).prod,
        sumFlags (flagAxes 0 shape axes) (fun idx => data (ravel shape idx)) (unravel (dropAxes axes shape) k) =
        ∑ m ∈ range shape.prod, if keepFrom axes 0 (unravel shape m) = unravel (keepFrom axes 0 shape) k then data m
          else 0 := by
      intro k hk
      rw [dropAxes_eq]
      exact sumFlags_eq axes shape 0 data _ (unravel_inShape _ _ (mem_range.1 hk))
    rw [sum_congr rfl this, sum_comm]
    apply sum_congr rfl; intro m hm
    have hin := keep_inShape axes shape 0 _ (unravel_inShape shape m (mem_range.1 hm))
    rw [sum_eq_single_of_mem (ravel (keepFrom axes 0 shape) (keepFrom axes 0 (unravel shape m)))
      (mem_range.2 (ravel_lt _ _ hin))]
    · rw [unravel_ravel _ _ hin, if_pos rfl]
    · intro k hk hne
      rw [if_neg]
      intro he
      apply hne
      rw [he, ravel_unravel _ k (mem_range.1 hk)]

/-! ## C30 -/

/-- **C30, the part which holds.** With explicit axes, `average_eigenvalues` is at each index of the remaining axes the
mean over the listed axes, and the mean of the result is the mean of the input; without axes it is the mean over all
axes for a basis with exactly two axes. Missing: without axes it fails for one axis and leaves axes for three or more
(`C30_negation`). -/
theorem C30_average_partial (basis : List Basis) (hpos : ∀ b ∈ basis, 0 < size b) (data : ℕ → ℂ) :
    (∀ axes : List ℕ, (∀ a ∈ axes, a < basis.length) → axes.Nodup →
      ∃ d, averageEigenvalues basis (some axes) data = some (keepFrom axes 0 basis, d) ∧
        (∀ j, InShape (keepFrom axes 0 (basis.map size)) j → d (ravel (keepFrom axes 0 (basis.map size)) j) =
          marginal (basis.map size) axes data j / ((loseFrom axes 0 (basis.map size)).prod : ℂ)) ∧
        (∑ k ∈ range (keepFrom axes 0 (basis.map size)).prod, d k) / ((keepFrom axes 0 (basis.map size)).prod : ℂ) =
          (∑ m ∈ range (basis.map size).prod, data m) / ((basis.map size).prod : ℂ)) ∧
    (basis.length = 2 → ∃ d, averageEigenvalues basis none data = some ([], d) ∧
      d 0 = (∑ m ∈ range (basis.map size).prod, data m) / ((basis.map size).prod : ℂ)) := by
  have hsh : stackedShape basis = basis.map size := List.map_congr_left fun b _ => Basis.n_eq b
  have main : ∀ axes : List ℕ, (∀ a ∈ axes, a < basis.length) → axes.Nodup →
      ∃ d, averageEigenvalues basis (some axes) data = some (keepFrom axes 0 basis, d) ∧
        (∀ j, InShape (keepFrom axes 0 (basis.map size)) j → d (ravel (keepFrom axes 0 (basis.map size)) j) =
          marginal (basis.map size) axes data j / ((loseFrom axes 0 (basis.map size)).prod : ℂ)) ∧
        (∑ k ∈ range (keepFrom axes 0 (basis.map size)).prod, d k) / ((keepFrom axes 0 (basis.map size)).prod : ℂ) =
          (∑ m ∈ range (basis.map size).prod, data m) / ((basis.map size).prod : ℂ) := by
    intro axes ha hnd
    obtain ⟨f, hf, h1, h2⟩ := sumAxes_eq (basis.map size) axes data (by simpa using ha) hnd
    refine ⟨fun k => f k / ((loseFrom axes 0 (basis.map size)).prod : ℂ), ?_, ?_, ?_⟩
    · simp only [averageEigenvalues, averageAxes, hsh, Option.getD_some, hf, Option.map_some, dropAxes_eq, takeAxes_eq]
    · intro j hj; beta_reduce; rw [h1 j hj]
    · rw [← Finset.sum_div, h2, div_div, ← Nat.cast_mul, mul_comm, ← keep_lose_prod axes (basis.map size) 0]
  refine ⟨main, fun hl => ?_⟩
  obtain ⟨d, hd, _, h3⟩ := main (List.range 2) (by rw [hl]; intro a; simp) List.nodup_range
  match basis, hl with
  | [a, b], _ =>
    refine ⟨d, hd, ?_⟩
    rw [← h3]
    simp [keepFrom]

/-- **C30 fails**: without axes, averaging raises for every basis with one axis, and for a basis with three axes it
returns one entry for each state of the third axis. -/
theorem C30_negation (a b c : Basis) (data : ℕ → ℂ) :
    averageEigenvalues [a] none data = none ∧
    ∃ d, averageEigenvalues [a, b, c] none data = some ([c], d) := by
  constructor
  · simp [averageEigenvalues, averageAxes, sumAxes, stackedShape, List.range_succ]
  · refine ⟨_, by
      simp only [averageEigenvalues, averageAxes, Option.getD_none, sumAxes]
      rw [if_pos ⟨by simp [stackedShape]; omega, List.nodup_range⟩]
      simp only [Option.map_some, dropAxes_eq]
      rfl⟩

theorem flagAxes_shift (axes : List ℕ) : ∀ (shape : List ℕ) (k : ℕ),
    flagAxes (k + 1) shape (axes.map (1 + ·)) = flagAxes k shape axes
  | [], k => rfl
  | n :: ns, k => by
    rw [flagAxes_cons, flagAxes_cons, flagAxes_shift axes ns (k + 1)]
    congr 2
    simp only [List.mem_map]
    congr 1
    apply propext
    constructor
    · rintro ⟨x, hx, h⟩; have : x = k := by omega
      rwa [← this]
    · intro h; exact ⟨k, h, by omega⟩

theorem keepFrom_shift {β : Type*} (axes : List ℕ) : ∀ (l : List β) (k : ℕ),
    keepFrom (axes.map (1 + ·)) (k + 1) l = keepFrom axes k l ∧ loseFrom (axes.map (1 + ·)) (k + 1) l = loseFrom axes k l
  | [], k => ⟨rfl, rfl⟩
  | x :: l, k => by
    obtain ⟨h1, h2⟩ := keepFrom_shift axes l (k + 1)
    have : (k + 1 ∈ axes.map (1 + ·)) ↔ k ∈ axes := by
      simp only [List.mem_map]
      constructor
      · rintro ⟨x, hx, h⟩; have : x = k := by omega
        rwa [← this]
      · intro h; exact ⟨k, h, by omega⟩
    simp only [keepFrom, loseFrom, this, h1, h2, and_self]

/-- Reducing a list of arrays reduces every array of the list. -/
theorem sumAxes_list [AddCommMonoid α] (n0 : ℕ) (shape axes : List ℕ) (data : ℕ → α) :
    (sumAxes (n0 :: shape) (axes.map (1 + ·)) data = none ↔ ∀ d : ℕ → α, sumAxes shape axes d = none) ∧
    ∀ f, sumAxes (n0 :: shape) (axes.map (1 + ·)) data = some f → ∀ t < n0,
      ∃ g, sumAxes shape axes (fun m => data (t * shape.prod + m)) = some g ∧
        ∀ k < (keepFrom axes 0 shape).prod, f (t * (keepFrom axes 0 shape).prod + k) = g k := by
  have hc : ((∀ a ∈ axes.map (1 + ·), a < (n0 :: shape).length) ∧ (axes.map (1 + ·)).Nodup) ↔
      ((∀ a ∈ axes, a < shape.length) ∧ axes.Nodup) := by
    have hinj : Function.Injective (1 + · : ℕ → ℕ) := fun a b h => by simpa using h
    rw [List.nodup_map_iff hinj]
    simp only [List.mem_map, List.length_cons, forall_exists_index, and_imp, forall_apply_eq_imp_iff₂]
    constructor
    · rintro ⟨h, h'⟩; exact ⟨fun a ha => by have := h a ha; omega, h'⟩
    · rintro ⟨h, h'⟩; exact ⟨fun a ha => by have := h a ha; omega, h'⟩
  constructor
  · unfold sumAxes
    simp only [hc]
    split <;> simp
  · intro f hf t ht
    unfold sumAxes at hf
    split at hf
    · rename_i h
      refine ⟨_, if_pos (hc.1 h), ?_⟩
      intro k hk
      simp only [Option.some.injEq] at hf
      subst hf
      have h0 : 0 ∉ axes.map (1 + ·) := by simp
      beta_reduce
      rw [dropAxes_eq, dropAxes_eq, flagAxes_cons]
      have hkeep : keepFrom (axes.map (1 + ·)) 0 (n0 :: shape) = n0 :: keepFrom axes 0 shape := by
        rw [keepFrom, if_neg h0, (keepFrom_shift axes shape 0).1]
      rw [hkeep, flagAxes_shift, decide_eq_false h0, unravel, unravel_mul_add]
      have hp : 0 < (keepFrom axes 0 shape).prod := by omega
      rw [Nat.mul_comm t, Nat.mul_add_div hp, Nat.div_eq_of_lt hk, Nat.add_zero, Nat.mod_eq_of_lt ht, sumFlags]
      rfl
    · cases hf

/-- **C30, lists.** `average_eigenvalues_list` averages every operator of the list like `average_eigenvalues`. (It has the
same default axes.) -/
theorem C30_list (listBasis : Basis) (basis : List Basis) (axis : Option (List ℕ)) (data : ℕ → ℂ) :
    (averageEigenvaluesList listBasis basis axis data = none ↔ ∀ d, averageEigenvalues basis axis d = none) ∧
    ∀ bs f, averageEigenvaluesList listBasis basis axis data = some (bs, f) → ∀ t < size listBasis,
      ∃ g, averageEigenvalues basis axis (fun m => data (t * (basis.map size).prod + m)) = some (bs, g) ∧
        ∀ k < (bs.map size).prod, f (t * (bs.map size).prod + k) = g k := by
  have hsh : stackedShape basis = basis.map size := List.map_congr_left fun b _ => Basis.n_eq b
  have hmap : ∀ (axes : List ℕ) (l : List Basis) (k : ℕ), (keepFrom axes k l).map size = keepFrom axes k (l.map size) := by
    intro axes l
    induction l with
    | nil => intro k; rfl
    | cons b l ih => intro k; by_cases h : k ∈ axes <;> simp [keepFrom, h, ih]
  generalize hax : axis.getD (List.range 2) = axes
  obtain ⟨h1, h2⟩ := sumAxes_list listBasis.n (basis.map size) axes data
  constructor
  · simp only [averageEigenvaluesList, averageEigenvalues, averageAxes, hsh, hax, Option.map_eq_none_iff]
    exact h1
  · intro bs f hf t ht
    simp only [averageEigenvaluesList, averageAxes, hsh, hax] at hf
    cases hs : sumAxes (listBasis.n :: basis.map size) (axes.map (1 + ·)) data with
    | none => rw [hs] at hf; cases hf
    | some F =>
      rw [hs] at hf
      simp only [Option.map_some, Option.some.injEq, Prod.mk.injEq] at hf
      obtain ⟨rfl, rfl⟩ := hf
      obtain ⟨g, hg, hgk⟩ := h2 F hs t (by rw [Basis.n_eq]; exact ht)
      refine ⟨fun k => g k / ((takeAxes axes (basis.map size)).prod : ℂ), ?_, ?_⟩
      · simp only [averageEigenvalues, averageAxes, hsh, hax, hg, Option.map_some]
      · intro k hk
        rw [dropAxes_eq, hmap] at hk ⊢
        beta_reduce
        rw [hgk k hk]
        congr 3
        rw [takeAxes_eq, takeAxes_eq, loseFrom, if_neg (by simp), (keepFrom_shift axes _ 0).2]

/-! ## C76 -/

/-- **C76.** The probabilities of a state are nonnegative and sum to its normalization. -/
theorem C76_probabilities (v : StateVector) :
    (∀ i, 0 ≤ probabilities v.data i) ∧
    ∑ i ∈ range (size v.basis), probabilities v.data i = calculateNormalization v ∧
    (∀ i, probabilities v.data i = 0 ↔ v.data i = 0) := by
  refine ⟨fun i => by unfold probabilities; positivity, ?_, fun i => by simp [probabilities]⟩
  simp only [probabilities, calculateNormalization, Basis.n_eq]

/-- **C76.** Probabilities of the states of a list are the probabilities of each state. -/
theorem C76_list (l : StateVectorList) (i : ℕ) (hi : i < size l.listBasis) :
    ∃ s p, getStateVector l i = some s ∧ getProbability l.listBasis l.basis (probabilities l.data) i = some p ∧
      ∀ j, p j = probabilities s.data j :=
  ⟨_, _, if_pos (by rw [Basis.n_eq]; exact hi), if_pos (by rw [Basis.n_eq]; exact hi), fun _ => rfl⟩

/-- **C76.** `sum_probability` over given axes has at each index of the other axes the sum over the listed axes, and it
keeps the total; without axes the single entry is the total (any number of axes). -/
theorem C76_sum (basis : List Basis) (data : ℕ → ℝ) :
    (∀ axes : List ℕ, (∀ a ∈ axes, a < basis.length) → axes.Nodup →
      ∃ d, sumProbability basis (some axes) data = some (keepFrom axes 0 basis, d) ∧
        (∀ j, InShape (keepFrom axes 0 (basis.map size)) j →
          d (ravel (keepFrom axes 0 (basis.map size)) j) = marginal (basis.map size) axes data j) ∧
        ∑ k ∈ range (keepFrom axes 0 (basis.map size)).prod, d k = ∑ m ∈ range (basis.map size).prod, data m) ∧
    (∃ d, sumProbability basis none data = some ([], d) ∧ d 0 = ∑ m ∈ range (basis.map size).prod, data m) := by
  have hsh : stackedShape basis = basis.map size := List.map_congr_left fun b _ => Basis.n_eq b
  have main : ∀ axes : List ℕ, (∀ a ∈ axes, a < basis.length) → axes.Nodup →
      ∃ d, sumProbability basis (some axes) data = some (keepFrom axes 0 basis, d) ∧
        (∀ j, InShape (keepFrom axes 0 (basis.map size)) j →
          d (ravel (keepFrom axes 0 (basis.map size)) j) = marginal (basis.map size) axes data j) ∧
        ∑ k ∈ range (keepFrom axes 0 (basis.map size)).prod, d k = ∑ m ∈ range (basis.map size).prod, data m := by
    intro axes ha hnd
    obtain ⟨f, hf, h1, h2⟩ := sumAxes_eq (basis.map size) axes data (by simpa using ha) hnd
    refine ⟨f, ?_, h1, h2⟩
    simp only [sumProbability, hsh, Option.getD_some, hf, Option.map_some, dropAxes_eq]
  refine ⟨main, ?_⟩
  obtain ⟨d, hd, _, h3⟩ := main (List.range basis.length) (by simp) List.nodup_range
  have hnil : ∀ {β : Type} (l : List β) (k : ℕ) (N : ℕ), k + l.length ≤ N → keepFrom (List.range N) k l = [] := by
    intro β l
    induction l with
    | nil => intros; rfl
    | cons x l ih =>
      intro k N h
      simp only [List.length_cons] at h
      rw [keepFrom, if_pos (by simp; omega)]
      exact ih (k + 1) N (by omega)
  refine ⟨d, ?_, ?_⟩
  · have h0 := hnil basis 0 basis.length (by omega)
    rw [h0] at hd
    exact hd
  · rw [← h3, hnil (basis.map size) 0 basis.length (by simp)]
    simp

/-- **C76, the part which holds for lists.** `sum_probabilities` with given axes sums each entry of the list, keeping each
total. Missing: without axes it sums the first two axes of the states only (`C76_negation`). -/
theorem C76_sum_list_partial (listBasis : Basis) (basis : List Basis) (axes : List ℕ) (ha : ∀ a ∈ axes, a < basis.length)
    (hnd : axes.Nodup) (data : ℕ → ℝ) :
    ∃ f, sumProbabilities listBasis basis (some axes) data = some (keepFrom axes 0 basis, f) ∧
      ∀ t < size listBasis, ∃ g,
        sumProbability basis (some axes) (fun m => data (t * (basis.map size).prod + m)) = some (keepFrom axes 0 basis, g) ∧
        ∀ k < (keepFrom axes 0 (basis.map size)).prod, f (t * (keepFrom axes 0 (basis.map size)).prod + k) = g k := by
  have hsh : stackedShape basis = basis.map size := List.map_congr_left fun b _ => Basis.n_eq b
  obtain ⟨h1, h2⟩ := sumAxes_list listBasis.n (basis.map size) axes data
  cases hs : sumAxes (listBasis.n :: basis.map size) (axes.map (1 + ·)) data with
  | none =>
    obtain ⟨g, hg, _⟩ := sumAxes_eq (basis.map size) axes data (by simpa using ha) hnd
    rw [h1.1 hs data] at hg; cases hg
  | some F =>
    refine ⟨F, by simp only [sumProbabilities, hsh, Option.getD_some, hs, Option.map_some, dropAxes_eq], fun t ht => ?_⟩
    obtain ⟨g, hg, hgk⟩ := h2 F hs t (by rw [Basis.n_eq]; exact ht)
    exact ⟨g, by simp only [sumProbability, hsh, Option.getD_some, hg, Option.map_some, dropAxes_eq], hgk⟩

/-- **C76 fails**: `sum_probabilities` without axes raises for states with one axis and leaves the third of three axes;
`get_probability_along_axis` of a list with two axes returns data which still contains both axes of the list. -/
theorem C76_negation (listBasis l0 l1 a b c : Basis) (data : ℕ → ℝ) :
    sumProbabilities listBasis [a] none data = none ∧
    (∃ d, sumProbabilities listBasis [a, b, c] none data = some ([c], d)) ∧
    getProbabilityAlongAxisShape [l0, l1] a = ([l0], [size l0 * size l1, size a]) := by
  refine ⟨?_, ?_, ?_⟩
  · simp [sumProbabilities, sumAxes, stackedShape, List.range_succ]
  · refine ⟨_, by
      simp only [sumProbabilities, Option.getD_none, sumAxes]
      rw [if_pos ⟨by simp [stackedShape, List.range_succ], by simp [List.range_succ]⟩]
      simp only [Option.map_some, dropAxes_eq]
      rfl⟩
  · have hs : ∀ l : List ℕ, l = [0, 2] → l.mergeSort (fun a b => decide (a ≤ b)) = [0, 2] := by
      rintro l rfl; simp [List.mergeSort, List.MergeSort.Internal.splitInTwo, List.merge]
    have hp : getPositionInSorted [0, 2] = [0, 1] := by
      simp [getPositionInSorted, argsort, List.range_succ, List.mergeSort, List.MergeSort.Internal.splitInTwo, List.merge]
    simp [getProbabilityAlongAxisShape, takeAxes_eq, loseFrom, stackedShape, getDataInAxesShape, hp, sliceIgnoringAxes,
      hs, sliceShape, Basis.n_eq]

/-- **C76.** `average_probabilities` without axes is the mean over the states of the list. -/
theorem C76_average (listBasis basis : Basis) (data : ℕ → ℝ) :
    ∃ d, averageProbabilitiesAll listBasis basis data = some d ∧ ∀ j < size basis,
      d j = (∑ i ∈ range (size listBasis), data (i * size basis + j)) / (size listBasis : ℝ) := by
  refine ⟨_, by simp only [averageProbabilitiesAll, averageAxes, sumAxes]; rw [if_pos (by simp)]; rfl, ?_⟩
  intro j hj
  simp only [takeAxes_eq, dropAxes_eq, keepFrom, loseFrom, flagAxes_cons, Basis.n_eq]
  simp [flagAxes, sumFlags, unravel, ravel, Nat.mod_eq_of_lt hj]

/-- **C76.** Averaging over axes of the list gives at each index of the other axes of the list the mean over the listed
axes, for probabilities and for state vectors (whose default is all axes of the list). -/
theorem C76_average_axes (listBasis : List Basis) (basis : Basis) (axes : List ℕ) (ha : ∀ a ∈ axes, a < listBasis.length)
    (hnd : axes.Nodup) (data : ℕ → ℝ) (states : ℕ → ℂ) :
    (∃ d, averageProbabilities listBasis basis axes data = some (keepFrom axes 0 listBasis, d) ∧
      ∀ j, InShape (keepFrom axes 0 (listBasis.map size ++ [size basis])) j →
        d (ravel (keepFrom axes 0 (listBasis.map size ++ [size basis])) j) =
          marginal (listBasis.map size ++ [size basis]) axes data j /
            ((loseFrom axes 0 (listBasis.map size ++ [size basis])).prod : ℝ)) ∧
    (∃ d, averageStateVector listBasis basis (some axes) states = some (keepFrom axes 0 listBasis, d) ∧
      ∀ j, InShape (keepFrom axes 0 (listBasis.map size ++ [size basis])) j →
        d (ravel (keepFrom axes 0 (listBasis.map size ++ [size basis])) j) =
          marginal (listBasis.map size ++ [size basis]) axes states j /
            ((loseFrom axes 0 (listBasis.map size ++ [size basis])).prod : ℂ)) ∧
    averageStateVector listBasis basis none states =
      averageStateVector listBasis basis (some (List.range listBasis.length)) states := by
  have hsh : stackedShape listBasis = listBasis.map size := List.map_congr_left fun b _ => Basis.n_eq b
  have hlt : ∀ a ∈ axes, a < (listBasis.map size ++ [size basis]).length := by
    intro a h; have := ha a h; simp; omega
  refine ⟨?_, ?_, rfl⟩
  · obtain ⟨f, hf, h1, _⟩ := sumAxes_eq _ axes data hlt hnd
    refine ⟨fun k => f k / ((loseFrom axes 0 (listBasis.map size ++ [size basis])).prod : ℝ), ?_, fun j hj => by
      beta_reduce; rw [h1 j hj]⟩
    simp only [averageProbabilities, averageAxes, hsh, Basis.n_eq, hf, Option.map_some, dropAxes_eq, takeAxes_eq]
  · obtain ⟨f, hf, h1, _⟩ := sumAxes_eq _ axes states hlt hnd
    refine ⟨fun k => f k / ((loseFrom axes 0 (listBasis.map size ++ [size basis])).prod : ℂ), ?_, fun j hj => by
      beta_reduce; rw [h1 j hj]⟩
    simp only [averageStateVector, averageAxes, hsh, Basis.n_eq, Option.getD_some, hf, Option.map_some, dropAxes_eq,
      takeAxes_eq]

/-- **C82, the part which holds.** `interpolate_state_vector_momentum` succeeds and embeds each listed axis into the
requested number of points when all requested numbers are the same and at least two axes are listed. -/
theorem C82_interpolate_partial (ns axes : List ℕ) (N : ℕ) (hN : 2 ≤ axes.length) (data : ℕ → ℂ) :
    ∃ d, interpolateStateVectorMomentum ns (List.replicate axes.length N) axes data =
      some (.tuple (ns.zipIdx.map fun p => if p.2 ∈ axes then .transformed p.1 N else .fundamentalTransformed p.1), d) ∧
      ∀ k, d k = data k * (Real.sqrt ((N : ℝ) ^ axes.length / (ns.prod : ℝ)) : ℂ) := by
  refine ⟨fun k => data k * (Real.sqrt ((N : ℝ) ^ axes.length / (ns.prod : ℝ)) : ℂ), ?_, fun _ => rfl⟩
  unfold interpolateStateVectorMomentum
  have h1 : (List.replicate axes.length N)[1]? = some N := by
    rw [List.getElem?_replicate, if_pos (by omega)]
  have hmap : ∀ l : List (ℕ × ℕ), (l.mapM fun p => (interpolatedAxisPoints (List.replicate axes.length N) axes p.2 p.1).map
      fun N => if p.2 ∈ axes then Basis.transformed p.1 N else Basis.fundamentalTransformed p.1) =
      some (l.map fun p => if p.2 ∈ axes then .transformed p.1 N else .fundamentalTransformed p.1) := by
    intro l
    induction l with
    | nil => rfl
    | cons p l ih =>
      rw [List.mapM_cons, ih]
      by_cases hp : p.2 ∈ axes <;> simp [interpolatedAxisPoints, h1, hp]
  rw [hmap]
  simp [List.prod_replicate]

/-- **C82 fails**: with one requested axis the function raises, and when the two requested numbers differ the first
axis gets the number requested for the second. -/
theorem C82_negation (n m N M : ℕ) (data : ℕ → ℂ) :
    interpolateStateVectorMomentum [n] [N] [0] data = none ∧
    ∃ d, interpolateStateVectorMomentum [n, m] [N, M] [0, 1] data =
      some (.tuple [.transformed n M, .transformed m M], d) := by
  constructor
  · simp [interpolateStateVectorMomentum, interpolatedAxisPoints]
  · exact ⟨_, by simp [interpolateStateVectorMomentum, interpolatedAxisPoints]; rfl⟩

-- hypotheses are met: three axes, the outer two averaged
example : ∃ d, averageEigenvalues [.fundamental 2, .transformed 3 5, .fundamental 4] (some [2, 0]) (fun k => k) =
    some ([.transformed 3 5], d) := by
  obtain ⟨d, h, _⟩ := (C30_average_partial [.fundamental 2, .transformed 3 5, .fundamental 4] (by simp [size])
    (fun k => k)).1 [2, 0] (by simp) (by simp)
  exact ⟨d, h⟩

end Verif
