import Verif.Lemmas.Vnorm
import Verif.Props.C06_Lattice
import Verif.Props.C03_Index

/-!
# C08: cumulative distances along a path
-/

namespace Verif

open Matrix

variable {d : ℕ}

/-- Specification: what a list of cumulative distances along the points `pts` (`L` of them, step lengths
`step`) has to satisfy. -/
structure IsCumulative (L : ℕ) (step : ℕ → ℝ) (out : List ℝ) : Prop where
  /-- one entry per point of the path -/
  length : out.length = L
  /-- entry `j` is the sum of the lengths of the first `j` steps -/
  value : ∀ j (h : j < out.length), out[j] = ∑ i ∈ Finset.range j, step i

theorem scanl_spec (l : List ℝ) (a : ℝ) : ∀ j (h : j < (l.scanl (· + ·) a).length),
    (l.scanl (· + ·) a)[j] = a + ∑ i ∈ Finset.range j, l.getD i 0 := by
  induction l generalizing a with
  | nil => intro j h; simp at h; subst h; simp
  | cons x xs ih =>
    intro j h
    cases j with
    | zero => simp
    | succ j =>
      simp only [List.scanl_cons, List.getElem_cons_succ]
      rw [ih]
      rw [Finset.sum_range_succ']
      simp only [List.getD_cons_succ, List.getD_cons_zero]
      ring

theorem cumsumInsertZero_spec (l : List ℝ) :
    IsCumulative (l.length + 1) (fun i => l.getD i 0) (cumsumInsertZero l) := by
  refine ⟨by simp [cumsumInsertZero], ?_⟩
  intro j h
  have := scanl_spec l 0 j h
  unfold cumsumInsertZero
  rw [this, zero_add]

/-- Position reached after the index `p` of the path: `Σ pᵢ dxᵢ`. -/
noncomputable def pathPoint (A : Matrix (Fin d) (Fin d) ℝ) (fshape : Fin d → ℕ) (p : Fin d → ℤ) : Fin d → ℝ :=
  ∑ i, ((p i : ℝ) / fshape i) • A i

theorem tensordot_dx (A : Matrix (Fin d) (Fin d) ℝ) (fshape : Fin d → ℕ) (p : Fin d → ℤ) :
    tensordot00 (dxStacked A fshape) (fun i => (p i : ℝ)) = pathPoint A fshape p := by
  funext c
  simp only [tensordot00, dxStacked, of_apply, pathPoint, Finset.sum_apply, Pi.smul_apply, smul_eq_mul]
  exact Finset.sum_congr rfl fun x _ => by ring

theorem pathPoint_sub (A : Matrix (Fin d) (Fin d) ℝ) (fshape : Fin d → ℕ) (p q : Fin d → ℤ) :
    pathPoint A fshape (fun i => p i - q i) = pathPoint A fshape p - pathPoint A fshape q := by
  unfold pathPoint
  rw [← Finset.sum_sub_distrib]
  apply Finset.sum_congr rfl
  intro i _
  rw [← sub_smul]
  congr 1; push_cast; ring

theorem zipWith_tail_getD {α β : Type*} (f : α → α → β) (l : List α) (i : ℕ) (h : i + 1 < l.length) (b : β) :
    (List.zipWith f l l.tail).getD i b = f l[i] l[i + 1] := by
  rw [List.getD, List.getElem?_eq_getElem (by simp; omega)]
  simp

/-- **C08** (position space, not wrapped). One entry per path point; entry `j` is the sum of the Euclidean
lengths of the first `j` segments. -/
theorem C08_cumulative_x (A : Matrix (Fin d) (Fin d) ℝ) (shape fshape : Fin d → ℕ) (path : List (Fin d → ℤ))
    (hpath : path ≠ []) :
    IsCumulative path.length
      (fun i => if h : i + 1 < path.length then
        vnorm (pathPoint A fshape path[i + 1] - pathPoint A fshape path[i]) else 0)
      (cumulativeXDistances A shape fshape false path) := by
  have hl : 0 < path.length := List.length_pos_iff.2 hpath
  have h := cumsumInsertZero_spec ((distancesAlongPath shape false path).map fun dist =>
    vnorm (tensordot00 (dxStacked A fshape) (fun i => (dist i : ℝ))))
  refine ⟨by rw [cumulativeXDistances, h.length]; simp [distancesAlongPath]; omega, ?_⟩
  intro j hj
  have hj2 := hj
  rw [cumulativeXDistances, h.length] at hj2
  simp [distancesAlongPath] at hj2
  simp only [cumulativeXDistances]
  rw [h.value]
  apply Finset.sum_congr rfl
  intro i hi
  have hi := Finset.mem_range.1 hi
  have hi2 : i + 1 < path.length := by omega
  rw [dif_pos hi2, List.getD, List.getElem?_map, distancesAlongPath]
  simp only [Bool.false_eq_true, if_false]
  have hz : (List.zipWith (fun p q : Fin d → ℤ => fun i => p i - q i) path path.tail)[i]? =
      some (fun k => path[i] k - path[i + 1] k) := by
    rw [List.getElem?_eq_getElem (by simp; omega)]; simp
  rw [List.getElem?_map, hz]
  simp only [Option.map_some, Option.getD_some]
  rw [tensordot_dx, pathPoint_sub, ← vnorm_neg]
  congr 1; simp

/-- **C08.** Consequences for any cumulative list with nonnegative steps: it starts at zero, never decreases,
and any prefix of the path has the corresponding prefix of distances. -/
theorem C08_cumulative_monotone (L : ℕ) (step : ℕ → ℝ) (out : List ℝ) (h : IsCumulative L step out)
    (hstep : ∀ i, 0 ≤ step i) :
    (∀ h0 : 0 < out.length, out[0] = 0) ∧
    (∀ i j (hj : j < out.length) (hij : i ≤ j), out[i] ≤ out[j]) := by
  refine ⟨fun h0 => by rw [h.value]; simp, fun i j hj hij => ?_⟩
  rw [h.value, h.value]
  exact Finset.sum_le_sum_of_subset_of_nonneg (by simpa using hij) (fun k _ _ => hstep k)

/-- **C08.** The path is never shorter than the straight line between any two of its points. -/
theorem C08_cumulative_dominates_straight_line (A : Matrix (Fin d) (Fin d) ℝ) (shape fshape : Fin d → ℕ)
    (path : List (Fin d → ℤ)) (i j : ℕ) (hij : i ≤ j) (hj : j < path.length)
    (hi' : i < (cumulativeXDistances A shape fshape false path).length)
    (hj' : j < (cumulativeXDistances A shape fshape false path).length) :
    vnorm (pathPoint A fshape path[j] - pathPoint A fshape path[i]) ≤
      (cumulativeXDistances A shape fshape false path)[j] -
        (cumulativeXDistances A shape fshape false path)[i] := by
  have h := C08_cumulative_x A shape fshape path (by rintro rfl; simp at hj)
  rw [h.value, h.value]
  induction j with
  | zero =>
    have : i = 0 := by omega
    subst this; simp [vnorm_zero]
  | succ j ih =>
    rcases Nat.lt_or_ge i (j + 1) with hlt | hge
    · have := ih (by omega) (by omega) (by omega)
      rw [Finset.sum_range_succ, dif_pos hj]
      have e : pathPoint A fshape path[j + 1] - pathPoint A fshape path[i] =
          (pathPoint A fshape path[j] - pathPoint A fshape path[i]) +
          (pathPoint A fshape path[j + 1] - pathPoint A fshape path[j]) := by abel
      rw [e]
      have := vnorm_add_le (pathPoint A fshape path[j] - pathPoint A fshape path[i])
        (pathPoint A fshape path[j + 1] - pathPoint A fshape path[j])
      linarith
    · have : i = j + 1 := by omega
      subst this; simp [vnorm_zero]

/-- Truncation of a float that is an integer is that integer. -/
theorem truncInt_intCast (z : ℤ) : truncInt (z : ℝ) = z := by
  unfold truncInt; split <;> simp

/-- **C08.** With `wrap_distances=True` each step is exactly the integer closest representative of the step modulo the
axis length (the half-integer arithmetic and the conversion to integers lose nothing). -/
theorem C08_wrapped_step (z : ℤ) (n : ℕ) (hn : 0 < n) :
    truncInt (wrapDistance z n 0) = wrapIndex z n 0 := by
  have hn' : (0 : ℝ) < n := by exact_mod_cast hn
  obtain ⟨⟨k, hk⟩, h1, h2⟩ := C06_wrap_distance (z : ℝ) n 0 hn'
  have e : wrapDistance (z : ℝ) n 0 = ((z + k * n : ℤ) : ℝ) := by rw [hk]; push_cast; ring
  rw [e] at h1 h2
  rw [e, truncInt_intCast]
  apply C05_wrap_index_unique z n 0 _ (by omega)
  · exact (Int.modEq_iff_dvd.2 ⟨-k, by ring⟩)
  · have : -(n : ℝ) ≤ 2 * ((z + k * n : ℤ) : ℝ) := by linarith
    have : -(n : ℤ) ≤ 2 * (z + k * n) := by exact_mod_cast this
    omega
  · have : 2 * ((z + k * n : ℤ) : ℝ) < (n : ℝ) := by linarith
    have : 2 * (z + k * n) < (n : ℤ) := by exact_mod_cast this
    omega

/-- **C08** (grid version). -/
theorem C08_cumulative_on_grid {ι : Type*} (coordinates : ι → Fin d → ℝ) (path : List ι) (hpath : path ≠ []) :
    IsCumulative path.length
      (fun i => if h : i + 1 < path.length then
        vnorm (coordinates path[i + 1] - coordinates path[i]) else 0)
      (cumulativeDistancesOnGrid coordinates path) := by
  have hl : 0 < path.length := List.length_pos_iff.2 hpath
  have h := cumsumInsertZero_spec (List.zipWith (fun p q : Fin d → ℝ => vnorm (fun i => p i - q i))
    (path.map coordinates) (path.map coordinates).tail)
  refine ⟨by simp only [cumulativeDistancesOnGrid]; rw [h.length]; simp; omega, ?_⟩
  intro j hj
  have hj2 := hj
  simp only [cumulativeDistancesOnGrid] at hj2
  rw [h.length] at hj2
  simp at hj2
  simp only [cumulativeDistancesOnGrid]
  rw [h.value]
  apply Finset.sum_congr rfl
  intro i hi
  have hi := Finset.mem_range.1 hi
  have hi2 : i + 1 < path.length := by omega
  rw [dif_pos hi2, zipWith_tail_getD _ _ _ (by simpa using hi2), ← vnorm_neg]
  congr 1; funext k; simp

/-- **C08**, negative: the momentum-space version returns `d + 1` numbers whatever the path, because the norm is
taken over the path instead of over the components. -/
theorem C08_cumulative_k_length (A : Matrix (Fin d) (Fin d) ℝ) (shape : Fin d → ℕ) (wrap : Bool)
    (path : List (Fin d → ℤ)) : (cumulativeKDistances A shape wrap path).length = d + 1 := by
  simp [cumulativeKDistances, cumsumInsertZero]

/-- **C08**, negative: so it does not give one distance per path point. -/
theorem C08_cumulative_k_not_per_point :
    ¬ ∀ (A : Matrix (Fin 2) (Fin 2) ℝ) (shape : Fin 2 → ℕ) (path : List (Fin 2 → ℤ)), path ≠ [] →
      (cumulativeKDistances A shape false path).length = path.length := by
  intro h
  have := h 1 (fun _ => 4) [![0, 0]] (by simp)
  rw [C08_cumulative_k_length] at this
  simp at this

/-- **C08** (momentum space, what holds). The only case in which the momentum version is the cumulative
distance is one dimension and two points. Full statement wanted: the analogue of `C08_cumulative_x` for all
dimensions and paths; it is false (`C08_cumulative_k_not_per_point`). -/
theorem C08_cumulative_k_partial (A : Matrix (Fin 1) (Fin 1) ℝ) (shape : Fin 1 → ℕ) (p q : Fin 1 → ℤ) :
    cumulativeKDistances A shape false [p, q] =
      [0, vnorm (kPointAtIndex A q - kPointAtIndex A p)] := by
  simp only [cumulativeKDistances, cumsumInsertZero, distancesAlongPath]
  simp [vnorm, kPointAtIndex, tensordot00, dotProduct]
  congr 1; ring

example : ([![0, 0], ![1, 2], ![3, 3]] : List (Fin 2 → ℤ)) ≠ [] := by simp
example : truncInt (wrapDistance (4 : ℤ) (5 : ℕ) 0) = -1 := by
  rw [C08_wrapped_step 4 5 (by norm_num)]; decide

end Verif
