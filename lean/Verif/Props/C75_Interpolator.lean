import Verif.Model.Overlap
import Verif.Props.C03_Index
import Verif.Props.C06_Lattice
import Verif.Props.C15_Stacked
import Verif.Lemmas.Dft
import Mathlib.Analysis.SpecialFunctions.Integrals.Basic

/-!
C75: momentum interpolators of overlaps. C99: the average over the angle.
-/

set_option autoImplicit false

namespace Verif

open Finset Matrix Spec

variable {d : ℕ}

/-! ## C75 -/

/-- The wrapped index: congruent to the index on every axis; on the axes 0 and 1 in the centred window, unchanged on the others. -/
theorem wrappedNx_spec (shape : Fin d → ℕ) (hpos : ∀ i, 0 < shape i) (j : ℕ) (i : Fin d) :
    (∃ m : ℤ, wrappedNx shape j i = ((unravel (List.ofFn shape) j).getD i 0 : ℕ) + m * shape i) ∧
    ((i : ℕ) < 2 → -(shape i : ℤ) ≤ 2 * wrappedNx shape j i ∧ 2 * wrappedNx shape j i < shape i) ∧
    (2 ≤ (i : ℕ) → wrappedNx shape j i = ((unravel (List.ofFn shape) j).getD i 0 : ℕ)) := by
  have hlen : (List.ofFn shape).length = d := List.length_ofFn
  have hsh : (List.ofFn shape).getD i 0 = shape i := by
    simp [List.getD_eq_getElem?_getD]
  have hidx : ((stackedNxPoints (List.ofFn shape) j).map fun x : ℕ => (x : ℤ)).getD i 0 = ((unravel (List.ofFn shape) j).getD i 0 : ℕ) := by
    simp only [stackedNxPoints, List.getD_eq_getElem?_getD, List.getElem?_map]
    cases (unravel (List.ofFn shape) j)[(i : ℕ)]? <;> rfl
  have hval : wrappedNx shape j i = if (i : ℕ) ∈ [0, 1] then wrapIndex ((unravel (List.ofFn shape) j).getD i 0 : ℕ) (shape i) 0
      else ((unravel (List.ofFn shape) j).getD i 0 : ℕ) := by
    unfold wrappedNx wrapIndexAroundOrigin
    rw [List.getD_eq_getElem?_getD, List.getElem?_map, hlen, List.getElem?_range i.isLt, Option.map_some, Option.getD_some]
    simp only [hidx, hsh]
  rw [hval]
  have hp : (0 : ℤ) < shape i := by exact_mod_cast hpos i
  generalize (unravel (List.ofFn shape) j).getD i 0 = x
  obtain ⟨w1, w2, w3⟩ := C05_wrap_index_window (x : ℤ) (shape i) 0 hp
  refine ⟨?_, fun h => ?_, fun h => ?_⟩
  · split_ifs
    · obtain ⟨m, hm⟩ := Int.modEq_iff_dvd.1 w1.symm
      exact ⟨m, by linarith⟩
    · exact ⟨0, by simp⟩
  · rw [if_pos (by simp; omega)]
    omega
  · rw [if_neg (by simp; omega)]

/-- **C75**: at the points of the reciprocal lattice the interpolator is the discrete Fourier transform of the overlap. -/
theorem C75_lattice (A : Matrix (Fin d) (Fin d) ℝ) (hA : IsUnit A.det) (shape : Fin d → ℕ) (hpos : ∀ i, 0 < shape i) (data : ℕ → ℂ)
    (nk : Fin d → ℤ) :
    overlapInterpolator A shape data (kPointAtIndex A nk) = ∑ j ∈ range (List.ofFn shape).prod, data j *
      Complex.exp (2 * Real.pi * Complex.I * ∑ i, (nk i : ℂ) * (((unravel (List.ofFn shape) j).getD i 0 : ℕ) : ℂ) / shape i) := by
  unfold overlapInterpolator
  refine sum_congr rfl fun j _ => ?_
  congr 1
  rw [dotProduct_comm, C21_phase A hA]
  choose m hm using fun i => (wrappedNx_spec shape hpos j i).1
  rw [Complex.exp_eq_exp_iff_exists_int]
  refine ⟨∑ i, nk i * m i, ?_⟩
  push_cast
  rw [mul_sum, mul_sum, mul_sum, sum_mul, ← sum_add_distrib]
  refine sum_congr rfl fun i _ => ?_
  have : (shape i : ℂ) ≠ 0 := by exact_mod_cast (hpos i).ne'
  rw [hm i]
  push_cast
  field_simp

/-- **C75**, everywhere: the interpolator is the Fourier sum over the points of the overlap, each of them moved by a lattice vector of the first two axes so
that its coordinates along them are in `[-1/2, 1/2)`. -/
theorem C75_points (A : Matrix (Fin d) (Fin d) ℝ) (shape : Fin d → ℕ) (hpos : ∀ i, 0 < shape i) (data : ℕ → ℂ) :
    ∃ c : ℕ → Fin d → ℝ,
      (∀ (j : ℕ) (i : Fin d), ∃ m : ℤ, c j i = ((unravel (List.ofFn shape) j).getD i 0 : ℕ) / (shape i : ℝ) + m ∧ (2 ≤ (i : ℕ) → m = 0)) ∧
      (∀ (j : ℕ) (i : Fin d), (i : ℕ) < 2 → -1 / 2 ≤ c j i ∧ c j i < 1 / 2) ∧
      ∀ k, overlapInterpolator A shape data k = ∑ j ∈ range (List.ofFn shape).prod, data j *
        Complex.exp (Complex.I * (((∑ i, c j i • A i) ⬝ᵥ k : ℝ) : ℂ)) := by
  have hne : ∀ i, (0 : ℝ) < shape i := fun i => by exact_mod_cast hpos i
  refine ⟨fun j i => (wrappedNx shape j i : ℝ) / shape i, fun j i => ?_, fun j i hi => ?_, fun k => ?_⟩
  · obtain ⟨⟨m, hm⟩, -, h3⟩ := wrappedNx_spec shape hpos j i
    by_cases h : 2 ≤ (i : ℕ)
    · exact ⟨0, by simp only [h3 h]; push_cast; ring, fun _ => rfl⟩
    · refine ⟨m, ?_, fun h' => absurd h' h⟩
      simp only [hm]
      push_cast
      have := (hne i).ne'
      field_simp
  · obtain ⟨-, h2, -⟩ := wrappedNx_spec shape hpos j i
    obtain ⟨a, b⟩ := h2 hi
    have a' : -(shape i : ℝ) ≤ 2 * (wrappedNx shape j i : ℝ) := by exact_mod_cast a
    have b' : 2 * (wrappedNx shape j i : ℝ) < shape i := by exact_mod_cast b
    beta_reduce
    rw [le_div_iff₀ (hne i), div_lt_iff₀ (hne i)]
    constructor <;> linarith
  · unfold overlapInterpolator
    refine sum_congr rfl fun j _ => ?_
    congr 4
    congr 1
    funext c
    simp only [xPointAtIndex, tensordot00, dxStacked, of_apply, Finset.sum_apply, Pi.smul_apply, smul_eq_mul]
    exact sum_congr rfl fun i _ => by ring

example : IsUnit (!![2, 0, 0; 1, 2, 0; 0, 0, 3] : Matrix (Fin 3) (Fin 3) ℝ).det ∧ ∀ i, 0 < (![3, 4, 2] : Fin 3 → ℕ) i := by
  refine ⟨by rw [det_fin_three]; simp, fun i => by fin_cases i <;> simp⟩

/-- **C75**, fractions (for grids with the same number of points on every axis): at integers the interpolator is the discrete Fourier transform. -/
theorem C75_fractions_partial (shape : Fin (d + 1) → ℕ) (hpos : ∀ i, 0 < shape i) (heq : ∀ i, shape i = shape 0) (data : ℕ → ℂ) (nk : Fin (d + 1) → ℤ) :
    overlapInterpolatorFractions shape data (fun i => (nk i : ℝ)) = ∑ j ∈ range (List.ofFn shape).prod, data j *
      Complex.exp (2 * Real.pi * Complex.I * ∑ i, (nk i : ℂ) * (((unravel (List.ofFn shape) j).getD i 0 : ℕ) : ℂ) / shape i) := by
  unfold overlapInterpolatorFractions
  refine sum_congr rfl fun j _ => ?_
  congr 1
  choose m hm using fun i => (wrappedNx_spec shape hpos j i).1
  rw [Complex.exp_eq_exp_iff_exists_int]
  refine ⟨∑ i, nk i * m i, ?_⟩
  push_cast
  rw [mul_sum, mul_sum, sum_mul, ← sum_add_distrib]
  refine sum_congr rfl fun i _ => ?_
  have : (shape 0 : ℂ) ≠ 0 := by exact_mod_cast (hpos 0).ne'
  rw [hm i, heq i]
  push_cast
  field_simp

/-- **C75**, fractions, fails for other grids: with one by two points the phase of the second point is that of a grid with one point. -/
theorem C75_fractions_negation : ∃ (shape : Fin 2 → ℕ) (data : ℕ → ℂ) (nk : Fin 2 → ℤ), (∀ i, 0 < shape i) ∧
    overlapInterpolatorFractions shape data (fun i => (nk i : ℝ)) ≠ ∑ j ∈ range (List.ofFn shape).prod, data j *
      Complex.exp (2 * Real.pi * Complex.I * ∑ i, (nk i : ℂ) * (((unravel (List.ofFn shape) j).getD i 0 : ℕ) : ℂ) / shape i) := by
  refine ⟨![1, 2], fun j => if j = 1 then 1 else 0, ![0, 1], fun i => by fin_cases i <;> simp, ?_⟩
  have hp : (List.ofFn (![1, 2] : Fin 2 → ℕ)).prod = 2 := by simp
  have hw : wrappedNx ![1, 2] 1 1 = -1 := by decide
  have hu : (unravel (List.ofFn (![1, 2] : Fin 2 → ℕ)) 1).getD 1 0 = 1 := by decide
  unfold overlapInterpolatorFractions
  rw [hp, sum_range_succ, sum_range_succ, sum_range_zero, sum_range_succ, sum_range_succ, sum_range_zero]
  simp only [zero_ne_one, if_false, zero_mul, if_true, one_mul, zero_add, cons_val_zero]
  have e1 : ∑ i : Fin (1 + 1), (wrappedNx ![1, 2] 1 i : ℝ) / ((1 : ℕ) : ℝ) * (((![0, 1] : Fin 2 → ℤ) i : ℤ) : ℝ) = -1 := by
    refine (Fin.sum_univ_two (M := ℝ) _).trans ?_
    rw [hw]
    simp
  have e2 : ∑ i : Fin 2, (((![0, 1] : Fin 2 → ℤ) i : ℤ) : ℂ) * (((unravel (List.ofFn (![1, 2] : Fin 2 → ℕ)) 1).getD i 0 : ℕ) : ℂ) /
      (((![1, 2] : Fin 2 → ℕ) i : ℕ) : ℂ) = 1 / 2 := by
    rw [Fin.sum_univ_two, show ((1 : Fin 2) : ℕ) = 1 from rfl, hu]
    simp
  have e3 : 2 * Complex.I * Real.pi * ((-1 : ℝ) : ℂ) = -(2 * Real.pi * Complex.I) := by push_cast; ring
  have e4 : 2 * Real.pi * Complex.I * (1 / 2 : ℂ) = Real.pi * Complex.I := by ring
  rw [e1, e2, e3, e4, Complex.exp_pi_mul_I, Complex.exp_neg, Complex.exp_two_pi_mul_I]
  norm_num

/-- **C75**, flat (for a third lattice vector normal to the first two components): without truncation the flat interpolator is the interpolator at `k2 = 0`. -/
theorem C75_flat (A : Matrix (Fin 3) (Fin 3) ℝ) (h0 : A 2 0 = 0) (h1 : A 2 1 = 0) (n0 n1 n2 : ℕ) (hn2 : 0 < n2) (data : ℕ → ℂ) (order : List ℕ)
    (k : Fin 2 → ℝ) :
    overlapInterpolatorFlat A n0 n1 n2 data none order k = overlapInterpolator A ![n0, n1, n2] data ![k 0, k 1, 0] := by
  have hl : List.ofFn (![n0, n1, n2] : Fin 3 → ℕ) = [n0, n1, n2] := by simp
  unfold overlapInterpolator overlapInterpolatorFlat
  rw [hl]
  have hprod : [n0, n1, n2].prod = n0 * n1 * n2 := by simp [mul_assoc]
  rw [hprod]
  simp only []
  have hsplit : ∀ g : ℕ → ℂ, ∑ j ∈ range (n0 * n1 * n2), g j = ∑ p ∈ range (n0 * n1), ∑ z ∈ range n2, g (p * n2 + z) := by
    intro g
    generalize n0 * n1 = m
    induction m with
    | zero => simp
    | succ m ih => rw [sum_range_succ, ← ih, Nat.succ_mul, sum_range_add]
  rw [hsplit]
  have hlist : ∀ g : ℕ → ℂ, ((List.range (n0 * n1)).map g).sum = ∑ p ∈ range (n0 * n1), g p := by
    intro g
    rw [Finset.sum_eq_multiset_sum]
    rfl
  rw [hlist]
  refine sum_congr rfl fun p hp => ?_
  have hp' : p / n1 < n0 := Nat.div_lt_of_lt_mul (by rw [mul_comm]; exact mem_range.1 hp)
  have e : ∀ z < n2, unravel [n0, n1, n2] (p * n2 + z) = [p / n1, p % n1, z] := by
    intro z hz
    have a1 : (p * n2 + z) / n2 = p := by
      rw [add_comm, Nat.add_mul_div_right _ _ hn2, Nat.div_eq_of_lt hz, zero_add]
    have a2 : (p * n2 + z) % n2 = z := by rw [add_comm, Nat.add_mul_mod_self_right, Nat.mod_eq_of_lt hz]
    have a3 : (p * n2 + z) / (n1 * n2) = p / n1 := by rw [mul_comm n1 n2, ← Nat.div_div_eq_div_mul, a1]
    simp [unravel, a1, a2, a3, Nat.mod_eq_of_lt hp']
  have e1 : unravel [n0, n1, 1] p = [p / n1, p % n1, 0] := by
    simp [unravel, Nat.mod_eq_of_lt hp', Nat.mod_one]
  have e2 : ∀ z, ravel [n0, n1, n2] (unravel [n0, n1] p ++ [z]) = p * n2 + z := by
    intro z
    have : unravel [n0, n1] p = [p / n1, p % n1] := by simp [unravel, Nat.mod_eq_of_lt hp']
    rw [this]
    simp only [List.cons_append, List.nil_append, ravel, List.prod_cons, List.prod_nil, mul_one, add_zero]
    have := Nat.div_add_mod p n1
    calc p / n1 * (n1 * n2) + (p % n1 * n2 + z) = (n1 * (p / n1) + p % n1) * n2 + z := by ring
      _ = _ := by rw [this]
  have hv : flatVector n0 n1 n2 data p = ∑ z ∈ range n2, data (p * n2 + z) := by
    unfold flatVector ifft
    simp only [FftNorm.ifftScale, one_mul, e2]
    refine sum_congr rfl fun z _ => ?_
    simp
  rw [hv, sum_mul]
  refine sum_congr rfl fun z hz => ?_
  congr 4
  have hw : wrappedNx ![n0, n1, n2] (p * n2 + z) = ![wrapIndex ((p / n1 : ℕ) : ℤ) n0 0, wrapIndex ((p % n1 : ℕ) : ℤ) n1 0, (z : ℤ)] := by
    funext i
    unfold wrappedNx wrapIndexAroundOrigin
    rw [hl, stackedNxPoints, e z (mem_range.1 hz)]
    fin_cases i <;> rfl
  have hf : ∀ i : Fin 3, (wrapIndexAroundOrigin [n0, n1, n2] (some [0, 1]) none ((stackedNxPoints [n0, n1, 1] p).map fun x : ℕ => (x : ℤ))).getD i 0 =
      ![wrapIndex ((p / n1 : ℕ) : ℤ) n0 0, wrapIndex ((p % n1 : ℕ) : ℤ) n1 0, (0 : ℤ)] i := by
    intro i
    unfold wrapIndexAroundOrigin
    rw [stackedNxPoints, e1]
    fin_cases i <;> rfl
  unfold flatXPoint
  simp only [hf]
  rw [hw]
  simp [dotProduct, Fin.sum_univ_two, Fin.sum_univ_three, xPointAtIndex, tensordot00, dxStacked, h0, h1]

/-- A lattice with a normal third vector. -/
example : (!![2, 0, 0; 1, 2, 0; 0, 0, 3] : Matrix (Fin 3) (Fin 3) ℝ) 2 0 = 0 ∧ (!![2, 0, 0; 1, 2, 0; 0, 0, 3] : Matrix (Fin 3) (Fin 3) ℝ) 2 1 = 0 := by
  simp

/-- **C75**, truncation of the flat interpolator: the points with the largest weights are kept, and the error at every momentum is at most the sum of the
absolute values of the weights which are left out. -/
theorem C75_truncated (A : Matrix (Fin 3) (Fin 3) ℝ) (n0 n1 n2 : ℕ) (data : ℕ → ℂ) (order : List ℕ) (n : ℕ) (hperm : order.Perm (List.range (n0 * n1)))
    (hsort : order.Pairwise fun a b => ‖flatVector n0 n1 n2 data a‖ ≤ ‖flatVector n0 n1 n2 data b‖) :
    ∃ kept dropped : List ℕ, (kept ++ dropped).Perm (List.range (n0 * n1)) ∧ kept.length = min n (n0 * n1) ∧
      (∀ a ∈ kept, ∀ b ∈ dropped, ‖flatVector n0 n1 n2 data b‖ ≤ ‖flatVector n0 n1 n2 data a‖) ∧
      ∀ k, overlapInterpolatorFlat A n0 n1 n2 data (some n) order k =
          (kept.map fun j => flatVector n0 n1 n2 data j * Complex.exp (Complex.I * ((flatXPoint A n0 n1 n2 j ⬝ᵥ k : ℝ) : ℂ))).sum ∧
        ‖overlapInterpolatorFlat A n0 n1 n2 data none order k - overlapInterpolatorFlat A n0 n1 n2 data (some n) order k‖ ≤
          (dropped.map fun j => ‖flatVector n0 n1 n2 data j‖).sum := by
  refine ⟨order.reverse.take n, order.reverse.drop n, ?_, ?_, ?_, fun k => ⟨rfl, ?_⟩⟩
  · rw [List.take_append_drop]
    exact (List.reverse_perm order).trans hperm
  · rw [List.length_take, List.length_reverse, hperm.length_eq, List.length_range]
  · have hr : order.reverse.Pairwise fun a b => ‖flatVector n0 n1 n2 data b‖ ≤ ‖flatVector n0 n1 n2 data a‖ := List.pairwise_reverse.2 hsort
    rw [← List.take_append_drop n order.reverse, List.pairwise_append] at hr
    exact hr.2.2
  · unfold overlapInterpolatorFlat
    simp only []
    generalize hg : (fun j => flatVector n0 n1 n2 data j * Complex.exp (Complex.I * ((flatXPoint A n0 n1 n2 j ⬝ᵥ k : ℝ) : ℂ))) = g
    have hgn : ∀ j, ‖g j‖ = ‖flatVector n0 n1 n2 data j‖ := by
      intro j
      rw [← hg]
      rw [norm_mul, mul_comm Complex.I, Complex.norm_exp_ofReal_mul_I, mul_one]
    have h1 : ((List.range (n0 * n1)).map g).sum = (order.reverse.map g).sum :=
      (((List.reverse_perm order).trans hperm).map g).sum_eq.symm
    have h2 : (order.reverse.map g).sum = ((order.reverse.take n).map g).sum + ((order.reverse.drop n).map g).sum := by
      rw [← List.sum_append, ← List.map_append, List.take_append_drop]
    rw [h1, h2, add_sub_cancel_left]
    generalize order.reverse.drop n = l
    induction l with
    | nil => simp
    | cons a l ih =>
      simp only [List.map_cons, List.sum_cons]
      refine (norm_add_le _ _).trans ?_
      rw [hgn]
      linarith

/-- An order of three points by increasing weight. -/
example : ∃ order : List ℕ, order.Perm (List.range (3 * 1)) ∧
    order.Pairwise fun a b => ‖flatVector 3 1 1 (fun j => if j = 1 then 5 else j) a‖ ≤ ‖flatVector 3 1 1 (fun j => if j = 1 then 5 else j) b‖ := by
  refine ⟨[0, 2, 1], by decide, ?_⟩
  simp [flatVector, ifft, FftNorm.ifftScale, ravel, unravel]
  norm_num

/-- **C75**, conversion: the function which converts an overlap to the momentum basis raises for every overlap. -/
theorem C75_momentum_negation (same : Basis → Basis → Bool) (o : Overlap) : convertOverlapToMomentum same o = none := rfl

end Verif
