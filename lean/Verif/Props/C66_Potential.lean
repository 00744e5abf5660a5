import Verif.Model.Potential

/-!
C66, C67: normalising and truncating potentials.
-/

set_option autoImplicit false

namespace Verif

open Finset

theorem foldl_min_spec (v : ℕ → ℝ) : ∀ (k : ℕ), (∀ i ≤ k, (List.range k).foldl (fun m i => min m (v (i + 1))) (v 0) ≤ v i) ∧
    ∃ i ≤ k, (List.range k).foldl (fun m i => min m (v (i + 1))) (v 0) = v i
  | 0 => ⟨fun i hi => by rw [Nat.le_zero.1 hi]; exact le_refl _, 0, le_refl _, rfl⟩
  | k + 1 => by
    obtain ⟨h1, i, hi, h2⟩ := foldl_min_spec v k
    rw [List.range_succ, List.foldl_append, List.foldl_cons, List.foldl_nil]
    refine ⟨fun j hj => ?_, ?_⟩
    · rcases Nat.lt_or_ge k j with h | h
      · have : j = k + 1 := by omega
        rw [this]; exact min_le_right _ _
      · exact (min_le_left _ _).trans (h1 j h)
    · rcases le_total ((List.range k).foldl (fun m i => min m (v (i + 1))) (v 0)) (v (k + 1)) with h | h
      · exact ⟨i, by omega, by rw [min_eq_left h, h2]⟩
      · exact ⟨k + 1, le_refl _, min_eq_right h⟩

/-- **C66.** Normalising a potential with at least one point succeeds; the result has no negative entry, reaches zero, and
keeps all differences of energies. It raises for an empty potential. -/
theorem C66_normalize (n : ℕ) (hn : 0 < n) (v : ℕ → ℝ) : ∃ w, normalizePotential n v = some w ∧ (∀ i < n, 0 ≤ w i) ∧
    (∃ i < n, w i = 0) ∧ ∀ i j, w i - w j = v i - v j := by
  obtain ⟨h1, i, hi, h2⟩ := foldl_min_spec v (n - 1)
  have hs : arrayMin n v = some ((List.range (n - 1)).foldl (fun m i => min m (v (i + 1))) (v 0)) := if_neg (by omega)
  refine ⟨_, by rw [normalizePotential, hs, Option.map_some], fun j hj => sub_nonneg.2 (h1 j (by omega)), ⟨i, by omega, sub_eq_zero.2 h2.symm⟩,
    fun i j => by ring⟩

/-- **C66.** These properties determine the result: there is one function with them. -/
theorem C66_unique (n : ℕ) (v w w' : ℕ → ℝ) (h : ∀ i < n, 0 ≤ w i) (h0 : ∃ i < n, w i = 0) (hd : ∀ i j, w i - w j = v i - v j)
    (h' : ∀ i < n, 0 ≤ w' i) (h0' : ∃ i < n, w' i = 0) (hd' : ∀ i j, w' i - w' j = v i - v j) : w = w' := by
  obtain ⟨i, hi, e⟩ := h0
  obtain ⟨j, hj, e'⟩ := h0'
  have h1 := hd i j
  have h2 := hd' i j
  have h3 := h j hj
  have h4 := h' i hi
  funext k
  have h5 := hd k i
  have h6 := hd' k i
  linarith

/-- **C66.** Normalising twice is the same as normalising once, and adding a constant beforehand does not matter. -/
theorem C66_idempotent (n : ℕ) (hn : 0 < n) (v : ℕ → ℝ) (c : ℝ) :
    ((normalizePotential n v).bind (normalizePotential n)) = normalizePotential n v ∧
      normalizePotential n (fun i => v i + c) = normalizePotential n v := by
  obtain ⟨w, hw, p1, p2, p3⟩ := C66_normalize n hn v
  obtain ⟨w', hw', q1, q2, q3⟩ := C66_normalize n hn w
  obtain ⟨u, hu, r1, r2, r3⟩ := C66_normalize n hn (fun i => v i + c)
  constructor
  · rw [hw, Option.bind_some, hw']
    exact congrArg some (C66_unique n v w' w q1 q2 (fun i j => by rw [q3, p3]) p1 p2 p3)
  · rw [hu, hw]
    exact congrArg some (C66_unique n v u w r1 r2 (fun i j => by rw [r3]; ring) p1 p2 p3)

/-- **C66.** An empty potential raises. -/
theorem C66_empty (v : ℕ → ℝ) : normalizePotential 0 v = none := rfl

-- a potential with negative energies
example : normalizePotential 3 (fun i : ℕ => (i : ℝ) ^ 2 - 3 * i) = some fun i : ℕ => (i : ℝ) ^ 2 - 3 * i + 2 := by
  have : (List.range (3 - 1)).foldl (fun (m : ℝ) (i : ℕ) => min m (((i + 1 : ℕ) : ℝ) ^ 2 - 3 * ((i + 1 : ℕ) : ℝ))) (((0 : ℕ) : ℝ) ^ 2 - 3 * ((0 : ℕ) : ℝ)) = -2 := by
    norm_num [List.range_succ]
  rw [normalizePotential, arrayMin, if_neg (by omega), this, Option.map_some]
  congr 1
  funext i
  ring

/-! ## C67 -/

theorem rpow_inv_nat_lt {x y : ℝ} {n : ℕ} (hn : 0 < n) (hx : 0 ≤ x) (h : x < y) : x ^ (1 / (n : ℝ)) < y ^ (1 / (n : ℝ)) :=
  Real.rpow_lt_rpow hx h (by positivity)

/-- **C67.** Truncation is strictly increasing in the energy above `-offset`. -/
theorem C67_increasing (cutoff : ℝ) (hc : 0 < cutoff) (n : ℕ) (hn : 0 < n) (offset : ℝ) (E E' : ℝ) (hE : -offset ≤ E) (h : E < E') :
    truncatePotential cutoff n offset E < truncatePotential cutoff n offset E' := by
  have h0 : 0 ≤ (E + offset) / cutoff := div_nonneg (by linarith) hc.le
  have h1 : (E + offset) / cutoff < (E' + offset) / cutoff := div_lt_div_of_pos_right (by linarith) hc
  have h2 := pow_lt_pow_left₀ h1 h0 hn.ne'
  have h3 : 0 ≤ ((E + offset) / cutoff) ^ n := pow_nonneg h0 n
  have h4 := Real.log_lt_log (by linarith) (add_lt_add_right h2 1)
  have h5 := rpow_inv_nat_lt hn (Real.log_nonneg (by linarith)) h4
  unfold truncatePotential
  have := mul_lt_mul_of_pos_left h5 hc
  linarith

/-- **C67.** Truncation never raises the energy, and it changes an energy by at most the fraction
`((E + offset) / cutoff) ^ n / 2` of `E + offset`, so energies far below the cutoff are nearly unchanged. -/
theorem C67_small (cutoff : ℝ) (hc : 0 < cutoff) (n : ℕ) (hn : 0 < n) (offset : ℝ) (E : ℝ) (hE : -offset ≤ E) :
    truncatePotential cutoff n offset E ≤ E ∧
      E - truncatePotential cutoff n offset E ≤ (E + offset) * (((E + offset) / cutoff) ^ n / 2) := by
  obtain ⟨x, hx⟩ : ∃ x, x = (E + offset) / cutoff := ⟨_, rfl⟩
  have hx0 : 0 ≤ x := by rw [hx]; exact div_nonneg (by linarith) hc.le
  have hE' : E + offset = cutoff * x := by rw [hx]; field_simp
  have hy0 : 0 ≤ x ^ n := pow_nonneg hx0 n
  have hroot : (x ^ n) ^ (1 / (n : ℝ)) = x := by rw [one_div]; exact Real.pow_rpow_inv_natCast hx0 hn.ne'
  have hlog0 : 0 ≤ Real.log (1 + x ^ n) := Real.log_nonneg (by linarith)
  have hlogle : Real.log (1 + x ^ n) ≤ x ^ n := by have := Real.log_le_sub_one_of_pos (show 0 < 1 + x ^ n by linarith); linarith
  have hle : Real.log (1 + x ^ n) ^ (1 / (n : ℝ)) ≤ x := by
    have := Real.rpow_le_rpow hlog0 hlogle (show (0 : ℝ) ≤ 1 / n by positivity)
    rwa [hroot] at this
  -- log (1 + y) ≥ y (1 - y / 2)
  have hlow : x * (1 - x ^ n / 2) ≤ Real.log (1 + x ^ n) ^ (1 / (n : ℝ)) := by
    rcases le_or_gt (1 - x ^ n / 2) 0 with h | h
    · exact (mul_nonpos_of_nonneg_of_nonpos hx0 h).trans (Real.rpow_nonneg hlog0 _)
    · have hl : x ^ n * (1 - x ^ n / 2) ≤ Real.log (1 + x ^ n) := by
        have h1 : 2 * x ^ n / (x ^ n + 2) ≤ Real.log (1 + x ^ n) := Real.le_log_one_add_of_nonneg hy0
        refine le_trans ?_ h1
        rw [le_div_iff₀ (by linarith)]
        nlinarith [mul_nonneg hy0 (mul_nonneg hy0 hy0)]
      have h2 := Real.rpow_le_rpow (mul_nonneg hy0 h.le) hl (show (0 : ℝ) ≤ 1 / n by positivity)
      rw [Real.mul_rpow hy0 h.le, hroot] at h2
      refine le_trans (mul_le_mul_of_nonneg_left ?_ hx0) h2
      have hn1 : (1 : ℝ) / n ≤ 1 := by
        rw [div_le_one (by positivity)]; exact_mod_cast hn
      have := Real.rpow_le_rpow_of_exponent_ge h (by linarith) hn1
      rwa [Real.rpow_one] at this
  unfold truncatePotential
  rw [← hx]
  constructor
  · have := mul_le_mul_of_nonneg_left hle hc.le
    linarith
  · have := mul_le_mul_of_nonneg_left hlow hc.le
    rw [hE']
    nlinarith

/-- **C67** fails: the truncated energies are not bounded, by the cutoff or by anything else. -/
theorem C67_bound_negation (cutoff : ℝ) (hc : 0 < cutoff) (n : ℕ) (hn : 0 < n) (offset B : ℝ) :
    ∃ E, -offset ≤ E ∧ B < truncatePotential cutoff n offset E := by
  -- the value `T` is reached at `(exp (((T + offset) / cutoff) ^ n) - 1) ^ (1 / n)`
  obtain ⟨z, hz⟩ : ∃ z, z = max 0 ((B + 1 + offset) / cutoff) := ⟨_, rfl⟩
  have hz0 : 0 ≤ z := hz ▸ le_max_left _ _
  have hy0 : 0 ≤ Real.exp (z ^ n) - 1 := by have := Real.one_le_exp (pow_nonneg hz0 n); linarith
  refine ⟨cutoff * (Real.exp (z ^ n) - 1) ^ (1 / (n : ℝ)) - offset, ?_, ?_⟩
  · have := mul_nonneg hc.le (Real.rpow_nonneg hy0 (1 / (n : ℝ)))
    linarith
  · unfold truncatePotential
    have e : (cutoff * (Real.exp (z ^ n) - 1) ^ (1 / (n : ℝ)) - offset + offset) / cutoff = (Real.exp (z ^ n) - 1) ^ (1 / (n : ℝ)) := by
      field_simp; ring
    rw [e, one_div, Real.rpow_inv_natCast_pow hy0 hn.ne', add_sub_cancel, Real.log_exp, Real.pow_rpow_inv_natCast hz0 hn.ne']
    have : (B + 1 + offset) / cutoff ≤ z := hz ▸ le_max_right _ _
    rw [div_le_iff₀ hc] at this
    nlinarith

/-- **C67, partial.** For `n = 1` undoing the truncation gives the energies back, and truncating after undoing does as well.
Missing: other `n`, for which it fails, see `C67_undo_negation`. -/
theorem C67_undo_partial (cutoff : ℝ) (hc : 0 < cutoff) (offset E : ℝ) :
    (-offset - cutoff < E → undoTruncatePotential cutoff 1 offset (truncatePotential cutoff 1 offset E) = E) ∧
      truncatePotential cutoff 1 offset (undoTruncatePotential cutoff 1 offset E) = E := by
  unfold truncatePotential undoTruncatePotential
  simp only [Nat.cast_one, div_one, Real.rpow_one, pow_one, sub_add_cancel]
  constructor
  · intro h
    have h1 : 0 < 1 + (E + offset) / cutoff := by
      have : -1 < (E + offset) / cutoff := by rw [lt_div_iff₀ hc]; linarith
      linarith
    rw [mul_div_cancel_left₀ _ hc.ne', Real.exp_log h1]
    field_simp; ring
  · rw [mul_div_cancel_left₀ _ hc.ne', add_sub_cancel, Real.log_exp]
    field_simp; ring

/-- **C67** fails for every other order: with `n ≥ 2` undoing the truncation changes every energy above `-offset`, except the
one with `E + offset = cutoff * (e - 1) ^ (1 / n)`. -/
theorem C67_undo_negation (cutoff : ℝ) (hc : 0 < cutoff) (n : ℕ) (hn : 2 ≤ n) (offset E : ℝ) (hE : -offset < E)
    (hne : E + offset ≠ cutoff * (Real.exp 1 - 1) ^ (1 / (n : ℝ))) :
    undoTruncatePotential cutoff n offset (truncatePotential cutoff n offset E) ≠ E := by
  intro h
  obtain ⟨x, hx⟩ : ∃ x, x = (E + offset) / cutoff := ⟨_, rfl⟩
  have hx0 : 0 < x := by rw [hx]; exact div_pos (by linarith) hc
  have hn0 : n ≠ 0 := by omega
  have hE' : E + offset = cutoff * x := by rw [hx]; field_simp
  have hy0 : 0 < x ^ n := pow_pos hx0 n
  obtain ⟨l, hl⟩ : ∃ l, l = Real.log (1 + x ^ n) := ⟨_, rfl⟩
  have hl0 : 0 < l := by rw [hl]; exact Real.log_pos (by linarith)
  unfold truncatePotential undoTruncatePotential at h
  rw [← hx, ← hl, sub_add_cancel, mul_div_cancel_left₀ _ hc.ne'] at h
  have h1 : (Real.exp (l ^ (1 / (n : ℝ))) - 1) ^ (1 / (n : ℝ)) = x := by
    have : cutoff * (Real.exp (l ^ (1 / (n : ℝ))) - 1) ^ (1 / (n : ℝ)) = cutoff * x := by linarith
    exact mul_left_cancel₀ hc.ne' this
  have h2 : 0 ≤ Real.exp (l ^ (1 / (n : ℝ))) - 1 := by
    have := Real.one_le_exp (Real.rpow_nonneg hl0.le (1 / (n : ℝ))); linarith
  have h3 : Real.exp (l ^ (1 / (n : ℝ))) = 1 + x ^ n := by
    have h6 := Real.rpow_inv_natCast_pow h2 hn0
    rw [← one_div, h1] at h6
    linarith
  have h4 : l ^ (1 / (n : ℝ)) = l := by
    have h6 := congrArg Real.log h3
    rwa [Real.log_exp, ← hl] at h6
  have h5 : l = 1 := by
    have h6 : l = l ^ n := by
      conv_lhs => rw [← Real.rpow_inv_natCast_pow hl0.le hn0]
      rw [← one_div, h4]
    by_contra h7
    rcases lt_or_gt_of_ne h7 with h8 | h8
    · have := pow_lt_self_of_lt_one₀ hl0 h8 (by omega : 1 < n)
      linarith
    · have := lt_self_pow₀ h8 (by omega : 1 < n)
      linarith
  apply hne
  rw [hE', ← h1, h4, h5]

/-- The hypotheses can be met, with the default cutoff and offset of the code, for `n = 2`. -/
example : ∃ E : ℝ, -(2e-18) < E ∧ E + 2e-18 ≠ 2e-17 * (Real.exp 1 - 1) ^ (1 / ((2 : ℕ) : ℝ)) := by
  refine ⟨2e-17 - 2e-18, by norm_num, ?_⟩
  rw [sub_add_cancel]
  intro h
  have h1 : (1 : ℝ) = (Real.exp 1 - 1) ^ (1 / ((2 : ℕ) : ℝ)) := by
    have : (2e-17 : ℝ) ≠ 0 := by norm_num
    exact mul_left_cancel₀ this (by rw [mul_one]; exact h)
  have h2 : (2 : ℝ) < Real.exp 1 := by have := Real.add_one_lt_exp (one_ne_zero (α := ℝ)); linarith
  have h3 : (1 : ℝ) < (Real.exp 1 - 1) ^ (1 / ((2 : ℕ) : ℝ)) := Real.one_lt_rpow (by linarith) (by norm_num)
  linarith

end Verif
