import Verif.Model.Uneven
import Verif.Props.C20_RealInterp
import Mathlib.Tactic.FieldSimp
import Mathlib.Tactic.Linarith

/-!
# C116: Interpolated uneven potentials
-/

set_option autoImplicit false

namespace Verif

/-- What is assumed of the spline: it passes through its points. -/
def Interpolates (spline : ℕ → (ℕ → ℝ) → (ℕ → ℝ) → ℝ → ℝ) : Prop := ∀ (N : ℕ) (x y : ℕ → ℝ), (∀ i < N, ∀ j < N, i < j → x i < x j) → ∀ i < N, spline N x y (x i) = y i

theorem uneven_at (spline : ℕ → (ℕ → ℝ) → (ℕ → ℝ) → ℝ → ℝ) (n0 n1 N r0 r1 s2 : ℕ) (hN : 3 < N) (hr0 : 0 < r0) (hr1 : 0 < r1) (hodd : n1 % 2 = 1 ∨ r1 = 1)
    (z : ℕ → ℝ) (data : ℕ → ℝ) : ∃ v, interpolateUneven spline n0 n1 N z data (n0 * r0) (n1 * r1) s2 = some v ∧
      ∀ i < n0, ∀ j < n1, ∀ k < s2, v ((r0 * i * (n1 * r1) + r1 * j) * s2 + k) =
        spline N z (fun l => data ((i * n1 + j) * N + l)) (z 0 + k * ((z (N - 1) - z 0) / (s2 - 1))) := by
  refine ⟨_, by unfold interpolateUneven; rw [if_neg (by omega)], fun i hi j hj k hk => ?_⟩
  have hj' : r1 * j < n1 * r1 := by rw [Nat.mul_comm n1]; exact Nat.mul_lt_mul_of_pos_left hj hr1
  have e1 : ((r0 * i * (n1 * r1) + r1 * j) * s2 + k) / (n1 * r1 * s2) = r0 * i := by
    have : r1 * j * s2 + k < n1 * r1 * s2 := by nlinarith
    rw [show (r0 * i * (n1 * r1) + r1 * j) * s2 + k = (n1 * r1 * s2) * (r0 * i) + (r1 * j * s2 + k) by ring, Nat.mul_add_div (by omega), Nat.div_eq_of_lt this, Nat.add_zero]
  have e2 : ((r0 * i * (n1 * r1) + r1 * j) * s2 + k) / s2 % (n1 * r1) = r1 * j := by
    rw [Nat.mul_comm _ s2, Nat.mul_add_div (by omega), Nat.div_eq_of_lt hk, Nat.add_zero, Nat.mul_comm (r0 * i), Nat.mul_add_mod, Nat.mod_eq_of_lt hj']
  have e3 : ((r0 * i * (n1 * r1) + r1 * j) * s2 + k) % s2 = k := by
    rw [Nat.mul_comm _ s2, Nat.mul_add_mod, Nat.mod_eq_of_lt hk]
  dsimp only
  rw [e1, e2, e3]
  unfold interpolateSpline linspace
  congr 1
  funext l
  have hn0 : 0 < n0 := by omega
  have := C20_points_nd_partial [(n0, some (n0 * r0))] n1 r1 hr1 hodd (fun i j => data ((i.getD 0 0 * n1 + j) * N + l)) [i]
    (by intro a ha s hs; simp at ha; subst ha; simp at hs; exact ⟨r0, hr0, hs.symm⟩) ⟨hi, trivial⟩ j hj
  rw [show refineIdx [(n0, some (n0 * r0))] [i] = [r0 * i] by simp [refineIdx, PadAxis.newLen, PadAxis.len, Nat.mul_div_cancel_left _ hn0, Nat.mul_comm]] at this
  exact this

/-- **C116.** The interpolated potential has the original values at the original points: the first two axes refined by factors (the second of odd length, or not
refined), the last at every position of the evenly spaced positions between the first and the last which is one of the original positions; in
particular at the first and the last. -/
theorem C116_points_partial (spline : ℕ → (ℕ → ℝ) → (ℕ → ℝ) → ℝ → ℝ) (hsp : Interpolates spline) (n0 n1 N r0 r1 s2 : ℕ) (hN : 3 < N) (hr0 : 0 < r0) (hr1 : 0 < r1)
    (hodd : n1 % 2 = 1 ∨ r1 = 1) (z : ℕ → ℝ) (hz : ∀ i < N, ∀ j < N, i < j → z i < z j) (data : ℕ → ℝ) :
    ∃ v, interpolateUneven spline n0 n1 N z data (n0 * r0) (n1 * r1) s2 = some v ∧ ∀ i < n0, ∀ j < n1,
      (1 < s2 → ∀ k < s2, ∀ l < N, (z l - z 0) * (s2 - 1 : ℕ) = (z (N - 1) - z 0) * k → v ((r0 * i * (n1 * r1) + r1 * j) * s2 + k) = data ((i * n1 + j) * N + l)) ∧
      (1 < s2 → v ((r0 * i * (n1 * r1) + r1 * j) * s2 + 0) = data ((i * n1 + j) * N + 0) ∧
        v ((r0 * i * (n1 * r1) + r1 * j) * s2 + (s2 - 1)) = data ((i * n1 + j) * N + (N - 1))) := by
  obtain ⟨v, h1, h2⟩ := uneven_at spline n0 n1 N r0 r1 s2 hN hr0 hr1 hodd z data
  have key : 1 < s2 → ∀ i < n0, ∀ j < n1, ∀ k < s2, ∀ l < N, (z l - z 0) * (s2 - 1 : ℕ) = (z (N - 1) - z 0) * k →
      v ((r0 * i * (n1 * r1) + r1 * j) * s2 + k) = data ((i * n1 + j) * N + l) := by
    intro hs i hi j hj k hk l hl e
    have hd : z 0 < z (N - 1) := hz 0 (by omega) (N - 1) (by omega) (by omega)
    have hc : ((s2 - 1 : ℕ) : ℝ) = (s2 : ℝ) - 1 := by rw [Nat.cast_sub (by omega)]; simp
    have : z 0 + k * ((z (N - 1) - z 0) / (s2 - 1)) = z l := by
      have : (s2 : ℝ) - 1 ≠ 0 := by
        have : (1 : ℝ) < s2 := by exact_mod_cast hs
        linarith
      rw [hc] at e
      field_simp
      linarith
    rw [h2 i hi j hj k hk, this, hsp N z _ hz l hl]
  refine ⟨v, h1, fun i hi j hj => ⟨fun hs => key hs i hi j hj, fun hs => ⟨?_, ?_⟩⟩⟩
  · exact key hs i hi j hj 0 (by omega) 0 (by omega) (by simp)
  · exact key hs i hi j hj (s2 - 1) (by omega) (N - 1) (by omega) rfl

/-- Splines which pass through their points exist: the value at the first point with the coordinate. -/
theorem exists_interpolates : ∃ spline, Interpolates spline := by
  classical
  refine ⟨fun N x y t => if h : ∃ i < N, x i = t then y h.choose else t, fun N x y hx i hi => ?_⟩
  have h : ∃ l < N, x l = x i := ⟨i, hi, rfl⟩
  dsimp only
  rw [dif_pos h]
  congr 1
  obtain ⟨h1, h2⟩ := h.choose_spec
  rcases Nat.lt_trichotomy h.choose i with c | c | c
  · exact absurd h2 (ne_of_lt (hx _ h1 _ hi c))
  · exact c
  · exact absurd h2.symm (ne_of_lt (hx _ hi _ h1 c))

/-- For instance a grid of `3 * 3` points with four uneven heights `0, 1, 3, 6`, refined to `6 * 9` points with seven heights: the heights are kept. -/
example (data : ℕ → ℝ) : ∃ spline v, interpolateUneven spline 3 3 4 (fun l => l * (l + 1) / 2) data 6 9 7 = some v ∧
    v ((2 * 1 * 9 + 3 * 2) * 7 + 3) = data ((1 * 3 + 2) * 4 + 2) := by
  obtain ⟨spline, hs⟩ := exists_interpolates
  obtain ⟨v, h1, h2⟩ := C116_points_partial spline hs 3 3 4 2 3 7 (by decide) (by decide) (by decide) (Or.inl (by decide)) (fun l => l * (l + 1) / 2)
    (by
      intro i _ j _ h
      have h' : (i : ℝ) < j := by exact_mod_cast h
      have : (0 : ℝ) ≤ i := Nat.cast_nonneg i
      nlinarith) data
  exact ⟨spline, v, h1, (h2 1 (by decide) 2 (by decide)).1 (by decide) 3 (by decide) 2 (by decide) (by norm_num)⟩

/-- The potential given is its own height, `V = z`, at the points which start at the height zero. If the spline reproduces such a potential the value at the point `k` is
`k * Δ / (s2 - 1)`, but the basis of the result puts the point at the height `k * Δ / s2`: the potential is stretched. -/
theorem C116_z_negation (spline : ℕ → (ℕ → ℝ) → (ℕ → ℝ) → ℝ → ℝ) (hlin : ∀ N (x : ℕ → ℝ) t, 3 < N → spline N x x t = t) (n0 n1 N s2 : ℕ) (hN : 3 < N) (z : ℕ → ℝ)
    (h0 : z 0 = 0) (hz : 0 < z (N - 1)) (hs : 1 < s2) (data : ℕ → ℝ) (hd : ∀ p, ∀ l < N, data (p * N + l) = z l)
    (hcong : ∀ (x y y' : ℕ → ℝ) t, (∀ l < N, y l = y' l) → spline N x y t = spline N x y' t) :
    ∃ v, interpolateUneven spline n0 n1 N z data n0 n1 s2 = some v ∧ ∀ i < n0, ∀ j < n1, ∀ k, 0 < k → k < s2 →
      v ((i * n1 + j) * s2 + k) = k * (unevenDeltaZ N z / (s2 - 1)) ∧ unevenDeltaZ N z / s2 * k < v ((i * n1 + j) * s2 + k) := by
  obtain ⟨v, h1, h2⟩ := uneven_at spline n0 n1 N 1 1 s2 hN one_pos one_pos (Or.inr rfl) z data
  simp only [mul_one, one_mul] at h1 h2
  refine ⟨v, h1, fun i hi j hj k hk0 hk => ?_⟩
  have e : v ((i * n1 + j) * s2 + k) = k * (unevenDeltaZ N z / (s2 - 1)) := by
    rw [h2 i hi j hj k hk, hcong z _ z _ (fun l hl => hd _ l hl), hlin N z _ hN, h0]
    unfold unevenDeltaZ
    rw [h0]
    ring
  refine ⟨e, ?_⟩
  rw [e]
  have hs' : (1 : ℝ) < s2 := by exact_mod_cast hs
  have hk' : (0 : ℝ) < k := by exact_mod_cast hk0
  have hD : 0 < unevenDeltaZ N z := by unfold unevenDeltaZ; linarith
  rw [mul_comm]
  apply mul_lt_mul_of_pos_left _ hk'
  exact div_lt_div_of_pos_left hD (by linarith) (by linarith)

/-- Such a spline exists: the piecewise linear one is modelled by the table of its values, and the coordinates reproduced. -/
example : ∃ spline : ℕ → (ℕ → ℝ) → (ℕ → ℝ) → ℝ → ℝ, (∀ N (x : ℕ → ℝ) t, 3 < N → spline N x x t = t) ∧
    ∀ N (x y y' : ℕ → ℝ) t, (∀ l < N, y l = y' l) → spline N x y t = spline N x y' t := by
  classical
  refine ⟨fun N x y t => if ∀ l < N, y l = x l then t else 0, fun N x t _ => by simp, fun N x y y' t h => ?_⟩
  dsimp only
  have : (∀ l < N, y l = x l) ↔ ∀ l < N, y' l = x l := ⟨fun g l hl => (h l hl).symm.trans (g l hl), fun g l hl => (h l hl).trans (g l hl)⟩
  simp only [this]

/-- Along an axis other than the last the values are written to a copy: what is returned does not depend on the data at all. -/
theorem C116_axis_negation (spline : ℕ → (ℕ → ℝ) → (ℕ → ℝ) → ℝ → ℝ) (empty : ℕ → ℕ → ℕ → ℝ) (N b a : ℕ) (hN : 3 < N) (hb : 1 < b) (ha : 1 < a) (coords : ℕ → ℝ) (n : ℕ) :
    ∃ v, (∀ data, interpolateSplineFirst spline empty N b a coords data n = some v) := by
  refine ⟨empty, fun data => ?_⟩
  unfold interpolateSplineFirst
  rw [if_neg (by omega), if_pos ⟨ha, hb⟩]

/-- Along an axis with one other point per axis the spline passes through the first and the last value. -/
theorem C116_axis_partial (spline : ℕ → (ℕ → ℝ) → (ℕ → ℝ) → ℝ → ℝ) (hsp : Interpolates spline) (empty : ℕ → ℕ → ℕ → ℝ) (N b a : ℕ) (hN : 3 < N) (h : a ≤ 1 ∨ b ≤ 1)
    (coords : ℕ → ℝ) (hz : ∀ i < N, ∀ j < N, i < j → coords i < coords j) (data : ℕ → ℕ → ℕ → ℝ) (n : ℕ) (hn : 1 < n) :
    ∃ v, interpolateSplineFirst spline empty N b a coords data n = some v ∧ ∀ j < b, ∀ i < a, v 0 j i = data 0 j i ∧ v (n - 1) j i = data (N - 1) j i := by
  refine ⟨_, by unfold interpolateSplineFirst; rw [if_neg (by omega), if_neg (by omega)], fun j _ i _ => ?_⟩
  unfold interpolateSpline linspace
  have hn' : (n : ℝ) - 1 ≠ 0 := by
    have : (1 : ℝ) < n := by exact_mod_cast hn
    linarith
  refine ⟨?_, ?_⟩
  · rw [Nat.cast_zero, zero_mul, add_zero, hsp N coords _ hz 0 (by omega)]
  · rw [Nat.cast_sub (by omega), Nat.cast_one, mul_div_cancel₀ _ hn', add_sub_cancel, hsp N coords _ hz (N - 1) (by omega)]

example (spline : ℕ → (ℕ → ℝ) → (ℕ → ℝ) → ℝ → ℝ) (hsp : Interpolates spline) (empty data : ℕ → ℕ → ℕ → ℝ) :
    ∃ v, interpolateSplineFirst spline empty 5 1 7 (fun l => l) data 11 = some v ∧ v 10 0 6 = data 4 0 6 := by
  obtain ⟨v, h1, h2⟩ := C116_axis_partial spline hsp empty 5 1 7 (by decide) (Or.inr le_rfl) (fun l => l) (fun i _ j _ h => by exact_mod_cast h) data 11 (by decide)
  exact ⟨v, h1, (h2 0 (by decide) 6 (by decide)).2⟩

end Verif
