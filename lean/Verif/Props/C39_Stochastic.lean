import Verif.Model.Stochastic
import Verif.Spec.Sse
import Verif.Lemmas.Eigen
import Mathlib.Tactic.Ring
import Mathlib.Tactic.FieldSimp
import Mathlib.Tactic.Positivity
import Mathlib.Tactic.LinearCombination
import Mathlib.Tactic.NormNum

/-! # C39: banded operators, C40: the arguments of the stochastic solvers, C41: localisation, C84: time axes -/

set_option autoImplicit false

namespace Verif

open Finset Spec

/-! ## C39 -/

/-- Specification: entry `(r, c)` of the matrix stored as diagonals: a diagonal with offset `o` holds, at position `c`,
the entry in column `c` and row `(c + o) mod n`. -/
def bandedEntry (n : ℕ) (offsets : List ℕ) (diagonals : List (List ℂ)) (r c : ℕ) : ℂ :=
  (((offsets.zip diagonals).filter fun p => (c + p.1) % n = r).map fun p => p.2.getD c 0).sum

theorem operatorDiagonals_eq (n : ℕ) (op : ℕ → ℕ → ℂ) {i c : ℕ} (hi : i < n) (hc : c < n) :
    operatorDiagonals n op i c = op ((c + i) % n) c := by
  unfold operatorDiagonals
  split_ifs with h
  · rw [Nat.mod_eq_of_lt (by omega), Nat.add_comm]
  · have e : (c + i) % n = c - (n - i) := by
      rw [Nat.mod_eq_sub_mod (by omega), Nat.mod_eq_of_lt (by omega)]; omega
    rw [e]
    congr 1
    omega

theorem offset_unique {n r c : ℕ} (hr : r < n) (hc : c < n) {i : ℕ} (hi : i < n) :
    (c + i) % n = r ↔ i = (r + (n - c)) % n := by
  constructor
  · rintro rfl
    rcases Nat.lt_or_ge (c + i) n with h | h
    · rw [Nat.mod_eq_of_lt h, show c + i + (n - c) = i + n by omega, Nat.add_mod_right, Nat.mod_eq_of_lt hi]
    · rw [Nat.mod_eq_sub_mod h, Nat.mod_eq_of_lt (by omega : c + i - n < n),
        show c + i - n + (n - c) = i by omega, Nat.mod_eq_of_lt hi]
  · rintro rfl
    rcases Nat.lt_or_ge (r + (n - c)) n with h | h
    · rw [Nat.mod_eq_of_lt h, show c + (r + (n - c)) = r + n by omega, Nat.add_mod_right, Nat.mod_eq_of_lt hr]
    · rw [Nat.mod_eq_sub_mod h, Nat.mod_eq_of_lt (by omega : r + (n - c) - n < n),
        show c + (r + (n - c) - n) = r by omega, Nat.mod_eq_of_lt hr]

theorem sum_filter_offsets {n : ℕ} (P : ℕ → Prop) [DecidablePred P] (d : ℕ) (hd : d < n) (f : ℕ → ℂ) :
    ((((List.range n).filter P).filter fun i => i = d).map f).sum = if P d then f d else 0 := by
  rw [List.filter_filter]
  have : ((List.range n).filter fun i => decide (i = d) && decide (P i)) = if P d then [d] else [] := by
    induction n with
    | zero => omega
    | succ n ih =>
      rw [List.range_succ, List.filter_append]
      rcases Nat.lt_or_ge d n with h | h
      · rw [ih h]
        have hne : n ≠ d := by omega
        simp [hne]
      · have hdn : d = n := by omega
        subst hdn
        have h0 : ((List.range d).filter fun i => decide (i = d) && decide (P i)) = [] := by
          rw [List.filter_eq_nil_iff]
          intro i hi
          rw [List.mem_range] at hi
          have : i ≠ d := by omega
          simp [this]
        rw [h0]
        by_cases hp : P d <;> simp [hp]
  rw [this]
  split_ifs <;> simp

theorem filter_zip_map_sum {l : List ℕ} (g : ℕ → List ℂ) (q : ℕ → Bool) (f : List ℂ → ℂ) :
    ((((l.zip (l.map g)).filter fun p => q p.1).map fun p => f p.2).sum : ℂ) = ((l.filter q).map fun i => f (g i)).sum := by
  induction l with
  | nil => rfl
  | cons a l ih =>
    rw [List.map_cons, List.zip_cons_cons, List.filter_cons, List.filter_cons]
    by_cases h : q a = true
    · rw [if_pos h, if_pos h, List.map_cons, List.sum_cons, List.map_cons, List.sum_cons, ih]
    · rw [if_neg h, if_neg h, ih]

open Classical in
/-- The matrix represented by the stored diagonals. -/
theorem banded_entry (n : ℕ) (op : ℕ → ℕ → ℂ) (threshold : ℝ) {r c : ℕ} (hr : r < n) (hc : c < n) :
    bandedEntry n (bandedOffsets n op threshold) (bandedDiagonals n op threshold) r c =
      if threshold < diagonalNorm n op ((r + (n - c)) % n) then cleanEntry threshold (op r c) else 0 := by
  have hd : (r + (n - c)) % n < n := Nat.mod_lt _ (by omega)
  unfold bandedEntry bandedDiagonals
  rw [filter_zip_map_sum (fun i => (List.range n).map fun c => cleanEntry threshold (operatorDiagonals n op i c))
    (fun i => decide ((c + i) % n = r)) (fun l => l.getD c 0)]
  have e : ((bandedOffsets n op threshold).filter fun i => decide ((c + i) % n = r)) =
      (bandedOffsets n op threshold).filter fun i => decide (i = (r + (n - c)) % n) := by
    apply List.filter_congr
    intro i hi
    unfold bandedOffsets at hi
    have hin : i < n := List.mem_range.1 (List.mem_filter.1 hi).1
    exact decide_eq_decide.2 (offset_unique hr hc hin)
  rw [e]
  unfold bandedOffsets
  refine (sum_filter_offsets (fun i => threshold < diagonalNorm n op i) _ hd _).trans ?_
  split_ifs with h
  · rw [List.getD_eq_getElem?_getD, List.getElem?_map, List.getElem?_range hc, Option.map_some, Option.getD_some,
      operatorDiagonals_eq n op hd hc, (offset_unique hr hc hd).2 rfl]
  · rfl

theorem cleanEntry_zero (z : ℂ) : cleanEntry 0 z = z := by
  unfold cleanEntry
  have h (x : ℝ) : ¬ |x| < 0 := not_lt.2 (abs_nonneg x)
  simp only [h, if_false]

/-- An entry is at most the norm of its diagonal. -/
theorem entry_le_diagonalNorm (n : ℕ) (op : ℕ → ℕ → ℂ) {r c : ℕ} (hr : r < n) (hc : c < n) :
    ‖op r c‖ ≤ diagonalNorm n op ((r + (n - c)) % n) := by
  have hd : (r + (n - c)) % n < n := Nat.mod_lt _ (by omega)
  unfold diagonalNorm
  apply Real.le_sqrt_of_sq_le
  refine le_trans (le_of_eq ?_) (single_le_sum (f := fun k => ‖operatorDiagonals n op ((r + (n - c)) % n) k‖ ^ 2)
    (fun i _ => by positivity) (mem_range.2 hc))
  beta_reduce
  rw [operatorDiagonals_eq n op hd hc, (offset_unique hr hc hd).2 rfl]

theorem norm_clean (t : ℝ) (z : ℂ) : ‖cleanEntry t z - z‖ ^ 2 ≤ 2 * t ^ 2 := by
  have key : ‖cleanEntry t z - z‖ ^ 2 =
      (if |z.re| < t then z.re ^ 2 else 0) + (if |z.im| < t then z.im ^ 2 else 0) := by
    rw [Complex.sq_norm, Complex.normSq_apply]
    unfold cleanEntry
    by_cases h1 : |z.im| < t <;> by_cases h2 : |z.re| < t <;> simp [h1, h2, sq]
  rw [key]
  have a (x : ℝ) : (if |x| < t then x ^ 2 else 0) ≤ t ^ 2 := by
    split_ifs with h
    · rw [← sq_abs]; exact pow_le_pow_left₀ (abs_nonneg _) h.le 2
    · positivity
  linarith [a z.re, a z.im]

/-- **C39.** The offsets of the stored diagonals are distinct, increasing and less than the dimension, and there is one
complete diagonal for each. -/
theorem C39_layout (n : ℕ) (op : ℕ → ℕ → ℂ) (threshold : ℝ) :
    (bandedOffsets n op threshold).Pairwise (· < ·) ∧ (∀ o ∈ bandedOffsets n op threshold, o < n) ∧
      (bandedDiagonals n op threshold).length = (bandedOffsets n op threshold).length ∧
      ∀ d ∈ bandedDiagonals n op threshold, d.length = n := by
  refine ⟨List.Pairwise.filter _ List.pairwise_lt_range, fun o ho => ?_, by unfold bandedDiagonals; rw [List.length_map],
    fun d hd => ?_⟩
  · unfold bandedOffsets at ho
    exact List.mem_range.1 (List.mem_filter.1 ho).1
  · unfold bandedDiagonals at hd
    obtain ⟨i, -, rfl⟩ := List.mem_map.1 hd
    simp

/-- **C39.** At threshold zero the stored diagonals represent exactly the given operator. -/
theorem C39_exact (n : ℕ) (op : ℕ → ℕ → ℂ) {r c : ℕ} (hr : r < n) (hc : c < n) :
    bandedEntry n (bandedOffsets n op 0) (bandedDiagonals n op 0) r c = op r c := by
  classical
  rw [banded_entry n op 0 hr hc, cleanEntry_zero]
  split_ifs with h
  · rfl
  · exact (norm_le_zero_iff.1 ((entry_le_diagonalNorm n op hr hc).trans (not_lt.1 h))).symm

/-- **C39.** At any threshold every entry is within `√2` times the threshold of the entry of the operator. -/
theorem C39_error (n : ℕ) (op : ℕ → ℕ → ℂ) {threshold : ℝ} (ht : 0 ≤ threshold) {r c : ℕ} (hr : r < n) (hc : c < n) :
    ‖bandedEntry n (bandedOffsets n op threshold) (bandedDiagonals n op threshold) r c - op r c‖ ≤
      Real.sqrt 2 * threshold := by
  classical
  rw [banded_entry n op threshold hr hc]
  have h1 : (1 : ℝ) ≤ Real.sqrt 2 := by
    rw [Real.one_le_sqrt]; norm_num
  split_ifs with h
  · apply (sq_le_sq₀ (norm_nonneg _) (by positivity)).1
    rw [mul_pow, Real.sq_sqrt (by norm_num)]
    exact norm_clean _ _
  · rw [zero_sub, norm_neg]
    calc ‖op r c‖ ≤ threshold := (entry_le_diagonalNorm n op hr hc).trans (not_lt.1 h)
      _ ≤ Real.sqrt 2 * threshold := le_mul_of_one_le_left ht h1

/-- Non-vacuity: for the lowering operator in dimension 3 the entry above the main diagonal is read back (it is stored on
the diagonal with offset 2). -/
example : bandedEntry 3 (bandedOffsets 3 (fun i j => if i + 1 = j then 1 else 0) 0)
    (bandedDiagonals 3 (fun i j => if i + 1 = j then 1 else 0) 0) 1 2 = 1 :=
  (C39_exact 3 _ (by norm_num) (by norm_num)).trans (by simp)

/-! ## C84 -/

/-- **C84.** The sample times of a time axis are evenly spaced by `dt`, start at `offset` fundamental steps, and span
less than the stated duration. -/
theorem C84_times_partial (b : TimeBasis) (hn : 0 < b.n) (hs : 0 < b.step) (hT : 0 < b.deltaT) (k : ℕ) :
    b.times 0 = b.offset * b.fundamentalDt ∧ b.times (k + 1) - b.times k = b.dt ∧
      (k < b.n → b.times k - b.times 0 < b.deltaT) := by
  have hn' : (0 : ℝ) < b.n := by exact_mod_cast hn
  have hs' : (0 : ℝ) < b.step := by exact_mod_cast hs
  unfold TimeBasis.times TimeBasis.dt TimeBasis.fundamentalDt TimeBasis.ntPoints TimeBasis.fundamentalN
  push_cast
  refine ⟨by ring, by field_simp; ring, fun hk => ?_⟩
  have hk' : (k : ℝ) < b.n := by exact_mod_cast hk
  have : b.deltaT / (b.n * b.step) * (b.offset + k * b.step) - b.deltaT / (b.n * b.step) * (b.offset + 0 * b.step) =
      b.deltaT * (k / b.n) := by field_simp; ring
  rw [this]
  exact mul_lt_of_lt_one_right hT ((div_lt_one hn').2 hk')

/-- **C84** is false of the code: the fundamental times (which include the end point) are not the times of the fundamental
steps: apart from the first, no sample of an axis with at least two fundamental steps is at the fundamental time of its
index. -/
theorem C84_negation (b : TimeBasis) (hT : 0 < b.deltaT) (h0 : b.offset = 0) (hs : 0 < b.step) (hN : 2 ≤ b.fundamentalN)
    (k : ℕ) (hk : 0 < k) : b.times k ≠ b.fundamentalTimes (k * b.step) := by
  unfold TimeBasis.times TimeBasis.fundamentalTimes TimeBasis.fundamentalDt TimeBasis.ntPoints
  rw [h0]
  have hN' : (2 : ℝ) ≤ b.fundamentalN := by exact_mod_cast hN
  have hk' : (0 : ℝ) < (k : ℝ) * b.step := by
    have : 0 < k * b.step := Nat.mul_pos hk hs
    exact_mod_cast this
  push_cast
  intro h
  have h1 : (b.fundamentalN : ℝ) ≠ 0 := by linarith
  have h2 : (b.fundamentalN : ℝ) - 1 ≠ 0 := by linarith
  field_simp at h
  have h3 : b.deltaT * (k * b.step : ℝ) = 0 := by linear_combination (-1 : ℝ) * b.deltaT * h
  exact absurd h3 (mul_pos hT hk').ne'

example : (⟨3, 2, 0, 6⟩ : TimeBasis).times 1 = 2 ∧ (⟨3, 2, 0, 6⟩ : TimeBasis).fundamentalTimes 2 = 12 / 5 := by
  unfold TimeBasis.times TimeBasis.fundamentalTimes TimeBasis.fundamentalDt TimeBasis.ntPoints TimeBasis.fundamentalN
  norm_num

/-! ## C40 -/

variable {n m : ℕ}

theorem meanValue_smul (a : ℂ) (L : Matrix (Fin n) (Fin n) ℂ) (psi : Fin n → ℂ) : meanValue (a • L) psi = a * meanValue L psi := by
  unfold meanValue
  rw [Matrix.smul_mulVec, dotProduct_smul, smul_eq_mul]

theorem collapseDrift_smul (a : ℂ) (L : Matrix (Fin n) (Fin n) ℂ) (psi : Fin n → ℂ) :
    collapseDrift (a • L) psi = (star a * a) • collapseDrift L psi := by
  unfold collapseDrift
  rw [meanValue_smul, Matrix.conjTranspose_smul, Matrix.smul_mulVec, smul_mul_smul_comm, Matrix.smul_mulVec]
  funext i
  simp only [Pi.sub_apply, Pi.smul_apply, smul_eq_mul, star_mul']
  ring

theorem collapseNoise_smul (a : ℂ) (L : Matrix (Fin n) (Fin n) ℂ) (psi : Fin n → ℂ) :
    collapseNoise (a • L) psi = a • collapseNoise L psi := by
  unfold collapseNoise
  rw [meanValue_smul, Matrix.smul_mulVec, smul_sub, smul_smul]

/-- Scaling the operators. -/
theorem sseIncrement_scaled (H : Matrix (Fin n) (Fin n) ℂ) (L : Fin m → Matrix (Fin n) (Fin n) ℂ) (a : ℝ) (dt : ℝ)
    (xi : Fin m → ℂ) (psi : Fin n → ℂ) :
    sseIncrement ((a ^ 2 : ℂ) • H) (fun k => (a : ℂ) • L k) dt xi psi =
      ((dt * a ^ 2 : ℝ) : ℂ) • ((-Complex.I) • H.mulVec psi + ∑ k, collapseDrift (L k) psi) +
        ((Real.sqrt dt * a : ℝ) : ℂ) • ∑ k, xi k • collapseNoise (L k) psi := by
  unfold sseIncrement
  simp only [collapseDrift_smul, collapseNoise_smul, Matrix.smul_mulVec]
  have hs : star (a : ℂ) * (a : ℂ) = (a : ℂ) ^ 2 := by rw [Complex.star_def, Complex.conj_ofReal, sq]
  simp only [hs]
  funext i
  simp only [Pi.add_apply, Pi.smul_apply, Finset.sum_apply, smul_eq_mul]
  push_cast
  rw [mul_add, mul_add, Finset.mul_sum, Finset.mul_sum, Finset.mul_sum, Finset.mul_sum]
  congr 1
  · congr 1
    · ring
    · exact sum_congr rfl fun k _ => by ring
  · exact sum_congr rfl fun k _ => by ring

/-- Specification: the increment of the equation `dψ = -(i/ħ) H ψ dt + …` with collapse operators `L / √ħ` over a physical
time `dt`. -/
noncomputable def physicalIncrement (hbar : ℝ) (H : Matrix (Fin n) (Fin n) ℂ) (L : Fin m → Matrix (Fin n) (Fin n) ℂ)
    (dt : ℝ) (xi : Fin m → ℂ) (psi : Fin n → ℂ) : Fin n → ℂ :=
  sseIncrement ((1 / hbar : ℂ) • H) (fun k => (1 / Real.sqrt hbar : ℂ) • L k) dt xi psi

/-- **C40.** The rescaled problem given to the banded solver has, in each of its steps, exactly the increment of the
physical equation over one fundamental time step, whatever the norm used for scaling; and the samples it returns, `step`
steps apart, are at the sample spacing of the time axis. -/
theorem C40_banded_partial {hbar maxNorm : ℝ} (hh : 0 < hbar) (hm : 0 < maxNorm) (H : Matrix (Fin n) (Fin n) ℂ)
    (L : Fin m → Matrix (Fin n) (Fin n) ℂ) (times : TimeBasis) (hT : 0 ≤ times.deltaT) (hs : 0 < times.step)
    (xi : Fin m → ℂ) (psi : Fin n → ℂ) :
    sseIncrement (bandedInput hbar maxNorm H L times).H (bandedInput hbar maxNorm H L times).L
        (bandedInput hbar maxNorm H L times).dt xi psi = physicalIncrement hbar H L times.fundamentalDt xi psi ∧
      (bandedInput hbar maxNorm H L times).step * times.fundamentalDt = times.dt ∧
      (bandedInput hbar maxNorm H L times).samples = times.n := by
  refine ⟨?_, ?_, rfl⟩
  · have hf : 0 ≤ times.fundamentalDt := by unfold TimeBasis.fundamentalDt; positivity
    unfold bandedInput physicalIncrement
    dsimp only
    have e1 : (1 / (maxNorm : ℂ) ^ 2) = ((1 / maxNorm : ℝ) : ℂ) ^ 2 := by push_cast; ring
    have e2 : (1 / (maxNorm : ℂ)) = ((1 / maxNorm : ℝ) : ℂ) := by push_cast; ring
    have e3 : (1 / (hbar : ℂ)) = ((1 / Real.sqrt hbar : ℝ) : ℂ) ^ 2 := by
      rw [← Complex.ofReal_pow, div_pow, Real.sq_sqrt hh.le]; push_cast; ring
    have e4 : (1 / (Real.sqrt hbar : ℂ)) = ((1 / Real.sqrt hbar : ℝ) : ℂ) := by push_cast; ring
    rw [e1, e2, e3, e4, sseIncrement_scaled, sseIncrement_scaled]
    have f1 : times.fundamentalDt * maxNorm ^ 2 / hbar * (1 / maxNorm) ^ 2 =
        times.fundamentalDt * (1 / Real.sqrt hbar) ^ 2 := by
      rw [div_pow _ (Real.sqrt hbar), Real.sq_sqrt hh.le]; field_simp
    have f2 : Real.sqrt (times.fundamentalDt * maxNorm ^ 2 / hbar) * (1 / maxNorm) =
        Real.sqrt times.fundamentalDt * (1 / Real.sqrt hbar) := by
      rw [Real.sqrt_div' _ hh.le, Real.sqrt_mul hf, Real.sqrt_sq hm.le]; field_simp
    rw [f1, f2]
  · unfold bandedInput TimeBasis.fundamentalDt TimeBasis.dt TimeBasis.fundamentalN
    have hs' : (times.step : ℝ) ≠ 0 := by exact_mod_cast hs.ne'
    push_cast
    by_cases hn : (times.n : ℝ) = 0
    · rw [hn]; simp
    · field_simp

/-- **C40.** The unbanded solver makes physical steps of length `dt`, the sample spacing. -/
theorem C40_rust_partial (hbar : ℝ) (H : Matrix (Fin n) (Fin n) ℂ) (L : Fin m → Matrix (Fin n) (Fin n) ℂ)
    (times : TimeBasis) (h1 : times.step = 1) (xi : Fin m → ℂ) (psi : Fin n → ℂ) :
    sseIncrement (rustInput hbar H L times).H (rustInput hbar H L times).L (rustInput hbar H L times).dt xi psi =
        physicalIncrement hbar H L times.fundamentalDt xi psi ∧
      (rustInput hbar H L times).step * (rustInput hbar H L times).dt = times.dt := by
  have e : times.dt = times.fundamentalDt := by
    unfold TimeBasis.dt TimeBasis.fundamentalDt TimeBasis.fundamentalN; rw [h1, Nat.mul_one]
  refine ⟨?_, ?_⟩
  · unfold rustInput physicalIncrement
    dsimp only
    rw [e]
  · unfold rustInput
    dsimp only
    rw [h1, Nat.cast_one, one_mul]

/-- **C40** is false of the unbanded solver when `step > 1`: it is given the spacing of the samples as the length of
one step, and records a sample every `step` steps, so that its samples are `step` times too far apart. -/
theorem C40_rust_negation (hbar : ℝ) (H : Matrix (Fin n) (Fin n) ℂ) (L : Fin m → Matrix (Fin n) (Fin n) ℂ)
    (times : TimeBasis) (hT : 0 < times.deltaT) (hn : 0 < times.n) (h1 : 1 < times.step) :
    (rustInput hbar H L times).step * (rustInput hbar H L times).dt = times.step * times.dt ∧
      (rustInput hbar H L times).step * (rustInput hbar H L times).dt ≠ times.dt := by
  unfold rustInput
  dsimp only
  refine ⟨rfl, fun h => ?_⟩
  have hd : 0 < times.dt := by
    unfold TimeBasis.dt
    have : (0 : ℝ) < times.n := by exact_mod_cast hn
    positivity
  have h2 : (times.step : ℝ) = 1 := mul_right_cancel₀ hd.ne' (h.trans (one_mul _).symm)
  have h3 : times.step = 1 := by exact_mod_cast h2
  omega

/-- **C40** is false of the qutip solver: it divides the collapse operators by `ħ`, the other two by `√ħ`, so the same
problem is a different equation unless `ħ = 1`. -/
theorem C40_qutip_negation {hbar : ℝ} (hh : 0 < hbar) (h1 : hbar ≠ 1) (times : TimeBasis) (hT : 0 < times.deltaT)
    (hN : 0 < times.fundamentalN) :
    ∃ (L : Fin 1 → Matrix (Fin 2) (Fin 2) ℂ) (psi : Fin 2 → ℂ), (star psi ⬝ᵥ psi = 1) ∧
      sseIncrement (qutipInput hbar 0 L times).H (qutipInput hbar 0 L times).L (qutipInput hbar 0 L times).dt 0 psi ≠
        physicalIncrement hbar 0 L times.fundamentalDt 0 psi := by
  refine ⟨fun _ => !![0, 1; 0, 0], ![0, 1], by simp [dotProduct, Fin.sum_univ_two], fun h => ?_⟩
  have hf : 0 < times.fundamentalDt := by
    unfold TimeBasis.fundamentalDt
    have : (0 : ℝ) < times.fundamentalN := by exact_mod_cast hN
    positivity
  have e1 : meanValue !![(0 : ℂ), 1; 0, 0] ![0, 1] = 0 := by
    simp [meanValue, dotProduct, Fin.sum_univ_two, Matrix.mulVec]
  have e2 : collapseDrift !![(0 : ℂ), 1; 0, 0] ![0, 1] = ![0, -1 / 2] := by
    unfold collapseDrift
    rw [e1]
    funext i
    fin_cases i <;> simp [Matrix.mulVec, Matrix.mul_apply, dotProduct, Fin.sum_univ_two] <;> norm_num
  have h0 := congrFun h 1
  unfold physicalIncrement qutipInput sseIncrement at h0
  simp only [collapseDrift_smul, e2, smul_zero, Matrix.zero_mulVec, zero_add, Finset.univ_unique, Finset.sum_singleton,
    Pi.zero_apply, zero_smul, add_zero, Pi.smul_apply, smul_eq_mul, Matrix.cons_val_one, Matrix.cons_val_fin_one] at h0
  have hfc : (times.fundamentalDt : ℂ) ≠ 0 := by exact_mod_cast hf.ne'
  have h2 := mul_left_cancel₀ hfc h0
  have h3 := mul_right_cancel₀ (by norm_num : (-1 / 2 : ℂ) ≠ 0) h2
  have h4 : (1 / hbar) * (1 / hbar) = 1 / Real.sqrt hbar * (1 / Real.sqrt hbar) := by
    have : ((1 / hbar * (1 / hbar) : ℝ) : ℂ) = ((1 / Real.sqrt hbar * (1 / Real.sqrt hbar) : ℝ) : ℂ) := by
      push_cast
      simpa [← Complex.ofReal_one, ← Complex.ofReal_div, Complex.conj_ofReal, Complex.star_def] using h3
    exact_mod_cast this
  rw [div_mul_div_comm, div_mul_div_comm, Real.mul_self_sqrt hh.le] at h4
  apply h1
  field_simp at h4
  linarith

example : ∃ times : TimeBasis, 0 < times.deltaT ∧ 0 < times.n ∧ 1 < times.step := ⟨⟨5, 2, 0, 1⟩, by norm_num, by norm_num, by norm_num⟩

end Verif
