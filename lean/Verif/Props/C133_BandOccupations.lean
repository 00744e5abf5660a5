import Verif.Model.PlotOccupations
import Verif.Props.C30_Averages

/-!
# C133: occupations of bands and sites drawn against time
-/

set_option autoImplicit false

namespace Verif

open Finset Spec

namespace Spec

/-- The probability of cell `(i, j)` and band `b` in the list at time `k`, all stored one after another. -/
def occupation (n0 n1 nb : ℕ) (data : ℕ → ℝ) (k i j b : ℕ) : ℝ := data (((k * n0 + i) * n1 + j) * nb + b)

/-- Lines at the given times with the given values. -/
def ShowsAtTimes (t : TimeBasis) (lines : List DrawnLine) (m : ℕ) (value : ℕ → ℕ → ℝ) : Prop :=
  lines.length = m ∧ ∀ l (h : l < lines.length), (lines[l]).n = t.n ∧
    (∀ k < t.n, (lines[l]).coordinates k = t.fundamentalDt * (t.offset + k * t.step)) ∧
    ∀ k < t.n, (lines[l]).values k = value l k

end Spec

theorem showsAtTimes_plot (t : TimeBasis) (n : ℕ) (data : ℕ → ℝ) (value : ℕ → ℕ → ℝ)
    (h : ∀ l < n, ∀ k < t.n, data (k * n + l) = value l k) :
    Spec.ShowsAtTimes t (plotProbabilityAgainstTime t n data) n value := by
  refine ⟨by simp [plotProbabilityAgainstTime], fun l hl => ?_⟩
  have hl' : l < n := by simpa [plotProbabilityAgainstTime] using hl
  have e : (plotProbabilityAgainstTime t n data)[l] = ⟨t.n, t.times, fun j => data (j * n + l)⟩ := by
    simp [plotProbabilityAgainstTime]
  rw [e]
  refine ⟨rfl, fun k _ => ?_, fun k hk => h l hl' k hk⟩
  show t.times k = _
  unfold TimeBasis.times TimeBasis.ntPoints
  push_cast
  ring

theorem sum_bands (T : ℕ) (b0 b1 b2 : Basis) (data : ℕ → ℝ) :
    ∃ f, sumProbabilities (.fundamental T) [b0, b1, b2] (some [0, 1]) data = some ([b2], f) ∧
      ∀ b < size b2, ∀ k < T, f (k * size b2 + b) = ∑ i ∈ range (size b0), ∑ j ∈ range (size b1),
        Spec.occupation (size b0) (size b1) (size b2) data k i j b := by
  refine ⟨_, by
    simp only [sumProbabilities, Option.getD_some, sumAxes]
    rw [if_pos ⟨by simp [stackedShape], by simp⟩]
    simp only [Option.map_some, dropAxes_eq]
    rfl, ?_⟩
  intro b hb k hk
  have h1 : (k * size b2 + b) / size b2 = k := by
    rw [mul_comm, Nat.mul_add_div (by omega), Nat.div_eq_of_lt hb, add_zero]
  have h2 : (k * size b2 + b) % size b2 = b := by rw [mul_comm, Nat.mul_add_mod, Nat.mod_eq_of_lt hb]
  have hT : size (Basis.fundamental T) = T := by rw [← Basis.n_eq]; rfl
  simp [keepFrom, flagAxes, stackedShape, Basis.n_eq, sumFlags, unravel, ravel, Spec.occupation, h1, h2,
    Nat.mod_eq_of_lt hk, hT]
  refine sum_congr rfl fun i _ => sum_congr rfl fun j _ => ?_
  congr 1
  ring

theorem sum_sites (T : ℕ) (b0 b1 b2 : Basis) (data : ℕ → ℝ) :
    ∃ f, sumProbabilities (.fundamental T) [b0, b1, b2] (some [2]) data = some ([b0, b1], f) ∧
      ∀ i < size b0, ∀ j < size b1, ∀ k < T, f (k * (size b0 * size b1) + (i * size b1 + j)) = ∑ b ∈ range (size b2),
        Spec.occupation (size b0) (size b1) (size b2) data k i j b := by
  refine ⟨_, by
    simp only [sumProbabilities, Option.getD_some, sumAxes]
    rw [if_pos ⟨by simp [stackedShape], by simp⟩]
    simp only [Option.map_some, dropAxes_eq]
    rfl, ?_⟩
  intro i hi j hj k hk
  have hlt : i * size b1 + j < size b0 * size b1 := by
    calc i * size b1 + j < i * size b1 + size b1 := by omega
      _ = (i + 1) * size b1 := by ring
      _ ≤ size b0 * size b1 := Nat.mul_le_mul_right _ hi
  have h1 : (k * (size b0 * size b1) + (i * size b1 + j)) / (size b0 * size b1) = k := by
    rw [mul_comm k, Nat.mul_add_div (by omega), Nat.div_eq_of_lt hlt, add_zero]
  have h2 : (k * (size b0 * size b1) + (i * size b1 + j)) % (size b0 * size b1) = i * size b1 + j := by
    rw [mul_comm k, Nat.mul_add_mod, Nat.mod_eq_of_lt hlt]
  have h3 : (k * (size b0 * size b1) + (i * size b1 + j)) / size b1 % size b0 = i := by
    rw [show k * (size b0 * size b1) + (i * size b1 + j) = size b1 * (k * size b0 + i) + j by ring,
      Nat.mul_add_div (by omega), Nat.div_eq_of_lt hj, add_zero, mul_comm k, Nat.mul_add_mod, Nat.mod_eq_of_lt hi]
  have h4 : (k * (size b0 * size b1) + (i * size b1 + j)) % size b1 = j := by
    rw [show k * (size b0 * size b1) + (i * size b1 + j) = size b1 * (k * size b0 + i) + j by ring,
      Nat.mul_add_mod, Nat.mod_eq_of_lt hj]
  have hT : size (Basis.fundamental T) = T := by rw [← Basis.n_eq]; rfl
  simp [keepFrom, flagAxes, stackedShape, Basis.n_eq, sumFlags, unravel, ravel, Spec.occupation, h1, h2, h3, h4,
    Nat.mod_eq_of_lt hk, hT]
  refine sum_congr rfl fun b _ => ?_
  congr 1
  ring

theorem average_repeats (T : ℕ) (R b0 b1 b2 : Basis) (data : ℕ → ℝ) :
    ∃ d, averageProbabilities [R, .fundamental T] (.tuple [b0, b1, b2]) [0] data = some ([.fundamental T], d) ∧
      ∀ k < T, ∀ m < size b0 * size b1 * size b2, d (k * (size b0 * size b1 * size b2) + m) =
        (∑ r ∈ range (size R), data ((r * T + k) * (size b0 * size b1 * size b2) + m)) / size R := by
  refine ⟨_, by
    simp only [averageProbabilities, averageAxes, sumAxes]
    rw [if_pos ⟨by simp [stackedShape], by simp⟩]
    simp only [Option.map_some, dropAxes_eq]
    rfl, ?_⟩
  intro k hk m hm
  have hN : size (Basis.tuple [b0, b1, b2]) = size b0 * size b1 * size b2 := by
    simp [size, sizes, mul_assoc]
  have h1 : (k * (size b0 * size b1 * size b2) + m) / (size b0 * size b1 * size b2) = k := by
    rw [mul_comm k, Nat.mul_add_div (by omega), Nat.div_eq_of_lt hm, add_zero]
  have h2 : (k * (size b0 * size b1 * size b2) + m) % (size b0 * size b1 * size b2) = m := by
    rw [mul_comm k, Nat.mul_add_mod, Nat.mod_eq_of_lt hm]
  have hT : size (Basis.fundamental T) = T := by rw [← Basis.n_eq]; rfl
  simp [keepFrom, loseFrom, flagAxes, takeAxes_eq, stackedShape, Basis.n_eq, sumFlags, unravel, ravel, h1, h2, Nat.mod_eq_of_lt hk, hT, hN]
  congr 1
  refine sum_congr rfl fun b _ => ?_
  congr 1
  ring

/-- **C133.** The occupation drawn for each band is at each time the sum over all cells of the probabilities of that band; the one for
each site (cells in row-major order) is the sum over all bands. -/
theorem C133_occupations (t : TimeBasis) (b0 b1 b2 : Basis) (data : ℕ → ℝ) :
    (∃ lines, plotProbabilityPerBand t [b0, b1, b2] data = some lines ∧
      Spec.ShowsAtTimes t lines (size b2) fun b k => ∑ i ∈ range (size b0), ∑ j ∈ range (size b1),
        Spec.occupation (size b0) (size b1) (size b2) data k i j b) ∧
    ∃ lines, plotProbabilityPerSite t [b0, b1, b2] data = some lines ∧
      Spec.ShowsAtTimes t lines (size b0 * size b1) fun l k => ∑ b ∈ range (size b2),
        Spec.occupation (size b0) (size b1) (size b2) data k (l / size b1) (l % size b1) b := by
  constructor
  · obtain ⟨f, hf, h⟩ := sum_bands t.n b0 b1 b2 data
    refine ⟨_, by unfold plotProbabilityPerBand; rw [hf]; rfl, ?_⟩
    have e : (stackedShape [b2]).prod = size b2 := by simp [stackedShape, Basis.n_eq]
    dsimp only
    rw [e]
    exact showsAtTimes_plot t _ _ _ h
  · obtain ⟨f, hf, h⟩ := sum_sites t.n b0 b1 b2 data
    refine ⟨_, by unfold plotProbabilityPerSite; rw [hf]; rfl, ?_⟩
    have e : (stackedShape [b0, b1]).prod = size b0 * size b1 := by simp [stackedShape, Basis.n_eq]
    dsimp only
    rw [e]
    refine showsAtTimes_plot t _ _ _ fun l hl k hk => ?_
    have hb1 : 0 < size b1 := Nat.pos_of_ne_zero fun e => by simp [e] at hl
    have := h (l / size b1) ((Nat.div_lt_iff_lt_mul hb1).2 hl) (l % size b1) (Nat.mod_lt _ hb1) k hk
    rwa [Nat.div_add_mod' l (size b1)] at this

/-- **C133.** The average occupation of each band is the mean over the repeats of the sum over all cells. -/
theorem C133_average (t : TimeBasis) (R b0 b1 b2 : Basis) (data : ℕ → ℝ) :
    ∃ lines, plotAverageProbabilityPerBand R t [b0, b1, b2] data = some lines ∧
      Spec.ShowsAtTimes t lines (size b2) fun b k =>
        (∑ r ∈ range (size R), ∑ i ∈ range (size b0), ∑ j ∈ range (size b1),
          Spec.occupation (size b0) (size b1) (size b2) (fun m => data (r * (t.n * (size b0 * size b1 * size b2)) + m)) k i j b) /
            size R := by
  obtain ⟨d, hd, hav⟩ := average_repeats t.n R b0 b1 b2 data
  obtain ⟨⟨lines, hl, h1, h2⟩, -⟩ := C133_occupations t b0 b1 b2 d
  refine ⟨lines, by unfold plotAverageProbabilityPerBand; rw [hd]; exact hl, h1, fun l hlt => ?_⟩
  obtain ⟨e1, e2, e3⟩ := h2 l hlt
  refine ⟨e1, e2, fun k hk => ?_⟩
  rw [e3 k hk]
  beta_reduce
  have hlb : l < size b2 := by rw [← h1]; exact hlt
  have key : ∀ i < size b0, ∀ j < size b1, Spec.occupation (size b0) (size b1) (size b2) d k i j l =
      (∑ r ∈ range (size R), Spec.occupation (size b0) (size b1) (size b2)
        (fun m => data (r * (t.n * (size b0 * size b1 * size b2)) + m)) k i j l) / size R := by
    intro i hi j hj
    have hm : (i * size b1 + j) * size b2 + l < size b0 * size b1 * size b2 := by
      calc (i * size b1 + j) * size b2 + l < (i * size b1 + j) * size b2 + size b2 := by omega
        _ = (i * size b1 + j + 1) * size b2 := by ring
        _ ≤ (size b0 * size b1) * size b2 := by
          refine Nat.mul_le_mul_right _ ?_
          calc i * size b1 + j + 1 ≤ i * size b1 + size b1 := by omega
            _ = (i + 1) * size b1 := by ring
            _ ≤ size b0 * size b1 := Nat.mul_le_mul_right _ hi
    have := hav k hk _ hm
    unfold Spec.occupation
    rw [show ((k * size b0 + i) * size b1 + j) * size b2 + l =
      k * (size b0 * size b1 * size b2) + ((i * size b1 + j) * size b2 + l) by ring, this]
    congr 1
    refine sum_congr rfl fun r _ => ?_
    congr 1
    ring
  rw [show (∑ r ∈ range (size R), ∑ i ∈ range (size b0), ∑ j ∈ range (size b1),
      Spec.occupation (size b0) (size b1) (size b2) (fun m => data (r * (t.n * (size b0 * size b1 * size b2)) + m)) k i j l) =
      ∑ i ∈ range (size b0), ∑ j ∈ range (size b1), ∑ r ∈ range (size R),
      Spec.occupation (size b0) (size b1) (size b2) (fun m => data (r * (t.n * (size b0 * size b1 * size b2)) + m)) k i j l by
    rw [sum_comm]; exact sum_congr rfl fun i _ => sum_comm, sum_div]
  refine sum_congr rfl fun i hi => ?_
  rw [sum_div]
  exact sum_congr rfl fun j hj => key i (mem_range.1 hi) j (mem_range.1 hj)

/-- **C133 (partial).** The total probability: a single line of the total at each time, for states with two axes. Missing: other numbers
of axes, see `C133_total_negation`. -/
theorem C133_total_partial (t : TimeBasis) (b0 b1 : Basis) (data : ℕ → ℝ) :
    ∃ lines, plotTotalProbabilityAgainstTime t [b0, b1] data = some lines ∧
      Spec.ShowsAtTimes t lines 1 fun _ k => ∑ m ∈ range (size b0 * size b1), data (k * (size b0 * size b1) + m) := by
  obtain ⟨f, hf, h⟩ : ∃ f, sumProbabilities (.fundamental t.n) [b0, b1] none data = some ([], f) ∧
      ∀ k < t.n, f k = ∑ i ∈ range (size b0), ∑ j ∈ range (size b1), data ((k * size b0 + i) * size b1 + j) := by
    refine ⟨_, by
      simp only [sumProbabilities, Option.getD_none, sumAxes]
      rw [if_pos ⟨by simp [stackedShape, List.range_succ], by simp [List.range_succ]⟩]
      simp only [Option.map_some, dropAxes_eq]
      rfl, ?_⟩
    intro k hk
    have hT : size (Basis.fundamental t.n) = t.n := by rw [← Basis.n_eq]; rfl
    simp [keepFrom, flagAxes, stackedShape, Basis.n_eq, sumFlags, unravel, ravel, Nat.mod_eq_of_lt hk, hT, List.range_succ]
    refine sum_congr rfl fun i _ => sum_congr rfl fun j _ => ?_
    congr 1
    ring
  refine ⟨_, by unfold plotTotalProbabilityAgainstTime; rw [hf]; rfl, ?_⟩
  have e : (stackedShape []).prod = 1 := rfl
  dsimp only
  rw [e]
  refine showsAtTimes_plot t _ _ _ fun l hl k hk => ?_
  rw [show k * 1 + l = k by omega, h k hk, sum_range_mul']
  refine sum_congr rfl fun i _ => sum_congr rfl fun j _ => ?_
  congr 1
  ring

/-- **C133 (negation).** For states of a simulation (cells and bands) the plot of the total has one line for each band; for states with
one axis it raises. -/
theorem C133_total_negation (t : TimeBasis) (b0 b1 b2 : Basis) (data : ℕ → ℝ) :
    plotTotalProbabilityAgainstTime t [b0, b1, b2] data = plotProbabilityPerBand t [b0, b1, b2] data ∧
    (∃ lines, plotTotalProbabilityAgainstTime t [b0, b1, b2] data = some lines ∧ lines.length = size b2) ∧
    plotTotalProbabilityAgainstTime t [b0] data = none := by
  have h1 : plotTotalProbabilityAgainstTime t [b0, b1, b2] data = plotProbabilityPerBand t [b0, b1, b2] data := by
    unfold plotTotalProbabilityAgainstTime plotProbabilityPerBand sumProbabilities
    simp [List.range_succ]
  refine ⟨h1, ?_, ?_⟩
  · obtain ⟨⟨lines, hl, h, -⟩, -⟩ := C133_occupations t b0 b1 b2 data
    exact ⟨lines, h1.trans hl, h⟩
  · unfold plotTotalProbabilityAgainstTime
    rw [(C76_negation (.fundamental t.n) b0 b0 b0 b0 b0 data).1]; rfl

/-- Two by one cells and two bands at one time: the probabilities 0.1, 0.2, 0.3, 0.4 give bands 0.4, 0.6 and sites 0.3, 0.7. -/
example (t : TimeBasis) (ht : t.n = 1) : ∃ bands sites,
    plotProbabilityPerBand t [.fundamental 2, .fundamental 1, .fundamental 2] (fun k => (k + 1) / 10) = some bands ∧
    plotProbabilityPerSite t [.fundamental 2, .fundamental 1, .fundamental 2] (fun k => (k + 1) / 10) = some sites ∧
    bands.map (fun l => l.values 0) = [4 / 10, 6 / 10] ∧ sites.map (fun l => l.values 0) = [3 / 10, 7 / 10] := by
  obtain ⟨⟨bands, hb, lb, hbv⟩, sites, hs, ls, hsv⟩ := C133_occupations t (.fundamental 2) (.fundamental 1) (.fundamental 2)
    (fun k => ((k : ℝ) + 1) / 10)
  have e : ∀ n, size (Basis.fundamental n) = n := fun n => by rw [← Basis.n_eq]; rfl
  simp only [e] at lb ls hbv hsv
  refine ⟨bands, sites, hb, hs, ?_, ?_⟩
  · refine List.ext_getElem (by simp [lb]) fun l h1 h2 => ?_
    rw [List.getElem_map, (hbv l (by simpa using h1)).2.2 0 (by omega)]
    have : l = 0 ∨ l = 1 := by simp [lb] at h1; omega
    rcases this with rfl | rfl <;> norm_num [Spec.occupation, sum_range_succ]
  · refine List.ext_getElem (by simp [ls]) fun l h1 h2 => ?_
    rw [List.getElem_map, (hsv l (by simpa using h1)).2.2 0 (by omega)]
    have : l = 0 ∨ l = 1 := by simp [ls] at h1; omega
    rcases this with rfl | rfl <;> norm_num [Spec.occupation, sum_range_succ]

end Verif
