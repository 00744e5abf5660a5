import Verif.Model.PlotLists
import Verif.Lemmas.Dft
import Verif.Lemmas.Grid
import Verif.Props.C78_Util
import Verif.Props.C121_Overlaps
import Verif.Props.C127_PlotLine

/-!
# C129: lists of values drawn against time and frequency
-/

set_option autoImplicit false

namespace Verif

open Finset Spec

namespace Spec

/-- The number drawn for the complex number `z`: an angle is fixed up to full turns. -/
def DrawnAs (measure : Measure) (z : ℂ) (v : ℝ) : Prop :=
  match measure with
  | .real => v = z.re
  | .imag => v = z.im
  | .abs => v = ‖z‖
  | .angle => ∃ k : ℤ, v = z.arg + 2 * Real.pi * k

/-- The transform at frequency `f` of the values `data j` taken at the times `time j`. -/
noncomputable def timeTransform (n : ℕ) (time : ℕ → ℝ) (data : ℕ → ℂ) (f : ℝ) : ℂ :=
  ∑ j ∈ range n, data j * Complex.exp (-(2 * Real.pi * Complex.I * f * time j))

end Spec

theorem drawnAs_measured (data : ℕ → ℂ) (measure : Measure) (i : ℕ) : DrawnAs measure (data i) (getMeasuredData data measure i) := by
  cases measure with
  | real => rfl
  | imag => rfl
  | abs => rfl
  | angle => exact (C80_measured data i).2.2.2.1

/-- The sum over a rolled axis. -/
theorem sum_roll {n : ℕ} (hn : 0 < n) (s : ℤ) (v : ℕ → ℂ) (g : ℤ → ℂ) (hg : ∀ a b : ℤ, (n : ℤ) ∣ a - b → g a = g b) :
    ∑ j ∈ range n, roll n s v j * g j = ∑ j ∈ range n, v j * g (j + s) := by
  have hn' : (0 : ℤ) < n := by exact_mod_cast hn
  refine sum_nbij' (fun j => (((j : ℤ) - s) % (n : ℤ)).toNat) (fun j => (((j : ℤ) + s) % (n : ℤ)).toNat) ?_ ?_ ?_ ?_ ?_
  · intro j _
    have := Int.emod_lt_of_pos ((j : ℤ) - s) hn'
    have := Int.emod_nonneg ((j : ℤ) - s) hn'.ne'
    exact mem_range.2 (by omega)
  · intro j _
    have := Int.emod_lt_of_pos ((j : ℤ) + s) hn'
    have := Int.emod_nonneg ((j : ℤ) + s) hn'.ne'
    exact mem_range.2 (by omega)
  · intro j hj
    have hj' := mem_range.1 hj
    have h0 := Int.emod_nonneg ((j : ℤ) - s) hn'.ne'
    rw [Int.toNat_of_nonneg h0, Int.emod_add_emod, sub_add_cancel, Int.emod_eq_of_lt (by positivity) (by exact_mod_cast hj'), Int.toNat_natCast]
  · intro j hj
    have hj' := mem_range.1 hj
    have h0 := Int.emod_nonneg ((j : ℤ) + s) hn'.ne'
    rw [Int.toNat_of_nonneg h0, Int.emod_sub_emod, add_sub_cancel_right, Int.emod_eq_of_lt (by positivity) (by exact_mod_cast hj'), Int.toNat_natCast]
  · intro j _
    have h0 := Int.emod_nonneg ((j : ℤ) - s) hn'.ne'
    rw [Int.toNat_of_nonneg h0]
    refine congrArg₂ _ rfl (hg _ _ ?_)
    have := Int.emod_add_mul_ediv ((j : ℤ) - s) n
    exact ⟨((j : ℤ) - s) / n, by linarith⟩

/-- The entry of a shifted array at the position of a frequency. -/
theorem fftshift_at {α : Type*} {n : ℕ} {f : ℤ} (hf : OnGrid n f) (v : ℕ → α) : fftshift n v (f + (n : ℤ) / 2).toNat = v (slot n f) := by
  have hs := slot_lt hf
  obtain ⟨h1, h2⟩ := freq_half hs
  rw [freq_slot hf] at h1 h2
  unfold fftshift roll
  rw [Int.toNat_of_nonneg h1, add_sub_cancel_right, ← slot_emod hf, Int.toNat_natCast]

theorem fftfreq_slot {n : ℕ} {f : ℤ} (hf : OnGrid n f) (d : ℝ) : fftfreq n d (slot n f) = f / (n * d) := by
  have : (if slot n f < (n - 1) / 2 + 1 then (slot n f : ℤ) else -((n : ℤ) / 2) + (slot n f - ((n - 1) / 2 + 1) : ℕ)) = f := by
    unfold OnGrid at hf
    unfold slot
    split_ifs <;> omega
  unfold fftfreq
  rw [this]
  ring

/-- The transform without the offset of the times. -/
noncomputable def bareTransform (n : ℕ) (data : ℕ → ℂ) (f : ℤ) : ℂ := ∑ j ∈ range n, data j * phase n (-(f * j))

theorem frequencyData_at (t : TimeBasis) (hn : 0 < t.n) (data : ℕ → ℂ) {f : ℤ} (hf : OnGrid t.n f) :
    frequencyData t data (f + (t.n : ℤ) / 2).toNat = phase t.n (-(f * t.offset)) * bareTransform t.n data f := by
  unfold frequencyData bareTransform
  rw [fftshift_at hf, fft_eq]
  simp only [FftNorm.fftScale, one_mul]
  have hg : ∀ a b : ℤ, (t.n : ℤ) ∣ a - b → phase t.n (-(f * a)) = phase t.n (-(f * b)) := fun a b h =>
    phase_congr hn (by
      obtain ⟨q, hq⟩ := h
      exact ⟨-(f * q), by linear_combination (-f) * hq⟩)
  have h1 : ∀ j : ℕ, phase t.n (-((slot t.n f : ℤ) * j)) = phase t.n (-(f * j)) := fun j =>
    phase_congr hn (by
      rw [slot_emod hf]
      have := Int.emod_add_mul_ediv f t.n
      exact ⟨f / t.n * j, by linear_combination (-(j : ℤ)) * this⟩)
  rw [sum_congr rfl fun j _ => (by rw [h1, mul_comm] : _ = roll t.n t.offset data j * phase t.n (-(f * j))),
    sum_roll hn t.offset data (fun a => phase t.n (-(f * a))) hg, mul_sum]
  refine sum_congr rfl fun j _ => ?_
  rw [mul_add, neg_add, phase_add]
  ring

/-- The time of value `j`. -/
theorem timeTransform_eq (n step : ℕ) (hn : 0 < n) (hstep : 0 < step) (offset : ℤ) (T : ℝ) (hT : T ≠ 0) (data : ℕ → ℂ) (f : ℤ) :
    timeTransform n (fun j => T * ((offset : ℝ) + j * step) / (n * step)) data (f / T) =
      Complex.exp (-(2 * Real.pi * Complex.I * f * offset / (n * step))) * bareTransform n data f := by
  unfold timeTransform bareTransform phase
  rw [mul_sum]
  refine sum_congr rfl fun j _ => ?_
  rw [mul_left_comm, ← Complex.exp_add]
  congr 2
  have h1 : (n : ℂ) ≠ 0 := by exact_mod_cast hn.ne'
  have h2 : (step : ℂ) ≠ 0 := by exact_mod_cast hstep.ne'
  have h3 : (T : ℂ) ≠ 0 := by exact_mod_cast hT
  push_cast
  field_simp
  ring

theorem onGrid_position {n i : ℕ} (hi : i < n) : OnGrid n ((i : ℤ) - (n : ℤ) / 2) ∧ ((i : ℤ) - (n : ℤ) / 2 + (n : ℤ) / 2).toNat = i := by
  unfold OnGrid
  omega

theorem frequencyCoordinates_at (t : TimeBasis) (hn : 0 < t.n) {i : ℕ} (hi : i < t.n) :
    frequencyCoordinates t i = (((i : ℤ) - (t.n : ℤ) / 2 : ℤ) : ℝ) / t.deltaT := by
  obtain ⟨h1, h2⟩ := onGrid_position hi
  have := fftshift_at h1 (fftfreq t.n t.dt)
  rw [h2] at this
  unfold frequencyCoordinates
  rw [this, fftfreq_slot h1]
  have h3 : (t.n : ℝ) ≠ 0 := by exact_mod_cast hn.ne'
  congr 1
  unfold TimeBasis.dt
  field_simp

/-- **C129.** A list of values drawn against frequency, for values at times without an offset or without a step: the points are the multiples of one over the whole
time from about minus to plus half of their number, and at each the transform of the values at their times is drawn. -/
theorem C129_frequency_partial (t : TimeBasis) (hn : 0 < t.n) (hstep : 0 < t.step) (h : t.step = 1 ∨ t.offset = 0) (hT : t.deltaT ≠ 0) (data : ℕ → ℂ)
    (measure : Measure) : ∃ line, plotAgainstFrequency t data measure = some line ∧ line.n = t.n ∧ ∀ i < t.n,
      line.coordinates i = (((i : ℤ) - (t.n : ℤ) / 2 : ℤ) : ℝ) / t.deltaT ∧
      DrawnAs measure (timeTransform t.n (fun j => t.deltaT * ((t.offset : ℝ) + j * t.step) / (t.n * t.step)) data (line.coordinates i))
        (line.values i) := by
  refine ⟨⟨t.n, frequencyCoordinates t, getMeasuredData (frequencyData t data) measure⟩, by
    unfold plotAgainstFrequency plotData1d
    rw [if_neg hn.ne']
    rfl, rfl, fun i hi => ⟨frequencyCoordinates_at t hn hi, ?_⟩⟩
  obtain ⟨h1, h2⟩ := onGrid_position hi
  have hd := frequencyData_at t hn data h1
  rw [h2] at hd
  have hm := drawnAs_measured (frequencyData t data) measure i
  rw [hd] at hm
  show DrawnAs measure (timeTransform _ _ _ (frequencyCoordinates t i)) _
  rw [frequencyCoordinates_at t hn hi, timeTransform_eq t.n t.step hn hstep t.offset t.deltaT hT]
  convert hm using 2
  unfold phase
  rcases h with h | h
  · rw [h]
    congr 1
    push_cast
    ring
  · rw [h]
    simp

/-- **C129.** For any step and offset of the times the absolute value drawn at a frequency is that of the transform of the values at their times. -/
theorem C129_absolute (t : TimeBasis) (hn : 0 < t.n) (hstep : 0 < t.step) (hT : t.deltaT ≠ 0) (data : ℕ → ℂ) :
    ∃ line, plotAgainstFrequency t data .abs = some line ∧ line.n = t.n ∧ ∀ i < t.n,
      line.coordinates i = (((i : ℤ) - (t.n : ℤ) / 2 : ℤ) : ℝ) / t.deltaT ∧
      line.values i = ‖timeTransform t.n (fun j => t.deltaT * ((t.offset : ℝ) + j * t.step) / (t.n * t.step)) data (line.coordinates i)‖ := by
  refine ⟨⟨t.n, frequencyCoordinates t, getMeasuredData (frequencyData t data) .abs⟩, by
    unfold plotAgainstFrequency plotData1d
    rw [if_neg hn.ne']
    rfl, rfl, fun i hi => ⟨frequencyCoordinates_at t hn hi, ?_⟩⟩
  obtain ⟨h1, h2⟩ := onGrid_position hi
  have hd := frequencyData_at t hn data h1
  rw [h2] at hd
  show ‖frequencyData t data i‖ = ‖timeTransform _ _ _ (frequencyCoordinates t i)‖
  rw [frequencyCoordinates_at t hn hi, timeTransform_eq t.n t.step hn hstep t.offset t.deltaT hT, hd, norm_mul, norm_mul]
  congr 1
  unfold phase
  rw [Complex.norm_exp, Complex.norm_exp]
  have e : ∀ r : ℝ, (2 * Real.pi * Complex.I * r).re = 0 := fun r => by simp
  have e1 := e ((-(((i : ℤ) - (t.n : ℤ) / 2 : ℤ) * t.offset : ℤ) : ℝ) / t.n)
  have e2 := e (-((((i : ℤ) - (t.n : ℤ) / 2 : ℤ) : ℝ) * t.offset / (t.n * t.step)))
  rw [show (2 * Real.pi * Complex.I * ((-(((i : ℤ) - (t.n : ℤ) / 2 : ℤ) * t.offset) : ℤ) : ℂ) / t.n).re = 0 by
      rw [← e1]; congr 1; push_cast; ring,
    show (-(2 * Real.pi * Complex.I * (((i : ℤ) - (t.n : ℤ) / 2 : ℤ) : ℂ) * t.offset / (t.n * t.step))).re = 0 by
      rw [← e2]; congr 1; push_cast; ring]

/-- **C129** (negation). With a step and an offset the phase drawn is not that of the transform: two values 1, 0 at the times 1/4 and 3/4. -/
theorem C129_frequency_negation : ∃ (t : TimeBasis) (data : ℕ → ℂ) (line : DrawnLine), t.n = 2 ∧ t.deltaT = 1 ∧
    plotAgainstFrequency t data .real = some line ∧ line.coordinates 0 = -1 ∧ line.values 0 = -1 ∧
    (timeTransform t.n (fun j => t.deltaT * ((t.offset : ℝ) + j * t.step) / (t.n * t.step)) data (line.coordinates 0)).re = 0 := by
  have hg : OnGrid 2 (-1) := by decide
  have hd := frequencyData_at ⟨2, 2, 1, 1⟩ (by decide) (fun j => if j = 0 then 1 else 0) hg
  have hb : bareTransform 2 (fun j => if j = 0 then 1 else 0) (-1) = 1 := by
    simp [bareTransform, phase]
  have hc := frequencyCoordinates_at ⟨2, 2, 1, 1⟩ (by decide) (i := 0) (by decide)
  refine ⟨⟨2, 2, 1, 1⟩, fun j => if j = 0 then 1 else 0, ⟨2, frequencyCoordinates ⟨2, 2, 1, 1⟩,
    getMeasuredData (frequencyData ⟨2, 2, 1, 1⟩ fun j => if j = 0 then 1 else 0) .real⟩, rfl, rfl, rfl, ?_, ?_, ?_⟩
  · show frequencyCoordinates ⟨2, 2, 1, 1⟩ 0 = -1
    rw [hc]
    norm_num
  · show (frequencyData ⟨2, 2, 1, 1⟩ (fun j => if j = 0 then 1 else 0) 0).re = -1
    refine (congrArg Complex.re hd).trans ?_
    rw [show (⟨2, 2, 1, 1⟩ : TimeBasis).n = 2 from rfl, hb]
    have : phase 2 (-(-1 * 1)) = -1 := by
      unfold phase
      rw [← Complex.exp_pi_mul_I]
      congr 1
      push_cast
      ring
    show (phase 2 (-(-1 * 1)) * 1).re = -1
    rw [this]
    simp
  · show (timeTransform 2 _ _ (frequencyCoordinates ⟨2, 2, 1, 1⟩ 0)).re = 0
    rw [hc]
    have := timeTransform_eq 2 2 (by decide) (by decide) 1 1 one_ne_zero (fun j => if j = 0 then 1 else 0) (-1)
    refine (congrArg Complex.re this).trans ?_
    rw [hb]
    have : Complex.exp (-(2 * Real.pi * Complex.I * ((-1 : ℤ) : ℂ) * ((1 : ℤ) : ℂ) / (((2 : ℕ) : ℂ) * ((2 : ℕ) : ℂ)))) = Complex.I := by
      rw [show -(2 * Real.pi * Complex.I * ((-1 : ℤ) : ℂ) * ((1 : ℤ) : ℂ) / (((2 : ℕ) : ℂ) * ((2 : ℕ) : ℂ))) = (Real.pi : ℂ) / 2 * Complex.I by
        push_cast; ring]
      exact Complex.exp_pi_div_two_mul_I
    rw [this]
    simp

/-- **C129.** Rows drawn on top of each other against time: line `b` is the sum of the rows up to `b`, so that the last one is the sum of all the rows. -/
theorem C129_split_time (bands : ℕ) (t : TimeBasis) (data : ℕ → ℂ) (measure : Measure) :
    ∃ lines, plotSplitAgainstTime bands t data measure = some lines ∧ lines.length = bands ∧
      ∀ b line, lines[b]? = some line → line.n = t.n ∧ ∀ j < t.n,
        line.coordinates j = t.deltaT / (t.n * t.step : ℕ) * ((t.offset : ℝ) + j * t.step) ∧
        DrawnAs measure (∑ c ∈ range (b + 1), data (c * t.n + j)) (line.values j) := by
  refine ⟨(List.range bands).map fun b => ⟨t.n, t.times, getMeasuredData (fun j => ∑ c ∈ range (b + 1), data (c * t.n + j)) measure⟩,
    mapM_some_map _ _ _ fun b _ => rfl, by simp, fun b line hl => ?_⟩
  rw [List.getElem?_map] at hl
  obtain ⟨b', hb', rfl⟩ := Option.map_eq_some_iff.1 hl
  obtain ⟨hlt, rfl⟩ := List.getElem?_eq_some_iff.1 hb'
  rw [List.getElem_range]
  refine ⟨rfl, fun j _ => ⟨?_, drawnAs_measured _ measure j⟩⟩
  show t.times j = _
  simp [TimeBasis.times, TimeBasis.fundamentalDt, TimeBasis.fundamentalN, TimeBasis.ntPoints]

/-- **C129.** Rows drawn on top of each other against frequency, for times with step one or offset zero: line `b` is the transform of the sum of the rows
up to `b`. -/
theorem C129_split_frequency_partial (bands : ℕ) (t : TimeBasis) (hn : 0 < t.n) (hstep : 0 < t.step) (h : t.step = 1 ∨ t.offset = 0) (hT : t.deltaT ≠ 0)
    (data : ℕ → ℂ) (measure : Measure) :
    ∃ lines, plotSplitAgainstFrequency bands t data measure = some lines ∧ lines.length = bands ∧
      ∀ b line, lines[b]? = some line → line.n = t.n ∧ ∀ i < t.n,
        line.coordinates i = (((i : ℤ) - (t.n : ℤ) / 2 : ℤ) : ℝ) / t.deltaT ∧
        DrawnAs measure (timeTransform t.n (fun j => t.deltaT * ((t.offset : ℝ) + j * t.step) / (t.n * t.step))
          (fun j => ∑ c ∈ range (b + 1), data (c * t.n + j)) (line.coordinates i)) (line.values i) := by
  refine ⟨(List.range bands).map fun b => ⟨t.n, frequencyCoordinates t,
    getMeasuredData (fun j => ∑ c ∈ range (b + 1), frequencyData t (fun i => data (c * t.n + i)) j) measure⟩,
    by
      unfold plotSplitAgainstFrequency
      rw [if_neg hn.ne']
      exact mapM_some_map _ _ _ fun b _ => rfl, by simp, fun b line hl => ?_⟩
  rw [List.getElem?_map] at hl
  obtain ⟨b', hb', rfl⟩ := Option.map_eq_some_iff.1 hl
  obtain ⟨hlt, rfl⟩ := List.getElem?_eq_some_iff.1 hb'
  rw [List.getElem_range]
  refine ⟨rfl, fun i hi => ⟨frequencyCoordinates_at t hn hi, ?_⟩⟩
  obtain ⟨h1, h2⟩ := onGrid_position hi
  have hm := drawnAs_measured (fun j => ∑ c ∈ range (b + 1), frequencyData t (fun i => data (c * t.n + i)) j) measure i
  have hsum : ∑ c ∈ range (b + 1), frequencyData t (fun i => data (c * t.n + i)) i =
      phase t.n (-(((i : ℤ) - (t.n : ℤ) / 2) * t.offset)) * bareTransform t.n (fun j => ∑ c ∈ range (b + 1), data (c * t.n + j))
        ((i : ℤ) - (t.n : ℤ) / 2) := by
    unfold bareTransform
    simp only [sum_mul]
    rw [sum_comm, mul_sum]
    refine sum_congr rfl fun c _ => ?_
    have := frequencyData_at t hn (fun i => data (c * t.n + i)) h1
    rw [h2] at this
    rw [this]
    rfl
  rw [hsum] at hm
  show DrawnAs measure (timeTransform _ _ _ (frequencyCoordinates t i)) _
  rw [frequencyCoordinates_at t hn hi, timeTransform_eq t.n t.step hn hstep t.offset t.deltaT hT]
  convert hm using 2
  unfold phase
  rcases h with h | h
  · rw [h]
    congr 1
    push_cast
    ring
  · rw [h]
    simp

/-- **C129.** All rows drawn against time: one line for each row. -/
theorem C129_all (rows : ℕ) (t : TimeBasis) (data : ℕ → ℂ) (measure : Measure) :
    ∃ lines, plotAllAgainstTime rows t data measure = some lines ∧ lines.length = rows ∧
      ∀ r line, lines[r]? = some line → line.n = t.n ∧ ∀ j < t.n,
        line.coordinates j = t.deltaT / (t.n * t.step : ℕ) * ((t.offset : ℝ) + j * t.step) ∧
        DrawnAs measure (data (r * t.n + j)) (line.values j) := by
  refine ⟨(List.range rows).map fun r => ⟨t.n, t.times, getMeasuredData (fun j => data (r * t.n + j)) measure⟩,
    mapM_some_map _ _ _ fun b _ => rfl, by simp, fun b line hl => ?_⟩
  rw [List.getElem?_map] at hl
  obtain ⟨b', hb', rfl⟩ := Option.map_eq_some_iff.1 hl
  obtain ⟨hlt, rfl⟩ := List.getElem?_eq_some_iff.1 hb'
  rw [List.getElem_range]
  refine ⟨rfl, fun j _ => ⟨?_, drawnAs_measured (fun j => data (b * t.n + j)) measure j⟩⟩
  show t.times j = _
  simp [TimeBasis.times, TimeBasis.fundamentalDt, TimeBasis.fundamentalN, TimeBasis.ntPoints]

/-- **C129.** The average over the rows of the real part or of the absolute value: the line is the mean, and the area around it has the half width `s` with
`s² rows²` the sum of the squared deviations from the mean (the standard error). -/
theorem C129_average_partial (rows : ℕ) (hr : 0 < rows) (t : TimeBasis) (data : ℕ → ℂ) (measure : Measure) (x : ℕ → ℝ)
    (hx : measure = .real ∧ (x = fun i => (data i).re) ∨ measure = .abs ∧ (x = fun i => ‖data i‖)) :
    ∃ b, plotAverageAgainstTime rows t data measure = some b ∧ b.line.n = t.n ∧ ∀ j < t.n,
      b.line.coordinates j = t.deltaT / (t.n * t.step : ℕ) * ((t.offset : ℝ) + j * t.step) ∧
      rows * b.line.values j = ∑ r ∈ range rows, x (r * t.n + j) ∧
      ∃ s, 0 ≤ s ∧ b.lower j = b.line.values j - s ∧ b.upper j = b.line.values j + s ∧
        s ^ 2 * rows ^ 2 = ∑ r ∈ range rows, (x (r * t.n + j) - b.line.values j) ^ 2 := by
  have hr0 : (0 : ℝ) < rows := by exact_mod_cast hr
  have hmx : ∀ i, getMeasuredData data measure i = x i := by
    intro i
    rcases hx with ⟨rfl, rfl⟩ | ⟨rfl, rfl⟩ <;> rfl
  set average : ℕ → ℝ := fun j => (∑ r ∈ range rows, getMeasuredData data measure (r * t.n + j)) / rows with hav
  set std : ℕ → ℝ := fun j => Real.sqrt ((∑ r ∈ range rows, (getMeasuredData data measure (r * t.n + j) - average j) ^ 2) / rows) / Real.sqrt rows with hstd
  have hval : ∀ j, getMeasuredData (fun j => (average j : ℂ)) measure j = average j := by
    intro j
    rcases hx with ⟨rfl, rfl⟩ | ⟨rfl, rfl⟩
    · exact Complex.ofReal_re _
    · show ‖(average j : ℂ)‖ = _
      rw [Complex.norm_real, Real.norm_eq_abs, abs_of_nonneg]
      exact div_nonneg (sum_nonneg fun r _ => norm_nonneg _) hr0.le
  refine ⟨⟨⟨t.n, t.times, getMeasuredData (fun j => (average j : ℂ)) measure⟩, fun j => average j - std j, fun j => average j + std j⟩, ?_, rfl,
    fun j _ => ⟨?_, ?_, std j, by positivity, ?_, ?_, ?_⟩⟩
  · unfold plotAverageAgainstTime
    rw [if_neg hr.ne']
    rfl
  · show t.times j = _
    simp [TimeBasis.times, TimeBasis.fundamentalDt, TimeBasis.fundamentalN, TimeBasis.ntPoints]
  · show rows * getMeasuredData (fun j => (average j : ℂ)) measure j = _
    rw [hval, hav]
    dsimp only
    rw [mul_div_cancel₀ _ hr0.ne']
    exact sum_congr rfl fun r _ => hmx _
  · show average j - std j = getMeasuredData (fun j => (average j : ℂ)) measure j - std j
    rw [hval]
  · show average j + std j = getMeasuredData (fun j => (average j : ℂ)) measure j + std j
    rw [hval]
  · show std j ^ 2 * rows ^ 2 = ∑ r ∈ range rows, (x (r * t.n + j) - getMeasuredData (fun j => (average j : ℂ)) measure j) ^ 2
    rw [hval, hstd]
    dsimp only
    have hs : 0 ≤ (∑ r ∈ range rows, (getMeasuredData data measure (r * t.n + j) - average j) ^ 2) / rows :=
      div_nonneg (sum_nonneg fun r _ => sq_nonneg _) hr0.le
    rw [div_pow, Real.sq_sqrt hs, Real.sq_sqrt hr0.le, sum_congr rfl fun r _ => (by rw [hmx] : _ = (x (r * t.n + j) - average j) ^ 2)]
    field_simp

/-- **C129** (negation). The average over the rows of the imaginary part is drawn as zero, whatever the values are: it is measured twice. -/
theorem C129_average_negation (rows : ℕ) (hr : 0 < rows) (t : TimeBasis) (data : ℕ → ℂ) :
    ∃ b, plotAverageAgainstTime rows t data .imag = some b ∧ ∀ j, b.line.values j = 0 := by
  unfold plotAverageAgainstTime
  rw [if_neg hr.ne']
  refine ⟨_, rfl, fun j => ?_⟩
  exact Complex.ofReal_im ((∑ r ∈ range rows, getMeasuredData data .imag (r * t.n + j)) / rows)

/-- Values at four times with an offset: the hypotheses of the theorems hold. -/
example : 0 < (⟨4, 1, 1, 2⟩ : TimeBasis).n ∧ 0 < (⟨4, 1, 1, 2⟩ : TimeBasis).step ∧
    ((⟨4, 1, 1, 2⟩ : TimeBasis).step = 1 ∨ (⟨4, 1, 1, 2⟩ : TimeBasis).offset = 0) ∧ (⟨4, 1, 1, 2⟩ : TimeBasis).deltaT ≠ 0 := by
  refine ⟨by decide, by decide, Or.inl rfl, ?_⟩
  show (2 : ℝ) ≠ 0
  norm_num

/-- Two rows with one value each, `i` and `3 i`: the mean of the imaginary part is 2, but zero is drawn. -/
example : ∃ b, plotAverageAgainstTime 2 ⟨1, 1, 0, 1⟩ (fun i => if i = 0 then Complex.I else 3 * Complex.I) .imag = some b ∧ b.line.values 0 = 0 :=
  let ⟨b, h, hz⟩ := C129_average_negation 2 (by decide) ⟨1, 1, 0, 1⟩ fun i => if i = 0 then Complex.I else 3 * Complex.I
  ⟨b, h, hz 0⟩

end Verif
