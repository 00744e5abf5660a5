import Verif.Model.PlotTrajectories
import Verif.Props.C101_Trajectory
import Verif.Props.C105_Spread
import Verif.Props.C117_Projection
import Verif.Props.C129_ValueLists

/-!
C159: averages along trajectories and widths of states, as they are drawn.
-/

set_option autoImplicit false

namespace Verif

open Finset

namespace Spec

/-- The positions `x r i` along a lattice vector of length `L` are those of the states `i` of the trajectories `r`: each is the phase of the mean of the periodic position,
the first one is in the centred cell, and successive ones are less than half a cell apart. -/
def Follows (n : ℕ) (L : ℝ) (b : Basis) (data : ℕ → ℂ) (rows nt : ℕ) (x : ℕ → ℕ → ℝ) : Prop :=
  ∀ r < rows, (∀ i < nt, ∃ ρ : ℝ, 0 < ρ ∧ circularMean n (weights b data (r * nt + i)) = ρ * Complex.exp (2 * Real.pi * Complex.I * (x r i / L : ℝ))) ∧
    (-(L / 2) < x r 0 ∧ x r 0 ≤ L / 2) ∧ ∀ i, i + 1 < nt → |x r (i + 1) - x r i| < L / 2

/-- The band is the mean over the `rows` rows of `y r j`, where `j` counts time steps from zero, with the standard error of the mean on both sides. -/
def IsAverage (rows : ℕ) (t : TimeBasis) (y : ℕ → ℕ → ℝ) (b : DrawnBand) : Prop :=
  b.line.n = t.n ∧ ∀ j < t.n, b.line.coordinates j = t.deltaT / t.n * j ∧ rows * b.line.values j = ∑ r ∈ range rows, y r j ∧
    ∃ s, 0 ≤ s ∧ b.lower j = b.line.values j - s ∧ b.upper j = b.line.values j + s ∧
      s ^ 2 * rows ^ 2 = ∑ r ∈ range rows, (y r j - b.line.values j) ^ 2

end Spec

open Spec

theorem restored_follows (same : Basis → Basis → Bool) (hs : Sound same) (n : ℕ) (b : Basis) (hb : Valid b) (hob : OrthonormalParts b)
    (hshape : b.fundamentalShape = [n]) (A : Matrix (Fin 1) (Fin 1) ℝ) (hL : 0 < A 0 0) (lb : Basis) (data : ℕ → ℂ) (rows nt : ℕ) (x : ℕ → ℕ → ℝ)
    (h : Follows n (A 0 0) b data rows nt x) :
    ∃ f, getRestoredX same A nt ⟨lb, b, data⟩ 0 = some f ∧ ∀ r < rows, ∀ i < nt, f (r * nt + i) = x r i := by
  obtain ⟨f, hf, -⟩ := restoredX_one same hs n b hb hob hshape A lb data nt
  refine ⟨f, hf, fun r hr i hi => ?_⟩
  obtain ⟨h1, h2, h3⟩ := h r hr
  have hex : ∀ i, ∃ ρ : ℝ, 0 < ρ ∧ (i < nt → circularMean n (weights b data (r * nt + i)) =
      ρ * Complex.exp (2 * Real.pi * Complex.I * (x r i / A 0 0 : ℝ))) := by
    intro i
    by_cases hi : i < nt
    · obtain ⟨ρ, p, q⟩ := h1 i hi
      exact ⟨ρ, p, fun _ => q⟩
    · exact ⟨1, one_pos, fun h => absurd h hi⟩
  choose ρ hρ hx using hex
  obtain ⟨f', hf', k⟩ := C104_followed_partial same hs n b hb hob hshape A hL lb data nt r (x r) ρ hρ (fun i hi => hx i hi) h2 h3
  rw [hf] at hf'
  cases hf'
  exact k i hi

theorem average_lag (rows : ℕ) (hr : 0 < rows) (t : TimeBasis) (hstep : 0 < t.step) (data : ℕ → ℂ) (measure : Measure) (y : ℕ → ℕ → ℝ)
    (hy : measure = .real ∧ (∀ r < rows, ∀ j < t.n, y r j = (data (r * t.n + j)).re) ∨
      measure = .abs ∧ ∀ r < rows, ∀ j < t.n, y r j = ‖data (r * t.n + j)‖) :
    ∃ b, plotAverageAgainstTime rows (lagBasis t) data measure = some b ∧ IsAverage rows t y b := by
  have key : ∀ x : ℕ → ℝ, (measure = .real ∧ (x = fun i => (data i).re) ∨ measure = .abs ∧ (x = fun i => ‖data i‖)) →
      (∀ r < rows, ∀ j < t.n, y r j = x (r * t.n + j)) →
      ∃ b, plotAverageAgainstTime rows (lagBasis t) data measure = some b ∧ IsAverage rows t y b := by
    intro x hx hxy
    obtain ⟨b, h1, h2, h3⟩ := C129_average_partial rows hr (lagBasis t) data measure x hx
    refine ⟨b, h1, h2, fun j hj => ?_⟩
    obtain ⟨c1, c2, s, c3, c4, c5, c6⟩ := h3 j hj
    have hn : (t.n : ℝ) ≠ 0 := by exact_mod_cast (by omega : t.n ≠ 0)
    have hst : (t.step : ℝ) ≠ 0 := by exact_mod_cast hstep.ne'
    refine ⟨?_, ?_, s, c3, c4, c5, ?_⟩
    · rw [c1]
      simp only [lagBasis, TimeBasis.dt, TimeBasis.fundamentalDt, TimeBasis.fundamentalN]
      push_cast
      field_simp
      ring
    · rw [c2]
      exact sum_congr rfl fun r hr => (hxy r (mem_range.1 hr) j hj).symm
    · rw [c6]
      exact sum_congr rfl fun r hr => by rw [hxy r (mem_range.1 hr) j hj]; rfl
  rcases hy with ⟨h1, h2⟩ | ⟨h1, h2⟩
  · exact key _ (Or.inl ⟨h1, rfl⟩) h2
  · exact key _ (Or.inr ⟨h1, rfl⟩) h2

/-- **C159** (one axis). `plot_average_displacement_1d_x` draws, against the time `τ` between two samples, the mean over the trajectories of the mean squared distance between the
positions at all pairs of times `τ` apart, with its standard error. The positions are those of the states, followed across the boundary of the cell. What is missing are bases
with several axes, see `C159_negation`. -/
theorem C159_displacement_partial (same : Basis → Basis → Bool) (hs : Sound same) (n : ℕ) (b : Basis) (hb : Valid b) (hob : OrthonormalParts b)
    (hshape : b.fundamentalShape = [n]) (A : Matrix (Fin 1) (Fin 1) ℝ) (hL : 0 < A 0 0) (lb : Basis) (data : ℕ → ℂ) (rows : ℕ) (hr : 0 < rows)
    (t : TimeBasis) (hstep : 0 < t.step) (x : ℕ → ℕ → ℝ) (hx : Follows n (A 0 0) b data rows t.n x) (measure : Measure)
    (hm : measure = .real ∨ measure = .abs) :
    ∃ band, plotAverageDisplacementX same A rows t ⟨lb, b, data⟩ 0 measure = some band ∧
      IsAverage rows t (fun r j => (∑ i ∈ range (t.n - j), (x r (i + j) - x r i) ^ 2) / ((t.n - j : ℕ) : ℝ)) band := by
  obtain ⟨f, hf, k⟩ := restored_follows same hs n b hb hob hshape A hL lb data rows t.n x hx
  have key : ∀ r < rows, ∀ j < t.n, (∑ i ∈ range (t.n - j), (x r (i + j) - x r i) ^ 2) / ((t.n - j : ℕ) : ℝ) =
      (getAverageDisplacements t f).2 (r * t.n + j) := by
    intro r hr j hj
    rw [(C101_displacement t hstep f r j hj).1]
    congr 1
    refine sum_congr rfl fun i hi => ?_
    rw [mem_range] at hi
    rw [k r hr (i + j) (by omega), k r hr i (by omega)]
  unfold plotAverageDisplacementX
  rw [hf, Option.bind_some]
  refine average_lag rows hr t hstep _ measure _ ?_
  rcases hm with rfl | rfl
  · exact Or.inl ⟨rfl, fun r hr j hj => key r hr j hj⟩
  · refine Or.inr ⟨rfl, fun r hr j hj => ?_⟩
    have h0 : 0 ≤ (∑ i ∈ range (t.n - j), (x r (i + j) - x r i) ^ 2) / ((t.n - j : ℕ) : ℝ) :=
      div_nonneg (sum_nonneg fun i _ => sq_nonneg _) (Nat.cast_nonneg _)
    show _ = ‖(((getAverageDisplacements t f).2 (r * t.n + j) : ℝ) : ℂ)‖
    rw [Complex.norm_real, ← key r hr j hj, Real.norm_of_nonneg h0]

/-- **C159** (one axis). `plot_average_isf_1d_x` draws the mean over the trajectories of the real part of the scattering function of each, or of its absolute value: the absolute
value is not that of the mean. -/
theorem C159_isf_partial (same : Basis → Basis → Bool) (hs : Sound same) (n : ℕ) (b : Basis) (hb : Valid b) (hob : OrthonormalParts b)
    (hshape : b.fundamentalShape = [n]) (A : Matrix (Fin 1) (Fin 1) ℝ) (hL : 0 < A 0 0) (lb : Basis) (data : ℕ → ℂ) (rows : ℕ) (hr : 0 < rows)
    (t : TimeBasis) (hstep : 0 < t.step) (x : ℕ → ℕ → ℝ) (hx : Follows n (A 0 0) b data rows t.n x) (κ : ℝ) :
    (∃ band, plotAverageIsfX same A rows t ⟨lb, b, data⟩ κ 0 .real = some band ∧
      IsAverage rows t (fun r j => (∑ i ∈ range (t.n - j), Real.cos (κ * (x r (i + j) - x r i))) / ((t.n - j : ℕ) : ℝ)) band) ∧
    ∃ band, plotAverageIsfX same A rows t ⟨lb, b, data⟩ κ 0 .abs = some band ∧
      IsAverage rows t (fun r j => ‖(∑ i ∈ range (t.n - j), Complex.exp (Complex.I * (κ * (x r (i + j) - x r i) : ℝ))) / ((t.n - j : ℕ) : ℂ)‖) band := by
  obtain ⟨f, hf, k⟩ := restored_follows same hs n b hb hob hshape A hL lb data rows t.n x hx
  have key : ∀ r < rows, ∀ j < t.n, scatteringMean t.n (fun i => f (r * t.n + i)) κ j =
      (∑ i ∈ range (t.n - j), Complex.exp (Complex.I * (κ * (x r (i + j) - x r i) : ℝ))) / ((t.n - j : ℕ) : ℂ) := by
    intro r hr j hj
    unfold scatteringMean
    congr 1
    refine sum_congr rfl fun i hi => ?_
    rw [mem_range] at hi
    beta_reduce
    rw [k r hr (i + j) (by omega), k r hr i (by omega)]
  unfold plotAverageIsfX
  rw [hf, Option.bind_some, Option.bind_some]
  constructor
  · refine average_lag rows hr t hstep _ .real _ (Or.inl ⟨rfl, fun r hr j hj => ?_⟩)
    rw [(C102_isf_partial t hstep f κ r j hj).2.1, key r hr j hj, ← Complex.ofReal_natCast, Complex.div_ofReal_re, Complex.re_sum]
    congr 1
    refine sum_congr rfl fun i _ => ?_
    rw [mul_comm Complex.I, Complex.exp_ofReal_mul_I_re]
  · refine average_lag rows hr t hstep _ .abs _ (Or.inr ⟨rfl, fun r hr j hj => ?_⟩)
    rw [(C102_isf_partial t hstep f κ r j hj).1, key r hr j hj, Complex.norm_conj]

/-- **C159** (one axis). `plot_average_drift_1d_x` draws the mean over the trajectories of minus the total displacement over the sum of the inverse momenta: the drift of C103, with
the defects of `C103_drift_negation`. -/
theorem C159_drift_partial (same : Basis → Basis → Bool) (hs : Sound same) (n : ℕ) (b : Basis) (hb : Valid b) (hob : OrthonormalParts b)
    (hshape : b.fundamentalShape = [n]) (A : Matrix (Fin 1) (Fin 1) ℝ) (hL : 0 < A 0 0) (lb : Basis) (data : ℕ → ℂ) (rows : ℕ) (hr : 0 < rows)
    (t : TimeBasis) (hstep : 0 < t.step) (x : ℕ → ℕ → ℝ) (hx : Follows n (A 0 0) b data rows t.n x) :
    ∃ band, plotAverageDriftX same A rows t ⟨lb, b, data⟩ 0 .real = some band ∧
      IsAverage rows t (fun r j => -(∑ i ∈ range (t.n - j), (x r (i + j) - x r i)) / ∑ i ∈ range (t.n - j),
        1 / ∑ q ∈ range n, (2 * Real.pi / A 0 0 * freq n q) * ‖dot n (planeWave n (freq n q)) (expand b (block (size b) data (r * t.n + i)))‖ ^ 2) band := by
  obtain ⟨f, hf, k⟩ := restored_follows same hs n b hb hob hshape A hL lb data rows t.n x hx
  obtain ⟨κ, hκ, k1⟩ := C106_k_partial same hs n b hb hob hshape A hL.ne' lb data
  unfold plotAverageDriftX
  rw [hf, Option.bind_some, hκ, Option.bind_some]
  refine average_lag rows hr t hstep _ .real _ (Or.inl ⟨rfl, fun r hr j hj => ?_⟩)
  show _ = (getNormalizedAverageDrift t f fun i => (κ i).re).2 (r * t.n + j)
  rw [(C103_drift_partial t f (fun i => (κ i).re) r j hj).1]
  congr 1
  · congr 1
    refine sum_congr rfl fun i hi => ?_
    rw [mem_range] at hi
    rw [k r hr (i + j) (by omega), k r hr i (by omega)]
  · refine sum_congr rfl fun i _ => ?_
    rw [k1, Complex.ofReal_re]

/-- **C159** (one axis). `plot_averaged_occupation_1d_k` draws one line for each trajectory, of the expectation of the momentum against time. -/
theorem C159_momentum_partial (same : Basis → Basis → Bool) (hs : Sound same) (n : ℕ) (b : Basis) (hb : Valid b) (hob : OrthonormalParts b)
    (hshape : b.fundamentalShape = [n]) (A : Matrix (Fin 1) (Fin 1) ℝ) (hL : A 0 0 ≠ 0) (lb : Basis) (data : ℕ → ℂ) (rows : ℕ) (t : TimeBasis) :
    ∃ lines, plotAveragedOccupationK same A rows t ⟨lb, b, data⟩ 0 .real = some lines ∧ lines.length = rows ∧
      ∀ r line, lines[r]? = some line → line.n = t.n ∧ ∀ j < t.n,
        line.coordinates j = t.deltaT / (t.n * t.step : ℕ) * ((t.offset : ℝ) + j * t.step) ∧
        line.values j = ∑ q ∈ range n, (2 * Real.pi / A 0 0 * freq n q) *
          ‖dot n (planeWave n (freq n q)) (expand b (block (size b) data (r * t.n + j)))‖ ^ 2 := by
  obtain ⟨κ, hκ, k1⟩ := C106_k_partial same hs n b hb hob hshape A hL lb data
  obtain ⟨lines, h1, h2, h3⟩ := C129_all rows t κ .real
  refine ⟨lines, by unfold plotAveragedOccupationK; rw [hκ, Option.bind_some, h1], h2, fun r line hl => ?_⟩
  obtain ⟨h4, h5⟩ := h3 r line hl
  refine ⟨h4, fun j hj => ⟨(h5 j hj).1, (h5 j hj).2.trans ?_⟩⟩
  rw [k1, Complex.ofReal_re]

/-- **C159** (one axis). `plot_spread_against_k` and `plot_spread_against_x` draw one point for each state, in their order: the same width `σ i` (see C105) against the expectation of
the momentum in the normalised state, and against the position in the cell. -/
theorem C159_spread_partial (same : Basis → Basis → Bool) (hs : Sound same) (n : ℕ) (b : Basis) (hb : Valid b) (hob : OrthonormalParts b)
    (hshape : b.fundamentalShape = [n]) (A : Matrix (Fin 1) (Fin 1) ℝ) (hL : 0 < A 0 0) (lb : Basis) (data : ℕ → ℂ) :
    ∃ against_k against_x, plotSpreadAgainstK same A ⟨lb, b, data⟩ 0 = some against_k ∧ plotSpreadAgainstX same A ⟨lb, b, data⟩ 0 = some against_x ∧
      against_k.n = size lb ∧ against_x.n = size lb ∧ ∀ i, (∃ j < size b, block (size b) data i j ≠ 0) →
        against_x.values i = against_k.values i ∧ 0 ≤ against_k.values i ∧ 0 ≤ against_x.coordinates i ∧ against_x.coordinates i < A 0 0 ∧
        (circularMean n (weights b data i) ≠ 0 → circularMean n (weights b data i) =
          (∑ p ∈ range n, weights b data i p) * Real.exp (-(against_k.values i ^ 2 * (2 * Real.pi / A 0 0) ^ 2) / 4) *
            Complex.exp (2 * Real.pi * Complex.I * (against_x.coordinates i / A 0 0 : ℝ))) ∧
        against_k.coordinates i * ∑ p ∈ range n, weights b data i p = ∑ j ∈ range n, (2 * Real.pi / A 0 0 * freq n j) *
            ‖dot n (planeWave n (freq n j)) (expand b (block (size b) data i))‖ ^ 2 := by
  obtain ⟨x0, k0, σ, l, h, hlb, hll, key⟩ := C106_coherent_partial same hs n b hb hob hshape A hL lb data
  unfold getCoherentCoordinates at h
  obtain ⟨spread, e1, h⟩ := Option.bind_eq_some_iff.1 h
  obtain ⟨x, e2, h⟩ := Option.bind_eq_some_iff.1 h
  obtain ⟨k, e3, h⟩ := Option.map_eq_some_iff.1 h
  obtain ⟨rfl, rfl, rfl, rfl⟩ : x.2 = x0 ∧ k = k0 ∧ spread.1 = σ ∧ spread.2 = l := by simpa [Prod.ext_iff] using h
  have hx1 : x.1 = size lb := by
    have : spread.2 = ⟨lb, b, spread.2.data⟩ := by rw [← hlb, ← hll]
    rw [this] at e2
    obtain ⟨avg, ha, -⟩ := C104_average_partial same hs n b hb hob hshape A hL lb spread.2.data
    rw [ha] at e2
    cases e2
    rfl
  refine ⟨⟨size lb, fun i => (k i).re, spread.1⟩, ⟨size lb, x.2, spread.1⟩, ?_, ?_, rfl, rfl, fun i hi => ?_⟩
  · unfold plotSpreadAgainstK
    rw [e1, Option.bind_some, e3, Option.map_some, Basis.n_eq]
  · unfold plotSpreadAgainstX
    rw [e1, Option.bind_some, e2, Option.bind_some, Basis.n_eq, if_pos hx1]
  · obtain ⟨⟨c, hc, hcd, hone, hk⟩, hx0, hx2, hσ, hcirc⟩ := key i hi
    have hexp : ∀ p, expand b (block (size b) data i) p = c * expand b (block (size b) spread.2.data i) p :=
      expand_smul b c _ _ hcd
    have hw : ∀ p, weights b data i p = c ^ 2 * weights b spread.2.data i p := by
      intro p
      unfold weights
      rw [hexp, norm_mul, Complex.norm_real, Real.norm_of_nonneg hc.le, mul_pow]
    have hsum : ∑ p ∈ range n, weights b data i p = c ^ 2 := by
      rw [sum_congr rfl fun p _ => hw p, ← mul_sum, hone, mul_one]
    have hmean : circularMean n (weights b data i) = (c : ℂ) ^ 2 * circularMean n (weights b spread.2.data i) := by
      unfold circularMean
      rw [mul_sum]
      refine sum_congr rfl fun p _ => ?_
      rw [hw]
      push_cast
      ring
    refine ⟨rfl, hσ, hx0, hx2, fun hne => ?_, ?_⟩
    · rw [hmean] at hne
      rw [hmean, hcirc (right_ne_zero_of_mul hne), hsum]
      push_cast
      ring
    · show (k i).re * _ = _
      rw [hk, Complex.ofReal_re, hsum, sum_mul]
      refine sum_congr rfl fun j _ => ?_
      have hd : dot n (planeWave n (freq n j)) (expand b (block (size b) data i)) =
          c * dot n (planeWave n (freq n j)) (expand b (block (size b) spread.2.data i)) := by
        unfold dot
        rw [mul_sum]
        exact sum_congr rfl fun p _ => by rw [hexp]; ring
      rw [hd, norm_mul, Complex.norm_real, Real.norm_of_nonneg hc.le]
      ring

/-- **C159** (one axis). `plot_periodic_x_distribution_1d` is the histogram of `plot_value_list_distribution` (see C156) of the positions of the states in the cell. -/
theorem C159_distribution_partial (same : Basis → Basis → Bool) (hs : Sound same) (n : ℕ) (b : Basis) (hb : Valid b) (hob : OrthonormalParts b)
    (hshape : b.fundamentalShape = [n]) (A : Matrix (Fin 1) (Fin 1) ℝ) (hL : 0 < A 0 0) (lb : Basis) (data : ℕ → ℂ) :
    ∃ x : ℕ → ℝ, (∀ i, 0 ≤ x i ∧ x i < A 0 0 ∧ circularMean n (weights b data i) = ‖circularMean n (weights b data i)‖ *
        Complex.exp (2 * Real.pi * Complex.I * (x i / A 0 0 : ℝ))) ∧ ∀ measure, measure = .real ∨ measure = .abs →
      plotPeriodicXDistribution same A ⟨lb, b, data⟩ 0 measure = (plotValueDistribution (size lb) x false).map Prod.fst := by
  obtain ⟨avg, ha, k⟩ := C104_average_partial same hs n b hb hob hshape A hL lb data
  refine ⟨avg, k, fun measure hm => ?_⟩
  unfold plotPeriodicXDistribution
  rw [ha, Option.bind_some]
  congr 2
  funext i
  rcases hm with rfl | rfl
  · exact Complex.ofReal_re _
  · show ‖((avg i : ℝ) : ℂ)‖ = _
    rw [Complex.norm_real, Real.norm_of_nonneg (k i).1]

/-- **C159.** `plot_value_list_against_momentum` draws the measured values against the momenta of the basis, with the given standard deviations as error bars. -/
theorem C159_values (b : MomentumBasis) (data : ℕ → ℂ) (deviation : Option (ℕ → ℝ)) (measure : Measure) :
    ∃ line, plotAgainstMomentum b data deviation measure = some (line, deviation) ∧ line.n = b.n ∧ line.coordinates = b.kPoints ∧
      ∀ i < b.n, DrawnAs measure (data i) (line.values i) :=
  ⟨⟨b.n, b.kPoints, getMeasuredData data measure⟩, rfl, rfl, rfl, fun i _ => drawnAs_measured data measure i⟩

/-- **C159** (negation). With two or more axes the plots of displacements, drifts and scattering functions raise, unless there is one time or as many times as axes. -/
theorem C159_negation {d : ℕ} [NeZero d] (hd : 2 ≤ d) (same : Basis → Basis → Bool) (A : Matrix (Fin d) (Fin d) ℝ) (rows : ℕ) (t : TimeBasis) (h1 : t.n ≠ 1)
    (h2 : t.n ≠ d) (l : StateVectorList) (axis : Fin d) (κ : ℝ) (measure : Measure) :
    plotAverageDisplacementX same A rows t l axis measure = none ∧ plotAverageDriftX same A rows t l axis measure = none ∧
      plotAverageIsfX same A rows t l κ axis measure = none := by
  have h : getRestoredX same A t.n l axis = none := by
    unfold getRestoredX
    cases getPeriodicX same l (some (axisDirection d axis)) with
    | none => rfl
    | some z =>
      rw [Option.bind_some]
      simp [mulBroadcast, List.length_ofFn, show d ≠ 1 by omega, h1, h2]
  unfold plotAverageDisplacementX plotAverageDriftX plotAverageIsfX
  rw [h]
  exact ⟨rfl, rfl, rfl⟩

/-- A particle on four points moves by one point at each of five time steps, across the boundary of the cell. -/
example : Follows 4 4 (.fundamental 4) (fun k => if k % 4 = k / 4 % 4 then 1 else 0) 1 6 fun _ i => i := by
  intro r hr
  obtain rfl : r = 0 := by omega
  refine ⟨fun i hi => ⟨1, one_pos, ?_⟩, by norm_num, fun i _ => by push_cast; norm_num⟩
  have h : circularMean 4 (weights (.fundamental 4) (fun k => if k % 4 = k / 4 % 4 then 1 else 0) (0 * 6 + i)) =
      Complex.exp (2 * Real.pi * Complex.I * ((i % 4 : ℕ) : ℂ) / 4) := by
    interval_cases i <;> simp [circularMean, weights, expand, block, size, state, Finset.sum_range_succ]
  rw [h, Complex.ofReal_one, one_mul, Complex.exp_eq_exp_iff_exists_int]
  obtain ⟨m, hm⟩ : ∃ m, m = i / 4 := ⟨_, rfl⟩
  refine ⟨-(m : ℤ), ?_⟩
  have h4 : (i : ℂ) = 4 * (m : ℂ) + ((i % 4 : ℕ) : ℂ) := by rw [hm]; exact_mod_cast (Nat.div_add_mod i 4).symm
  push_cast
  rw [h4]
  ring

end Verif
