import Verif.Model.PlotIsf
import Verif.Props.C42_Isf
import Verif.Props.C128_Occupations
import Verif.Props.C129_ValueLists

/-!
C160: scattering functions drawn against time, and rates against temperature.
-/

set_option autoImplicit false

namespace Verif

open Finset

namespace Spec

/-- A curve drawn at the given times, from the first to the last one and from `0` to slightly above one, without error bars: `f` is the value at each time. -/
def IsCurve (n : ℕ) (times : ℕ → ℝ) (f : ℝ → ℝ) (s : DrawnSeries) : Prop :=
  s.line.n = n ∧ (∀ i < n, s.line.coordinates i = times i ∧ s.line.values i = f (times i)) ∧ s.deviation = none ∧
    s.xLimits = (times 0, times (n - 1)) ∧ s.yLimits = some (0, 101 / 100)

end Spec

open Spec

theorem plotIsf_curve (n : ℕ) (hn : 0 < n) (times : ℕ → ℝ) (f g : ℝ → ℝ) (measure : Measure)
    (h : measure = .real ∧ (∀ i < n, g (times i) = f (times i)) ∨ measure = .abs ∧ ∀ i < n, |g (times i)| = f (times i)) :
    ∃ s, plotIsfAgainstTime (fitBasis n times) (fun i => ((g (times i) : ℝ) : ℂ)) none measure = some s ∧ IsCurve n times f s := by
  refine ⟨⟨⟨n, times, getMeasuredData (fun i => ((g (times i) : ℝ) : ℂ)) measure⟩, none, (times 0, times (n - 1)), some (0, 1.01)⟩, ?_, rfl,
    fun i hi => ⟨rfl, ?_⟩, rfl, rfl, by norm_num⟩
  · simp [plotIsfAgainstTime, plotEigenvalueAgainstTime, fitBasis, TimeArgument.get, TimeArgument.timesOf, hn.ne']
  · rcases h with ⟨rfl, h⟩ | ⟨rfl, h⟩
    · exact h i hi
    · show ‖((g (times i) : ℝ) : ℂ)‖ = _
      rw [Complex.norm_real, Real.norm_eq_abs, h i hi]

/-- **C160.** `plot_eigenvalue_against_time` and `plot_isf_against_time` draw the measured values against the times of the basis, with the given standard deviations, from the first to
the last time; without times they raise. -/
theorem C160_series (n : ℕ) (times : ℕ → ℝ) (b : TimeArgument) (data : ℕ → ℂ) (deviation : Option (ℕ → ℝ)) (measure : Measure) :
    (0 < n → ∃ s s', plotEigenvalueAgainstTime (.tuple [.time n times, b]) data deviation measure = some s ∧
      plotIsfAgainstTime (.tuple [.time n times, b]) data deviation measure = some s' ∧ s'.line = s.line ∧ s'.deviation = deviation ∧ s.deviation = deviation ∧
      s.line.n = n ∧ (∀ i < n, s.line.coordinates i = times i ∧ DrawnAs measure (data i) (s.line.values i)) ∧
      s.xLimits = (times 0, times (n - 1)) ∧ s'.xLimits = s.xLimits ∧ s'.yLimits = some (0, 101 / 100) ∧ s.yLimits = none) ∧
    (n = 0 → plotEigenvalueAgainstTime (.tuple [.time n times, b]) data deviation measure = none) := by
  refine ⟨fun hn => ⟨⟨⟨n, times, getMeasuredData data measure⟩, deviation, (times 0, times (n - 1)), none⟩,
    ⟨⟨n, times, getMeasuredData data measure⟩, deviation, (times 0, times (n - 1)), some (0, 1.01)⟩, ?_, ?_, rfl, rfl, rfl, rfl,
    fun i _ => ⟨rfl, drawnAs_measured data measure i⟩, rfl, rfl, by norm_num, rfl⟩, fun hn => ?_⟩
  · simp [plotEigenvalueAgainstTime, TimeArgument.get, TimeArgument.timesOf, hn.ne']
  · simp [plotIsfAgainstTime, plotEigenvalueAgainstTime, TimeArgument.get, TimeArgument.timesOf, hn.ne']
  · simp [plotEigenvalueAgainstTime, TimeArgument.get, TimeArgument.timesOf, hn]

/-- **C160** (negation). `plot_average_isf_against_time` raises, whatever it is given: it passes on the time axis where a pair of axes is needed. -/
theorem C160_average_negation (rows n : ℕ) (times : ℕ → ℝ) (data : ℕ → ℂ) (measure : Measure) :
    plotAverageIsfAgainstTime rows n times data measure = none := by
  unfold plotAverageIsfAgainstTime
  cases averageAxes [rows, n] [0] data with
  | none => rfl
  | some averaged => rfl

/-- **C160.** A fit of two exponentials is drawn as `a exp(-r t) + b exp(-s t) + c`; when the amplitudes and the baseline are not negative and sum to one and the rates are not negative,
the curve stays within the limits of the picture at all times after zero. -/
theorem C160_four_variable (fit : FourVariableFit) (n : ℕ) (hn : 0 < n) (times : ℕ → ℝ) :
    (∃ s, plotIsfFourVariable fit n times .real = some s ∧
      IsCurve n times (fun t => fit.fastAmplitude * Real.exp (-fit.fastRate * t) + fit.slowAmplitude * Real.exp (-fit.slowRate * t) + fit.baseline) s) ∧
    (0 ≤ fit.fastAmplitude → 0 ≤ fit.slowAmplitude → 0 ≤ fit.baseline → fit.fastAmplitude + fit.slowAmplitude + fit.baseline = 1 →
      0 ≤ fit.fastRate → 0 ≤ fit.slowRate → (∀ i < n, 0 ≤ times i) → ∃ s, plotIsfFourVariable fit n times .abs = some s ∧
        IsCurve n times (fun t => fit.fastAmplitude * Real.exp (-fit.fastRate * t) + fit.slowAmplitude * Real.exp (-fit.slowRate * t) + fit.baseline) s ∧
        ∀ i < n, 0 ≤ s.line.values i ∧ s.line.values i ≤ 1) := by
  refine ⟨plotIsf_curve n hn times (isfOfFourVariableFit fit) (isfOfFourVariableFit fit) .real (Or.inl ⟨rfl, fun _ _ => rfl⟩), fun a b c hsum hf hs ht => ?_⟩
  have h0 : ∀ t, 0 ≤ isfOfFourVariableFit fit t := fun t => by
    unfold isfOfFourVariableFit isfFourVariable
    positivity
  obtain ⟨s, h1, h2⟩ := plotIsf_curve n hn times (isfOfFourVariableFit fit) (isfOfFourVariableFit fit) .abs (Or.inr ⟨rfl, fun i _ => abs_of_nonneg (h0 _)⟩)
  refine ⟨s, h1, h2, fun i hi => ?_⟩
  rw [(h2.2.1 i hi).2]
  refine ⟨h0 _, ?_⟩
  have e1 : Real.exp (-fit.fastRate * times i) ≤ 1 := Real.exp_le_one_iff.2 (by nlinarith [mul_nonneg hf (ht i hi)])
  have e2 : Real.exp (-fit.slowRate * times i) ≤ 1 := Real.exp_le_one_iff.2 (by nlinarith [mul_nonneg hs (ht i hi)])
  unfold isfOfFourVariableFit isfFourVariable
  nlinarith [mul_le_mul_of_nonneg_left e1 a, mul_le_mul_of_nonneg_left e2 b]

/-- **C160.** A fit of the jump model along 110 is drawn as the total Fourier component of the occupations in this model (see C42); it falls from one and stays within the limits of the
picture. -/
theorem C160_fey_110 (fit : FeyFit) (hf : 0 < fit.fastRate) (hs : 0 < fit.slowRate) (hT : 4 * Real.cos (fit.aDk / 2) + 2 ≠ 0) (n : ℕ) (hn : 0 < n) (times : ℕ → ℝ)
    (ht : ∀ i < n, 0 ≤ times i) (measure : Measure) (hm : measure = .real ∨ measure = .abs) :
    ∃ (x y : ℝ → ℂ) (f : ℝ → ℝ) (s : DrawnSeries), TwoSite fit.fastRate fit.slowRate ((1 + 2 * Real.cos (fit.aDk / 2)) / 3 : ℝ) x y ∧ (∀ t, (f t : ℂ) = x t + y t) ∧
      plotIsfFey110 fit n times measure = some s ∧ IsCurve n times f s ∧
      (∀ i < n, 0 ≤ s.line.values i ∧ s.line.values i ≤ 1) ∧ ∀ i < n, ∀ j < n, times i ≤ times j → s.line.values j ≤ s.line.values i := by
  obtain ⟨x, y, h, he⟩ := C42_fey_110 hf hs fit.aDk hT
  obtain ⟨-, hb⟩ := C42_bounds_110 hf hs fit.aDk hT
  obtain ⟨s, h1, h2⟩ := plotIsf_curve n hn times (isfFey110 fit.fastRate fit.slowRate fit.aDk) (isfFey110 fit.fastRate fit.slowRate fit.aDk) measure (by
    rcases hm with rfl | rfl
    · exact Or.inl ⟨rfl, fun _ _ => rfl⟩
    · exact Or.inr ⟨rfl, fun i hi => abs_of_nonneg (hb _ (ht i hi)).1⟩)
  refine ⟨x, y, _, s, h, he, h1, h2, fun i hi => ?_, fun i hi j hj hij => ?_⟩
  · rw [(h2.2.1 i hi).2]
    exact ⟨(hb _ (ht i hi)).1, (hb _ (ht i hi)).2.1⟩
  · rw [(h2.2.1 i hi).2, (h2.2.1 j hj).2]
    exact (hb _ (ht i hi)).2.2 _ hij

/-- **C160.** The same along 112bar. -/
theorem C160_fey_112bar (fit : FeyFit) (hf : 0 < fit.fastRate) (hs : 0 < fit.slowRate) (n : ℕ) (hn : 0 < n) (times : ℕ → ℝ)
    (ht : ∀ i < n, 0 ≤ times i) (measure : Measure) (hm : measure = .real ∨ measure = .abs) :
    ∃ (x y : ℝ → ℂ) (f : ℝ → ℝ) (s : DrawnSeries), TwoSite fit.fastRate fit.slowRate
        ((Complex.exp (Complex.I * fit.aDk / Real.sqrt 3) + 2 * Complex.exp (-Complex.I * fit.aDk / Real.sqrt 12)) / 3) x y ∧ (∀ t, (f t : ℂ) = x t + y t) ∧
      plotIsfFey112bar fit n times measure = some s ∧ IsCurve n times f s ∧
      (∀ i < n, 0 ≤ s.line.values i ∧ s.line.values i ≤ 1) ∧ ∀ i < n, ∀ j < n, times i ≤ times j → s.line.values j ≤ s.line.values i := by
  obtain ⟨x, y, h, he⟩ := C42_fey_112bar hf hs fit.aDk
  obtain ⟨-, hb⟩ := C42_bounds_112bar hf hs fit.aDk
  obtain ⟨s, h1, h2⟩ := plotIsf_curve n hn times (isfFey112bar fit.fastRate fit.slowRate fit.aDk) (isfFey112bar fit.fastRate fit.slowRate fit.aDk) measure (by
    rcases hm with rfl | rfl
    · exact Or.inl ⟨rfl, fun _ _ => rfl⟩
    · exact Or.inr ⟨rfl, fun i hi => abs_of_nonneg (hb _ (ht i hi)).1⟩)
  refine ⟨x, y, _, s, h, he, h1, h2, fun i hi => ?_, fun i hi j hj hij => ?_⟩
  · rw [(h2.2.1 i hi).2]
    exact ⟨(hb _ (ht i hi)).1, (hb _ (ht i hi)).2.1⟩
  · rw [(h2.2.1 i hi).2, (h2.2.1 j hj).2]
    exact (hb _ (ht i hi)).2.2 _ hij

/-- **C160.** A fit with free amplitudes is drawn as two exponentials and a constant, whose rates `r` and `s` are those of the jump model. -/
theorem C160_fey_four_variable (fit : FeyFourVariableFit) (hf : 0 < fit.fastRate) (hs : 0 < fit.slowRate) (n : ℕ) (hn : 0 < n) (times : ℕ → ℝ) :
    ∃ (r s : ℝ) (d : DrawnSeries), r + s = fit.fastRate + fit.slowRate ∧
      r * s = fit.fastRate * fit.slowRate * (1 - ((1 + 2 * Real.cos (fit.aDk / 2)) / 3) ^ 2) ∧ s ≤ r ∧ plotIsfFeyFourVariable fit n times .real = some d ∧
      IsCurve n times (fun t => fit.fastAmplitude * Real.exp (-r * t) + fit.slowAmplitude * Real.exp (-s * t) + fit.offset) d := by
  obtain ⟨r, s, h1, h2, h3, h4⟩ := C42_four_variable hf hs fit.fastAmplitude fit.slowAmplitude fit.offset fit.aDk
  obtain ⟨d, k1, k2⟩ := plotIsf_curve n hn times (fun t => fit.fastAmplitude * Real.exp (-r * t) + fit.slowAmplitude * Real.exp (-s * t) + fit.offset)
    (isfOfFeyFourVariableFit fit) .real (Or.inl ⟨rfl, fun i _ => h4 _⟩)
  exact ⟨r, s, d, h1, h2, h3, k1, k2⟩

/-- **C160.** `plot_rate_decomposition_against_temperature` draws fifty lines: at each temperature the line `i` shows the decay rate of an eigenvalue `a i`, the eigenvalues of different lines
are different, their coefficients never increase from one line to the next, and no eigenvalue which is left out has a larger coefficient. What is missing: the eigenvalues of
`get_rate_decomposition` itself, which are entries of eigenstates (see `C160_rates_negation`). -/
theorem C160_rates_partial (argsort : ℕ → (ℕ → ℝ) → ℕ → ℕ) (hsort : ∀ N key, IsArgsort N key (argsort N key)) (n count : ℕ) (hn : 0 < n) (hc : 50 ≤ count)
    (rates coefficients : ℕ → ℕ → ℂ) (temperatures : ℕ → ℝ) :
    ∃ lines, plotRateDecomposition argsort n count rates coefficients temperatures = some lines ∧ lines.length = 50 ∧
      ∀ k < n, ∃ a : ℕ → ℕ, (∀ i < 50, a i < count) ∧ (∀ i < 50, ∀ j < 50, a i = a j → i = j) ∧
        (∀ i j, i ≤ j → j < 50 → ‖coefficients k (a j)‖ ≤ ‖coefficients k (a i)‖) ∧
        (∀ b < count, (∀ i < 50, a i ≠ b) → ∀ i < 50, ‖coefficients k b‖ ≤ ‖coefficients k (a i)‖) ∧
        ∀ i line, lines[i]? = some line → line.n = n ∧ line.coordinates = temperatures ∧ line.values k = -(rates k (a i)).re := by
  refine ⟨_, by unfold plotRateDecomposition; rw [if_neg (by omega)], by simp, fun k hk => ?_⟩
  obtain ⟨o1, o2, o3⟩ := hsort count fun a => ‖coefficients k a‖
  set order := argsort count fun a => ‖coefficients k a‖ with ho
  refine ⟨fun i => order (count - 1 - i), fun i hi => o1 _ (by omega), fun i hi j hj h => ?_, fun i j hij hj => o3 _ _ (by omega) (by omega), fun b hb hne i hi => ?_,
    fun i line hl => ?_⟩
  · have := o2 _ (by omega) _ (by omega) h
    omega
  · obtain ⟨p, hp, rfl⟩ : ∃ p < count, order p = b := by
      have hinj : Set.InjOn order (range count : Finset ℕ) := fun p hp q hq h => o2 p (by simpa using hp) q (by simpa using hq) h
      have himg : (range count).image order = range count :=
        eq_of_subset_of_card_le (fun x hx => by
          obtain ⟨p, hp, rfl⟩ := mem_image.1 hx
          exact mem_range.2 (o1 p (mem_range.1 hp))) (by rw [card_image_of_injOn hinj])
      have : b ∈ (range count).image order := by rw [himg]; exact mem_range.2 hb
      obtain ⟨p, hp, h⟩ := mem_image.1 this
      exact ⟨p, mem_range.1 hp, h⟩
    by_cases hlt : p ≤ count - 1 - i
    · exact o3 _ _ hlt (by omega)
    · exact absurd (show order (count - 1 - (count - 1 - p)) = order p by congr 1; omega) (hne (count - 1 - p) (by omega))
  · rw [List.getElem?_map] at hl
    obtain ⟨i', hi', rfl⟩ := Option.map_eq_some_iff.1 hl
    obtain ⟨hlt, rfl⟩ := List.getElem?_eq_some_iff.1 hi'
    rw [List.getElem_range]
    exact ⟨rfl, rfl, rfl⟩

/-- **C160** (negation). Given the results of `get_rate_decomposition` the lines show entries of the first eigenstate instead of rates, whatever the eigenvalues are; with fewer than fifty
states the plot raises. -/
theorem C160_rates_negation (argsort : ℕ → (ℕ → ℝ) → ℕ → ℕ) (hsort : ∀ N key, IsArgsort N key (argsort N key)) (n m : ℕ) (hn : 0 < n) (r : ℕ → EigResult)
    (initial : ℕ → Fin m → ℂ) (temperatures : ℕ → ℝ) :
    (m < 50 → plotRateDecomposition argsort n m (fun k => (getRateDecomposition (r k) (initial k)).eigenvalues)
      (fun k a => if h : a < m then (getRateDecomposition (r k) (initial k)).coefficients ⟨a, h⟩ else 0) temperatures = none) ∧
    (50 ≤ m → ∃ lines, plotRateDecomposition argsort n m (fun k => (getRateDecomposition (r k) (initial k)).eigenvalues)
      (fun k a => if h : a < m then (getRateDecomposition (r k) (initial k)).coefficients ⟨a, h⟩ else 0) temperatures = some lines ∧
      ∀ k < n, ∀ (i : ℕ) line, lines[i]? = some line → ∃ a < m, line.values k = -((calculateTunnellingEigenstates m (r k)).vectors 0 a).re) := by
  refine ⟨fun h => if_pos (Or.inr h), fun h => ?_⟩
  obtain ⟨lines, h1, h2, h3⟩ := C160_rates_partial argsort hsort n m hn h (fun k => (getRateDecomposition (r k) (initial k)).eigenvalues)
      (fun k a => if h : a < m then (getRateDecomposition (r k) (initial k)).coefficients ⟨a, h⟩ else 0) temperatures
  refine ⟨lines, h1, fun k hk i line hl => ?_⟩
  obtain ⟨a, ha, -, -, -, hv⟩ := h3 k hk
  have hi : i < 50 := by
    have := (List.getElem?_eq_some_iff.1 hl).1
    omega
  refine ⟨a i, ha i hi, (hv i line hl).2.2.trans ?_⟩
  show -((calculateTunnellingEigenstates m (r k)).vectors (a i / m) (a i % m)).re = _
  rw [Nat.div_eq_of_lt (ha i hi), Nat.mod_eq_of_lt (ha i hi)]

/-- There is an `argsort`; a fit with positive rates along a direction which is not excluded. -/
example : (∃ argsort : ℕ → (ℕ → ℝ) → ℕ → ℕ, ∀ N key, IsArgsort N key (argsort N key)) ∧
    0 < (⟨2, 1, 0⟩ : FeyFit).fastRate ∧ 0 < (⟨2, 1, 0⟩ : FeyFit).slowRate ∧ 4 * Real.cos ((⟨2, 1, 0⟩ : FeyFit).aDk / 2) + 2 ≠ 0 := by
  refine ⟨⟨fun N key => (exists_argsort N key).choose, fun N key => (exists_argsort N key).choose_spec⟩, ?_, ?_, ?_⟩
  · show (0 : ℝ) < 2
    norm_num
  · show (0 : ℝ) < 1
    norm_num
  · show 4 * Real.cos (0 / 2) + 2 ≠ 0
    rw [zero_div, Real.cos_zero]
    norm_num

end Verif
