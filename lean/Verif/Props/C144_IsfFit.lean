import Verif.Model.IsfFit
import Verif.Props.C42_Isf
import Mathlib.Analysis.ODE.ExistUnique
import Mathlib.Analysis.Calculus.Deriv.Prod
import Mathlib.Analysis.Calculus.Deriv.Star
import Mathlib.Analysis.Real.Pi.Bounds
import Mathlib.Analysis.SpecialFunctions.Trigonometric.Basic
import Mathlib.Algebra.BigOperators.Group.List.Basic
import Mathlib.Algebra.Order.BigOperators.Group.List
import Mathlib.Tactic.FinCases

/-! # C144: fits of scattering functions -/

set_option autoImplicit false

namespace Verif

/-! ## Specification of the library routines -/

/-- Specification: the parameters lie within the bounds (`none` for no upper bound). -/
def InBounds {k : ℕ} (lower : Fin k → ℝ) (upper : Fin k → Option ℝ) (p : Fin k → ℝ) : Prop :=
  ∀ i, lower i ≤ p i ∧ ∀ u ∈ upper i, p i ≤ u

/-- Specification: the sum of the squares of the differences between the function and the points. -/
def squaredResidual {k : ℕ} (f : (Fin k → ℝ) → ℝ → ℝ) (points : List (ℝ × ℝ)) (p : Fin k → ℝ) : ℝ :=
  (points.map fun q => (f p q.1 - q.2) ^ 2).sum

/-- Specification: among the parameters within the bounds these have the least sum of squares. -/
def IsLeastSquares {k : ℕ} (f : (Fin k → ℝ) → ℝ → ℝ) (points : List (ℝ × ℝ)) (lower : Fin k → ℝ)
    (upper : Fin k → Option ℝ) (p : Fin k → ℝ) : Prop :=
  InBounds lower upper p ∧ ∀ q, InBounds lower upper q → squaredResidual f points p ≤ squaredResidual f points q

/-- Specification of `curve_fit`: started within the bounds it gives parameters within the bounds, the best ones when there
are best ones. (The real routine finds local minima only; where it does, nothing is claimed.) -/
def IsCurveFit (curveFit : CurveFit) : Prop :=
  ∀ k f points p0 lower upper, InBounds lower upper p0 →
    InBounds lower upper (curveFit k f points p0 lower upper) ∧
    ((∃ p, IsLeastSquares f points lower upper p) → IsLeastSquares f points lower upper (curveFit k f points p0 lower upper))

/-- There is such a routine, and it may prefer any parameters we like among equally good ones. -/
theorem exists_curveFit (favourite : (k : ℕ) → Fin k → ℝ) :
    ∃ curveFit, IsCurveFit curveFit ∧ ∀ k f points p0 lower upper,
      IsLeastSquares f points lower upper (favourite k) → curveFit k f points p0 lower upper = favourite k := by
  classical
  refine ⟨fun k f points p0 lower upper => if IsLeastSquares f points lower upper (favourite k) then favourite k else
    if h : ∃ p, IsLeastSquares f points lower upper p then h.choose else p0, ?_, ?_⟩
  · intro k f points p0 lower upper h0
    beta_reduce
    by_cases h1 : IsLeastSquares f points lower upper (favourite k)
    · rw [if_pos h1]; exact ⟨h1.1, fun _ => h1⟩
    · rw [if_neg h1]
      by_cases h2 : ∃ p, IsLeastSquares f points lower upper p
      · rw [dif_pos h2]; exact ⟨h2.choose_spec.1, fun _ => h2.choose_spec⟩
      · rw [dif_neg h2]; exact ⟨h0, fun h => absurd h h2⟩
  · intro k f points p0 lower upper h
    beta_reduce
    rw [if_pos h]

theorem residual_nonneg {k : ℕ} (f : (Fin k → ℝ) → ℝ → ℝ) (points : List (ℝ × ℝ)) (p : Fin k → ℝ) :
    0 ≤ squaredResidual f points p := by
  unfold squaredResidual
  refine List.sum_nonneg fun x hx => ?_
  obtain ⟨q, _, rfl⟩ := List.mem_map.1 hx
  positivity

theorem residual_eq_zero {k : ℕ} (f : (Fin k → ℝ) → ℝ → ℝ) (points : List (ℝ × ℝ)) (p : Fin k → ℝ) :
    squaredResidual f points p = 0 ↔ ∀ q ∈ points, f p q.1 = q.2 := by
  unfold squaredResidual
  induction points with
  | nil => simp
  | cons a l ih =>
    have h : 0 ≤ (l.map fun q => (f p q.1 - q.2) ^ 2).sum := residual_nonneg f l p
    rw [List.map_cons, List.sum_cons, List.forall_mem_cons, ← ih]
    constructor
    · intro h0
      have h1 : (f p a.1 - a.2) ^ 2 = 0 := by nlinarith [sq_nonneg (f p a.1 - a.2)]
      refine ⟨by linarith [pow_eq_zero_iff (two_ne_zero) |>.1 h1], by nlinarith⟩
    · rintro ⟨h1, h2⟩
      rw [h1, h2, sub_self]; ring

theorem exact_least {k : ℕ} {f : (Fin k → ℝ) → ℝ → ℝ} {points : List (ℝ × ℝ)} {lower : Fin k → ℝ}
    {upper : Fin k → Option ℝ} {p : Fin k → ℝ} (hp : InBounds lower upper p) (h : ∀ q ∈ points, f p q.1 = q.2) :
    IsLeastSquares f points lower upper p :=
  ⟨hp, fun q _ => by rw [(residual_eq_zero f points p).2 h]; exact residual_nonneg f points q⟩

/-- Points which the function goes through for some parameters are met exactly. -/
theorem IsCurveFit.exact {curveFit : CurveFit} (hc : IsCurveFit curveFit) {k : ℕ} {f : (Fin k → ℝ) → ℝ → ℝ}
    {points : List (ℝ × ℝ)} {p0 lower : Fin k → ℝ} {upper : Fin k → Option ℝ} (h0 : InBounds lower upper p0)
    {p : Fin k → ℝ} (hp : InBounds lower upper p) (h : ∀ q ∈ points, f p q.1 = q.2) :
    ∀ q ∈ points, f (curveFit k f points p0 lower upper) q.1 = q.2 := by
  have hl := (hc k f points p0 lower upper h0).2 ⟨p, exact_least hp h⟩
  refine (residual_eq_zero f points _).1 (le_antisymm ?_ (residual_nonneg _ _ _))
  rw [← (residual_eq_zero f points p).2 h]
  exact hl.2 p hp

theorem mem_fitPoints {n : ℕ} {times : ℕ → ℝ} {data : ℕ → ℂ} {measure : Measure} {q : ℝ × ℝ} :
    q ∈ fitPoints n times data measure ↔ ∃ i < n, q = (times i, getMeasuredData data measure i) := by
  unfold fitPoints
  simp only [List.mem_map, List.mem_range]
  constructor
  · rintro ⟨i, h, rfl⟩; exact ⟨i, h, rfl⟩
  · rintro ⟨i, h, rfl⟩; exact ⟨i, h, rfl⟩

/-! ## The double exponential -/

theorem bounds_double : InBounds ![0, 0, 0, 0] ![some 1, none, some 1, none] (![0.5, 2e10, 0.5, 1e10] : Fin 4 → ℝ) := by
  intro i; fin_cases i <;> simp <;> norm_num

/-- **C144.** A fit of a double exponential has rates which are not negative, amplitudes between zero and one, and its
scattering function is one at time zero. -/
theorem C144_double_bounds {curveFit : CurveFit} (hc : IsCurveFit curveFit) (n : ℕ) (times : ℕ → ℝ) (data : ℕ → ℂ)
    (measure : Measure) :
    let fit := fitDoubleExponential curveFit n times data measure
    0 ≤ fit.fastRate ∧ 0 ≤ fit.slowRate ∧ 0 ≤ fit.fastAmplitude ∧ fit.fastAmplitude ≤ 1 ∧ 0 ≤ fit.slowAmplitude ∧
      fit.slowAmplitude ≤ 1 ∧ isfOfFourVariableFit fit 0 = 1 := by
  intro fit
  have h := (hc 4 (fun p t => p 0 * Real.exp (-(p 1) * t) + p 2 * Real.exp (-(p 3) * t) + (1 - p 0 - p 2))
    (fitPoints n times data measure) _ _ _ bounds_double).1
  refine ⟨(h 1).1, (h 3).1, (h 0).1, (h 0).2 1 rfl, (h 2).1, (h 2).2 1 rfl, ?_⟩
  show isfFourVariable _ _ _ _ _ 0 = 1
  unfold isfFourVariable
  simp only [mul_zero, Real.exp_zero, mul_one]
  show fit.fastAmplitude + fit.slowAmplitude + (1 - fit.fastAmplitude - fit.slowAmplitude) = 1
  ring

/-- **C144.** When the measured values are those of a double exponential which is one at time zero, the scattering function
of the fit has these values at all the times. -/
theorem C144_double_exact {curveFit : CurveFit} (hc : IsCurveFit curveFit) (n : ℕ) (times : ℕ → ℝ) (data : ℕ → ℂ)
    (measure : Measure) {fr fa sr sa : ℝ} (hfr : 0 ≤ fr) (hsr : 0 ≤ sr) (hfa : 0 ≤ fa) (hfa1 : fa ≤ 1) (hsa : 0 ≤ sa)
    (hsa1 : sa ≤ 1)
    (hd : ∀ i < n, getMeasuredData data measure i =
      fa * Real.exp (-fr * times i) + sa * Real.exp (-sr * times i) + (1 - fa - sa)) :
    ∀ i < n, isfOfFourVariableFit (fitDoubleExponential curveFit n times data measure) (times i) =
      getMeasuredData data measure i := by
  intro i hi
  have hb : InBounds ![0, 0, 0, 0] ![some 1, none, some 1, none] (![fa, fr, sa, sr] : Fin 4 → ℝ) := by
    intro j; fin_cases j <;> simp <;> first | assumption | exact ⟨by assumption, by assumption⟩
  refine hc.exact (f := (fun p t => p 0 * Real.exp (-(p 1) * t) + p 2 * Real.exp (-(p 3) * t) + (1 - p 0 - p 2)))
    bounds_double hb ?_ (times i, getMeasuredData data measure i) (mem_fitPoints.2 ⟨i, hi, rfl⟩)
  intro q hq
  obtain ⟨j, hj, rfl⟩ := mem_fitPoints.1 hq
  exact (hd j hj).symm

/-- **C144, negation.** Nothing makes the rate called fast the larger one: there is a routine as specified for which the
fit of a function with rates two and one, to any points of it, calls the smaller rate the fast one. -/
theorem C144_labels_negation :
    ∃ curveFit, IsCurveFit curveFit ∧ ∀ (n : ℕ) (times : ℕ → ℝ) (data : ℕ → ℂ) (measure : Measure),
      (∀ i < n, getMeasuredData data measure i =
        1 / 4 * Real.exp (-2 * times i) + 1 / 2 * Real.exp (-1 * times i) + (1 - 1 / 4 - 1 / 2)) →
      (fitDoubleExponential curveFit n times data measure).fastRate <
        (fitDoubleExponential curveFit n times data measure).slowRate := by
  obtain ⟨curveFit, hc, hf⟩ := exists_curveFit fun k i => (![1 / 2, 1, 1 / 4, 2] : Fin 4 → ℝ) ⟨i.val % 4, Nat.mod_lt _ (by norm_num)⟩
  refine ⟨curveFit, hc, fun n times data measure hd => ?_⟩
  have e : (fun i : Fin 4 => (![1 / 2, 1, 1 / 4, 2] : Fin 4 → ℝ) ⟨i.val % 4, Nat.mod_lt _ (by norm_num)⟩) =
      ![1 / 2, 1, 1 / 4, 2] := by
    funext i; fin_cases i <;> rfl
  have h : fitDoubleExponential curveFit n times data measure = ⟨1, 1 / 2, 2, 1 / 4, 1 - 1 / 2 - 1 / 4⟩ := by
    unfold fitDoubleExponential
    simp only
    rw [hf, e]
    · simp
    · rw [e]
      refine exact_least ?_ ?_
      · intro j; fin_cases j <;> simp <;> norm_num
      · intro q hq
        obtain ⟨j, hj, rfl⟩ := mem_fitPoints.1 hq
        simp only [hd j hj]
        simp
        ring
  rw [h]
  norm_num

/-! ## The jump model -/

/-- The jump model has one solution. -/
theorem TwoSite.unique {fast slow : ℝ} {f : ℂ} {x y x' y' : ℝ → ℂ} (h : TwoSite fast slow f x y)
    (h' : TwoSite fast slow f x' y') : x = x' ∧ y = y' := by
  let L : ℂ × ℂ →L[ℝ] ℂ × ℂ :=
    ContinuousLinearMap.prod
      ((ContinuousLinearMap.mul ℝ ℂ (-slow : ℂ)).comp (ContinuousLinearMap.fst ℝ ℂ ℂ) +
        (ContinuousLinearMap.mul ℝ ℂ (fast * f : ℂ)).comp (ContinuousLinearMap.snd ℝ ℂ ℂ))
      ((ContinuousLinearMap.mul ℝ ℂ (slow * (starRingEnd ℂ) f : ℂ)).comp (ContinuousLinearMap.fst ℝ ℂ ℂ) -
        (ContinuousLinearMap.mul ℝ ℂ (fast : ℂ)).comp (ContinuousLinearMap.snd ℝ ℂ ℂ))
  have key {x y : ℝ → ℂ} (h : TwoSite fast slow f x y) (t : ℝ) :
      HasDerivAt (fun s => (x s, y s)) (L (x t, y t)) t := (h.dx t).prodMk (h.dy t)
  have := ODE_solution_unique_univ (v := fun _ => L) (s := fun _ => Set.univ) (K := ‖L‖₊) (t₀ := 0)
    (fun _ => L.lipschitz.lipschitzOnWith) (fun t => ⟨key h t, trivial⟩) (fun t => ⟨key h' t, trivial⟩)
    (by simp only [h.x0, h.y0, h'.x0, h'.y0])
  exact ⟨funext fun t => congrArg Prod.fst (congrFun this t), funext fun t => congrArg Prod.snd (congrFun this t)⟩

/-- With the two kinds of sites exchanged. -/
theorem TwoSite.exchange {fast slow : ℝ} {f : ℂ} {x y : ℝ → ℂ} (h : TwoSite fast slow f x y) :
    TwoSite slow fast ((starRingEnd ℂ) f) y x where
  dx t := by
    have := h.dy t
    rw [show -(fast : ℂ) * y t + slow * (starRingEnd ℂ) f * x t = slow * (starRingEnd ℂ) f * x t - fast * y t by ring]
    exact this
  dy t := by
    have := h.dx t
    rw [Complex.conj_conj, show (fast : ℂ) * f * y t - slow * x t = -slow * x t + fast * f * y t by ring]
    exact this
  x0 := by rw [h.y0, add_comm]
  y0 := by rw [h.x0, add_comm]

theorem TwoSite.conj {fast slow : ℝ} {f : ℂ} {x y : ℝ → ℂ} (h : TwoSite fast slow f x y) :
    TwoSite fast slow ((starRingEnd ℂ) f) (fun t => (starRingEnd ℂ) (x t)) (fun t => (starRingEnd ℂ) (y t)) where
  dx t := by
    have := (h.dx t).star
    simpa using this
  dy t := by
    have := (h.dy t).star
    simpa using this
  x0 := by simp [h.x0]
  y0 := by simp [h.y0]

/-- **C144.** The function along 110 does not tell the two rates apart: it is the same with the rates exchanged. -/
theorem C144_symmetric_110 {fast slow : ℝ} (hf : 0 < fast) (hs : 0 < slow) (aDk : ℝ)
    (hT : 4 * Real.cos (aDk / 2) + 2 ≠ 0) (t : ℝ) : isfFey110 fast slow aDk t = isfFey110 slow fast aDk t := by
  obtain ⟨x, y, h, he⟩ := C42_fey_110 hf hs aDk hT
  obtain ⟨x', y', h', he'⟩ := C42_fey_110 hs hf aDk hT
  have hx := h.exchange
  rw [Complex.conj_ofReal] at hx
  obtain ⟨e1, e2⟩ := hx.unique h'
  have : (isfFey110 fast slow aDk t : ℂ) = isfFey110 slow fast aDk t := by rw [he, he', ← e1, ← e2, add_comm]
  exact_mod_cast this

/-- **C144.** The function along 112bar does not tell the two rates apart either. -/
theorem C144_symmetric_112bar {fast slow : ℝ} (hf : 0 < fast) (hs : 0 < slow) (aDk t : ℝ) :
    isfFey112bar fast slow aDk t = isfFey112bar slow fast aDk t := by
  obtain ⟨x, y, h, he⟩ := C42_fey_112bar hf hs aDk
  obtain ⟨x', y', h', he'⟩ := C42_fey_112bar hs hf aDk
  obtain ⟨e1, e2⟩ := h.exchange.unique h'.conj
  have h1 := congrFun e1 t
  have h2 := congrFun e2 t
  beta_reduce at h1 h2
  have : (isfFey112bar fast slow aDk t : ℂ) = isfFey112bar slow fast aDk t := by
    rw [← Complex.conj_ofReal (isfFey112bar slow fast aDk t), he, he', map_add, ← h1, ← h2, add_comm]
  exact_mod_cast this

theorem bounds_two {a b : ℝ} (ha : 0 ≤ a) (hb : 0 ≤ b) : InBounds ![0, 0] ![none, none] (![a, b] : Fin 2 → ℝ) := by
  intro j; fin_cases j <;> simp <;> assumption

/-- **C144.** When the measured values are those of the jump model along 110, the function of the fit has these values; the
fit keeps the momentum it was made for and its rates are not negative. -/
theorem C144_fey_110 {curveFit : CurveFit} (hc : IsCurveFit curveFit) (n : ℕ) (times : ℕ → ℝ) (data : ℕ → ℂ)
    (measure : Measure) (aDk : ℝ) {fast slow : ℝ} (hf : 0 ≤ fast) (hs : 0 ≤ slow)
    (hd : ∀ i < n, getMeasuredData data measure i = isfFey110 fast slow aDk (times i)) :
    let fit := fitFey110 curveFit n times data measure aDk
    fit.aDk = aDk ∧ 0 ≤ fit.fastRate ∧ 0 ≤ fit.slowRate ∧
      ∀ i < n, isfOfFeyFit110 fit (times i) = getMeasuredData data measure i := by
  intro fit
  have hb := bounds_two (a := 1.4e9) (b := 3e8) (by norm_num) (by norm_num)
  have h := (hc 2 (fun p t => isfFey110 (p 0) (p 1) aDk t) (fitPoints n times data measure) _ _ _ hb).1
  refine ⟨rfl, (h 0).1, (h 1).1, fun i hi => ?_⟩
  refine hc.exact (f := fun p t => isfFey110 (p 0) (p 1) aDk t) hb (bounds_two hf hs) ?_ (times i, getMeasuredData data measure i) (mem_fitPoints.2 ⟨i, hi, rfl⟩)
  intro q hq
  obtain ⟨j, hj, rfl⟩ := mem_fitPoints.1 hq
  exact (hd j hj).symm

/-- **C144.** The same along 112bar. -/
theorem C144_fey_112bar {curveFit : CurveFit} (hc : IsCurveFit curveFit) (n : ℕ) (times : ℕ → ℝ) (data : ℕ → ℂ)
    (measure : Measure) (aDk : ℝ) {fast slow : ℝ} (hf : 0 ≤ fast) (hs : 0 ≤ slow)
    (hd : ∀ i < n, getMeasuredData data measure i = isfFey112bar fast slow aDk (times i)) :
    let fit := fitFey112bar curveFit n times data measure aDk
    fit.aDk = aDk ∧ 0 ≤ fit.fastRate ∧ 0 ≤ fit.slowRate ∧
      ∀ i < n, isfOfFeyFit112bar fit (times i) = getMeasuredData data measure i := by
  intro fit
  have hb := bounds_two (a := 2e10) (b := 1e10) (by norm_num) (by norm_num)
  have h := (hc 2 (fun p t => isfFey112bar (p 0) (p 1) aDk t) (fitPoints n times data measure) _ _ _ hb).1
  refine ⟨rfl, (h 0).1, (h 1).1, fun i hi => ?_⟩
  refine hc.exact (f := fun p t => isfFey112bar (p 0) (p 1) aDk t) hb (bounds_two hf hs) ?_ (times i, getMeasuredData data measure i) (mem_fitPoints.2 ⟨i, hi, rfl⟩)
  intro q hq
  obtain ⟨j, hj, rfl⟩ := mem_fitPoints.1 hq
  exact (hd j hj).symm

/-! ## Four variables -/

theorem bounds_five : InBounds ![0, 0, 0, 0, 0] ![none, none, none, none, some 0.2]
    (![1.4e9, 0.2, 0.7e9, 0.8, 0.05] : Fin 5 → ℝ) := by
  intro i; fin_cases i <;> simp <;> norm_num

theorem bounds_ratio {lam : ℝ} (hl : 0 ≤ lam) : InBounds ![0, 0, 0, 0] ![none, none, none, some 0.2]
    (![1.4e9, lam / (1 + lam), 1 / (1 + lam), 0.05] : Fin 4 → ℝ) := by
  intro i; fin_cases i <;> simp <;> first | positivity | norm_num

/-- **C144.** When the measured values at the times after the start are those of the four-variable model, with an offset of
at most a fifth, the function of the fit has these values there. -/
theorem C144_four_variable {curveFit : CurveFit} (hc : IsCurveFit curveFit) (n : ℕ) (times : ℕ → ℝ) (data : ℕ → ℂ)
    (measure : Measure) (aDk startT : ℝ) {fr fa sr sa offset : ℝ} (hfr : 0 ≤ fr) (hfa : 0 ≤ fa) (hsr : 0 ≤ sr) (hsa : 0 ≤ sa)
    (ho : 0 ≤ offset) (ho1 : offset ≤ 0.2)
    (hd : ∀ i < n, startT < times i →
      getMeasuredData data measure i = isfFeyFourVariable110 fr fa sr sa offset aDk (times i)) :
    let fit := fitFeyFourVariable curveFit n times data measure aDk startT
    fit.aDk = aDk ∧ 0 ≤ fit.offset ∧ fit.offset ≤ 0.2 ∧
      ∀ i < n, startT < times i → isfOfFeyFourVariableFit fit (times i) = getMeasuredData data measure i := by
  intro fit
  have h := (hc 5 (fun p t => isfFeyFourVariable110 (p 0) (p 1) (p 2) (p 3) (p 4) aDk t)
    ((fitPoints n times data measure).filter fun p => startT < p.1) _ _ _ bounds_five).1
  refine ⟨rfl, (h 4).1, (h 4).2 0.2 rfl, fun i hi ht => ?_⟩
  have hb : InBounds ![0, 0, 0, 0, 0] ![none, none, none, none, some 0.2] (![fr, fa, sr, sa, offset] : Fin 5 → ℝ) := by
    intro j; fin_cases j <;> simp <;> first | assumption | exact ⟨by assumption, by norm_num at ho1 ⊢; assumption⟩
  refine hc.exact (f := fun p t => isfFeyFourVariable110 (p 0) (p 1) (p 2) (p 3) (p 4) aDk t) bounds_five hb ?_ (times i, getMeasuredData data measure i) ?_
  · intro q hq
    obtain ⟨hq, ht⟩ := List.mem_filter.1 hq
    obtain ⟨j, hj, rfl⟩ := mem_fitPoints.1 hq
    exact (hd j hj (by simpa using ht)).symm
  · exact List.mem_filter.2 ⟨mem_fitPoints.2 ⟨i, hi, rfl⟩, by simpa using ht⟩

/-- **C144.** With a fixed ratio the slow rate of the fit is this ratio of the fast rate, and when the measured values at
the times strictly between the start and the end (the last time, when none is given) are those of the model with this
ratio, the function of the fit has these values there. -/
theorem C144_fixed_ratio {curveFit : CurveFit} (hc : IsCurveFit curveFit) (n : ℕ) (times : ℕ → ℝ) (data : ℕ → ℂ) {lam : ℝ}
    (hl : 0 ≤ lam) (measure : Measure) (aDk startT : ℝ) (endT : Option ℝ) {fr fa sa offset : ℝ} (hfr : 0 ≤ fr) (hfa : 0 ≤ fa)
    (hsa : 0 ≤ sa) (ho : 0 ≤ offset) (ho1 : offset ≤ 0.2) (last : ℝ)
    (hlast : last = match endT with | some e => e | none => times (n - 1))
    (hd : ∀ i < n, startT < times i → times i < last →
      getMeasuredData data measure i = isfFeyFourVariable110 fr fa (lam * fr) sa offset aDk (times i)) :
    let fit := fitFeyFourVariableFixedRatio curveFit n times data lam measure aDk startT endT
    fit.aDk = aDk ∧ fit.slowRate = lam * fit.fastRate ∧ 0 ≤ fit.offset ∧ fit.offset ≤ 0.2 ∧
      ∀ i < n, startT < times i → times i < last →
        isfOfFeyFourVariableFit fit (times i) = getMeasuredData data measure i := by
  intro fit
  have hlast' : endT.getD (times (n - 1)) = last := by rw [hlast]; cases endT <;> rfl
  have hfit : fit = fitFeyFourVariableFixedRatio curveFit n times data lam measure aDk startT endT := rfl
  unfold fitFeyFourVariableFixedRatio at hfit
  simp only [hlast'] at hfit
  have h := (hc 4 (fun p t => isfFeyFourVariable110 (p 0) (p 1) (lam * p 0) (p 2) (p 3) aDk t)
    ((fitPoints n times data measure).filter fun p => startT < p.1 ∧ p.1 < last) _ _ _ (bounds_ratio hl)).1
  rw [hfit]
  refine ⟨rfl, rfl, (h 3).1, (h 3).2 0.2 rfl, fun i hi ht ht' => ?_⟩
  have hb : InBounds ![0, 0, 0, 0] ![none, none, none, some 0.2] (![fr, fa, sa, offset] : Fin 4 → ℝ) := by
    intro j; fin_cases j <;> simp <;> first | assumption | exact ⟨by assumption, by norm_num at ho1 ⊢; assumption⟩
  refine hc.exact (f := fun p t => isfFeyFourVariable110 (p 0) (p 1) (lam * p 0) (p 2) (p 3) aDk t) (bounds_ratio hl) hb ?_ (times i, getMeasuredData data measure i) ?_
  · intro q hq
    obtain ⟨hq, ht⟩ := List.mem_filter.1 hq
    obtain ⟨j, hj, rfl⟩ := mem_fitPoints.1 hq
    have ht : startT < times j ∧ times j < last := by simpa using ht
    exact (hd j hj ht.1 ht.2).symm
  · exact List.mem_filter.2 ⟨mem_fitPoints.2 ⟨i, hi, rfl⟩, by simpa using ⟨ht, ht'⟩⟩

/-- **C144.** The fit with a fixed ratio uses only the values strictly between the start and the end: with the defaults
neither the value at time zero nor the one at the last time has any effect. -/
theorem C144_fixed_ratio_times (curveFit : CurveFit) (n : ℕ) (times : ℕ → ℝ) (data data' : ℕ → ℂ) (lam : ℝ)
    (measure : Measure) (aDk : ℝ)
    (h : ∀ i < n, 0 < times i → times i < times (n - 1) → getMeasuredData data measure i = getMeasuredData data' measure i) :
    fitFeyFourVariableFixedRatio curveFit n times data lam measure aDk 0 none =
      fitFeyFourVariableFixedRatio curveFit n times data' lam measure aDk 0 none := by
  have e : (fitPoints n times data measure).filter (fun p => decide (0 < p.1 ∧ p.1 < times (n - 1))) =
      (fitPoints n times data' measure).filter (fun p => decide (0 < p.1 ∧ p.1 < times (n - 1))) := by
    unfold fitPoints
    rw [List.filter_map, List.filter_map]
    refine List.map_congr_left fun i hi => ?_
    obtain ⟨hi, ht⟩ := List.mem_filter.1 hi
    have ht : 0 < times i ∧ times i < times (n - 1) := by simpa using ht
    rw [h i (List.mem_range.1 hi) ht.1 ht.2]
  unfold fitFeyFourVariableFixedRatio
  simp only [Option.getD_none, e]

/-! ## Rates of the jump model from those of the double exponential -/

/-- The two equations, in terms of the rate out of the other kind of site. -/
theorem feyRateEquations_iff (fit : FourVariableFit) {nu lam : ℝ} (hl : 0 < lam) :
    feyRateEquations fit nu lam = (0, 0) ↔
      nu + nu / lam = fit.fastRate + fit.slowRate ∧ nu / lam * feyY lam 2 = fit.fastRate - fit.slowRate := by
  have hy : Real.sqrt (lam ^ 2 + 2 * lam * (8 * Real.cos (2 * Real.sqrt 3 / 2) + 1) / 9 + 1) = feyY lam 2 := rfl
  unfold feyRateEquations
  simp only [hy, Prod.mk.injEq]
  have e1 : nu * (lam + 1 + feyY lam 2) / (2 * lam) = ((nu + nu / lam) + nu / lam * feyY lam 2) / 2 := by field_simp
  have e2 : nu * (lam + 1 - feyY lam 2) / (2 * lam) = ((nu + nu / lam) - nu / lam * feyY lam 2) / 2 := by field_simp
  rw [e1, e2]
  constructor
  · rintro ⟨h1, h2⟩; constructor <;> linarith
  · rintro ⟨h1, h2⟩; constructor <;> linarith

/-- **C144.** When `fsolve` gives a solution with positive rates (missing: there may be none, see below), the jump model along 112bar with the extracted rates
decays with exactly the two rates of the fit. -/
theorem C144_extract_partial (fsolve : (ℝ → ℝ → ℝ × ℝ) → ℝ × ℝ → ℝ × ℝ) (fit : FourVariableFit)
    (hroot : let r := fsolve (feyRateEquations fit) (fit.slowRate, fit.slowRate / fit.fastRate)
      feyRateEquations fit r.1 r.2 = (0, 0) ∧ 0 < r.1 ∧ 0 < r.2) :
    0 < (extractFeyRate112bar fsolve fit).fastRate ∧ 0 < (extractFeyRate112bar fsolve fit).slowRate ∧
    ∃ A B : ℝ, 0 ≤ A ∧ 0 ≤ B ∧ A + B = 1 ∧ ∀ t, isfOfFeyFit112bar (extractFeyRate112bar fsolve fit) t =
      A * Real.exp (-fit.fastRate * t) + B * Real.exp (-fit.slowRate * t) := by
  simp only at hroot
  unfold extractFeyRate112bar
  simp only
  set r := fsolve (feyRateEquations fit) (fit.slowRate, fit.slowRate / fit.fastRate) with hr
  obtain ⟨h, h1, h2⟩ := hroot
  have hfast : 0 < r.1 / r.2 := by positivity
  refine ⟨hfast, h1, ?_⟩
  have hlam : r.1 / (r.1 / r.2) = r.2 := by field_simp
  have h0 := (C42_bounds_112bar hfast h1 2).1
  obtain ⟨hsum, hdiff⟩ := (feyRateEquations_iff fit h2).1 h
  unfold isfOfFeyFit112bar
  unfold isfFey112bar at h0 ⊢
  simp only [hlam] at h0 ⊢
  set y := feyY r.2 2 with hyd
  simp only [mul_zero, zero_div, Real.exp_zero, mul_one] at h0
  have e1 (t : ℝ) : -r.1 * (r.2 + 1 + y) * t / (2 * r.2) = -fit.fastRate * t := by
    have : fit.fastRate = ((r.1 + r.1 / r.2) + r.1 / r.2 * y) / 2 := by linarith
    rw [this]; field_simp
  have e2 (t : ℝ) : -r.1 * (r.2 + 1 - y) * t / (2 * r.2) = -fit.slowRate * t := by
    have : fit.slowRate = ((r.1 + r.1 / r.2) - r.1 / r.2 * y) / 2 := by linarith
    rw [this]; field_simp
  rw [mul_add] at h0
  refine ⟨_, _, ?_, ?_, h0, fun t => ?_⟩
  · positivity
  · positivity
  · rw [e1, e2, mul_add, ← mul_assoc, ← mul_assoc]

/-- The product of the rates. -/
theorem feyRate_product {nu lam F S : ℝ} (hl : 0 < lam) (h1 : nu + nu / lam = F + S)
    (h2 : nu / lam * feyY lam 2 = F - S) : 4 * (nu * (nu / lam)) * (1 - Real.cos (2 * Real.sqrt 3 / 2)) = 9 * (F * S) := by
  have hy := feyY_sq hl 2
  set c := Real.cos (2 * Real.sqrt 3 / 2)
  set y := feyY lam 2
  set p := nu / lam with hp
  have hnu : nu = p * lam := by rw [hp]; field_simp
  rw [hnu] at h1 ⊢
  have e : 4 * (F * S) = (p * lam + p) ^ 2 - (p * y) ^ 2 := by rw [h1, h2]; ring
  linear_combination (-9 / 4 : ℝ) * e + (1 / 4 : ℝ) * p ^ 2 * hy

/-- **C144.** There are positive rates of the jump model with the given decay rates exactly when the slower one is slow
enough compared with the faster. -/
theorem C144_extract_exists (fit : FourVariableFit) (hF : 0 < fit.fastRate) (hS : 0 < fit.slowRate) :
    (∃ nu lam, 0 < nu ∧ 0 < lam ∧ feyRateEquations fit nu lam = (0, 0)) ↔
      fit.slowRate ≤ fit.fastRate ∧
      9 * (fit.fastRate * fit.slowRate) ≤ (1 - Real.cos (Real.sqrt 3)) * (fit.fastRate + fit.slowRate) ^ 2 := by
  have hc3 : Real.sqrt 3 = 2 * Real.sqrt 3 / 2 := by ring
  rw [hc3]
  have hc1 : 0 ≤ 1 - Real.cos (2 * Real.sqrt 3 / 2) := by linarith [Real.cos_le_one (2 * Real.sqrt 3 / 2)]
  have hcp : 0 < 1 - Real.cos (2 * Real.sqrt 3 / 2) := by
    have h3 : Real.sqrt 3 < 2 := by
      rw [Real.sqrt_lt' (by norm_num)]; norm_num
    have h0 : 0 < Real.sqrt 3 := by positivity
    have := Real.cos_lt_cos_of_nonneg_of_le_pi (x := 0) (y := 2 * Real.sqrt 3 / 2) le_rfl
      (by linarith [Real.pi_gt_three]) (by linarith)
    rw [Real.cos_zero] at this
    linarith
  set c := Real.cos (2 * Real.sqrt 3 / 2) with hcd
  set F := fit.fastRate with hFd
  set S := fit.slowRate with hSd
  constructor
  · rintro ⟨nu, lam, hn, hl, h⟩
    obtain ⟨h1, h2⟩ := (feyRateEquations_iff fit hl).1 h
    have hp := feyRate_product hl h1 h2
    rw [← hcd] at hp
    have hpos : 0 < nu / lam := by positivity
    have hy0 : 0 ≤ feyY lam 2 := Real.sqrt_nonneg _
    refine ⟨?_, ?_⟩
    · have := mul_nonneg hpos.le hy0
      rw [h2] at this
      linarith
    · rw [← hp, ← h1]
      nlinarith [sq_nonneg (nu - nu / lam), mul_nonneg hc1 (sq_nonneg (nu - nu / lam))]
  · rintro ⟨hle, hcond⟩
    set P := 9 * (F * S) / (4 * (1 - c)) with hP
    have hPpos : 0 < P := by positivity
    have hPe : 4 * P * (1 - c) = 9 * (F * S) := by rw [hP]; field_simp
    have hD : 0 ≤ (F + S) ^ 2 - 4 * P := by
      have : 4 * P * (1 - c) ≤ (F + S) ^ 2 * (1 - c) := by rw [hPe]; linarith
      have := le_of_mul_le_mul_right this hcp
      linarith
    set d := Real.sqrt ((F + S) ^ 2 - 4 * P) with hd
    have hd2 : d ^ 2 = (F + S) ^ 2 - 4 * P := Real.sq_sqrt hD
    have hd0 : 0 ≤ d := Real.sqrt_nonneg _
    have hdlt : d < F + S := by
      have : d ^ 2 < (F + S) ^ 2 := by linarith
      exact lt_of_pow_lt_pow_left₀ 2 (by positivity) this
    have hnu : 0 < (F + S - d) / 2 := by linarith
    have hph : 0 < (F + S + d) / 2 := by linarith
    set nu := (F + S - d) / 2 with hnud
    set ph := (F + S + d) / 2 with hphd
    have hprod : nu * ph = P := by rw [hnud, hphd]; linear_combination (-1 / 4 : ℝ) * hd2
    have hl : 0 < nu / ph := by positivity
    have hq : nu / (nu / ph) = ph := by field_simp
    refine ⟨nu, nu / ph, hnu, hl, (feyRateEquations_iff fit hl).2 ⟨?_, ?_⟩⟩
    · rw [hq, hnud, hphd]; ring
    · rw [hq]
      have hy := feyY_sq hl 2
      rw [← hcd] at hy
      set y := feyY (nu / ph) 2 with hyd
      have hy0 : 0 ≤ y := Real.sqrt_nonneg _
      have h2 : (ph * y) ^ 2 = (F - S) ^ 2 := by
        have e : 9 * (ph * y) ^ 2 = (3 * nu - 3 * ph) ^ 2 + nu * ph * (4 * (5 + 4 * c)) := by
          have : (3 * nu - 3 * ph) ^ 2 + nu * ph * (4 * (5 + 4 * c)) =
              ph ^ 2 * ((3 * (nu / ph) - 3) ^ 2 + nu / ph * (4 * (5 + 4 * c))) := by field_simp
          rw [this, ← hy]; ring
        have hs : nu + ph = F + S := by rw [hnud, hphd]; ring
        rw [hprod] at e
        have e2 : (3 * nu - 3 * ph) ^ 2 = 9 * (F + S) ^ 2 - 36 * P := by
          rw [← hs, ← hprod]; ring
        linear_combination (1 / 9 : ℝ) * e + (1 / 9 : ℝ) * e2 - (4 / 9 : ℝ) * hPe
      exact (pow_left_inj₀ (by positivity) (by linarith) two_ne_zero).1 h2

/-- **C144, negation.** For some decay rates there is no solution: the rates which are returned (with a warning only) then
do not belong to the fit. For instance when one decay is twice as fast as the other. -/
theorem C144_extract_negation (fit : FourVariableFit) (hS : 0 < fit.slowRate) (hF : fit.fastRate = 2 * fit.slowRate) :
    ¬ ∃ nu lam, 0 < nu ∧ 0 < lam ∧ feyRateEquations fit nu lam = (0, 0) := by
  rw [C144_extract_exists fit (by linarith) hS, hF]
  rintro ⟨_, h⟩
  have h3 : Real.sqrt 3 < 2 := by
    rw [Real.sqrt_lt' (by norm_num)]; norm_num
  have := Real.cos_lt_cos_of_nonneg_of_le_pi (x := Real.sqrt 3) (y := Real.pi) (Real.sqrt_nonneg 3) le_rfl
    (by linarith [Real.pi_gt_three])
  rw [Real.cos_pi] at this
  nlinarith [mul_pos hS hS]

/-- **C144, negation.** The solution is not unique: with any solution the one with the two rates exchanged is a solution
too, so which of the extracted rates is called slow depends on the root which is found. -/
theorem C144_extract_exchange (fit : FourVariableFit) {nu lam : ℝ} (hn : 0 < nu) (hl : 0 < lam)
    (h : feyRateEquations fit nu lam = (0, 0)) : feyRateEquations fit (nu / lam) (1 / lam) = (0, 0) := by
  obtain ⟨h1, h2⟩ := (feyRateEquations_iff fit hl).1 h
  have hl' : 0 < 1 / lam := by positivity
  have hq : nu / lam / (1 / lam) = nu := by field_simp
  refine (feyRateEquations_iff fit hl').2 ⟨by rw [hq, ← h1]; ring, ?_⟩
  rw [hq, ← h2]
  have hy := feyY_sq hl 2
  have hy' := feyY_sq hl' 2
  have e : feyY (1 / lam) 2 = feyY lam 2 / lam := by
    refine (pow_left_inj₀ (Real.sqrt_nonneg _) (div_nonneg (Real.sqrt_nonneg _) hl.le) two_ne_zero).1 ?_
    have : (3 * feyY (1 / lam) 2) ^ 2 = (3 * feyY lam 2) ^ 2 / lam ^ 2 := by
      rw [hy, hy']; field_simp; ring
    rw [mul_pow, mul_pow, mul_div_assoc, ← div_pow] at this
    exact mul_left_cancel₀ (by norm_num) this
  rw [e]; ring

/-! ## Cases -/

/-- The model with rates two and one, measured at three times. -/
example : ∃ curveFit, IsCurveFit curveFit ∧ ∀ i : ℕ, i < 3 →
    isfOfFourVariableFit (fitDoubleExponential curveFit 3 (fun i : ℕ => (i : ℝ))
      (fun i : ℕ => ((1 / 4 * Real.exp (-2 * (i : ℝ)) + 1 / 2 * Real.exp (-1 * (i : ℝ)) + (1 - 1 / 4 - 1 / 2) : ℝ) : ℂ)) .real) (i : ℝ) =
      1 / 4 * Real.exp (-2 * (i : ℝ)) + 1 / 2 * Real.exp (-1 * (i : ℝ)) + (1 - 1 / 4 - 1 / 2) := by
  obtain ⟨cf, hc, _⟩ := exists_curveFit fun _ _ => 0
  refine ⟨cf, hc, fun i hi => ?_⟩
  have := C144_double_exact hc 3 (fun i : ℕ => (i : ℝ))
    (fun i : ℕ => ((1 / 4 * Real.exp (-2 * (i : ℝ)) + 1 / 2 * Real.exp (-1 * (i : ℝ)) + (1 - 1 / 4 - 1 / 2) : ℝ) : ℂ)) .real
    (fr := 2) (fa := 1 / 4) (sr := 1) (sa := 1 / 2) (by norm_num) (by norm_num) (by norm_num) (by norm_num) (by norm_num)
    (by norm_num) (fun j _ => Complex.ofReal_re _) i hi
  rw [this]
  exact Complex.ofReal_re _

/-- The jump model with rates three and one, momentum two. -/
example : ∃ curveFit, IsCurveFit curveFit ∧ ∀ i : ℕ, i < 3 →
    isfOfFeyFit112bar (fitFey112bar curveFit 3 (fun i : ℕ => (i : ℝ))
      (fun i : ℕ => (isfFey112bar 3 1 2 (i : ℝ) : ℂ)) .real 2) (i : ℝ) = isfFey112bar 1 3 2 (i : ℝ) := by
  obtain ⟨cf, hc, _⟩ := exists_curveFit fun _ _ => 0
  refine ⟨cf, hc, fun i hi => ?_⟩
  rw [(C144_fey_112bar hc 3 (fun i : ℕ => (i : ℝ)) (fun i : ℕ => (isfFey112bar 3 1 2 (i : ℝ) : ℂ)) .real 2
    (fast := 3) (slow := 1) (by norm_num) (by norm_num) (fun j _ => Complex.ofReal_re _)).2.2.2 i hi]
  exact (Complex.ofReal_re _).trans (C144_symmetric_112bar (by norm_num) (by norm_num) 2 _)

/-- The four-variable model with ratio one half. -/
example : ∃ curveFit, IsCurveFit curveFit ∧
    isfOfFeyFourVariableFit (fitFeyFourVariableFixedRatio curveFit 3 (fun i : ℕ => (i : ℝ))
      (fun i : ℕ => if i = 1 then (isfFeyFourVariable110 2 (1 / 3) (1 / 2 * 2) (2 / 3) (1 / 10) 2 1 : ℂ) else 7) (1 / 2) .real 2 0 none) 1 =
      isfFeyFourVariable110 2 (1 / 3) (1 / 2 * 2) (2 / 3) (1 / 10) 2 1 := by
  obtain ⟨cf, hc, _⟩ := exists_curveFit fun _ _ => 0
  refine ⟨cf, hc, ?_⟩
  have := (C144_fixed_ratio hc 3 (fun i : ℕ => (i : ℝ))
    (fun i : ℕ => if i = 1 then (isfFeyFourVariable110 2 (1 / 3) (1 / 2 * 2) (2 / 3) (1 / 10) 2 1 : ℂ) else 7)
    (lam := 1 / 2) (by norm_num) .real 2 0 none (fr := 2) (fa := 1 / 3) (sa := 2 / 3) (offset := 1 / 10) (by norm_num)
    (by norm_num) (by norm_num) (by norm_num) (by norm_num) 2 (by norm_num) ?_).2.2.2.2 1 (by norm_num) (by norm_num) (by norm_num)
  · simpa [getMeasuredData] using this
  · intro i _ h1 h2
    have h1 : 0 < i := by exact_mod_cast h1
    have h2 : i < 2 := by exact_mod_cast h2
    obtain rfl : i = 1 := by omega
    simp [getMeasuredData]

/-- A solution of the equations exists when the decays are far enough apart. -/
example : ∃ nu lam, 0 < nu ∧ 0 < lam ∧ feyRateEquations ⟨10, 1 / 2, 1, 1 / 2, 0⟩ nu lam = (0, 0) := by
  rw [C144_extract_exists _ (by norm_num) (by norm_num)]
  refine ⟨by norm_num, ?_⟩
  have h3 : Real.pi / 2 < Real.sqrt 3 := by
    rw [Real.lt_sqrt (by positivity)]
    have := Real.pi_lt_d2
    have := Real.pi_pos
    nlinarith
  have : Real.cos (Real.sqrt 3) ≤ 0 := Real.cos_nonpos_of_pi_div_two_le_of_le h3.le (by
    have : Real.sqrt 3 < 2 := by rw [Real.sqrt_lt' (by norm_num)]; norm_num
    linarith [Real.pi_gt_three])
  norm_num
  linarith

end Verif
