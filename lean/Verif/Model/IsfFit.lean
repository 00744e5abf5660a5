import Verif.Model.Isf
import Verif.Model.Util

/-! # Fits of scattering functions (`dynamics/isf.py`)

`scipy.optimize.curve_fit` and `scipy.optimize.fsolve` are parameters; the properties say what is assumed of them. -/

set_option autoImplicit false

namespace Verif

/-- The dataclass `ISF4VariableFit`, `dynamics/isf.py:116-124`. -/
structure FourVariableFit where
  fastRate : ℝ
  fastAmplitude : ℝ
  slowRate : ℝ
  slowAmplitude : ℝ
  baseline : ℝ

/-- The dataclass `ISFFeyModelFit`, `dynamics/isf.py:198-203`. -/
structure FeyFit where
  fastRate : ℝ
  slowRate : ℝ
  aDk : ℝ

/-- The dataclass `ISFFey4VariableFit`, `dynamics/isf.py:246-255`. -/
structure FeyFourVariableFit where
  aDk : ℝ
  fastRate : ℝ
  fastAmplitude : ℝ
  slowRate : ℝ
  slowAmplitude : ℝ
  offset : ℝ

/-- The type of `scipy.optimize.curve_fit` as it is called in `dynamics/isf.py:153-194`: the function of parameters and
time, the points (time and value), the first guess and the bounds (`none` for `np.inf`), giving the best parameters. -/
abbrev CurveFit := (k : ℕ) → ((Fin k → ℝ) → ℝ → ℝ) → List (ℝ × ℝ) → (p0 lower : Fin k → ℝ) → (upper : Fin k → Option ℝ) →
  Fin k → ℝ

/-- The points of `fit_isf_to_double_exponential`, `dynamics/isf.py:153-194`, and of the other fits before any are left
out. -/
noncomputable def fitPoints (n : ℕ) (times : ℕ → ℝ) (data : ℕ → ℂ) (measure : Measure) : List (ℝ × ℝ) :=
  (List.range n).map fun i => (times i, getMeasuredData data measure i)

/-- `fit_isf_to_double_exponential`, `dynamics/isf.py:153-194`. -/
noncomputable def fitDoubleExponential (curveFit : CurveFit) (n : ℕ) (times : ℕ → ℝ) (data : ℕ → ℂ) (measure : Measure) :
    FourVariableFit :=
  let f (p : Fin 4 → ℝ) (t : ℝ) : ℝ := p 0 * Real.exp (-(p 1) * t) + p 2 * Real.exp (-(p 3) * t) + (1 - p 0 - p 2)
  let params := curveFit 4 f (fitPoints n times data measure) ![0.5, 2e10, 0.5, 1e10] ![0, 0, 0, 0]
    ![some 1, none, some 1, none]
  ⟨params 1, params 0, params 3, params 2, 1 - params 0 - params 2⟩

/-- `get_isf_from_4_variable_fit`, `dynamics/isf.py:127-150`, for a fit. -/
noncomputable def isfOfFourVariableFit (fit : FourVariableFit) (t : ℝ) : ℝ :=
  isfFourVariable fit.fastRate fit.fastAmplitude fit.slowRate fit.slowAmplitude fit.baseline t

/-- `_func` of `extract_fey_rate_from_4_variables_fit_112bar`, `dynamics/isf.py:206-243`. -/
noncomputable def feyRateEquations (fit : FourVariableFit) (nu lam : ℝ) : ℝ × ℝ :=
  let aDk := 2
  let y := Real.sqrt (lam ^ 2 + 2 * lam * (8 * Real.cos (aDk * Real.sqrt 3 / 2) + 1) / 9 + 1)
  (nu * (lam + 1 + y) / (2 * lam) - fit.fastRate, nu * (lam + 1 - y) / (2 * lam) - fit.slowRate)

/-- `extract_fey_rate_from_4_variables_fit_112bar`, `dynamics/isf.py:206-243`. `fsolve` is given the function and the first
guess. The warning is not modelled. -/
noncomputable def extractFeyRate112bar (fsolve : (ℝ → ℝ → ℝ × ℝ) → ℝ × ℝ → ℝ × ℝ) (fit : FourVariableFit) : FeyFit :=
  let result := fsolve (feyRateEquations fit) (fit.slowRate, fit.slowRate / fit.fastRate)
  let feySlow := result.1
  let feyFast := result.1 / result.2
  ⟨feyFast, feySlow, 2⟩

/-- `get_isf_from_fey_4_variable_model_110`, `dynamics/isf.py:297-323`, at one time. -/
noncomputable def isfOfFeyFourVariableFit (fit : FeyFourVariableFit) (t : ℝ) : ℝ :=
  isfFeyFourVariable110 fit.fastRate fit.fastAmplitude fit.slowRate fit.slowAmplitude fit.offset fit.aDk t

/-- `fit_isf_to_fey_4_variable_model_110_fixed_ratio`, `dynamics/isf.py:326-383`. The standard deviations are not used by
the code. -/
noncomputable def fitFeyFourVariableFixedRatio (curveFit : CurveFit) (n : ℕ) (times : ℕ → ℝ) (data : ℕ → ℂ) (lam : ℝ)
    (measure : Measure) (aDk startT : ℝ) (endT : Option ℝ) : FeyFourVariableFit :=
  let last := endT.getD (times (n - 1))
  let points := (fitPoints n times data measure).filter fun p => startT < p.1 ∧ p.1 < last
  let f (p : Fin 4 → ℝ) (t : ℝ) : ℝ := isfFeyFourVariable110 (p 0) (p 1) (lam * p 0) (p 2) (p 3) aDk t
  let params := curveFit 4 f points ![1.4e9, lam / (1 + lam), 1 / (1 + lam), 0.05] ![0, 0, 0, 0]
    ![none, none, none, some 0.2]
  ⟨aDk, params 0, params 1, lam * params 0, params 2, params 3⟩

/-- `fit_isf_to_fey_4_variable_model_110`, `dynamics/isf.py:392-450`. The standard deviations are not used by the code. -/
noncomputable def fitFeyFourVariable (curveFit : CurveFit) (n : ℕ) (times : ℕ → ℝ) (data : ℕ → ℂ) (measure : Measure)
    (aDk startT : ℝ) : FeyFourVariableFit :=
  let points := (fitPoints n times data measure).filter fun p => startT < p.1
  let f (p : Fin 5 → ℝ) (t : ℝ) : ℝ := isfFeyFourVariable110 (p 0) (p 1) (p 2) (p 3) (p 4) aDk t
  let params := curveFit 5 f points ![1.4e9, 0.2, 0.7e9, 0.8, 0.05] ![0, 0, 0, 0, 0] ![none, none, none, none, some 0.2]
  ⟨aDk, params 0, params 1, params 2, params 3, params 4⟩

/-- `get_isf_from_fey_model_fit_110`, `dynamics/isf.py:527-547`, at one time. -/
noncomputable def isfOfFeyFit110 (fit : FeyFit) (t : ℝ) : ℝ := isfFey110 fit.fastRate fit.slowRate fit.aDk t

/-- `get_isf_from_fey_model_fit_112bar`, `dynamics/isf.py:550-570`, at one time. -/
noncomputable def isfOfFeyFit112bar (fit : FeyFit) (t : ℝ) : ℝ := isfFey112bar fit.fastRate fit.slowRate fit.aDk t

/-- `fit_isf_to_fey_model_110`, `dynamics/isf.py:573-607`. -/
noncomputable def fitFey110 (curveFit : CurveFit) (n : ℕ) (times : ℕ → ℝ) (data : ℕ → ℂ) (measure : Measure) (aDk : ℝ) :
    FeyFit :=
  let f (p : Fin 2 → ℝ) (t : ℝ) : ℝ := isfFey110 (p 0) (p 1) aDk t
  let params := curveFit 2 f (fitPoints n times data measure) ![1.4e9, 3e8] ![0, 0] ![none, none]
  ⟨params 0, params 1, aDk⟩

/-- `fit_isf_to_fey_model_112bar`, `dynamics/isf.py:610-644`. -/
noncomputable def fitFey112bar (curveFit : CurveFit) (n : ℕ) (times : ℕ → ℝ) (data : ℕ → ℂ) (measure : Measure) (aDk : ℝ) :
    FeyFit :=
  let f (p : Fin 2 → ℝ) (t : ℝ) : ℝ := isfFey112bar (p 0) (p 1) aDk t
  let params := curveFit 2 f (fitPoints n times data measure) ![2e10, 1e10] ![0, 0] ![none, none]
  ⟨params 0, params 1, aDk⟩

end Verif
