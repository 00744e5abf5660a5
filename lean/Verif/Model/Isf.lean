import Verif.Model.Geometry
import Verif.Model.Dynamics
import Mathlib.Analysis.SpecialFunctions.Trigonometric.Basic
import Mathlib.Analysis.SpecialFunctions.Sqrt
import Mathlib.Analysis.SpecialFunctions.Pow.Real
import Mathlib.MeasureTheory.Integral.IntervalIntegral.Basic

/-!
`dynamics/isf.py`, `dynamics/incoherent_propagation/isf.py`, `dynamics/hermitian_gamma_integral.py`.

Fits (`scipy.optimize`) are not modelled; `scipy.integrate.quad` is the integral. Physical constants are parameters.
-/

set_option autoImplicit false

namespace Verif

open Finset

/-! ## Intermediate scattering functions -/

/-- `_calculate_approximate_locations`, `dynamics/isf.py:52-61`, and `_get_location_offsets_per_band`,
`dynamics/isf.py:46-49`: the location of band `b` in the unit cell `(i, j)`. -/
def approximateLocation (cell : Matrix (Fin 2) (Fin 2) ℝ) (bandLocations : ℕ → Fin 2 → ℝ) (i j b : ℕ) : Fin 2 → ℝ :=
  tensordot00 cell ![(i : ℝ), (j : ℝ)] + tensordot00 cell (bandLocations b)

/-- The flat list of locations of a supercell with shape `(n0, n1, nb)` (`dynamics/isf.py:52-62`). -/
def flatLocation (cell : Matrix (Fin 2) (Fin 2) ℝ) (bandLocations : ℕ → Fin 2 → ℝ) (n1 nb : ℕ) (s : ℕ) : Fin 2 → ℝ :=
  approximateLocation cell bandLocations (s / (n1 * nb)) (s / nb % n1) (s % nb)

/-- `calculate_isf_approximate_locations`, `dynamics/isf.py:65-113`, at one time: `final` is the occupation at that time.
`np.average` with weights. -/
noncomputable def isfApproximateLocations (cell : Matrix (Fin 2) (Fin 2) ℝ) (bandLocations : ℕ → Fin 2 → ℝ)
    (n0 n1 nb : ℕ) (initial final : ℕ → ℝ) (dk : Fin 2 → ℝ) : ℂ :=
  let location := flatLocation cell bandLocations n1 nb
  let mean : Fin 2 → ℝ := fun c =>
    (∑ s ∈ range (n0 * n1 * nb), location s c * initial s) / ∑ s ∈ range (n0 * n1 * nb), initial s
  let supercell : Matrix (Fin 2) (Fin 2) ℝ := Matrix.of ![fun c => cell 0 c * n0, fun c => cell 1 c * n1]
  ∑ s ∈ range (n0 * n1 * nb),
    Complex.exp (Complex.I * (dk ⬝ᵥ wrapXPoint supercell (location s - mean) 0 : ℝ)) * final s

/-- `get_isf_from_4_variable_fit`, `dynamics/isf.py:127-150`, with the fields of `ISF4VariableFit`, at one time. -/
noncomputable def isfFourVariable (fastRate fastAmplitude slowRate slowAmplitude baseline t : ℝ) : ℝ :=
  fastAmplitude * Real.exp (-fastRate * t) + slowAmplitude * Real.exp (-slowRate * t) + baseline

/-- `z` of `calculate_isf_fey_model_110`, `dynamics/isf.py:453-490`. -/
noncomputable def feyZ (lam aDk : ℝ) : ℝ :=
  Real.sqrt (9 * lam ^ 2 + 16 * lam * Real.cos (aDk / 2) ^ 2 + 16 * lam * Real.cos (aDk / 2) - 14 * lam + 9)

/-- `calculate_isf_fey_model_110`, `dynamics/isf.py:453-490`, at one time. -/
noncomputable def isfFey110 (fastRate slowRate aDk t : ℝ) : ℝ :=
  let lam := slowRate / fastRate
  let z := feyZ lam aDk
  let top := 4 * Real.cos (aDk / 2) + 2
  let n0 := 1 + lam * (top / (3 * lam - 3 + z)) ^ 2
  let n1 := 1 + lam * (top / (3 * lam - 3 - z)) ^ 2
  let norm0 := |1 - lam * top / (3 * lam - 3 + z)| ^ 2
  let norm1 := |1 - lam * top / (3 * lam - 3 - z)| ^ 2
  let c0 := 1 / (1 + lam)
  c0 * (norm0 / n0 * Real.exp (-slowRate * (3 * lam + 3 + z) * t / (6 * lam)) +
    norm1 / n1 * Real.exp (-slowRate * (3 * lam + 3 - z) * t / (6 * lam)))

/-- `y` of `calculate_isf_fey_model_112bar`, `dynamics/isf.py:493-524`. -/
noncomputable def feyY (lam aDk : ℝ) : ℝ :=
  Real.sqrt (lam ^ 2 + 2 * lam * (8 * Real.cos (aDk * Real.sqrt 3 / 2) + 1) / 9 + 1)

/-- `calculate_isf_fey_model_112bar`, `dynamics/isf.py:493-524`, at one time. -/
noncomputable def isfFey112bar (fastRate slowRate aDk t : ℝ) : ℝ :=
  let lam := slowRate / fastRate
  let y := feyY lam aDk
  let top : ℂ := Complex.exp (Complex.I * aDk / Real.sqrt 3) + 2 * Complex.exp (-Complex.I * aDk / Real.sqrt 12)
  let m0 := 1 + 4 * lam * ‖top / ((3 * lam - 3 + 3 * y : ℝ) : ℂ)‖ ^ 2
  let m1 := 1 + 4 * lam * ‖top / ((3 * lam - 3 - 3 * y : ℝ) : ℂ)‖ ^ 2
  let norm0 := ‖1 - 2 * lam * top / ((3 * lam - 3 + 3 * y : ℝ) : ℂ)‖ ^ 2
  let norm1 := ‖1 - 2 * lam * top / ((3 * lam - 3 - 3 * y : ℝ) : ℂ)‖ ^ 2
  let c0 := 1 / (1 + lam)
  c0 * (norm0 / m0 * Real.exp (-slowRate * (lam + 1 + y) * t / (2 * lam)) +
    norm1 / m1 * Real.exp (-slowRate * (lam + 1 - y) * t / (2 * lam)))

/-- `calculate_isf_fey_4_variable_model_110`, `dynamics/isf.py:258-294`, at one time. -/
noncomputable def isfFeyFourVariable110 (fastRate fastAmplitude slowRate slowAmplitude offset aDk t : ℝ) : ℝ :=
  let lam := slowRate / fastRate
  let z := feyZ lam aDk
  fastAmplitude * Real.exp (-slowRate * (3 * lam + 3 + z) * t / (6 * lam)) +
    slowAmplitude * Real.exp (-slowRate * (3 * lam + 3 - z) * t / (6 * lam)) + offset

/-! ## Rate decomposition -/

/-- The result of `get_rate_decomposition`, `dynamics/incoherent_propagation/isf.py:201-218`: the field called
`eigenvalues` (an array and its length; the code stores the flat array of eigen*states*), and the coefficients. -/
structure RateDecomposition (n : ℕ) where
  length : ℕ
  eigenvalues : ℕ → ℂ
  coefficients : Fin n → ℂ

/-- `get_rate_decomposition`, `dynamics/incoherent_propagation/isf.py:201-218`, given the result of `np.linalg.eig` for the
rate matrix; row `j` of `data` is eigenvector `j`. -/
noncomputable def getRateDecomposition {n : ℕ} (r : EigResult) (initial : Fin n → ℂ) : RateDecomposition n :=
  let l := calculateTunnellingEigenstates n r
  ⟨n * n, fun k => l.vectors (k / n) (k % n), getOperatorStateVectorDecomposition initial l⟩

/-! ## Occupation and potential integrals -/

/-- `_get_delta_e`, `dynamics/hermitian_gamma_integral.py:46-52`. -/
noncomputable def getDeltaE (hbar me k0 k1 : ℝ) : ℝ := (hbar * k0) ^ 2 / (2 * me) - (hbar * k1) ^ 2 / (2 * me)

/-- `_get_fermi_occupation`, `dynamics/hermitian_gamma_integral.py:55-61`. -/
noncomputable def fermiOccupation (hbar me k kf kT : ℝ) : ℝ := 1 / (1 + Real.exp (getDeltaE hbar me k kf / kT))

/-- `k_3` of `get_hermitian_gamma_occupation_integrand`, `dynamics/hermitian_gamma_integral.py:64-89`. -/
noncomputable def scatteredK (hbar me k omega : ℝ) : ℝ := Real.sqrt (k ^ 2 + 2 * me * omega / hbar ^ 2)

/-- `get_hermitian_gamma_occupation_integrand`, `dynamics/hermitian_gamma_integral.py:64-89`. -/
noncomputable def occupationIntegrand (hbar me k omega kf kT : ℝ) : ℝ :=
  fermiOccupation hbar me k kf kT * (1 - fermiOccupation hbar me (scatteredK hbar me k omega) kf kT)

/-- `calculate_hermitian_gamma_occupation_integral`, `dynamics/hermitian_gamma_integral.py:92-117`. -/
noncomputable def occupationIntegral (hbar me omega kf kT : ℝ) : ℝ :=
  let dk := 2 * kT * me / (hbar ^ 2 * kf)
  ∫ k in (kf - 20 * dk)..(kf + 20 * dk), occupationIntegrand hbar me k omega kf kT

/-- `_calculate_real_gamma_prefactor`, `dynamics/hermitian_gamma_integral.py:120-121`. -/
noncomputable def gammaPrefactor (hbar me kf : ℝ) : ℝ := 4 * me * kf ^ 3 / (hbar ^ 3 * (2 * Real.pi) ^ 3)

/-- `alpha` of `_get_coulomb_potential`, `dynamics/hermitian_gamma_integral.py:124-141`. -/
noncomputable def coulombAlpha (hbar me e eps : ℝ) : ℝ := 2 / (4 * Real.pi * eps * hbar ^ 2 / (e ^ 2 * me))

/-- `small_q_limit` of `_get_coulomb_potential`, `dynamics/hermitian_gamma_integral.py:124-141`. -/
noncomputable def coulombSmall (hbar me e eps q : ℝ) : ℝ :=
  -2 * (e ^ 2 / (eps * coulombAlpha hbar me e eps ^ 2)) * (1 - 3 / 2 * (q / coulombAlpha hbar me e eps) ^ 2)

/-- `full_expression` of `_get_coulomb_potential`, `dynamics/hermitian_gamma_integral.py:124-141`. -/
noncomputable def coulombFull (hbar me e eps q : ℝ) : ℝ :=
  e ^ 2 / (eps * q ^ 2) * ((1 / (1 + (q / coulombAlpha hbar me e eps) ^ 2)) ^ 2 - 1)

open Classical in
/-- `_get_coulomb_potential`, `dynamics/hermitian_gamma_integral.py:124-141`; `np.isclose(x, 0)` is `|x| ≤ 1e-8`. -/
noncomputable def coulombPotential (hbar me e eps q : ℝ) : ℝ :=
  if |q / coulombAlpha hbar me e eps| ≤ 1e-8 then coulombSmall hbar me e eps q else coulombFull hbar me e eps q

/-- `_get_hopping_potential_integrand`, `dynamics/hermitian_gamma_integral.py:144-164`. -/
noncomputable def hoppingIntegrand (hbar me e eps kf : ℝ) (overlap : ℝ → ℂ) (phi : ℝ) : ℂ :=
  let q := kf * Real.sin (phi / 2)
  gammaPrefactor hbar me kf * Real.sin phi * (coulombPotential hbar me e eps q : ℂ) ^ 2 * overlap q

/-- `calculate_hermitian_gamma_potential_integral`, `dynamics/hermitian_gamma_integral.py:183-213`, through `_complex_quad`
(168-181), which integrates the real and the imaginary part. -/
noncomputable def potentialIntegral (hbar me e eps kf : ℝ) (overlap : ℝ → ℂ) : ℂ :=
  ((∫ phi in (0 : ℝ)..Real.pi, (hoppingIntegrand hbar me e eps kf overlap phi).re : ℝ) : ℂ) +
    Complex.I * ((∫ phi in (0 : ℝ)..Real.pi, (hoppingIntegrand hbar me e eps kf overlap phi).im : ℝ) : ℂ)

/-- `calculate_real_gamma_integral`, `dynamics/hermitian_gamma_integral.py:216-239`. -/
noncomputable def realGammaIntegral (hbar me e eps omega kf kT : ℝ) (overlap : ℝ → ℂ) : ℂ :=
  potentialIntegral hbar me e eps kf overlap * (occupationIntegral hbar me omega kf kT : ℂ)

end Verif
