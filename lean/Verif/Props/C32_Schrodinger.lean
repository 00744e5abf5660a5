import Verif.Model.Dynamics
import Verif.Lemmas.Evolve

/-!
# C32, C33: unitary evolution
-/

set_option autoImplicit false

namespace Verif

open Finset Spec

variable {n : ℕ}

theorem decomposition_eq {H : Matrix (Fin n) (Fin n) ℂ} {r : EigResult} (hr : IsEigh n n H r.eigenvalues r.vectors)
    (p : Fin n → ℂ) :
    getStateVectorDecomposition (fun j i : Fin n => r.vectors i j) p = (vecMatrix n r.vectors)⁻¹.mulVec p := by
  rw [hr.inv_eq]
  rfl

theorem solve_eq {H : Matrix (Fin n) (Fin n) ℂ} {r : EigResult} (hr : IsEigh n n H r.eigenvalues r.vectors) (hbar : ℝ)
    (p : Fin n → ℂ) (t : ℝ) :
    solveSchrodingerDecomposition hbar H r p t = some fun i : Fin n => ∑ j : Fin n, ((vecMatrix n r.vectors)⁻¹.mulVec p) j *
      Complex.exp (r.eigenvalues j * (-Complex.I / hbar * t)) * r.vectors i j := by
  unfold solveSchrodingerDecomposition
  simp only [decomposition_eq hr]
  rw [if_pos ⟨hr.hermitian, funext fun i => sum_coeff hr.isEig p i⟩]
  congr 1
  funext i
  apply sum_congr rfl; intro j _
  congr 3
  ring

/-- A state trajectory `psi` satisfies the Schrödinger equation of `H`. -/
def SolvesSchrodinger (hbar : ℝ) (H : Matrix (Fin n) (Fin n) ℂ) (psi : ℝ → Fin n → ℂ) : Prop :=
  ∀ t i, ∃ d, HasDerivAt (fun s => psi s i) d t ∧ Complex.I * hbar * d = ∑ k, H i k * psi t k

/-- **C32.** For every Hermitian operator of any size the states returned by `solve_schrodinger_equation_decomposition`
start at the given state and satisfy `iħ dψ/dt = H ψ`, at every time; they are the only trajectory to do so. -/
theorem C32_decomposition (hbar : ℝ) (hh : 0 < hbar) (H : Matrix (Fin n) (Fin n) ℂ) (r : EigResult)
    (hr : IsEigh n n H r.eigenvalues r.vectors) (p : Fin n → ℂ) :
    ∃ psi : ℝ → Fin n → ℂ, (∀ t, solveSchrodingerDecomposition hbar H r p t = some (psi t)) ∧ psi 0 = p ∧
      SolvesSchrodinger hbar H psi ∧
      ∀ phi : ℝ → Fin n → ℂ, phi 0 = p → SolvesSchrodinger hbar H phi → phi = psi := by
  have hb : (hbar : ℂ) ≠ 0 := Complex.ofReal_ne_zero.2 hh.ne'
  have hI : Complex.I * hbar ≠ 0 := mul_ne_zero Complex.I_ne_zero hb
  have ha : Complex.I * hbar * (-Complex.I / hbar) = 1 := by
    field_simp
    rw [Complex.I_sq, neg_neg]
  refine ⟨fun t i => ∑ j : Fin n, ((vecMatrix n r.vectors)⁻¹.mulVec p) j *
      Complex.exp (r.eigenvalues j * (-Complex.I / hbar * t)) * r.vectors i j, solve_eq hr hbar p, ?_, ?_, ?_⟩
  · funext i
    simp only [Complex.ofReal_zero, mul_zero, Complex.exp_zero, mul_one]
    exact sum_coeff hr.isEig p i
  · intro t i
    refine ⟨_, hasDerivAt_evolve hr.2.1 _ (-Complex.I / hbar) t i, ?_⟩
    rw [← mul_assoc, ha, one_mul]
  · intro phi h0 hphi
    funext t
    rw [evolve_unique hr.isEig (-Complex.I / hbar) phi ?_ t, h0]
    intro s i
    obtain ⟨d, hd, he⟩ := hphi s i
    rw [← he, ← mul_assoc, mul_comm (-Complex.I / (hbar : ℂ)), ha, one_mul]
    exact hd

/-- **C32.** The result is the matrix exponential of the Hamiltonian applied to the initial state, whichever eigenvectors
the numerical routine picked. -/
theorem C32_exp (hbar : ℝ) (H : Matrix (Fin n) (Fin n) ℂ) (r : EigResult)
    (hr : IsEigh n n H r.eigenvalues r.vectors) (p : Fin n → ℂ) (t : ℝ) :
    solveSchrodingerDecomposition hbar H r p t =
      some ((NormedSpace.exp ((-Complex.I / hbar * t : ℂ) • H)).mulVec p) := by
  rw [solve_eq hr, evolve_eq_exp hr.isEig]

/-- **C32.** For an operator which is not Hermitian it raises. -/
theorem C32_raises (hbar : ℝ) (H : Matrix (Fin n) (Fin n) ℂ) (hH : H.conjTranspose ≠ H) (r : EigResult) (p : Fin n → ℂ)
    (t : ℝ) : solveSchrodingerDecomposition hbar H r p t = none := by
  unfold solveSchrodingerDecomposition
  rw [if_neg fun h => hH h.1]

/-- **C32.** The diagonal solver satisfies the Schrödinger equation of the diagonal operator, and agrees with the general
solver for it. -/
theorem C32_diagonal (hbar : ℝ) (hh : 0 < hbar) (d : ℕ → ℂ) (p : ℕ → ℂ) :
    (∀ i, solveSchrodingerDiagonal hbar d p 0 i = p i) ∧
    (∀ t i, ∃ v, HasDerivAt (fun s => solveSchrodingerDiagonal hbar d p s i) v t ∧
      Complex.I * hbar * v = d i * solveSchrodingerDiagonal hbar d p t i) ∧
    (∀ (n : ℕ) (r : EigResult), IsEigh n n (Matrix.diagonal fun i : Fin n => d i) r.eigenvalues r.vectors → ∀ t : ℝ,
      solveSchrodingerDecomposition hbar (Matrix.diagonal fun i : Fin n => d i) r (fun i => p i) t =
        some fun i : Fin n => solveSchrodingerDiagonal hbar d p t i) := by
  have hb : (hbar : ℂ) ≠ 0 := Complex.ofReal_ne_zero.2 hh.ne'
  refine ⟨fun i => by simp [solveSchrodingerDiagonal], fun t i => ?_, fun n r hr t => ?_⟩
  · have h2 : HasDerivAt (fun s : ℝ => -Complex.I * d i * (s : ℂ) / hbar) (-Complex.I * d i / hbar) t := by
      have h3 := (((hasDerivAt_id (t : ℂ)).comp_ofReal).const_mul (-Complex.I * d i)).div_const (hbar : ℂ)
      simpa using h3
    refine ⟨_, (h2.cexp).const_mul (p i), ?_⟩
    simp only [solveSchrodingerDiagonal]
    field_simp
    rw [Complex.I_sq]; ring
  · rw [C32_exp hbar _ r hr]
    congr 1
    rw [← Matrix.diagonal_smul, Matrix.exp_diagonal]
    funext i
    rw [Matrix.mulVec_diagonal, Pi.coe_exp, ← Complex.exp_eq_exp_ℂ]
    simp only [solveSchrodingerDiagonal, Pi.smul_apply, smul_eq_mul]
    rw [mul_comm]
    congr 2
    ring

/-- The inner product of two states. -/
def braket (u v : Fin n → ℂ) : ℂ := ∑ i, (starRingEnd ℂ) (u i) * v i

theorem exp_unitary (hbar : ℝ) (H : Matrix (Fin n) (Fin n) ℂ) (hH : H.conjTranspose = H) (t : ℝ) :
    (NormedSpace.exp ((-Complex.I / hbar * t : ℂ) • H)).conjTranspose * NormedSpace.exp ((-Complex.I / hbar * t : ℂ) • H) = 1 := by
  rw [← Matrix.exp_conjTranspose, Matrix.conjTranspose_smul, hH]
  have : star (-Complex.I / hbar * t : ℂ) = -(-Complex.I / hbar * t : ℂ) := by
    simp [Complex.conj_ofReal, div_eq_mul_inv]
  rw [this, neg_smul, Matrix.exp_neg, Matrix.nonsing_inv_mul]
  exact (Matrix.isUnit_iff_isUnit_det _).1 (Matrix.isUnit_exp _)

theorem braket_mulVec (U : Matrix (Fin n) (Fin n) ℂ) (u v : Fin n → ℂ) :
    braket (U.mulVec u) v = braket u (U.conjTranspose.mulVec v) := by
  have h : ∀ u v : Fin n → ℂ, braket u v = star u ⬝ᵥ v := fun _ _ => rfl
  rw [h, h, Matrix.star_mulVec, ← Matrix.dotProduct_mulVec]

/-- **C33.** Evolution preserves every inner product (so the norm) and the energy. -/
theorem C33_conserved (hbar : ℝ) (H : Matrix (Fin n) (Fin n) ℂ) (r r' : EigResult)
    (hr : IsEigh n n H r.eigenvalues r.vectors) (hr' : IsEigh n n H r'.eigenvalues r'.vectors) (p q : Fin n → ℂ) (t : ℝ)
    (pt qt : Fin n → ℂ) (hp : solveSchrodingerDecomposition hbar H r p t = some pt)
    (hq : solveSchrodingerDecomposition hbar H r' q t = some qt) :
    braket pt qt = braket p q ∧ braket pt (H.mulVec pt) = braket p (H.mulVec p) := by
  rw [C32_exp hbar H r hr] at hp
  rw [C32_exp hbar H r' hr'] at hq
  have hp' := Option.some.inj hp
  have hq' := Option.some.inj hq
  subst hp' hq'
  have hU := exp_unitary hbar H hr.hermitian t
  have hc : NormedSpace.exp ((-Complex.I / hbar * t : ℂ) • H) * H = H * NormedSpace.exp ((-Complex.I / hbar * t : ℂ) • H) :=
    (((Commute.refl H).smul_left _).exp_left).eq
  constructor
  · rw [braket_mulVec, Matrix.mulVec_mulVec, hU, Matrix.one_mulVec]
  · rw [braket_mulVec, Matrix.mulVec_mulVec, Matrix.mulVec_mulVec, Matrix.mul_assoc, ← hc, ← Matrix.mul_assoc, hU,
      Matrix.one_mul]

/-- **C33.** Evolving for `t` and then for `s` is evolving for `t + s`, whatever eigenvectors are picked each time; the
evolution for `-t` undoes the evolution for `t`. -/
theorem C33_compose (hbar : ℝ) (H : Matrix (Fin n) (Fin n) ℂ) (r r' r'' : EigResult)
    (hr : IsEigh n n H r.eigenvalues r.vectors) (hr' : IsEigh n n H r'.eigenvalues r'.vectors)
    (hr'' : IsEigh n n H r''.eigenvalues r''.vectors) (p : Fin n → ℂ) (t s : ℝ) (pt : Fin n → ℂ)
    (hp : solveSchrodingerDecomposition hbar H r p t = some pt) :
    solveSchrodingerDecomposition hbar H r' pt s = solveSchrodingerDecomposition hbar H r'' p (t + s) ∧
    solveSchrodingerDecomposition hbar H r' pt (-t) = some p := by
  rw [C32_exp hbar H r hr] at hp
  have hp' := Option.some.inj hp
  subst hp'
  have key : ∀ a b : ℂ, NormedSpace.exp (a • H) * NormedSpace.exp (b • H) = NormedSpace.exp ((a + b) • H) := by
    intro a b
    rw [add_smul, Matrix.exp_add_of_commute _ _ (((Commute.refl H).smul_left a).smul_right b)]
  rw [C32_exp hbar H r' hr', C32_exp hbar H r' hr', C32_exp hbar H r'' hr'', Matrix.mulVec_mulVec, Matrix.mulVec_mulVec,
    key, key]
  constructor
  · congr 4; push_cast; ring
  · have : (-Complex.I / hbar * (-t : ℝ) + -Complex.I / hbar * t : ℂ) = 0 := by push_cast; ring
    rw [this, zero_smul, NormedSpace.exp_zero, Matrix.one_mulVec]

/-- **C33.** With a real diagonal Hamiltonian the evolution only changes phases, and composes. -/
theorem C33_diagonal (hbar : ℝ) (d : ℕ → ℂ) (hd : ∀ i, (d i).im = 0) (p : ℕ → ℂ) (t s : ℝ) (i : ℕ) :
    ‖solveSchrodingerDiagonal hbar d p t i‖ = ‖p i‖ ∧
    solveSchrodingerDiagonal hbar d (solveSchrodingerDiagonal hbar d p t) s i =
      solveSchrodingerDiagonal hbar d p (t + s) i := by
  constructor
  · rw [solveSchrodingerDiagonal, norm_mul, Complex.norm_exp]
    have : (-Complex.I * d i * t / hbar : ℂ).re = 0 := by
      have h2 : d i = ((d i).re : ℂ) := Complex.ext rfl (by simp [hd i])
      rw [h2]
      have : (-Complex.I * ((d i).re : ℂ) * t / hbar : ℂ) = ((-((d i).re * t / hbar) : ℝ) : ℂ) * Complex.I := by
        push_cast; ring
      rw [this, Complex.re_ofReal_mul]; simp
    rw [this, Real.exp_zero, mul_one]
  · simp only [solveSchrodingerDiagonal]
    rw [mul_assoc, ← Complex.exp_add]
    congr 2
    push_cast; ring

/-- A two level system with coupling: the contract is met (for every Hermitian matrix, see `C26_contract`), the
evolution is not the identity, and states are not simply multiplied by phases. -/
example : ∃ r : EigResult, IsEigh 2 2 !![0, 1; 1, 0] r.eigenvalues r.vectors := by
  obtain ⟨lam, vec, h⟩ := exists_isEigh (n := 2) !![0, 1; 1, 0] (by ext i j; fin_cases i <;> fin_cases j <;> simp)
  exact ⟨⟨lam, vec⟩, h⟩

example : (!![0, 1; 0, 0] : Matrix (Fin 2) (Fin 2) ℂ).conjTranspose ≠ !![0, 1; 0, 0] := by
  intro h; simpa using congrFun (congrFun h 0) 1

end Verif
