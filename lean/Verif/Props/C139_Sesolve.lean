import Verif.Model.Sesolve
import Verif.Props.C32_Schrodinger
import Verif.Lemmas.Eigen
import Mathlib.Analysis.SpecialFunctions.Trigonometric.Basic

/-!
C139: the Schrödinger equation solved by qutip.
-/

set_option autoImplicit false

namespace Verif

open Finset Spec

variable {n : ℕ}

namespace Spec

/-- The documented contract of `qutip.sesolve`, without errors of discretisation: the states returned are those, at the given times, of
the trajectory with `i dψ/dt = H ψ` which has the given state at the first time. -/
def IsSesolve (n : ℕ) (sesolve : Matrix (Fin n) (Fin n) ℂ → (Fin n → ℂ) → ℕ → (ℕ → ℝ) → ℕ → Fin n → ℂ) : Prop :=
  ∀ (H : Matrix (Fin n) (Fin n) ℂ) (p : Fin n → ℂ) (N : ℕ) (times : ℕ → ℝ), H.IsHermitian → 0 < N →
    ∃ psi : ℝ → Fin n → ℂ, psi (times 0) = p ∧ SolvesSchrodinger 1 H psi ∧ ∀ k < N, sesolve H p N times k = psi (times k)

end Spec

/-- Solvers with this contract exist. -/
theorem exists_sesolve (n : ℕ) : ∃ sesolve, IsSesolve n sesolve := by
  classical
  refine ⟨fun H p _ times k => if h : H.IsHermitian then
    (NormedSpace.exp ((-Complex.I * (times k - times 0) : ℂ) • H)).mulVec p else p, fun H p N times hH hN => ?_⟩
  obtain ⟨lam, vec, hr⟩ := exists_isEigh H hH
  obtain ⟨psi, h1, h2, h3, _⟩ := C32_decomposition 1 one_pos H ⟨lam, vec⟩ hr p
  refine ⟨fun t => psi (t - times 0), by beta_reduce; rw [sub_self]; exact h2, fun t i => ?_, fun k hk => ?_⟩
  · obtain ⟨d, hd, he⟩ := h3 (t - times 0) i
    exact ⟨d, HasDerivAt.comp_sub_const t (times 0) hd, he⟩
  · have := C32_exp 1 H ⟨lam, vec⟩ hr p (times k - times 0)
    rw [h1, Option.some_inj] at this
    dsimp only
    rw [dif_pos hH, this]
    congr 3
    push_cast
    ring

/-- **C139.** `solve_schrodinger_equation` gives the states of the decomposition into eigenstates, with times counted from the first time: both
solvers agree if the first time is zero. -/
theorem C139_solution (sesolve : Matrix (Fin n) (Fin n) ℂ → (Fin n → ℂ) → ℕ → (ℕ → ℝ) → ℕ → Fin n → ℂ) (hq : IsSesolve n sesolve)
    (hbar : ℝ) (hh : 0 < hbar) (H : Matrix (Fin n) (Fin n) ℂ) (r : EigResult) (hr : IsEigh n n H r.eigenvalues r.vectors)
    (p : Fin n → ℂ) (times : TimeBasis) (k : ℕ) (hk : k < times.n) :
    solveSchrodingerDecomposition hbar H r p (times.times k - times.times 0) = some (solveSchrodingerQutip sesolve hbar H p times k) ∧
    (times.offset = 0 → solveSchrodingerDecomposition hbar H r p (times.times k) = some (solveSchrodingerQutip sesolve hbar H p times k)) := by
  have hb : (hbar : ℂ) ≠ 0 := Complex.ofReal_ne_zero.2 hh.ne'
  have main : solveSchrodingerDecomposition hbar H r p (times.times k - times.times 0) =
      some (solveSchrodingerQutip sesolve hbar H p times k) := by
    have hH' : (Matrix.of fun i j => H i j / (hbar : ℂ)).IsHermitian := by
      ext i j
      have := congrFun (congrFun hr.hermitian i) j
      rw [Matrix.conjTranspose_apply] at this
      rw [Matrix.conjTranspose_apply, Matrix.of_apply, Matrix.of_apply, star_div₀, this]
      congr 1
      exact Complex.conj_ofReal hbar
    obtain ⟨phi, p1, p2, p3⟩ := hq (Matrix.of fun i j => H i j / hbar) p times.n times.times hH' (by omega)
    obtain ⟨psi, h1, h2, h3, h4⟩ := C32_decomposition hbar hh H r hr p
    have e := h4 (fun t => phi (t + times.times 0)) (by rw [zero_add]; exact p1) fun t i => by
      obtain ⟨d, hd, he⟩ := p2 (t + times.times 0) i
      refine ⟨d, HasDerivAt.comp_add_const t (times.times 0) hd, ?_⟩
      rw [Complex.ofReal_one, mul_one] at he
      rw [mul_assoc, mul_comm (hbar : ℂ), ← mul_assoc, he, sum_mul]
      refine sum_congr rfl fun j _ => ?_
      rw [Matrix.of_apply]
      field_simp
    rw [h1, ← e]
    show some (phi (times.times k - times.times 0 + times.times 0)) = _
    rw [sub_add_cancel, ← p3 k hk]
    rfl
  refine ⟨main, fun h0 => ?_⟩
  have : times.times 0 = 0 := by unfold TimeBasis.times TimeBasis.ntPoints; rw [h0]; simp
  rwa [this, sub_zero] at main

/-- **C139.** The first state returned is the initial state whatever the first time. -/
theorem C139_initial (sesolve : Matrix (Fin n) (Fin n) ℂ → (Fin n → ℂ) → ℕ → (ℕ → ℝ) → ℕ → Fin n → ℂ) (hq : IsSesolve n sesolve)
    (hbar : ℝ) (hh : 0 < hbar) (H : Matrix (Fin n) (Fin n) ℂ) (hH : H.IsHermitian) (p : Fin n → ℂ) (times : TimeBasis) (hn : 0 < times.n) :
    solveSchrodingerQutip sesolve hbar H p times 0 = p := by
  obtain ⟨lam, vec, hr⟩ := exists_isEigh H hH
  obtain ⟨h, _⟩ := C139_solution sesolve hq hbar hh H ⟨lam, vec⟩ hr p times 0 hn
  obtain ⟨psi, h1, h2, _⟩ := C32_decomposition hbar hh H ⟨lam, vec⟩ hr p
  rw [sub_self, h1, h2, Option.some_inj] at h
  exact h.symm

/-- **C139 (negation).** For times which do not begin at zero (a time basis with an offset) the two solvers of the Schrödinger equation give
different states: for one state with energy `π ħ` and times `1, 2` the signs of all states are opposite. -/
theorem C139_offset_negation (sesolve : Matrix (Fin 1) (Fin 1) ℂ → (Fin 1 → ℂ) → ℕ → (ℕ → ℝ) → ℕ → Fin 1 → ℂ) (hq : IsSesolve 1 sesolve)
    (hbar : ℝ) (hh : 0 < hbar) (r : EigResult)
    (hr : IsEigh 1 1 (Matrix.diagonal fun _ => ((Real.pi * hbar : ℝ) : ℂ)) r.eigenvalues r.vectors) (p : Fin 1 → ℂ) (k : ℕ) (hk : k < 2) :
    solveSchrodingerDecomposition hbar (Matrix.diagonal fun _ => ((Real.pi * hbar : ℝ) : ℂ)) r p (TimeBasis.times ⟨2, 1, 1, 2⟩ k) =
      some (-solveSchrodingerQutip sesolve hbar (Matrix.diagonal fun _ => ((Real.pi * hbar : ℝ) : ℂ)) p ⟨2, 1, 1, 2⟩ k) := by
  have hb : (hbar : ℂ) ≠ 0 := Complex.ofReal_ne_zero.2 hh.ne'
  obtain ⟨h, _⟩ := C139_solution sesolve hq hbar hh _ r hr p ⟨2, 1, 1, 2⟩ k hk
  have hd := (C32_diagonal hbar hh (fun _ => ((Real.pi * hbar : ℝ) : ℂ)) (fun _ => p 0)).2.2 1 r hr
  have hp : (fun i : Fin 1 => p 0) = p := by funext i; rw [Subsingleton.elim i 0]
  simp only [hp] at hd
  rw [hd] at h ⊢
  rw [Option.some_inj] at h ⊢
  rw [← h]
  funext i
  have t0 : TimeBasis.times ⟨2, 1, 1, 2⟩ 0 = 1 := by
    unfold TimeBasis.times TimeBasis.ntPoints TimeBasis.fundamentalDt TimeBasis.fundamentalN; norm_num
  rw [t0]
  show p 0 * Complex.exp _ = -(p 0 * Complex.exp _)
  rw [show -Complex.I * (((Real.pi * hbar : ℝ)) : ℂ) * ((TimeBasis.times ⟨2, 1, 1, 2⟩ k : ℝ) : ℂ) / hbar =
    -Complex.I * (((Real.pi * hbar : ℝ)) : ℂ) * ((TimeBasis.times ⟨2, 1, 1, 2⟩ k - 1 : ℝ) : ℂ) / hbar - Real.pi * Complex.I by
      push_cast; field_simp; ring, Complex.exp_sub, Complex.exp_pi_mul_I]
  ring

-- hypotheses: a Hermitian matrix with two different energies, and times `0, 1/2, 1`
example : (!![1, Complex.I; -Complex.I, 3] : Matrix (Fin 2) (Fin 2) ℂ).IsHermitian ∧ (TimeBasis.times ⟨3, 2, 0, 3 / 2⟩ 2 = 1) := by
  constructor
  · ext i j
    fin_cases i <;> fin_cases j <;> simp [Matrix.conjTranspose_apply]
  · unfold TimeBasis.times TimeBasis.ntPoints TimeBasis.fundamentalDt TimeBasis.fundamentalN; norm_num

end Verif
