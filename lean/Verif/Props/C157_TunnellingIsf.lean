import Verif.Model.TunnellingIsf
import Verif.Props.C34_Tunnelling
import Verif.Props.C42_Isf

/-!
# C157: the scattering function of a tunnelling simulation
-/

set_option autoImplicit false

namespace Verif

open Finset Spec

theorem flatOf_sum {n : ℕ} (p : Fin n → ℝ) : ∑ s ∈ range n, flatOf p s = ∑ i, p i := by
  rw [← Fin.sum_univ_eq_sum_range]
  exact sum_congr rfl fun i _ => by rw [flatOf, dif_pos i.isLt]

/-- A simulation of `n0 × n1` cells with `nb` bands. -/
def Spec.simulationBasis (n0 n1 nb : ℕ) (locations : ℕ → Fin 2 → ℝ) (cell : Matrix (Fin 2) (Fin 2) ℝ) : TunnellingBasis :=
  .tuple [.fundamental n0, .fundamental n1, .bands nb locations cell]

theorem simulationBasis_n (n0 n1 nb : ℕ) (locations : ℕ → Fin 2 → ℝ) (cell : Matrix (Fin 2) (Fin 2) ℝ) :
    (simulationBasis n0 n1 nb locations cell).n = n0 * n1 * nb := by
  unfold simulationBasis
  rw [TunnellingBasis.n]
  simp only [TunnellingBasis.sizes, TunnellingBasis.n, List.prod_cons, List.prod_nil]
  ring

/-- **C157 (partial).** If the occupations are given on the basis of the simulation, the scattering function of the simulation of a rate matrix is the mean of the phases of
the displacements over the occupations at each time, has modulus at most one at all times, and is one at the time zero if a single state is occupied at first.
Missing: the function `calculate_isf_at_times` itself, see `C157_isf_negation`. -/
theorem C157_isf_partial (n0 n1 nb : ℕ) (locations : ℕ → Fin 2 → ℝ) (cell : Matrix (Fin 2) (Fin 2) ℝ) (b : TunnellingBasis)
    (hb : b = simulationBasis n0 n1 nb locations cell) (hn : 0 < b.n) (M : Matrix (Fin b.n) (Fin b.n) ℂ) (hM : Generator M) (r : EigResult)
    (hr : IsEig b.n M r.eigenvalues r.vectors) (p : Fin b.n → ℂ) (hp : ∀ i, 0 ≤ (p i).re ∧ (p i).im = 0) (h1 : ∑ i, p i = 1) (times : ℕ → ℝ)
    (ht : ∀ t, 0 ≤ times t) (dk : Fin 2 → ℝ) :
    ∃ f, isfOnBasis b (flatOf (densityMatrixAsProbability p))
        (fun t => flatOf (densityMatrixAsProbability (calculateTunnellingSimulationState r p (times t)))) dk = some f ∧
      (∀ t, ‖f t‖ ≤ 1) ∧
      (∀ t, f t = isfApproximateLocations cell locations n0 n1 nb (flatOf (densityMatrixAsProbability p))
        (flatOf (densityMatrixAsProbability (calculateTunnellingSimulationState r p (times t)))) dk) ∧
      ∀ t, times t = 0 → (∃ i, p = Pi.single i 1) → f t = 1 := by
  have hN : b.n = n0 * n1 * nb := by rw [hb, simulationBasis_n]
  refine ⟨fun t => isfApproximateLocations cell locations n0 n1 nb (flatOf (densityMatrixAsProbability p))
    (flatOf (densityMatrixAsProbability (calculateTunnellingSimulationState r p (times t)))) dk, ?_, fun t => ?_, fun t => rfl, fun t h0 => ?_⟩
  · have e : ∀ (initial : ℕ → ℝ) (final : ℕ → ℕ → ℝ), isfOnBasis b initial final dk =
        some fun t => isfApproximateLocations cell locations n0 n1 nb initial (final t) dk := by
      intro initial final
      rw [hb]
      simp [isfOnBasis, simulationBasis, TunnellingBasis.item, TunnellingBasis.n]
    exact e _ _
  · refine C44_bounded cell locations n0 n1 nb _ _ dk (fun s hs => ?_) ?_
    · rw [flatOf]
      split_ifs with h
      · exact (C36_nonneg hn M hM r hr p hp (times t) (ht t) ⟨s, h⟩).1
      · exact le_refl _
    · rw [← hN, flatOf_sum]
      have h2 := (C36_simulation hn M hM r hr p).2.2.2 (times t)
      rw [h1] at h2
      have h3 := congrArg Complex.re h2
      rw [Complex.re_sum, Complex.one_re] at h3
      exact h3
  · rintro ⟨i, rfl⟩
    have hf : flatOf (densityMatrixAsProbability (Pi.single i 1 : Fin b.n → ℂ)) = fun s => if s = i.val then 1 else 0 := by
      funext s
      unfold flatOf densityMatrixAsProbability
      by_cases h : s = i.val
      · subst h
        rw [dif_pos i.isLt, if_pos rfl]
        simp
      · rw [if_neg h]
        split_ifs with h'
        · rw [Pi.single_eq_of_ne (fun e => h (by rw [← e]))]
          simp
        · rfl
    dsimp only
    rw [h0, (C36_simulation hn M hM r hr _).1, hf]
    exact C44_initial_partial cell locations n0 n1 nb i.val (by rw [← hN]; exact i.isLt) dk

-- six cells with two bands, and hops between all states
example : ∃ (b : TunnellingBasis) (M : Matrix (Fin b.n) (Fin b.n) ℂ), b = simulationBasis 2 3 2 (fun _ => 0) 1 ∧ 0 < b.n ∧ Generator M ∧ M ≠ 0 := by
  have hn : (simulationBasis 2 3 2 (fun _ => 0) 1).n = 12 := by rw [simulationBasis_n]
  refine ⟨simulationBasis 2 3 2 (fun _ => 0) 1, Matrix.of fun i j => 1 - if i = j then ((simulationBasis 2 3 2 (fun _ => 0) 1).n : ℂ) else 0, rfl,
    by omega, ⟨fun i j h => by simp [h], fun j => by simp⟩, fun h => ?_⟩
  have := congrFun (congrFun h ⟨0, by omega⟩) ⟨1, by omega⟩
  simp at this

/-- **C157 (negation).** `calculate_isf_at_times` always raises: the occupations have the pair of bases of the density matrix, which has no third entry. -/
theorem C157_isf_negation (b : TunnellingBasis) (r : EigResult) (initial : Fin b.n → ℂ) (times : ℕ → ℝ) (dk : Fin 2 → ℝ) :
    isfAtTimes b r initial times dk = none := by
  simp [isfAtTimes, probabilityBasis, isfOnBasis, TunnellingBasis.item]

/-- **C157 (negation).** The functions which average over the equilibrium occupation of the bands always raise. -/
theorem C157_equilibrium_negation (b0 b1 : TunnellingBasis) : equilibriumBands (.tuple [b0, b1]) = none := by
  simp [equilibriumBands, TunnellingBasis.shape, TunnellingBasis.sizes]

/-- **C157 (negation).** Jump rates cannot be read from a matrix of rates, and no matrix of rates can be resampled or restricted to its first bands: this always raises. -/
theorem C157_jump_negation (b0 b1 : TunnellingBasis) (data : ℕ → ℂ) :
    getJumpMatrixFromAMatrix (.tuple [b0, b1]) data = none ∧
    (∀ B shape nBands, resampleTunnellingAMatrix (.tuple [b0, b1]) data B shape nBands = none) ∧
    getAMatrixReducedBands (.tuple [b0, b1]) data = none := by
  have h1 : getJumpMatrixFromAMatrix (.tuple [b0, b1]) data = none := by simp [getJumpMatrixFromAMatrix, TunnellingBasis.item]
  refine ⟨h1, fun B shape nBands => by rw [resampleTunnellingAMatrix, h1]; rfl, ?_⟩
  have h2 : ∀ shape, reshapedTwice (.tuple [b0, b1]) = some shape → shape.length ≠ 6 := by
    intro shape h
    simp only [reshapedTwice, TunnellingBasis.shape, TunnellingBasis.sizes, Option.bind_some] at h
    split_ifs at h
    injection h with h
    rw [← h]
    simp
  rw [getAMatrixReducedBands, Option.eq_none_iff_forall_not_mem]
  intro f hf
  simp only [Option.mem_def, Option.bind_eq_some_iff] at hf
  obtain ⟨_, _, _, _, _, _, _, _, shape, hs, h⟩ := hf
  rw [if_neg (h2 shape hs)] at h
  cases h

end Verif
