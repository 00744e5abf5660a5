import Verif.Model.ProbabilityConvert
import Verif.Props.C126_PlotSlices

/-!
# C125: conversion of probability vectors
-/

set_option autoImplicit false

namespace Verif

open Finset Spec

namespace Spec

/-- Every state of the basis is a single point of the grid: state `j` is the point `at j`. -/
def PointStates (b : Basis) (at_ : ℕ → ℕ) : Prop :=
  ∀ j < size b, at_ j < points b ∧ ∀ x < points b, state b j x = if x = at_ j then 1 else 0

end Spec

/-- **C125.** For a basis whose states are points of the grid, `convert_probability_vector_to_position_basis` gives the
probability of each point of the grid: the sum of the probabilities of the states at this point. The total probability does not
change. Only part of the claim, which is about any basis: see `C125_momentum_negation`. -/
theorem C125_position_partial (same : Basis → Basis → Bool) (hs : Sound same) (b : Basis) (hb : Valid b) (ho : OrthonormalParts b)
    (at_ : ℕ → ℕ) (hat : PointStates b at_) (p : ℕ → ℂ) :
    ∃ q, convertProbabilityToPosition same b p = some q ∧
      (∀ x < points b, q x = ∑ j ∈ (range (size b)).filter (fun j => at_ j = x), p j) ∧
      ∑ x ∈ range (points b), q x = ∑ j ∈ range (size b), p j := by
  obtain ⟨f, hf, kf⟩ := convert_position same hs b hb ho b.fundamentalShape (compatible_symm _ _ (compatible_asPosition' b))
  have hp := fundamentalShape_prod b
  have hq : ∀ x < points b, f p x = ∑ j ∈ (range (size b)).filter (fun j => at_ j = x), p j := by
    intro x hx
    rw [kf p x (by rw [hp]; exact hx), expand, sum_filter]
    apply sum_congr rfl
    intro j hj
    rw [(hat j (mem_range.1 hj)).2 x hx]
    by_cases h : at_ j = x
    · rw [if_pos h, if_pos h.symm, mul_one]
    · rw [if_neg h, if_neg (Ne.symm h), mul_zero]
  refine ⟨f p, ?_, hq, ?_⟩
  · unfold convertProbabilityToPosition convertProbabilityVector
    rw [show b.asPositionBasis = .tuple (b.fundamentalShape.map .fundamental) from rfl, hf]
    rfl
  · rw [sum_congr rfl fun x hx => hq x (mem_range.1 hx)]
    exact sum_fiberwise_of_maps_to (fun j hj => mem_range.2 (hat j (mem_range.1 hj)).1) p

-- every second point of a grid of four points
example : PointStates (.evenlySpaced 2 2 0) (fun j => 2 * j) := by
  intro j hj
  have hj' : j < 2 := hj
  refine ⟨by show 2 * j < 4; omega, fun x hx => ?_⟩
  have hx' : x < 4 := hx
  interval_cases j <;> interval_cases x <;> simp [state]

/-- **C125.** Converting a list of probability vectors converts each of them. -/
theorem C125_list (same : Basis → Basis → Bool) (hs : Sound same) (b c : Basis) (hb : Valid b) (hc : Valid c) (ho : OrthonormalParts b)
    (hbc : Compatible b c) (data : ℕ → ℂ) :
    ∃ q, convertProbabilityVectorList same b c data = some q ∧
      ∀ i, ∃ qi, convertProbabilityVector same b c (fun j => data (i * size b + j)) = some qi ∧
        ∀ j < size c, q (i * size c + j) = qi j := by
  obtain ⟨f, hf, _⟩ := C10_route same hs b c hb hc ho hbc
  refine ⟨flatten c.n fun i => f (block b.n data i), ?_, fun i => ⟨f (fun j => data (i * size b + j)), ?_, fun j hj => ?_⟩⟩
  · unfold convertProbabilityVectorList; rw [hf]; rfl
  · unfold convertProbabilityVector; rw [hf]; rfl
  · rw [Basis.n_eq, Basis.n_eq, flatten_entry _ _ hj]; rfl

/-- A truncated momentum basis and the points of the grid. -/
example : ∃ b c : Basis, Valid b ∧ Valid c ∧ OrthonormalParts b ∧ Compatible b c ∧ size b = 3 ∧ size c = 5 :=
  ⟨.transformed 3 5, .fundamental 5, by show (3 : ℕ) ≤ 5; norm_num, trivial, trivial, rfl, rfl, rfl⟩

/-- **C125.** Probabilities are converted to the basis of momentum states as if they were amplitudes: for a certain position
other than the first point of a grid, the total after the conversion is zero instead of one. -/
theorem C125_momentum_negation (same : Basis → Basis → Bool) (hs : Sound same) (n : ℕ) (hn : 2 ≤ n) :
    ∃ q, convertProbabilityToMomentum same (.tuple [.fundamental n]) (unit 1) = some q ∧
      ∑ j ∈ range n, unit 1 j = 1 ∧ ∑ k ∈ range n, q k = 0 := by
  have hshape : Basis.fundamentalShape (.tuple [.fundamental n]) = [n] := rfl
  obtain ⟨f, hf, kf⟩ := convert_momentum same hs (.tuple [.fundamental n]) ⟨trivial, trivial⟩ (orthonormalParts_fundamental [n])
  refine ⟨f (unit 1), ?_, ?_, ?_⟩
  · unfold convertProbabilityToMomentum convertProbabilityVector; rw [hf]; rfl
  · rw [sum_eq_single 1] <;> simp [unit]
    · omega
  · have h1 : ∀ k ∈ range n, f (unit 1) k = FftNorm.fftScale n .ortho * phase n (k * (-1)) := by
      intro k hk
      have hk' := mem_range.1 hk
      rw [kf _ _ (by rw [hshape]; simpa using hk'), hshape]
      unfold planeCoefficient
      rw [show ([n] : List ℕ).prod = n by simp, sum_eq_single 1]
      · rw [show expand (.tuple [.fundamental n]) (unit 1) 1 = 1 from by
          refine (expand_position [n] (unit 1) (by simpa using (show 1 < n by omega))).trans ?_
          simp [unit], mul_one]
        show (starRingEnd ℂ) (planeWave n ((k / 1 : ℕ) : ℤ) (1 / 1 : ℕ) * 1) = _
        rw [Nat.div_one, Nat.div_one, mul_one, planeWave_eq, map_mul, phase_conj]
        congr 1
        · unfold FftNorm.fftScale; simp
      · intro x hx hne
        rw [show expand (.tuple [.fundamental n]) (unit 1) x = 0 from by
          refine (expand_position [n] (unit 1) (by simpa using mem_range.1 hx)).trans ?_
          simp [unit, hne], mul_zero]
      · intro h; exact absurd (mem_range.2 (by omega)) h
    rw [sum_congr rfl h1, ← mul_sum, sum_phase' (by omega), if_neg, mul_zero]
    intro h
    have := Int.le_of_dvd (by norm_num) ((dvd_neg).1 h)
    omega

end Verif
