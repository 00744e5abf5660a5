import Verif.Model.PlotBasisStates
import Verif.Props.C121_Overlaps
import Verif.Props.C127_PlotLine
import Verif.Props.C129_ValueLists
import Verif.Props.C135_EffectiveMass

/-!
# C166: the states of a basis, and masses against the band, as they are drawn
-/

set_option autoImplicit false

namespace Verif

open Finset Spec Matrix

variable {d : ℕ}

namespace Spec

/-- The line of the function `f` on `n` points of an axis, drawn against the distance from the first point. -/
def IsAxisLine (deltaX : Fin d → ℝ) (n : ℕ) (measure : Measure) (f : ℕ → ℂ) (line : DrawnLine) : Prop :=
  line.n = n ∧ ∀ x < n, line.coordinates x = Real.sqrt (deltaX ⬝ᵥ deltaX) * x / n ∧ line.values x = getMeasuredData f measure x

end Spec

/-! ## Helpers -/

theorem utilVectors_eq (b : Basis) (hb : Valid b) (i : ℕ) (hi : i < size b) (x : ℕ) (hx : x < points b) : utilVectors b i x = state b i x := by
  have hn : b.methods.n = size b := Basis.n_eq b
  have hf : b.methods.fn = points b := (methods_sizes b).2
  unfold utilVectors
  rw [(lawful_basis b hb).intoF _ x (by rw [hf]; exact hx), hn]
  simp only [mul_ite, mul_one, mul_zero]
  rw [sum_ite_eq', if_pos (mem_range.2 hi)]

theorem basisStateLine_isLine (deltaX : Fin d → ℝ) (b : Basis) (hb : Valid b) (i : ℕ) (hi : i < size b) (measure : Measure) :
    IsAxisLine deltaX (points b) measure (state b i) (basisStateLine deltaX b i measure) := by
  have hf : b.methods.fn = points b := (methods_sizes b).2
  refine ⟨hf, fun x hx => ⟨?_, measured_congr _ _ _ _ fun y hy => utilVectors_eq b hb i hi y (by omega)⟩⟩
  simp only [basisStateLine, hf, vnorm]
  have : (fun c => deltaX c / (points b : ℝ) * x) = ((x : ℝ) / points b) • deltaX := by
    funext c; simp only [Pi.smul_apply, smul_eq_mul]; ring
  rw [this, dotProduct_smul, smul_dotProduct, smul_eq_mul, smul_eq_mul, ← mul_assoc, Real.sqrt_mul (by positivity), Real.sqrt_mul_self (by positivity)]
  ring

/-! ## Theorems -/

/-- **C166.** One line for each state of the basis, with the values of the state at the points of the axis against the distance from the first. -/
theorem C166_states (deltaX : Fin d → ℝ) (b : Basis) (hb : Valid b) (measure : Measure) :
    (plotBasisStatesX deltaX b measure).length = size b ∧
      ∀ i < size b, ∃ line, (plotBasisStatesX deltaX b measure)[i]? = some line ∧ IsAxisLine deltaX (points b) measure (state b i) line := by
  unfold plotBasisStatesX
  refine ⟨by rw [List.length_map, List.length_range, Basis.n_eq], fun i hi => ⟨_, ?_, basisStateLine_isLine deltaX b hb i hi measure⟩⟩
  rw [List.getElem?_map, List.getElem?_range (by rw [Basis.n_eq]; exact hi), Option.map_some]

/-- **C166.** The line of one state, of which the index counts from the end if it is negative; an index out of range raises. -/
theorem C166_state (deltaX : Fin d → ℝ) (b : Basis) (hb : Valid b) (measure : Measure) :
    (∀ i < size b, ∃ line, plotBasisStateX deltaX b i measure = some line ∧ plotBasisStateX deltaX b ((i : ℤ) - size b) measure = some line ∧
      IsAxisLine deltaX (points b) measure (state b i) line) ∧
    ∀ idx : ℤ, idx < -(size b : ℤ) ∨ (size b : ℤ) ≤ idx → plotBasisStateX deltaX b idx measure = none := by
  unfold plotBasisStateX numpyIndex
  rw [Basis.n_eq]
  refine ⟨fun i hi => ⟨_, ?_, ?_, basisStateLine_isLine deltaX b hb i hi measure⟩, fun idx h => ?_⟩
  · rw [if_pos ⟨by omega, by omega⟩, Option.map_some, Int.toNat_natCast]
  · rw [if_neg (by omega), if_pos ⟨by omega, by omega⟩, Option.map_some, sub_add_cancel, Int.toNat_natCast]
  · rw [if_neg (by omega), if_neg (by omega), Option.map_none]

/-- **C166.** Effective masses against the band, for a free particle of mass `m` on an odd number of samples: at each band the mass times the ratio of C135, which tends
to one. -/
theorem C166_masses_partial (same : Basis → Basis → Bool) (hs : Sound same) (hbar m : ℝ) (hh : hbar ≠ 0) (hm : 0 < m) (A : Matrix (Fin 1) (Fin 1) ℝ)
    (hA : A 0 0 ≠ 0) (M : ℕ) (hM : 0 < M) (bands : ℕ) (eigenvalue : ℕ → ℂ)
    (he : ∀ b < bands, ∀ j < 2 * M + 1, eigenvalue (b * (2 * M + 1) + j) =
      (hbar ^ 2 * freeWave |A 0 0| (2 * M + 1) b (freq (2 * M + 1) j) ^ 2 / (2 * m) : ℝ)) :
    plotMassAgainstBand same hbar A bands (fT [2 * M + 1]) eigenvalue 0 .real =
      some ((List.range bands).map fun b => (b, m * massRatio b (2 * M + 1))) := by
  unfold plotMassAgainstBand
  have h : (List.range bands).mapM (fun band => getEffectiveMass same hbar A (fT [2 * M + 1]) eigenvalue 0 band) =
      some ((List.range bands).map fun b => m * massRatio b (2 * M + 1)) :=
    mapM_some_map _ _ _ fun b hb => C135_free_particle same hs hbar m hh hm A hA M hM b eigenvalue (he b (List.mem_range.1 hb))
  rw [h, Option.map_some]
  unfold plotValueListAgainstNx
  congr 1
  refine List.map_congr_left fun b hb => ?_
  have hb := List.mem_range.1 hb
  simp [getMeasuredData, List.getD_eq_getElem?_getD, List.getElem?_map, List.getElem?_range hb]

/-! ## Concrete cases -/

/-- The second of two plane waves on four points, drawn along an axis of length five. -/
example : ∃ line, plotBasisStateX (![3, 4] : Fin 2 → ℝ) (.transformed 2 4) (-1) .real = some line ∧ line.n = 4 ∧
    line.coordinates 2 = Real.sqrt ((![3, 4] : Fin 2 → ℝ) ⬝ᵥ ![3, 4]) * (2 : ℕ) / (4 : ℕ) ∧ line.values 2 = (state (.transformed 2 4) 1 2).re := by
  obtain ⟨line, -, h, h1, h2⟩ := (C166_state (![3, 4] : Fin 2 → ℝ) (.transformed 2 4) (by norm_num [Valid]) .real).1 1 (by norm_num [size])
  refine ⟨line, by simpa [size] using h, h1, (h2 2 (by norm_num [points])).1, (h2 2 (by norm_num [points])).2⟩

end Verif
