import Verif.Model.PlotLists
import Verif.Spec.Kernel
import Mathlib.Algebra.BigOperators.Field
import Mathlib.Data.Fin.Tuple.Sort

/-!
# C128: occupations and eigenvalues drawn by the plots
-/

set_option autoImplicit false

namespace Verif

open Finset Spec

theorem lexLt_irrefl_or {x y : ℂ} (h : ¬ lexLt x y) : y.re ≤ x.re := by
  unfold lexLt at h
  push_neg at h
  exact h.1

theorem lexLt_re {x y : ℂ} (h : lexLt x y) : x.re ≤ y.re := by
  rcases h with h | h
  · exact h.le
  · exact h.1.le

theorem argminLex_spec (f : ℕ → ℂ) (m : ℕ) : argminLex f m ≤ m ∧ ∀ x ≤ m, (f (argminLex f m)).re ≤ (f x).re := by
  induction m with
  | zero => exact ⟨le_refl _, fun x hx => by rw [Nat.le_zero.1 hx]; exact le_refl _⟩
  | succ m ih =>
    unfold argminLex
    split_ifs with h
    · refine ⟨le_refl _, fun x hx => ?_⟩
      rcases Nat.lt_or_ge m x with h' | h'
      · rw [show x = m + 1 by omega]
      · exact (lexLt_re h).trans (ih.2 x h')
    · refine ⟨Nat.le_succ_of_le ih.1, fun x hx => ?_⟩
      rcases Nat.lt_or_ge m x with h' | h'
      · rw [show x = m + 1 by omega]
        exact lexLt_irrefl_or h
      · exact ih.2 x h'

theorem argminLex_sub (f : ℕ → ℂ) (c : ℂ) (m : ℕ) : argminLex (fun i => f i - c) m = argminLex f m := by
  induction m with
  | zero => rfl
  | succ m ih =>
    have : lexLt (f (m + 1) - c) (f (argminLex f m) - c) ↔ lexLt (f (m + 1)) (f (argminLex f m)) := by
      simp [lexLt]
    unfold argminLex
    rw [ih]
    by_cases h : lexLt (f (m + 1)) (f (argminLex f m))
    · rw [if_pos h, if_pos (this.2 h)]
    · rw [if_neg h, if_neg fun h' => h (this.1 h')]

/-- An order which lists every index once keeps sums. -/
theorem sum_argsort {n : ℕ} {key : ℕ → ℝ} {order : ℕ → ℕ} (h : IsArgsort n key order) (f : ℕ → ℝ) :
    ∑ i ∈ range n, f (order i) = ∑ i ∈ range n, f i := by
  have himg : (range n).image order = range n := by
    refine eq_of_subset_of_card_le (fun x hx => ?_) ?_
    · obtain ⟨a, ha, rfl⟩ := mem_image.1 hx
      exact mem_range.2 (h.1 a (mem_range.1 ha))
    · rw [card_image_of_injOn]
      intro a ha b hb e
      exact h.2.1 a (by simpa using ha) b (by simpa using hb) e
  conv_rhs => rw [← himg]
  rw [sum_image]
  intro a ha b hb e
  exact h.2.1 a (by simpa using ha) b (by simpa using hb) e

/-- **C128.** The plot of the occupations of states with real energies at a positive temperature: every state is drawn once, in order of its
energy above the lowest one, with its Boltzmann weight over the sum of all the weights. -/
theorem C128_occupations_partial (argsort : ℕ → (ℕ → ℂ) → ℕ → ℕ) (ha : ∀ N key, IsArgsort N (fun i => (key i : ℂ).re) (argsort N key)) (kB T : ℝ)
    (n : ℕ) (hn : 0 < n) (E : ℕ → ℝ) :
    ∃ (line : DrawnLine) (after : ℕ → ℂ) (ground : ℕ) (order : ℕ → ℕ), plotEigenstateOccupations argsort kB T n (fun i => (E i : ℂ)) = some (line, after) ∧ line.n = n ∧
      ground < n ∧ (∀ i < n, E ground ≤ E i) ∧
      (∀ i < n, order i < n) ∧ (∀ i < n, ∀ j < n, order i = order j → i = j) ∧
      (∀ i < n, line.coordinates i = E (order i) - E ground) ∧
      (∀ i j, i ≤ j → j < n → line.coordinates i ≤ line.coordinates j) ∧
      (∀ i < n, line.values i * ∑ j ∈ range n, Real.exp (-E j / (T * kB)) = Real.exp (-E (order i) / (T * kB))) ∧
      ∑ i ∈ range n, line.values i = 1 := by
  set e : ℕ → ℂ := fun i => (E i : ℂ) with he
  set g := argminLex e (n - 1) with hg
  obtain ⟨hgl, hgm⟩ := argminLex_spec e (n - 1)
  set en : ℕ → ℂ := fun i => e i - e g with hen
  have ho := ha n en
  set o := argsort n en with hod
  have hmin : ∀ i < n, E g ≤ E i := fun i hi => by
    have := hgm i (by omega)
    simpa [he] using this
  have hre : ∀ i, (en i).re = E i - E g := fun i => by simp [hen, he]
  have hnorm : ∀ i < n, ‖en i‖ = E i - E g := fun i hi => by
    have : en i = ((E i - E g : ℝ) : ℂ) := by simp [hen, he]
    rw [this, Complex.norm_real, Real.norm_eq_abs, abs_of_nonneg (sub_nonneg.2 (hmin i hi))]
  have hw : ∀ i < n, Real.exp (-‖en i‖ / (T * kB)) = Real.exp (-E i / (T * kB)) * Real.exp (E g / (T * kB)) := fun i hi => by
    rw [hnorm i hi, ← Real.exp_add]
    congr 1
    ring
  have hZ : ∑ j ∈ range n, Real.exp (-‖en j‖ / (T * kB)) = (∑ j ∈ range n, Real.exp (-E j / (T * kB))) * Real.exp (E g / (T * kB)) := by
    rw [sum_mul]
    exact sum_congr rfl fun j hj => hw j (mem_range.1 hj)
  have hpos : 0 < ∑ j ∈ range n, Real.exp (-E j / (T * kB)) := sum_pos (fun _ _ => Real.exp_pos _) ⟨0, mem_range.2 hn⟩
  have hval : ∀ i < n, Real.exp (-‖en i‖ / (T * kB)) / (∑ j ∈ range n, Real.exp (-‖en j‖ / (T * kB))) =
      Real.exp (-E i / (T * kB)) / ∑ j ∈ range n, Real.exp (-E j / (T * kB)) := fun i hi => by
    rw [hw i hi, hZ, mul_div_mul_right _ _ (Real.exp_pos _).ne']
  refine ⟨⟨n, fun i => (en (o i)).re, fun i => Real.exp (-‖en (o i)‖ / (T * kB)) / ∑ j ∈ range n, Real.exp (-‖en j‖ / (T * kB))⟩, en, g, o,
    ?_, rfl, by omega, hmin, ho.1, ho.2.1, fun i _ => hre _, ho.2.2, fun i hi => ?_, ?_⟩
  · unfold plotEigenstateOccupations
    rw [if_neg hn.ne']
  · show Real.exp (-‖en (o i)‖ / (T * kB)) / _ * _ = _
    rw [hval _ (ho.1 i hi), div_mul_cancel₀ _ hpos.ne']
  · show ∑ i ∈ range n, Real.exp (-‖en (o i)‖ / (T * kB)) / (∑ j ∈ range n, Real.exp (-‖en j‖ / (T * kB))) = 1
    rw [← sum_div, sum_argsort ho (fun i => Real.exp (-‖en i‖ / (T * kB))), div_self]
    rw [hZ]
    exact (mul_pos hpos (Real.exp_pos _)).ne'

/-- **C128** (negation). Drawing the occupations is not free of effects: unless the smallest eigenvalue is zero every eigenvalue of the
argument is another one after the call, shifted by the smallest. -/
theorem C128_unchanged_negation (argsort : ℕ → (ℕ → ℂ) → ℕ → ℕ) (kB T : ℝ) (n : ℕ) (hn : 0 < n) (E : ℕ → ℝ) (hE : ∀ i < n, E i ≠ 0) :
    ∃ line after, plotEigenstateOccupations argsort kB T n (fun i => (E i : ℂ)) = some (line, after) ∧ ∀ i < n, after i ≠ (E i : ℂ) := by
  obtain ⟨hgl, -⟩ := argminLex_spec (fun i => (E i : ℂ)) (n - 1)
  refine ⟨_, _, by unfold plotEigenstateOccupations; rw [if_neg hn.ne'], fun i _ h => ?_⟩
  have h' := sub_eq_self.1 h
  exact hE (argminLex (fun i => (E i : ℂ)) (n - 1)) (by omega) (Complex.ofReal_eq_zero.1 h')

/-- **C128.** Drawing the same states once more draws the same line and leaves the eigenvalues as the first call left them. -/
theorem C128_again (argsort : ℕ → (ℕ → ℂ) → ℕ → ℕ) (kB T : ℝ) (n : ℕ) (eigenvalue after : ℕ → ℂ) (line : DrawnLine)
    (h : plotEigenstateOccupations argsort kB T n eigenvalue = some (line, after)) :
    plotEigenstateOccupations argsort kB T n after = some (line, after) := by
  unfold plotEigenstateOccupations at h ⊢
  split_ifs at h ⊢ with hn
  have hafter : (fun i => eigenvalue i - eigenvalue (argminLex eigenvalue (n - 1))) = after := (Prod.mk.inj (Option.some.inj h)).2
  have hself : (fun i => after i - after (argminLex after (n - 1))) = after := by
    rw [← hafter, argminLex_sub]
    funext i
    simp
  refine Eq.trans ?_ h
  dsimp only
  rw [hafter]
  have e := congrFun hself
  simp only [e]
  have e' := congrFun hafter
  simp only [e']

/-- **C128.** The plot of eigenvalues: every eigenvalue is drawn once, in order of the absolute value. -/
theorem C128_eigenvalues (argsort : ℕ → (ℕ → ℝ) → ℕ → ℕ) (ha : ∀ N key, IsArgsort N key (argsort N key)) (n : ℕ) (eigenvalue : ℕ → ℂ) :
    ∃ order : ℕ → ℕ, (∀ i < n, order i < n) ∧ (∀ i < n, ∀ j < n, order i = order j → i = j) ∧
      (∀ i j, i ≤ j → j < n → ‖eigenvalue (order i)‖ ≤ ‖eigenvalue (order j)‖) ∧
      (∀ m, (plotEigenvalues argsort n eigenvalue m).n = n) ∧
      (∀ i, (plotEigenvalues argsort n eigenvalue .real).values i = (eigenvalue (order i)).re) ∧
      (∀ i, (plotEigenvalues argsort n eigenvalue .imag).values i = (eigenvalue (order i)).im) ∧
      (∀ i, (plotEigenvalues argsort n eigenvalue .abs).values i = ‖eigenvalue (order i)‖) ∧
      ∀ m i, (plotEigenvalues argsort n eigenvalue m).coordinates i = i := by
  have h := ha n fun i => ‖eigenvalue i‖
  exact ⟨argsort n fun i => ‖eigenvalue i‖, h.1, h.2.1, h.2.2, fun _ => rfl, fun _ => rfl, fun _ => rfl, fun _ => rfl, fun _ _ => rfl⟩

/-- There is a routine which sorts in the sense of the contract. -/
theorem exists_argsort (N : ℕ) (key : ℕ → ℝ) : ∃ order, IsArgsort N key order := by
  refine ⟨fun i => if h : i < N then (Tuple.sort (fun j : Fin N => key j) ⟨i, h⟩ : ℕ) else 0, fun a h => ?_, fun a h b h' e => ?_, fun a b hab hb => ?_⟩
  · simp only [dif_pos h]
    exact Fin.isLt _
  · simp only [dif_pos h, dif_pos h'] at e
    have := (Tuple.sort (fun j : Fin N => key j)).injective (Fin.val_injective e)
    simpa using this
  · have h : a < N := by omega
    simp only [dif_pos h, dif_pos hb]
    exact Tuple.monotone_sort (fun j : Fin N => key j) (Fin.mk_le_mk.2 hab)

noncomputable example : ∃ argsort : ℕ → (ℕ → ℂ) → ℕ → ℕ, ∀ N key, IsArgsort N (fun i => (key i : ℂ).re) (argsort N key) :=
  ⟨fun N key => (exists_argsort N fun i => (key i).re).choose, fun N key => (exists_argsort N fun i => (key i).re).choose_spec⟩

/-- Two states with the energies 3 and 2: the lowest is the second. -/
example : argminLex (fun i => if i = 0 then (3 : ℂ) else 2) 1 = 1 := by
  unfold argminLex
  rw [if_pos]
  left
  simp [argminLex]
  norm_num

end Verif
