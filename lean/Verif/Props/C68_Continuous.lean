import Verif.Model.Potential
import Verif.Props.C06_Lattice
import Verif.Props.C15_Stacked
import Verif.Props.C45_Unfurl
import Mathlib.Analysis.SpecialFunctions.ExpDeriv
import Mathlib.Analysis.Calculus.Deriv.Add
import Mathlib.Analysis.Calculus.Deriv.Mul

/-!
C68: the continuous potential and its derivative.
-/

set_option autoImplicit false

namespace Verif

open Finset Spec Matrix

theorem fundamentalShape_eq (axes : List Basis) : fundamentalShape axes = axes.map points := by
  unfold fundamentalShape
  exact List.map_congr_left fun b _ => (methods_sizes b).2

theorem momentumAxes_eq (axes : List Basis) : momentumAxes axes = (axes.map points).map Basis.fundamentalTransformed := by
  rw [momentumAxes, List.map_map]
  exact List.map_congr_left fun b _ => by rw [(methods_sizes b).2]; rfl

theorem positionAxes_eq (axes : List Basis) : positionAxes axes = (axes.map points).map Basis.fundamental := by
  rw [positionAxes, List.map_map]
  exact List.map_congr_left fun b _ => by rw [(methods_sizes b).2]; rfl

theorem pointss_eq (axes : List Basis) : pointss axes = (axes.map points).prod := by
  induction axes with
  | nil => rfl
  | cons b bs ih => simp [pointss, ih]

theorem sizes_momentum (ns : List ℕ) : sizes (ns.map Basis.fundamentalTransformed) = ns.prod := by
  induction ns with
  | nil => rfl
  | cons b bs ih => simp [sizes, size, ih]

theorem pointss_momentum (ns : List ℕ) : pointss (ns.map Basis.fundamentalTransformed) = ns.prod := by
  induction ns with
  | nil => rfl
  | cons b bs ih => simp [pointss, points, ih]

theorem sizes_position (ns : List ℕ) : sizes (ns.map Basis.fundamental) = ns.prod := by
  induction ns with
  | nil => rfl
  | cons b bs ih => simp [sizes, size, ih]

theorem pointss_position (ns : List ℕ) : pointss (ns.map Basis.fundamental) = ns.prod := by
  induction ns with
  | nil => rfl
  | cons b bs ih => simp [pointss, points, ih]

theorem valids_momentum (ns : List ℕ) : Valids (ns.map Basis.fundamentalTransformed) := by
  induction ns with
  | nil => trivial
  | cons b bs ih => exact ⟨trivial, ih⟩

theorem valids_position (ns : List ℕ) : Valids (ns.map Basis.fundamental) := by
  induction ns with
  | nil => trivial
  | cons b bs ih => exact ⟨trivial, ih⟩

theorem orthonormal_momentum (ns : List ℕ) : OrthonormalPartss (ns.map Basis.fundamentalTransformed) := by
  induction ns with
  | nil => trivial
  | cons b bs ih => exact ⟨trivial, ih⟩

theorem orthonormal_position (ns : List ℕ) : OrthonormalPartss (ns.map Basis.fundamental) := by
  induction ns with
  | nil => trivial
  | cons b bs ih => exact ⟨trivial, ih⟩

theorem compatible_of_points {a b : Basis} (h : points a = points b) (hn : ¬ BothTuple a b) : Compatible a b := by
  cases a <;> cases b <;> first | exact h | exact absurd trivial hn

theorem not_bothTuple_left {a b : Basis} (h : ∀ l, b ≠ .tuple l) : ¬ BothTuple a b := by
  cases a <;> cases b <;> first | exact fun h => h | exact absurd rfl (h _)

theorem not_bothTuple_right {a b : Basis} (h : ∀ l, a ≠ .tuple l) : ¬ BothTuple a b := by
  cases a <;> cases b <;> first | exact fun h => h | exact absurd rfl (h _)

theorem compatibles_momentum (axes : List Basis) : Compatibles axes ((axes.map points).map Basis.fundamentalTransformed) := by
  induction axes with
  | nil => trivial
  | cons b bs ih => exact ⟨compatible_of_points rfl (not_bothTuple_left fun _ h => by cases h), ih⟩

theorem compatibles_position (axes : List Basis) : Compatibles axes ((axes.map points).map Basis.fundamental) := by
  induction axes with
  | nil => trivial
  | cons b bs ih => exact ⟨compatible_of_points rfl (not_bothTuple_left fun _ h => by cases h), ih⟩

theorem momentum_compatibles (axes : List Basis) : Compatibles ((axes.map points).map Basis.fundamentalTransformed) axes := by
  induction axes with
  | nil => trivial
  | cons b bs ih => exact ⟨compatible_of_points rfl (not_bothTuple_right fun _ h => by cases h), ih⟩

theorem position_compatibles (axes : List Basis) : Compatibles ((axes.map points).map Basis.fundamental) axes := by
  induction axes with
  | nil => trivial
  | cons b bs ih => exact ⟨compatible_of_points rfl (not_bothTuple_right fun _ h => by cases h), ih⟩

theorem unravel_mod (ns : List ℕ) (k : ℕ) : unravel ns (k % ns.prod) = unravel ns k := by
  conv_rhs => rw [← Nat.div_add_mod' k ns.prod, unravel_mul_add]

theorem stackedNk_mod (ns : List ℕ) (k : ℕ) : stackedNkPoints ns (k % ns.prod) = stackedNkPoints ns k := by
  rw [stackedNkPoints, unravel_mod, stackedNkPoints]

/-- The product plane waves in terms of the sum over the axes of label times index over number of points. -/
theorem states_momentum : ∀ (ns : List ℕ) (j x : ℕ), j < ns.prod → x < ns.prod →
    states (ns.map Basis.fundamentalTransformed) j x = Complex.exp (Complex.I * ((2 * Real.pi *
      ∑ i : Fin ns.length, (((stackedNkPoints ns j).getD i 0 : ℤ) : ℝ) * (((unravel ns x).getD i 0 : ℕ) : ℤ) / (ns.getD i 0 : ℕ) : ℝ) : ℂ)) /
        ((Real.sqrt (ns.prod : ℕ) : ℝ) : ℂ)
  | [], _, _, _, _ => by simp [states]
  | n :: ns, j, x, hj, hx => by
    rw [List.prod_cons] at hj hx
    have hp : 0 < ns.prod := Nat.pos_of_ne_zero fun h => by rw [h, mul_zero] at hj; omega
    have hn : 0 < n := Nat.pos_of_ne_zero fun h => by rw [h, zero_mul] at hj; omega
    have hjn : j / ns.prod < n := Nat.div_lt_of_lt_mul (by rwa [mul_comm])
    have hxn : x / ns.prod < n := Nat.div_lt_of_lt_mul (by rwa [mul_comm])
    have ih := states_momentum ns (j % ns.prod) (x % ns.prod) (Nat.mod_lt _ hp) (Nat.mod_lt _ hp)
    rw [stackedNk_mod, unravel_mod] at ih
    rw [List.map_cons, states, sizes_momentum, pointss_momentum, ih]
    have e1 : state (.fundamentalTransformed n) (j / ns.prod) (x / ns.prod) = planeWave n (nkPoints n (j / ns.prod)) (x / ns.prod) := by
      show planeWave n ((j / ns.prod : ℕ) : ℤ) (x / ns.prod) = _
      refine planeWave_congr hn ?_ _
      rw [nkPoints_eq_freq hjn]
      exact Int.ModEq.dvd (freq_emod : (freq n (j / ns.prod)) % n = _)
    rw [e1]
    have e2 : ∀ i : Fin ns.length, (stackedNkPoints (n :: ns) j).getD i.succ 0 = (stackedNkPoints ns j).getD i 0 := by
      intro i; simp [stackedNkPoints, unravel]
    have e3 : ∀ i : Fin ns.length, (unravel (n :: ns) x).getD i.succ 0 = (unravel ns x).getD i 0 := by
      intro i; simp [unravel]
    have e4 : ∀ i : Fin ns.length, (n :: ns).getD i.succ 0 = ns.getD i 0 := by
      intro i; simp
    have e5 : (stackedNkPoints (n :: ns) j).getD (0 : Fin (n :: ns).length) 0 = nkPoints n (j / ns.prod) := by
      simp [stackedNkPoints, unravel, Nat.mod_eq_of_lt hjn]
    have e6 : (unravel (n :: ns) x).getD (0 : Fin (n :: ns).length) 0 = x / ns.prod := by
      simp [unravel, Nat.mod_eq_of_lt hxn]
    have e7 : (n :: ns).getD (0 : Fin (n :: ns).length) 0 = n := by simp
    have esum : ∑ i : Fin (n :: ns).length, (((stackedNkPoints (n :: ns) j).getD i 0 : ℤ) : ℝ) * (((unravel (n :: ns) x).getD i 0 : ℕ) : ℤ) / ((n :: ns).getD i 0 : ℕ) =
        ((nkPoints n (j / ns.prod) : ℤ) : ℝ) * ((x / ns.prod : ℕ) : ℤ) / (n : ℕ) +
        ∑ i : Fin ns.length, (((stackedNkPoints ns j).getD i 0 : ℤ) : ℝ) * (((unravel ns x).getD i 0 : ℕ) : ℤ) / (ns.getD i 0 : ℕ) := by
      refine (Fin.sum_univ_succ (n := ns.length) _).trans ?_
      rw [e5, e6, e7]
      congr 1
    obtain ⟨S, hS⟩ : ∃ S : ℝ, S = ∑ i : Fin ns.length, (((stackedNkPoints ns j).getD i 0 : ℤ) : ℝ) * (((unravel ns x).getD i 0 : ℕ) : ℤ) / (ns.getD i 0 : ℕ) := ⟨_, rfl⟩
    rw [esum, ← hS, mul_add, Complex.ofReal_add, mul_add, Complex.exp_add, List.prod_cons, Nat.cast_mul, Real.sqrt_mul (Nat.cast_nonneg _),
      Complex.ofReal_mul (Real.sqrt n), mul_div_mul_comm]
    congr 1
    unfold planeWave
    congr 2
    generalize x / ns.prod = y
    push_cast
    ring

variable {d : ℕ}

theorem momentum_state (A : Matrix (Fin d) (Fin d) ℝ) (hA : IsUnit A.det) (ns : List ℕ) (hd : ns.length = d) (j x : ℕ)
    (hj : j < ns.prod) (hx : x < ns.prod) : Complex.exp (Complex.I * ((fundamentalKPoint A ns j ⬝ᵥ fundamentalXPoint A ns x : ℝ) : ℂ)) /
        ((Real.sqrt (ns.prod : ℕ) : ℝ) : ℂ) = states (ns.map Basis.fundamentalTransformed) j x := by
  subst hd
  rw [states_momentum ns j x hj hx, fundamentalKPoint, fundamentalXPoint, C21_phase A hA]
  rfl

/-- The continuous potential in terms of the plane wave components of the function on the grid. -/
theorem continuous_eq (same : Basis → Basis → Bool) (hs : Sound same) (A : Matrix (Fin d) (Fin d) ℝ)
    (axes : List Basis) (hv : Valids axes) (ho : OrthonormalPartss axes) (V : ℕ → ℂ) :
    ∃ c, convertPotential same axes (momentumAxes axes) V = some c ∧
      (∀ x < pointss axes, ∑ j ∈ range (axes.map points).prod, c j * states ((axes.map points).map Basis.fundamentalTransformed) j x =
        expand (.tuple axes) V x) ∧
      continuousPotential same A axes V = some fun x => ∑ j ∈ range (axes.map points).prod, c j *
        (Complex.exp (Complex.I * ((fundamentalKPoint A (axes.map points) j ⬝ᵥ x : ℝ) : ℂ)) / ((Real.sqrt ((axes.map points).prod : ℕ) : ℝ) : ℂ)) := by
  obtain ⟨f, hf, hc⟩ := expand_convert same hs (.tuple axes) (.tuple ((axes.map points).map Basis.fundamentalTransformed)) hv
    (valids_momentum _) ho (orthonormal_momentum _) (compatibles_momentum axes)
    (by show sizes _ = pointss _; rw [sizes_momentum, pointss_momentum])
  have h : convertPotential same axes (momentumAxes axes) V = some (f V) := by
    rw [convertPotential, momentumAxes_eq, hf, Option.map_some]
  refine ⟨f V, h, fun x hx => ?_, ?_⟩
  · have := hc V x hx
    unfold expand at this
    rw [show size (.tuple ((axes.map points).map Basis.fundamentalTransformed)) = (axes.map points).prod from sizes_momentum _] at this
    exact this
  · rw [continuousPotential, h, Option.map_some, fundamentalShape_eq]

/-- **C68.** The continuous potential takes, at every point `Σ (xᵢ / nᵢ) Aᵢ` of the grid of the axes, the value of the
potential there, whatever the basis it is given in. -/
theorem C68_grid (same : Basis → Basis → Bool) (hs : Sound same) (A : Matrix (Fin d) (Fin d) ℝ) (hA : IsUnit A.det)
    (axes : List Basis) (hd : axes.length = d) (hv : Valids axes) (ho : OrthonormalPartss axes) (V : ℕ → ℂ) :
    ∃ f, continuousPotential same A axes V = some f ∧ ∀ idx, InShape (axes.map points) idx →
      f (fun c => ∑ i : Fin d, ((idx.getD i 0 : ℕ) : ℝ) / ((axes.map points).getD i 0 : ℕ) * A i c) =
        expand (.tuple axes) V (ravel (axes.map points) idx) := by
  obtain ⟨c, -, h1, h2⟩ := continuous_eq same hs A axes hv ho V
  refine ⟨_, h2, fun idx hidx => ?_⟩
  have hlt := ravel_lt _ _ hidx
  have hx : (fun c => ∑ i : Fin d, ((idx.getD i 0 : ℕ) : ℝ) / ((axes.map points).getD i 0 : ℕ) * A i c) =
      fundamentalXPoint A (axes.map points) (ravel (axes.map points) idx) := by
    funext c
    unfold fundamentalXPoint xPointAtIndex tensordot00 dxStacked stackedNxPoints
    rw [unravel_ravel _ _ hidx]
    refine sum_congr rfl fun i _ => ?_
    simp only [Matrix.of_apply, Int.cast_natCast]
    ring
  rw [hx, ← h1 _ (by rw [pointss_eq]; exact hlt)]
  refine sum_congr rfl fun j hj => ?_
  rw [momentum_state A hA _ (by rw [List.length_map, hd]) j _ (mem_range.1 hj) hlt]

/-- **C68.** The continuous potential has the periodicity of the lattice. -/
theorem C68_periodic (same : Basis → Basis → Bool) (hs : Sound same) (A : Matrix (Fin d) (Fin d) ℝ) (hA : IsUnit A.det)
    (axes : List Basis) (hv : Valids axes) (ho : OrthonormalPartss axes) (V : ℕ → ℂ) :
    ∃ f, continuousPotential same A axes V = some f ∧ ∀ x (z : Fin d → ℤ), f (fun c => x c + ∑ i, (z i : ℝ) * A i c) = f x := by
  obtain ⟨c, -, -, h2⟩ := continuous_eq same hs A axes hv ho V
  refine ⟨_, h2, fun x z => ?_⟩
  refine sum_congr rfl fun j _ => ?_
  congr 2
  obtain ⟨nk, hnk⟩ : ∃ nk : Fin d → ℤ, fundamentalKPoint A (axes.map points) j = kPointAtIndex A nk := ⟨_, rfl⟩
  rw [hnk]
  have e1 : (fun c => x c + ∑ i, (z i : ℝ) * A i c) = x + xPointAtIndex A (fun _ => 1) z := by
    funext c
    simp only [Pi.add_apply, xPointAtIndex, tensordot00, dxStacked, Matrix.of_apply, Nat.cast_one, div_one]
    congr 1
    exact sum_congr rfl fun i _ => mul_comm _ _
  rw [e1, dotProduct_add, C21_phase A hA]
  have e2 : 2 * Real.pi * ∑ i, (nk i : ℝ) * z i / ((1 : ℕ) : ℝ) = ((∑ i, nk i * z i : ℤ) : ℝ) * (2 * Real.pi) := by
    push_cast
    simp only [div_one]
    ring
  rw [e2]
  push_cast
  rw [mul_add, Complex.exp_add]
  have e3 : Complex.I * ((∑ i, (nk i : ℂ) * (z i : ℂ)) * (2 * Real.pi)) = ((∑ i, nk i * z i : ℤ) : ℂ) * (2 * Real.pi * Complex.I) := by
    push_cast; ring
  rw [e3, Complex.exp_int_mul_two_pi_mul_I, mul_one]

/-- **C68.** The derivative of a potential along a coordinate, made continuous, is the derivative of the continuous potential
along this coordinate at every point. -/
theorem C68_derivative (same : Basis → Basis → Bool) (hs : Sound same) (A : Matrix (Fin d) (Fin d) ℝ)
    (axes : List Basis) (hv : Valids axes) (ho : OrthonormalPartss axes) (V : ℕ → ℂ) (axis : Fin d) :
    ∃ f axes' W g, continuousPotential same A axes V = some f ∧ potentialDerivative same A axes V axis = some (axes', W) ∧
      continuousPotential same A axes' W = some g ∧ axes'.map points = axes.map points ∧
      ∀ x, HasDerivAt (fun t : ℝ => f (fun c => x c + if c = axis then t else 0)) (g x) 0 := by
  obtain ⟨c, h0, -, h2⟩ := continuous_eq same hs A axes hv ho V
  obtain ⟨ns, hns⟩ : ∃ ns, ns = axes.map points := ⟨_, rfl⟩
  obtain ⟨W, hW⟩ : ∃ W : ℕ → ℂ, W = fun j => Complex.I * ((fundamentalKPoint A ns j axis : ℝ) : ℂ) * c j := ⟨_, rfl⟩
  have hpts : ((axes.map points).map Basis.fundamentalTransformed).map points = axes.map points := by
    rw [List.map_map]
    exact (List.map_congr_left fun n _ => rfl).trans (List.map_id _)
  have hn : (momentumAxes axes).map (fun b => b.methods.n) = ns := by
    rw [momentumAxes_eq, List.map_map, hns]
    exact (List.map_congr_left fun n _ => rfl).trans (List.map_id _)
  have hder : potentialDerivative same A axes V axis = some (momentumAxes axes, W) := by
    rw [potentialDerivative, h0, Option.map_some, hW, hn]
    rfl
  obtain ⟨-, f, hf, hfv⟩ := C18_same_partial same hs (.tuple (ns.map Basis.fundamentalTransformed)) (valids_momentum _) (orthonormal_momentum _)
  have hcont : continuousPotential same A (momentumAxes axes) W = some fun x => ∑ j ∈ range ns.prod, W j *
        (Complex.exp (Complex.I * ((fundamentalKPoint A ns j ⬝ᵥ x : ℝ) : ℂ)) / ((Real.sqrt (ns.prod : ℕ) : ℝ) : ℂ)) := by
    have hmm : momentumAxes (momentumAxes axes) = ns.map Basis.fundamentalTransformed := by
      rw [momentumAxes_eq (momentumAxes axes), momentumAxes_eq axes, hpts, hns]
    have hm : momentumAxes axes = ns.map Basis.fundamentalTransformed := by rw [momentumAxes_eq, hns]
    rw [continuousPotential, convertPotential, hmm, fundamentalShape_eq, hm, hf, Option.map_some, Option.map_some]
    have : (ns.map Basis.fundamentalTransformed).map points = ns := by rw [hns]; exact hpts
    rw [this]
    congr 1
    funext x
    refine sum_congr rfl fun j hj => ?_
    rw [hfv W j (by show j < sizes _; rw [sizes_momentum]; exact mem_range.1 hj)]
  refine ⟨_, momentumAxes axes, W, _, h2, hder, hcont, by rw [momentumAxes_eq, hpts], fun x => ?_⟩
  rw [← hns]
  refine HasDerivAt.fun_sum fun j _ => ?_
  obtain ⟨k, hk⟩ : ∃ k, k = fundamentalKPoint A ns j := ⟨_, rfl⟩
  rw [hW]
  dsimp only
  rw [← hk]
  have hlin : ∀ t : ℝ, (k ⬝ᵥ fun c => x c + if c = axis then t else 0) = k ⬝ᵥ x + k axis * t := by
    intro t
    simp only [dotProduct, mul_add, sum_add_distrib, mul_ite, mul_zero]
    rw [sum_ite_eq' univ axis, if_pos (mem_univ _)]
  simp only [hlin]
  have h1 : HasDerivAt (fun t : ℝ => Complex.I * ((k ⬝ᵥ x + k axis * t : ℝ) : ℂ)) (Complex.I * ((k axis : ℝ) : ℂ)) 0 := by
    refine HasDerivAt.const_mul _ (HasDerivAt.ofReal_comp ?_)
    have := ((hasDerivAt_id (0 : ℝ)).const_mul (k axis)).const_add (k ⬝ᵥ x)
    simpa using this
  have h3 := ((h1.cexp).div_const ((Real.sqrt (ns.prod : ℕ) : ℝ) : ℂ)).const_mul (c j)
  refine h3.congr_deriv ?_
  rw [mul_zero, add_zero]
  ring

/-- The hypotheses can be met: a skew lattice, a position axis with 3 points and a truncated momentum axis. -/
example : IsUnit (!![1, 0; 1, 2] : Matrix (Fin 2) (Fin 2) ℝ).det ∧ [Basis.fundamental 3, Basis.transformed 2 4].length = 2 ∧
    Valids [Basis.fundamental 3, Basis.transformed 2 4] ∧ OrthonormalPartss [Basis.fundamental 3, Basis.transformed 2 4] := by
  refine ⟨by rw [det_fin_two]; simp, rfl, ⟨trivial, ?_, trivial⟩, ⟨trivial, trivial, trivial⟩⟩
  show 2 ≤ 4
  omega

end Verif
