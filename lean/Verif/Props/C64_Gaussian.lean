import Verif.Model.KernelBuild
import Verif.Spec.Periodic
import Verif.Props.C57_KernelFftStacked
import Verif.Props.C62_Truncate
import Mathlib.Tactic.Linarith
import Mathlib.Tactic.FieldSimp
import Mathlib.Tactic.Positivity
import Mathlib.Tactic.NormNum

/-!
C64: Gaussian and Lorentzian kernels are functions of the distance of the two points on the torus.
-/

set_option autoImplicit false

namespace Verif

open Finset Spec

variable {d : ℕ}

/-! ## Wrapping -/

theorem wrap_eq (x m : ℝ) : ∃ q : ℤ, wrapDisplacement x m = x - 2 * m * q := ⟨⌊(x + m) / (2 * m)⌋, by
  unfold wrapDisplacement fmod; ring⟩

theorem wrap_mem (x : ℝ) {m : ℝ} (hm : 0 < m) : -m ≤ wrapDisplacement x m ∧ wrapDisplacement x m < m := by
  have h1 := Int.floor_le ((x + m) / (2 * m))
  have h2 := Int.lt_floor_add_one ((x + m) / (2 * m))
  rw [le_div_iff₀ (by positivity)] at h1
  rw [div_lt_iff₀ (by positivity)] at h2
  unfold wrapDisplacement fmod
  constructor <;> nlinarith

/-- The wrapped displacement is the shortest one. -/
theorem wrap_le (x : ℝ) {m : ℝ} (hm : 0 < m) (q : ℤ) : |wrapDisplacement x m| ≤ |x - 2 * m * q| := by
  obtain ⟨q', hq⟩ := wrap_eq x m
  obtain ⟨h1, h2⟩ := wrap_mem x hm
  have hx : x = wrapDisplacement x m + 2 * m * q' := by rw [hq]; ring
  obtain ⟨w, hw⟩ : ∃ w, w = wrapDisplacement x m := ⟨_, rfl⟩
  rw [← hw] at h1 h2 hx ⊢
  have habs : |w| ≤ m := abs_le.2 ⟨h1, h2.le⟩
  rcases lt_trichotomy q' q with h | h | h
  · have h3 : ((q' : ℝ) + 1) ≤ q := by exact_mod_cast h
    have : x - 2 * m * q ≤ -m := by rw [hx]; nlinarith
    calc |w| ≤ m := habs
      _ ≤ -(x - 2 * m * q) := by linarith
      _ ≤ _ := neg_le_abs _
  · rw [hx, h]
    have : w + 2 * m * (q : ℝ) - 2 * m * q = w := by ring
    rw [this]
  · have h3 : ((q : ℝ) + 1) ≤ q' := by exact_mod_cast h
    have : m ≤ x - 2 * m * q := by rw [hx]; nlinarith
    exact habs.trans (this.trans (le_abs_self _))

/-- Displacements which agree up to the sign and a period have the same wrapped length. -/
theorem wrap_congr {m : ℝ} (hm : 0 < m) {x y : ℝ} (h : ∃ q : ℤ, y = -x + 2 * m * q) : |wrapDisplacement y m| = |wrapDisplacement x m| := by
  obtain ⟨q, h⟩ := h
  obtain ⟨qx, hx⟩ := wrap_eq x m
  obtain ⟨qy, hy⟩ := wrap_eq y m
  apply le_antisymm
  · refine (wrap_le y hm (q - qx)).trans_eq ?_
    rw [hx, h, ← abs_neg]
    congr 1
    push_cast
    ring
  · refine (wrap_le x hm (q - qy)).trans_eq ?_
    rw [hy, h, ← abs_neg]
    congr 1
    push_cast
    ring

/-! ## Orthogonal lattices -/

/-- Each lattice vector lies along its coordinate axis. -/
def Orthogonal (A : Matrix (Fin d) (Fin d) ℝ) : Prop := (∀ i c, i ≠ c → A i c = 0) ∧ ∀ i, A i i ≠ 0

theorem vnorm_sq_eq (v : Fin d → ℝ) : vnorm v = Real.sqrt (∑ c, v c ^ 2) := by
  unfold vnorm dotProduct
  congr 1
  exact Fintype.sum_congr _ _ fun c => (pow_two _).symm

theorem Orthogonal.norm {A : Matrix (Fin d) (Fin d) ℝ} (h : Orthogonal A) (c : Fin d) : vnorm (A c) = |A c c| := by
  rw [vnorm_sq_eq, Fintype.sum_eq_single c fun i hi => by rw [h.1 c i (Ne.symm hi)]; simp, Real.sqrt_sq_eq_abs]

theorem Orthogonal.lattice {A : Matrix (Fin d) (Fin d) ℝ} (h : Orthogonal A) (m : Fin d → ℤ) (c : Fin d) :
    ∑ i, (m i : ℝ) * A i c = m c * A c c :=
  Fintype.sum_eq_single c fun i hi => by rw [h.1 i c hi, mul_zero]

theorem Orthogonal.point {A : Matrix (Fin d) (Fin d) ℝ} (h : Orthogonal A) (shape : Fin d → ℕ) (k : ℕ) (c : Fin d) :
    xPoint A shape k c = A c c / shape c * (stackedNx shape k c : ℝ) := by
  unfold xPoint xPointAtIndex tensordot00 dxStacked
  rw [Fintype.sum_eq_single c fun i hi => by rw [Matrix.of_apply, h.1 i c hi, zero_div, zero_mul], Matrix.of_apply]

theorem wrappedDisplacement_getD : ∀ (shape i j : List ℕ), InShape shape i → InShape shape j → ∀ a < shape.length,
    ((wrappedDisplacement shape i j).getD a 0 : ℤ) ≡ (i.getD a 0 : ℤ) - j.getD a 0 [ZMOD shape.getD a 0]
  | [], [], [], _, _, a, ha => by simp at ha
  | n :: ns, x :: xs, y :: ys, hx, hy, 0, _ => by
    show (((((x : ℤ) - y) % n).toNat : ℕ) : ℤ) ≡ (x : ℤ) - y [ZMOD n]
    rw [Int.toNat_of_nonneg (Int.emod_nonneg _ (by have := hx.1; omega))]
    exact Int.mod_modEq _ _
  | n :: ns, x :: xs, y :: ys, hx, hy, a + 1, ha => by
    have := wrappedDisplacement_getD ns xs ys hx.2 hy.2 a (by simpa using ha)
    simpa [wrappedDisplacement, List.zipWith3] using this

theorem diagonal_stacked_entry (shape : List ℕ) (β : ℕ → ℂ) {i j : ℕ} (hj : j < shape.prod) :
    diagonalFromIsotropicStacked shape β (i * shape.prod + j) =
      β (ravel shape (wrappedDisplacement shape (unravel shape i) (unravel shape j))) :=
  flatten_entry (fun i j => β (ravel shape (wrappedDisplacement shape (unravel shape i) (unravel shape j)))) i hj

theorem stackedNx_wrapped (shape : Fin d → ℕ) {i j : ℕ} (hi : i < (List.ofFn shape).prod) (hj : j < (List.ofFn shape).prod) (c : Fin d) :
    stackedNx shape (ravel (List.ofFn shape) (wrappedDisplacement (List.ofFn shape) (unravel (List.ofFn shape) i) (unravel (List.ofFn shape) j))) c
      ≡ stackedNx shape i c - stackedNx shape j c [ZMOD shape c] := by
  have hx := unravel_inShape _ _ hi
  have hy := unravel_inShape _ _ hj
  have := wrappedDisplacement_getD _ _ _ hx hy c (by rw [List.length_ofFn]; exact c.2)
  unfold stackedNx
  rw [unravel_ravel _ _ (wrappedDisplacement_inShape _ _ _ hx hy)]
  have e : (List.ofFn shape).getD c 0 = shape c := by
    simp [List.getD_eq_getElem?_getD]
  rwa [e] at this

theorem stackedNx_zero (shape : Fin d → ℕ) (c : Fin d) : stackedNx shape 0 c = 0 := by
  unfold stackedNx
  rw [unravel_zero]
  simp [List.getD_eq_getElem?_getD]

theorem shape_pos (shape : Fin d → ℕ) {k : ℕ} (hk : k < (List.ofFn shape).prod) (c : Fin d) : 0 < shape c := by
  rcases Nat.eq_zero_or_pos (shape c) with h | h
  · have : (List.ofFn shape).prod = 0 := List.prod_eq_zero_iff.2 (by rw [List.mem_ofFn]; exact ⟨c, h⟩)
    omega
  · exact h

/-- **C64.** On an orthogonal lattice of any dimension, the kernel which is built from a function of the displacement, and expanded
axis by axis, is this function of the distance of the points on the torus. -/
theorem C64_function_partial (A : Matrix (Fin d) (Fin d) ℝ) (hA : Orthogonal A) (shape : Fin d → ℕ) (fn : ℝ → ℂ) (i j : ℕ)
    (hi : i < (List.ofFn shape).prod) (hj : j < (List.ofFn shape).prod) :
    ∃ D, IsPeriodicDistance A (xPoint A shape i) (xPoint A shape j) D ∧
      diagonalFromIsotropicStacked (List.ofFn shape) (isotropicFromFunctionStacked A shape fn) (i * (List.ofFn shape).prod + j) = fn D := by
  rw [diagonal_stacked_entry _ _ hj]
  obtain ⟨k, hk⟩ : ∃ k, k = ravel (List.ofFn shape) (wrappedDisplacement (List.ofFn shape) (unravel (List.ofFn shape) i)
    (unravel (List.ofFn shape) j)) := ⟨_, rfl⟩
  rw [← hk]
  refine ⟨totalDisplacement A shape 0 k, ?_, rfl⟩
  have hm : ∀ c, 0 < |A c c| / 2 := fun c => by have := abs_pos.2 (hA.2 c); positivity
  have habs : ∀ c, |displacementMatrixAlongAxis A shape 0 c 0 k| =
      |wrapDisplacement (xPoint A shape i c - xPoint A shape j c) (|A c c| / 2)| := by
    intro c
    unfold displacementMatrixAlongAxis
    rw [hA.norm c]
    refine wrap_congr (hm c) ?_
    have hmod := stackedNx_wrapped shape hi hj c
    rw [← hk] at hmod
    obtain ⟨q, hq⟩ := hmod.dvd
    have hn : ((shape c : ℕ) : ℝ) ≠ 0 := by exact_mod_cast (shape_pos shape hi c).ne'
    rw [hA.point, hA.point, hA.point, hA.point, stackedNx_zero]
    have hq' : (stackedNx shape k c : ℝ) = stackedNx shape i c - stackedNx shape j c - (shape c : ℕ) * q := by
      have : (stackedNx shape i c - stackedNx shape j c - stackedNx shape k c : ℝ) = (shape c : ℕ) * q := by exact_mod_cast hq
      linarith
    rw [hq']
    rcases abs_cases (A c c) with ⟨h, -⟩ | ⟨h, -⟩
    · refine ⟨q, ?_⟩
      rw [h]; push_cast; field_simp; ring
    · refine ⟨-q, ?_⟩
      rw [h]; push_cast; field_simp; ring
  have htot : totalDisplacement A shape 0 k = Real.sqrt (∑ c, wrapDisplacement (xPoint A shape i c - xPoint A shape j c) (|A c c| / 2) ^ 2) := by
    unfold totalDisplacement
    rw [vnorm_sq_eq]
    congr 1
    refine Fintype.sum_congr _ _ fun c => ?_
    rw [← sq_abs, habs c, sq_abs]
  rw [htot]
  constructor
  · have hq : ∀ c, ∃ q : ℤ, wrapDisplacement (xPoint A shape i c - xPoint A shape j c) (|A c c| / 2) =
        xPoint A shape i c - xPoint A shape j c - q * A c c := by
      intro c
      obtain ⟨q, hq⟩ := wrap_eq (xPoint A shape i c - xPoint A shape j c) (|A c c| / 2)
      rcases abs_cases (A c c) with ⟨h, -⟩ | ⟨h, -⟩
      · exact ⟨q, by rw [hq, h]; ring⟩
      · exact ⟨-q, by rw [hq, h]; push_cast; ring⟩
    choose m hm using hq
    refine ⟨m, ?_⟩
    congr 1
    refine Fintype.sum_congr _ _ fun c => ?_
    rw [hm c, hA.lattice]
  · rintro r ⟨m, rfl⟩
    refine Real.sqrt_le_sqrt (sum_le_sum fun c _ => ?_)
    rw [hA.lattice, ← sq_abs, ← sq_abs (_ - _ - _)]
    refine pow_le_pow_left₀ (abs_nonneg _) ?_ 2
    rcases abs_cases (A c c) with ⟨h, -⟩ | ⟨h, -⟩
    · refine (wrap_le _ (hm c) (m c)).trans_eq ?_
      rw [h]; congr 1; ring
    · refine (wrap_le _ (hm c) (-m c)).trans_eq ?_
      rw [h]; congr 1; push_cast; ring

/-- A rectangular lattice in two dimensions. -/
example : Orthogonal (!![2, 0; 0, -3] : Matrix (Fin 2) (Fin 2) ℝ) := by
  refine ⟨fun i c h => ?_, fun i => ?_⟩
  · fin_cases i <;> fin_cases c <;> simp at h ⊢
  · fin_cases i <;> simp

theorem periodicDistance_symm {A : Matrix (Fin d) (Fin d) ℝ} {u v : Fin d → ℝ} {D : ℝ} (h : IsPeriodicDistance A u v D) :
    IsPeriodicDistance A v u D := by
  have e : ∀ m : Fin d → ℤ, Real.sqrt (∑ c, (v c - u c - ∑ i, (((-m) i : ℤ) : ℝ) * A i c) ^ 2) =
      Real.sqrt (∑ c, (u c - v c - ∑ i, (m i : ℝ) * A i c) ^ 2) := by
    intro m
    congr 1
    refine Fintype.sum_congr _ _ fun c => ?_
    have : ∑ i, (((-m) i : ℤ) : ℝ) * A i c = -∑ i, (m i : ℝ) * A i c := by
      rw [← sum_neg_distrib]
      exact Fintype.sum_congr _ _ fun i => by rw [Pi.neg_apply]; push_cast; ring
    rw [this]
    ring
  obtain ⟨⟨m, hm⟩, h2⟩ := h
  refine ⟨⟨-m, by rw [hm, e]⟩, ?_⟩
  rintro r ⟨m', rfl⟩
  refine h2 ⟨-m', ?_⟩
  rw [← e (-m'), neg_neg]

theorem periodicDistance_unique {A : Matrix (Fin d) (Fin d) ℝ} {u v : Fin d → ℝ} {D D' : ℝ} (h : IsPeriodicDistance A u v D)
    (h' : IsPeriodicDistance A u v D') : D = D' := IsLeast.unique h h'

theorem periodicDistance_self {A : Matrix (Fin d) (Fin d) ℝ} {u : Fin d → ℝ} {D : ℝ} (h : IsPeriodicDistance A u u D) : D = 0 := by
  refine IsLeast.unique h ⟨⟨0, ?_⟩, ?_⟩
  · simp
  · rintro r ⟨m, rfl⟩
    positivity

/-- **C64.** The gaussian kernel of an orthogonal lattice, expanded axis by axis: a gaussian of the distance on the torus;
symmetric, `a²` on the diagonal, and between `0` and `a²`. -/
theorem C64_gaussian_partial (A : Matrix (Fin d) (Fin d) ℝ) (hA : Orthogonal A) (shape : Fin d → ℕ) (a lam : ℝ) (i j : ℕ)
    (hi : i < (List.ofFn shape).prod) (hj : j < (List.ofFn shape).prod) :
    let N := (List.ofFn shape).prod
    let K := diagonalFromIsotropicStacked (List.ofFn shape) (gaussianIsotropic A shape a lam)
    (∃ D, IsPeriodicDistance A (xPoint A shape i) (xPoint A shape j) D ∧
      K (i * N + j) = ((a ^ 2 * Real.exp (-D ^ 2 / (2 * lam ^ 2)) : ℝ) : ℂ)) ∧
    K (i * N + j) = K (j * N + i) ∧ K (i * N + i) = ((a ^ 2 : ℝ) : ℂ) ∧ (K (i * N + j)).im = 0 ∧
      (K (i * N + j)).re ≤ a ^ 2 ∧ (a ≠ 0 → 0 < (K (i * N + j)).re) := by
  intro N K
  obtain ⟨D, hD, e⟩ := C64_function_partial A hA shape (gaussianFn a lam) i j hi hj
  obtain ⟨D', hD', e'⟩ := C64_function_partial A hA shape (gaussianFn a lam) j i hj hi
  obtain ⟨D0, hD0, e0⟩ := C64_function_partial A hA shape (gaussianFn a lam) i i hi hi
  have eK : K (i * N + j) = ((a ^ 2 * Real.exp (-D ^ 2 / (2 * lam ^ 2)) : ℝ) : ℂ) := e
  refine ⟨⟨D, hD, eK⟩, ?_, ?_, ?_, ?_, ?_⟩
  · exact e.trans ((congrArg _ (periodicDistance_unique hD (periodicDistance_symm hD'))).trans e'.symm)
  · refine e0.trans ?_
    rw [periodicDistance_self hD0]
    simp [gaussianFn]
  · rw [eK, Complex.ofReal_im]
  · rw [eK, Complex.ofReal_re]
    refine mul_le_of_le_one_right (by positivity) (Real.exp_le_one_iff.2 ?_)
    exact div_nonpos_of_nonpos_of_nonneg (neg_nonpos.2 (by positivity)) (by positivity)
  · intro ha
    rw [eK, Complex.ofReal_re]
    positivity

theorem orthogonal_one {A : Matrix (Fin 1) (Fin 1) ℝ} (h : A 0 0 ≠ 0) : Orthogonal A :=
  ⟨fun i c hic => absurd (Subsingleton.elim i c) hic, fun i => by rwa [Subsingleton.elim i 0]⟩

theorem diagonal_one (n : ℕ) (β : ℕ → ℂ) {i j : ℕ} (hi : i < n) (hj : j < n) :
    diagonalFromIsotropic n β (i * n + j) = diagonalFromIsotropicStacked [n] β (i * n + j) := by
  have h1 : [n].prod = n := by simp
  have h2 := diagonal_stacked_entry [n] β (i := i) (j := j) (by rwa [h1])
  rw [h1] at h2
  rw [h2, diagonalFromIsotropic, flatten_entry _ _ hj]
  congr 1
  simp [wrappedDisplacement, unravel, ravel, List.zipWith3, Nat.mod_eq_of_lt hi, Nat.mod_eq_of_lt hj]

/-- **C64.** In one dimension the gaussian kernel is a gaussian of the distance on the circle, symmetric, `a²` on the diagonal and
between `0` and `a²`. -/
theorem C64_one_dimension (A : Matrix (Fin 1) (Fin 1) ℝ) (hA : A 0 0 ≠ 0) (n : ℕ) (a lam : ℝ) (i j : ℕ) (hi : i < n) (hj : j < n) :
    let K := gaussianKernel A (fun _ => n) a lam
    (∃ D, IsLeast {r | ∃ m : ℤ, r = |A 0 0 / n * ((i : ℝ) - j) - m * A 0 0|} D ∧
      K (i * n + j) = ((a ^ 2 * Real.exp (-D ^ 2 / (2 * lam ^ 2)) : ℝ) : ℂ)) ∧
    K (i * n + j) = K (j * n + i) ∧ K (i * n + i) = ((a ^ 2 : ℝ) : ℂ) ∧ (K (i * n + j)).im = 0 ∧
      (K (i * n + j)).re ≤ a ^ 2 ∧ (a ≠ 0 → 0 < (K (i * n + j)).re) := by
  intro K
  have hl : List.ofFn (fun _ : Fin 1 => n) = [n] := by simp
  have hp : (List.ofFn (fun _ : Fin 1 => n)).prod = n := by simp
  have hK : ∀ i j, i < n → j < n → K (i * n + j) =
      diagonalFromIsotropicStacked (List.ofFn fun _ : Fin 1 => n) (gaussianIsotropic A (fun _ => n) a lam) (i * n + j) := by
    intro i j hi hj
    show diagonalFromIsotropic (List.ofFn fun _ : Fin 1 => n).prod _ _ = _
    rw [hp, hl]
    exact diagonal_one n _ hi hj
  have key := C64_gaussian_partial A (orthogonal_one hA) (fun _ => n) a lam i j (by rwa [hp]) (by rwa [hp])
  dsimp only at key
  rw [hp] at key
  rw [hK i j hi hj, hK j i hj hi, hK i i hi hi]
  obtain ⟨⟨D, hD, e⟩, h2⟩ := key
  refine ⟨⟨D, ?_, e⟩, h2⟩
  have hs : {r | ∃ m : ℤ, r = |A 0 0 / n * ((i : ℝ) - j) - m * A 0 0|} =
      {r | ∃ m : Fin 1 → ℤ, r = Real.sqrt (∑ c, (xPoint A (fun _ => n) i c - xPoint A (fun _ => n) j c - ∑ i, (m i : ℝ) * A i c) ^ 2)} := by
    ext r
    have hx : ∀ k < n, xPoint A (fun _ => n) k 0 = A 0 0 / n * k := by
      intro k hk
      rw [(orthogonal_one hA).point]
      simp [stackedNx, unravel, Nat.mod_eq_of_lt hk]
    constructor
    · rintro ⟨m, rfl⟩
      refine ⟨fun _ => m, ?_⟩
      rw [Fin.sum_univ_one, Fin.sum_univ_one, Real.sqrt_sq_eq_abs, hx i hi, hx j hj]
      congr 1
      ring
    · rintro ⟨m, rfl⟩
      refine ⟨m 0, ?_⟩
      rw [Fin.sum_univ_one, Fin.sum_univ_one, Real.sqrt_sq_eq_abs, hx i hi, hx j hj]
      congr 1
      ring
  rw [hs]
  exact hD

/-- In one dimension: a circle of length `2`. -/
example : (!![2] : Matrix (Fin 1) (Fin 1) ℝ) 0 0 ≠ 0 := by simp

/-! ## What is false -/

/-- C64 is false for `get_gaussian_noise_kernel` in two dimensions, also on a square lattice: differences of flat indices are taken,
and the kernel is not symmetric. -/
theorem C64_flat_negation (a lam : ℝ) (ha : a ≠ 0) (hl : lam ≠ 0) :
    let K := gaussianKernel (1 : Matrix (Fin 2) (Fin 2) ℝ) (fun _ => 2) a lam
    Orthogonal (1 : Matrix (Fin 2) (Fin 2) ℝ) ∧ (List.ofFn fun _ : Fin 2 => 2).prod = 4 ∧ K (1 * 4 + 2) ≠ K (2 * 4 + 1) := by
  intro K
  have hO : Orthogonal (1 : Matrix (Fin 2) (Fin 2) ℝ) := ⟨fun i c h => Matrix.one_apply_ne h, fun i => by simp⟩
  have hp : (List.ofFn fun _ : Fin 2 => 2).prod = 4 := by simp
  refine ⟨hO, hp, ?_⟩
  have hK : ∀ i j : ℕ, j < 4 → K (i * 4 + j) = gaussianFn a lam (totalDisplacement (1 : Matrix (Fin 2) (Fin 2) ℝ) (fun _ => 2) 0 (((i : ℤ) - j) % (4 : ℕ)).toNat) := by
    intro i j hj
    show diagonalFromIsotropic (List.ofFn fun _ : Fin 2 => 2).prod _ _ = _
    rw [hp, diagonalFromIsotropic, flatten_entry _ _ hj]
    rfl
  have e1 : (((1 : ℕ) : ℤ) - (2 : ℕ)) % (4 : ℕ) = 3 := by norm_num
  have e2 : (((2 : ℕ) : ℤ) - (1 : ℕ)) % (4 : ℕ) = 1 := by norm_num
  rw [hK 1 2 (by norm_num), hK 2 1 (by norm_num), e1, e2]
  have hsq : ∀ k, totalDisplacement (1 : Matrix (Fin 2) (Fin 2) ℝ) (fun _ => 2) 0 k ^ 2 =
      wrapDisplacement (-(1 / 2 * (stackedNx (fun _ : Fin 2 => 2) k 0 : ℝ))) (1 / 2) ^ 2 +
        wrapDisplacement (-(1 / 2 * (stackedNx (fun _ : Fin 2 => 2) k 1 : ℝ))) (1 / 2) ^ 2 := by
    intro k
    unfold totalDisplacement
    rw [vnorm_sq_eq, Real.sq_sqrt (by positivity), Fin.sum_univ_two]
    simp only [displacementMatrixAlongAxis, hO.norm, hO.point, stackedNx_zero]
    norm_num
  have w0 : wrapDisplacement (-(1 / 2 * ((0 : ℤ) : ℝ))) (1 / 2) = 0 := by
    norm_num [wrapDisplacement, fmod]
  have w1 : wrapDisplacement (-(1 / 2 * ((1 : ℤ) : ℝ))) (1 / 2) = -(1 / 2) := by
    norm_num [wrapDisplacement, fmod]
  have s3 : stackedNx (fun _ : Fin 2 => 2) 3 0 = 1 ∧ stackedNx (fun _ : Fin 2 => 2) 3 1 = 1 := by
    simp [stackedNx, unravel]
  have s1 : stackedNx (fun _ : Fin 2 => 2) 1 0 = 0 ∧ stackedNx (fun _ : Fin 2 => 2) 1 1 = 1 := by
    simp [stackedNx, unravel]
  unfold gaussianFn
  have t3 : (3 : ℤ).toNat = 3 := rfl
  have t1 : (1 : ℤ).toNat = 1 := rfl
  rw [t3, t1, hsq, hsq, s3.1, s3.2, s1.1, s1.2, w0, w1, Ne, Complex.ofReal_inj]
  intro h
  have h2 := Real.exp_injective (mul_left_cancel₀ (pow_ne_zero 2 ha) h)
  field_simp at h2
  norm_num at h2

/-- C64 is false on an oblique lattice: the cartesian components are wrapped by the lengths of the lattice vectors. With the
lattice vectors `(5, 0)` and `(3, 4)` and three points along the second, the kernel is not symmetric. -/
theorem C64_oblique_negation (a lam : ℝ) (ha : a ≠ 0) (hl : lam ≠ 0) :
    let K := diagonalFromIsotropicStacked [1, 3] (gaussianIsotropic !![5, 0; 3, 4] ![1, 3] a lam)
    K (0 * 3 + 1) ≠ K (1 * 3 + 0) := by
  intro K
  have hp : [1, 3].prod = 3 := rfl
  have h1 := diagonal_stacked_entry [1, 3] (gaussianIsotropic !![5, 0; 3, 4] ![1, 3] a lam) (i := 0) (j := 1) (by norm_num)
  have h2 := diagonal_stacked_entry [1, 3] (gaussianIsotropic !![5, 0; 3, 4] ![1, 3] a lam) (i := 1) (j := 0) (by norm_num)
  rw [hp] at h1 h2
  have r1 : ravel [1, 3] (wrappedDisplacement [1, 3] (unravel [1, 3] 0) (unravel [1, 3] 1)) = 2 := by decide
  have r2 : ravel [1, 3] (wrappedDisplacement [1, 3] (unravel [1, 3] 1) (unravel [1, 3] 0)) = 1 := by decide
  show diagonalFromIsotropicStacked [1, 3] _ _ ≠ diagonalFromIsotropicStacked [1, 3] _ _
  rw [h1, h2, r1, r2]
  have hsq : ∀ k, totalDisplacement (!![5, 0; 3, 4] : Matrix (Fin 2) (Fin 2) ℝ) ![1, 3] 0 k ^ 2 =
      wrapDisplacement (-(5 * (stackedNx ![1, 3] k 0 : ℝ) + (stackedNx ![1, 3] k 1 : ℝ))) (5 / 2) ^ 2 +
        wrapDisplacement (-(4 / 3 * (stackedNx ![1, 3] k 1 : ℝ))) (5 / 2) ^ 2 := by
    intro k
    have n0 : vnorm ((!![5, 0; 3, 4] : Matrix (Fin 2) (Fin 2) ℝ) 0) = 5 := by
      rw [vnorm_sq_eq, Fin.sum_univ_two]
      norm_num
      rw [show (25 : ℝ) = 5 ^ 2 by norm_num, Real.sqrt_sq (by norm_num)]
    have n1 : vnorm ((!![5, 0; 3, 4] : Matrix (Fin 2) (Fin 2) ℝ) 1) = 5 := by
      rw [vnorm_sq_eq, Fin.sum_univ_two]
      norm_num
      rw [show (25 : ℝ) = 5 ^ 2 by norm_num, Real.sqrt_sq (by norm_num)]
    unfold totalDisplacement
    rw [vnorm_sq_eq, Real.sq_sqrt (by positivity), Fin.sum_univ_two]
    simp only [displacementMatrixAlongAxis, n0, n1, xPoint, xPointAtIndex, tensordot00, dxStacked, Fin.sum_univ_two, stackedNx_zero,
      Matrix.of_apply]
    norm_num
  have s1 : stackedNx (![1, 3] : Fin 2 → ℕ) 1 0 = 0 ∧ stackedNx (![1, 3] : Fin 2 → ℕ) 1 1 = 1 := by
    simp [stackedNx, unravel]
  have s2 : stackedNx (![1, 3] : Fin 2 → ℕ) 2 0 = 0 ∧ stackedNx (![1, 3] : Fin 2 → ℕ) 2 1 = 2 := by
    simp [stackedNx, unravel]
  have f1 : ⌊(-(5 * ((0 : ℤ) : ℝ) + ((1 : ℤ) : ℝ)) + 5 / 2) / (2 * (5 / 2))⌋ = 0 := by rw [Int.floor_eq_iff]; norm_num
  have f2 : ⌊(-(5 * ((0 : ℤ) : ℝ) + ((2 : ℤ) : ℝ)) + 5 / 2) / (2 * (5 / 2))⌋ = 0 := by rw [Int.floor_eq_iff]; norm_num
  have f3 : ⌊(-(4 / 3 * ((1 : ℤ) : ℝ)) + 5 / 2) / (2 * (5 / 2))⌋ = 0 := by rw [Int.floor_eq_iff]; norm_num
  have f4 : ⌊(-(4 / 3 * ((2 : ℤ) : ℝ)) + 5 / 2) / (2 * (5 / 2))⌋ = -1 := by rw [Int.floor_eq_iff]; norm_num
  show gaussianFn a lam _ ≠ gaussianFn a lam _
  unfold gaussianFn
  rw [hsq, hsq, s1.1, s1.2, s2.1, s2.2, Ne, Complex.ofReal_inj]
  unfold wrapDisplacement fmod
  rw [f1, f2, f3, f4]
  intro h
  have h2 := Real.exp_injective (mul_left_cancel₀ (pow_ne_zero 2 ha) h)
  field_simp at h2
  norm_num at h2

/-- C64 is false for the axis kernels, which cannot be computed at all for axes of two or more points: the array of the
displacements has the wrong shape. -/
theorem C64_axis_negation (A : Matrix (Fin d) (Fin d) ℝ) (shape : Fin d → ℕ) (i : Fin d) (hi : 1 < shape i) (a lam : ℝ) :
    gaussianAxis A shape a lam = none := by
  have h1 : isotropicFromFunction d (shape i) (A i) (gaussianFn a lam) = none := by
    unfold isotropicFromFunction displacementsMatrixX broadcastLength
    have hd : 0 < d := i.pos
    split_ifs with e1 e2 e3
    · show (if _ then _ else _) = _
      rw [if_neg]
      show ¬ (d * d * shape i = _)
      rw [e1]
      intro h
      have : d = 1 := by
        have h' : d * d * d = d * d * 1 := by rw [h, mul_one]
        exact Nat.eq_of_mul_eq_mul_left (by positivity) h'
      omega
    · omega
    · show (if _ then _ else _) = _
      rw [if_neg]
      show ¬ (d * d * shape i = _)
      rw [e3, one_mul, one_mul]
      intro h
      have h' : shape i * 1 = shape i * shape i := by rw [mul_one]; exact h
      have := Nat.eq_of_mul_eq_mul_left (by omega) h'
      omega
    · rfl
  have : ∀ l : List (Fin d), i ∈ l → l.mapM (fun i => isotropicFromFunction d (shape i) (A i) (gaussianFn a lam)) = none := by
    intro l
    induction l with
    | nil => intro h; simp at h
    | cons b l ih =>
      intro h
      rw [List.mapM_cons]
      rcases List.mem_cons.1 h with rfl | h
      · rw [h1]; rfl
      · rw [ih h]
        cases isotropicFromFunction d (shape b) (A b) (gaussianFn a lam) <;> rfl
  exact this _ (List.mem_finRange i)

/-! ## The effective parameters -/

/-- The effective parameters make the quadratic coefficient of the kernel that of Caldeira and Leggett:
`a² / λ² = 2 η k T / ħ²`. -/
theorem C64_effective (A : Matrix (Fin d) (Fin d) ℝ) (hbar kB eta T factor : ℝ) (hk : 0 ≤ kB) (he : 0 ≤ eta) (hT : 0 ≤ T) (hf : factor ≠ 0)
    (hl : (⨅ i, vnorm (A i)) ≠ 0) :
    let p := effectiveGaussianParameters A hbar kB eta T factor
    p.1 ^ 2 / p.2 ^ 2 = 2 * eta * kB * T / hbar ^ 2 ∧ p.2 * factor = ⨅ i, vnorm (A i) := by
  intro p
  have h2 : p.2 = (⨅ i, vnorm (A i)) / factor := rfl
  have h1 : p.1 = Real.sqrt (2 * eta * kB * T / hbar ^ 2) * p.2 := rfl
  have h0 : p.2 ≠ 0 := by rw [h2]; exact div_ne_zero hl hf
  refine ⟨?_, by rw [h2]; field_simp⟩
  rw [h1, mul_pow, Real.sq_sqrt (by positivity), mul_div_assoc, div_self (pow_ne_zero 2 h0), mul_one]

/-- The effective parameters of a lorentzian kernel: as for the gaussian `a² / λ² = 2 η k T / ħ²`, and the width is half the shortest lattice vector
divided by the factor. -/
theorem C64_effective_lorentzian (A : Matrix (Fin d) (Fin d) ℝ) (hbar kB eta T factor : ℝ) (hk : 0 ≤ kB) (he : 0 ≤ eta) (hT : 0 ≤ T) (hf : factor ≠ 0)
    (hl : (⨅ i, vnorm (A i)) ≠ 0) :
    let p := effectiveLorentzianParameters A hbar kB eta T factor
    p.1 ^ 2 / p.2 ^ 2 = 2 * eta * kB * T / hbar ^ 2 ∧ p.2 * factor = (⨅ i, vnorm (A i)) / 2 := by
  intro p
  have h2 : p.2 = (⨅ i, vnorm (A i)) / 2 / factor := rfl
  have h1 : p.1 = Real.sqrt (2 * eta * kB * T / hbar ^ 2) * p.2 := rfl
  have h0 : p.2 ≠ 0 := by rw [h2]; exact div_ne_zero (div_ne_zero hl two_ne_zero) hf
  refine ⟨?_, by rw [h2]; field_simp⟩
  rw [h1, mul_pow, Real.sq_sqrt (by positivity), mul_div_assoc, div_self (pow_ne_zero 2 h0), mul_one]

/-- A rectangular cell: the shorter lattice vector is not zero. -/
example : (⨅ i, vnorm ((!![2, 0; 0, 3] : Matrix (Fin 2) (Fin 2) ℝ) i)) ≠ 0 := by
  have h : ∀ i, (2 : ℝ) ≤ vnorm ((!![2, 0; 0, 3] : Matrix (Fin 2) (Fin 2) ℝ) i) := by
    intro i
    rw [vnorm_sq_eq]
    refine Real.le_sqrt_of_sq_le ?_
    fin_cases i <;> simp [Fin.sum_univ_two] <;> norm_num
  exact (lt_of_lt_of_le (by norm_num) (le_ciInf h)).ne'

/-- In one dimension the correlations of the effective gaussian kernel are never as small as is documented:
`a² exp(-factor² / 2)`. The smallest is at least `a² exp(-factor² / 8)`. -/
theorem C64_effective_negation (A : Matrix (Fin 1) (Fin 1) ℝ) (hA : A 0 0 ≠ 0) (n : ℕ) (hbar kB eta T factor : ℝ) (hh : hbar ≠ 0) (hk : 0 < kB)
    (he : 0 < eta) (hT : 0 < T) (hf : 0 < factor) (i j : ℕ) (hi : i < n) (hj : j < n) :
    let a := (effectiveGaussianParameters A hbar kB eta T factor).1
    let K := effectiveGaussianKernel A (fun _ => n) hbar kB eta T factor
    a ^ 2 * Real.exp (-factor ^ 2 / 8) ≤ (K (i * n + j)).re ∧ a ^ 2 * Real.exp (-factor ^ 2 / 2) < (K (i * n + j)).re := by
  intro a K
  have hinf : (⨅ i, vnorm (A i)) = |A 0 0| := by
    rw [ciInf_unique]
    exact (orthogonal_one hA).norm _
  obtain ⟨lam, hlam⟩ : ∃ lam, lam = (effectiveGaussianParameters A hbar kB eta T factor).2 := ⟨_, rfl⟩
  have hl : lam = |A 0 0| / factor := by rw [hlam, ← hinf]; rfl
  have hpos : 0 < |A 0 0| := abs_pos.2 hA
  have hlpos : 0 < lam := by rw [hl]; positivity
  have ha : 0 < a := by
    show 0 < Real.sqrt (2 * eta * kB * T / hbar ^ 2) * (effectiveGaussianParameters A hbar kB eta T factor).2
    rw [← hlam]
    positivity
  obtain ⟨⟨D, ⟨⟨m, hm⟩, hD⟩, e⟩, -⟩ := C64_one_dimension A hA n a lam i j hi hj
  have hK : K (i * n + j) = ((a ^ 2 * Real.exp (-D ^ 2 / (2 * lam ^ 2)) : ℝ) : ℂ) := by rw [← e, hlam]; rfl
  have hD0 : 0 ≤ D := by rw [hm]; positivity
  have hDle : D ≤ |A 0 0| / 2 := by
    obtain ⟨q, hq⟩ := wrap_eq (A 0 0 / n * ((i : ℝ) - j)) (|A 0 0| / 2)
    obtain ⟨w1, w2⟩ := wrap_mem (A 0 0 / n * ((i : ℝ) - j)) (m := |A 0 0| / 2) (by positivity)
    have hw : |A 0 0 / n * ((i : ℝ) - j) - 2 * (|A 0 0| / 2) * q| ≤ |A 0 0| / 2 := by rw [← hq]; exact abs_le.2 ⟨w1, w2.le⟩
    rcases abs_cases (A 0 0) with ⟨h, -⟩ | ⟨h, -⟩
    · refine (hD ⟨q, rfl⟩).trans (le_trans (le_of_eq ?_) hw)
      rw [h]; congr 1; ring
    · refine (hD ⟨-q, rfl⟩).trans (le_trans (le_of_eq ?_) hw)
      rw [h]; congr 1; push_cast; ring
  have h1 : a ^ 2 * Real.exp (-factor ^ 2 / 8) ≤ (K (i * n + j)).re := by
    rw [hK, Complex.ofReal_re]
    refine mul_le_mul_of_nonneg_left (Real.exp_le_exp.2 ?_) (by positivity)
    rw [hl, div_le_div_iff₀ (by norm_num) (by positivity)]
    have : D ^ 2 ≤ (|A 0 0| / 2) ^ 2 := pow_le_pow_left₀ hD0 hDle 2
    have h3 : factor ^ 2 * (2 * (|A 0 0| / factor) ^ 2) = 2 * |A 0 0| ^ 2 := by field_simp
    nlinarith
  refine ⟨h1, lt_of_lt_of_le ?_ h1⟩
  refine mul_lt_mul_of_pos_left (Real.exp_lt_exp.2 ?_) (by positivity)
  have : 0 < factor ^ 2 := by positivity
  linarith

/-- The lorentzian kernel of an orthogonal lattice, expanded axis by axis: a lorentzian of the distance on the torus, symmetric
and `a²` on the diagonal. -/
theorem C64_lorentzian_partial (A : Matrix (Fin d) (Fin d) ℝ) (hA : Orthogonal A) (shape : Fin d → ℕ) (a lam : ℝ) (hl : lam ≠ 0) (i j : ℕ)
    (hi : i < (List.ofFn shape).prod) (hj : j < (List.ofFn shape).prod) :
    let N := (List.ofFn shape).prod
    let K := diagonalFromIsotropicStacked (List.ofFn shape) (lorentzianIsotropic A shape a lam)
    (∃ D, IsPeriodicDistance A (xPoint A shape i) (xPoint A shape j) D ∧
      K (i * N + j) = ((a ^ 2 * lam ^ 2 / (D ^ 2 + lam ^ 2) : ℝ) : ℂ)) ∧
    K (i * N + j) = K (j * N + i) ∧ K (i * N + i) = ((a ^ 2 : ℝ) : ℂ) ∧ (K (i * N + j)).re ≤ a ^ 2 := by
  intro N K
  obtain ⟨D, hD, e⟩ := C64_function_partial A hA shape (lorentzianFn a lam) i j hi hj
  obtain ⟨D', hD', e'⟩ := C64_function_partial A hA shape (lorentzianFn a lam) j i hj hi
  obtain ⟨D0, hD0, e0⟩ := C64_function_partial A hA shape (lorentzianFn a lam) i i hi hi
  have eK : K (i * N + j) = ((a ^ 2 * lam ^ 2 / (D ^ 2 + lam ^ 2) : ℝ) : ℂ) := e
  refine ⟨⟨D, hD, eK⟩, ?_, ?_, ?_⟩
  · exact e.trans ((congrArg _ (periodicDistance_unique hD (periodicDistance_symm hD'))).trans e'.symm)
  · refine e0.trans ?_
    rw [periodicDistance_self hD0]
    have : a ^ 2 * lam ^ 2 / (0 ^ 2 + lam ^ 2) = a ^ 2 := by field_simp; ring
    rw [lorentzianFn, this]
  · rw [eK, Complex.ofReal_re, div_le_iff₀ (by positivity)]
    nlinarith [sq_nonneg D, sq_nonneg a, mul_nonneg (sq_nonneg a) (sq_nonneg D)]

/-! ## The noise operators -/

theorem getD_ofFn {α : Type*} (f : Fin d → α) (x : α) (c : Fin d) : (List.ofFn f).getD c x = f c := by
  simp [List.getD_eq_getElem?_getD]

/-- On an orthogonal lattice the gaussian kernel is a product of kernels of the axes. -/
theorem gaussian_separable (A : Matrix (Fin d) (Fin d) ℝ) (hA : Orthogonal A) (shape : Fin d → ℕ) (a lam : ℝ) (c0 : Fin d) :
    ∃ ks : List (ℕ → ℂ), ks.length = d ∧
      ∀ k < (List.ofFn shape).prod, gaussianIsotropic A shape a lam k = isotropicFromAxis (List.ofFn shape) ks k := by
  obtain ⟨f, hf⟩ : ∃ f : Fin d → ℕ → ℂ, f = fun (c : Fin d) (x : ℕ) => (if c = c0 then ((a ^ 2 : ℝ) : ℂ) else 1) *
    ((Real.exp (-(wrapDisplacement (0 - A c c / shape c * x) (|A c c| / 2) ^ 2) / (2 * lam ^ 2)) : ℝ) : ℂ) := ⟨_, rfl⟩
  refine ⟨List.ofFn f, List.length_ofFn, fun k hk => ?_⟩
  have hlen := length_of_inShape (unravel_inShape _ _ hk)
  rw [isotropicFromAxis, outerProduct_eq _ _ (by rw [hlen, List.length_ofFn, List.length_ofFn]), List.length_ofFn,
    ← Fin.prod_univ_eq_prod_range (fun i => (List.ofFn f).getD i (fun _ => 1) ((unravel (List.ofFn shape) k).getD i 0)) d]
  simp only [getD_ofFn]
  rw [hf]
  dsimp only
  rw [prod_mul_distrib, Fintype.prod_ite_eq' c0, ← Complex.ofReal_prod, ← Complex.ofReal_mul, ← Real.exp_sum]
  show gaussianFn a lam _ = _
  unfold gaussianFn
  congr 4
  rw [← sum_div, sum_neg_distrib]
  congr 2
  unfold totalDisplacement
  rw [vnorm_sq_eq, Real.sq_sqrt (by positivity)]
  refine Fintype.sum_congr _ _ fun c => ?_
  congr 1
  unfold displacementMatrixAlongAxis
  rw [hA.norm, hA.point, hA.point, stackedNx_zero, stackedNx]
  congr 1
  push_cast
  ring

/-- **C64.** On an orthogonal lattice, the gaussian noise operators (not truncated) make the gaussian kernel of the distance on the
torus. -/
theorem C64_operators_partial (argsort : ℕ → (ℕ → ℝ) → ℕ → ℕ) (hs : ∀ N key, IsArgsort N key (argsort N key)) (A : Matrix (Fin d) (Fin d) ℝ)
    (hA : Orthogonal A) (hd : 0 < d) (shape : Fin d → ℕ) (hn : ∀ c, 0 < shape c) (a lam : ℝ) (ha : a ≠ 0) :
    ∃ ops K, gaussianOperators argsort A shape a lam none = some ops ∧ getDiagonalKernel ops = some K ∧
      ∀ i < (List.ofFn shape).prod, ∀ j < (List.ofFn shape).prod, ∃ D,
        IsPeriodicDistance A (xPoint A shape i) (xPoint A shape j) D ∧
        K (i * (List.ofFn shape).prod + j) = ((a ^ 2 * Real.exp (-D ^ 2 / (2 * lam ^ 2)) : ℝ) : ℂ) := by
  obtain ⟨ks, hks, hsep⟩ := gaussian_separable A hA shape a lam ⟨0, hd⟩
  have hne : List.ofFn shape ≠ [] := by
    intro h
    have := congrArg List.length h
    rw [List.length_ofFn] at this
    simp at this
    omega
  have hpos : ∀ n ∈ List.ofFn shape, 0 < n := by
    intro n h
    obtain ⟨c, rfl⟩ := List.mem_ofFn.1 h
    exact hn c
  have h0 : gaussianIsotropic A shape a lam 0 ≠ 0 := by
    show gaussianFn a lam _ ≠ 0
    unfold gaussianFn
    rw [Ne, Complex.ofReal_eq_zero]
    positivity
  obtain ⟨o, K, ho, hK, hv⟩ := C57_axis_partial (List.ofFn shape) hne hpos ks (by rw [hks, List.length_ofFn]) _ hsep h0 true
  obtain ⟨o', K', ho', hdim, hcount, hval, -⟩ := C57_axis_kernel (List.ofFn shape) hpos (gaussianIsotropic A shape a lam) true
  rw [ho] at ho'
  obtain rfl := Option.some.inj ho'
  have hN : 0 < (List.ofFn shape).prod := List.prod_pos hpos
  obtain ⟨ops', K1, K', S, t1, -, -, t4, t5, ⟨s1, s2, -⟩, t7, -⟩ := C62_diagonal o hval (argsort o.values fun i => ‖o.eigenvalue i‖) (hs _ _)
    o.count (by rw [hcount]; exact hN) le_rfl
  have hS : S = range o.count := eq_of_subset_of_card_le s1 (by rw [s2, card_range])
  rw [hK] at t4
  obtain rfl := Option.some.inj t4
  refine ⟨ops', K', ?_, t5, fun i hi j hj => ?_⟩
  · unfold gaussianOperators
    rw [ho]
    exact t1
  · obtain ⟨-, h2⟩ := t7 i (by rw [hdim]; exact hi) j (by rw [hdim]; exact hj)
    rw [hS, sdiff_self, noiseKernel, hdim] at h2
    have h3 : K' (i * (List.ofFn shape).prod + j) = K (i * (List.ofFn shape).prod + j) := (sub_eq_zero.1 (h2.trans sum_empty)).symm
    have hlt : i * (List.ofFn shape).prod + j < (List.ofFn shape).prod * (List.ofFn shape).prod := by
      calc i * (List.ofFn shape).prod + j < i * (List.ofFn shape).prod + (List.ofFn shape).prod := by omega
        _ = (i + 1) * (List.ofFn shape).prod := by ring
        _ ≤ _ := Nat.mul_le_mul_right _ hi
    rw [h3, hv _ hlt]
    exact (C64_gaussian_partial A hA shape a lam i j hi hj).1

/-- **C64.** The index displacement along an axis is congruent to the difference of the indices and the one closest to zero. -/
theorem C64_index_displacement (shape : Fin d → ℕ) (axis : Fin d) (h : 0 < shape axis) (i j : ℕ) :
    displacementNxStacked shape axis i j ≡ stackedNx shape i axis - stackedNx shape j axis [ZMOD shape axis] ∧
      -(shape axis : ℤ) ≤ 2 * displacementNxStacked shape axis i j ∧ 2 * displacementNxStacked shape axis i j < shape axis + 1 := by
  unfold displacementNxStacked
  have hL : (0 : ℤ) < shape axis := by exact_mod_cast h
  set z := stackedNx shape i axis - stackedNx shape j axis
  have h1 := Int.emod_nonneg (z + (shape axis / 2 : ℕ)) hL.ne'
  have h2 := Int.emod_lt_of_pos (z + (shape axis / 2 : ℕ)) hL
  refine ⟨?_, by omega, by omega⟩
  have := (Int.mod_modEq (z + (shape axis / 2 : ℕ)) (shape axis)).sub_right ((shape axis / 2 : ℕ) : ℤ)
  simpa using this

/-- On three by four points, from the point `(0, 0)` to the point `(2, 3)`: one step back along the second axis. -/
example : displacementNxStacked ![3, 4] 1 11 0 = -1 := by
  simp [displacementNxStacked, stackedNx, unravel]

end Verif
