import Verif.Model.PlotMatrices
import Verif.Props.C128_Occupations
import Verif.Props.C134_KernelPlots
import Verif.Props.C155_PlotOperators

/-!
# C158: operators and kernels drawn as matrices, isotropic kernels and their errors
-/

set_option autoImplicit false

namespace Verif

open Finset Spec Matrix

variable {d : ℕ}

namespace Spec

/-- A picture of the matrix `M`: the measured entries of each row, and limits of the colours which contain all of them. The largest is the upper limit;
the lower limit is zero for the modulus, and otherwise the least. -/
def IsPicture (rows cols : ℕ) (M : ℕ → ℕ → ℂ) (measure : Measure) (p : DrawnMatrix) : Prop :=
  p.rows = rows ∧ p.cols = cols ∧
    (∀ i < rows, ∀ j < cols, (measure = .abs → p.values i j = ‖M i j‖) ∧ (measure = .real → p.values i j = (M i j).re) ∧
      (measure = .imag → p.values i j = (M i j).im) ∧ (measure = .angle → p.values i j = unwrapAngles (fun l => (M i l).arg) j)) ∧
    (∀ i < rows, ∀ j < cols, p.limits.1 ≤ p.values i j ∧ p.values i j ≤ p.limits.2) ∧
    (∃ i < rows, ∃ j < cols, p.values i j = p.limits.2) ∧ (measure = .abs → p.limits.1 = 0) ∧
    (measure ≠ .abs → ∃ i < rows, ∃ j < cols, p.values i j = p.limits.1)

end Spec

/-! ## Helpers -/

theorem plotData2d_picture (rows cols : ℕ) (hr : 0 < rows) (hc : 0 < cols) (data M : ℕ → ℕ → ℂ) (hM : ∀ i < rows, data i = M i) (measure : Measure) :
    ∃ p, plotData2d rows cols data measure = some p ∧ IsPicture rows cols M measure p := by
  have hmem : ∀ x, x ∈ ((List.range rows).flatMap fun i => (List.range cols).map fun j => getMeasuredData (data i) measure j) ↔
      ∃ i < rows, ∃ j < cols, getMeasuredData (data i) measure j = x := by
    intro x
    simp only [List.mem_flatMap, List.mem_map, List.mem_range]
  obtain ⟨lo, hi, h1, h2, h3, h4, h5⟩ := C127_limits measure
    ((List.range rows).flatMap fun i => (List.range cols).map fun j => getMeasuredData (data i) measure j)
    (List.ne_nil_of_mem ((hmem _).2 ⟨0, hr, 0, hc, rfl⟩)) (by
      rintro rfl x hx
      obtain ⟨i, -, j, -, rfl⟩ := (hmem x).1 hx
      exact norm_nonneg _)
  refine ⟨⟨rows, cols, fun i j => getMeasuredData (data i) measure j, lo, hi⟩, ?_, rfl, rfl, fun i hi' j _ => ?_,
    fun i hi' j hj => h1 _ ((hmem _).2 ⟨i, hi', j, hj, rfl⟩), (hmem _).1 h2, h3, fun h => (hmem _).1 (h4 h)⟩
  · unfold plotData2d
    dsimp only
    rw [h5 (none, none)]
    rfl
  · dsimp only
    rw [hM i hi']
    refine ⟨?_, ?_, ?_, ?_⟩ <;> (rintro rfl; rfl)

/-! ## Theorems -/

/-- **C158.** `plot_operator_2d` draws the matrix of an operator: row `i`, column `j` is its entry `(i, j)`. `plot_operator_2d_diagonal` draws the diagonal
matrix of a diagonal operator. -/
theorem C158_operator (b0 b1 : Basis) (h0 : 0 < b0.n) (h1 : 0 < b1.n) (measure : Measure) :
    (∀ O : Operator, O.b0 = b0 → O.b1 = b1 → ∃ p, plotOperator2d O measure = some p ∧
      IsPicture b0.n b1.n (fun i j => O.data (i * b1.n + j)) measure p) ∧
    ∀ diagonal : ℕ → ℂ, ∃ p, plotDiagonalOperator2d ⟨b0, b0, diagonal⟩ measure = some p ∧
      IsPicture b0.n b0.n (fun i j => if i = j then diagonal i else 0) measure p := by
  have key : ∀ (O : Operator) (measure : Measure) (b0 b1 : Basis), 0 < b0.n → 0 < b1.n → O.b0 = b0 → O.b1 = b1 →
      ∃ p, plotOperator2d O measure = some p ∧ IsPicture b0.n b1.n (fun i j => O.data (i * b1.n + j)) measure p := by
    rintro O measure b0 b1 h0 h1 rfl rfl
    exact plotData2d_picture _ _ h0 h1 _ _ (fun i _ => rfl) measure
  refine ⟨fun O e0 e1 => key O measure b0 b1 h0 h1 e0 e1, fun diagonal => ?_⟩
  obtain ⟨p, hp, q1, q2, q3, q4⟩ := key (asOperator ⟨b0, b0, diagonal⟩) measure b0 b0 h0 h0 rfl rfl
  refine ⟨p, hp, q1, q2, fun i hi j hj => ?_, q4⟩
  have e : ∀ j < b0.n, (asOperator ⟨b0, b0, diagonal⟩).data (i * b0.n + j) = if i = j then diagonal i else 0 := by
    intro j hj
    unfold asOperator
    dsimp only
    rw [flatten_entry _ _ hj]
  obtain ⟨r1, r2, r3, r4⟩ := q3 i hi j hj
  beta_reduce at r1 r2 r3 r4 ⊢
  rw [e j hj] at r1 r2 r3
  exact ⟨r1, r2, r3, fun h => (r4 h).trans (measured_congr _ _ .angle j fun l hl => e l (lt_of_le_of_lt hl hj))⟩

/-- **C158.** `plot_kernel_2d` draws the kernel of operators with bases of sizes `n` and `m` as a matrix with one row for each pair of the first two
indices and one column for each pair of the last two. -/
theorem C158_kernel (n m : ℕ) (hn : 0 < n) (hm : 0 < m) (K : ℕ → ℂ) (measure : Measure) :
    ∃ p, plotKernel2d n m K measure = some p ∧ p.rows = n * m ∧ p.cols = n * m ∧
      ∀ i < n, ∀ j < m, ∀ k < n, ∀ l < m,
        (measure = .abs → p.values (i * m + j) (k * m + l) = ‖K (((i * m + j) * n + k) * m + l)‖) ∧
        (measure = .real → p.values (i * m + j) (k * m + l) = (K (((i * m + j) * n + k) * m + l)).re) ∧
        (measure = .imag → p.values (i * m + j) (k * m + l) = (K (((i * m + j) * n + k) * m + l)).im) := by
  obtain ⟨p, hp, q1, q2, q3, -⟩ := plotData2d_picture (n * m) (n * m) (by positivity) (by positivity)
    (fun p q => K (p * (n * m) + q)) _ (fun i _ => rfl) measure
  refine ⟨p, hp, q1, q2, fun i hi j hj k hk l hl => ?_⟩
  have e : (i * m + j) * (n * m) + (k * m + l) = ((i * m + j) * n + k) * m + l := by ring
  obtain ⟨r1, r2, r3, -⟩ := q3 (i * m + j) (add_mul_lt hi hj) (k * m + l) (add_mul_lt hk hl)
  rw [← e]
  exact ⟨r1, r2, r3⟩

/-- **C158 (partial).** `plot_diagonal_kernel_2d` draws the elements of a diagonal kernel with as many states on both sides, shifted such that the first state is in
the row and the column `n // 2`: the states `f` and `g`, counted modulo `n`, are drawn in row `f + n // 2` and column `g + n // 2`. Missing: different numbers of states,
see `C158_diagonal_kernel_negation`. -/
theorem C158_diagonal_kernel_partial (n : ℕ) (hn : 0 < n) (D : ℕ → ℂ) (measure : Measure) :
    ∃ p, plotDiagonalKernel2d n n D measure = some p ∧ p.rows = n ∧ p.cols = n ∧
      (∀ x < n, ∀ y < n, p.limits.1 ≤ p.values x y ∧ p.values x y ≤ p.limits.2) ∧
      ∀ i < n, ∀ j < n, ∀ row < n, ∀ col < n, (row : ℤ) ≡ i + ((n / 2 : ℕ) : ℤ) [ZMOD n] → (col : ℤ) ≡ j + ((n / 2 : ℕ) : ℤ) [ZMOD n] →
        (measure = .abs → p.values row col = ‖D (i * n + j)‖) ∧ (measure = .real → p.values row col = (D (i * n + j)).re) ∧
        (measure = .imag → p.values row col = (D (i * n + j)).im) := by
  obtain ⟨p, hp, q1, q2, q3, q4, -⟩ := plotData2d_picture n n hn hn
    (fun i j => fftshift n (fun i' => fftshift n (fun j' => D (i' * n + j')) j) i) _ (fun i _ => rfl) measure
  refine ⟨p, (if_pos rfl).trans hp, q1, q2, q4, fun i hi j hj row hrow col hcol hr hc => ?_⟩
  have back : ∀ {a b : ℕ}, a < n → (b : ℤ) ≡ a + ((n / 2 : ℕ) : ℤ) [ZMOD n] → (((b : ℤ) - (n : ℤ) / 2) % (n : ℤ)).toNat = a := by
    intro a b ha h
    have h2 : ((b : ℤ) - (n : ℤ) / 2) % (n : ℤ) = (a : ℤ) % n := by
      have := h.sub_right ((n / 2 : ℕ) : ℤ)
      rw [add_sub_cancel_right] at this
      rw [← this]
      push_cast
      rfl
    rw [h2, Int.emod_eq_of_lt (by positivity) (by exact_mod_cast ha), Int.toNat_natCast]
  have e : fftshift n (fun i' => fftshift n (fun j' => D (i' * n + j')) col) row = D (i * n + j) := by
    unfold fftshift roll
    dsimp only
    rw [back hi hr, back hj hc]
  obtain ⟨r1, r2, r3, -⟩ := q3 row hrow col hcol
  rw [← e]
  exact ⟨r1, r2, r3⟩

/-- **C158 (negation).** A diagonal kernel of operators between bases of different sizes cannot be drawn, although its elements are well defined. -/
theorem C158_diagonal_kernel_negation (n m : ℕ) (hn : 0 < n) (hm : m ≠ n) (D : ℕ → ℂ) (measure : Measure) :
    plotDiagonalKernel2d n m D measure = none :=
  if_neg fun h => hm (Nat.eq_of_mul_eq_mul_left hn h)

/-- **C158.** `plot_eigenvalues` of a Hermitian operator draws all its eigenvalues, each as often as it has orthonormal eigenvectors: value `k` is the
measured eigenvalue of the vector `v k`, these vectors are orthonormal, and the moduli ascend. -/
theorem C158_eigenvalues (argsort : ℕ → (ℕ → ℝ) → ℕ → ℕ) (ha : ∀ N key, IsArgsort N key (argsort N key)) (b : Basis) (O : Operator) (h0 : O.b0 = b)
    (r : EigResult) (h : IsEigh b.n b.n (matrix b.n b.n O.data) r.eigenvalues r.vectors) :
    ∃ (E : ℕ → ℝ) (v : ℕ → Fin b.n → ℂ), (∀ k < b.n, (matrix b.n b.n O.data).mulVec (v k) = (E k : ℂ) • v k) ∧
      (∀ k < b.n, ∀ l < b.n, ∑ i, (starRingEnd ℂ) (v k i) * v l i = if k = l then 1 else 0) ∧ (∀ k l, k ≤ l → l < b.n → |E k| ≤ |E l|) ∧
      ∀ measure, (plotEigenvaluesOf argsort O r measure).n = b.n ∧ ∀ k < b.n, (plotEigenvaluesOf argsort O r measure).coordinates k = k ∧
        (measure = .abs → (plotEigenvaluesOf argsort O r measure).values k = |E k|) ∧
        (measure = .real → (plotEigenvaluesOf argsort O r measure).values k = E k) ∧
        (measure = .imag → (plotEigenvaluesOf argsort O r measure).values k = 0) := by
  subst h0
  obtain ⟨order, o1, o2, o3, c1, c2, c3, c4, c5⟩ := C128_eigenvalues argsort ha O.b0.n r.eigenvalues
  have hre : ∀ j < O.b0.n, r.eigenvalues j = ((r.eigenvalues j).re : ℂ) := fun j hj =>
    Complex.ext rfl (by rw [h.1 j hj, Complex.ofReal_im])
  have hnorm : ∀ j < O.b0.n, ‖r.eigenvalues j‖ = |(r.eigenvalues j).re| := fun j hj => by
    conv_lhs => rw [hre j hj]
    rw [Complex.norm_real, Real.norm_eq_abs]
  refine ⟨fun k => (r.eigenvalues (order k)).re, fun k i => r.vectors i (order k), fun k hk => ?_, fun k hk l hl => ?_, fun k l hkl hl => ?_,
    fun measure => ⟨c1 measure, fun k hk => ⟨c5 measure k, ?_, ?_, ?_⟩⟩⟩
  · funext i
    rw [← hre _ (o1 k hk), Pi.smul_apply, smul_eq_mul]
    exact h.2.1 (order k) (o1 k hk) i
  · rw [h.2.2 _ (o1 k hk) _ (o1 l hl)]
    by_cases e : k = l
    · rw [if_pos e, if_pos (congrArg order e)]
    · rw [if_neg e, if_neg fun e' => e (o2 k hk l hl e')]
  · have := o3 k l hkl hl
    rwa [hnorm _ (o1 k (hkl.trans_lt hl)), hnorm _ (o1 l hl)] at this
  · rintro rfl
    exact (c4 k).trans (hnorm _ (o1 k hk))
  · rintro rfl
    exact c2 k
  · rintro rfl
    exact (c3 k).trans (h.1 _ (o1 k hk))

/-- **C158.** `plot_eigenstate_occupations` of an operator draws the Boltzmann weights of its eigenvalues, given that the routine finds a basis of
eigenvectors with real eigenvalues: against the energy above the lowest one, in ascending order, adding up to one. -/
theorem C158_occupations (argsort : ℕ → (ℕ → ℂ) → ℕ → ℕ) (ha : ∀ N key, IsArgsort N (fun i => (key i : ℂ).re) (argsort N key)) (kB T : ℝ) (b : Basis)
    (hb : 0 < b.n) (O : Operator) (h0 : O.b0 = b) (r : EigResult) (h : IsEig b.n (matrix b.n b.n O.data) r.eigenvalues r.vectors) (E : ℕ → ℝ)
    (hE : r.eigenvalues = fun i => (E i : ℂ)) :
    ∃ (line : DrawnLine) (lowest : ℝ) (order : ℕ → ℕ) (v : ℕ → Fin b.n → ℂ), plotOccupationsOf argsort kB T O r = some line ∧ line.n = b.n ∧
      (∀ k < b.n, v k ≠ 0 ∧ (matrix b.n b.n O.data).mulVec (v k) = ((line.coordinates k + lowest : ℝ) : ℂ) • v k) ∧
      (∀ k < b.n, 0 ≤ line.coordinates k) ∧ (∀ i j, i ≤ j → j < b.n → line.coordinates i ≤ line.coordinates j) ∧
      (∀ i < b.n, order i < b.n) ∧ (∀ i < b.n, ∀ j < b.n, order i = order j → i = j) ∧ (∀ k < b.n, E (order k) = line.coordinates k + lowest) ∧
      (∀ k < b.n, line.values k * ∑ j ∈ range b.n, Real.exp (-E j / (T * kB)) = Real.exp (-(line.coordinates k + lowest) / (T * kB))) ∧
      ∑ k ∈ range b.n, line.values k = 1 := by
  subst h0
  obtain ⟨line, after, ground, order, p0, p1, p2, p3, p4, p5, p6, p7, p8, p9⟩ := C128_occupations_partial argsort ha kB T O.b0.n hb E
  have hc : ∀ k < O.b0.n, line.coordinates k + E ground = E (order k) := fun k hk => by rw [p6 k hk]; ring
  refine ⟨line, E ground, order, fun k i => r.vectors i (order k), ?_, p1, fun k hk => ⟨fun h0 => ?_, ?_⟩, fun k hk => ?_, p7, p4, p5,
    fun k hk => (hc k hk).symm, fun k hk => ?_, p9⟩
  · unfold plotOccupationsOf calculateEigenvectors
    dsimp only
    rw [hE, p0]
    rfl
  · have := h.2 (fun j => if (j : ℕ) = order k then 1 else 0) fun i => by
      rw [sum_eq_single (⟨order k, p4 k hk⟩ : Fin O.b0.n)]
      · simpa using congrFun h0 i
      · intro j _ hj
        rw [if_neg fun e => hj (Fin.ext e), mul_zero]
      · intro hn; exact absurd (mem_univ _) hn
    have h1 := congrFun this (⟨order k, p4 k hk⟩ : Fin O.b0.n)
    simp at h1
  · funext i
    rw [hc k hk, Pi.smul_apply, smul_eq_mul]
    have := h.1 (order k) (p4 k hk) i
    rw [hE] at this
    exact this
  · rw [p6 k hk]
    linarith [p3 (order k) (p4 k hk)]
  · rw [hc k hk]
    exact p8 k hk

/-- **C158 (partial).** The sample drawn by `plot_noise_operators_single_sample_x`, on given axes and without truncation, is the combination
`∑ f_a √(ℏ λ_a) ⟨x|L_a|x⟩` of the operators with the random factors, relative to its value at the first point, whatever the basis of the operators.
Missing: a truncation or no given axes, see `C134_sample_negation`. -/
theorem C158_sample_partial (same : Basis → Basis → Bool) (hs : Sound same) (argsort : ℕ → (ℕ → ℝ) → ℕ → ℕ) (ha : ∀ N key, IsArgsort N key (argsort N key))
    (hbar : ℝ) (b : Basis) (hb : Valid b) (ho : OrthonormalParts b) (hp : 0 < points b) (ops : NoiseOperators) (hr : ops.rows = b.n)
    (hc : ops.cols = b.n) (hN : ops.values = ops.count) (h0 : 0 < ops.count) (factors : ℕ → ℂ) :
    ∃ V, plotNoiseOperatorsSampleX same argsort hbar ops b b none true factors = some V ∧
      ∀ x < points b, V x = ∑ a ∈ range ops.count, factors a * scimathSqrt (ops.eigenvalue a * hbar) *
        (positionElement b (fun i j => ops.data ((a * size b + i) * size b + j)) x -
          positionElement b (fun i j => ops.data ((a * size b + i) * size b + j)) 0) := by
  obtain ⟨⟨f, hf, kf⟩, -⟩ := position_units same hs b hb ho
  have h4 : Valid b.asPositionBasis := valid_position b
  have hcomp := compatible_asPosition b
  have hsz : b.asPositionBasis.n = points b := by rw [Basis.n_eq, size_asPosition]
  obtain ⟨f0, f1, out, hf0, hf1, hout, o1, o2, o3, o4, o5, o6⟩ := C120_operators same hs b b b.asPositionBasis b.asPositionBasis hb hb h4 h4 ho ho hcomp
    hcomp ops hr hc
  obtain rfl : f = f0 := Option.some.inj (hf.symm.trans hf0)
  obtain rfl : f = f1 := Option.some.inj (hf.symm.trans hf1)
  have hdata : ∀ a, ∀ x < points b, (asDiagonalOperators out).data (a * (asDiagonalOperators out).dim + x) =
      positionElement b (fun i j => ops.data ((a * size b + i) * size b + j)) x := by
    intro a x hx
    have hx' : x < b.asPositionBasis.n := by rw [hsz]; exact hx
    unfold asDiagonalOperators
    dsimp only
    rw [flatten_entry _ _ (by rw [o2]; exact hx'), o2, o3, o6 a x hx' x hx']
    unfold positionElement
    rw [Basis.n_eq]
    refine sum_congr rfl fun i hi => sum_congr rfl fun j hj => ?_
    rw [kf i (mem_range.1 hi) x hx, kf j (mem_range.1 hj) x hx]
  set D := asDiagonalOperators out with hD
  have e1 : D.values = ops.count := o4.trans hN
  have e2 : D.count = ops.count := o1
  have e3 : D.dim = points b := o2.trans hsz
  have e4 : D.eigenvalue = ops.eigenvalue := o5
  set order := argsort D.values fun a => ‖D.eigenvalue a‖ with horder
  have hcond : List.range D.values ≠ [] ∧ ∀ s ∈ List.range D.values, s < D.values ∧ order (D.values - 1 - s) < D.count := by
    refine ⟨by simp; omega, fun s hs => ?_⟩
    have := List.mem_range.1 hs
    refine ⟨this, ?_⟩
    rw [e2, ← e1]
    exact (ha D.values fun a => ‖D.eigenvalue a‖).1 (D.values - 1 - s) (by omega)
  refine ⟨fun k => (∑ i ∈ range D.values, factors i * scimathSqrt (D.eigenvalue i * hbar) * D.data (i * D.dim + k)) -
    ∑ i ∈ range D.values, factors i * scimathSqrt (D.eigenvalue i * hbar) * D.data (i * D.dim + 0), ?_, fun x hx => ?_⟩
  · unfold plotNoiseOperatorsSampleX
    rw [hout, Option.bind_some, ← hD]
    unfold plotOperatorsSingleSample
    rw [Option.getD_none, show truncateDiagonalOperators (argsort D.values fun a => ‖D.eigenvalue a‖) D
      (List.range D.values) = some _ from if_pos hcond, Option.bind_some]
    dsimp only
    rw [List.length_range, if_pos ⟨by omega, le_refl _, by rw [e3]; exact hp, rfl⟩]
  · dsimp only
    rw [← sum_sub_distrib, e1]
    refine sum_congr rfl fun a _ => ?_
    rw [hdata a x hx, hdata a 0 hp, e4]
    ring

/-- **C158.** `plot_isotropic_noise_kernel_1d_x` and `plot_isotropic_noise_kernel_2d_x` with a given index draw the function represented by the data of
the kernel, the value at each displacement, along the axes through this index. -/
theorem C158_isotropic (same : Basis → Basis → Bool) (hs : Sound same) (A : Matrix (Fin d) (Fin d) ℝ) (b : Basis) (hb : Valid b)
    (ho : OrthonormalParts b) (hd : b.fundamentalShape.length = d) (β : ℕ → ℂ) (measure : Measure) (top : List ℕ)
    (htop : InShape b.fundamentalShape top) :
    (∀ a : Fin d, 2 ≤ b.fundamentalShape.getD a 0 → ∃ line, plotIsotropicKernel1dX same A b β a (some (offAxes [(a : ℕ)] top)) measure = some line ∧
      IsLineX A b.fundamentalShape a top measure (expand b β) line) ∧
    ∀ axes : List (Fin d), axes.Nodup → ∃ s, plotIsotropicKernel2dX same A b β axes (some (offAxes (axes.map Fin.val) top)) = some s ∧
      IsSliceX A b.fundamentalShape axes top (expand b β) s := by
  refine ⟨fun a h2 => plotLineX_isLine same hs A b hb ho hd a h2 measure top htop β, fun axes hnd => ?_⟩
  obtain ⟨s, s1, s2, s3⟩ := C126_position same hs A b hb ho hd axes hnd β top htop
  exact ⟨s, s1, s2, s3⟩

/-- **C158 (partial).** The errors drawn by `plot_isotropic_kernel_error_1d` for a true kernel given at the points of a grid, without zeros: the real part of the
difference of the fitted kernel to the true one, in percent of the true one, against the number of the point. `plot_isotropic_kernel_error_1d_x` draws the
same errors against the position along the first axis, through the point where the error is largest. Missing: a true kernel in another basis than that of the points. -/
theorem C158_error_partial (same : Basis → Basis → Bool) (hs : Sound same) (A : Matrix (Fin (d + 1)) (Fin (d + 1)) ℝ) (ns : List ℕ) (hd : ns.length = d + 1)
    (h2 : 2 ≤ ns.getD 0 0) (hpos : 0 < ns.prod) (c : Basis) (hcv : Valid c) (hoc : OrthonormalParts c)
    (hcomp : Compatible c (.tuple (ns.map .fundamental))) (true' fitted : ℕ → ℂ) (hne : ∀ k < ns.prod, true' k ≠ 0) :
    (∃ line, plotKernelError1d same (.tuple (ns.map .fundamental)) c true' fitted = some line ∧ line.n = ns.prod ∧
      ∀ k < ns.prod, line.coordinates k = k ∧ line.values k = 100 * ((expand c fitted k - true' k) / true' k).re) ∧
    ∃ line top, plotKernelError1dX same A (.tuple (ns.map .fundamental)) c true' fitted = some line ∧ InShape ns top ∧
      (∀ k < ns.prod, ‖(expand c fitted k - true' k) / true' k‖ ≤
        ‖(expand c fitted (ravel ns top) - true' (ravel ns top)) / true' (ravel ns top)‖) ∧
      IsLineX A ns 0 top .real (fun k => 100 * ((expand c fitted k - true' k) / true' k)) line := by
  obtain ⟨e, he, ke⟩ := C134_percentage same hs ns c hcv hoc hcomp true' fitted
  have hval : ∀ k < ns.prod, e k = 100 * ((expand c fitted k - true' k) / true' k) := fun k hk => by
    have h0 := hne k hk
    rw [ke k hk h0]
    field_simp
    ring
  obtain ⟨f1, f2, f3, f4⟩ := fund_facts ns
  have hfs : (Basis.tuple (ns.map .fundamental)).fundamentalShape = ns := by
    rw [Basis.fundamentalShape]
    clear * -
    induction ns with
    | nil => rfl
    | cons n ns ih => exact congrArg (n :: ·) ih
  have hexp : ∀ k < ns.prod, expand (.tuple (ns.map .fundamental)) e k = 100 * ((expand c fitted k - true' k) / true' k) := fun k hk => by
    rw [← hval k hk]
    unfold expand
    rw [f1, sum_eq_single k]
    · rw [f3 k hk k hk, if_pos rfl, mul_one]
    · intro j hj hjk
      rw [f3 j (mem_range.1 hj) k hk, if_neg hjk, mul_zero]
    · intro hn; exact absurd (mem_range.2 hk) hn
  constructor
  · refine ⟨⟨ns.prod, fun i => i, getMeasuredData e .real⟩, ?_, rfl, fun k hk => ⟨rfl, ?_⟩⟩
    · unfold plotKernelError1d
      rw [he, Option.bind_some, Basis.n_eq, f1]
      rfl
    · show (e k).re = _
      rw [hval k hk]
      simp
  · obtain ⟨top, t1, t2, t3⟩ := C126_position_default same hs A (.tuple (ns.map .fundamental)) f4 (orthonormalParts_fundamental ns)
      (by rw [f2]; exact hpos) [0] e
    rw [hfs] at t1 t2
    rw [f2] at t2
    obtain ⟨line, l1, l2⟩ := plotLineX_isLine same hs A (.tuple (ns.map .fundamental)) f4 (orthonormalParts_fundamental ns) (by rw [hfs]; exact hd) 0
      (by rw [hfs]; exact h2) .real top (by rw [hfs]; exact t1) e
    rw [hfs] at l2
    refine ⟨line, top, ?_, t1, fun k hk => ?_, isLineX_congr A _ 0 top t1 _ _ _ hexp line l2⟩
    · unfold plotKernelError1dX
      rw [he, Option.bind_some, ← l1]
      unfold plotLineX
      rw [t3]
      rfl
    · have := t2 k hk
      rw [hexp k hk, hexp _ (ravel_lt _ _ t1), norm_mul, norm_mul] at this
      exact le_of_mul_le_mul_left this (by norm_num)

/-! ## Cases -/

/-- The elements of a diagonal kernel on three states: the first state is drawn in the middle. -/
example (D : ℕ → ℂ) : ∃ p, plotDiagonalKernel2d 3 3 D .real = some p ∧ p.values 1 1 = (D 0).re ∧ p.values 2 0 = (D 5).re := by
  obtain ⟨p, hp, -, -, -, h⟩ := C158_diagonal_kernel_partial 3 (by norm_num) D .real
  exact ⟨p, hp, (h 0 (by norm_num) 0 (by norm_num) 1 (by norm_num) 1 (by norm_num) (by decide) (by decide)).2.1 rfl,
    (h 1 (by norm_num) 2 (by norm_num) 2 (by norm_num) 0 (by norm_num) (by decide) (by decide)).2.1 rfl⟩

/-- A kernel of operators between two states and one state. -/
example (D : ℕ → ℂ) : plotDiagonalKernel2d 2 1 D .abs = none := C158_diagonal_kernel_negation 2 1 (by norm_num) (by norm_num) D .abs

/-- The matrix of an operator from three states to two. -/
example (data : ℕ → ℂ) (hd : data 5 = 3 - 4 * Complex.I) :
    ∃ p, plotOperator2d ⟨.fundamental 2, .fundamental 3, [6], data⟩ .abs = some p ∧ p.values 1 2 = 5 ∧ p.limits.1 = 0 := by
  obtain ⟨p, hp, -, -, h, -, -, h0, -⟩ := (C158_operator (.fundamental 2) (.fundamental 3) (by decide) (by decide) .abs).1
    ⟨.fundamental 2, .fundamental 3, [6], data⟩ rfl rfl
  refine ⟨p, hp, ?_, h0 rfl⟩
  rw [(h 1 (by decide) 2 (by decide)).1 rfl]
  show ‖data 5‖ = 5
  rw [hd, Complex.norm_def, show Complex.normSq (3 - 4 * Complex.I) = 5 ^ 2 by norm_num [Complex.normSq_apply]]
  exact Real.sqrt_sq (by norm_num)

/-- A Hermitian matrix with the eigenvalues 1 and -1 for the hypotheses of `C158_eigenvalues` and `C158_occupations`. -/
example : IsEigh 2 2 (matrix 2 2 fun k => if k = 0 then 1 else if k = 3 then -1 else 0) (fun j => if j = 0 then 1 else -1)
    (fun i j => if i = j then 1 else 0) := by
  refine ⟨fun j _ => ?_, fun j hj i => ?_, fun j hj j' hj' => ?_⟩
  · by_cases h : j = 0 <;> simp [h]
  · interval_cases j <;> fin_cases i <;> simp [matrix, Fin.sum_univ_two]
  · interval_cases j <;> interval_cases j' <;> simp [Fin.sum_univ_two]

/-- A fitted kernel which is too large by a tenth at one of two points. -/
example (same : Basis → Basis → Bool) (hs : Sound same) : ∃ line,
    plotKernelError1d same (.tuple ([2].map .fundamental)) (.tuple ([2].map .fundamental)) (fun _ => 1) (fun k => if k = 0 then 11 / 10 else 1) = some line ∧
      line.values 0 = 10 ∧ line.values 1 = 0 := by
  obtain ⟨f1, f2, f3, f4⟩ := fund_facts [2]
  have he : ∀ v : ℕ → ℂ, ∀ k < 2, expand (.tuple ([2].map .fundamental)) v k = v k := by
    intro v k hk
    unfold expand
    rw [f1, sum_eq_single k]
    · rw [f3 k (by simpa using hk) k (by simpa using hk), if_pos rfl, mul_one]
    · intro j hj hjk
      rw [f3 j (mem_range.1 hj) k (by simpa using hk), if_neg hjk, mul_zero]
    · intro hn; exact absurd (mem_range.2 (by simpa using hk)) hn
  obtain ⟨⟨line, h1, -, h2⟩, -⟩ := C158_error_partial (d := 0) same hs 1 [2] rfl (by simp) (by norm_num) (.tuple ([2].map .fundamental)) f4
    (orthonormalParts_fundamental [2]) ⟨rfl, trivial⟩ (fun _ => 1) (fun k => if k = 0 then 11 / 10 else 1) fun _ _ => one_ne_zero
  refine ⟨line, h1, ?_, ?_⟩
  · rw [(h2 0 (by norm_num)).2, he _ 0 (by norm_num)]
    norm_num
  · rw [(h2 1 (by norm_num)).2, he _ 1 (by norm_num)]
    norm_num

end Verif
