import Verif.Props.C128_Occupations
import Verif.Model.KernelTemperature
import Verif.Props.C63_Temperature
import Verif.Props.C58_Taylor
import Verif.Props.C60_AxisKernel
import Verif.Props.C64_Gaussian
import Verif.Props.C104_Position
import Verif.Props.C120_KernelConvert

/-!
C140: the temperature-corrected gaussian noise operators of a Hamiltonian.
-/

set_option autoImplicit false

namespace Verif

open Finset Spec

variable {d : ℕ}

/-- The matrix elements, between the states of a basis, of multiplication by a function of the points. -/
noncomputable def Spec.multiplication (b : Basis) (n : ℕ) (φ : ℕ → ℂ) : Matrix (Fin n) (Fin n) ℂ := fun i j =>
  ∑ x ∈ range (points b), (starRingEnd ℂ) (state b i x) * φ x * state b j x

theorem points_position (b : Basis) : size b.asPositionBasis = points b := by
  rw [Basis.asPositionBasis, (fund_facts _).1, fundamentalShape_prod]

/-- Converting to and from the position basis: the values of the states. -/
theorem position_units (same : Basis → Basis → Bool) (hs : Sound same) (b : Basis) (hb : Valid b) (ho : OrthonormalParts b) :
    (∃ f, Basis.convert same b b.asPositionBasis = some f ∧ ∀ i < size b, ∀ x < points b, f (unit i) x = state b i x) ∧
    ∃ g, Basis.convert same b.asPositionBasis b = some g ∧ ∀ i < size b, ∀ x < points b,
      g (unit x) i = (starRingEnd ℂ) (state b i x) := by
  have hp := points_position b
  have hN : b.fundamentalShape.prod = points b := fundamentalShape_prod b
  obtain ⟨h1, h2, h3, h4⟩ := fund_facts b.fundamentalShape
  rw [hN] at h1 h2 h3
  have hc := compatible_asPosition' b
  obtain ⟨f, hf, kf⟩ := convert_kernel same hs b b.asPositionBasis hb h4 ho (compatible_symm _ _ hc)
  obtain ⟨g, hg, kg⟩ := convert_kernel same hs b.asPositionBasis b h4 hb (orthonormalParts_fundamental _) hc
  refine ⟨⟨f, hf, fun i hi x hx => ?_⟩, g, hg, fun i hi x hx => ?_⟩
  · rw [unit_kernel kf (by rw [hp]; exact hx) hi]
    unfold overlapKernel
    rw [sum_eq_single x]
    · rw [Basis.asPositionBasis, h3 x hx x hx, if_pos rfl, map_one, one_mul]
    · intro y hy hne
      rw [Basis.asPositionBasis, h3 x hx y (mem_range.1 hy), if_neg (Ne.symm hne), map_zero, zero_mul]
    · intro h; exact absurd (mem_range.2 hx) h
  · rw [unit_kernel kg hi (by rw [hp]; exact hx)]
    unfold overlapKernel
    rw [show points b.asPositionBasis = points b from h2, sum_eq_single x]
    · rw [Basis.asPositionBasis, h3 x hx x hx, if_pos rfl, mul_one]
    · intro y hy hne
      rw [Basis.asPositionBasis, h3 x hx y (mem_range.1 hy), if_neg (Ne.symm hne), mul_zero]
    · intro h; exact absurd (mem_range.2 hx) h

/-- **C140.** Diagonal noise operators in position, corrected for the temperature and converted to the basis of the Hamiltonian: in that basis they are
`L - [H, L] / 4kT`, where `H` is the matrix of the Hamiltonian as it was given and `L` has the matrix elements of multiplication by the function. The
basis may be truncated. The strengths of the operators are kept. -/
theorem C140_corrected (same : Basis → Basis → Bool) (hs : Sound same) (b : Basis) (hb : Valid b) (ho : OrthonormalParts b) (n : ℕ)
    (hn : size b = n) (H : Operator) (h0 : H.b0 = b) (h1 : H.b1 = b) (ops : DiagonalNoiseOperators) (hdim : ops.dim = points b) (kT : ℝ) :
    ∃ corrected out, temperatureCorrectedDiagonalNoise same H b.asPositionBasis ops kT = some corrected ∧
      convertNoiseOperators same corrected b.asPositionBasis b.asPositionBasis b b = some out ∧
      out.count = ops.count ∧ out.rows = n ∧ out.cols = n ∧ out.values = ops.values ∧ out.eigenvalue = ops.eigenvalue ∧
      ∀ t, matrixAt n n out.data t = correctedMatrix kT (matrix n n H.data) (multiplication b n fun x => ops.data (t * ops.dim + x)) := by
  obtain ⟨⟨f, hf, kf⟩, g, hg, kg⟩ := position_units same hs b hb ho
  have hN : b.fundamentalShape.prod = points b := fundamentalShape_prod b
  have h4 : Valid b.asPositionBasis := (fund_facts b.fundamentalShape).2.2.2
  have hop : OrthonormalParts b.asPositionBasis := orthonormalParts_fundamental _
  have hc := compatible_asPosition' b
  have hp := points_position b
  have hbn : b.n = n := by rw [Basis.n_eq, hn]
  have hpn : b.asPositionBasis.n = points b := by rw [Basis.n_eq, hp]
  obtain ⟨C, f1, f2, hC, hf1, hf2, kC⟩ := C17_matrix same hs b b.asPositionBasis b b.asPositionBasis hb h4 ho (compatible_symm _ _ hc) hb h4 ho
    (compatible_symm _ _ hc)
  obtain rfl : f = f1 := Option.some.inj (hf.symm.trans hf1)
  obtain rfl : f = f2 := Option.some.inj (hf.symm.trans hf2)
  set N := points b with hNdef
  let H' : Operator := ⟨b.asPositionBasis, b.asPositionBasis, [b.asPositionBasis.n * b.asPositionBasis.n],
    flatten b.asPositionBasis.n (C H.entry)⟩
  have hH' : convertOperator same H b.asPositionBasis b.asPositionBasis = some H' := by
    unfold convertOperator
    rw [h0, h1, hC]
    rfl
  obtain ⟨X, hX, x0, x1, -, kX⟩ := C63_diagonal same hs b.asPositionBasis h4 hop N hp H H'
    ⟨.fundamental ops.count, b.asPositionBasis, b.asPositionBasis, ops.data⟩ ⟨rfl, rfl⟩ hH' kT
  obtain ⟨g1, g2, out, hg1, hg2, hout, e1, e2, e3, e4, e5, e6⟩ := C120_operators same hs b.asPositionBasis b.asPositionBasis b b h4 h4 hb hb hop hop hc hc
    ⟨ops.count, X.b0.n, X.b1.n, X.data, ops.values, ops.eigenvalue⟩ (by rw [x0]) (by rw [x1])
  obtain rfl : g = g1 := Option.some.inj (hg.symm.trans hg1)
  obtain rfl : g = g2 := Option.some.inj (hg.symm.trans hg2)
  refine ⟨_, out, by unfold temperatureCorrectedDiagonalNoise; rw [hX]; rfl, hout, e1, e2.trans hbn, e3.trans hbn, e4, e5, fun t => ?_⟩
  let S : Matrix (Fin N) (Fin n) ℂ := fun x i => state b i x
  have hSS : S.conjTranspose * S = 1 := by
    ext i j
    rw [Matrix.mul_apply, Matrix.one_apply]
    have := state_orthonormal b hb ho i (by rw [hn]; exact i.2) j (by rw [hn]; exact j.2)
    rw [Finset.sum_range (n := points b)] at this
    simp only [Fin.ext_iff]
    rw [← this]
    rfl
  have hHm : matrix N N H'.data = S * matrix n n H.data * S.conjTranspose := by
    ext x y
    rw [Matrix.mul_apply]
    simp only [matrix, H', hpn]
    rw [flatten_entry _ _ y.2, kC _ x (by rw [hp]; exact x.2) y (by rw [hp]; exact y.2), hn, sum_comm, Finset.sum_range]
    refine Fintype.sum_congr _ _ fun j => ?_
    rw [Matrix.mul_apply, sum_mul, Finset.sum_range]
    refine Fintype.sum_congr _ _ fun i => ?_
    rw [kf i (by rw [hn]; exact i.2) x x.2, kf j (by rw [hn]; exact j.2) y y.2]
    simp only [Operator.entry, h1, hbn]
    rfl
  have hL : multiplication b n (fun x => ops.data (t * ops.dim + x)) = S.conjTranspose * diagonalAt N ops.data t * S := by
    ext i j
    rw [Matrix.mul_apply, multiplication, Finset.sum_range]
    refine Fintype.sum_congr _ _ fun x => ?_
    rw [diagonalAt, Matrix.mul_diagonal, hdim]
    rfl
  have hO : matrixAt n n out.data t = S.conjTranspose * matrixAt N N X.data t * S := by
    ext i j
    rw [Matrix.mul_apply]
    have := e6 t i (by rw [hbn]; exact i.2) j (by rw [hbn]; exact j.2)
    rw [hbn, hpn, sum_comm, Finset.sum_range] at this
    show out.data (t * (n * n) + (i * n + j)) = _
    rw [show t * (n * n) + ((i : ℕ) * n + j) = (t * n + i) * n + j by ring, this]
    refine Fintype.sum_congr _ _ fun y => ?_
    rw [Matrix.mul_apply, sum_mul, Finset.sum_range]
    refine Fintype.sum_congr _ _ fun x => ?_
    rw [kg i (by rw [hn]; exact i.2) x x.2, kg j (by rw [hn]; exact j.2) y y.2, Complex.conj_conj]
    simp only [matrixAt, show t * (N * N) + ((x : ℕ) * N + y) = (t * N + x) * N + y by ring]
    rfl
  rw [hO, kX t, hL, hHm]
  simp only [correctedMatrix, Matrix.mul_sub, Matrix.sub_mul, Matrix.mul_smul, Matrix.smul_mul]
  congr 3
  · simp only [← Matrix.mul_assoc]
    rw [hSS, Matrix.one_mul]
  · simp only [Matrix.mul_assoc]
    rw [hSS, Matrix.mul_one]

/-- **C140.** Operators which need not be diagonal: corrected in the basis of the Hamiltonian, with their strengths kept. -/
theorem C140_full (same : Basis → Basis → Bool) (hs : Sound same) (b : Basis) (hb : Valid b) (ho : OrthonormalParts b) (n : ℕ)
    (hn : size b = n) (H : Operator) (hH : H.b0 = b ∧ H.b1 = b) (b' : Basis) (ops : NoiseOperators) (C : OperatorList)
    (hC : convertOperatorList same ⟨.fundamental ops.count, b', b', ops.data⟩ b b = some C) (kT : ℝ) :
    ∃ out, temperatureCorrectedNoise same H b' ops kT = some out ∧ out.count = ops.count ∧ out.rows = n ∧ out.cols = n ∧
      out.values = ops.values ∧ out.eigenvalue = ops.eigenvalue ∧
      ∀ t, matrixAt n n out.data t = correctedMatrix kT (matrix n n H.data) (matrixAt n n C.data t) := by
  obtain ⟨X, hX, x0, x1, -, kX⟩ := C63_full same hs b hb ho n hn H hH _ C hC kT
  have hbn : b.n = n := by rw [Basis.n_eq, hn]
  exact ⟨⟨ops.count, X.b0.n, X.b1.n, X.data, ops.values, ops.eigenvalue⟩, by unfold temperatureCorrectedNoise; rw [hX]; rfl, rfl, by
    show X.b0.n = n
    rw [x0]; exact hbn, by
    show X.b1.n = n
    rw [x1]; exact hbn, rfl, rfl, kX⟩

theorem gridShape_ofFn (b : Basis) (hd : b.fundamentalShape.length = d) : List.ofFn (gridShape d b) = b.fundamentalShape := by
  refine List.ext_getElem (by rw [List.length_ofFn, hd]) fun i h1 h2 => ?_
  rw [List.getElem_ofFn]
  show b.fundamentalShape.getD i 0 = _
  simp [h2]

theorem gaussianOperators_sizes (argsort : ℕ → (ℕ → ℝ) → ℕ → ℕ) (A : Matrix (Fin d) (Fin d) ℝ) (shape : Fin d → ℕ) (hn : ∀ c, 0 < shape c)
    (a lam : ℝ) (truncation : Option (List ℕ)) (ops : DiagonalNoiseOperators)
    (h : gaussianOperators argsort A shape a lam truncation = some ops) : ops.dim = (List.ofFn shape).prod ∧ ops.values = ops.count := by
  have hpos : ∀ n ∈ List.ofFn shape, 0 < n := by
    intro n h
    obtain ⟨c, rfl⟩ := List.mem_ofFn.1 h
    exact hn c
  obtain ⟨o, K', ho, hdim, -⟩ := C57_axis_kernel (List.ofFn shape) hpos (gaussianIsotropic A shape a lam) true
  unfold gaussianOperators at h
  rw [ho, Option.bind_some] at h
  unfold truncateDiagonalOperators at h
  split_ifs at h
  obtain rfl := Option.some.inj h
  exact ⟨hdim, rfl⟩

/-- **C140.** The temperature-corrected gaussian noise operators of a Hamiltonian on an orthogonal lattice, not truncated. In the basis of the Hamiltonian
they are `L - [H, L] / 4kT` for functions `L` of position, whose noise is the gaussian of the distance on the torus. (For a lattice which is not
orthogonal the kernel is not the gaussian: `C64_oblique_negation`; the form of the operators is `C140_truncated` for any lattice.) -/
theorem C140_gaussian_partial (argsort : ℕ → (ℕ → ℝ) → ℕ → ℕ) (hsort : ∀ N key, IsArgsort N key (argsort N key)) (same : Basis → Basis → Bool)
    (hs : Sound same) (A : Matrix (Fin d) (Fin d) ℝ) (hA : Orthogonal A) (hd0 : 0 < d) (b : Basis) (hb : Valid b) (ho : OrthonormalParts b) (n : ℕ)
    (hn : size b = n) (hd : b.fundamentalShape.length = d) (hpos : ∀ m ∈ b.fundamentalShape, 0 < m) (H : Operator) (h0 : H.b0 = b) (h1 : H.b1 = b)
    (a lam kB T : ℝ) (ha : a ≠ 0) :
    ∃ (L : ℕ → ℕ → ℂ) (out : NoiseOperators), temperatureCorrectedGaussian argsort same A H a lam kB T none = some out ∧
      out.rows = n ∧ out.cols = n ∧ out.values = out.count ∧
      (∀ t, matrixAt n n out.data t = correctedMatrix (kB * T) (matrix n n H.data) (multiplication b n (L t))) ∧
      ∀ i < points b, ∀ j < points b, ∃ D, IsPeriodicDistance A (xPoint A (gridShape d b) i) (xPoint A (gridShape d b) j) D ∧
        ∑ t ∈ range out.count, out.eigenvalue t * (starRingEnd ℂ) (L t i) * L t j = ((a ^ 2 * Real.exp (-D ^ 2 / (2 * lam ^ 2)) : ℝ) : ℂ) := by
  have hg := gridShape_ofFn b hd
  have hc : ∀ c, 0 < gridShape d b c := fun c => hpos _ (by rw [← hg]; exact List.mem_ofFn.2 ⟨c, rfl⟩)
  have hN : (List.ofFn (gridShape d b)).prod = points b := by rw [hg, fundamentalShape_prod]
  obtain ⟨ops, K, e1, e2, e3⟩ := C64_operators_partial argsort hsort A hA hd0 (gridShape d b) hc a lam ha
  obtain ⟨s1, s2⟩ := gaussianOperators_sizes argsort A _ hc a lam none ops e1
  rw [hN] at s1 e3
  obtain ⟨corrected, out, c1, c2, c3, c4, c5, c6, c7, c8⟩ := C140_corrected same hs b hb ho n hn H h0 h1 ops s1 (kB * T)
  refine ⟨fun t x => ops.data (t * ops.dim + x), out, ?_, c4, c5, by rw [c6, c3, s2], c8, fun i hi j hj => ?_⟩
  · unfold temperatureCorrectedGaussian
    dsimp only
    rw [h0, h1, e1, Option.bind_some, c1, Option.bind_some, c2]
  · obtain ⟨D, hD, k⟩ := e3 i hi j hj
    refine ⟨D, hD, ?_⟩
    obtain ⟨K', hK', kK⟩ := getDiagonalKernel_entries ops s2
    obtain rfl := Option.some.inj (e2.symm.trans hK')
    rw [← k, c3, c7, ← s1, kK i j (by rw [s1]; exact hj)]
    rfl

/-- **C140.** On any lattice and for any truncation: the operators returned are those of `get_gaussian_noise_operators_periodic`, corrected. -/
theorem C140_truncated (argsort : ℕ → (ℕ → ℝ) → ℕ → ℕ) (same : Basis → Basis → Bool) (hs : Sound same) (A : Matrix (Fin d) (Fin d) ℝ) (b : Basis)
    (hb : Valid b) (ho : OrthonormalParts b) (n : ℕ) (hn : size b = n) (hd : b.fundamentalShape.length = d) (hpos : ∀ m ∈ b.fundamentalShape, 0 < m)
    (H : Operator) (h0 : H.b0 = b) (h1 : H.b1 = b) (a lam kB T : ℝ) (truncation : Option (List ℕ)) :
    (gaussianOperators argsort A (gridShape d b) a lam truncation = none →
      temperatureCorrectedGaussian argsort same A H a lam kB T truncation = none) ∧
    ∀ ops, gaussianOperators argsort A (gridShape d b) a lam truncation = some ops →
      ∃ out, temperatureCorrectedGaussian argsort same A H a lam kB T truncation = some out ∧ out.count = ops.count ∧ out.rows = n ∧ out.cols = n ∧
        out.values = ops.values ∧ out.eigenvalue = ops.eigenvalue ∧ ∀ t, matrixAt n n out.data t =
          correctedMatrix (kB * T) (matrix n n H.data) (multiplication b n fun x => ops.data (t * points b + x)) := by
  have hg := gridShape_ofFn b hd
  have hc : ∀ c, 0 < gridShape d b c := fun c => hpos _ (by rw [← hg]; exact List.mem_ofFn.2 ⟨c, rfl⟩)
  have hN : (List.ofFn (gridShape d b)).prod = points b := by rw [hg, fundamentalShape_prod]
  constructor
  · intro h
    unfold temperatureCorrectedGaussian
    dsimp only
    rw [h0, h, Option.bind_none]
  · intro ops e1
    obtain ⟨s1, -⟩ := gaussianOperators_sizes argsort A _ hc a lam truncation ops e1
    rw [hN] at s1
    obtain ⟨corrected, out, c1, c2, c3, c4, c5, c6, c7, c8⟩ := C140_corrected same hs b hb ho n hn H h0 h1 ops s1 (kB * T)
    refine ⟨out, ?_, c3, c4, c5, c6, c7, fun t => by rw [← s1]; exact c8 t⟩
    unfold temperatureCorrectedGaussian
    dsimp only
    rw [h0, h1, e1, Option.bind_some, c1, Option.bind_some, c2]

/-- **C140.** With the parameters of Caldeira and Leggett, friction `η` and temperature `T`: the length is the shortest lattice vector over `2√2`, and the
noise of the functions `L` is `(2 η k T / ħ²) λ² exp(-D² / 2λ²)`. -/
theorem C140_effective_partial (argsort : ℕ → (ℕ → ℝ) → ℕ → ℕ) (hsort : ∀ N key, IsArgsort N key (argsort N key)) (same : Basis → Basis → Bool)
    (hs : Sound same) (A : Matrix (Fin d) (Fin d) ℝ) (hA : Orthogonal A) (hd0 : 0 < d) (b : Basis) (hb : Valid b) (ho : OrthonormalParts b) (n : ℕ)
    (hn : size b = n) (hd : b.fundamentalShape.length = d) (hpos : ∀ m ∈ b.fundamentalShape, 0 < m) (H : Operator) (h0 : H.b0 = b) (h1 : H.b1 = b)
    (hbar kB eta T : ℝ) (hh : hbar ≠ 0) (hk : 0 < kB) (he : 0 < eta) (hT : 0 < T) :
    ∃ (lam : ℝ) (L : ℕ → ℕ → ℂ) (out : NoiseOperators), temperatureCorrectedEffectiveGaussian argsort same A H hbar kB eta T none = some out ∧
      IsLeast (Set.range fun i => vnorm (A i)) (2 * Real.sqrt 2 * lam) ∧ out.rows = n ∧ out.cols = n ∧ out.values = out.count ∧
      (∀ t, matrixAt n n out.data t = correctedMatrix (kB * T) (matrix n n H.data) (multiplication b n (L t))) ∧
      ∀ i < points b, ∀ j < points b, ∃ D, IsPeriodicDistance A (xPoint A (gridShape d b) i) (xPoint A (gridShape d b) j) D ∧
        ∑ t ∈ range out.count, out.eigenvalue t * (starRingEnd ℂ) (L t i) * L t j =
          ((2 * eta * kB * T / hbar ^ 2 * lam ^ 2 * Real.exp (-D ^ 2 / (2 * lam ^ 2)) : ℝ) : ℂ) := by
  haveI : Nonempty (Fin d) := ⟨⟨0, hd0⟩⟩
  have hfin : (Set.range fun i => vnorm (A i)).Finite := Set.finite_range _
  have hne : (Set.range fun i => vnorm (A i)).Nonempty := Set.range_nonempty _
  have hmem : (⨅ i, vnorm (A i)) ∈ Set.range fun i => vnorm (A i) := hne.csInf_mem hfin
  have hlpos : 0 < ⨅ i, vnorm (A i) := by
    obtain ⟨i, hi⟩ := hmem
    rw [← hi]
    show 0 < vnorm (A i)
    rw [hA.norm]
    exact abs_pos.2 (hA.2 i)
  have h22 : (2 * Real.sqrt 2) ≠ 0 := by positivity
  obtain ⟨q1, q2⟩ := C64_effective A hbar kB eta T (2 * Real.sqrt 2) hk.le he.le hT.le h22 hlpos.ne'
  set p := effectiveGaussianParameters A hbar kB eta T (2 * Real.sqrt 2) with hp
  have hp2 : p.2 ≠ 0 := by intro h; rw [h, zero_mul] at q2; exact hlpos.ne q2
  have hsq : p.1 ^ 2 = 2 * eta * kB * T / hbar ^ 2 * p.2 ^ 2 := (div_eq_iff (pow_ne_zero 2 hp2)).1 q1
  have ha : p.1 ≠ 0 := by
    intro h
    rw [h, zero_pow two_ne_zero] at hsq
    have : 0 < 2 * eta * kB * T / hbar ^ 2 * p.2 ^ 2 := by positivity
    exact this.ne hsq
  obtain ⟨L, out, r1, r2, r3, r4, r5, r6⟩ := C140_gaussian_partial argsort hsort same hs A hA hd0 b hb ho n hn hd hpos H h0 h1 p.1 p.2 kB T ha
  refine ⟨p.2, L, out, r1, ?_, r2, r3, r4, r5, fun i hi j hj => ?_⟩
  · rw [mul_comm, q2]
    exact ⟨hmem, fun x hx => csInf_le hfin.bddBelow hx⟩
  · obtain ⟨D, hD, k⟩ := r6 i hi j hj
    exact ⟨D, hD, by rw [k, hsq]⟩

/-- Length and amplitude of the parameters of Caldeira and Leggett on an orthogonal lattice. -/
theorem effective_parameters (A : Matrix (Fin d) (Fin d) ℝ) (hA : Orthogonal A) (hd0 : 0 < d) (hbar kB eta T factor : ℝ) (hk : 0 ≤ kB) (he : 0 ≤ eta)
    (hT : 0 ≤ T) (hf : factor ≠ 0) :
    let p := effectiveGaussianParameters A hbar kB eta T factor
    IsLeast (Set.range fun i => vnorm (A i)) (factor * p.2) ∧ p.1 ^ 2 = 2 * eta * kB * T / hbar ^ 2 * p.2 ^ 2 ∧ p.2 ≠ 0 := by
  haveI : Nonempty (Fin d) := ⟨⟨0, hd0⟩⟩
  have hfin : (Set.range fun i => vnorm (A i)).Finite := Set.finite_range _
  have hne : (Set.range fun i => vnorm (A i)).Nonempty := Set.range_nonempty _
  have hmem : (⨅ i, vnorm (A i)) ∈ Set.range fun i => vnorm (A i) := hne.csInf_mem hfin
  have hlpos : 0 < ⨅ i, vnorm (A i) := by
    obtain ⟨i, hi⟩ := hmem
    rw [← hi]
    show 0 < vnorm (A i)
    rw [hA.norm]
    exact abs_pos.2 (hA.2 i)
  obtain ⟨q1, q2⟩ := C64_effective A hbar kB eta T factor hk he hT hf hlpos.ne'
  have hp2 : (effectiveGaussianParameters A hbar kB eta T factor).2 ≠ 0 := by intro h; rw [h, zero_mul] at q2; exact hlpos.ne q2
  refine ⟨?_, (div_eq_iff (pow_ne_zero 2 hp2)).1 q1, hp2⟩
  rw [mul_comm, q2]
  exact ⟨hmem, fun x hx => csInf_le hfin.bddBelow hx⟩

/-- **C140.** The noise operators of Caldeira and Leggett on an orthogonal lattice: their kernel is `(2 η k T / ħ²) λ² exp(-D² / 2λ²)` for the distance `D`
on the torus, and `2√2 λ` is the shortest of the lattice vectors. -/
theorem C140_effective_operators_partial (argsort : ℕ → (ℕ → ℝ) → ℕ → ℕ) (hsort : ∀ N key, IsArgsort N key (argsort N key))
    (A : Matrix (Fin d) (Fin d) ℝ) (hA : Orthogonal A) (hd0 : 0 < d) (shape : Fin d → ℕ) (hn : ∀ c, 0 < shape c) (hbar kB eta T : ℝ) (hh : hbar ≠ 0)
    (hk : 0 < kB) (he : 0 < eta) (hT : 0 < T) :
    ∃ (lam : ℝ) (ops : DiagonalNoiseOperators) (K : ℕ → ℂ), effectiveGaussianOperators argsort A shape hbar kB eta T none = some ops ∧
      getDiagonalKernel ops = some K ∧ IsLeast (Set.range fun i => vnorm (A i)) (2 * Real.sqrt 2 * lam) ∧
      ∀ i < (List.ofFn shape).prod, ∀ j < (List.ofFn shape).prod, ∃ D, IsPeriodicDistance A (xPoint A shape i) (xPoint A shape j) D ∧
        K (i * (List.ofFn shape).prod + j) = ((2 * eta * kB * T / hbar ^ 2 * lam ^ 2 * Real.exp (-D ^ 2 / (2 * lam ^ 2)) : ℝ) : ℂ) := by
  obtain ⟨q1, q2, q3⟩ := effective_parameters A hA hd0 hbar kB eta T (2 * Real.sqrt 2) hk.le he.le hT.le (by positivity)
  have ha : (effectiveGaussianParameters A hbar kB eta T (2 * Real.sqrt 2)).1 ≠ 0 := by
    intro h
    rw [h, zero_pow two_ne_zero] at q2
    have : 0 < 2 * eta * kB * T / hbar ^ 2 * (effectiveGaussianParameters A hbar kB eta T (2 * Real.sqrt 2)).2 ^ 2 := by positivity
    exact this.ne q2
  obtain ⟨ops, K, r1, r2, r3⟩ := C64_operators_partial argsort hsort A hA hd0 shape hn _ (effectiveGaussianParameters A hbar kB eta T (2 * Real.sqrt 2)).2 ha
  refine ⟨_, ops, K, r1, r2, q1, fun i hi j hj => ?_⟩
  obtain ⟨D, hD, k⟩ := r3 i hi j hj
  exact ⟨D, hD, by rw [k, q2]⟩

/-- **C140.** The isotropic kernel of Caldeira and Leggett, expanded axis by axis: `(2 η k T / ħ²) λ² exp(-D² / 2λ²)`, where `factor * λ` is the shortest of the
lattice vectors. -/
theorem C140_effective_isotropic_partial (A : Matrix (Fin d) (Fin d) ℝ) (hA : Orthogonal A) (hd0 : 0 < d) (shape : Fin d → ℕ) (hbar kB eta T factor : ℝ)
    (hk : 0 ≤ kB) (he : 0 ≤ eta) (hT : 0 ≤ T) (hf : factor ≠ 0) :
    ∃ lam : ℝ, IsLeast (Set.range fun i => vnorm (A i)) (factor * lam) ∧
      ∀ i < (List.ofFn shape).prod, ∀ j < (List.ofFn shape).prod, ∃ D, IsPeriodicDistance A (xPoint A shape i) (xPoint A shape j) D ∧
        diagonalFromIsotropicStacked (List.ofFn shape) (effectiveGaussianIsotropic A shape hbar kB eta T factor) (i * (List.ofFn shape).prod + j) =
          ((2 * eta * kB * T / hbar ^ 2 * lam ^ 2 * Real.exp (-D ^ 2 / (2 * lam ^ 2)) : ℝ) : ℂ) := by
  obtain ⟨q1, q2, _⟩ := effective_parameters A hA hd0 hbar kB eta T factor hk he hT hf
  refine ⟨_, q1, fun i hi j hj => ?_⟩
  obtain ⟨⟨D, hD, k⟩, _⟩ := C64_gaussian_partial A hA shape (effectiveGaussianParameters A hbar kB eta T factor).1
    (effectiveGaussianParameters A hbar kB eta T factor).2 i j hi hj
  refine ⟨D, hD, ?_⟩
  rw [← q2]
  exact k

/-- A rectangular lattice with six points, and positive constants, meet the hypotheses. -/
example : Orthogonal !![(2 : ℝ), 0; 0, 3] ∧ (∀ c : Fin 2, 0 < (![2, 3] : Fin 2 → ℕ) c) ∧ (List.ofFn (![2, 3] : Fin 2 → ℕ)).prod = 6 ∧
    ∃ argsort : ℕ → (ℕ → ℝ) → ℕ → ℕ, ∀ N key, IsArgsort N key (argsort N key) :=
  ⟨⟨by intro i c h; fin_cases i <;> fin_cases c <;> simp at h ⊢, by intro i; fin_cases i <;> simp⟩, by intro c; fin_cases c <;> decide, by decide,
    Classical.axiomOfChoice fun N => Classical.axiomOfChoice fun key => exists_argsort N key⟩

/-- A truncated momentum basis in two dimensions, with a Hamiltonian, meets the hypotheses. -/
example : ∃ (b : Basis), Valid b ∧ OrthonormalParts b ∧ size b = 6 ∧ points b = 10 ∧ b.fundamentalShape.length = 2 ∧ (∀ m ∈ b.fundamentalShape, 0 < m) ∧
    Orthogonal !![(2 : ℝ), 0; 0, 3] :=
  ⟨.tuple [.transformed 3 5, .fundamental 2], ⟨by show (3 : ℕ) ≤ 5; norm_num, trivial, trivial⟩, ⟨trivial, trivial, trivial⟩, rfl, rfl, rfl, by
    intro m hm
    have hm' : m ∈ [5, 2] := hm
    simp only [List.mem_cons, List.not_mem_nil, or_false] at hm'
    omega,
    by intro i c h; fin_cases i <;> fin_cases c <;> simp at h ⊢, by intro i; fin_cases i <;> simp⟩

/-! ## Linear operators on several axes -/

/-- Distance from the point `i` of an axis of `n` points and length `δ` to its middle, wrapped into the cell. -/
noncomputable def Spec.fromMiddle (n : ℕ) (δ : ℝ) (i : ℕ) : ℝ := δ * ((((n / 2 : ℕ) - i + (n / 2 : ℕ) : ℤ) % n - (n / 2 : ℕ) : ℤ) : ℝ) / n

/-- The kernel of the linear gaussian operators on several axes: the product over the axes of `a²` times the Taylor polynomial of `exp(-x y / 2λ²)`. -/
noncomputable def Spec.linearGaussian (a lam : ℝ) : List (ℕ × ℝ × Option ℕ) → List ℕ → List ℕ → ℝ
  | (n, δ, terms) :: axes, i :: is, j :: js =>
    (a ^ 2 * ∑ t ∈ range (terms.getD n), (-(fromMiddle n δ i * fromMiddle n δ j) / (2 * lam ^ 2)) ^ t / (t.factorial : ℝ)) *
      linearGaussian a lam axes is js
  | _, _, _ => 1

theorem linear_axis (n : ℕ) (δ : ℝ) (hδ : δ ≠ 0) (terms : Option ℕ) (a lam : ℝ) {i j : ℕ} (hi : i < n) (hj : j < n) :
    axisKernelOf (gaussianLinearTaylor n δ a lam terms) i j =
      ((a ^ 2 * ∑ t ∈ range (terms.getD n), (-(fromMiddle n δ i * fromMiddle n δ j) / (2 * lam ^ 2)) ^ t / (t.factorial : ℝ) : ℝ) : ℂ) := by
  show noiseKernel (range (terms.getD n)) (fun t => ((gaussianTaylorCoefficients a (2 * Real.pi * lam / δ) t : ℝ) : ℂ))
    (fun t x => flatten n (fun t j => (((2 * Real.pi * (displacementNx n (n / 2) j : ℝ) / (n : ℝ)) ^ t : ℝ) : ℂ)) (t * n + x)) i j = _
  unfold noiseKernel
  rw [Complex.ofReal_mul, Complex.ofReal_sum, mul_sum]
  refine sum_congr rfl fun t _ => ?_
  beta_reduce
  rw [flatten_entry _ _ hi, flatten_entry _ _ hj, Complex.conj_ofReal, ← Complex.ofReal_mul, ← Complex.ofReal_mul, ← Complex.ofReal_mul]
  congr 1
  have hn : (n : ℝ) ≠ 0 := by
    have : 0 < n := by omega
    positivity
  unfold gaussianTaylorCoefficients
  have e : (-1 / (2 * (2 * Real.pi * lam / δ) ^ 2)) * (2 * Real.pi * (displacementNx n (n / 2) i : ℝ) / n) *
      (2 * Real.pi * (displacementNx n (n / 2) j : ℝ) / n) = -(fromMiddle n δ i * fromMiddle n δ j) / (2 * lam ^ 2) := by
    unfold fromMiddle displacementNx
    rcases eq_or_ne lam 0 with rfl | hl
    · simp
    · have := Real.pi_ne_zero
      push_cast
      field_simp
  rw [← e, mul_pow, mul_pow]
  ring

/-- **C140.** The linear gaussian operators of several axes: their kernel is the product over the axes of `a²` times the Taylor polynomial of
`exp(-x y / 2λ²)`, `x` and `y` measured from the middle of the axis. So it is neither a function of `x - y` nor of size `a²` for more than one axis. -/
theorem C140_linear_stacked (axes : List (ℕ × ℝ × Option ℕ)) (hδ : ∀ p ∈ axes, p.2.1 ≠ 0) (a lam : ℝ) :
    (gaussianLinearTaylorStacked axes a lam).dim = (axes.map fun p => p.1).prod ∧
    ∃ K, getDiagonalKernel (gaussianLinearTaylorStacked axes a lam) = some K ∧ ∀ x x', InShape (axes.map fun p => p.1) x →
      InShape (axes.map fun p => p.1) x' →
      K (ravel (axes.map fun p => p.1) x * (axes.map fun p => p.1).prod + ravel (axes.map fun p => p.1) x') =
        ((linearGaussian a lam axes x x' : ℝ) : ℂ) := by
  have hdims : (axes.map fun p => gaussianLinearTaylor p.1 p.2.1 a lam p.2.2).map DiagonalNoiseOperators.dim = axes.map fun p => p.1 := by
    rw [List.map_map]
    rfl
  obtain ⟨-, h2, K, hK, k⟩ := C60_operators (axes.map fun p => gaussianLinearTaylor p.1 p.2.1 a lam p.2.2) (by
    intro ops h
    obtain ⟨p, -, rfl⟩ := List.mem_map.1 h
    rfl)
  rw [hdims] at h2 k
  refine ⟨h2, K, hK, fun x x' hx hx' => ?_⟩
  rw [k x x' hx hx']
  clear k hK h2 hdims K
  induction axes generalizing x x' with
  | nil => cases x <;> cases x' <;> simp [productKernel, linearGaussian]
  | cons p axes ih =>
    obtain ⟨n, δ, terms⟩ := p
    cases x with
    | nil => exact hx.elim
    | cons i x =>
      cases x' with
      | nil => exact hx'.elim
      | cons j x' =>
        show axisKernelOf _ i j * productKernel _ x x' = _
        rw [ih (fun p hp => hδ p (List.mem_cons_of_mem _ hp)) x x' hx.2 hx'.2,
          linear_axis n δ (hδ _ List.mem_cons_self) terms a lam hx.1 hx'.1, ← Complex.ofReal_mul]
        rfl

/-- At the middle of a cell of two axes the linear operators with two terms each have the strength `a⁴`, not `a²`. -/
example (a lam : ℝ) : linearGaussian a lam [(3, 1, some 2), (5, 2, none)] [1, 2] [1, 2] = a ^ 4 := by
  simp [linearGaussian, fromMiddle, sum_range_succ]
  ring

/-- **C140.** The isotropic kernel of operators which are not diagonal: only their diagonals count. -/
theorem C140_isotropic (ops : NoiseOperators) (hc : ops.cols = ops.rows) (hv : ops.values = ops.count) (hr : 0 < ops.rows) :
    ∃ β, getIsotropicKernelFromFull ops false = some β ∧ ∀ j < ops.rows, β j = ∑ t ∈ range ops.count, ops.eigenvalue t *
      (starRingEnd ℂ) (ops.data ((t * ops.rows + 0) * ops.rows + 0)) * ops.data ((t * ops.rows + j) * ops.rows + j) := by
  obtain ⟨K, hK, k⟩ := getDiagonalKernel_entries (asDiagonalOperators ops) hv
  refine ⟨K, ?_, fun j hj => ?_⟩
  · unfold getIsotropicKernelFromFull getIsotropicKernel
    rw [hK, Option.bind_some]
    unfold isotropicFromDiagonal
    simp
  · have := k 0 j hj
    rw [zero_mul, zero_add] at this
    rw [this]
    refine sum_congr rfl fun t _ => ?_
    show ops.eigenvalue t * (starRingEnd ℂ) (flatten ops.rows (fun a i => ops.data ((a * ops.rows + i) * ops.cols + i)) (t * ops.rows + 0)) *
      flatten ops.rows (fun a i => ops.data ((a * ops.rows + i) * ops.cols + i)) (t * ops.rows + j) = _
    rw [flatten_entry _ _ hr, flatten_entry _ _ hj, hc]

/-- One operator on two states which is not diagonal. -/
example : ∃ ops : NoiseOperators, ops.cols = ops.rows ∧ ops.values = ops.count ∧ 0 < ops.rows ∧ ops.data 1 ≠ 0 :=
  ⟨⟨1, 2, 2, fun k => k, 1, fun _ => 1⟩, rfl, rfl, by norm_num, by norm_num⟩

end Verif
