import Verif.Props.C68_Continuous
import Verif.Props.C29_Operators
import Verif.Spec.Hamiltonian

/-!
C69, C70, C71: the kinetic energy, the potential operator and the total hamiltonian of
`hamiltonian_builder/momentum_basis.py`.
-/

set_option autoImplicit false

namespace Verif

open Finset Spec Matrix

variable {d : ℕ}

/-! ## C69 -/

theorem kinetic_vector (A : Matrix (Fin d) (Fin d) ℝ) (hA : IsUnit A.det) (nk : Fin d → ℤ) (φ : Fin d → ℝ) (i : Fin d) :
    (fun c => kPointAtIndex A nk c + tensordot00 (dkStacked A) φ c) ⬝ᵥ A i = 2 * Real.pi * (nk i + φ i) := by
  have h : (fun c => kPointAtIndex A nk c + tensordot00 (dkStacked A) φ c) = ∑ j, ((nk j : ℝ) + φ j) • dkStacked A j := by
    funext c
    simp only [kPointAtIndex, tensordot00, ← sum_add_distrib, Finset.sum_apply, Pi.smul_apply, smul_eq_mul]
    exact sum_congr rfl fun j _ => by ring
  rw [h, sum_dotProduct, Finset.sum_eq_single i]
  · rw [smul_dotProduct, dotProduct_comm, C21_reciprocal_dual A hA, if_pos rfl, smul_eq_mul]; ring
  · intro j _ hij
    rw [smul_dotProduct, dotProduct_comm, C21_reciprocal_dual A hA, if_neg (Ne.symm hij), smul_zero]
  · simp

theorem dot_self_eq_zero {q : Fin d → ℝ} : q ⬝ᵥ q = 0 ↔ q = 0 := dotProduct_self_eq_zero

/-- **C69.** Entry `j` of the kinetic operator is `ħ² |q|² / 2m`, where `q` is the momentum with the phases
`q · Aᵢ = 2 π (kᵢ + φᵢ)` around the lattice vectors, for the centred labels `kᵢ` of `j` and the Bloch fractions `φ`. It is
not negative, and zero exactly if all `kᵢ + φᵢ` are zero. -/
theorem C69_kinetic (hbar : ℝ) (hh : hbar ≠ 0) (A : Matrix (Fin d) (Fin d) ℝ) (hA : IsUnit A.det) (axes : List Basis)
    (hd : axes.length = d) (mass : ℝ) (hm : 0 < mass) (fraction : Option (Fin d → ℝ)) (φ : Fin d → ℝ)
    (hφ : fraction = some φ ∨ fraction = none ∧ φ = 0) (idx : List ℕ) (hi : InShape (axes.map points) idx) :
    ∃ E : ℝ, (hamiltonianFromMass hbar A axes mass fraction).data (ravel (axes.map points) idx) = (E : ℂ) ∧
      (∀ q : Fin d → ℝ, (∀ i, q ⬝ᵥ A i = 2 * Real.pi * (freq ((axes.map points).getD i 0) (idx.getD i 0) + φ i)) →
        E = hbar ^ 2 * (q ⬝ᵥ q) / (2 * mass)) ∧
      0 ≤ E ∧ (E = 0 ↔ ∀ i : Fin d, freq ((axes.map points).getD i 0) (idx.getD i 0) + φ i = 0) := by
  have hφ' : fraction.getD (fun _ => 0) = φ := by
    rcases hφ with h | ⟨h, h'⟩
    · rw [h]; rfl
    · rw [h, h']; rfl
  have hlen : (axes.map points).length = idx.length := (inShape_zip _ _ hi).1
  have hnk : ∀ i : Fin d, (stackedNkPoints (axes.map points) (ravel (axes.map points) idx)).getD i 0 =
      freq ((axes.map points).getD i 0) (idx.getD i 0) := by
    intro i
    rw [stackedNkPoints, unravel_ravel _ _ hi]
    have h1 : (i : ℕ) < (axes.map points).length := by rw [List.length_map, hd]; exact i.2
    have h2 : (i : ℕ) < idx.length := hlen ▸ h1
    have h3 := (inShape_zip _ _ hi).2 ((axes.map points)[(i : ℕ)], idx[(i : ℕ)]) (by
      rw [List.mem_iff_getElem]
      exact ⟨i, by rw [List.length_zip]; omega, by rw [List.getElem_zip]⟩)
    rw [List.getD_eq_getElem?_getD, List.getElem?_zipWith, List.getD_eq_getElem?_getD, List.getD_eq_getElem?_getD, List.getElem?_eq_getElem h1,
      List.getElem?_eq_getElem h2]
    exact nkPoints_eq_freq h3
  obtain ⟨q, hq⟩ : ∃ q : Fin d → ℝ, q = fun c => fundamentalKPoint A (axes.map points) (ravel (axes.map points) idx) c +
    tensordot00 (dkStacked A) φ c := ⟨_, rfl⟩
  have hqA : ∀ i, q ⬝ᵥ A i = 2 * Real.pi * (freq ((axes.map points).getD i 0) (idx.getD i 0) + φ i) := by
    intro i
    rw [hq]
    refine (kinetic_vector A hA _ φ i).trans ?_
    rw [hnk i]
  have huniq : ∀ q' : Fin d → ℝ, (∀ i, q' ⬝ᵥ A i = q ⬝ᵥ A i) → q' = q := by
    intro q' h
    have h1 : A *ᵥ q' = A *ᵥ q := by
      funext i
      simp only [mulVec]
      rw [dotProduct_comm, h i, dotProduct_comm]
    exact (mulVec_injective_iff_isUnit.2 ((isUnit_iff_isUnit_det A).2 hA)) h1
  refine ⟨hbar ^ 2 * (q ⬝ᵥ q) / (2 * mass), ?_, ?_, ?_, ?_⟩
  · show ((∑ c, (hbar * (fundamentalKPoint A (fundamentalShape axes) (ravel (axes.map points) idx) c + tensordot00 (dkStacked A) (fraction.getD fun _ => 0) c)) ^ 2 / (2 * mass) : ℝ) : ℂ) = _
    rw [fundamentalShape_eq, hφ', hq]
    congr 1
    simp only [dotProduct]
    rw [mul_sum, sum_div]
    exact sum_congr rfl fun c _ => by ring
  · intro q' h
    rw [huniq q' fun i => by rw [h i, hqA i]]
  · have : 0 ≤ q ⬝ᵥ q := sum_nonneg fun c _ => mul_self_nonneg _
    positivity
  · rw [div_eq_zero_iff, or_iff_left (by positivity), mul_eq_zero, or_iff_right (by positivity), dot_self_eq_zero]
    constructor
    · intro h i
      have := hqA i
      rw [h, zero_dotProduct] at this
      have hpi := Real.pi_pos
      have h2 : (2 * Real.pi) ≠ 0 := by positivity
      rcases mul_eq_zero.1 this.symm with h3 | h3
      · exact absurd h3 h2
      · exact h3
    · intro h
      refine (huniq 0 fun i => ?_).symm
      rw [hqA i, h i, mul_zero, zero_dotProduct]

example : InShape ([Basis.fundamental 3, Basis.transformed 2 4].map points) [2, 3] := ⟨by decide, by decide, trivial⟩

/-! ## Conversion of diagonal operators -/

theorem tuple_n (l : List Basis) : (Basis.tuple l).n = sizes l := (methods_sizes _).1

theorem unit_kernel {a b : Basis} {f : (ℕ → ℂ) → ℕ → ℂ} (h : HasKernel f (size a) (size b) (overlapKernel a b)) {i k : ℕ}
    (hi : i < size b) (hk : k < size a) : f (unit k) i = overlapKernel a b i k := by
  rw [h _ i hi]
  unfold unit
  simp only [mul_ite, mul_one, mul_zero]
  rw [sum_ite_eq', if_pos (mem_range.2 hk)]

theorem convert_diagonal (same : Basis → Basis → Bool) (hs : Sound same) (a b : Basis) (ha : Valid a) (hb : Valid b)
    (ho : OrthonormalParts a) (hc : Compatible a b) (D : Operator) (h0 : D.b0 = a) (h1 : D.b1 = a) (dd : ℕ → ℂ)
    (hD : ∀ i < size a, ∀ j < size a, D.entry i j = if i = j then dd i else 0) :
    ∃ O, convertOperator same D b b = some O ∧ O.b0 = b ∧ O.b1 = b ∧ O.shape = [size b * size b] ∧ ∀ i < size b, ∀ j < size b,
      O.entry i j = ∑ k ∈ range (size a), overlapKernel a b i k * dd k * (starRingEnd ℂ) (overlapKernel a b j k) := by
  obtain ⟨C, f, f', hC, hf, hf', h⟩ := C17_matrix same hs a b a b ha hb ho hc ha hb ho hc
  rw [hf] at hf'; cases hf'
  obtain ⟨g, hg, kg⟩ := convert_kernel same hs a b ha hb ho hc
  rw [hf] at hg; cases hg
  have hn : b.n = size b := (methods_sizes b).1
  refine ⟨⟨b, b, [b.n * b.n], flatten b.n (C D.entry)⟩, ?_, rfl, rfl, by rw [hn], fun i hi j hj => ?_⟩
  · rw [convertOperator, h0, h1, hC, Option.map_some]
  · show flatten b.n (C D.entry) (i * b.n + j) = _
    rw [flatten_entry _ _ (by rw [hn]; exact hj), h _ i hi j hj]
    refine sum_congr rfl fun k hk => ?_
    have hk' := mem_range.1 hk
    rw [sum_eq_single k]
    · rw [hD k hk' k hk', if_pos rfl, unit_kernel kg hi hk', unit_kernel kg hj hk']
    · intro l hl hlk
      rw [hD k hk' l (mem_range.1 hl), if_neg (Ne.symm hlk), mul_zero, zero_mul]
    · intro h; exact absurd hk h

theorem states_position : ∀ (ns : List ℕ) (j x : ℕ), j < ns.prod → x < ns.prod →
    states (ns.map Basis.fundamental) j x = if x = j then 1 else 0
  | [], j, x, hj, hx => by
    rw [List.prod_nil] at hj hx
    rw [if_pos (by omega)]; rfl
  | n :: ns, j, x, hj, hx => by
    rw [List.prod_cons] at hj hx
    have hp : 0 < ns.prod := Nat.pos_of_ne_zero fun h => by rw [h, mul_zero] at hj; omega
    rw [List.map_cons, states, sizes_position, pointss_position, states_position ns _ _ (Nat.mod_lt _ hp) (Nat.mod_lt _ hp)]
    show (if x / ns.prod = j / ns.prod then (1 : ℂ) else 0) * _ = _
    have hx := Nat.div_add_mod' x ns.prod
    have hj := Nat.div_add_mod' j ns.prod
    by_cases h : x = j
    · rw [h]; simp
    · rw [if_neg h]
      by_cases h1 : x / ns.prod = j / ns.prod
      · have h3 : ¬ x % ns.prod = j % ns.prod := fun h2 => h (by rw [← hx, ← hj, h1, h2])
        rw [if_neg h3, mul_zero]
      · rw [if_neg h1, zero_mul]

theorem overlap_position (axes : List Basis) {i x : ℕ} (hx : x < (axes.map points).prod) :
    overlapKernel (.tuple ((axes.map points).map Basis.fundamental)) (.tuple axes) i x = (starRingEnd ℂ) (state (.tuple axes) i x) := by
  unfold overlapKernel
  have : points (.tuple ((axes.map points).map Basis.fundamental)) = (axes.map points).prod := pointss_position _
  rw [this, sum_eq_single x]
  · show _ * states _ _ _ = _
    rw [states_position _ _ _ hx hx, if_pos rfl, mul_one]
  · intro y hy hyx
    show _ * states _ _ _ = _
    rw [states_position _ _ _ hx (mem_range.1 hy), if_neg hyx, mul_zero]
  · intro h; exact absurd (mem_range.2 hx) h

/-! ## C70 -/

/-- **C70.** The matrix elements of the potential operator are those of the multiplication with the potential (the function
on the grid which it describes) between the states of the basis. -/
theorem C70_elements (same : Basis → Basis → Bool) (hs : Sound same) (axes : List Basis) (hv : Valids axes)
    (ho : OrthonormalPartss axes) (V : ℕ → ℂ) :
    ∃ P, hamiltonianFromPotential same axes V = some P ∧ P.b0 = .tuple axes ∧ P.b1 = .tuple axes ∧ P.shape = [sizes axes * sizes axes] ∧
      ∀ i < sizes axes, ∀ j < sizes axes, P.entry i j =
        ∑ x ∈ range (pointss axes), (starRingEnd ℂ) (state (.tuple axes) i x) * expand (.tuple axes) V x * state (.tuple axes) j x := by
  obtain ⟨pos, hpos⟩ : ∃ pos, pos = (axes.map points).map Basis.fundamental := ⟨_, rfl⟩
  have hsz : sizes pos = (axes.map points).prod := by rw [hpos]; exact sizes_position _
  obtain ⟨f, hf, hc⟩ := expand_convert same hs (.tuple axes) (.tuple pos) hv (by rw [hpos]; exact valids_position _) ho
    (by rw [hpos]; exact orthonormal_position _) (by rw [hpos]; exact compatibles_position axes)
    (by show sizes pos = pointss pos; rw [hpos, sizes_position, pointss_position])
  have hval : ∀ x < (axes.map points).prod, f V x = expand (.tuple axes) V x := by
    intro x hx
    rw [← hc V x (by show x < pointss axes; rw [pointss_eq]; exact hx)]
    unfold expand
    rw [show size (.tuple pos) = (axes.map points).prod from hsz, sum_eq_single x]
    · show _ = _ * states pos x x
      rw [hpos, states_position _ _ _ hx hx, if_pos rfl, mul_one]
    · intro y hy hyx
      show _ * states pos y x = _
      rw [hpos, states_position _ _ _ (mem_range.1 hy) hx, if_neg (Ne.symm hyx), mul_zero]
    · intro h; exact absurd (mem_range.2 hx) h
  obtain ⟨O, hO, b0, b1, hsh, hent⟩ := convert_diagonal same hs (.tuple pos) (.tuple axes) (by rw [hpos]; exact valids_position _) hv
    (by rw [hpos]; exact orthonormal_position _) (by rw [hpos]; exact position_compatibles axes)
    ⟨.tuple pos, .tuple pos, [(Basis.tuple pos).n * (Basis.tuple pos).n], flatten (Basis.tuple pos).n fun i j => if i = j then f V i else 0⟩
    rfl rfl (f V) (fun i hi j hj => by
      show flatten (Basis.tuple pos).n (fun i j => if i = j then f V i else 0) (i * (Basis.tuple pos).n + j) = _
      rw [flatten_entry _ _ (by rw [tuple_n]; exact hj)])
  refine ⟨O, ?_, b0, b1, hsh, fun i hi j hj => ?_⟩
  · rw [hamiltonianFromPotential, convertPotential, positionAxes_eq, ← hpos, hf, Option.map_some, Option.bind_some]
    exact hO
  · rw [hent i hi j hj, show size (.tuple pos) = (axes.map points).prod from hsz, pointss_eq]
    refine sum_congr rfl fun x hx => ?_
    have hx' := mem_range.1 hx
    rw [hpos, overlap_position axes hx', overlap_position axes hx', Complex.conj_conj, hval x hx']

/-- **C70.** For a real potential the operator is Hermitian. -/
theorem C70_hermitian (same : Basis → Basis → Bool) (hs : Sound same) (axes : List Basis) (hv : Valids axes)
    (ho : OrthonormalPartss axes) (V : ℕ → ℂ) (hreal : ∀ x < pointss axes, (expand (.tuple axes) V x).im = 0) (P : Operator)
    (hP : hamiltonianFromPotential same axes V = some P) :
    ∀ i < sizes axes, ∀ j < sizes axes, P.entry i j = (starRingEnd ℂ) (P.entry j i) := by
  obtain ⟨P', hP', -, -, -, h⟩ := C70_elements same hs axes hv ho V
  rw [hP] at hP'; cases hP'
  intro i hi j hj
  rw [h i hi j hj, h j hj i hi, map_sum]
  refine sum_congr rfl fun x hx => ?_
  rw [map_mul, map_mul, Complex.conj_conj, Complex.conj_eq_iff_im.2 (hreal x (mem_range.1 hx))]
  ring

/-- The labels of the states of a stack of truncated momentum axes, each given by its number of states and of points. -/
def axisLabels (axes : List (ℕ × ℕ)) (i : ℕ) : List ℤ := List.zipWith (fun a j => freq a.1 j) axes (unravel (axes.map Prod.fst) i)

theorem sizes_transformed (axes : List (ℕ × ℕ)) : sizes (axes.map fun a => Basis.transformed a.1 a.2) = (axes.map Prod.fst).prod := by
  induction axes with
  | nil => rfl
  | cons b bs ih => simp [sizes, size, ih]

theorem pointss_transformed (axes : List (ℕ × ℕ)) : pointss (axes.map fun a => Basis.transformed a.1 a.2) = (axes.map Prod.snd).prod := by
  induction axes with
  | nil => rfl
  | cons b bs ih => simp [pointss, points, ih]

theorem planeWave_product {n : ℕ} (hn : 0 < n) (k k' : ℤ) (x : ℕ) : (starRingEnd ℂ) (planeWave n k x) * planeWave n k' x =
    Complex.exp (2 * Real.pi * Complex.I * (k' - k : ℤ) * x / n) / n := by
  unfold planeWave
  rw [map_div₀, Complex.conj_ofReal, ← Complex.exp_conj, div_mul_div_comm, ← Complex.exp_add]
  have h : ((Real.sqrt n : ℝ) : ℂ) * ((Real.sqrt n : ℝ) : ℂ) = n := by
    rw [← Complex.ofReal_mul, Real.mul_self_sqrt (Nat.cast_nonneg _), Complex.ofReal_natCast]
  rw [h]
  congr 2
  simp only [map_div₀, map_mul, Complex.conj_I, Complex.conj_ofReal, map_ofNat, map_natCast, map_intCast]
  push_cast
  ring

theorem states_product : ∀ (axes : List (ℕ × ℕ)) (i j x : ℕ), i < (axes.map Prod.fst).prod → j < (axes.map Prod.fst).prod →
    x < (axes.map Prod.snd).prod →
    (starRingEnd ℂ) (states (axes.map fun a => Basis.transformed a.1 a.2) i x) * states (axes.map fun a => Basis.transformed a.1 a.2) j x =
      gridPhase (axes.map Prod.snd) (List.zipWith (· - ·) (axisLabels axes j) (axisLabels axes i)) (unravel (axes.map Prod.snd) x) /
        ((axes.map Prod.snd).prod : ℕ)
  | [], _, _, _, _, _, _ => by simp [states, gridPhase]
  | a :: axes, i, j, x, hi, hj, hx => by
    rw [List.map_cons, List.prod_cons] at hi hj hx
    have hp : 0 < (axes.map Prod.fst).prod := Nat.pos_of_ne_zero fun h => by rw [h, mul_zero] at hj; omega
    have hq : 0 < (axes.map Prod.snd).prod := Nat.pos_of_ne_zero fun h => by rw [h, mul_zero] at hx; omega
    have ha2 : 0 < a.2 := Nat.pos_of_ne_zero fun h => by rw [h, zero_mul] at hx; omega
    have hin : i / (axes.map Prod.fst).prod < a.1 := Nat.div_lt_of_lt_mul (by rwa [mul_comm])
    have hjn : j / (axes.map Prod.fst).prod < a.1 := Nat.div_lt_of_lt_mul (by rwa [mul_comm])
    have hxn : x / (axes.map Prod.snd).prod < a.2 := Nat.div_lt_of_lt_mul (by rwa [mul_comm])
    have ih := states_product axes (i % (axes.map Prod.fst).prod) (j % (axes.map Prod.fst).prod) (x % (axes.map Prod.snd).prod)
      (Nat.mod_lt _ hp) (Nat.mod_lt _ hp) (Nat.mod_lt _ hq)
    have hl : ∀ k, axisLabels axes (k % (axes.map Prod.fst).prod) = axisLabels axes k := by
      intro k; unfold axisLabels; rw [unravel_mod]
    rw [hl, hl, unravel_mod] at ih
    have e : ∀ k < a.1 * (axes.map Prod.fst).prod, axisLabels (a :: axes) k = freq a.1 (k / (axes.map Prod.fst).prod) :: axisLabels axes k := by
      intro k hk
      have : k / (axes.map Prod.fst).prod < a.1 := Nat.div_lt_of_lt_mul (by rwa [mul_comm])
      simp only [axisLabels, List.map_cons, unravel, List.zipWith_cons_cons, Nat.mod_eq_of_lt this]
    rw [List.map_cons, states, states, sizes_transformed, pointss_transformed, map_mul, mul_mul_mul_comm, ih, e i hi, e j hj]
    show (starRingEnd ℂ) (planeWave a.2 _ _) * planeWave a.2 _ _ * _ = _
    rw [planeWave_product ha2, List.map_cons, List.zipWith_cons_cons, unravel, gridPhase, Nat.mod_eq_of_lt hxn, List.prod_cons, Nat.cast_mul,
      div_mul_div_comm]

/-- **C70.** Between (truncated) momentum states the element depends only on the differences of the labels: it is the Fourier
coefficient `1 / N Σ V(x) exp(2 π i (k_j - k_i) x / n)` of the potential. -/
theorem C70_toeplitz (same : Basis → Basis → Bool) (hs : Sound same) (axes : List (ℕ × ℕ)) (hle : ∀ a ∈ axes, a.1 ≤ a.2) (V : ℕ → ℂ) :
    ∃ P, hamiltonianFromPotential same (axes.map fun a => .transformed a.1 a.2) V = some P ∧
      ∀ i < (axes.map Prod.fst).prod, ∀ j < (axes.map Prod.fst).prod, P.entry i j =
        (∑ x ∈ range (axes.map Prod.snd).prod, expand (.tuple (axes.map fun a => .transformed a.1 a.2)) V x *
          gridPhase (axes.map Prod.snd) (List.zipWith (· - ·) (axisLabels axes j) (axisLabels axes i)) (unravel (axes.map Prod.snd) x)) /
          ((axes.map Prod.snd).prod : ℕ) := by
  have hv : Valids (axes.map fun a => Basis.transformed a.1 a.2) := by
    clear V
    induction axes with
    | nil => trivial
    | cons a as ih => exact ⟨hle a List.mem_cons_self, ih fun b hb => hle b (List.mem_cons_of_mem _ hb)⟩
  have ho : OrthonormalPartss (axes.map fun a => Basis.transformed a.1 a.2) := by
    clear V hle hv
    induction axes with
    | nil => trivial
    | cons a as ih => exact ⟨trivial, ih⟩
  obtain ⟨P, hP, -, -, -, h⟩ := C70_elements same hs _ hv ho V
  refine ⟨P, hP, fun i hi j hj => ?_⟩
  rw [h i (by rw [sizes_transformed]; exact hi) j (by rw [sizes_transformed]; exact hj), pointss_transformed, sum_div]
  refine sum_congr rfl fun x hx => ?_
  rw [mul_right_comm, mul_comm _ (expand _ _ _), mul_div_assoc]
  congr 1
  exact states_product axes i j x hi hj (mem_range.1 hx)

example : ∀ a ∈ [(3, 5), (4, 4)], a.1 ≤ a.2 := by decide

/-! ## C71 -/

theorem form_congr {n : ℕ} {H H' : ℕ → ℕ → ℂ} (h : ∀ i < n, ∀ j < n, H i j = H' i j) (v : ℕ → ℂ) : form n H v = form n H' v :=
  sum_congr rfl fun i hi => sum_congr rfl fun j hj => by rw [h i (mem_range.1 hi) j (mem_range.1 hj)]

/-- The quadratic form of an operator given by a sum over squares. -/
theorem form_rank_one (n m : ℕ) (a : ℕ → ℕ → ℂ) (e : ℕ → ℂ) (v : ℕ → ℂ) :
    form n (fun i j => ∑ k ∈ range m, (starRingEnd ℂ) (a i k) * e k * a j k) v =
      ∑ k ∈ range m, e k * ((starRingEnd ℂ) (∑ i ∈ range n, v i * a i k) * ∑ j ∈ range n, v j * a j k) := by
  unfold form
  simp only [mul_sum, sum_mul, map_sum, map_mul]
  rw [sum_congr rfl fun i _ => sum_comm]
  rw [sum_comm]
  refine sum_congr rfl fun k _ => ?_
  rw [sum_comm]
  refine sum_congr rfl fun j _ => sum_congr rfl fun i _ => ?_
  ring

theorem conj_mul_self (z : ℂ) : (starRingEnd ℂ) z * z = ((‖z‖ ^ 2 : ℝ) : ℂ) := by
  rw [Complex.conj_mul']; push_cast; rfl

/-- The entries of the total hamiltonian. -/
theorem total_entries (same : Basis → Basis → Bool) (hs : Sound same) (hbar : ℝ) (A : Matrix (Fin d) (Fin d) ℝ)
    (axes : List Basis) (hv : Valids axes) (ho : OrthonormalPartss axes) (V : ℕ → ℂ) (mass : ℝ) (fraction : Option (Fin d → ℝ)) :
    ∃ H, totalHamiltonian same hbar A axes V mass fraction = some H ∧ H.b0 = .tuple axes ∧ H.b1 = .tuple axes ∧
      ∀ i < sizes axes, ∀ j < sizes axes, H.entry i j =
        (∑ k ∈ range (pointss axes), overlapKernel (.tuple ((axes.map points).map Basis.fundamentalTransformed)) (.tuple axes) i k *
          (hamiltonianFromMass hbar A axes mass fraction).data k *
          (starRingEnd ℂ) (overlapKernel (.tuple ((axes.map points).map Basis.fundamentalTransformed)) (.tuple axes) j k)) +
        ∑ x ∈ range (pointss axes), (starRingEnd ℂ) (state (.tuple axes) i x) * expand (.tuple axes) V x * state (.tuple axes) j x := by
  obtain ⟨P, hP, p0, p1, psh, hPe⟩ := C70_elements same hs axes hv ho V
  obtain ⟨mom, hmom⟩ : ∃ mom, mom = (axes.map points).map Basis.fundamentalTransformed := ⟨_, rfl⟩
  have hsz : sizes mom = pointss axes := by rw [hmom, sizes_momentum, pointss_eq]
  have hmm : momentumAxes axes = mom := by rw [hmom]; exact momentumAxes_eq axes
  obtain ⟨D, hD⟩ : ∃ D, D = hamiltonianFromMass hbar A axes mass fraction := ⟨_, rfl⟩
  have hD0 : D.b0 = .tuple mom := by rw [hD, ← hmm]; rfl
  have hD1 : D.b1 = .tuple mom := by rw [hD, ← hmm]; rfl
  obtain ⟨K, hK, k0, k1, ksh, hKe⟩ := convert_diagonal same hs (.tuple mom) (.tuple axes) (by rw [hmom]; exact valids_momentum _) hv
    (by rw [hmom]; exact orthonormal_momentum _) (by rw [hmom]; exact momentum_compatibles axes) (asOperator D) hD0 hD1 D.data
    (fun i hi j hj => by
      show flatten D.b0.n (fun i j => if i = j then D.data i else 0) (i * D.b1.n + j) = _
      rw [hD0, hD1, flatten_entry _ _ (by rw [tuple_n]; exact hj)])
  have hadd := elementwise_self (· + ·) [sizes axes * sizes axes] K.data P.data
  obtain ⟨dat, hdat, hdate⟩ : ∃ dat, addOperator K P = some ⟨.tuple axes, .tuple axes, [sizes axes * sizes axes], dat⟩ ∧
      ∀ k < sizes axes * sizes axes, dat k = K.data k + P.data k := by
    have ksh' : K.shape = [sizes axes * sizes axes] := ksh
    rw [addOperator, ksh', psh, k0, k1]
    obtain ⟨r, hr, hre⟩ := hadd
    rw [hr, Option.map_some]
    exact ⟨_, rfl, fun k hk => hre k (by simpa using hk)⟩
  refine ⟨⟨.tuple axes, .tuple axes, [sizes axes * sizes axes], dat⟩, ?_, rfl, rfl, fun i hi j hj => ?_⟩
  · rw [totalHamiltonian, hP, Option.bind_some, hamiltonianFromMassInBasis, ← hD, hK, Option.bind_some]
    exact hdat
  · have hent : Operator.entry ⟨.tuple axes, .tuple axes, [sizes axes * sizes axes], dat⟩ i j = K.entry i j + P.entry i j := by
      show dat (i * (Basis.tuple axes).n + j) = K.data (i * K.b1.n + j) + P.data (i * P.b1.n + j)
      rw [k1, p1, tuple_n]
      exact hdate _ (add_mul_lt hi hj)
    rw [hent, hPe i hi j hj, hKe i hi j hj, show size (.tuple mom) = pointss axes from hsz, hD, hmom]

/-- **C71.** The energy of a state of the total hamiltonian: every momentum component counts with its kinetic energy and
every point of the grid with the potential there. The operator is given in the basis of the potential. -/
theorem C71_energy (same : Basis → Basis → Bool) (hs : Sound same) (hbar : ℝ) (A : Matrix (Fin d) (Fin d) ℝ)
    (axes : List Basis) (hv : Valids axes) (ho : OrthonormalPartss axes) (V : ℕ → ℂ) (mass : ℝ) (fraction : Option (Fin d → ℝ)) :
    ∃ H, totalHamiltonian same hbar A axes V mass fraction = some H ∧ H.b0 = .tuple axes ∧ H.b1 = .tuple axes ∧
      ∀ v, form (sizes axes) H.entry v =
        (∑ k ∈ range (pointss axes), (hamiltonianFromMass hbar A axes mass fraction).data k *
          ((‖∑ x ∈ range (pointss axes), (starRingEnd ℂ) (states ((axes.map points).map Basis.fundamentalTransformed) k x) *
            expand (.tuple axes) v x‖ ^ 2 : ℝ) : ℂ)) +
        ∑ x ∈ range (pointss axes), expand (.tuple axes) V x * ((‖expand (.tuple axes) v x‖ ^ 2 : ℝ) : ℂ) := by
  obtain ⟨H, hH, h0, h1, hent⟩ := total_entries same hs hbar A axes hv ho V mass fraction
  obtain ⟨mom, hmom⟩ : ∃ mom, mom = (axes.map points).map Basis.fundamentalTransformed := ⟨_, rfl⟩
  have hpt : pointss mom = pointss axes := by rw [hmom, pointss_momentum, pointss_eq]
  obtain ⟨D, hD⟩ : ∃ D, D = hamiltonianFromMass hbar A axes mass fraction := ⟨_, rfl⟩
  rw [← hmom, ← hD] at hent
  refine ⟨H, hH, h0, h1, fun v => ?_⟩
  have e1 : form (sizes axes) H.entry v =
      form (sizes axes) (fun i j => ∑ k ∈ range (pointss axes),
          (starRingEnd ℂ) ((starRingEnd ℂ) (overlapKernel (.tuple mom) (.tuple axes) i k)) * D.data k *
            (starRingEnd ℂ) (overlapKernel (.tuple mom) (.tuple axes) j k)) v +
      form (sizes axes) (fun i j => ∑ x ∈ range (pointss axes), (starRingEnd ℂ) (state (.tuple axes) i x) * expand (.tuple axes) V x *
          state (.tuple axes) j x) v := by
    rw [form_congr hent]
    unfold form
    simp only [mul_add, add_mul, sum_add_distrib, Complex.conj_conj]
  rw [e1]
  congr 1
  · rw [form_rank_one _ _ (fun i k => (starRingEnd ℂ) (overlapKernel (.tuple mom) (.tuple axes) i k))]
    refine sum_congr rfl fun k _ => ?_
    rw [conj_mul_self, hD, ← hmom]
    congr 4
    unfold overlapKernel expand
    rw [show points (.tuple mom) = pointss axes from hpt]
    simp only [map_sum, map_mul, Complex.conj_conj, mul_sum]
    rw [sum_comm]
    refine sum_congr rfl fun x _ => ?_
    refine sum_congr rfl fun i _ => ?_
    show _ * (_ * (starRingEnd ℂ) (states mom k x)) = _
    ring
  · rw [form_rank_one]
    refine sum_congr rfl fun x _ => ?_
    rw [conj_mul_self]
    rfl

/-- A matrix whose quadratic form is real is Hermitian. -/
theorem hermitian_of_form {n : ℕ} (H : ℕ → ℕ → ℂ) (h : ∀ v, (form n H v).im = 0) : ∀ i < n, ∀ j < n, H i j = (starRingEnd ℂ) (H j i) := by
  have hu : ∀ i < n, ∀ j < n, ∀ (a b : ℂ), i ≠ j → form n H (fun k => if k = i then a else if k = j then b else 0) =
      (starRingEnd ℂ) a * H i i * a + (starRingEnd ℂ) a * H i j * b + ((starRingEnd ℂ) b * H j i * a + (starRingEnd ℂ) b * H j j * b) := by
    intro i hi j hj a b hij
    have hsum : ∀ f : ℕ → ℂ, ∑ k ∈ range n, f k * (if k = i then a else if k = j then b else 0) = f i * a + f j * b := by
      intro f
      have : ∀ k ∈ range n, f k * (if k = i then a else if k = j then b else 0) = (if k = i then f k * a else 0) + if k = j then f k * b else 0 := by
        intro k _
        by_cases h1 : k = i
        · rw [if_pos h1, if_pos h1, if_neg (fun h2 => hij (h1.symm.trans h2)), add_zero]
        · rw [if_neg h1, if_neg h1, zero_add]
          split_ifs <;> simp
      rw [sum_congr rfl this, sum_add_distrib, sum_ite_eq', sum_ite_eq', if_pos (mem_range.2 hi), if_pos (mem_range.2 hj)]
    have hsum' : ∀ f : ℕ → ℂ, ∑ k ∈ range n, (starRingEnd ℂ) (if k = i then a else if k = j then b else 0) * f k =
        (starRingEnd ℂ) a * f i + (starRingEnd ℂ) b * f j := by
      intro f
      have := congrArg (starRingEnd ℂ) (hsum fun k => (starRingEnd ℂ) (f k))
      rw [map_sum] at this
      simp only [map_mul, map_add, Complex.conj_conj] at this
      rw [sum_congr rfl fun k _ => mul_comm _ _, this]
      ring
    unfold form
    rw [sum_congr rfl fun k _ => hsum (fun l => (starRingEnd ℂ) (if k = i then a else if k = j then b else 0) * H k l)]
    have : ∀ k, (starRingEnd ℂ) (if k = i then a else if k = j then b else 0) * H k i * a + (starRingEnd ℂ) (if k = i then a else if k = j then b else 0) * H k j * b =
        (starRingEnd ℂ) (if k = i then a else if k = j then b else 0) * (H k i * a + H k j * b) := fun k => by ring
    rw [sum_congr rfl fun k _ => this k, hsum']
    ring
  have hdiag : ∀ i < n, (H i i).im = 0 := by
    intro i hi
    have := h fun k => if k = i then 1 else 0
    unfold form at this
    rw [sum_eq_single i (fun k _ hk => by simp [hk]) (fun h => absurd (mem_range.2 hi) h),
      sum_eq_single i (fun k _ hk => by simp [hk]) (fun h => absurd (mem_range.2 hi) h)] at this
    simpa using this
  intro i hi j hj
  by_cases hij : i = j
  · rw [← hij]; exact (Complex.conj_eq_iff_im.2 (hdiag i hi)).symm
  · have h1 := h fun k => if k = i then 1 else if k = j then 1 else 0
    rw [hu i hi j hj 1 1 hij] at h1
    have h2 := h fun k => if k = i then 1 else if k = j then Complex.I else 0
    rw [hu i hi j hj 1 Complex.I hij] at h2
    have d1 := hdiag i hi
    have d2 := hdiag j hj
    simp only [map_one, one_mul, mul_one, Complex.add_im, Complex.mul_im, Complex.mul_re, Complex.conj_I, Complex.neg_re, Complex.neg_im, Complex.I_re, Complex.I_im,
      d1, d2] at h1 h2
    apply Complex.ext
    · rw [Complex.conj_re]; linarith
    · rw [Complex.conj_im]; linarith

/-- **C71.** For every real potential, positive mass and Bloch fraction, the total hamiltonian is Hermitian and its energies are
at least the smallest value of the potential (any lower bound `E₀` of it). -/
theorem C71_hermitian (same : Basis → Basis → Bool) (hs : Sound same) (hbar : ℝ) (A : Matrix (Fin d) (Fin d) ℝ)
    (axes : List Basis) (hv : Valids axes) (ho : OrthonormalPartss axes) (V : ℕ → ℂ) (mass : ℝ) (hm : 0 < mass) (fraction : Option (Fin d → ℝ))
    (hreal : ∀ x < pointss axes, (expand (.tuple axes) V x).im = 0) :
    ∃ H, totalHamiltonian same hbar A axes V mass fraction = some H ∧
      (∀ i < sizes axes, ∀ j < sizes axes, H.entry i j = (starRingEnd ℂ) (H.entry j i)) ∧
      ∀ E₀ : ℝ, (∀ x < pointss axes, E₀ ≤ (expand (.tuple axes) V x).re) → ∀ v,
        E₀ * ∑ i ∈ range (sizes axes), ‖v i‖ ^ 2 ≤ (form (sizes axes) H.entry v).re := by
  obtain ⟨H, hH, -, -, he⟩ := C71_energy same hs hbar A axes hv ho V mass fraction
  have hE : ∀ k, ∃ E : ℝ, 0 ≤ E ∧ (hamiltonianFromMass hbar A axes mass fraction).data k = (E : ℂ) := by
    intro k
    exact ⟨_, sum_nonneg fun c _ => by positivity, rfl⟩
  choose E hE0 hEe using hE
  have hVe : ∀ x ∈ range (pointss axes), expand (.tuple axes) V x = ((expand (.tuple axes) V x).re : ℂ) := by
    intro x hx
    apply Complex.ext
    · rw [Complex.ofReal_re]
    · rw [Complex.ofReal_im, hreal x (mem_range.1 hx)]
  have hf : ∀ v, form (sizes axes) H.entry v = (((∑ k ∈ range (pointss axes), E k *
          ‖∑ x ∈ range (pointss axes), (starRingEnd ℂ) (states ((axes.map points).map Basis.fundamentalTransformed) k x) *
            expand (.tuple axes) v x‖ ^ 2) +
        ∑ x ∈ range (pointss axes), (expand (.tuple axes) V x).re * ‖expand (.tuple axes) v x‖ ^ 2 : ℝ) : ℂ) := by
    intro v
    rw [he v, Complex.ofReal_add, Complex.ofReal_sum, Complex.ofReal_sum]
    congr 1
    · exact sum_congr rfl fun k _ => by rw [hEe k, ← Complex.ofReal_mul]
    · refine sum_congr rfl fun x hx => ?_
      rw [Complex.ofReal_mul, ← hVe x hx]
  refine ⟨H, hH, hermitian_of_form _ fun v => by rw [hf v, Complex.ofReal_im], fun E₀ h0 v => ?_⟩
  rw [hf v, Complex.ofReal_re]
  have hnorm : ∑ x ∈ range (pointss axes), ‖expand (.tuple axes) v x‖ ^ 2 = ∑ i ∈ range (sizes axes), ‖v i‖ ^ 2 := by
    have h1 := dot_expand_expand (state_orthonormal (.tuple axes) hv ho) v v
    unfold dot at h1
    simp only [conj_mul_self] at h1
    exact_mod_cast h1
  rw [← hnorm, mul_sum]
  refine le_add_of_nonneg_of_le (sum_nonneg fun k _ => mul_nonneg (hE0 k) (by positivity)) ?_
  exact sum_le_sum fun x hx => mul_le_mul_of_nonneg_right (h0 x (mem_range.1 hx)) (by positivity)

/-- The hypotheses can be met: a constant potential in the position basis of two axes. -/
example : ∀ x < pointss [Basis.fundamental 2, Basis.fundamental 3], (expand (.tuple [.fundamental 2, .fundamental 3]) (fun k => (k : ℂ)) x).im = 0 := by
  intro x hx
  have hx : x < 6 := hx
  have h : states ([2, 3].map Basis.fundamental) = states [.fundamental 2, .fundamental 3] := rfl
  show (∑ j ∈ range 6, (j : ℂ) * states [.fundamental 2, .fundamental 3] j x).im = 0
  rw [← h, sum_congr rfl fun j hj => by rw [states_position [2, 3] j x (mem_range.1 hj) hx]]
  simp only [mul_ite, mul_one, mul_zero]
  rw [sum_ite_eq, if_pos (mem_range.2 hx), Complex.natCast_im]

end Verif
