import Verif.Props.C56_NoiseOperators
import Verif.Lemmas.Kron

/-!
C60: kernels and noise operators which are products over the axes.
-/

set_option autoImplicit false

namespace Verif

open Finset Spec

/-- The kernel of a list of operators on one axis. -/
noncomputable def axisKernelOf (ops : DiagonalNoiseOperators) (i j : ℕ) : ℂ :=
  noiseKernel (range ops.count) ops.eigenvalue (fun a i => ops.data (a * ops.dim + i)) i j

/-- The product over the axes of the kernels of the axes, each at the coordinates of its axis. -/
noncomputable def productKernel : List DiagonalNoiseOperators → List ℕ → List ℕ → ℂ
  | ops :: l, i :: is, j :: js => axisKernelOf ops i j * productKernel l is js
  | _, _, _ => 1

theorem sum_unravel (ns : List ℕ) (F : List ℕ → ℂ) : ∑ a ∈ range ns.prod, F (unravel ns a) = nsum ns F := by
  rw [← nsum_ravel ns fun a => F (unravel ns a)]
  exact nsum_congr _ _ _ fun is h => by rw [unravel_ravel ns is h]

theorem nsum_product : ∀ (l : List DiagonalNoiseOperators) (x x' : List ℕ), x.length = l.length → x'.length = l.length →
    nsum (l.map DiagonalNoiseOperators.count) (fun as => outerProduct (l.map DiagonalNoiseOperators.eigenvalue) as *
      (starRingEnd ℂ) (outerProduct (List.zipWith (fun ops a' => fun x' => ops.data (a' * ops.dim + x')) l as) x) *
      outerProduct (List.zipWith (fun ops a' => fun x' => ops.data (a' * ops.dim + x')) l as) x') = productKernel l x x'
  | [], [], [], _, _ => by simp [nsum, outerProduct, productKernel]
  | ops :: l, i :: x, j :: x', hx, hx' => by
    have ih := nsum_product l x x' (by simpa using hx) (by simpa using hx')
    show ∑ a ∈ range ops.count, nsum (l.map DiagonalNoiseOperators.count) (fun as => (ops.eigenvalue a *
      outerProduct (l.map DiagonalNoiseOperators.eigenvalue) as) * (starRingEnd ℂ) (ops.data (a * ops.dim + i) *
        outerProduct (List.zipWith (fun ops a' => fun x' => ops.data (a' * ops.dim + x')) l as) x) *
      (ops.data (a * ops.dim + j) * outerProduct (List.zipWith (fun ops a' => fun x' => ops.data (a' * ops.dim + x')) l as) x')) =
        axisKernelOf ops i j * productKernel l x x'
    rw [← ih, axisKernelOf, noiseKernel, sum_mul]
    refine sum_congr rfl fun a _ => ?_
    rw [← nsum_mul_left]
    refine nsum_congr _ _ _ fun as _ => ?_
    rw [map_mul]
    ring

/-- **C60.** The product operators of lists of noise operators on the axes, with the products of their eigenvalues, rebuild the
product of the kernels of the axes. -/
theorem C60_operators (l : List DiagonalNoiseOperators) (hl : ∀ ops ∈ l, ops.values = ops.count) :
    (operatorsFromAxis l).count = (l.map DiagonalNoiseOperators.count).prod ∧
    (operatorsFromAxis l).dim = (l.map DiagonalNoiseOperators.dim).prod ∧
    ∃ K, getDiagonalKernel (operatorsFromAxis l) = some K ∧ ∀ x x', InShape (l.map DiagonalNoiseOperators.dim) x →
      InShape (l.map DiagonalNoiseOperators.dim) x' →
      K (ravel (l.map DiagonalNoiseOperators.dim) x * (l.map DiagonalNoiseOperators.dim).prod +
        ravel (l.map DiagonalNoiseOperators.dim) x') = productKernel l x x' := by
  have hv : l.map DiagonalNoiseOperators.values = l.map DiagonalNoiseOperators.count := List.map_congr_left hl
  obtain ⟨K, hK, hv'⟩ := getDiagonalKernel_entries (operatorsFromAxis l)
    (by show (l.map DiagonalNoiseOperators.values).prod = (l.map DiagonalNoiseOperators.count).prod; rw [hv])
  refine ⟨rfl, rfl, K, hK, fun x x' hx hx' => ?_⟩
  have hlen : ∀ (ns is : List ℕ), InShape ns is → is.length = ns.length := by
    intro ns
    induction ns with
    | nil => intro is h; cases is with | nil => rfl | cons => exact h.elim
    | cons n ns ih => intro is h; cases is with | nil => exact h.elim | cons i is => simp [ih is h.2]
  refine (hv' _ _ (ravel_lt _ _ hx')).trans ?_
  rw [← nsum_product l x x' (by rw [hlen _ _ hx, List.length_map]) (by rw [hlen _ _ hx', List.length_map]), ← sum_unravel]
  refine sum_congr rfl fun a _ => ?_
  show outerProduct (l.map DiagonalNoiseOperators.eigenvalue) (unravel (l.map DiagonalNoiseOperators.values) a) *
    (starRingEnd ℂ) (flatten _ _ (a * (l.map DiagonalNoiseOperators.dim).prod + ravel (l.map DiagonalNoiseOperators.dim) x)) *
    flatten _ _ (a * (l.map DiagonalNoiseOperators.dim).prod + ravel (l.map DiagonalNoiseOperators.dim) x') = _
  rw [hv]
  show _ * (starRingEnd ℂ) (flatten (l.map DiagonalNoiseOperators.dim).prod _ _) *
    flatten (l.map DiagonalNoiseOperators.dim).prod _ _ = _
  rw [flatten_entry _ _ (ravel_lt _ _ hx), flatten_entry _ _ (ravel_lt _ _ hx'), unravel_ravel _ _ hx, unravel_ravel _ _ hx']

/-- **C60.** If the operators of each axis rebuild an isotropic kernel of the axis, then the product operators rebuild the kernel
of the product grid which `as_isotropic_kernel_from_axis` makes of the kernels of the axes. -/
theorem C60_isotropic (l : List DiagonalNoiseOperators) (hl : ∀ ops ∈ l, ops.values = ops.count) (βs : List (ℕ → ℂ))
    (hβ : List.Forall₂ (fun (ops : DiagonalNoiseOperators) (β : ℕ → ℂ) => ∃ K, getDiagonalKernel ops = some K ∧
      ∀ k < ops.dim * ops.dim, K k = diagonalFromIsotropic ops.dim β k) l βs) :
    ∃ K, getDiagonalKernel (operatorsFromAxis l) = some K ∧
      ∀ k < (l.map DiagonalNoiseOperators.dim).prod * (l.map DiagonalNoiseOperators.dim).prod,
        K k = diagonalFromIsotropicStacked (l.map DiagonalNoiseOperators.dim)
          (isotropicFromAxis (l.map DiagonalNoiseOperators.dim) βs) k := by
  obtain ⟨-, -, K, hK, hv⟩ := C60_operators l hl
  refine ⟨K, hK, fun k hk => ?_⟩
  obtain ⟨D, hD⟩ : ∃ D, D = (l.map DiagonalNoiseOperators.dim).prod := ⟨_, rfl⟩
  have h0 : 0 < D := by
    rcases Nat.eq_zero_or_pos D with e | e
    · rw [← hD, e] at hk; omega
    · exact e
  have h1 : k / D < D := Nat.div_lt_of_lt_mul (by rw [hD]; exact hk)
  have h2 : k % D < D := Nat.mod_lt _ h0
  have e : k = (k / D) * D + k % D := (Nat.div_add_mod' k _).symm
  replace h1 := lt_of_lt_of_eq h1 hD
  replace h2 := lt_of_lt_of_eq h2 hD
  have hx := unravel_inShape _ _ h1
  have hx' := unravel_inShape _ _ h2
  have hKv := hv _ _ hx hx'
  rw [ravel_unravel _ _ h1, ravel_unravel _ _ h2, ← hD, ← e] at hKv
  rw [hKv]
  conv_rhs => rw [e]
  rw [diagonalFromIsotropicStacked, ← hD, flatten_entry _ _ (lt_of_lt_of_eq h2 hD.symm), isotropicFromAxis]
  refine Eq.trans ?_ (congrArg (outerProduct βs) (unravel_ravel _ _ (wrappedDisplacement_inShape _ _ _ hx hx')).symm)
  clear hKv hv hK K e h0 hk
  generalize unravel (l.map DiagonalNoiseOperators.dim) (k / D) = x at hx ⊢
  generalize unravel (l.map DiagonalNoiseOperators.dim) (k % D) = x' at hx' ⊢
  clear h1 h2 hD k D
  induction hβ generalizing x x' with
  | nil => cases x <;> cases x' <;> rfl
  | @cons ops β l βs h _ ih =>
    match x, x', hx, hx' with
    | i :: x, j :: x', hx, hx' =>
      show axisKernelOf ops i j * productKernel l x x' = β _ * outerProduct βs _
      rw [ih (fun o ho => hl o (List.mem_cons_of_mem _ ho)) x hx.2 x' hx'.2]
      congr 1
      obtain ⟨K, hK, hKv⟩ := h
      obtain ⟨K', hK', hv⟩ := getDiagonalKernel_entries ops (hl ops List.mem_cons_self)
      obtain rfl : K = K' := by rw [hK] at hK'; exact Option.some.inj hK'
      rw [axisKernelOf, ← hv i j hx'.1, hKv _ (add_mul_lt hx.1 hx'.1), diagonalFromIsotropic, flatten_entry _ _ hx'.1]

theorem outerProduct_eq : ∀ (ks : List (ℕ → ℂ)) (is : List ℕ), is.length = ks.length →
    outerProduct ks is = ∏ i ∈ range ks.length, ks.getD i (fun _ => 1) (is.getD i 0)
  | [], [], _ => by simp [outerProduct]
  | k :: ks, i :: is, h => by
    rw [outerProduct, outerProduct_eq ks is (by simpa using h), List.length_cons, prod_range_succ']
    simp only [List.getD_cons_zero, List.getD_cons_succ]
    ring

/-- **C60.** A separable kernel which does not vanish at the origin is the product of the axis kernels read off along the axes. -/
theorem C60_axis_roundtrip (shape : List ℕ) (hne : shape ≠ []) (ks : List (ℕ → ℂ)) (hlen : ks.length = shape.length)
    (h0 : isotropicFromAxis shape ks 0 ≠ 0) (k : ℕ) (hk : k < shape.prod) :
    isotropicFromAxis shape (axisFromIsotropic shape (isotropicFromAxis shape ks)) k = isotropicFromAxis shape ks k := by
  obtain ⟨β, hβ⟩ : ∃ β, β = isotropicFromAxis shape ks := ⟨_, rfl⟩
  rw [← hβ] at h0 ⊢
  obtain ⟨d, hd⟩ : ∃ d, d = shape.length := ⟨_, rfl⟩
  have hd0 : 0 < d := by rw [hd]; exact List.length_pos_iff.2 hne
  have hlenIn : ∀ (ns is : List ℕ), InShape ns is → is.length = ns.length := by
    intro ns
    induction ns with
    | nil => intro is h; cases is with | nil => rfl | cons => exact h.elim
    | cons n ns ih => intro is h; cases is with | nil => exact h.elim | cons i is => simp [ih is h.2]
  have hx := unravel_inShape _ _ hk
  obtain ⟨x, hxe⟩ : ∃ x, x = unravel shape k := ⟨_, rfl⟩
  rw [← hxe] at hx
  have hxl := hlenIn _ _ hx
  -- the value at the origin
  have hval0 : β 0 = ∏ j ∈ range d, ks.getD j (fun _ => 1) 0 := by
    rw [hβ, isotropicFromAxis, unravel_zero, outerProduct_eq _ _ (by simp [hlen]), hlen, ← hd]
    refine prod_congr rfl fun j hj => ?_
    congr 1
    have : j < shape.length := by rw [← hd]; exact mem_range.1 hj
    simp [List.getD_eq_getElem?_getD, List.getElem?_map, this]
  have hfac : ∀ j < d, ks.getD j (fun _ => 1) 0 ≠ 0 := fun j hj h => h0 (by
    rw [hval0]; exact prod_eq_zero (mem_range.2 hj) h)
  -- the values along the axes
  have hset : ∀ i < d, InShape shape ((shape.map fun _ : ℕ => 0).set i (x.getD i 0)) := by
    rw [hd]
    clear hval0 hfac hd hd0 hxe hxl hk h0 hβ hne hlen
    clear ks β d k
    induction shape generalizing x with
    | nil => intro i hi; simp at hi
    | cons n ns ih =>
      match x, hx with
      | a :: as, hx =>
        intro i hi
        cases i with
        | zero =>
          refine ⟨hx.1, ?_⟩
          have : ∀ (ns is : List ℕ), InShape ns is → InShape ns (ns.map fun _ => 0) := by
            intro ns
            induction ns with
            | nil => intro _ _; trivial
            | cons m ms ih => intro is h; cases is with
              | nil => exact h.elim
              | cons b bs => exact ⟨lt_of_le_of_lt (Nat.zero_le _) h.1, ih bs h.2⟩
          exact this ns as hx.2
        | succ i =>
          exact ⟨lt_of_le_of_lt (Nat.zero_le _) hx.1, ih as hx.2 i (by simpa using hi)⟩
  have haxis : ∀ i < d, β (ravel shape ((shape.map fun _ : ℕ => 0).set i (x.getD i 0))) * ks.getD i (fun _ => 1) 0 =
      ks.getD i (fun _ => 1) (x.getD i 0) * β 0 := by
    intro i hi
    rw [hval0, hβ, isotropicFromAxis, unravel_ravel _ _ (hset i hi), outerProduct_eq _ _ (by simp [hlen]), hlen, ← hd]
    rw [← mul_prod_erase (range d) _ (mem_range.2 hi), ← mul_prod_erase (range d) (fun j => ks.getD j (fun _ => 1) 0) (mem_range.2 hi)]
    have hi' : i < shape.length := by rw [← hd]; exact hi
    have e1 : ((shape.map fun _ : ℕ => 0).set i (x.getD i 0)).getD i 0 = x.getD i 0 := by
      simp [List.getD_eq_getElem?_getD, hi']
    have e2 : ∀ j ∈ (range d).erase i, ((shape.map fun _ : ℕ => 0).set i (x.getD i 0)).getD j 0 = 0 := by
      intro j hj
      have hne := (mem_erase.1 hj).1
      rw [List.getD_eq_getElem?_getD, List.getElem?_set_ne hne.symm, List.getElem?_map]
      cases shape[j]? <;> rfl
    rw [e1, prod_congr rfl fun j hj => by rw [e2 j hj]]
    ring
  have hout : isotropicFromAxis shape (axisFromIsotropic shape β) k =
      ∏ i ∈ range d, (β 0 ^ ((1 - (d : ℂ)) / d) * β (ravel shape ((shape.map fun _ : ℕ => 0).set i (x.getD i 0)))) := by
    rw [isotropicFromAxis, ← hxe, outerProduct_eq _ _ (by simp [axisFromIsotropic, hxl])]
    have : (axisFromIsotropic shape β).length = d := by simp [axisFromIsotropic, hd]
    rw [this]
    refine prod_congr rfl fun i hi => ?_
    have hi' : i < shape.length := by rw [← hd]; exact mem_range.1 hi
    rw [axisFromIsotropic, List.getD_eq_getElem?_getD, List.getElem?_map, List.getElem?_range hi', Option.map_some, Option.getD_some,
      hd]
  have hfinal : β k = ∏ i ∈ range d, ks.getD i (fun _ => 1) (x.getD i 0) := by
    rw [hβ, isotropicFromAxis, ← hxe, outerProduct_eq _ _ (by rw [hxl, hlen]), hlen, hd]
  rw [hout, hfinal, prod_mul_distrib, prod_const, card_range]
  have hpow : (β 0 ^ ((1 - (d : ℂ)) / d)) ^ d * β 0 ^ d = β 0 := by
    have hdc : (d : ℂ) ≠ 0 := by exact_mod_cast hd0.ne'
    rw [← Complex.cpow_mul_nat, div_mul_cancel₀ _ hdc, Complex.cpow_sub _ _ h0, Complex.cpow_one, Complex.cpow_natCast,
      div_mul_cancel₀ _ (pow_ne_zero _ h0)]
  have hprod : (∏ i ∈ range d, β (ravel shape ((shape.map fun _ : ℕ => 0).set i (x.getD i 0)))) * β 0 =
      (∏ i ∈ range d, ks.getD i (fun _ => 1) (x.getD i 0)) * β 0 ^ d := by
    conv_lhs => rw [hval0]
    rw [← prod_mul_distrib, prod_congr rfl fun i hi => haxis i (mem_range.1 hi), prod_mul_distrib, prod_const, card_range]
  have hfin : ((β 0 ^ ((1 - (d : ℂ)) / d)) ^ d * ∏ i ∈ range d, β (ravel shape ((shape.map fun _ : ℕ => 0).set i (x.getD i 0)))) * β 0 =
      (∏ i ∈ range d, ks.getD i (fun _ => 1) (x.getD i 0)) * β 0 := by
    rw [mul_assoc, hprod]
    linear_combination (∏ i ∈ range d, ks.getD i (fun _ => 1) (x.getD i 0)) * hpow
  exact mul_right_cancel₀ h0 hfin

/-- Two axes with two points each: a separable kernel, and the kernel of products of two operators on each axis. -/
example : isotropicFromAxis [2, 2] [fun i => i + 2, fun i => 3 * i + 1] 0 = 2 ∧
    isotropicFromAxis [2, 2] [fun i => i + 2, fun i => 3 * i + 1] 3 = 12 := by
  norm_num [isotropicFromAxis, outerProduct, unravel]

end Verif
