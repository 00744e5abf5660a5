import Verif.Model.Wannier
import Verif.Props.C49_Shape

/-!
# C52, C91: Wannier functions
-/

set_option autoImplicit false

namespace Verif

open Finset Spec

/-! ## Helpers -/

/-- The point `x` moved by `t` cells. -/
def translate : List (ℕ × ℕ) → List ℕ → List ℕ → List ℕ
  | (ns, nx) :: axes, t :: ts, x :: xs => (x + nx * t) % (ns * nx) :: translate axes ts xs
  | _, _, _ => []

theorem roll_translate : ∀ (axes : List (ℕ × ℕ)) (t X : List ℕ),
    List.zipWith3 (fun (n : ℕ) (s : ℤ) (j : ℕ) => (((j : ℤ) - s) % (n : ℤ)).toNat) (unfurledShape axes)
      (List.zipWith (fun n o : ℕ => -((n : ℤ) * o)) (stateShape axes) t) X = translate axes t X
  | [], _, _ => by cases ‹List ℕ› <;> rfl
  | (ns, nx) :: axes, [], _ => rfl
  | (ns, nx) :: axes, t :: ts, [] => rfl
  | (ns, nx) :: axes, t :: ts, x :: xs => by
    refine congrArg₂ List.cons ?_ (roll_translate axes ts xs)
    show (((x : ℤ) - -((nx : ℤ) * t)) % ((ns * nx : ℕ) : ℤ)).toNat = (x + nx * t) % (ns * nx)
    rw [sub_neg_eq_add, show ((x : ℤ) + nx * t) % ((ns * nx : ℕ) : ℤ) = (((x + nx * t) % (ns * nx) : ℕ) : ℤ) by push_cast; ring]
    rfl

theorem translate_inShape : ∀ (axes : List (ℕ × ℕ)) (t X : List ℕ), InShape (sampleShape axes) t → InShape (unfurledShape axes) X →
    InShape (unfurledShape axes) (translate axes t X)
  | [], [], [], _, _ => trivial
  | (ns, nx) :: axes, t :: ts, x :: xs, ht, hX => ⟨Nat.mod_lt _ (Nat.zero_lt_of_lt hX.1), translate_inShape axes ts xs ht.2 hX.2⟩
  | [], _ :: _, _, h, _ => by simp [sampleShape, InShape] at h
  | [], [], _ :: _, _, h => by simp [unfurledShape, InShape] at h
  | _ :: _, [], _, h, _ => by simp [sampleShape, InShape] at h
  | _ :: _, _ :: _, [], _, h => by simp [unfurledShape, InShape] at h

theorem reduce_translate : ∀ (axes : List (ℕ × ℕ)) (t X : List ℕ), InShape (sampleShape axes) t → InShape (unfurledShape axes) X →
    reduce axes (translate axes t X) = reduce axes X
  | [], [], [], _, _ => rfl
  | (ns, nx) :: axes, t :: ts, x :: xs, ht, hX => by
    refine congrArg₂ List.cons ?_ (reduce_translate axes ts xs ht.2 hX.2)
    rw [Nat.mod_mul_left_mod, Nat.add_mul_mod_self_left]
  | [], _ :: _, _, h, _ => by simp [sampleShape, InShape] at h
  | [], [], _ :: _, _, h => by simp [unfurledShape, InShape] at h
  | _ :: _, [], _, h, _ => by simp [sampleShape, InShape] at h
  | _ :: _, _ :: _, [], _, h => by simp [unfurledShape, InShape] at h

theorem exp_phase (n : ℕ) (k : ℤ) (x : ℕ) : Complex.exp (2 * Real.pi * Complex.I * (k : ℂ) * x / (n : ℂ)) = phase n (k * x) := by
  unfold phase
  congr 1
  push_cast
  ring

theorem blochPhase_translate : ∀ (axes : List (ℕ × ℕ)) (a t X : List ℕ), InShape (sampleShape axes) a → InShape (sampleShape axes) t →
    InShape (unfurledShape axes) X →
    blochPhase axes a (translate axes t X) / (Real.sqrt ((sampleShape axes).prod : ℕ) : ℂ) =
      waves (sampleShape axes) a t * blochPhase axes a X
  | [], [], [], [], _, _, _ => by simp [blochPhase, translate, waves, sampleShape]
  | (ns, nx) :: axes, a :: as, t :: ts, x :: xs, ha, ht, hX => by
    have ih := blochPhase_translate axes as ts xs ha.2 ht.2 hX.2
    have hN : 0 < ns * nx := Nat.zero_lt_of_lt hX.1
    have hx : 0 < nx := Nat.pos_of_mul_pos_left hN
    have hn : 0 < ns := Nat.zero_lt_of_lt ha.1
    show Complex.exp (2 * Real.pi * Complex.I * (freq ns a : ℂ) * (((x + nx * t) % (ns * nx) : ℕ) : ℂ) / ((ns * nx : ℕ) : ℂ)) *
        blochPhase axes as (translate axes ts xs) / (Real.sqrt ((ns * (sampleShape axes).prod : ℕ) : ℝ) : ℂ) =
      planeWave ns a t * waves (sampleShape axes) as ts * (Complex.exp (2 * Real.pi * Complex.I * (freq ns a : ℂ) * (x : ℂ) /
        ((ns * nx : ℕ) : ℂ)) * blochPhase axes as xs)
    rw [exp_phase, exp_phase]
    have e1 : phase (ns * nx) (freq ns a * ((x + nx * t) % (ns * nx) : ℕ)) = phase (ns * nx) (freq ns a * x) * phase ns (a * t) := by
      have : phase (ns * nx) (freq ns a * ((x + nx * t) % (ns * nx) : ℕ)) = phase (ns * nx) (freq ns a * (x + nx * t : ℕ)) := by
        apply phase_congr hN
        rw [← mul_sub]
        apply Dvd.dvd.mul_left
        have := (Int.dvd_self_sub_emod (x := ((x + nx * t : ℕ) : ℤ)) (m := ((ns * nx : ℕ) : ℤ)))
        have h2 := (dvd_neg).2 this
        rw [neg_sub] at h2
        exact_mod_cast h2
      rw [this, show freq ns a * ((x + nx * t : ℕ) : ℤ) = freq ns a * x + nx * (freq ns a * t) by push_cast; ring, phase_add]
      congr 1
      rw [Nat.mul_comm ns nx, phase_mul_scale ns nx hx]
      apply phase_congr hn
      rw [← sub_mul]
      exact (Int.ModEq.dvd (show (a : ℤ) ≡ freq ns a [ZMOD ns] from freq_emod.symm)).mul_right _
    rw [e1, show planeWave ns a t = phase ns (a * t) / (Real.sqrt ns : ℂ) by unfold planeWave; rw [exp_phase]]
    have e2 : (Real.sqrt ((ns * (sampleShape axes).prod : ℕ) : ℝ) : ℂ) =
        (Real.sqrt ns : ℂ) * (Real.sqrt ((sampleShape axes).prod : ℕ) : ℂ) := by
      rw [Nat.cast_mul, Real.sqrt_mul (Nat.cast_nonneg _), Complex.ofReal_mul]
    rw [e2]
    rw [show phase (ns * nx) (freq ns a * x) * phase ns (a * t) * blochPhase axes as (translate axes ts xs) /
      ((Real.sqrt ns : ℂ) * (Real.sqrt ((sampleShape axes).prod : ℕ) : ℂ)) = phase (ns * nx) (freq ns a * x) * (phase ns (a * t) /
        (Real.sqrt ns : ℂ)) * (blochPhase axes as (translate axes ts xs) / (Real.sqrt ((sampleShape axes).prod : ℕ) : ℂ)) by
      rw [mul_div_mul_comm]; ring, ih]
    ring
  | [], _ :: _, _, _, h, _, _ => by simp [sampleShape, InShape] at h
  | [], [], _ :: _, _, _, h, _ => by simp [sampleShape, InShape] at h
  | [], [], [], _ :: _, _, _, h => by simp [unfurledShape, InShape] at h
  | _ :: _, [], _, _, h, _, _ => by simp [sampleShape, InShape] at h
  | _ :: _, _ :: _, [], _, _, h, _ => by simp [sampleShape, InShape] at h
  | _ :: _, _ :: _, _ :: _, [], _, _, h => by simp [unfurledShape, InShape] at h

theorem fund_facts (ns : List ℕ) : size (.tuple (ns.map .fundamental)) = ns.prod ∧ points (.tuple (ns.map .fundamental)) = ns.prod ∧
    (∀ j < ns.prod, ∀ x < ns.prod, state (.tuple (ns.map .fundamental)) j x = if j = x then 1 else 0) ∧
    Valid (.tuple (ns.map .fundamental)) := by
  show sizes _ = _ ∧ pointss _ = _ ∧ (∀ j < ns.prod, ∀ x < ns.prod, states _ j x = _) ∧ Valids _
  induction ns with
  | nil => exact ⟨rfl, rfl, fun j hj x hx => by simp [states] at hj hx ⊢; omega, trivial⟩
  | cons n ns ih =>
    obtain ⟨h1, h2, h3, h4⟩ := ih
    refine ⟨by rw [List.map_cons, sizes, h1, size, List.prod_cons], by rw [List.map_cons, pointss, h2, points, List.prod_cons], ?_,
      ⟨trivial, h4⟩⟩
    intro j hj x hx
    rw [List.prod_cons] at hj hx
    have hp : 0 < ns.prod := Nat.pos_of_ne_zero fun e => by simp [e] at hj
    rw [List.map_cons, states, h1, h2, h3 _ (Nat.mod_lt _ hp) _ (Nat.mod_lt _ hp), state]
    have : j = x ↔ x / ns.prod = j / ns.prod ∧ j % ns.prod = x % ns.prod := by
      constructor
      · rintro rfl; exact ⟨rfl, rfl⟩
      · rintro ⟨a, b⟩
        rw [← Nat.div_add_mod j ns.prod, ← Nat.div_add_mod x ns.prod, a, b]
    by_cases e1 : x / ns.prod = j / ns.prod
    · by_cases e2 : j % ns.prod = x % ns.prod
      · rw [if_pos (this.2 ⟨e1, e2⟩), if_pos e1, if_pos e2, mul_one]
      · rw [if_neg e2, mul_zero, if_neg fun h => e2 (this.1 h).2]
    · rw [if_neg e1, zero_mul, if_neg fun h => e1 (this.1 h).1]

theorem compatible_position (ns : List ℕ) : Compatible (fT ns) (.tuple (ns.map .fundamental)) := by
  show Compatibles _ _
  induction ns with
  | nil => trivial
  | cons n ns ih => exact ⟨rfl, ih⟩

/-- Converting to the position basis gives the values at the points. -/
theorem convert_position (same : Basis → Basis → Bool) (hs : Sound same) (b : Basis) (hb : Valid b) (ho : OrthonormalParts b)
    (ns : List ℕ) (hc : Compatible b (.tuple (ns.map .fundamental))) :
    ∃ f, Basis.convert same b (.tuple (ns.map .fundamental)) = some f ∧ ∀ v, ∀ x < ns.prod, f v x = expand b v x := by
  obtain ⟨h1, h2, h3, h4⟩ := fund_facts ns
  obtain ⟨f, hf, kf⟩ := C10_route same hs b _ hb h4 ho hc
  refine ⟨f, hf, fun v x hx => ?_⟩
  have hp : points b = ns.prod := (compatible_points b _ hc).trans h2
  rw [kf v x (by rw [h1]; exact hx), hp]
  rw [sum_eq_single x]
  · rw [h3 x hx x hx, if_pos rfl, map_one, one_mul]
  · intro y hy hne
    rw [h3 x hx y (mem_range.1 hy), if_neg (Ne.symm hne), map_zero, zero_mul]
  · intro h; exact absurd (mem_range.2 hx) h

theorem block_block (N n : ℕ) (data : ℕ → ℂ) (i a : ℕ) : block n (block (N * n) data i) a = block n data (i * N + a) := by
  funext k
  unfold block
  congr 1
  ring

theorem wannierFundamental_eq (same : Basis → Basis → Bool) (hs : Sound same) (axes : List (ℕ × ℕ)) (bands : ℕ) (b : Basis)
    (hb : Valid b) (ho : OrthonormalParts b) (hshape : b.fundamentalShape = stateShape axes) (data : ℕ → ℂ) (i : ℕ) :
    ∃ φ, wannierFundamental same ⟨bands, sampleShape axes, b, data⟩ i = some φ ∧
      ∀ X, InShape (unfurledShape axes) X → φ (ravel (unfurledShape axes) X) =
        (∑ a ∈ range (sampleShape axes).prod, blochWave axes b (block (size b) data (i * (sampleShape axes).prod + a))
          (unravel (sampleShape axes) a) X) / (Real.sqrt ((sampleShape axes).prod : ℕ) : ℂ) := by
  have hbn : b.n = size b := (methods_sizes b).1
  obtain ⟨s, h1, h2, h3⟩ := C45_bloch same hs axes b hb ho hshape (block ((sampleShape axes).prod * b.n) data i)
  obtain ⟨f, hf, kf⟩ := convert_position same hs (fT (unfurledShape axes)) (valids_fT _) (orthonormalPartss_fT _) (unfurledShape axes)
    (compatible_position _)
  refine ⟨f s.data, ?_, fun X hX => ?_⟩
  · unfold wannierFundamental
    rw [show (⟨bands, sampleShape axes, b, data⟩ : BlochWavefunctions).list =
      .tuple ((sampleShape axes).map .fundamentalTransformed) from rfl]
    dsimp only
    rw [h1, Option.bind_some, h2, Basis.asPositionBasis, fundamentalShape_fT, hf]
    rfl
  · rw [kf _ _ (ravel_lt _ _ hX), show fT (unfurledShape axes) = s.basis from h2.symm, h3 X hX, sum_div, sum_div]
    apply sum_congr rfl; intro a _
    rw [hbn, block_block]
    unfold blochWave
    rw [div_div, ← Complex.ofReal_mul]
    rw [show axes.map Prod.fst = sampleShape axes from rfl, Real.mul_self_sqrt (Nat.cast_nonneg _)]
    rfl

theorem wannier_value (same : Basis → Basis → Bool) (hs : Sound same) (axes : List (ℕ × ℕ)) (b : Basis)
    (hb : Valid b) (ho : OrthonormalParts b) (hshape : b.fundamentalShape = stateShape axes) (data : ℕ → ℂ)
    (op : LocalizationOperator) (hS : op.samples = sampleShape axes) :
    ∃ l W, getLocalizedWavepackets ⟨op.old, sampleShape axes, b, data⟩ op = some l ∧
      wannierStates same ⟨op.old, sampleShape axes, b, data⟩ op = some W ∧
      ∀ i < op.new, ∀ t < (sampleShape axes).prod, ∀ X X', InShape (unfurledShape axes) X → InShape (unfurledShape axes) X' →
        List.zipWith3 (fun (n : ℕ) (s : ℤ) (j : ℕ) => (((j : ℤ) - s) % (n : ℤ)).toNat) (unfurledShape axes)
          (List.zipWith (fun n o : ℕ => -((n : ℤ) * o)) b.shape (unravel (sampleShape axes) t)) X = X' →
        W ((i * (sampleShape axes).prod + t) * (unfurledShape axes).prod + ravel (unfurledShape axes) X) =
          (∑ a ∈ range (sampleShape axes).prod, blochWave axes b (block (size b) l.data (i * (sampleShape axes).prod + a))
            (unravel (sampleShape axes) a) X') / (Real.sqrt ((sampleShape axes).prod : ℕ) : ℂ) := by
  obtain ⟨l, h1, h2, h3, h4, -⟩ := localized_block ⟨op.old, sampleShape axes, b, data⟩ op rfl hS.symm
  have hl : l = ⟨op.new, sampleShape axes, b, l.data⟩ := by
    cases l; dsimp only at h2 h3 h4 ⊢; rw [h2, h3, h4]
  have hax : l.axes = axes := by
    rw [hl]
    show (sampleShape axes).zip b.fundamentalShape = axes
    rw [hshape, zip_axes]
  have key := fun i => wannierFundamental_eq same hs axes op.new b hb ho hshape l.data i
  rw [← hl] at key
  have hpos : ∀ i < op.new, (wannierFundamental same l i).isSome := by
    intro i _
    obtain ⟨φ, hφ, -⟩ := key i
    rw [hφ]; rfl
  obtain ⟨W, hW⟩ : ∃ W, wannierStates same ⟨op.old, sampleShape axes, b, data⟩ op = some W := by
    unfold wannierStates
    rw [h1, Option.bind_some, if_pos hpos]
    exact ⟨_, rfl⟩
  refine ⟨l, W, h1, hW, ?_⟩
  unfold wannierStates at hW
  rw [h1, Option.bind_some, if_pos hpos, Option.some.injEq] at hW
  intro i hi t ht X X' hX hX' hr
  obtain ⟨φ, hφ, kφ⟩ := key i
  rw [← hW, hax, hS, flatten3_at _ ht (ravel_lt _ _ hX)]
  unfold rollAxes
  dsimp only
  rw [unravel_ravel _ _ hX, hr, hφ, Option.getD_some, kφ X' hX']

theorem dot_superposition (n N : ℕ) (c c' : ℕ → ℂ) (ψ ψ' : ℕ → ℕ → ℂ) (G : ℕ → ℂ)
    (h : ∀ a < N, ∀ a' < N, ∑ X ∈ range n, (starRingEnd ℂ) (ψ a X) * ψ' a' X = if a = a' then G a else 0) (φ φ' : ℕ → ℂ)
    (hφ : ∀ X < n, φ X = ∑ a ∈ range N, c a * ψ a X) (hφ' : ∀ X < n, φ' X = ∑ a ∈ range N, c' a * ψ' a X) :
    dot n φ φ' = ∑ a ∈ range N, (starRingEnd ℂ) (c a) * c' a * G a := by
  unfold dot
  have e : ∀ X ∈ range n, (starRingEnd ℂ) (φ X) * φ' X = ∑ a ∈ range N, ∑ a' ∈ range N,
      ((starRingEnd ℂ) (c a) * c' a') * ((starRingEnd ℂ) (ψ a X) * ψ' a' X) := by
    intro X hX
    rw [hφ X (mem_range.1 hX), hφ' X (mem_range.1 hX), map_sum, sum_mul_sum]
    refine sum_congr rfl fun a _ => sum_congr rfl fun a' _ => ?_
    rw [map_mul]; ring
  rw [sum_congr rfl e, sum_comm]
  apply sum_congr rfl; intro a ha
  rw [sum_comm]
  have e2 : ∀ a' ∈ range N, ∑ X ∈ range n, ((starRingEnd ℂ) (c a) * c' a') * ((starRingEnd ℂ) (ψ a X) * ψ' a' X) =
      if a = a' then (starRingEnd ℂ) (c a) * c' a * G a else 0 := by
    intro a' ha'
    rw [← mul_sum, h a (mem_range.1 ha) a' (mem_range.1 ha')]
    by_cases q : a = a'
    · rw [if_pos q, if_pos q, q]
    · rw [if_neg q, if_neg q, mul_zero]
  rw [sum_congr rfl e2, sum_ite_eq, if_pos ha]

/-! ## C52 -/

/-- **C52.** For a complete basis of the Bloch states, Wannier state `(i, t)` is the superposition of the localised Bloch states `i`
of all samples with the phases of cell `t`: the states of the transformed list basis at `t`. -/
theorem C52_superposition_partial (same : Basis → Basis → Bool) (hs : Sound same) (axes : List (ℕ × ℕ)) (b : Basis)
    (hb : Valid b) (ho : OrthonormalParts b) (hshape : b.fundamentalShape = stateShape axes) (hfull : b.shape = stateShape axes)
    (data : ℕ → ℂ) (op : LocalizationOperator) (hS : op.samples = sampleShape axes) :
    ∃ l W, getLocalizedWavepackets ⟨op.old, sampleShape axes, b, data⟩ op = some l ∧
      wannierStates same ⟨op.old, sampleShape axes, b, data⟩ op = some W ∧
      ∀ i < op.new, ∀ t < (sampleShape axes).prod, ∀ X < (unfurledShape axes).prod,
        W ((i * (sampleShape axes).prod + t) * (unfurledShape axes).prod + X) =
          ∑ a ∈ range (sampleShape axes).prod, state (fT (sampleShape axes)) a t *
            blochWave axes b (block (size b) l.data (i * (sampleShape axes).prod + a)) (unravel (sampleShape axes) a)
              (unravel (unfurledShape axes) X) := by
  obtain ⟨l, W, h1, h2, h3⟩ := wannier_value same hs axes b hb ho hshape data op hS
  refine ⟨l, W, h1, h2, fun i hi t ht X hX => ?_⟩
  have sX := unravel_inShape _ X hX
  have st := unravel_inShape _ t ht
  have e := h3 i hi t ht _ _ sX (translate_inShape axes _ _ st sX) (by rw [hfull]; exact roll_translate axes _ _)
  rw [ravel_unravel _ X hX] at e
  rw [e, sum_div]
  apply sum_congr rfl; intro a ha
  have sa := unravel_inShape _ a (mem_range.1 ha)
  have q := blochPhase_translate axes _ _ _ sa st sX
  have q2 : state (fT (sampleShape axes)) a t = waves (sampleShape axes) (unravel (sampleShape axes) a)
      (unravel (sampleShape axes) t) := by
    rw [← states_fT _ _ _ sa st, ravel_unravel _ a (mem_range.1 ha), ravel_unravel _ t ht]
    rfl
  unfold blochWave
  rw [reduce_translate axes _ _ st sX, q2]
  rw [show axes.map Prod.fst = sampleShape axes from rfl]
  linear_combination (expand b (block (size b) l.data (i * (sampleShape axes).prod + a))
    (ravel (List.map Prod.snd axes) (reduce axes (unravel (unfurledShape axes) X))) /
      (Real.sqrt ((sampleShape axes).prod : ℕ) : ℂ)) * q

/-- **C52.** Wannier states of all cells are orthonormal. -/
theorem C52_orthonormal_partial (same : Basis → Basis → Bool) (hs : Sound same) (axes : List (ℕ × ℕ)) (b : Basis)
    (hb : Valid b) (ho : OrthonormalParts b) (hshape : b.fundamentalShape = stateShape axes) (hfull : b.shape = stateShape axes)
    (data : ℕ → ℂ) (op : LocalizationOperator) (hS : op.samples = sampleShape axes)
    (hw : Orthonormal ⟨op.old, sampleShape axes, b, data⟩)
    (hop : ∀ a < (sampleShape axes).prod, ∀ i < op.new, ∀ i' < op.new,
      ∑ l ∈ range op.old, (starRingEnd ℂ) (op.entry a i l) * op.entry a i' l = if i = i' then 1 else 0) :
    ∃ W, wannierStates same ⟨op.old, sampleShape axes, b, data⟩ op = some W ∧
      ∀ i < op.new, ∀ i' < op.new, ∀ t < (sampleShape axes).prod, ∀ t' < (sampleShape axes).prod,
        dot (unfurledShape axes).prod (block (unfurledShape axes).prod W (i * (sampleShape axes).prod + t))
          (block (unfurledShape axes).prod W (i' * (sampleShape axes).prod + t')) = if i = i' ∧ t = t' then 1 else 0 := by
  obtain ⟨l, W, h1, h2, h3⟩ := C52_superposition_partial same hs axes b hb ho hshape hfull data op hS
  refine ⟨W, h2, fun i hi i' hi' t ht t' ht' => ?_⟩
  obtain ⟨l', g1, g2, g3, g4, g5⟩ := C50_unitary ⟨op.old, sampleShape axes, b, data⟩ op rfl hS.symm hw hop
  have hl : l' = l := by rw [h1] at g1; exact (Option.some.inj g1).symm
  rw [hl] at g2 g3 g4 g5
  rw [dot_superposition (unfurledShape axes).prod (sampleShape axes).prod (fun a => state (fT (sampleShape axes)) a t)
    (fun a => state (fT (sampleShape axes)) a t')
    (fun a X => blochWave axes b (block (size b) l.data (i * (sampleShape axes).prod + a)) (unravel (sampleShape axes) a)
      (unravel (unfurledShape axes) X))
    (fun a X => blochWave axes b (block (size b) l.data (i' * (sampleShape axes).prod + a)) (unravel (sampleShape axes) a)
      (unravel (unfurledShape axes) X)) (fun _ => if i = i' then 1 else 0) ?_
    (block (unfurledShape axes).prod W (i * (sampleShape axes).prod + t))
    (block (unfurledShape axes).prod W (i' * (sampleShape axes).prod + t')) (h3 i hi t ht) (h3 i' hi' t' ht')]
  · have hc := complete_of_orthonormal (fT_facts (sampleShape axes)).2.2 ht' ht
    rw [← sum_mul, sum_congr rfl fun a _ => mul_comm _ _, hc]
    rcases eq_or_ne t t' with rfl | e2
    · simp
    · simp [e2, e2.symm]
  · intro a ha a' ha'
    rw [C48_orthogonal axes b hb ho hshape _ _ a a' ha ha']
    by_cases e1 : a = a'
    · subst e1
      rw [if_pos rfl, if_pos rfl]
      have := g5 i (by rw [g2]; exact hi) i' (by rw [g2]; exact hi') a (by rw [g3]; exact ha)
      rw [g3, g4] at this
      exact this
    · rw [if_neg e1, if_neg e1]

/-- **C52.** The localised Bloch states are rebuilt from the Wannier states of all cells with the conjugate phases. -/
theorem C52_inverse_partial (same : Basis → Basis → Bool) (hs : Sound same) (axes : List (ℕ × ℕ)) (b : Basis)
    (hb : Valid b) (ho : OrthonormalParts b) (hshape : b.fundamentalShape = stateShape axes) (hfull : b.shape = stateShape axes)
    (data : ℕ → ℂ) (op : LocalizationOperator) (hS : op.samples = sampleShape axes) :
    ∃ l W, getLocalizedWavepackets ⟨op.old, sampleShape axes, b, data⟩ op = some l ∧
      wannierStates same ⟨op.old, sampleShape axes, b, data⟩ op = some W ∧
      ∀ i < op.new, ∀ a < (sampleShape axes).prod, ∀ X < (unfurledShape axes).prod,
        blochWave axes b (block (size b) l.data (i * (sampleShape axes).prod + a)) (unravel (sampleShape axes) a)
          (unravel (unfurledShape axes) X) =
          ∑ t ∈ range (sampleShape axes).prod, (starRingEnd ℂ) (state (fT (sampleShape axes)) a t) *
            W ((i * (sampleShape axes).prod + t) * (unfurledShape axes).prod + X) := by
  obtain ⟨l, W, h1, h2, h3⟩ := C52_superposition_partial same hs axes b hb ho hshape hfull data op hS
  refine ⟨l, W, h1, h2, fun i hi a ha X hX => ?_⟩
  have e : ∀ t ∈ range (sampleShape axes).prod, (starRingEnd ℂ) (state (fT (sampleShape axes)) a t) *
      W ((i * (sampleShape axes).prod + t) * (unfurledShape axes).prod + X) = ∑ a' ∈ range (sampleShape axes).prod,
        ((starRingEnd ℂ) (state (fT (sampleShape axes)) a t) * state (fT (sampleShape axes)) a' t) *
          blochWave axes b (block (size b) l.data (i * (sampleShape axes).prod + a')) (unravel (sampleShape axes) a')
            (unravel (unfurledShape axes) X) := by
    intro t ht
    rw [h3 i hi t (mem_range.1 ht) X hX, mul_sum]
    exact sum_congr rfl fun _ _ => by ring
  rw [sum_congr rfl e, sum_comm]
  have o := (fT_facts (sampleShape axes)).2.2
  have e2 : ∀ a' ∈ range (sampleShape axes).prod, ∑ t ∈ range (sampleShape axes).prod,
      ((starRingEnd ℂ) (state (fT (sampleShape axes)) a t) * state (fT (sampleShape axes)) a' t) *
        blochWave axes b (block (size b) l.data (i * (sampleShape axes).prod + a')) (unravel (sampleShape axes) a')
          (unravel (unfurledShape axes) X) = if a = a' then
        blochWave axes b (block (size b) l.data (i * (sampleShape axes).prod + a)) (unravel (sampleShape axes) a)
          (unravel (unfurledShape axes) X) else 0 := by
    intro a' ha'
    rw [← sum_mul, o a ha a' (mem_range.1 ha')]
    by_cases q : a = a'
    · rw [if_pos q, if_pos q, one_mul, q]
    · rw [if_neg q, if_neg q, zero_mul]
  rw [sum_congr rfl e2, sum_ite_eq, if_pos (mem_range.2 ha)]

-- three cells of two points along one axis and two cells of one point along another, two bands exchanged by the operator
example : ∃ (b : Basis) (data : ℕ → ℂ) (op : LocalizationOperator), Valid b ∧ OrthonormalParts b ∧
    b.fundamentalShape = stateShape [(3, 2), (2, 1)] ∧ b.shape = stateShape [(3, 2), (2, 1)] ∧
    op.samples = sampleShape [(3, 2), (2, 1)] ∧ op.new = 2 ∧ Orthonormal ⟨op.old, sampleShape [(3, 2), (2, 1)], b, data⟩ ∧
    ∀ a < (sampleShape [(3, 2), (2, 1)]).prod, ∀ i < op.new, ∀ i' < op.new,
      ∑ l ∈ range op.old, (starRingEnd ℂ) (op.entry a i l) * op.entry a i' l = if i = i' then 1 else 0 := by
  refine ⟨fT [2, 1], fun k => if k / 2 < 6 then (if k % 2 = 0 then 1 else 0) else (if k % 2 = 1 then 1 else 0),
    ⟨[3, 2], 2, 2, fun k => if k % 4 = 1 ∨ k % 4 = 2 then 1 else 0⟩, valids_fT _, orthonormalPartss_fT _, fundamentalShape_fT _,
    shape_fT _, rfl, rfl, ?_, ?_⟩
  · intro i hi i' hi' a ha
    have hi : i < 2 := hi
    have hi' : i' < 2 := hi'
    have ha : a < 6 := ha
    rw [show size (fT [2, 1]) = 2 from rfl, show (sampleShape [(3, 2), (2, 1)]).prod = 6 from rfl]
    interval_cases i <;> interval_cases i' <;> interval_cases a <;> simp [dot, block, sum_range_succ]
  · intro a ha i hi i' hi'
    have hi : i < 2 := hi
    have hi' : i' < 2 := hi'
    have ha : a < 6 := ha
    interval_cases i <;> interval_cases i' <;> interval_cases a <;> simp [LocalizationOperator.entry, sum_range_succ]

/-- **C52, negation.** For a truncated basis the translation is by the number of states instead of the number of points of the cell:
one orthonormal band of two samples, on cells of two points with one momentum state; the Wannier states of the two cells are not
orthogonal. -/
theorem C52_truncated_negation (same : Basis → Basis → Bool) (hs : Sound same) :
    ∃ (b : Basis) (data : ℕ → ℂ) (op : LocalizationOperator) (W : ℕ → ℂ), Valid b ∧ OrthonormalParts b ∧
      b.fundamentalShape = stateShape [(2, 2)] ∧ op.samples = [2] ∧ op.new = 1 ∧
      Orthonormal ⟨op.old, [2], b, data⟩ ∧
      (∀ a < 2, ∀ i < op.new, ∀ i' < op.new,
        ∑ l ∈ range op.old, (starRingEnd ℂ) (op.entry a i l) * op.entry a i' l = if i = i' then 1 else 0) ∧
      wannierStates same ⟨op.old, [2], b, data⟩ op = some W ∧ dot 4 (block 4 W 0) (block 4 W 1) ≠ 0 := by
  let b : Basis := .tuple [.transformed 1 2]
  let op : LocalizationOperator := ⟨[2], 1, 1, fun _ => 1⟩
  have hb : Valid b := by simp [b, Valid, Valids]
  have ho : OrthonormalParts b := ⟨trivial, trivial⟩
  obtain ⟨l, W, h1, h2, h3⟩ := wannier_value same hs [(2, 2)] b hb ho rfl (fun _ => 1) op rfl
  have hl : l.data = fun _ => 1 := by
    unfold getLocalizedWavepackets at h1
    simp only [Option.ite_none_right_eq_some, Option.some.injEq] at h1
    rw [← h1.2]
    funext k
    simp [flatten3, flatten, op, LocalizationOperator.entry]
  refine ⟨b, fun _ => 1, op, W, hb, ho, rfl, rfl, rfl, ?_, ?_, h2, ?_⟩
  · intro i hi i' hi' a ha
    have hi : i < 1 := hi
    have hi' : i' < 1 := hi'
    interval_cases i; interval_cases i'
    simp [dot, block, b, size, sizes]
  · intro a ha i hi i' hi'
    have hi : i < 1 := hi
    have hi' : i' < 1 := hi'
    interval_cases i; interval_cases i'
    simp [op, LocalizationOperator.entry]
  · have hph : phase 4 (-1) = -Complex.I := by
      unfold phase
      rw [show (2 * Real.pi * Complex.I * ((-1 : ℤ) : ℂ) / (4 : ℕ) : ℂ) = ((-(Real.pi / 2) : ℝ) : ℂ) * Complex.I by push_cast; ring,
        Complex.exp_mul_I, ← Complex.ofReal_cos, ← Complex.ofReal_sin, Real.cos_neg, Real.sin_neg, Real.cos_pi_div_two,
        Real.sin_pi_div_two]
      push_cast
      ring
    obtain ⟨r, hr⟩ : ∃ r : ℂ, r = (Real.sqrt 2 : ℂ) := ⟨_, rfl⟩
    have r2 : r * r = 2 := by
      rw [hr, ← Complex.ofReal_mul, Real.mul_self_sqrt (by norm_num)]; norm_num
    have wave : ∀ a X, blochWave [(2, 2)] b (block (size b) l.data a) (unravel (sampleShape [(2, 2)]) a) [X] =
        phase 4 (freq 2 (a % 2) * X) / r / r := by
      intro a X
      rw [hl, hr]
      unfold blochWave
      rw [show unravel (sampleShape [(2, 2)]) a = [a % 2] by simp [unravel, sampleShape]]
      simp only [blochPhase, reduce, mul_one]
      rw [exp_phase]
      have : expand b (block (size b) (fun _ => 1) a) (ravel (List.map Prod.snd [(2, 2)]) [X % 2]) = (Real.sqrt 2 : ℂ)⁻¹ := by
        simp [expand, b, size, sizes, block, state, states, planeWave, freq]
      rw [this]
      norm_num
      ring
    have val : ∀ t < 2, ∀ X < 4, W (t * 4 + X) = (1 + phase 4 (-((X + t) % 4 : ℕ))) / r / r / r := by
      intro t ht X hX
      have := h3 0 (by norm_num [op]) t ht [X] [(X + t) % 4] ⟨hX, trivial⟩ ⟨Nat.mod_lt _ (by norm_num), trivial⟩ (by
        interval_cases t <;> interval_cases X <;> rfl)
      rw [show (0 * (sampleShape [(2, 2)]).prod + t) * (unfurledShape [(2, 2)]).prod + ravel (unfurledShape [(2, 2)]) [X] =
        t * 4 + X by simp [sampleShape, unfurledShape, ravel]] at this
      rw [this]
      simp only [show (sampleShape [(2, 2)]).prod = 2 from rfl, sum_range_succ, range_zero, sum_empty, zero_mul, zero_add, wave]
      rw [show freq 2 (0 % 2) = 0 from rfl, show freq 2 (1 % 2) = -1 from rfl, zero_mul, phase_zero, neg_one_mul, hr]
      norm_num
      ring
    have p0 : phase 4 (-(0 : ℕ)) = 1 := phase_zero 4
    have p1 : phase 4 (-(1 : ℕ)) = -Complex.I := hph
    have p2 : phase 4 (-(2 : ℕ)) = -1 := by
      rw [show (-(2 : ℕ) : ℤ) = -1 + -1 by norm_num, phase_add, hph]
      linear_combination Complex.I_sq
    have p3 : phase 4 (-(3 : ℕ)) = Complex.I := by
      rw [show (-(3 : ℕ) : ℤ) = -(2 : ℕ) + -1 by norm_num, phase_add, p2, hph]
      ring
    have cr : (starRingEnd ℂ) r = r := by rw [hr, Complex.conj_ofReal]
    have v0 : W 0 = 2 / r / r / r := (val 0 (by norm_num) 0 (by norm_num)).trans (by rw [p0]; norm_num)
    have v1 : W 1 = (1 - Complex.I) / r / r / r := (val 0 (by norm_num) 1 (by norm_num)).trans (by rw [p1]; ring)
    have v2 : W 2 = 0 := (val 0 (by norm_num) 2 (by norm_num)).trans (by rw [p2]; ring)
    have v3 : W 3 = (1 + Complex.I) / r / r / r := (val 0 (by norm_num) 3 (by norm_num)).trans (by rw [p3])
    have v4 : W 4 = (1 - Complex.I) / r / r / r := (val 1 (by norm_num) 0 (by norm_num)).trans (by rw [p1]; ring)
    have v5 : W 5 = 0 := (val 1 (by norm_num) 1 (by norm_num)).trans (by rw [p2]; ring)
    have v7 : W 7 = 2 / r / r / r := (val 1 (by norm_num) 3 (by norm_num)).trans (by
      rw [show (3 + 1) % 4 = 0 from rfl, p0]; norm_num)
    have r0 : r ≠ 0 := fun h => by rw [h] at r2; norm_num at r2
    have r6 : r * r * r * (r * r * r) = 8 := by linear_combination (r ^ 4 + 2 * r ^ 2 + 4) * r2
    have e : dot 4 (block 4 W 0) (block 4 W 1) = (1 - Complex.I) / 2 := by
      unfold dot block
      simp only [sum_range_succ, range_zero, sum_empty, zero_add, Nat.zero_mul, Nat.one_mul, Nat.add_zero,
        show 4 + 1 = 5 from rfl, show 4 + 2 = 6 from rfl, show 4 + 3 = 7 from rfl, v0, v1, v2, v3, v4, v5, v7, map_div₀, map_add,
        map_one, Complex.conj_I, cr, map_zero, map_ofNat, mul_zero, zero_mul, add_zero]
      field_simp
      linear_combination (-(1 - Complex.I)) * r6
    rw [e]
    intro h
    have := congrArg Complex.re h
    norm_num at this

end Verif
