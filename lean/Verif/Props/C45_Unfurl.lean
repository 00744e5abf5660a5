import Verif.Lemmas.Unfurl
import Verif.Props.C10_Convert
import Mathlib.Analysis.SpecialFunctions.Sqrt
import Mathlib.Algebra.BigOperators.Field
import Mathlib.Data.Matrix.Mul
import Mathlib.LinearAlgebra.Matrix.NonsingularInverse

/-!
# C45, C46: unfurling a wavepacket into one state of the large cell
-/

set_option autoImplicit false

namespace Verif

open Finset Spec

/-! ## Helpers -/

theorem ravel_append : ∀ (s t i j : List ℕ), InShape s i →
    ravel (s ++ t) (i ++ j) = ravel s i * t.prod + ravel t j
  | [], _, [], _, _ => by simp [ravel]
  | n :: s, t, a :: i, j, h => by
    show a * (s ++ t).prod + ravel (s ++ t) (i ++ j) = (a * s.prod + ravel s i) * t.prod + ravel t j
    rw [ravel_append s t i j h.2, List.prod_append]
    ring
  | [], _, _ :: _, _, h => by simp [InShape] at h
  | _ :: _, _, [], _, h => by simp [InShape] at h

/-- Product of plane waves. -/
noncomputable def waves : List ℕ → List ℕ → List ℕ → ℂ
  | n :: ns, j :: js, x :: xs => planeWave n j x * waves ns js xs
  | _, _, _ => 1

theorem sizes_fT (ns : List ℕ) : sizes (ns.map .fundamentalTransformed) = ns.prod := by
  induction ns with
  | nil => rfl
  | cons n ns ih => rw [List.map_cons, sizes, ih, size, List.prod_cons]

theorem pointss_fT (ns : List ℕ) : pointss (ns.map .fundamentalTransformed) = ns.prod := by
  induction ns with
  | nil => rfl
  | cons n ns ih => rw [List.map_cons, pointss, ih, points, List.prod_cons]

theorem states_fT : ∀ (ns js xs : List ℕ), InShape ns js → InShape ns xs →
    states (ns.map .fundamentalTransformed) (ravel ns js) (ravel ns xs) = waves ns js xs
  | [], [], [], _, _ => rfl
  | n :: ns, j :: js, x :: xs, hj, hx => by
    have h1 := ravel_lt ns js hj.2
    have h2 := ravel_lt ns xs hx.2
    have hp : 0 < ns.prod := by omega
    rw [List.map_cons, states, sizes_fT, pointss_fT]
    show state _ ((j * ns.prod + ravel ns js) / ns.prod) ((x * ns.prod + ravel ns xs) / ns.prod) *
      states _ ((j * ns.prod + ravel ns js) % ns.prod) ((x * ns.prod + ravel ns xs) % ns.prod) = _
    rw [Nat.mul_comm j, Nat.mul_comm x, Nat.mul_add_div hp, Nat.mul_add_div hp, Nat.mul_add_mod, Nat.mul_add_mod,
      Nat.div_eq_of_lt h1, Nat.div_eq_of_lt h2, Nat.mod_eq_of_lt h1, Nat.mod_eq_of_lt h2, states_fT ns js xs hj.2 hx.2]
    rfl
  | [], _ :: _, _, h, _ => by simp [InShape] at h
  | [], [], _ :: _, _, h => by simp [InShape] at h
  | _ :: _, [], _, h, _ => by simp [InShape] at h
  | _ :: _, _ :: _, [], _, h => by simp [InShape] at h

theorem valids_fT (ns : List ℕ) : Valids (ns.map .fundamentalTransformed) := by
  induction ns with
  | nil => trivial
  | cons n ns ih => exact ⟨trivial, ih⟩

theorem orthonormalPartss_fT (ns : List ℕ) : OrthonormalPartss (ns.map .fundamentalTransformed) := by
  induction ns with
  | nil => trivial
  | cons n ns ih => exact ⟨trivial, ih⟩

/-- As many orthonormal states as there are points: they are complete. -/
theorem complete_of_orthonormal {n : ℕ} {S : ℕ → ℕ → ℂ} (h : Orthonormal' n n S) {x y : ℕ} (hx : x < n) (hy : y < n) :
    ∑ j ∈ range n, S j x * (starRingEnd ℂ) (S j y) = if x = y then 1 else 0 := by
  let A : Matrix (Fin n) (Fin n) ℂ := Matrix.of fun j x => S j x
  have h1 : (A.map (starRingEnd ℂ)) * A.transpose = 1 := by
    ext j j'
    rw [Matrix.mul_apply, Matrix.one_apply]
    have := h j j.2 j' j'.2
    rw [← Fin.sum_univ_eq_sum_range (fun x => (starRingEnd ℂ) (S j x) * S j' x)] at this
    refine this.trans ?_
    simp [Fin.ext_iff]
  have h2 := mul_eq_one_comm.1 h1
  have h3 := congrFun (congrFun h2 ⟨x, hx⟩) ⟨y, hy⟩
  rw [Matrix.mul_apply, Matrix.one_apply] at h3
  rw [← Fin.sum_univ_eq_sum_range (fun j => S j x * (starRingEnd ℂ) (S j y))]
  refine Eq.trans ?_ (h3.trans ?_)
  · rfl
  · simp [Fin.ext_iff]

/-- Converting to a basis with as many states as points does not change the function. -/
theorem expand_convert (same : Basis → Basis → Bool) (hs : Sound same) (a b : Basis) (ha : Valid a) (hb : Valid b)
    (ho : OrthonormalParts a) (hob : OrthonormalParts b) (hc : Compatible a b) (hn : size b = points b) :
    ∃ f, Basis.convert same a b = some f ∧ ∀ v, ∀ x < points a, expand b (f v) x = expand a v x := by
  obtain ⟨f, hf, kf⟩ := C10_route same hs a b ha hb ho hc
  have hp := compatible_points a b hc
  have ob := state_orthonormal b hb hob
  rw [hn] at ob
  refine ⟨f, hf, fun v x hx => ?_⟩
  unfold expand
  rw [sum_congr rfl fun j hj => by rw [kf v j (mem_range.1 hj)]]
  simp only [sum_mul]
  rw [sum_comm]
  have : ∀ y ∈ range (points a), ∑ j ∈ range (size b), (starRingEnd ℂ) (state b j y) * expand a v y * state b j x =
      if x = y then expand a v y else 0 := by
    intro y hy
    have := complete_of_orthonormal ob (hp ▸ hx) (hp ▸ mem_range.1 hy)
    rw [hn, sum_congr rfl fun j _ => show (starRingEnd ℂ) (state b j y) * expand a v y * state b j x =
      (state b j x * (starRingEnd ℂ) (state b j y)) * expand a v y by ring, ← sum_mul, this]
    split <;> simp
  rw [sum_congr rfl this, sum_ite_eq, if_pos (mem_range.2 hx)]
  rfl

theorem fundamentalShape_prod : ∀ b : Basis, b.fundamentalShape.prod = points b
  | .tuple axes => by rw [Basis.fundamentalShape, (methodsList_sizes axes).2, points]
  | .explicit _ _ inner => by rw [Basis.fundamentalShape, fundamentalShape_prod inner, points]
  | .fundamental _ => (List.prod_singleton).trans (methods_sizes _).2
  | .truncated _ _ => (List.prod_singleton).trans (methods_sizes _).2
  | .transformed _ _ => (List.prod_singleton).trans (methods_sizes _).2
  | .fundamentalTransformed _ => (List.prod_singleton).trans (methods_sizes _).2
  | .evenlySpaced _ _ _ => (List.prod_singleton).trans (methods_sizes _).2
  | .evenlySpacedTransformed _ _ _ => (List.prod_singleton).trans (methods_sizes _).2

theorem points_asTransformed (b : Basis) : points b.asTransformedBasis = points b := by
  rw [Basis.asTransformedBasis, points, pointss_fT, fundamentalShape_prod]

theorem size_asTransformed (b : Basis) : size b.asTransformedBasis = points b := by
  rw [Basis.asTransformedBasis, size, sizes_fT, fundamentalShape_prod]

theorem compatible_asTransformed (b : Basis) : Compatible b b.asTransformedBasis := by
  have h := (points_asTransformed b).symm
  cases b with
  | tuple axes =>
    show Compatibles axes _
    rw [Basis.fundamentalShape]
    clear h
    induction axes with
    | nil => trivial
    | cons a axes ih =>
      refine ⟨?_, ih⟩
      have := (methods_sizes a).2
      cases a <;> exact this.symm
  | _ => exact h

theorem fundamentalShape_fT (ns : List ℕ) : (Basis.tuple (ns.map .fundamentalTransformed)).fundamentalShape = ns := by
  rw [Basis.fundamentalShape]
  induction ns with
  | nil => rfl
  | cons n ns ih => rw [List.map_cons, Basis.methodsList, List.map_cons, ih]; rfl

theorem planeWave_place {ns nx a j p X : ℕ} (hs : 0 < ns) (hx : 0 < nx)
    (h : ((ns * nx : ℕ) : ℤ) ∣ p - (ns * freq nx j + freq ns a)) :
    planeWave (ns * nx) p X = Complex.exp (2 * Real.pi * Complex.I * (freq ns a : ℂ) * X / ((ns * nx : ℕ) : ℂ)) *
      planeWave nx j (X % nx : ℕ) / (Real.sqrt ns : ℂ) := by
  have hN : 0 < ns * nx := Nat.mul_pos hs hx
  rw [planeWave_congr hN h X]
  have e1 : planeWave (ns * nx) (ns * freq nx j + freq ns a) X =
      phase (ns * nx) (freq ns a * X) * phase nx (j * (X % nx : ℕ)) / (Real.sqrt (ns * nx : ℕ) : ℂ) := by
    have : planeWave (ns * nx) (ns * freq nx j + freq ns a) X =
        phase (ns * nx) ((ns * freq nx j + freq ns a) * X) / (Real.sqrt (ns * nx : ℕ) : ℂ) := by
      unfold planeWave phase
      congr 2
      push_cast
      ring
    rw [this, show ((ns : ℤ) * freq nx j + freq ns a) * X = ns * (freq nx j * X) + freq ns a * X by ring, phase_add,
      phase_mul_scale nx ns hs, mul_comm (phase nx _)]
    congr 2
    apply phase_congr hx
    have h1 : ((nx : ℕ) : ℤ) ∣ freq nx j - j :=
      Int.ModEq.dvd (show (j : ℤ) ≡ freq nx j [ZMOD nx] from freq_emod.symm)
    have h2 : ((nx : ℕ) : ℤ) ∣ (X : ℤ) - (X % nx : ℕ) := by
      push_cast
      exact Int.dvd_self_sub_emod
    have h3 := dvd_add (h1.mul_right (X : ℤ)) (h2.mul_left (j : ℤ))
    rwa [show (freq nx j - j) * (X : ℤ) + j * ((X : ℤ) - (X % nx : ℕ)) = freq nx j * X - j * (X % nx : ℕ) by ring] at h3
  rw [e1]
  have e2 : (Real.sqrt (ns * nx : ℕ) : ℂ) = (Real.sqrt ns : ℂ) * (Real.sqrt nx : ℂ) := by
    rw [Nat.cast_mul, Real.sqrt_mul (Nat.cast_nonneg _), Complex.ofReal_mul]
  rw [e2]
  unfold planeWave phase
  rw [show ((freq ns a * (X : ℤ) : ℤ) : ℂ) = (freq ns a : ℂ) * X by push_cast; ring,
    show (((j : ℤ) * ((X % nx : ℕ) : ℤ) : ℤ) : ℂ) = ((j : ℤ) : ℂ) * ((X % nx : ℕ) : ℂ) by
      rw [Int.cast_mul, Int.cast_natCast (X % nx)]]
  rw [show 2 * (Real.pi : ℂ) * Complex.I * ((freq ns a : ℂ) * X) = 2 * Real.pi * Complex.I * (freq ns a : ℂ) * X by ring,
    show 2 * (Real.pi : ℂ) * Complex.I * (((j : ℤ) : ℂ) * ((X % nx : ℕ) : ℂ)) =
      2 * Real.pi * Complex.I * ((j : ℤ) : ℂ) * ((X % nx : ℕ) : ℂ) by ring]
  generalize Complex.exp _ = A
  generalize Complex.exp _ = B
  ring

theorem waves_place : ∀ (axes : List (ℕ × ℕ)) (a j p X : List ℕ), InShape (sampleShape axes) a →
    InShape (stateShape axes) j → InShape (unfurledShape axes) p → InShape (unfurledShape axes) X → AtMomentum axes a j p →
    waves (unfurledShape axes) p X = blochPhase axes a X * waves (stateShape axes) j (reduce axes X) /
      (Real.sqrt ((sampleShape axes).prod : ℕ) : ℂ)
  | [], [], [], [], [], _, _, _, _, _ => by simp [waves, blochPhase, unfurledShape, stateShape, sampleShape]
  | (ns, nx) :: axes, a :: as, j :: js, p :: ps, x :: xs, ha, hj, hp, hx, h => by
    have ih := waves_place axes as js ps xs ha.2 hj.2 hp.2 hx.2 h.2
    have h1 := planeWave_place (X := x) (Nat.zero_lt_of_lt ha.1) (Nat.zero_lt_of_lt hj.1) h.1
    show planeWave (ns * nx) p x * waves (unfurledShape axes) ps xs =
      (_ * blochPhase axes as xs) * (planeWave nx j (x % nx : ℕ) * waves (stateShape axes) js (reduce axes xs)) /
        (Real.sqrt ((ns * (sampleShape axes).prod : ℕ)) : ℂ)
    rw [h1, ih, show Real.sqrt ((ns * (sampleShape axes).prod : ℕ)) = Real.sqrt ns * Real.sqrt ((sampleShape axes).prod : ℕ) by
      rw [Nat.cast_mul, Real.sqrt_mul (Nat.cast_nonneg _)], Complex.ofReal_mul]
    dsimp only
    ring
  | [], [], [], [], _ :: _, _, _, _, h, _ => by simp [unfurledShape, InShape] at h
  | [], [], [], _ :: _, _, _, _, h, _, _ => by simp [unfurledShape, InShape] at h
  | [], [], _ :: _, _, _, _, h, _, _, _ => by simp [stateShape, InShape] at h
  | [], _ :: _, _, _, _, h, _, _, _, _ => by simp [sampleShape, InShape] at h
  | _ :: _, [], _, _, _, h, _, _, _, _ => by simp [sampleShape, InShape] at h
  | _ :: _, _ :: _, [], _, _, _, h, _, _, _ => by simp [stateShape, InShape] at h
  | _ :: _, _ :: _, _ :: _, [], _, _, _, h, _, _ => by simp [unfurledShape, InShape] at h
  | _ :: _, _ :: _, _ :: _, _ :: _, [], _, _, _, h, _ => by simp [unfurledShape, InShape] at h

theorem reduce_inShape : ∀ (axes : List (ℕ × ℕ)) (X : List ℕ), InShape (unfurledShape axes) X →
    InShape (stateShape axes) (reduce axes X)
  | [], [], _ => trivial
  | (ns, nx) :: axes, x :: xs, h => by
    have : 0 < nx := Nat.pos_of_ne_zero fun e => by
      have : x < ns * nx := h.1
      simp [e] at this
    exact ⟨Nat.mod_lt _ this, reduce_inShape axes xs h.2⟩
  | [], _ :: _, h => by simp [unfurledShape, InShape] at h
  | _ :: _, [], h => by simp [unfurledShape, InShape] at h

theorem unfurlMomentum_place (axes : List (ℕ × ℕ)) (data : ℕ → ℂ) (a j p : List ℕ) (ha : InShape (sampleShape axes) a)
    (hj : InShape (stateShape axes) j) (hp : InShape (unfurledShape axes) p) (h : AtMomentum axes a j p) :
    unfurlMomentum axes data (ravel (unfurledShape axes) p) =
      block (stateShape axes).prod data (ravel (sampleShape axes) a) (ravel (stateShape axes) j) /
        (Real.sqrt ((sampleShape axes).prod : ℕ) : ℂ) := by
  unfold unfurlMomentum block
  rw [unfurlRearrange_eq axes data p hp, (sources_eq axes a j p ha hj h).1, (sources_eq axes a j p ha hj h).2,
    ravel_append _ _ _ _ ha]

/-- Sums over the slots of the large cell. -/
theorem sum_unfurled (axes : List (ℕ × ℕ)) (g : ℕ → ℂ) :
    ∑ k ∈ range (unfurledShape axes).prod, g k = nsum (sampleShape axes) fun a => nsum (stateShape axes) fun j =>
      g (ravel (unfurledShape axes) (places axes a j)) := by
  rw [← nsum_ravel, nsum_places]

theorem zip_axes (axes : List (ℕ × ℕ)) : (sampleShape axes).zip (stateShape axes) = axes := by
  induction axes with
  | nil => rfl
  | cons a axes ih => rw [sampleShape, stateShape, List.map_cons, List.map_cons, List.zip_cons_cons]; exact congrArg _ ih

theorem momentum_data (same : Basis → Basis → Bool) (hs : Sound same) (axes : List (ℕ × ℕ)) (b : Basis) (hb : Valid b)
    (ho : OrthonormalParts b) (hshape : b.fundamentalShape = stateShape axes) (data : ℕ → ℂ) :
    wavepacketAxes ⟨.tuple ((sampleShape axes).map .fundamentalTransformed), b, data⟩ = some axes ∧
    ∃ c : ℕ → ℂ, convertWavepacketToMomentum same ⟨.tuple ((sampleShape axes).map .fundamentalTransformed), b, data⟩ =
        some ⟨.tuple ((sampleShape axes).map .fundamentalTransformed),
          .tuple ((stateShape axes).map .fundamentalTransformed), c⟩ ∧
      ∀ a < (sampleShape axes).prod, ∀ x < points b,
        expand (.tuple ((stateShape axes).map .fundamentalTransformed)) (block (stateShape axes).prod c a) x =
          expand b (block (size b) data a) x := by
  set L : Basis := .tuple ((sampleShape axes).map .fundamentalTransformed) with hL
  have hLt : L.asTransformedBasis = L := by rw [Basis.asTransformedBasis, hL, fundamentalShape_fT]
  have hbt : b.asTransformedBasis = .tuple ((stateShape axes).map .fundamentalTransformed) := by
    rw [Basis.asTransformedBasis, hshape]
  have vL : Valid L := valids_fT _
  have oL : OrthonormalParts L := orthonormalPartss_fT _
  have sL : size L = (sampleShape axes).prod := sizes_fT _
  have vbt : Valid b.asTransformedBasis := valids_fT _
  have obt : OrthonormalParts b.asTransformedBasis := orthonormalPartss_fT _
  obtain ⟨f, hf, kf⟩ := C10_route same hs L L.asTransformedBasis vL (by rw [hLt]; exact vL) oL (compatible_asTransformed L)
  obtain ⟨g, hg, kg⟩ := expand_convert same hs b b.asTransformedBasis hb vbt ho obt (compatible_asTransformed b)
    (by rw [size_asTransformed, points_asTransformed])
  have kf' : ∀ v, ∀ j < (sampleShape axes).prod, f v j = v j := by
    intro v j hj
    rw [kf v j (by rw [hLt, sL]; exact hj), hLt]
    exact dot_state_expand (state_orthonormal L vL oL) v (by rw [sL]; exact hj)
  have hn : b.asTransformedBasis.n = (stateShape axes).prod := by
    rw [Basis.n, (methods_sizes _).1, hbt]; exact sizes_fT _
  have hbn : b.n = size b := (methods_sizes b).1
  refine ⟨?_, flatten b.asTransformedBasis.n fun i => g fun k => f (fun l => data (l * b.n + k)) i, ?_, ?_⟩
  · unfold wavepacketAxes
    dsimp only
    rw [hL, fundamentalShape_fT, hshape, if_pos (by simp [sampleShape, stateShape]), zip_axes]
  · unfold convertWavepacketToMomentum convertWavepacket
    dsimp only
    rw [hf, hg, ← hbt]
    dsimp only [Option.bind_some, Option.map_some]
    rw [hLt]
  · intro a ha x hx
    rw [← hbt, ← kg (block (size b) data a) x hx]
    apply expand_congr
    intro j hj
    have hj' : j < (stateShape axes).prod := by
      rw [hbt] at hj
      exact hj.trans_eq (sizes_fT _)
    unfold block flatten
    rw [hn, Nat.mul_comm a, Nat.mul_add_div (by omega), Nat.mul_add_mod, Nat.div_eq_of_lt hj', Nat.mod_eq_of_lt hj',
      Nat.add_zero]
    have : (fun k => f (fun l => data (l * b.n + k)) a) = fun j => data (a * size b + j) := by
      funext k
      rw [kf' _ a ha, hbn]
    exact congrFun (congrArg g this) j

theorem unfurl_data (same : Basis → Basis → Bool) (hs : Sound same) (axes : List (ℕ × ℕ)) (b : Basis) (hb : Valid b)
    (ho : OrthonormalParts b) (hshape : b.fundamentalShape = stateShape axes) (data : ℕ → ℂ) :
    ∃ c : ℕ → ℂ, unfurlWavepacket same ⟨.tuple ((sampleShape axes).map .fundamentalTransformed), b, data⟩ =
        some ⟨.tuple ((unfurledShape axes).map .fundamentalTransformed), unfurlMomentum axes c⟩ ∧
      ∀ a < (sampleShape axes).prod, ∀ x < points b,
        expand (.tuple ((stateShape axes).map .fundamentalTransformed)) (block (stateShape axes).prod c a) x =
          expand b (block (size b) data a) x := by
  obtain ⟨h1, c, h2, h3⟩ := momentum_data same hs axes b hb ho hshape data
  refine ⟨c, ?_, h3⟩
  unfold unfurlWavepacket
  rw [h1, h2]
  rfl

/-! ## C45 -/

/-- **C45.** Unfurling a wavepacket in the momentum bases: component `j` of the Bloch state of sample `a` is found at the
slot of the momentum `ns * nk(j) + nk(a)` of the large cell, divided by the root of the number of samples. -/
theorem C45_place (same : Basis → Basis → Bool) (hs : Sound same) (axes : List (ℕ × ℕ)) (data : ℕ → ℂ) :
    ∃ u : ℕ → ℂ, unfurlWavepacket same ⟨.tuple ((sampleShape axes).map .fundamentalTransformed),
        .tuple ((stateShape axes).map .fundamentalTransformed), data⟩ =
        some ⟨.tuple ((unfurledShape axes).map .fundamentalTransformed), u⟩ ∧
      ∀ a j p : List ℕ, InShape (sampleShape axes) a → InShape (stateShape axes) j → InShape (unfurledShape axes) p →
        AtMomentum axes a j p →
        u (ravel (unfurledShape axes) p) =
          data (ravel (sampleShape axes) a * (stateShape axes).prod + ravel (stateShape axes) j) /
            (Real.sqrt ((sampleShape axes).prod : ℕ) : ℂ) := by
  obtain ⟨c, h1, h2⟩ := unfurl_data same hs axes (.tuple ((stateShape axes).map .fundamentalTransformed)) (valids_fT _)
    (orthonormalPartss_fT _) (fundamentalShape_fT _) data
  refine ⟨_, h1, fun a j p ha hj hp h => ?_⟩
  rw [unfurlMomentum_place axes c a j p ha hj hp h]
  congr 1
  have o := state_orthonormal (.tuple ((stateShape axes).map .fundamentalTransformed)) (valids_fT _) (orthonormalPartss_fT _)
  have hsz : size (.tuple ((stateShape axes).map .fundamentalTransformed)) = (stateShape axes).prod := sizes_fT _
  have hj' := ravel_lt _ _ hj
  have hj'' : ravel (stateShape axes) j < size (.tuple ((stateShape axes).map .fundamentalTransformed)) := by
    rw [hsz]; exact hj'
  rw [← dot_state_expand o (block (stateShape axes).prod c (ravel (sampleShape axes) a)) hj'',
    sum_congr rfl fun x hx => by rw [h2 _ (ravel_lt _ _ ha) x (mem_range.1 hx)], dot_state_expand o _ hj'', hsz]
  rfl

/-- **C45.** Every component has exactly one place and every place belongs to exactly one component of one sample. -/
theorem C45_unique (axes : List (ℕ × ℕ)) :
    (∀ a j, InShape (sampleShape axes) a → InShape (stateShape axes) j →
      ∃! p, InShape (unfurledShape axes) p ∧ AtMomentum axes a j p) ∧
    (∀ p, InShape (unfurledShape axes) p →
      ∃! aj : List ℕ × List ℕ, InShape (sampleShape axes) aj.1 ∧ InShape (stateShape axes) aj.2 ∧
        AtMomentum axes aj.1 aj.2 p) := by
  refine ⟨fun a j ha hj => ?_, fun p hp => ?_⟩
  · obtain ⟨h1, h2⟩ := places_spec axes a j ha hj
    exact ⟨_, ⟨h1, h2⟩, fun q hq => atMomentum_unique axes a j q _ hq.1 h1 hq.2 h2⟩
  · obtain ⟨h1, h2, h3⟩ := sources_spec axes p hp
    refine ⟨(_, _), ⟨h1, h2, h3⟩, ?_⟩
    rintro ⟨a, j⟩ ⟨ha, hj, hm⟩
    obtain ⟨e1, e2⟩ := sources_eq axes a j p ha hj hm
    exact Prod.ext e1.symm e2.symm

/-- **C45.** In position space: for a wavepacket whose states are given in any basis, the unfurled state at a point of the
large cell is the average over the samples of the Bloch state at the point below it, times its Bloch phase. -/
theorem C45_bloch (same : Basis → Basis → Bool) (hs : Sound same) (axes : List (ℕ × ℕ)) (b : Basis) (hb : Valid b)
    (ho : OrthonormalParts b) (hshape : b.fundamentalShape = stateShape axes) (data : ℕ → ℂ) :
    ∃ s : StateVector, unfurlWavepacket same ⟨.tuple ((sampleShape axes).map .fundamentalTransformed), b, data⟩ = some s ∧
      s.basis = .tuple ((unfurledShape axes).map .fundamentalTransformed) ∧
      ∀ X, InShape (unfurledShape axes) X → expand s.basis s.data (ravel (unfurledShape axes) X) =
        (∑ a ∈ range (sampleShape axes).prod, blochPhase axes (unravel (sampleShape axes) a) X *
          expand b (block (size b) data a) (ravel (stateShape axes) (reduce axes X))) / ((sampleShape axes).prod : ℕ) := by
  obtain ⟨c, h1, h2⟩ := unfurl_data same hs axes b hb ho hshape data
  refine ⟨_, h1, rfl, fun X hX => ?_⟩
  have hr := reduce_inShape axes X hX
  have hpts : points b = (stateShape axes).prod := by rw [← fundamentalShape_prod, hshape]
  show ∑ k ∈ range (sizes _), unfurlMomentum axes c k * states _ k _ = _
  rw [sizes_fT, sum_unfurled, ← nsum_ravel]
  rw [show ∀ z : ℂ, z / ((sampleShape axes).prod : ℕ) = (((sampleShape axes).prod : ℕ) : ℂ)⁻¹ * z from
    fun z => by rw [div_eq_inv_mul], ← nsum_mul_left]
  apply nsum_congr
  intro a ha
  rw [unravel_ravel _ _ ha, ← h2 _ (ravel_lt _ _ ha) _ (by rw [hpts]; exact ravel_lt _ _ hr)]
  have e : expand (.tuple ((stateShape axes).map .fundamentalTransformed))
      (block (stateShape axes).prod c (ravel (sampleShape axes) a)) (ravel (stateShape axes) (reduce axes X)) =
      nsum (stateShape axes) fun j => block (stateShape axes).prod c (ravel (sampleShape axes) a) (ravel (stateShape axes) j) *
        waves (stateShape axes) j (reduce axes X) := by
    show ∑ k ∈ range (sizes _), _ * states _ k _ = _
    rw [sizes_fT, ← nsum_ravel]
    exact nsum_congr _ _ _ fun j hj => by rw [states_fT _ _ _ hj hr]
  rw [e, ← mul_assoc, ← nsum_mul_left]
  apply nsum_congr
  intro j hj
  obtain ⟨p1, p2⟩ := places_spec axes a j ha hj
  rw [unfurlMomentum_place axes c a j _ ha hj p1 p2, states_fT _ _ _ p1 hX, waves_place axes a j _ X ha hj p1 hX p2]
  have hsq : (Real.sqrt ((sampleShape axes).prod : ℕ) : ℂ) * (Real.sqrt ((sampleShape axes).prod : ℕ) : ℂ) =
      (((sampleShape axes).prod : ℕ) : ℂ) := by
    rw [← Complex.ofReal_mul, Real.mul_self_sqrt (Nat.cast_nonneg _), Complex.ofReal_natCast]
  rw [div_mul_div_comm, hsq]
  ring

/-! ## C46 -/

/-- **C46.** The inner product of two unfurled wavepackets is the mean over the samples of the inner products of their
Bloch states. -/
theorem C46_inner (same : Basis → Basis → Bool) (hs : Sound same) (axes : List (ℕ × ℕ)) (b b' : Basis) (hb : Valid b)
    (hb' : Valid b') (ho : OrthonormalParts b) (ho' : OrthonormalParts b') (hshape : b.fundamentalShape = stateShape axes)
    (hshape' : b'.fundamentalShape = stateShape axes) (data data' : ℕ → ℂ) :
    ∃ s s' : StateVector,
      unfurlWavepacket same ⟨.tuple ((sampleShape axes).map .fundamentalTransformed), b, data⟩ = some s ∧
      unfurlWavepacket same ⟨.tuple ((sampleShape axes).map .fundamentalTransformed), b', data'⟩ = some s' ∧
      dot (unfurledShape axes).prod s.data s'.data =
        (∑ a ∈ range (sampleShape axes).prod, dot (stateShape axes).prod (expand b (block (size b) data a))
          (expand b' (block (size b') data' a))) / ((sampleShape axes).prod : ℕ) := by
  obtain ⟨c, h1, h2⟩ := unfurl_data same hs axes b hb ho hshape data
  obtain ⟨c', h1', h2'⟩ := unfurl_data same hs axes b' hb' ho' hshape' data'
  refine ⟨_, _, h1, h1', ?_⟩
  have hpts : points b = (stateShape axes).prod := by rw [← fundamentalShape_prod, hshape]
  have hpts' : points b' = (stateShape axes).prod := by rw [← fundamentalShape_prod, hshape']
  have o := state_orthonormal (.tuple ((stateShape axes).map .fundamentalTransformed)) (valids_fT _) (orthonormalPartss_fT _)
  show ∑ k ∈ range _, (starRingEnd ℂ) (unfurlMomentum axes c k) * unfurlMomentum axes c' k = _
  rw [sum_unfurled, ← nsum_ravel]
  rw [show ∀ z : ℂ, z / ((sampleShape axes).prod : ℕ) = (((sampleShape axes).prod : ℕ) : ℂ)⁻¹ * z from
    fun z => by rw [div_eq_inv_mul], ← nsum_mul_left]
  apply nsum_congr
  intro a ha
  have e : dot (stateShape axes).prod (expand b (block (size b) data (ravel (sampleShape axes) a)))
      (expand b' (block (size b') data' (ravel (sampleShape axes) a))) =
      dot (stateShape axes).prod (block (stateShape axes).prod c (ravel (sampleShape axes) a))
        (block (stateShape axes).prod c' (ravel (sampleShape axes) a)) := by
    have hsz : size (.tuple ((stateShape axes).map .fundamentalTransformed)) = (stateShape axes).prod := sizes_fT _
    have hpz : points (.tuple ((stateShape axes).map .fundamentalTransformed)) = (stateShape axes).prod := pointss_fT _
    have := dot_expand_expand o (block (stateShape axes).prod c (ravel (sampleShape axes) a))
      (block (stateShape axes).prod c' (ravel (sampleShape axes) a))
    rw [hsz, hpz] at this
    rw [← this]
    unfold dot
    exact sum_congr rfl fun x hx => by
      rw [h2 _ (ravel_lt _ _ ha) x (by rw [hpts]; exact mem_range.1 hx),
        h2' _ (ravel_lt _ _ ha) x (by rw [hpts']; exact mem_range.1 hx)]
  rw [e]
  unfold dot
  rw [← nsum_ravel, ← nsum_mul_left]
  apply nsum_congr
  intro j hj
  obtain ⟨p1, p2⟩ := places_spec axes a j ha hj
  rw [unfurlMomentum_place axes c a j _ ha hj p1 p2, unfurlMomentum_place axes c' a j _ ha hj p1 p2, map_div₀,
    Complex.conj_ofReal, div_mul_div_comm]
  have hsq : (Real.sqrt ((sampleShape axes).prod : ℕ) : ℂ) * (Real.sqrt ((sampleShape axes).prod : ℕ) : ℂ) =
      (((sampleShape axes).prod : ℕ) : ℂ) := by
    rw [← Complex.ofReal_mul, Real.mul_self_sqrt (Nat.cast_nonneg _), Complex.ofReal_natCast]
  rw [hsq]
  ring

/-- **C46.** If all Bloch states are normalised the unfurled state is normalised. -/
theorem C46_normalized (same : Basis → Basis → Bool) (hs : Sound same) (axes : List (ℕ × ℕ)) (b : Basis) (hb : Valid b)
    (ho : OrthonormalParts b) (hshape : b.fundamentalShape = stateShape axes) (h0 : 0 < (sampleShape axes).prod)
    (data : ℕ → ℂ)
    (hnorm : ∀ a < (sampleShape axes).prod, dot (size b) (block (size b) data a) (block (size b) data a) = 1) :
    ∃ s : StateVector,
      unfurlWavepacket same ⟨.tuple ((sampleShape axes).map .fundamentalTransformed), b, data⟩ = some s ∧
      dot (unfurledShape axes).prod s.data s.data = 1 := by
  obtain ⟨s, s', h1, h2, h3⟩ := C46_inner same hs axes b b hb hb ho ho hshape hshape data data
  rw [h1] at h2
  cases h2
  refine ⟨s, h1, h3.trans ?_⟩
  have hpts : points b = (stateShape axes).prod := by rw [← fundamentalShape_prod, hshape]
  have : ∀ a ∈ range (sampleShape axes).prod, dot (stateShape axes).prod (expand b (block (size b) data a))
      (expand b (block (size b) data a)) = 1 := by
    intro a ha
    rw [← hpts, dot_expand_expand (state_orthonormal b hb ho), hnorm a (mem_range.1 ha)]
  rw [sum_congr rfl this, sum_const, card_range, nsmul_eq_mul, mul_one]
  exact div_self (by exact_mod_cast h0.ne')

-- two axes: three samples of four states, two samples of a truncated momentum axis with 3 of 5 states
example : (Basis.tuple [.fundamental 4, .transformed 3 5]).fundamentalShape = stateShape [(3, 4), (2, 5)] := rfl

example : Valid (.tuple [.fundamental 4, .transformed 3 5]) := ⟨trivial, by simp [Valid], trivial⟩

-- sample 2 of 3 (label -1), component 3 of 4 (label -1): momentum 3 * -1 + -1 = -4, slot 8 of 12
example : AtMomentum [(3, 4)] [2] [3] [8] := by
  refine ⟨?_, trivial⟩
  simp [freq]

end Verif
