import Verif.Model.StateConversion
import Verif.Props.C140_TemperatureGaussian
import Verif.Props.C111_BlochOperator

/-!
C147: states, duals of states, wavepackets and potentials in the bases of the points and of the plane waves.
-/

set_option autoImplicit false

namespace Verif

open Finset Spec

/-- The overlap of a plane wave on a grid of the given shape, with one wavenumber for each axis, with a function of the points. -/
noncomputable def Spec.waveOverlap (shape js : List ℕ) (φ : ℕ → ℂ) : ℂ :=
  ∑ x ∈ range shape.prod, (starRingEnd ℂ) (waves shape js (unravel shape x)) * φ x

theorem orthonormalParts_position (b : Basis) : OrthonormalParts b.asPositionBasis := orthonormalParts_fundamental _
theorem valid_position (b : Basis) : Valid b.asPositionBasis := (fund_facts b.fundamentalShape).2.2.2
theorem points_asPosition (b : Basis) : points b.asPositionBasis = points b := by
  rw [Basis.asPositionBasis, (fund_facts _).2.1, fundamentalShape_prod]
theorem orthonormalParts_transformed (b : Basis) : OrthonormalParts b.asTransformedBasis := orthonormalPartss_fT _
theorem valid_transformed (b : Basis) : Valid b.asTransformedBasis := valids_fT _
theorem fundamentalShape_asTransformed (b : Basis) : b.asTransformedBasis.fundamentalShape = b.fundamentalShape := fundamentalShape_fT _
theorem fundamentalShape_asPosition (b : Basis) : b.asPositionBasis.fundamentalShape = b.fundamentalShape := by
  show (Basis.tuple (b.fundamentalShape.map .fundamental)).fundamentalShape = _
  rw [Basis.fundamentalShape]
  induction b.fundamentalShape with
  | nil => rfl
  | cons n ns ih => rw [List.map_cons, Basis.methodsList, List.map_cons, ih]; rfl

/-- In the basis of the points a vector is the function itself. -/
theorem expand_asPosition (b : Basis) (v : ℕ → ℂ) {x : ℕ} (hx : x < points b) : expand b.asPositionBasis v x = v x := by
  obtain ⟨h1, _, h3, _⟩ := fund_facts b.fundamentalShape
  rw [fundamentalShape_prod] at h1 h3
  unfold expand
  rw [Basis.asPositionBasis, h1, sum_eq_single x]
  · rw [h3 x hx x hx, if_pos rfl, mul_one]
  · intro y hy hne; rw [h3 y (mem_range.1 hy) x hx, if_neg hne, mul_zero]
  · intro h; exact absurd (mem_range.2 hx) h

/-- The overlaps with the states of the momentum basis. -/
theorem overlap_transformed (b : Basis) (φ : ℕ → ℂ) {js : List ℕ} (hj : InShape b.fundamentalShape js) :
    ∑ x ∈ range (points b), (starRingEnd ℂ) (state b.asTransformedBasis (ravel b.fundamentalShape js) x) * φ x =
      waveOverlap b.fundamentalShape js φ := by
  unfold waveOverlap
  rw [fundamentalShape_prod]
  refine sum_congr rfl fun x hx => ?_
  have hx' : x < b.fundamentalShape.prod := by rw [fundamentalShape_prod]; exact mem_range.1 hx
  have := states_fT b.fundamentalShape js (unravel b.fundamentalShape x) hj (unravel_inShape _ _ hx')
  rw [ravel_unravel _ _ hx'] at this
  rw [← this]
  rfl

/-- Converting a state to a complete basis and back, and its norm. -/
theorem complete_conversion (same : Basis → Basis → Bool) (hs : Sound same) (b t : Basis) (hb : Valid b) (ho : OrthonormalParts b) (ht : Valid t)
    (hot : OrthonormalParts t) (hc : Compatible b t) (hn : size t = points t) :
    ∃ f g, Basis.convert same b t = some f ∧ Basis.convert same t b = some g ∧ (∀ v, ∀ x < points b, expand t (f v) x = expand b v x) ∧
      (∀ v w, dot (size t) (f v) (f w) = dot (size b) v w) ∧ ∀ v, ∀ i < size b, g (f v) i = v i := by
  have hp := compatible_points b t hc
  obtain ⟨f, hf, kf⟩ := expand_convert same hs b t hb ht ho hot hc hn
  obtain ⟨g, hg, kg⟩ := C10_route same hs t b ht hb hot (compatible_symm _ _ hc)
  refine ⟨f, g, hf, hg, kf, fun v w => ?_, fun v i hi => ?_⟩
  · rw [← dot_expand_expand (state_orthonormal t ht hot), ← dot_expand_expand (state_orthonormal b hb ho), ← hp]
    exact sum_congr rfl fun x hx => by rw [kf v x (mem_range.1 hx), kf w x (mem_range.1 hx)]
  · rw [kg _ i hi, ← hp, sum_congr rfl fun x hx => by rw [kf v x (mem_range.1 hx)]]
    exact dot_state_expand (state_orthonormal b hb ho) v hi

theorem normalization_dot (v : StateVector) : ((calculateNormalization v : ℝ) : ℂ) = dot (size v.basis) v.data v.data := by
  unfold calculateNormalization dot
  rw [Basis.n_eq, Complex.ofReal_sum]
  refine sum_congr rfl fun i _ => ?_
  rw [← Complex.normSq_eq_norm_sq, Complex.normSq_eq_conj_mul_self]

/-- **C147.** The position basis: the entries are the values of the function at the points, the norm is kept, and converting back gives the state. -/
theorem C147_position (same : Basis → Basis → Bool) (hs : Sound same) (v : StateVector) (hb : Valid v.basis) (ho : OrthonormalParts v.basis) :
    ∃ p r, stateToPosition same v = some p ∧ size p.basis = points v.basis ∧ p.basis.fundamentalShape = v.basis.fundamentalShape ∧
      (∀ x < points v.basis, p.data x = expand v.basis v.data x) ∧ calculateNormalization p = calculateNormalization v ∧
      convertStateVector same p v.basis = some r ∧ ∀ i < size v.basis, r.data i = v.data i := by
  obtain ⟨f, g, hf, hg, k1, k2, k3⟩ := complete_conversion same hs v.basis v.basis.asPositionBasis hb ho (valid_position _) (orthonormalParts_position _)
    (compatible_asPosition _) (by rw [points_position, points_asPosition])
  refine ⟨⟨v.basis.asPositionBasis, f v.data⟩, ⟨v.basis, g (f v.data)⟩, by rw [stateToPosition, convertStateVector, hf, Option.map_some], points_position _,
    fundamentalShape_asPosition _, fun x hx => ?_, ?_, by rw [convertStateVector]; show (Basis.convert same v.basis.asPositionBasis _).map _ = _; rw [hg, Option.map_some], k3 _⟩
  · rw [← k1 v.data x hx, expand_asPosition _ _ hx]
  · have := k2 v.data v.data
    rw [← normalization_dot v, ← normalization_dot ⟨v.basis.asPositionBasis, f v.data⟩] at this
    exact_mod_cast this

/-- **C147.** The momentum basis: the entries are the overlaps with the plane waves of the grid, one wavenumber for each axis; the function, and so the norm, is
kept, and converting back gives the state. -/
theorem C147_momentum (same : Basis → Basis → Bool) (hs : Sound same) (v : StateVector) (hb : Valid v.basis) (ho : OrthonormalParts v.basis) :
    ∃ q r, stateToMomentum same v = some q ∧ size q.basis = points v.basis ∧ q.basis.fundamentalShape = v.basis.fundamentalShape ∧
      (∀ js, InShape v.basis.fundamentalShape js →
        q.data (ravel v.basis.fundamentalShape js) = waveOverlap v.basis.fundamentalShape js (expand v.basis v.data)) ∧
      (∀ x < points v.basis, expand q.basis q.data x = expand v.basis v.data x) ∧ calculateNormalization q = calculateNormalization v ∧
      convertStateVector same q v.basis = some r ∧ ∀ i < size v.basis, r.data i = v.data i := by
  have hsz : size v.basis.asTransformedBasis = points v.basis := size_asTransformed _
  obtain ⟨f, g, hf, hg, k1, k2, k3⟩ := complete_conversion same hs v.basis v.basis.asTransformedBasis hb ho (valid_transformed _)
    (orthonormalParts_transformed _) (compatible_asTransformed _) (by rw [hsz, points_asTransformed])
  obtain ⟨f', hf', kf⟩ := C10_route same hs v.basis v.basis.asTransformedBasis hb (valid_transformed _) ho (compatible_asTransformed _)
  obtain rfl : f = f' := by rw [hf] at hf'; exact Option.some.inj hf'
  refine ⟨⟨v.basis.asTransformedBasis, f v.data⟩, ⟨v.basis, g (f v.data)⟩, by rw [stateToMomentum, convertStateVector, hf, Option.map_some], hsz,
    fundamentalShape_asTransformed _, fun js hj => ?_, k1 _, ?_,
    by rw [convertStateVector]; show (Basis.convert same v.basis.asTransformedBasis _).map _ = _; rw [hg, Option.map_some], k3 _⟩
  · rw [← overlap_transformed _ _ hj]
    exact kf v.data _ (by rw [hsz, ← fundamentalShape_prod]; exact ravel_lt _ _ hj)
  · have := k2 v.data v.data
    rw [← normalization_dot v, ← normalization_dot ⟨v.basis.asTransformedBasis, f v.data⟩] at this
    exact_mod_cast this

/-- **C147.** Either way: going to the momentum basis by way of the position basis, or to the position basis by way of the momentum basis, gives the entries of
the direct conversions. -/
theorem C147_routes (same : Basis → Basis → Bool) (hs : Sound same) (v : StateVector) (hb : Valid v.basis) (ho : OrthonormalParts v.basis) :
    ∃ p q pq qp, stateToPosition same v = some p ∧ stateToMomentum same v = some q ∧ stateToMomentum same p = some pq ∧
      stateToPosition same q = some qp ∧ (∀ j < points v.basis, pq.data j = q.data j) ∧ ∀ x < points v.basis, qp.data x = p.data x := by
  obtain ⟨p, _, hp, sp, shp, kp, _⟩ := C147_position same hs v hb ho
  obtain ⟨q, _, hq, sq, shq, kq, eq, _⟩ := C147_momentum same hs v hb ho
  have bp : p.basis = v.basis.asPositionBasis := by
    rw [stateToPosition, convertStateVector] at hp
    obtain ⟨_, _, rfl⟩ := Option.map_eq_some_iff.1 hp
    rfl
  have bq : q.basis = v.basis.asTransformedBasis := by
    rw [stateToMomentum, convertStateVector] at hq
    obtain ⟨_, _, rfl⟩ := Option.map_eq_some_iff.1 hq
    rfl
  obtain ⟨pq, _, hpq, _, _, kpq, _⟩ := C147_momentum same hs p (bp ▸ valid_position _) (bp ▸ orthonormalParts_position _)
  obtain ⟨qp, _, hqp, _, _, kqp, _⟩ := C147_position same hs q (bq ▸ valid_transformed _) (bq ▸ orthonormalParts_transformed _)
  refine ⟨p, q, pq, qp, hp, hq, hpq, hqp, fun j hj => ?_, fun x hx => ?_⟩
  · rw [← fundamentalShape_prod] at hj
    have hjs := unravel_inShape _ _ hj
    have h1 := kpq (unravel v.basis.fundamentalShape j) (by rw [shp]; exact hjs)
    have h2 := kq _ hjs
    rw [shp, ravel_unravel _ _ hj] at h1
    rw [ravel_unravel _ _ hj] at h2
    rw [h1, h2]
    unfold waveOverlap
    refine sum_congr rfl fun x hx => ?_
    have hx' : x < points v.basis := by rw [← fundamentalShape_prod]; exact mem_range.1 hx
    rw [← kp x hx', bp, expand_asPosition _ _ hx']
  · rw [kqp x (by rw [bq, points_asTransformed]; exact hx), eq x hx, kp x hx]

/-- **C147.** Duals: the entries of the dual of a state, in either basis, are the conjugates of the entries of the state, and the pairing of any dual
state with any state is kept. -/
theorem C147_dual (same : Basis → Basis → Bool) (hs : Sound same) (v : StateVector) (hb : Valid v.basis) (ho : OrthonormalParts v.basis) (u : ℕ → ℂ) :
    ∃ p q dp dq up uq, stateToPosition same v = some p ∧ stateToMomentum same v = some q ∧
      dualToPosition same (asDualVector v) = some dp ∧ dualToMomentum same (asDualVector v) = some dq ∧
      dualToPosition same ⟨v.basis, u⟩ = some up ∧ dualToMomentum same ⟨v.basis, u⟩ = some uq ∧
      (∀ x, dp.data x = (starRingEnd ℂ) (p.data x)) ∧ (∀ j, dq.data j = (starRingEnd ℂ) (q.data j)) ∧
      calculateInnerProduct p up = calculateInnerProduct v ⟨v.basis, u⟩ ∧ calculateInnerProduct q uq = calculateInnerProduct v ⟨v.basis, u⟩ := by
  have hsz : size v.basis.asTransformedBasis = points v.basis := size_asTransformed _
  obtain ⟨f, _, hf, _, _, kf, _⟩ := complete_conversion same hs v.basis v.basis.asPositionBasis hb ho (valid_position _) (orthonormalParts_position _)
    (compatible_asPosition _) (by rw [points_position, points_asPosition])
  obtain ⟨g, _, hg, _, _, kg, _⟩ := complete_conversion same hs v.basis v.basis.asTransformedBasis hb ho (valid_transformed _)
    (orthonormalParts_transformed _) (compatible_asTransformed _) (by rw [hsz, points_asTransformed])
  refine ⟨⟨v.basis.asPositionBasis, f v.data⟩, ⟨v.basis.asTransformedBasis, g v.data⟩, ⟨v.basis.asPositionBasis, conjVec (f (conjVec (conjVec v.data)))⟩, ⟨v.basis.asTransformedBasis, conjVec (g (conjVec (conjVec v.data)))⟩,
    ⟨v.basis.asPositionBasis, conjVec (f (conjVec u))⟩, ⟨v.basis.asTransformedBasis, conjVec (g (conjVec u))⟩, ?_, ?_, ?_, ?_, ?_, ?_, ?_, ?_, ?_, ?_⟩
  · rw [stateToPosition, convertStateVector, hf, Option.map_some]
  · rw [stateToMomentum, convertStateVector, hg, Option.map_some]
  · show ((Basis.convert same v.basis v.basis.asPositionBasis).map _).map _ = _; rw [hf]; rfl
  · show ((Basis.convert same v.basis v.basis.asTransformedBasis).map _).map _ = _; rw [hg]; rfl
  · show ((Basis.convert same v.basis v.basis.asPositionBasis).map _).map _ = _; rw [hf]; rfl
  · show ((Basis.convert same v.basis v.basis.asTransformedBasis).map _).map _ = _; rw [hg]; rfl
  · intro x; rw [conjVec_conjVec]; rfl
  · intro x; rw [conjVec_conjVec]; rfl
  · have := kf (conjVec u) v.data
    simp only [calculateInnerProduct, if_true, Option.some.injEq, Basis.n_eq]
    refine this.trans ?_
    exact sum_congr rfl fun i _ => by rw [conjVec, Complex.conj_conj]
  · have := kg (conjVec u) v.data
    simp only [calculateInnerProduct, if_true, Option.some.injEq, Basis.n_eq]
    refine this.trans ?_
    exact sum_congr rfl fun i _ => by rw [conjVec, Complex.conj_conj]

/-- The converted wavepacket: one function for each sample. -/
theorem wavepacket_conversion (same : Basis → Basis → Bool) (hs : Sound same) (w : StateVectorList) (t : Basis) (f : (ℕ → ℂ) → ℕ → ℂ)
    (hf : Basis.convert same w.basis t = some f) (kf : ∀ v v' : ℕ → ℂ, (∀ k < size w.basis, v k = v' k) → ∀ j < size t, f v j = f v' j)
    (hl : Valid w.listBasis) (hol : OrthonormalParts w.listBasis) :
    ∃ out, convertWavepacket same w w.listBasis t = some out ∧ out.listBasis = w.listBasis ∧ out.basis = t ∧
      ∀ i < size w.listBasis, ∀ j < size t, out.data (i * size t + j) = f (block (size w.basis) w.data i) j := by
  obtain ⟨l, hl', kl⟩ := convert_identity same hs w.listBasis hl hol
  refine ⟨⟨w.listBasis, t, flatten t.n fun i => f fun k => l (fun l => w.data (l * w.basis.n + k)) i⟩,
    by rw [convertWavepacket, hl', Option.bind_some, hf, Option.map_some], rfl, rfl, fun i hi j hj => ?_⟩
  dsimp only
  rw [Basis.n_eq, flatten_entry _ _ hj]
  refine kf _ _ (fun k hk => ?_) j hj
  rw [kl _ i hi, Basis.n_eq]
  rfl

/-- **C147.** Wavepackets: the list of samples is kept; row `i` holds the values at the points of the state of sample `i`, respectively its overlaps with the
plane waves. -/
theorem C147_wavepacket (same : Basis → Basis → Bool) (hs : Sound same) (w : StateVectorList) (hb : Valid w.basis) (ho : OrthonormalParts w.basis)
    (hl : Valid w.listBasis) (hol : OrthonormalParts w.listBasis) :
    ∃ p q, wavepacketToPosition same w = some p ∧ wavepacketToMomentum same w = some q ∧ p.listBasis = w.listBasis ∧ q.listBasis = w.listBasis ∧
      size p.basis = points w.basis ∧ size q.basis = points w.basis ∧
      (∀ i < size w.listBasis, ∀ x < points w.basis,
        p.data (i * points w.basis + x) = expand w.basis (fun k => w.data (i * size w.basis + k)) x) ∧
      ∀ i < size w.listBasis, ∀ js, InShape w.basis.fundamentalShape js →
        q.data (i * points w.basis + ravel w.basis.fundamentalShape js) =
          waveOverlap w.basis.fundamentalShape js (expand w.basis fun k => w.data (i * size w.basis + k)) := by
  have hsz : size w.basis.asTransformedBasis = points w.basis := size_asTransformed _
  have hsp : size w.basis.asPositionBasis = points w.basis := points_position _
  obtain ⟨f, hf, kf⟩ := C10_route same hs w.basis w.basis.asPositionBasis hb (valid_position _) ho (compatible_asPosition _)
  obtain ⟨g, hg, kg⟩ := C10_route same hs w.basis w.basis.asTransformedBasis hb (valid_transformed _) ho (compatible_asTransformed _)
  obtain ⟨p, hp, p1, p2, p3⟩ := wavepacket_conversion same hs w _ f hf (fun v v' h j hj => by
    rw [kf v j hj, kf v' j hj]; exact sum_congr rfl fun x _ => by rw [expand_congr w.basis h x]) hl hol
  obtain ⟨q, hq, q1, q2, q3⟩ := wavepacket_conversion same hs w _ g hg (fun v v' h j hj => by
    rw [kg v j hj, kg v' j hj]; exact sum_congr rfl fun x _ => by rw [expand_congr w.basis h x]) hl hol
  obtain ⟨f', hf', ke⟩ := expand_convert same hs w.basis w.basis.asPositionBasis hb (valid_position _) ho (orthonormalParts_position _)
    (compatible_asPosition _) (by rw [hsp, points_asPosition])
  obtain rfl : f = f' := by rw [hf] at hf'; exact Option.some.inj hf'
  rw [hsp] at p3
  rw [hsz] at q3
  refine ⟨p, q, hp, hq, p1, q1, by rw [p2, hsp], by rw [q2, hsz], fun i hi x hx => ?_, fun i hi js hj => ?_⟩
  · have := ke (block (size w.basis) w.data i) x hx
    rw [expand_asPosition _ _ hx] at this
    rw [p3 i hi x hx, this]
    rfl
  · have hlt : ravel w.basis.fundamentalShape js < points w.basis := by rw [← fundamentalShape_prod]; exact ravel_lt _ _ hj
    rw [q3 i hi _ hlt, kg _ _ (by rw [hsz]; exact hlt), overlap_transformed _ _ hj]
    rfl

/-- **C147.** Potentials: the entries are the values of the potential at the points; a potential which is given at the points is kept. -/
theorem C147_potential (same : Basis → Basis → Bool) (hs : Sound same) (axes : List Basis) (hb : Valids axes) (ho : OrthonormalPartss axes) (V : ℕ → ℂ) :
    ∃ W, potentialToPosition same axes V = some W ∧ (∀ x < points (.tuple axes), W x = expand (.tuple axes) V x) ∧
      ∀ ns : List ℕ, axes = ns.map Basis.fundamental → ∀ x < ns.prod, W x = V x := by
  have hpos : Basis.tuple (positionAxes axes) = (Basis.tuple axes).asPositionBasis := by
    have : ∀ axes : List Basis, positionAxes axes = ((Basis.methodsList axes).map Methods.fn).map Basis.fundamental := by
      intro axes
      induction axes with
      | nil => rfl
      | cons a axes ih =>
        rw [Basis.methodsList, List.map_cons, List.map_cons, ← ih]
        rfl
    rw [this, Basis.asPositionBasis, Basis.fundamentalShape]
  obtain ⟨f, hf, ke⟩ := expand_convert same hs (.tuple axes) (Basis.tuple axes).asPositionBasis hb (valid_position _) ho (orthonormalParts_position _)
    (compatible_asPosition _) (by rw [points_position, points_asPosition])
  have key : ∀ x < points (.tuple axes), f V x = expand (.tuple axes) V x := fun x hx => by
    rw [← ke V x hx, expand_asPosition _ _ hx]
  refine ⟨f V, by rw [potentialToPosition, convertPotential, hpos, hf, Option.map_some], key, ?_⟩
  rintro ns rfl x hx
  obtain ⟨h1, h2, h3, _⟩ := fund_facts ns
  rw [key x (by rw [h2]; exact hx)]
  unfold expand
  rw [h1, sum_eq_single x]
  · rw [h3 x hx x hx, if_pos rfl, mul_one]
  · intro y hy hne; rw [h3 y (mem_range.1 hy) x hx, if_neg hne, mul_zero]
  · intro h; exact absurd (mem_range.2 hx) h

/-- A state of a truncated momentum basis in two dimensions, the basis itself with an explicit part, a wavepacket with samples and a potential given on momenta
meet the hypotheses. -/
example (same : Basis → Basis → Bool) (hs : Sound same) (v w V : ℕ → ℂ) :
    (∃ p, stateToPosition same ⟨.tuple [.transformed 3 5, .fundamental 2], v⟩ = some p ∧
      ∀ x < 10, p.data x = ∑ j ∈ range 6, v j * state (.tuple [.transformed 3 5, .fundamental 2]) j x) ∧
    (∃ p, wavepacketToPosition same ⟨.tuple [.fundamentalTransformed 2, .fundamentalTransformed 1], .tuple [.transformed 3 5, .fundamental 2], w⟩ = some p ∧
      p.listBasis = .tuple [.fundamentalTransformed 2, .fundamentalTransformed 1] ∧ size p.basis = 10) ∧
    ∃ W, potentialToPosition same [.fundamentalTransformed 4, .fundamental 3] V = some W ∧
      ∀ x < 12, W x = expand (.tuple [.fundamentalTransformed 4, .fundamental 3]) V x := by
  have hv : Valid (.tuple [.transformed 3 5, .fundamental 2]) := ⟨by show (3 : ℕ) ≤ 5; norm_num, trivial, trivial⟩
  have ho : OrthonormalParts (.tuple [.transformed 3 5, .fundamental 2]) := ⟨trivial, trivial, trivial⟩
  obtain ⟨p, _, hp, _, _, kp, _⟩ := C147_position same hs ⟨.tuple [.transformed 3 5, .fundamental 2], v⟩ hv ho
  obtain ⟨w', _, hw, _, kw, _, kw', _⟩ := C147_wavepacket same hs
    ⟨.tuple [.fundamentalTransformed 2, .fundamentalTransformed 1], .tuple [.transformed 3 5, .fundamental 2], w⟩ hv ho ⟨trivial, trivial, trivial⟩
    ⟨trivial, trivial, trivial⟩
  obtain ⟨W, hW, kW, _⟩ := C147_potential same hs [.fundamentalTransformed 4, .fundamental 3] ⟨trivial, trivial, trivial⟩ ⟨trivial, trivial, trivial⟩ V
  exact ⟨⟨p, hp, kp⟩, ⟨w', hw, kw, kw'⟩, W, hW, kW⟩

end Verif
