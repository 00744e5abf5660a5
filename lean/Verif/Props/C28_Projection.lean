import Verif.Lemmas.Vnorm
import Mathlib.LinearAlgebra.LinearIndependent.Lemmas

/-!
# C28: projection of points on the plane of chosen axes
-/

namespace Verif

open Matrix Submodule

variable {d : ℕ}

/-- The span of a list of vectors. -/
def lspan (vs : List (Fin d → ℝ)) : Submodule ℝ (Fin d → ℝ) := span ℝ {w | w ∈ vs}

theorem lspan_dot_zero {es : List (Fin d → ℝ)} {e : Fin d → ℝ} (h : ∀ f ∈ es, e ⬝ᵥ f = 0)
    {w : Fin d → ℝ} (hw : w ∈ lspan es) : e ⬝ᵥ w = 0 := by
  induction hw using Submodule.span_induction with
  | mem x hx => exact h x hx
  | zero => simp
  | add x y _ _ hx hy => rw [dotProduct_add, hx, hy, add_zero]
  | smul a x _ hx => rw [dotProduct_smul, hx, smul_zero]

/-- Orthonormal list. -/
def OrthoList : List (Fin d → ℝ) → Prop
  | [] => True
  | e :: es => e ⬝ᵥ e = 1 ∧ (∀ f ∈ es, e ⬝ᵥ f = 0) ∧ OrthoList es

theorem subtract_spec : ∀ (es : List (Fin d → ℝ)), OrthoList es → ∀ v,
    v - subtractProjections es v ∈ lspan es ∧ ∀ e ∈ es, e ⬝ᵥ subtractProjections es v = 0 := by
  intro es
  induction es with
  | nil => intro _ v; simp [subtractProjections, lspan]
  | cons e es ih =>
    intro h v
    obtain ⟨h1, h2, h3⟩ := h
    have e1 : subtractProjections (e :: es) v = subtractProjections es (v - (e ⬝ᵥ v) • e) := by
      simp only [subtractProjections, List.foldl_cons]
      congr 1
      funext c; simp [mul_comm]
    rw [e1]
    set w := v - (e ⬝ᵥ v) • e with hw
    obtain ⟨hs, ho⟩ := ih h3 w
    have hsub : lspan es ≤ lspan (e :: es) := span_mono (fun x hx => List.mem_cons_of_mem _ hx)
    constructor
    · have : v - subtractProjections es w = (e ⬝ᵥ v) • e + (w - subtractProjections es w) := by
        rw [hw]; abel
      rw [this]
      exact add_mem (smul_mem _ _ (subset_span (by simp))) (hsub hs)
    · intro f hf
      rcases List.mem_cons.1 hf with rfl | hf
      · have h0 := lspan_dot_zero h2 hs
        rw [dotProduct_sub] at h0
        have : f ⬝ᵥ w = 0 := by
          rw [hw, dotProduct_sub, dotProduct_smul, h1]; simp
        linarith
      · exact ho f hf

theorem ortho_append {es : List (Fin d → ℝ)} {f : Fin d → ℝ} (h : OrthoList es) (hf : f ⬝ᵥ f = 1)
    (h0 : ∀ e ∈ es, e ⬝ᵥ f = 0) : OrthoList (es ++ [f]) := by
  induction es with
  | nil => exact ⟨hf, by simp, trivial⟩
  | cons e es ih =>
    obtain ⟨h1, h2, h3⟩ := h
    refine ⟨h1, ?_, ih h3 (fun e he => h0 e (List.mem_cons_of_mem _ he))⟩
    intro g hg
    rcases List.mem_append.1 hg with hg | hg
    · exact h2 g hg
    · simp at hg; subst hg; exact h0 e (by simp)

theorem projectedAxes_append (vs : List (Fin d → ℝ)) (v : Fin d → ℝ) :
    projectedAxes (vs ++ [v]) = projectedAxes vs ++
      [(vnorm (subtractProjections (projectedAxes vs) v))⁻¹ • subtractProjections (projectedAxes vs) v] := by
  simp only [projectedAxes, List.foldl_append, List.foldl_cons, List.foldl_nil]
  congr 2
  funext c; simp [div_eq_inv_mul]

theorem lspan_append_le {vs : List (Fin d → ℝ)} {v : Fin d → ℝ} {S : Submodule ℝ (Fin d → ℝ)}
    (h1 : lspan vs ≤ S) (h2 : v ∈ S) : lspan (vs ++ [v]) ≤ S := by
  apply span_le.2
  intro w hw
  rcases List.mem_append.1 hw with hw | hw
  · exact h1 (subset_span hw)
  · simp at hw; subst hw; exact h2

/-- Main induction. -/
theorem projectedAxes_spec (vs : List (Fin d → ℝ))
    (hind : ∀ i (h : i < vs.length), vs[i] ∉ lspan (vs.take i)) :
    OrthoList (projectedAxes vs) ∧ (projectedAxes vs).length = vs.length ∧
      lspan (projectedAxes vs) = lspan vs ∧
      ∀ i (h : i < vs.length) (h' : i < (projectedAxes vs).length), 0 < (projectedAxes vs)[i] ⬝ᵥ vs[i] ∧
        ∀ j (hj : j < (projectedAxes vs).length), i < j → (projectedAxes vs)[j] ⬝ᵥ vs[i] = 0 := by
  induction vs using List.reverseRecOn with
  | nil => simp [projectedAxes, OrthoList]
  | append_singleton vs v ih =>
    have hind' : ∀ i (h : i < vs.length), vs[i] ∉ lspan (vs.take i) := by
      intro i h
      have := hind i (by simp; omega)
      rwa [List.getElem_append_left h, List.take_append_of_le_length (by omega)] at this
    have hv : v ∉ lspan vs := by
      have := hind vs.length (by simp)
      simpa using this
    obtain ⟨ho, hl, hsp, hpos⟩ := ih hind'
    set es := projectedAxes vs with hes
    set p := subtractProjections es v with hp
    obtain ⟨hs, hz⟩ := subtract_spec es ho v
    rw [← hp] at hs hz
    have hpne : p ≠ 0 := by
      intro h0
      rw [h0, sub_zero, hsp] at hs
      exact hv hs
    have hnp := vnorm_pos hpne
    have hsq := vnorm_sq p
    rw [projectedAxes_append, ← hes, ← hp]
    have hpd : p ⬝ᵥ v = p ⬝ᵥ p := by
      have : p ⬝ᵥ (v - p) = 0 := lspan_dot_zero (es := es) (fun f hf => by rw [dotProduct_comm]; exact hz f hf) hs
      rw [dotProduct_sub] at this; linarith
    refine ⟨?_, by simp [hl], ?_, ?_⟩
    · apply ortho_append ho
      · rw [smul_dotProduct, dotProduct_smul, ← hsq]; simp only [smul_eq_mul]; field_simp
      · intro e he; rw [dotProduct_smul, hz e he, smul_zero]
    · apply le_antisymm
      · apply lspan_append_le
        · rw [hsp]; exact span_mono (fun x hx => List.mem_append_left _ hx)
        · apply smul_mem
          have hv' : v ∈ lspan (vs ++ [v]) := subset_span (by simp)
          have hle : lspan es ≤ lspan (vs ++ [v]) := by
            rw [hsp]; exact span_mono (fun x hx => List.mem_append_left _ hx)
          have := sub_mem hv' (hle hs)
          simpa using this
      · apply lspan_append_le
        · rw [← hsp]; exact span_mono (fun x hx => List.mem_append_left _ hx)
        · have hle : lspan es ≤ lspan (es ++ [(vnorm p)⁻¹ • p]) :=
            span_mono (fun x hx => List.mem_append_left _ hx)
          have hp' : p ∈ lspan (es ++ [(vnorm p)⁻¹ • p]) := by
            have : (vnorm p)⁻¹ • p ∈ lspan (es ++ [(vnorm p)⁻¹ • p]) := subset_span (by simp)
            have := smul_mem _ (vnorm p) this
            rwa [smul_smul, mul_inv_cancel₀ hnp.ne', one_smul] at this
          have := add_mem (hle hs) hp'
          simpa using this
    · intro i h h'
      have hzero : ∀ w ∈ lspan vs, ((vnorm p)⁻¹ • p) ⬝ᵥ w = 0 := by
        intro w hw
        rw [smul_dotProduct, lspan_dot_zero (es := es) (fun f hf => by rw [dotProduct_comm]; exact hz f hf)
          (by rw [hsp]; exact hw), smul_zero]
      simp only [List.length_append, List.length_cons, List.length_nil] at h h'
      rcases Nat.lt_or_ge i vs.length with hi | hi
      · obtain ⟨q1, q2⟩ := hpos i hi (by omega)
        simp only [List.getElem_append_left hi, List.getElem_append_left (show i < es.length by omega)]
        refine ⟨q1, ?_⟩
        intro j hj hij
        simp only [List.length_append, List.length_cons, List.length_nil] at hj
        rcases Nat.lt_or_ge j es.length with hj2 | hj2
        · rw [List.getElem_append_left hj2]; exact q2 j hj2 hij
        · have : j = es.length := by omega
          subst this
          simp only [List.getElem_concat_length]
          exact hzero _ (subset_span (List.getElem_mem hi))
      · have : i = vs.length := by omega
        subst this
        constructor
        · simp only [List.getElem_concat_length]
          have : (es ++ [(vnorm p)⁻¹ • p])[vs.length]'(by simp; omega) = (vnorm p)⁻¹ • p := by
            rw [List.getElem_append_right (by omega)]; simp
          rw [this, smul_dotProduct, hpd, ← hsq]
          simp only [smul_eq_mul]; positivity
        · intro j hj hij
          simp only [List.length_append, List.length_cons, List.length_nil] at hj
          omega

theorem parseval_list : ∀ (es : List (Fin d → ℝ)), OrthoList es → ∀ p ∈ lspan es, ∀ q,
    (es.map fun e => (e ⬝ᵥ p) * (e ⬝ᵥ q)).sum = p ⬝ᵥ q := by
  intro es ho p hp q
  induction hp using Submodule.span_induction with
  | mem x hx =>
    have hx : x ∈ es := hx
    induction es with
    | nil => simp at hx
    | cons e es ih =>
      obtain ⟨h1, h2, h3⟩ := ho
      rcases List.mem_cons.1 hx with rfl | hx
      · simp only [List.map_cons, List.sum_cons, h1, one_mul]
        have : (es.map fun e => (e ⬝ᵥ x) * (e ⬝ᵥ q)) = es.map fun _ => 0 := by
          apply List.map_congr_left; intro f hf; rw [dotProduct_comm f x, h2 f hf, zero_mul]
        rw [this]; simp
      · simp only [List.map_cons, List.sum_cons, h2 x hx, zero_mul, zero_add]
        exact ih h3 hx hx
  | zero => simp
  | add x y _ _ hx hy =>
    rw [add_dotProduct, ← hx, ← hy, ← List.sum_map_add]
    congr 1; apply List.map_congr_left; intro e _; rw [dotProduct_add]; ring
  | smul a x _ hx =>
    rw [smul_dotProduct, ← hx, smul_eq_mul, ← List.sum_map_mul_left]
    congr 1; apply List.map_congr_left; intro e _; rw [dotProduct_smul]; simp only [smul_eq_mul]; ring

theorem independent_prefix {vs : List (Fin d → ℝ)} (h : LinearIndependent ℝ vs.get) :
    ∀ i (hi : i < vs.length), vs[i] ∉ lspan (vs.take i) := by
  intro i hi
  have := h.notMem_span_image (s := {j : Fin vs.length | j.val < i}) (x := ⟨i, hi⟩) (by simp)
  intro hmem
  apply this
  apply span_mono _ hmem
  intro w hw
  obtain ⟨j, hj, rfl⟩ := List.mem_iff_getElem.1 (show w ∈ vs.take i from hw)
  simp only [List.length_take] at hj
  refine ⟨⟨j, by omega⟩, by simp; omega, ?_⟩
  simp [List.getElem_take]

/-- **C28.** For linearly independent chosen axes the projection gives one coordinate per axis; scalar products
(hence lengths, distances and angles) of points of the plane of the chosen axes are preserved, and directions
orthogonal to every chosen axis are projected to zero. -/
theorem C28_projection_isometry (vs : List (Fin d → ℝ)) (hind : LinearIndependent ℝ vs.get)
    (p q : Fin d → ℝ) :
    (projectPoint vs p).length = vs.length ∧
    (p ∈ span ℝ {w | w ∈ vs} →
      (List.zipWith (· * ·) (projectPoint vs p) (projectPoint vs q)).sum = p ⬝ᵥ q) ∧
    ((∀ v ∈ vs, v ⬝ᵥ p = 0) → ∀ x ∈ projectPoint vs p, x = 0) := by
  obtain ⟨ho, hl, hsp, _⟩ := projectedAxes_spec vs (independent_prefix hind)
  refine ⟨by simp [projectPoint, hl], ?_, ?_⟩
  · intro hp
    have hp' : p ∈ lspan (projectedAxes vs) := by rw [hsp]; exact hp
    rw [← parseval_list _ ho p hp' q]
    simp [projectPoint, List.zipWith_map, List.zipWith_self]
  · intro hz x hx
    obtain ⟨e, he, rfl⟩ := List.mem_map.1 hx
    have hmem : e ∈ lspan vs := by rw [← hsp]; exact subset_span he
    rw [dotProduct_comm]
    exact lspan_dot_zero (fun f hf => by rw [dotProduct_comm]; exact hz f hf) hmem

/-- **C28.** The frame is adapted to the order of the axes: axis `i` itself has a positive coordinate `i` and
no later coordinates. -/
theorem C28_projection_triangular (vs : List (Fin d → ℝ)) (hind : LinearIndependent ℝ vs.get)
    (i : ℕ) (hi : i < vs.length) :
    0 < (projectPoint vs vs[i]).getD i 0 ∧
    ∀ j, i < j → (projectPoint vs vs[i]).getD j 0 = 0 := by
  obtain ⟨_, hl, _, hpos⟩ := projectedAxes_spec vs (independent_prefix hind)
  obtain ⟨h1, h2⟩ := hpos i hi (by omega)
  constructor
  · have : i < (projectedAxes vs).length := by omega
    simpa [projectPoint, List.getD, this] using h1
  · intro j hij
    by_cases hj : j < (projectedAxes vs).length
    · simpa [projectPoint, List.getD, hj] using h2 j hj hij
    · have : (projectedAxes vs).length ≤ j := by omega
      simp [projectPoint, List.getD, this]

-- skew, not normalised axes in three dimensions
example : LinearIndependent ℝ ([![2, 0, 0], ![1, 3, 0]] : List (Fin 3 → ℝ)).get := by
  have h : LinearIndependent ℝ ![(![2, 0, 0] : Fin 3 → ℝ), ![1, 3, 0]] := by
    refine LinearIndependent.pair_iff.2 ?_
    intro s t h
    have h0 := congrFun h 0
    have h1 := congrFun h 1
    simp at h0 h1
    subst h1
    simp at h0
    exact ⟨h0, rfl⟩
  have e : (fun i : Fin 2 => ([![2, 0, 0], ![1, 3, 0]] : List (Fin 3 → ℝ)).get i) =
      ![(![2, 0, 0] : Fin 3 → ℝ), ![1, 3, 0]] := by
    funext i
    fin_cases i <;> rfl
  rw [← e] at h
  exact h

end Verif
