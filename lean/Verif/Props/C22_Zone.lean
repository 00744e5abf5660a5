import Verif.Props.C08_Paths

/-!
# C22, C23: Bragg planes and Brillouin-zone decrement
-/

namespace Verif

open Matrix

variable {d : ℕ}

/-! ## C23 -/

theorem braggPlaneDistance_eq (G k : Fin d → ℝ) (hG : G ≠ 0) :
    2 * vnorm G * braggPlaneDistance G k = 2 * (G ⬝ᵥ k) - G ⬝ᵥ G := by
  have hp := vnorm_pos hG
  unfold braggPlaneDistance
  have : ∑ c, G c / vnorm G * k c = (G ⬝ᵥ k) / vnorm G := by
    unfold dotProduct; rw [Finset.sum_div]; exact Finset.sum_congr rfl fun x _ => by ring
  rw [this, ← vnorm_sq]
  field_simp

theorem sub_dot_self (G k : Fin d → ℝ) : (k - G) ⬝ᵥ (k - G) = k ⬝ᵥ k - (2 * (G ⬝ᵥ k) - G ⬝ᵥ G) := by
  simp only [sub_dotProduct, dotProduct_sub]
  rw [dotProduct_comm k G]; ring

/-- **C23.** The signed distance is the component along `G` minus half the length of `G`, and it is positive
exactly when `k` is closer to `G` than to the origin, zero exactly at equal distance. -/
theorem C23_bragg_distance_sign (G k : Fin d → ℝ) (hG : G ≠ 0) :
    (0 < braggPlaneDistance G k ↔ vnorm (k - G) < vnorm k) ∧
    (braggPlaneDistance G k = 0 ↔ vnorm (k - G) = vnorm k) := by
  have hp := vnorm_pos hG
  have h := braggPlaneDistance_eq G k hG
  have hs := sub_dot_self G k
  rw [← h, ← vnorm_sq, ← vnorm_sq] at hs
  have n1 := vnorm_nonneg (k - G)
  have n2 := vnorm_nonneg k
  constructor
  · constructor
    · intro hd
      have : 0 < 2 * vnorm G * braggPlaneDistance G k := by positivity
      exact lt_of_pow_lt_pow_left₀ 2 n2 (by linarith)
    · intro hlt
      have h2 : vnorm (k - G) ^ 2 < vnorm k ^ 2 := pow_lt_pow_left₀ hlt n1 (by norm_num)
      have : 0 < 2 * vnorm G * braggPlaneDistance G k := by linarith
      exact pos_of_mul_pos_right this (by positivity)
  · constructor
    · intro hd
      rw [hd, mul_zero, sub_zero] at hs
      exact (pow_left_inj₀ n1 n2 (by norm_num)).1 hs
    · intro he
      rw [he] at hs
      have : 2 * vnorm G * braggPlaneDistance G k = 0 := by linarith
      rcases mul_eq_zero.1 this with h | h
      · exfalso; linarith
      · exact h

/-- **C23.** It is a distance: moving by `t` along the unit normal of the plane changes it by `t`, moving along
the plane leaves it unchanged, and it vanishes at `G/2`. -/
theorem C23_bragg_distance_metric (G k w : Fin d → ℝ) (hG : G ≠ 0) (t : ℝ) (hw : G ⬝ᵥ w = 0) :
    braggPlaneDistance G (k + (t / vnorm G) • G + w) = braggPlaneDistance G k + t ∧
    braggPlaneDistance G ((1 / 2 : ℝ) • G) = 0 := by
  have hp := vnorm_pos hG
  have key : ∀ a, braggPlaneDistance G a = (2 * (G ⬝ᵥ a) - G ⬝ᵥ G) / (2 * vnorm G) := by
    intro a; rw [← braggPlaneDistance_eq G a hG]; field_simp
  have hsq := vnorm_sq G
  constructor
  · rw [key, key, dotProduct_add, dotProduct_add, hw, dotProduct_smul, ← hsq]
    simp only [smul_eq_mul]
    field_simp
    ring
  · rw [key, dotProduct_smul]; simp

example : (![1, 2, 0] : Fin 3 → ℝ) ≠ 0 := by
  intro h; have := congrFun h 0; simp at this
example : (![1, 2, 0] : Fin 3 → ℝ) ⬝ᵥ ![-2, 1, 5] = 0 := by
  simp [dotProduct, Fin.sum_univ_three]

/-! ## C22 -/

theorem kPoint_eq (A : Matrix (Fin d) (Fin d) ℝ) (nk : Fin d → ℤ) :
    kPointAtIndex A nk = ∑ j, (nk j : ℝ) • dkStacked A j := by
  funext c; simp [kPointAtIndex, tensordot00, mul_comm]

theorem dk_dxStacked (A : Matrix (Fin d) (Fin d) ℝ) (hA : IsUnit A.det) (shape : Fin d → ℕ)
    (hs : ∀ i, 0 < shape i) (j : Fin d) :
    dkStacked (dxStacked A shape) j = (shape j : ℝ) • dkStacked A j := by
  have hne : ∀ i, (shape i : ℝ) ≠ 0 := fun i => by have := hs i; positivity
  have hinv : (dxStacked A shape)⁻¹ = A⁻¹ * diagonal (fun i => (shape i : ℝ)) := by
    apply inv_eq_right_inv
    have : dxStacked A shape = diagonal (fun i => (shape i : ℝ)⁻¹) * A := by
      ext i c; simp [dxStacked, diagonal_mul]; ring
    rw [this, Matrix.mul_assoc, ← Matrix.mul_assoc A, mul_nonsing_inv _ hA, Matrix.one_mul, diagonal_mul_diagonal]
    rw [← diagonal_one]; congr 1; funext i; exact inv_mul_cancel₀ (hne i)
  funext c
  simp only [dkStacked, hinv, Matrix.smul_apply, transpose_apply, mul_diagonal, Pi.smul_apply, smul_eq_mul]
  ring

/-- The k point of a bragg point is the k point of its index. -/
theorem braggPoint_eq (A : Matrix (Fin d) (Fin d) ℝ) (hA : IsUnit A.det) (shape : Fin d → ℕ)
    (hs : ∀ i, 0 < shape i) (g : Fin d → ℤ) :
    kPointAtIndex (dxStacked A shape) g = kPointAtIndex A (fun i => (shape i : ℤ) * g i) := by
  rw [kPoint_eq, kPoint_eq]
  apply Finset.sum_congr rfl
  intro j _
  rw [dk_dxStacked A hA shape hs, smul_smul]
  congr 1; push_cast; ring

theorem kPoint_sub (A : Matrix (Fin d) (Fin d) ℝ) (p q : Fin d → ℤ) :
    kPointAtIndex A (fun i => p i - q i) = kPointAtIndex A p - kPointAtIndex A q := by
  rw [kPoint_eq, kPoint_eq, kPoint_eq, ← Finset.sum_sub_distrib]
  apply Finset.sum_congr rfl
  intro i _
  rw [← sub_smul]; congr 1; push_cast; ring

theorem kPoint_injective (A : Matrix (Fin d) (Fin d) ℝ) (hA : IsUnit A.det) (p : Fin d → ℤ)
    (h : kPointAtIndex A p = 0) : p = 0 := by
  funext i
  have h2 := C21_phase A hA (fun _ => 1) p (fun j => if j = i then 1 else 0)
  rw [h, zero_dotProduct] at h2
  simp at h2
  exact h2

/-- Invariant of the search: either nothing was found, all planes seen have distance `≤ tol`, or the
recorded plane is one of those seen, farther than `tol`, and the closest such. -/
theorem decrementClosest_spec (tol : ℝ) (point : Fin d → ℝ) (braggs : List (Fin d → ℝ))
    (hlt : ∀ G ∈ braggs.tail, braggPlaneDistance G point < vnorm point) :
    let r := decrementClosest tol point braggs
    (r.1 = 0 ∧ ∀ G ∈ braggs.tail, braggPlaneDistance G point ≤ tol) ∨
    (∃ h : r.1 < braggs.length, 0 < r.1 ∧ tol < braggPlaneDistance braggs[r.1] point ∧
      ∀ G ∈ braggs.tail, tol < braggPlaneDistance G point →
        braggPlaneDistance braggs[r.1] point ≤ braggPlaneDistance G point) := by
  cases braggs with
  | nil => left; simp [decrementClosest]
  | cons b0 bs =>
    simp only [List.tail_cons] at hlt
    simp only [decrementClosest, List.tail_cons]
    have key : ∀ (l pre : List (Fin d → ℝ)) (st : ℕ × ℝ), bs = pre ++ l →
        ((st = (0, vnorm point) ∧ ∀ G ∈ pre, braggPlaneDistance G point ≤ tol) ∨
          (∃ h : st.1 < (b0 :: bs).length, 0 < st.1 ∧ st.2 = braggPlaneDistance (b0 :: bs)[st.1] point ∧
            tol < st.2 ∧ ∀ G ∈ pre, tol < braggPlaneDistance G point → st.2 ≤ braggPlaneDistance G point)) →
        let r := (l.zipIdx pre.length).foldl (fun (st : ℕ × ℝ) bi =>
          if tol < braggPlaneDistance bi.1 point ∧ braggPlaneDistance bi.1 point < st.2 then
            (bi.2 + 1, braggPlaneDistance bi.1 point) else st) st
        ((r = (0, vnorm point) ∧ ∀ G ∈ bs, braggPlaneDistance G point ≤ tol) ∨
          (∃ h : r.1 < (b0 :: bs).length, 0 < r.1 ∧ r.2 = braggPlaneDistance (b0 :: bs)[r.1] point ∧
            tol < r.2 ∧ ∀ G ∈ bs, tol < braggPlaneDistance G point → r.2 ≤ braggPlaneDistance G point)) := by
      intro l
      induction l with
      | nil =>
        intro pre st hpre hinv
        simp only [List.append_nil] at hpre
        subst hpre
        simpa using hinv
      | cons G l ih =>
        intro pre st hpre hinv
        have hG : (b0 :: bs)[pre.length + 1]'(by rw [hpre]; simp) = G := by
          simp [hpre]
        have hGmem : G ∈ bs := by rw [hpre]; simp
        have hlen : pre.length + 1 < (b0 :: bs).length := by rw [hpre]; simp
        simp only [List.zipIdx_cons, List.foldl_cons]
        have := ih (pre ++ [G])
          (if tol < braggPlaneDistance G point ∧ braggPlaneDistance G point < st.2 then
            (pre.length + 1, braggPlaneDistance G point) else st) (by simp [hpre]) ?_
        · simpa using this
        · split
          · rename_i hc
            right
            refine ⟨hlen, by simp, by rw [hG], hc.1, ?_⟩
            intro G' hG' ht
            rcases List.mem_append.1 hG' with h | h
            · rcases hinv with ⟨_, hall⟩ | ⟨_, _, _, _, hall⟩
              · exact absurd ht (not_lt.2 (hall G' h))
              · exact hc.2.le.trans (hall G' h ht)
            · simp at h; subst h; exact le_refl _
          · rename_i hc
            rcases hinv with ⟨h0, hall⟩ | ⟨h1, h2, h3, h4, hall⟩
            · left
              refine ⟨h0, ?_⟩
              intro G' hG'
              rcases List.mem_append.1 hG' with h | h
              · exact hall G' h
              · simp at h; subst h
                by_contra hne
                exact hc ⟨not_le.1 hne, by rw [h0]; exact hlt _ hGmem⟩
            · right
              refine ⟨h1, h2, h3, h4, ?_⟩
              intro G' hG' ht
              rcases List.mem_append.1 hG' with h | h
              · exact hall G' h ht
              · simp at h; subst h
                by_contra hne
                exact hc ⟨ht, not_le.1 hne⟩
    have := key bs [] (0, vnorm point) (by simp) (Or.inl ⟨rfl, by simp⟩)
    simp only [List.length_nil] at this
    rcases this with ⟨h0, hall⟩ | ⟨h1, h2, h3, h4, hall⟩
    · left; exact ⟨by rw [h0], hall⟩
    · right; exact ⟨h1, h2, by rw [← h3]; exact h4, by rw [← h3]; exact hall⟩

theorem decrementFold_spec (closest : ℕ) (idxs : List (Fin 3 → ℤ)) (coord : Fin 3 → ℤ)
    (h : closest < idxs.length) :
    decrementFold closest idxs coord = some (fun i => coord i - idxs[closest] i) := by
  unfold decrementFold
  have key : ∀ (l : List (Fin 3 → ℤ)) (k : ℕ) (o : Fin 3 → ℤ),
      (l.zipIdx k).foldl (decrementFoldStep closest) (some o) =
      some (if hc : k ≤ closest ∧ closest < k + l.length then
        (fun i => o i - (l[closest - k]'(by omega)) i) else o) := by
    intro l
    induction l with
    | nil =>
      intro k o
      have : ¬ (k ≤ closest ∧ closest < k + ([] : List (Fin 3 → ℤ)).length) := by simp
      rw [dif_neg this]; rfl
    | cons g l ih =>
      intro k o
      have hstep : decrementFoldStep closest (some o) (g, k) =
          some (if closest = k then (fun i => o i - g i) else o) := by
        simp [decrementFoldStep, foldPointInBraggPlane]
      rw [List.zipIdx_cons, List.foldl_cons, hstep, ih]
      congr 1
      by_cases hck : closest = k
      · subst hck
        rw [dif_neg (by omega), if_pos rfl, dif_pos (by simp)]
        funext i
        rw [List.getElem_cons, dif_pos (by omega)]
      · rw [if_neg hck]
        by_cases hc : k + 1 ≤ closest ∧ closest < k + 1 + l.length
        · rw [dif_pos hc, dif_pos (by simp; omega)]
          funext i
          rw [List.getElem_cons, dif_neg (by omega)]
          congr 2
        · rw [dif_neg hc, dif_neg (by simp; omega)]
  have := key idxs 0 coord
  rw [dif_pos (by omega)] at this
  simpa using this

theorem braggPointIndex_get (shape : Fin d → ℕ) (c : ℕ) (h : c < (braggPointIndex shape).length)
    (h' : c < (braggLabels d).length) :
    (braggPointIndex shape)[c] = fun i => (shape i : ℤ) * (braggLabels d)[c] i := by
  simp [braggPointIndex]

theorem braggLabels_zero : (braggLabels 3)[0]? = some (fun _ => 0) := by
  have : (braggLabels 3).map (fun f => (f 0, f 1, f 2)) =
      (braggLabels 3).map (fun f => (f 0, f 1, f 2)) := rfl
  simp only [braggLabels]
  rw [List.getElem?_map]
  have : (List.range ((List.replicate 3 3).prod))[0]? = some 0 := by decide
  rw [this]
  simp only [Option.map_some]
  congr 1
  funext i
  fin_cases i <;> rfl

theorem braggLabels_nonzero : ∀ g ∈ (braggLabels 3).tail, g ≠ 0 := by
  have : ∀ g ∈ (braggLabels 3).tail, ¬ (g 0 = 0 ∧ g 1 = 0 ∧ g 2 = 0) := by decide
  intro g hg h0
  exact this g hg (by simp [h0])

theorem braggLabels_range : ∀ g ∈ braggLabels 3, ∀ i, g i = -1 ∨ g i = 0 ∨ g i = 1 := by
  decide

theorem braggLabels_all (g : Fin 3 → ℤ) (h : ∀ i, g i = -1 ∨ g i = 0 ∨ g i = 1) (hne : g ≠ 0) :
    g ∈ (braggLabels 3).tail := by
  have e : g = ![g 0, g 1, g 2] := by funext i; fin_cases i <;> rfl
  have h0 := h 0
  have h1 := h 1
  have h2 := h 2
  rw [e] at hne ⊢
  rcases h0 with h0 | h0 | h0 <;> rcases h1 with h1 | h1 | h1 <;> rcases h2 with h2 | h2 | h2 <;>
    rw [h0, h1, h2] at hne ⊢ <;> first | decide | (exfalso; apply hne; decide)

/-- **C22.** In three dimensions the function returns, and the result is the coordinate minus the index of a
reciprocal lattice vector `G = Σ gᵢ nᵢ dkᵢ` with all `gᵢ ∈ {-1, 0, 1}`. If `G ≠ 0` its Bragg plane separates the point from
the origin by more than the tolerance, is the closest such plane of the first shell, and the point moves
strictly closer to the origin; `G = 0` (coordinate unchanged) exactly when no plane of the first shell
separates the point from the origin by more than the tolerance. -/
theorem C22_decrement_3d (tol : ℝ) (htol : 0 ≤ tol) (A : Matrix (Fin 3) (Fin 3) ℝ) (hA : IsUnit A.det)
    (shape : Fin 3 → ℕ) (hs : ∀ i, 0 < shape i) (coord : Fin 3 → ℤ) :
    ∃ g : Fin 3 → ℤ, (∀ i, g i = -1 ∨ g i = 0 ∨ g i = 1) ∧
      decrementBrillouinZone tol A shape coord = some (fun i => coord i - shape i * g i) ∧
      (g = 0 ↔ ∀ g' : Fin 3 → ℤ, (∀ i, g' i = -1 ∨ g' i = 0 ∨ g' i = 1) → g' ≠ 0 →
        braggPlaneDistance (kPointAtIndex A fun i => shape i * g' i) (kPointAtIndex A coord) ≤ tol) ∧
      (g ≠ 0 →
        tol < braggPlaneDistance (kPointAtIndex A fun i => shape i * g i) (kPointAtIndex A coord) ∧
        vnorm (kPointAtIndex A fun i => coord i - shape i * g i) < vnorm (kPointAtIndex A coord) ∧
        ∀ g' : Fin 3 → ℤ, (∀ i, g' i = -1 ∨ g' i = 0 ∨ g' i = 1) → g' ≠ 0 →
          tol < braggPlaneDistance (kPointAtIndex A fun i => shape i * g' i) (kPointAtIndex A coord) →
          braggPlaneDistance (kPointAtIndex A fun i => shape i * g i) (kPointAtIndex A coord) ≤
            braggPlaneDistance (kPointAtIndex A fun i => shape i * g' i) (kPointAtIndex A coord)) := by
  have hGne : ∀ g' : Fin 3 → ℤ, g' ≠ 0 → kPointAtIndex A (fun i => (shape i : ℤ) * g' i) ≠ 0 := by
    intro g' hg' h
    apply hg'
    have := kPoint_injective A hA _ h
    funext i
    have h2 := congrFun this i
    simp only [Pi.zero_apply, mul_eq_zero] at h2
    have := hs i
    rcases h2 with h2 | h2
    · omega
    · exact h2
  have hbp : braggPoints A shape =
      (braggLabels 3).map fun g => kPointAtIndex A (fun i => (shape i : ℤ) * g i) := by
    unfold braggPoints
    exact List.map_congr_left fun g _ => braggPoint_eq A hA shape hs g
  have hlt : ∀ G ∈ (braggPoints A shape).tail,
      braggPlaneDistance G (kPointAtIndex A coord) < vnorm (kPointAtIndex A coord) := by
    intro G hG
    rw [hbp, ← List.map_tail] at hG
    obtain ⟨g', hg', rfl⟩ := List.mem_map.1 hG
    have hne := hGne g' (braggLabels_nonzero g' hg')
    set G := kPointAtIndex A (fun i => (shape i : ℤ) * g' i)
    have hp := vnorm_pos hne
    have h1 := braggPlaneDistance_eq G (kPointAtIndex A coord) hne
    have h2 := abs_dot_le G (kPointAtIndex A coord)
    have h3 := le_abs_self (G ⬝ᵥ kPointAtIndex A coord)
    rw [← vnorm_sq] at h1
    by_contra hcon
    have hcon := not_lt.1 hcon
    have : vnorm G * vnorm (kPointAtIndex A coord) ≤
        vnorm G * braggPlaneDistance G (kPointAtIndex A coord) := mul_le_mul_of_nonneg_left hcon hp.le
    nlinarith [sq_pos_of_pos hp]
  have hlen : (braggPoints A shape).length = (braggPointIndex shape).length := by
    simp [braggPoints, braggPointIndex]
  have hspec := decrementClosest_spec tol (kPointAtIndex A coord) (braggPoints A shape) hlt
  simp only at hspec
  set r := decrementClosest tol (kPointAtIndex A coord) (braggPoints A shape) with hr
  have hllen : (braggLabels 3).length = 27 := by decide
  have hmem : ∀ g' : Fin 3 → ℤ, (∀ i, g' i = -1 ∨ g' i = 0 ∨ g' i = 1) → g' ≠ 0 →
      kPointAtIndex A (fun i => (shape i : ℤ) * g' i) ∈ (braggPoints A shape).tail := by
    intro g' h h0
    rw [hbp, ← List.map_tail]
    exact List.mem_map.2 ⟨g', braggLabels_all g' h h0, rfl⟩
  rcases hspec with ⟨h0, hall⟩ | ⟨h1, h2, h3, hall⟩
  · refine ⟨0, by simp, ?_, ?_, by simp⟩
    · unfold decrementBrillouinZone
      simp only
      rw [← hr, h0, decrementFold_spec _ _ _ (by simp [braggPointIndex, hllen])]
      congr 1
      funext i
      have hz := braggLabels_zero
      rw [List.getElem?_eq_getElem (by rw [hllen]; norm_num)] at hz
      rw [braggPointIndex_get _ _ _ (by rw [hllen]; norm_num), Option.some.inj hz]
      simp
    · simp only [true_iff]
      intro g' h hne
      exact hall _ (hmem g' h hne)
  · have hb : r.1 < (braggLabels 3).length := by simpa [braggPoints] using h1
    have hgmem : (braggLabels 3)[r.1] ∈ (braggLabels 3).tail := by
      have : (braggLabels 3)[r.1] = (braggLabels 3).tail[r.1 - 1]'(by simp; omega) := by
        simp only [List.getElem_tail]; congr 1; omega
      rw [this]; exact List.getElem_mem _
    have hbr : (braggPoints A shape)[r.1] =
        kPointAtIndex A (fun i => (shape i : ℤ) * (braggLabels 3)[r.1] i) := by
      simp only [hbp, List.getElem_map]
    have h3 : tol < braggPlaneDistance (kPointAtIndex A (fun i => (shape i : ℤ) * (braggLabels 3)[r.1] i))
        (kPointAtIndex A coord) := by rw [← hbr]; exact h3
    have hall : ∀ G ∈ (braggPoints A shape).tail, tol < braggPlaneDistance G (kPointAtIndex A coord) →
        braggPlaneDistance (kPointAtIndex A (fun i => (shape i : ℤ) * (braggLabels 3)[r.1] i))
        (kPointAtIndex A coord) ≤ braggPlaneDistance G (kPointAtIndex A coord) := by rw [← hbr]; exact hall
    have hne := braggLabels_nonzero _ hgmem
    refine ⟨(braggLabels 3)[r.1], braggLabels_range _ (List.getElem_mem _), ?_, ?_, ?_⟩
    · unfold decrementBrillouinZone
      simp only
      rw [← hr, decrementFold_spec _ _ _ (by rw [← hlen]; exact h1)]
      congr 1
      funext i
      rw [braggPointIndex_get _ _ _ hb]
    · constructor
      · intro h; exact absurd h hne
      · intro h
        have := h _ (braggLabels_range _ (List.getElem_mem _)) hne
        exact absurd h3 (not_lt.2 this)
    · intro _
      refine ⟨h3, ?_, fun g' h hne' ht => hall _ (hmem g' h hne') ht⟩
      rw [kPoint_sub]
      exact (C23_bragg_distance_sign _ _ (hGne _ hne)).1.1 (lt_of_le_of_lt htol h3)

/-- **C22**, negative: although `decrement_brillouin_zone` is offered for any basis, it raises for every coordinate of
every basis which is not three dimensional. -/
theorem C22_decrement_raises_other_dimensions (hd : d ≠ 3) (tol : ℝ) (A : Matrix (Fin d) (Fin d) ℝ)
    (shape : Fin d → ℕ) (coord : Fin d → ℤ) : decrementBrillouinZone tol A shape coord = none := by
  unfold decrementBrillouinZone decrementFold
  simp only
  have hl : 0 < (braggPointIndex shape).length := by
    simp only [braggPointIndex, braggLabels, List.length_map, List.length_range, List.prod_replicate]
    positivity
  generalize (braggPointIndex shape) = l at hl
  generalize (decrementClosest tol (kPointAtIndex A coord) (braggPoints A shape)).1 = c
  have hnone : ∀ (l : List ((Fin d → ℤ) × ℕ)), l.foldl (decrementFoldStep c) none = none := by
    intro l; induction l with
    | nil => rfl
    | cons x xs ih => simpa [decrementFoldStep] using ih
  cases l with
  | nil => simp at hl
  | cons g l =>
    rw [List.zipIdx_cons, List.foldl_cons]
    have : decrementFoldStep c (some coord) (g, 0) = none := by
      simp [decrementFoldStep, foldPointInBraggPlane, hd]
    rw [this, hnone]

/-- The full statement of C22 (a result for every dimension) fails; what is proved is the three dimensional
case, `C22_decrement_3d`, restated here as the part that holds: at every step the point never moves away
from the origin. -/
theorem C22_decrement_never_away_partial (tol : ℝ) (htol : 0 ≤ tol) (A : Matrix (Fin 3) (Fin 3) ℝ)
    (hA : IsUnit A.det) (shape : Fin 3 → ℕ) (hs : ∀ i, 0 < shape i) (coord out : Fin 3 → ℤ)
    (h : decrementBrillouinZone tol A shape coord = some out) :
    vnorm (kPointAtIndex A out) ≤ vnorm (kPointAtIndex A coord) ∧
    (∀ i, (shape i : ℤ) ∣ coord i - out i) ∧
    (out ≠ coord → vnorm (kPointAtIndex A out) < vnorm (kPointAtIndex A coord)) := by
  obtain ⟨g, _, h1, _, h2⟩ := C22_decrement_3d tol htol A hA shape hs coord
  rw [h1] at h
  have h := Option.some.inj h
  subst h
  refine ⟨?_, fun i => ⟨g i, by ring⟩, ?_⟩
  · by_cases hg : g = 0
    · subst hg; simp
    · exact (h2 hg).2.1.le
  · intro hne
    by_cases hg : g = 0
    · subst hg; simp at hne
    · exact (h2 hg).2.1

theorem decrementTolerance_nonneg (A : Matrix (Fin d) (Fin d) ℝ) : 0 ≤ decrementTolerance A := by
  unfold decrementTolerance
  have : 0 ≤ ⨅ i, vnorm (dkStacked A i) := Real.iInf_nonneg fun i => vnorm_nonneg _
  positivity

example : IsUnit (1 : Matrix (Fin 3) (Fin 3) ℝ).det ∧ ∀ i, 0 < (fun _ => 5 : Fin 3 → ℕ) i := by
  simp

end Verif
