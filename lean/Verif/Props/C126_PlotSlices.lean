import Verif.Model.PlotData
import Verif.Props.C07_DataInAxes
import Verif.Props.C104_Position
import Verif.Props.C112_TightBindingState

/-!
# C126: slices drawn by the plotting functions
-/

set_option autoImplicit false

namespace Verif

open Finset Spec Matrix

namespace Spec

/-- Two indices have the same entries off the chosen axes. -/
def AgreeOff (axes full other : List ℕ) : Prop := ∀ i, i ∉ axes → full.getD i 0 = other.getD i 0

/-- The point of the grid with fractions `full[i] / n[i]` of the lattice vectors (rows of `A`). -/
noncomputable def gridPoint {d : ℕ} (A : Matrix (Fin d) (Fin d) ℝ) (ns full : List ℕ) : Fin d → ℝ :=
  ∑ i : Fin d, ((full.getD i 0 : ℝ) / (ns.getD i 0 : ℝ)) • A i

/-- The wave vector with the integer wave numbers stored at an index: a combination of the reciprocal lattice vectors
`2π (A⁻¹)ᵀ`. -/
noncomputable def waveVector {d : ℕ} (A : Matrix (Fin d) (Fin d) ℝ) (ns full : List ℕ) : Fin d → ℝ :=
  ∑ i : Fin d, (freq (ns.getD i 0) (full.getD i 0) : ℝ) • ((2 * Real.pi) • (A⁻¹)ᵀ) i

/-- The coefficient of a function on the grid at the plane wave number `k`. -/
noncomputable def planeCoefficient (ns : List ℕ) (E : ℕ → ℂ) (k : ℕ) : ℂ :=
  ∑ x ∈ range ns.prod, (starRingEnd ℂ) (state (.tuple (ns.map .fundamentalTransformed)) k x) * E x

end Spec

/-! ## Helpers -/

theorem offAxes_agree (axes full other : List ℕ) (hl : full.length = other.length) (h : AgreeOff axes full other) :
    offAxes axes full = offAxes axes other := by
  unfold offAxes
  rw [hl]
  apply List.map_congr_left
  intro p hp
  exact h p (by simpa using (List.mem_filter.1 hp).2)

theorem filter_zipIdx (axes full : List ℕ) :
    (full.zipIdx.filter fun p => decide (p.2 ∉ axes)).map Prod.fst = offAxes axes full := by
  have : full.zipIdx = (List.range full.length).map fun p => (full.getD p 0, p) := by
    apply List.ext_getElem
    · simp
    · intro i h1 h2
      have hi : i < full.length := by simpa using h1
      simp [List.getD, List.getElem?_eq_getElem hi]
  rw [this, List.filter_map, List.map_map]
  rfl

/-- The default index is read off an index at which the absolute value is largest. -/
theorem getMaxIdx_eq (ns : List ℕ) (n : ℕ) (hn : 0 < n) (hle : n ≤ ns.prod) (data : ℕ → ℂ) (axes : List ℕ) :
    ∃ top, InShape ns top ∧ ravel ns top < n ∧ (∀ x < n, ‖data x‖ ≤ ‖data (ravel ns top)‖) ∧
      getMaxIdx ns n data axes = some (offAxes axes top) := by
  obtain ⟨h1, h2⟩ := argmaxReal_spec (fun i => ‖data i‖) (n - 1)
  set m := argmaxReal (fun i => ‖data i‖) (n - 1) with hm
  have hmn : m < n := by omega
  have hmp : m < ns.prod := by omega
  refine ⟨unravel ns m, unravel_inShape ns m hmp, ?_, ?_, ?_⟩
  · rw [ravel_unravel ns m hmp]; exact hmn
  · intro x hx
    rw [ravel_unravel ns m hmp]
    exact h2 x (by omega)
  · unfold getMaxIdx
    rw [if_neg (by omega), ← hm]
    unfold getStackedIndex
    rw [if_pos ⟨by positivity, by exact_mod_cast hmp⟩]
    rw [Option.map_some, filter_zipIdx, Int.toNat_natCast]

theorem read_slice {β : Type*} (data : List ℕ → β) (axes full top : List ℕ) (hnd : axes.Nodup)
    (hlt : ∀ x ∈ axes, x < full.length) (hl : full.length = top.length) (h : AgreeOff axes full top) :
    getDataInAxes data axes (offAxes axes top) (onAxes axes full) = data full := by
  rw [← offAxes_agree axes full top hl h]
  exact C07_data data axes full hnd hlt

variable {d : ℕ}

theorem axes_nodup (axes : List (Fin d)) (h : axes.Nodup) : (axes.map Fin.val).Nodup := h.map Fin.val_injective

theorem axes_lt (axes : List (Fin d)) : ∀ x ∈ axes.map Fin.val, x < d := by
  intro x hx
  obtain ⟨a, _, rfl⟩ := List.mem_map.1 hx
  exact a.2

theorem drawnPoint_eq (A : Matrix (Fin d) (Fin d) ℝ) (ns full : List ℕ) (hf : InShape ns full) :
    xPointAtIndex A (fun i => ns.getD i 0) (fun i => ((stackedNxPoints ns (ravel ns full)).getD i 0 : ℕ)) = gridPoint A ns full := by
  unfold stackedNxPoints
  rw [unravel_ravel ns full hf]
  funext c
  simp only [xPointAtIndex, tensordot00, dxStacked, gridPoint, Matrix.of_apply, Finset.sum_apply, Pi.smul_apply, smul_eq_mul]
  apply sum_congr rfl
  intro i _
  push_cast
  ring

theorem nwavePoint_eq : ∀ (ns full : List ℕ), InShape ns full → ∀ i,
    (List.zipWith (fun n j => nkPoints n j) ns full).getD i 0 = freq (ns.getD i 0) (full.getD i 0)
  | [], [], _, i => by simp [freq]
  | n :: ns, j :: js, h, 0 => by
    simpa using nkPoints_eq_freq h.1
  | n :: ns, j :: js, h, i + 1 => by
    simpa using nwavePoint_eq ns js h.2 i
  | [], _ :: _, h, _ => absurd h (by simp [InShape])
  | _ :: _, [], h, _ => absurd h (by simp [InShape])

theorem wavePoint_eq (A : Matrix (Fin d) (Fin d) ℝ) (ns full : List ℕ) (hf : InShape ns full) :
    kPointAtIndex A (fun i => (stackedNkPoints ns (ravel ns full)).getD i 0) = waveVector A ns full := by
  unfold stackedNkPoints
  rw [unravel_ravel ns full hf]
  funext c
  simp only [kPointAtIndex, tensordot00, dkStacked, waveVector, Finset.sum_apply, Pi.smul_apply, smul_eq_mul]
  apply sum_congr rfl
  intro i _
  rw [nwavePoint_eq ns full hf]
  ring

theorem onAxes_inShape (axes : List ℕ) (ns full : List ℕ) (hf : InShape ns full) (hlt : ∀ x ∈ axes, x < ns.length) :
    InShape (axes.map fun p => ns.getD p 0) (onAxes axes full) := by
  unfold onAxes
  induction axes with
  | nil => trivial
  | cons a axes ih =>
    exact ⟨inShape_getD _ _ hf a (hlt a (by simp)), ih fun x hx => hlt x (by simp [hx])⟩

/-- The position in the shifted array of the entry stored at an index. -/
theorem shift_read : ∀ (ns js : List ℕ), InShape ns js →
    List.zipWith3 (fun (n : ℕ) (s : ℤ) (j : ℕ) => (((j : ℤ) - s) % (n : ℤ)).toNat) ns (ns.map fun n : ℕ => (n : ℤ) / 2)
      (List.zipWith (fun (n j : ℕ) => (freq n j + (n : ℤ) / 2).toNat) ns js) = js
  | [], [], _ => rfl
  | n :: ns, j :: js, h => by
    refine congrArg₂ List.cons ?_ (shift_read ns js h.2)
    obtain ⟨h1, h2⟩ := freq_half h.1
    show (((((freq n j + (n : ℤ) / 2).toNat : ℕ) : ℤ) - (n : ℤ) / 2) % (n : ℤ)).toNat = j
    rw [Int.toNat_of_nonneg h1, add_sub_cancel_right, freq_emod, Int.emod_eq_of_lt (by positivity) (by exact_mod_cast h.1),
      Int.toNat_natCast]
  | [], _ :: _, h => absurd h (by simp [InShape])
  | _ :: _, [], h => absurd h (by simp [InShape])

theorem zipWith_axes (axes : List (Fin d)) (ns full : List ℕ) :
    List.zipWith (fun (n j : ℕ) => (freq n j + (n : ℤ) / 2).toNat) (axes.map fun a : Fin d => ns.getD a 0) (onAxes (axes.map Fin.val) full) =
      axes.map fun a : Fin d => (freq (ns.getD a 0) (full.getD a 0) + (ns.getD a 0 : ℤ) / 2).toNat := by
  unfold onAxes
  rw [List.map_map, List.zipWith_map, List.zipWith_self]
  rfl

theorem drawn_shape (axes : List (Fin d)) (hnd : axes.Nodup) (ns top : List ℕ) (hd : ns.length = d) (htop : InShape ns top) :
    getDataInAxesShape ns (axes.map Fin.val) (offAxes (axes.map Fin.val) top) = axes.map fun a : Fin d => ns.getD a 0 := by
  rw [C07_shape _ _ _ (axes_nodup axes hnd) (by rw [hd]; exact axes_lt axes) top (inShape_length _ _ htop).symm rfl, List.map_map]
  rfl

/-- The entries of a slice in momentum space. -/
theorem momentumSlice_entry (A : Matrix (Fin d) (Fin d) ℝ) (ns : List ℕ) (hd : ns.length = d) (converted : ℕ → ℂ) (axes : List (Fin d))
    (hnd : axes.Nodup) (top : List ℕ) (htop : InShape ns top) (full : List ℕ) (hfull : InShape ns full)
    (hag : AgreeOff (axes.map Fin.val) full top) :
    (momentumSlice A ns converted axes (offAxes (axes.map Fin.val) top)).values
        (axes.map fun a : Fin d => (freq (ns.getD a 0) (full.getD a 0) + (ns.getD a 0 : ℤ) / 2).toNat) = converted (ravel ns full) ∧
      (momentumSlice A ns converted axes (offAxes (axes.map Fin.val) top)).coordinates
        (axes.map fun a : Fin d => (freq (ns.getD a 0) (full.getD a 0) + (ns.getD a 0 : ℤ) / 2).toNat) =
        projectPoint (axes.map fun a => deltaKStacked A (fun i => ns.getD i 0) a) (waveVector A ns full) := by
  have hlt := axes_lt axes
  have hin : InShape (axes.map fun a : Fin d => ns.getD a 0) (onAxes (axes.map Fin.val) full) := by
    have := onAxes_inShape (axes.map Fin.val) ns full hfull (by rw [hd]; exact hlt)
    rw [List.map_map] at this
    exact this
  have hread : ∀ {β : Type} (arr : List ℕ → β), fftshiftAxes (axes.map fun a : Fin d => ns.getD a 0) arr
      (axes.map fun a : Fin d => (freq (ns.getD a 0) (full.getD a 0) + (ns.getD a 0 : ℤ) / 2).toNat) =
      arr (onAxes (axes.map Fin.val) full) := by
    intro β arr
    unfold fftshiftAxes rollAxes
    rw [← zipWith_axes, shift_read _ _ hin]
  have hl : full.length = top.length := (inShape_length _ _ hfull).symm.trans (inShape_length _ _ htop)
  have hlt' : ∀ x ∈ axes.map Fin.val, x < full.length := by rw [← inShape_length _ _ hfull, hd]; exact hlt
  unfold momentumSlice
  dsimp only
  rw [drawn_shape axes hnd ns top hd htop, hread, hread]
  unfold getKCoordinatesInAxes
  rw [Option.getD_some, read_slice _ _ full top (axes_nodup axes hnd) hlt' hl hag,
    read_slice _ _ full top (axes_nodup axes hnd) hlt' hl hag, wavePoint_eq A _ full hfull]
  exact ⟨rfl, rfl⟩

theorem convert_momentum (same : Basis → Basis → Bool) (hs : Sound same) (b : Basis) (hb : Valid b) (ho : OrthonormalParts b) :
    ∃ f, Basis.convert same b b.asTransformedBasis = some f ∧
      ∀ v, ∀ k < b.fundamentalShape.prod, f v k = planeCoefficient b.fundamentalShape (expand b v) k := by
  obtain ⟨f, hf, kf⟩ := C10_route same hs b b.asTransformedBasis hb (valids_fT _) ho (compatible_symm _ _ (compatible_asTransformed' b))
  refine ⟨f, hf, fun v k hk => ?_⟩
  rw [kf v k (by rw [show b.asTransformedBasis = fT b.fundamentalShape from rfl, (fT_facts _).1]; exact hk), ← fundamentalShape_prod b]
  rfl

/-! ## Theorems -/

/-- **C126.** Data drawn in position space (`plot_data_1d_x`, `plot_data_2d_x`) with a given index: the slice has the number of
points of the chosen axes, and the point drawn for any index of the grid with the given entries off the axes has the value of
the function at this point of the grid and the coordinates of this point, projected on the chosen lattice vectors. -/
theorem C126_position (same : Basis → Basis → Bool) (hs : Sound same) (A : Matrix (Fin d) (Fin d) ℝ) (b : Basis) (hb : Valid b)
    (ho : OrthonormalParts b) (hd : b.fundamentalShape.length = d) (axes : List (Fin d)) (hnd : axes.Nodup) (data : ℕ → ℂ)
    (top : List ℕ) (htop : InShape b.fundamentalShape top) :
    ∃ s, plotDataX same A b data axes (some (offAxes (axes.map Fin.val) top)) = some s ∧
      s.shape = axes.map (fun a : Fin d => b.fundamentalShape.getD a 0) ∧
      ∀ full, InShape b.fundamentalShape full → AgreeOff (axes.map Fin.val) full top →
        s.values (onAxes (axes.map Fin.val) full) = expand b data (ravel b.fundamentalShape full) ∧
        s.coordinates (onAxes (axes.map Fin.val) full) = projectPoint (axes.map fun a => A a) (gridPoint A b.fundamentalShape full) := by
  obtain ⟨f, hf, kf⟩ := convert_position same hs b hb ho b.fundamentalShape (compatible_symm _ _ (compatible_asPosition' b))
  have hlt := axes_lt axes
  refine ⟨⟨getDataInAxesShape b.fundamentalShape (axes.map Fin.val) (offAxes (axes.map Fin.val) top),
    getXCoordinatesInAxes A b.fundamentalShape axes (some (offAxes (axes.map Fin.val) top)),
    getDataInAxes (fun full => f data (ravel b.fundamentalShape full)) (axes.map Fin.val) (offAxes (axes.map Fin.val) top)⟩,
    ?_, ?_, fun full hfull hag => ⟨?_, ?_⟩⟩
  · unfold plotDataX
    rw [show b.asPositionBasis = .tuple (b.fundamentalShape.map .fundamental) from rfl, hf]
    rfl
  · dsimp only
    rw [C07_shape _ _ _ (axes_nodup axes hnd) (by rw [hd]; exact hlt) top (inShape_length _ _ htop).symm rfl, List.map_map]
    rfl
  · dsimp only
    rw [read_slice _ _ full top (axes_nodup axes hnd) (by rw [← inShape_length _ _ hfull, hd]; exact hlt)
      ((inShape_length _ _ hfull).symm.trans (inShape_length _ _ htop)) hag]
    exact kf _ _ (ravel_lt _ _ hfull)
  · dsimp only
    unfold getXCoordinatesInAxes
    rw [Option.getD_some, read_slice _ _ full top (axes_nodup axes hnd) (by rw [← inShape_length _ _ hfull, hd]; exact hlt)
      ((inShape_length _ _ hfull).symm.trans (inShape_length _ _ htop)) hag, drawnPoint_eq A _ full hfull]

/-- **C126.** Without an index the slice drawn in position space is one through a point at which the absolute value of the
function is largest. -/
theorem C126_position_default (same : Basis → Basis → Bool) (hs : Sound same) (A : Matrix (Fin d) (Fin d) ℝ) (b : Basis) (hb : Valid b)
    (ho : OrthonormalParts b) (hne : 0 < points b) (axes : List (Fin d)) (data : ℕ → ℂ) :
    ∃ top, InShape b.fundamentalShape top ∧
      (∀ x < points b, ‖expand b data x‖ ≤ ‖expand b data (ravel b.fundamentalShape top)‖) ∧
      plotDataX same A b data axes none = plotDataX same A b data axes (some (offAxes (axes.map Fin.val) top)) := by
  obtain ⟨f, hf, kf⟩ := convert_position same hs b hb ho b.fundamentalShape (compatible_symm _ _ (compatible_asPosition' b))
  have hp := fundamentalShape_prod b
  obtain ⟨top, h1, h2, h3, h4⟩ := getMaxIdx_eq b.fundamentalShape b.fundamentalShape.prod (by rw [hp]; exact hne) (le_refl _) (f data)
    (axes.map Fin.val)
  refine ⟨top, h1, fun x hx => ?_, ?_⟩
  · have := h3 x (by rw [hp]; exact hx)
    rwa [kf _ _ (by rw [hp]; exact hx), kf _ _ h2] at this
  · unfold plotDataX
    rw [show b.asPositionBasis = .tuple (b.fundamentalShape.map .fundamental) from rfl, hf]
    dsimp only
    rw [Option.bind_some, Option.bind_some, h4]

/-- **C126.** Data drawn in momentum space (`plot_data_1d_k`, `plot_data_2d_k`) with a given index: a point is drawn for each
wave number of the chosen axes, in ascending order from `-(n // 2)`, with the coefficient of the plane wave with these wave
numbers as value and its wave vector, projected on the reciprocal lattice vectors of the chosen axes, as coordinates. -/
theorem C126_momentum (same : Basis → Basis → Bool) (hs : Sound same) (A : Matrix (Fin d) (Fin d) ℝ) (b : Basis) (hb : Valid b)
    (ho : OrthonormalParts b) (hd : b.fundamentalShape.length = d) (axes : List (Fin d)) (hnd : axes.Nodup) (data : ℕ → ℂ)
    (top : List ℕ) (htop : InShape b.fundamentalShape top) :
    ∃ s, plotData1dK same A b data axes (some (offAxes (axes.map Fin.val) top)) = some s ∧
      plotData2dK same A b data axes (some (offAxes (axes.map Fin.val) top)) = some s ∧
      s.shape = axes.map (fun a : Fin d => b.fundamentalShape.getD a 0) ∧
      ∀ full, InShape b.fundamentalShape full → AgreeOff (axes.map Fin.val) full top →
        ∀ position, position = axes.map (fun a : Fin d => (freq (b.fundamentalShape.getD a 0) (full.getD a 0) +
          (b.fundamentalShape.getD a 0 : ℤ) / 2).toNat) →
        s.values position = planeCoefficient b.fundamentalShape (expand b data) (ravel b.fundamentalShape full) ∧
        s.coordinates position = projectPoint (axes.map fun a : Fin d => ((b.fundamentalShape.getD a 0 : ℝ) • ((2 * Real.pi) • (A⁻¹)ᵀ) a))
          (waveVector A b.fundamentalShape full) := by
  obtain ⟨f, hf, kf⟩ := convert_momentum same hs b hb ho
  refine ⟨momentumSlice A b.fundamentalShape (f data) axes (offAxes (axes.map Fin.val) top), ?_, ?_, ?_, ?_⟩
  · unfold plotData1dK; rw [hf]; rfl
  · unfold plotData2dK; rw [hf]; rfl
  · exact drawn_shape axes hnd _ top hd htop
  · rintro full hfull hag _ rfl
    obtain ⟨h1, h2⟩ := momentumSlice_entry A b.fundamentalShape hd (f data) axes hnd top htop full hfull hag
    exact ⟨h1.trans (kf _ _ (ravel_lt _ _ hfull)), h2⟩

/-- **C126.** Without an index the two dimensional slice drawn in momentum space is one through a plane wave whose coefficient
has the largest absolute value. -/
theorem C126_momentum_default (same : Basis → Basis → Bool) (hs : Sound same) (A : Matrix (Fin d) (Fin d) ℝ) (b : Basis) (hb : Valid b)
    (ho : OrthonormalParts b) (hne : 0 < points b) (axes : List (Fin d)) (data : ℕ → ℂ) :
    ∃ top, InShape b.fundamentalShape top ∧
      (∀ k < points b, ‖planeCoefficient b.fundamentalShape (expand b data) k‖ ≤
        ‖planeCoefficient b.fundamentalShape (expand b data) (ravel b.fundamentalShape top)‖) ∧
      plotData2dK same A b data axes none = plotData2dK same A b data axes (some (offAxes (axes.map Fin.val) top)) := by
  obtain ⟨f, hf, kf⟩ := convert_momentum same hs b hb ho
  have hp := fundamentalShape_prod b
  obtain ⟨top, h1, h2, h3, h4⟩ := getMaxIdx_eq b.fundamentalShape b.fundamentalShape.prod (by rw [hp]; exact hne) (le_refl _) (f data)
    (axes.map Fin.val)
  refine ⟨top, h1, fun x hx => ?_, ?_⟩
  · have := h3 x (by rw [hp]; exact hx)
    rwa [kf _ _ (by rw [hp]; exact hx), kf _ _ h2] at this
  · unfold plotData2dK
    rw [hf]
    dsimp only
    rw [Option.bind_some, Option.bind_some, h4]

/-- **C126.** What `plot_data_1d_k` does without an index: the line drawn in momentum space goes through the index at which the
coefficients in the basis given (not those of the plane waves) are largest. Only part of the claim, which asks for the largest
plane wave: both agree for a basis of momentum states, see `C126_line_negation` for other bases. -/
theorem C126_line_default_partial (same : Basis → Basis → Bool) (A : Matrix (Fin d) (Fin d) ℝ) (b : Basis)
    (hne : 0 < b.n) (hle : b.n ≤ b.fundamentalShape.prod) (axes : List (Fin d)) (data : ℕ → ℂ) :
    ∃ top, InShape b.fundamentalShape top ∧ (∀ k < b.n, ‖data k‖ ≤ ‖data (ravel b.fundamentalShape top)‖) ∧
      plotData1dK same A b data axes none = plotData1dK same A b data axes (some (offAxes (axes.map Fin.val) top)) := by
  obtain ⟨top, h1, h2, h3, h4⟩ := getMaxIdx_eq b.fundamentalShape b.n hne hle data (axes.map Fin.val)
  refine ⟨top, h1, h3, ?_⟩
  unfold plotData1dK
  dsimp only
  rw [h4]

/-! ## A line which misses the largest coefficient -/

theorem planeWave_two (k x : ℕ) (hk : k < 2) (hx : x < 2) :
    planeWave 2 k x = (if k = 1 ∧ x = 1 then -1 else 1) / (Real.sqrt 2 : ℂ) := by
  unfold planeWave
  push_cast
  congr 1
  interval_cases k <;> interval_cases x
  · simp
  · simp
  · simp
  · rw [show 2 * (Real.pi : ℂ) * Complex.I * ((1 : ℕ) : ℂ) * ((1 : ℕ) : ℂ) / 2 = Real.pi * Complex.I by push_cast; ring]
    simpa using Complex.exp_pi_mul_I

theorem planeCoefficient_two (E : ℕ → ℂ) (a c : ℕ) (ha : a < 2) (hc : c < 2) :
    planeCoefficient [2, 2] E (2 * a + c) = (E 0 + (if c = 1 then -1 else 1) * E 1 + (if a = 1 then -1 else 1) * E 2 +
      (if a = 1 then -1 else 1) * (if c = 1 then -1 else 1) * E 3) / 2 := by
  have hst : ∀ x < 4, state (.tuple ([2, 2].map .fundamentalTransformed)) (2 * a + c) x =
      planeWave 2 a (x / 2 : ℕ) * planeWave 2 c (x % 2 : ℕ) := by
    intro x hx
    show planeWave 2 (((2 * a + c) / (2 * 1) : ℕ) : ℤ) (x / (2 * 1)) * (planeWave 2 ((((2 * a + c) % (2 * 1)) / 1 : ℕ) : ℤ) (x % (2 * 1) / 1) * 1) = _
    rw [show (2 * a + c) / (2 * 1) = a by omega, show (2 * a + c) % (2 * 1) / 1 = c by omega, mul_one, mul_one, Nat.div_one]
  have hs : (Real.sqrt 2 : ℂ) * (Real.sqrt 2 : ℂ) = 2 := by
    rw [← Complex.ofReal_mul, Real.mul_self_sqrt (by norm_num)]
    norm_num
  have hs0 : (Real.sqrt 2 : ℂ) ≠ 0 := by
    intro h; rw [h] at hs; norm_num at hs
  unfold planeCoefficient
  rw [show ([2, 2] : List ℕ).prod = 4 from rfl, sum_congr rfl fun x hx => by rw [hst x (mem_range.1 hx), map_mul,
    planeWave_two a (x / 2) ha (by have := mem_range.1 hx; omega), planeWave_two c (x % 2) hc (by omega)]]
  simp only [sum_range_succ, sum_range_zero]
  have key : ∀ u v E : ℂ, u / (Real.sqrt 2 : ℂ) * (v / (Real.sqrt 2 : ℂ)) * E = u * v * E / 2 := by
    intro u v E
    rw [div_mul_div_comm, hs]; ring
  simp only [map_div₀, Complex.conj_ofReal, key]
  interval_cases a <;> interval_cases c <;> norm_num <;> ring

/-- **C126.** The default line of `plot_data_1d_k` may miss the largest coefficient: for the values 1, 2, 1, 2 at the points of a grid
of 2 × 2 points, the line drawn along the first axis has values below 2, whereas the largest coefficient of a plane wave is 3. -/
theorem C126_line_negation (same : Basis → Basis → Bool) (hs : Sound same) (A : Matrix (Fin 2) (Fin 2) ℝ) :
    ∃ data : ℕ → ℂ, ∃ s, plotData1dK same A (.tuple [.fundamental 2, .fundamental 2]) data [0] none = some s ∧ s.shape = [2] ∧
      (∀ p < 2, ‖s.values [p]‖ < 2) ∧
      ‖planeCoefficient [2, 2] (expand (.tuple [.fundamental 2, .fundamental 2]) data) 0‖ = 3 := by
  set b : Basis := .tuple [.fundamental 2, .fundamental 2] with hb
  have hshape : b.fundamentalShape = [2, 2] := rfl
  let data : ℕ → ℂ := fun x => if x % 2 = 0 then 1 else 2
  have hval : Valid b := ⟨trivial, trivial, trivial⟩
  have hort : OrthonormalParts b := orthonormalParts_fundamental [2, 2]
  have hexp : ∀ x < 4, expand b data x = data x := fun x hx => expand_position [2, 2] data hx
  have hcoef : ∀ a c, a < 2 → c < 2 → planeCoefficient [2, 2] (expand b data) (2 * a + c) =
      (1 + (if c = 1 then -1 else 1) * 2 + (if a = 1 then -1 else 1) * 1 +
      (if a = 1 then -1 else 1) * (if c = 1 then -1 else 1) * 2) / 2 := by
    intro a c ha hc
    rw [planeCoefficient_two _ a c ha hc, hexp 0 (by norm_num), hexp 1 (by norm_num), hexp 2 (by norm_num), hexp 3 (by norm_num)]
    simp [data]
  obtain ⟨top, h1, h2, h3⟩ := C126_line_default_partial same A b (show 0 < b.n by rw [Basis.n_eq]; decide)
    (show b.n ≤ b.fundamentalShape.prod by rw [Basis.n_eq]; decide) [0] data
  rw [hshape] at h1
  obtain ⟨t, u, rfl⟩ : ∃ t u, top = [t, u] := by
    match top, h1 with
    | [t, u], _ => exact ⟨t, u, rfl⟩
  obtain ⟨ht, hu, _⟩ := h1
  have hu1 : u = 1 := by
    have := h2 1 (show 1 < b.n by rw [Basis.n_eq]; decide)
    rw [hshape, show ravel [2, 2] [t, u] = t * 2 + u from by simp [ravel]] at this
    by_contra hne
    have hu0 : u = 0 := by omega
    subst hu0
    simp only [data, add_zero, Nat.mul_mod_left, if_true] at this
    norm_num at this
  subst hu1
  obtain ⟨s, e1, _, e3, e4⟩ := C126_momentum same hs A b hval hort rfl [0] (by simp) data [t, 1] (by rw [hshape]; exact ⟨ht, by norm_num, trivial⟩)
  refine ⟨data, s, h3.trans e1, by rw [e3]; rfl, ?_, ?_⟩
  · intro p hp
    have hag : ∀ j, AgreeOff ([(0 : Fin 2)].map Fin.val) [j, 1] [t, 1] := by
      intro j i hi
      rcases i with _ | i
      · simp at hi
      · rfl
    have key : ∀ j < 2, ∀ q, [q] = [(0 : Fin 2)].map (fun a : Fin 2 => (freq (b.fundamentalShape.getD a 0) (([j, 1] : List ℕ).getD a 0) +
        (b.fundamentalShape.getD a 0 : ℤ) / 2).toNat) → s.values [q] = planeCoefficient [2, 2] (expand b data) (2 * j + 1) := by
      intro j hj q hq
      rw [(e4 [j, 1] (by rw [hshape]; exact ⟨hj, by norm_num, trivial⟩) (hag j) [q] hq).1, hshape]
      simp [ravel, mul_comm]
    interval_cases p
    · rw [key 1 (by norm_num) 0 (by rw [hshape]; decide), hcoef 1 1 (by norm_num) (by norm_num)]
      norm_num
    · rw [key 0 (by norm_num) 1 (by rw [hshape]; decide), hcoef 0 1 (by norm_num) (by norm_num)]
      norm_num
  · have := hcoef 0 0 (by norm_num) (by norm_num)
    rw [show 2 * 0 + 0 = 0 from rfl] at this
    rw [this]
    norm_num

-- a grid of 2 × 3 points, the first axis drawn through the second point of the other axis
example : ∃ b : Basis, Valid b ∧ OrthonormalParts b ∧ b.fundamentalShape = [2, 3] ∧ InShape [2, 3] [0, 1] ∧ offAxes [0] [0, 1] = [1] :=
  ⟨.tuple [.fundamental 2, .fundamental 3], ⟨trivial, trivial, trivial⟩, orthonormalParts_fundamental [2, 3], rfl,
    ⟨by norm_num, by norm_num, trivial⟩, by decide⟩

end Verif
