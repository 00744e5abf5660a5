import Verif.Model.PotentialPlots
import Verif.Props.C147_PositionMomentum
import Verif.Props.C127_PlotLine
import Verif.Props.C57_KernelFftStacked
import Verif.Props.C132_Collapse

/-!
C150: what is drawn for potentials.
-/

set_option autoImplicit false

namespace Verif

open Finset Spec

variable {d : ℕ}

/-! ## Sites -/

/-- The sites of a (111) surface, as fractions of the sides of the unit cell, counted from the FCC site. -/
noncomputable def Spec.sites111 : List (String × ℝ × ℝ) :=
  [("Top Site", 2 / 3, 2 / 3), ("Bridge Site", 1 / 6, 1 / 6), ("FCC Site", 0, 0), ("HCP Site", 1 / 3, 1 / 3)]

/-- The sites of a (100) surface, as fractions of the sides of the unit cell, counted from the hollow site. -/
noncomputable def Spec.sites100 : List (String × ℝ × ℝ) := [("Hollow Site", 0, 0), ("Bridge Site", 1 / 2, 0), ("Top Site", 1 / 2, 1 / 2)]

/-- The last of the `n` points of an axis before (or at) a fraction of the axis is `i` points after `o`; with `m` dividing `n` the fraction is
met exactly. -/
def Spec.SitePoint (m n : ℕ) (o i : ℤ) (f : ℝ) : Prop :=
  ((i - o : ℤ) : ℝ) ≤ f * n ∧ f * n < ((i - o : ℤ) : ℝ) + 1 ∧ (m ∣ n → ((i - o : ℤ) : ℝ) = f * n)

/-- One entry of the result belongs to one site. -/
def Spec.IsSite (m n0 n1 : ℕ) (offset : ℤ × ℤ) (p : String × ℤ × ℤ) (s : String × ℝ × ℝ) : Prop :=
  p.1 = s.1 ∧ SitePoint m n0 offset.1 p.2.1 s.2.1 ∧ SitePoint m n1 offset.2 p.2.2 s.2.2

theorem sitePoint_div (m n q c : ℕ) (o : ℤ) (hq : 0 < q) (h : m ∣ n → q ∣ c * n) : SitePoint m n o (((c * n) / q : ℕ) + o) ((c : ℝ) / q) := by
  have hq' : (0 : ℝ) < q := by exact_mod_cast hq
  unfold SitePoint
  rw [show (((c * n) / q : ℕ) : ℤ) + o - o = (((c * n) / q : ℕ) : ℤ) by ring, Int.cast_natCast]
  have e : (c : ℝ) / q * n = ((c * n : ℕ) : ℝ) / q := by push_cast; ring
  rw [e]
  refine ⟨Nat.cast_div_le, ?_, fun hm => ?_⟩
  · rw [div_lt_iff₀ hq']
    have := Nat.lt_mul_div_succ (c * n) hq
    have h2 : ((c * n : ℕ) : ℝ) < ((q * (c * n / q + 1) : ℕ) : ℝ) := by exact_mod_cast this
    push_cast at h2 ⊢
    linarith
  · rw [Nat.cast_div (h hm) (by positivity)]

/-- **C150.** The comparison points of (111) surfaces are the points of the grid at the sites, rounded down if the numbers of points are not
divisible by six. -/
theorem C150_sites_111 (n0 n1 : ℕ) (offset : ℤ × ℤ) :
    List.Forall₂ (IsSite 6 n0 n1 offset) (comparisonPoints111 n0 n1 offset) sites111 := by
  have h6 : ∀ (q c n : ℕ), q ∣ 6 → 6 ∣ n → q ∣ c * n := fun q c n hq hn => (hq.trans hn).mul_left c
  have h2 := fun n o => sitePoint_div 6 n 3 2 o (by norm_num) (h6 3 2 n (by norm_num))
  have h1 := fun n o => sitePoint_div 6 n 6 1 o (by norm_num) (h6 6 1 n (by norm_num))
  have h3 := fun n o => sitePoint_div 6 n 3 1 o (by norm_num) (h6 3 1 n (by norm_num))
  have h0 : ∀ n o, SitePoint 6 n o o 0 := fun n o => by simp [SitePoint]
  simp only [one_mul, Nat.cast_ofNat, Nat.cast_one] at h1 h2 h3
  unfold comparisonPoints111 sites111
  exact .cons ⟨rfl, h2 _ _, h2 _ _⟩ (.cons ⟨rfl, h1 _ _, h1 _ _⟩ (.cons ⟨rfl, h0 _ _, h0 _ _⟩ (.cons ⟨rfl, h3 _ _, h3 _ _⟩ .nil)))

/-- **C150.** The comparison points of (100) surfaces are the points of the grid at the sites, rounded down if the numbers of points are odd. -/
theorem C150_sites_100 (n0 n1 : ℕ) (offset : ℤ × ℤ) :
    List.Forall₂ (IsSite 2 n0 n1 offset) (comparisonPoints100 n0 n1 offset) sites100 := by
  have h2 := fun n o => sitePoint_div 2 n 2 1 o (by norm_num) (fun h => by simpa using h)
  have h0 : ∀ n o, SitePoint 2 n o o 0 := fun n o => by simp [SitePoint]
  simp only [one_mul, Nat.cast_ofNat, Nat.cast_one] at h2
  unfold comparisonPoints100 sites100
  exact .cons ⟨rfl, h0 _ _, h0 _ _⟩ (.cons ⟨rfl, h2 _ _, by rw [zero_add]; exact h0 _ _⟩ (.cons ⟨rfl, h2 _ _, h2 _ _⟩ .nil))

/-- On twelve by seven points. -/
example : comparisonPoints111 12 7 (1, 0) = [("Top Site", 9, 4), ("Bridge Site", 3, 1), ("FCC Site", 1, 0), ("HCP Site", 5, 2)] := by decide

/-! ## Lines at the sites -/

theorem arrayIndex_nat {n : ℕ} {i : ℤ} (h0 : 0 ≤ i) (h : i < n) : arrayIndex n i = some i.toNat := by
  unfold arrayIndex
  rw [if_pos ⟨by omega, h⟩, Int.emod_eq_of_lt h0 h]

/-- A line through the grid at given points of the first two axes: one point for each point of the last axis, and the first once more, with the real
part of the potential as values. -/
def Spec.IsLineAt (n2 : ℕ) (V : List ℕ → ℂ) (p : String × ℤ × ℤ) (l : String × DrawnLine) : Prop :=
  l.1 = p.1 ∧ l.2.n = n2 + 1 ∧ (∀ k < n2, l.2.values k = (V [p.2.1.toNat, p.2.2.toNat, k]).re) ∧ l.2.values n2 = l.2.values 0

/-- **C150.** The lines drawn for a comparison at points inside of the grid show, with the labels of the points, the values of the potential above
each point. -/
theorem C150_comparison_partial (same : Basis → Basis → Bool) (hs : Sound same) (A : Matrix (Fin 3) (Fin 3) ℝ) (b : Basis) (hb : Valid b)
    (ho : OrthonormalParts b) (n0 n1 n2 : ℕ) (hshape : b.fundamentalShape = [n0, n1, n2]) (h2 : 2 ≤ n2) (V : ℕ → ℂ)
    (points : List (String × ℤ × ℤ)) (hin : ∀ p ∈ points, (0 ≤ p.2.1 ∧ p.2.1 < n0) ∧ 0 ≤ p.2.2 ∧ p.2.2 < n1) :
    ∃ lines, plotPotential1dComparison same A b V points = some lines ∧
      List.Forall₂ (IsLineAt n2 fun full => expand b V (ravel [n0, n1, n2] full)) points lines := by
  refine mapM_forall₂ _ _ points fun p hp => ?_
  obtain ⟨⟨h1, h1'⟩, h3, h3'⟩ := hin p hp
  have hi : p.2.1.toNat < n0 := by omega
  have hj : p.2.2.toNat < n1 := by omega
  obtain ⟨line, hl, hn, _, hv, he⟩ := C126_line_x same hs A b hb ho (by rw [hshape]; rfl) 2 V .real [p.2.1.toNat, p.2.2.toNat, 0]
    (by rw [hshape]; exact ⟨hi, hj, by omega, trivial⟩) n2 (by rw [hshape]; rfl) h2
  refine ⟨(p.1, line), ?_, rfl, hn, fun k hk => ?_, he⟩
  · rw [hshape, List.getD_cons_zero, List.getD_cons_succ, List.getD_cons_zero, arrayIndex_nat h1 h1', Option.bind_some, arrayIndex_nat h3 h3',
      Option.bind_some]
    unfold plotPotential1dX
    have e : offAxes [((2 : Fin 3) : ℕ)] [p.2.1.toNat, p.2.2.toNat, 0] = [p.2.1.toNat, p.2.2.toNat] := by
      simp [offAxes, List.range_succ]
    rw [e] at hl
    rw [hl, Option.map_some]
  · have := hv k hk
    rw [this]
    dsimp only [getMeasuredData]
    rw [hshape]
    rfl

/-- **C150.** Both comparisons of sites without an offset. -/
theorem C150_comparison_sites (same : Basis → Basis → Bool) (hs : Sound same) (A : Matrix (Fin 3) (Fin 3) ℝ) (b : Basis) (hb : Valid b)
    (ho : OrthonormalParts b) (n0 n1 n2 : ℕ) (h0 : 0 < n0) (h1 : 0 < n1) (hshape : b.fundamentalShape = [n0, n1, n2]) (h2 : 2 ≤ n2) (V : ℕ → ℂ) :
    (∃ lines, plotComparison111 same A b V (0, 0) = some lines ∧
      List.Forall₂ (IsLineAt n2 fun full => expand b V (ravel [n0, n1, n2] full)) (comparisonPoints111 n0 n1 (0, 0)) lines) ∧
    ∃ lines, plotComparison100 same A b V (0, 0) = some lines ∧
      List.Forall₂ (IsLineAt n2 fun full => expand b V (ravel [n0, n1, n2] full)) (comparisonPoints100 n0 n1 (0, 0)) lines := by
  unfold plotComparison111 plotComparison100
  rw [hshape, List.getD_cons_zero, List.getD_cons_succ, List.getD_cons_zero]
  constructor
  · refine C150_comparison_partial same hs A b hb ho n0 n1 n2 hshape h2 V _ fun p hp => ?_
    simp only [comparisonPoints111, List.mem_cons, List.not_mem_nil, or_false] at hp
    rcases hp with rfl | rfl | rfl | rfl <;> dsimp only <;> omega
  · refine C150_comparison_partial same hs A b hb ho n0 n1 n2 hshape h2 V _ fun p hp => ?_
    simp only [comparisonPoints100, List.mem_cons, List.not_mem_nil, or_false] at hp
    rcases hp with rfl | rfl | rfl <;> dsimp only <;> omega

/-- A potential on three by four by two points. -/
example : ∃ b : Basis, Valid b ∧ OrthonormalParts b ∧ b.fundamentalShape = [3, 4, 2] :=
  ⟨.tuple [.fundamental 3, .fundamental 4, .fundamental 2], by simp [Valid, Valids], by simp [OrthonormalParts, OrthonormalPartss], rfl⟩

/-- **C150** fails for offsets: with the FCC site at the point `(1, 1)` of three by three points, the point of the top site is not wrapped into the grid,
and the function raises. -/
theorem C150_offset_negation (same : Basis → Basis → Bool) (A : Matrix (Fin 3) (Fin 3) ℝ) (b : Basis) (n2 : ℕ)
    (hshape : b.fundamentalShape = [3, 3, n2]) (V : ℕ → ℂ) : plotComparison111 same A b V (1, 1) = none := by
  unfold plotComparison111 plotPotential1dComparison
  rw [hshape, List.getD_cons_zero, List.getD_cons_succ, List.getD_cons_zero]
  refine mapM_eq_none _ _ ("Top Site", 3, 3) (by decide) ?_
  rfl

/-! ## Slices and differences -/

theorem positionAxes_tuple (axes : List Basis) : Basis.tuple (positionAxes axes) = (Basis.tuple axes).asPositionBasis := by
  have : ∀ axes : List Basis, positionAxes axes = ((Basis.methodsList axes).map Methods.fn).map Basis.fundamental := by
    intro axes
    induction axes with
    | nil => rfl
    | cons a axes ih =>
      rw [Basis.methodsList, List.map_cons, List.map_cons, ← ih]
      rfl
  rw [this, Basis.asPositionBasis, Basis.fundamentalShape]

/-- **C150.** A slice through a potential: the values of the potential at the points of the slice, with the coordinates of these points. -/
theorem C150_slice (same : Basis → Basis → Bool) (hs : Sound same) (A : Matrix (Fin d) (Fin d) ℝ) (b : List Basis) (hb : Valids b)
    (ho : OrthonormalPartss b) (shape : List ℕ) (hshape : (Basis.tuple b).fundamentalShape = shape) (hd : shape.length = d) (axes : List (Fin d))
    (hnd : axes.Nodup) (V : ℕ → ℂ) (top : List ℕ) (htop : InShape shape top) :
    ∃ s, plotPotential2dX same A b V axes (some (offAxes (axes.map Fin.val) top)) = some s ∧
      s.shape = axes.map (fun a : Fin d => shape.getD a 0) ∧
      ∀ full, InShape shape full → AgreeOff (axes.map Fin.val) full top →
        s.values (onAxes (axes.map Fin.val) full) = expand (.tuple b) V (ravel shape full) ∧
        s.coordinates (onAxes (axes.map Fin.val) full) = projectPoint (axes.map fun a => A a) (gridPoint A shape full) := by
  obtain ⟨W, hW, kW, _⟩ := C147_potential same hs b hb ho V
  have hps : (Basis.tuple b).asPositionBasis.fundamentalShape = shape := by rw [fundamentalShape_asPosition, hshape]
  obtain ⟨s, h1, h2, h3⟩ := C126_position same hs A (Basis.tuple b).asPositionBasis (valid_position _) (orthonormalParts_position _)
    (by rw [hps, hd]) axes hnd W top (by rw [hps]; exact htop)
  rw [hps] at h2 h3
  refine ⟨s, ?_, h2, fun full hf hagree => ?_⟩
  · unfold plotPotential2dX
    rw [hW, Option.bind_some, positionAxes_tuple]
    exact h1
  · obtain ⟨h4, h5⟩ := h3 full hf hagree
    have hlt : ravel shape full < points (.tuple b) := by
      rw [← fundamentalShape_prod, hshape]
      exact ravel_lt _ _ hf
    exact ⟨by rw [h4, expand_asPosition _ _ hlt, kW _ hlt], h5⟩

/-- **C150.** A slice through the difference of two potentials, given in whatever bases of the same grid, where the first one has as many states as
points: the values are the differences of the values of the potentials at the points of the slice. -/
theorem C150_difference (same : Basis → Basis → Bool) (hs : Sound same) (A : Matrix (Fin d) (Fin d) ℝ) (b0 b1 : List Basis) (hb0 : Valids b0)
    (ho0 : OrthonormalPartss b0) (hb1 : Valids b1) (ho1 : OrthonormalPartss b1) (hc : Compatible (.tuple b1) (.tuple b0))
    (hfull : size (.tuple b0) = points (.tuple b0)) (shape : List ℕ) (hshape : (Basis.tuple b0).fundamentalShape = shape) (hd : shape.length = d)
    (axes : List (Fin d)) (hnd : axes.Nodup) (V0 V1 : ℕ → ℂ) (top : List ℕ) (htop : InShape shape top) :
    ∃ s, plotPotentialDifference2dX same A b0 b1 V0 V1 axes (some (offAxes (axes.map Fin.val) top)) = some s ∧
      s.shape = axes.map (fun a : Fin d => shape.getD a 0) ∧
      ∀ full, InShape shape full → AgreeOff (axes.map Fin.val) full top →
        s.values (onAxes (axes.map Fin.val) full) = expand (.tuple b0) V0 (ravel shape full) - expand (.tuple b1) V1 (ravel shape full) := by
  obtain ⟨f, hf, kf⟩ := expand_convert same hs (.tuple b1) (.tuple b0) hb1 hb0 ho1 ho0 hc hfull
  obtain ⟨s, h1, h2, h3⟩ := C150_slice same hs A b0 hb0 ho0 shape hshape hd axes hnd (fun k => V0 k - f V1 k) top htop
  refine ⟨s, ?_, h2, fun full hin hagree => ?_⟩
  · unfold plotPotentialDifference2dX convertPotential
    rw [hf]
    exact h1
  · rw [(h3 full hin hagree).1]
    have hlt : ravel shape full < points (.tuple b1) := by
      rw [compatible_points _ _ hc, ← fundamentalShape_prod, hshape]
      exact ravel_lt _ _ hin
    rw [← kf V1 _ hlt]
    unfold expand
    rw [← sum_sub_distrib]
    exact sum_congr rfl fun j _ => by ring

/-- A potential at two by three points and one given by plane waves. -/
example : ∃ b0 b1 : List Basis, Valids b0 ∧ OrthonormalPartss b0 ∧ Valids b1 ∧ OrthonormalPartss b1 ∧ Compatible (.tuple b1) (.tuple b0) ∧
    size (.tuple b0) = points (.tuple b0) ∧ (Basis.tuple b0).fundamentalShape = [2, 3] ∧ InShape [2, 3] [1, 2] ∧ b0 ≠ b1 := by
  refine ⟨[.fundamental 2, .fundamental 3], [.fundamentalTransformed 2, .fundamentalTransformed 3], by simp [Valids, Valid],
    by simp [OrthonormalPartss, OrthonormalParts], by simp [Valids, Valid], by simp [OrthonormalPartss, OrthonormalParts],
    ⟨rfl, rfl, trivial⟩, rfl, rfl, by simp [InShape], by simp⟩

/-! ## Animations -/

theorem offAxes_all (axes full : List ℕ) (h : ∀ i < full.length, i ∈ axes) : offAxes axes full = [] := by
  unfold offAxes
  rw [List.filter_eq_nil_iff.2, List.map_nil]
  intro i hi
  simp [h i (List.mem_range.1 hi)]

theorem shape_fundamental (ns : List ℕ) : (Basis.tuple (ns.map .fundamental)).shape = ns := by
  rw [Basis.shape]
  induction ns with
  | nil => rfl
  | cons n ns ih => rw [List.map_cons, Basis.methodsList, List.map_cons, ih]; rfl

/-- **C150.** The frames of an animation through a potential given at the points of a grid with three axes, in whatever order of the axes: the value
drawn for a point is the potential at this point. -/
theorem C150_animation_partial (n0 n1 n2 : ℕ) (V : ℕ → ℂ) (axes : List ℕ) (haxes : axes.Perm [0, 1, 2]) :
    ∃ v, animatePotential3dX (.tuple ([n0, n1, n2].map .fundamental)) V axes none = some v ∧
      ∀ full, InShape [n0, n1, n2] full → v (onAxes axes full) = V (ravel [n0, n1, n2] full) := by
  have hsz : (Basis.tuple ([n0, n1, n2].map .fundamental)).n = (Basis.tuple ([n0, n1, n2].map .fundamental)).fundamentalShape.prod := by
    rw [Basis.n_eq, fundamentalShape_prod, (fund_facts _).1, (fund_facts _).2.1]
  refine ⟨_, by unfold animatePotential3dX; rw [if_pos hsz], fun full hf => ?_⟩
  have hlen : full.length = 3 := (inShape_length _ _ hf).symm
  have hmem : ∀ i < full.length, i ∈ axes := fun i hi => by
    rw [haxes.mem_iff]
    have : i = 0 ∨ i = 1 ∨ i = 2 := by omega
    rcases this with rfl | rfl | rfl <;> simp
  rw [shape_fundamental]
  have e : (none : Option (List ℕ)).getD (List.replicate ([n0, n1, n2].length - 3) 0) = offAxes axes full := by rw [offAxes_all _ _ hmem]; rfl
  rw [e]
  refine C07_data _ _ _ (haxes.nodup_iff.2 (by decide)) fun x hx => ?_
  rw [haxes.mem_iff] at hx
  simp only [List.mem_cons, List.not_mem_nil, or_false] at hx
  omega

/-- **C150.** The animation of the relative difference to another potential, given in whatever basis of the same grid. -/
theorem C150_animation_difference_partial (same : Basis → Basis → Bool) (hs : Sound same) (n0 n1 n2 : ℕ) (b : Basis) (hb : Valid b)
    (ho : OrthonormalParts b) (hc : Compatible b (.tuple ([n0, n1, n2].map .fundamental))) (V0 V1 : ℕ → ℂ) (axes : List ℕ)
    (haxes : axes.Perm [0, 1, 2]) :
    ∃ v, animatePotentialDifference3dX same (.tuple ([n0, n1, n2].map .fundamental)) b V0 V1 axes none = some v ∧
      ∀ full, InShape [n0, n1, n2] full → v (onAxes axes full) =
        ((‖V0 (ravel [n0, n1, n2] full) - expand b V1 (ravel [n0, n1, n2] full)‖ / ‖V0 (ravel [n0, n1, n2] full)‖ : ℝ) : ℂ) := by
  obtain ⟨f, hf, kf⟩ := convert_position same hs b hb ho [n0, n1, n2] hc
  obtain ⟨v, hv, kv⟩ := C150_animation_partial n0 n1 n2 (fun k => ((‖(V0 k - f V1 k) / V0 k‖ : ℝ) : ℂ)) axes haxes
  refine ⟨v, by unfold animatePotentialDifference3dX; rw [hf]; exact hv, fun full hin => ?_⟩
  rw [kv full hin, kf V1 _ (ravel_lt _ _ hin), norm_div]

/-- **C150** fails for potentials which are not given at points: a potential which is not zero at any point is drawn as zero. -/
theorem C150_animation_negation : ∃ (b : Basis) (V : ℕ → ℂ) (v : List ℕ → ℂ), Valid b ∧ OrthonormalParts b ∧ b.fundamentalShape = [2, 1, 1] ∧
    animatePotential3dX b V [0, 1, 2] none = some v ∧ (∀ x < 2, expand b V x ≠ 0) ∧ v [1, 0, 0] = 0 := by
  refine ⟨.tuple [.fundamentalTransformed 2, .fundamental 1, .fundamental 1], unit 0, _, by simp [Valid, Valids],
    by simp [OrthonormalParts, OrthonormalPartss], rfl, by unfold animatePotential3dX; rw [if_pos (by rfl)], fun x hx => ?_, ?_⟩
  · have h2 : size (Basis.tuple [.fundamentalTransformed 2, .fundamental 1, .fundamental 1]) = 2 := rfl
    unfold expand unit
    rw [h2, sum_eq_single 0 (fun j _ hj => by simp [hj]) (by simp), if_pos rfl, one_mul]
    interval_cases x <;> simp [state, states, sizes, pointss, size, points, planeWave]
  · have := C07_data (fun full => unit 0 (ravel [2, 1, 1] full)) [0, 1, 2] [1, 0, 0] (by decide) (by decide)
    have e1 : offAxes [0, 1, 2] [1, 0, 0] = [] := offAxes_all _ _ (by decide)
    have e2 : onAxes [0, 1, 2] [1, 0, 0] = [1, 0, 0] := rfl
    rw [e1, e2] at this
    exact this.trans (by simp [unit, ravel])

/-! ## Uneven potentials -/

/-- **C150.** Uneven potentials: a line above a point of the first two axes has the height and the energy of every point above it, in order. Negative
indices count from the end; other points outside of the grid raise. -/
theorem C150_uneven (n0 n1 n2 : ℕ) (zPoints V : ℕ → ℝ) (i j : ℤ) :
    ((-n0 ≤ i ∧ i < n0) ∧ (-n1 ≤ j ∧ j < n1) → ∃ points, plotUnevenPotentialZ n0 n1 n2 zPoints V (i, j) = some points ∧ points.length = n2 ∧
      ∀ k < n2, points[k]? = some (zPoints k, V (((if i < 0 then i + n0 else i).toNat * n1 + (if j < 0 then j + n1 else j).toNat) * n2 + k))) ∧
    (¬((-n0 ≤ i ∧ i < n0) ∧ (-n1 ≤ j ∧ j < n1)) → plotUnevenPotentialZ n0 n1 n2 zPoints V (i, j) = none) := by
  have hmod : ∀ (n : ℕ) (i : ℤ), -n ≤ i → i < n → i % n = if i < 0 then i + n else i := by
    intro n i h1 h2
    split
    · next h => rw [← Int.add_emod_right, Int.emod_eq_of_lt (by omega) (by omega)]
    · next h => exact Int.emod_eq_of_lt (by omega) h2
  unfold plotUnevenPotentialZ arrayIndex
  constructor
  · rintro ⟨⟨h1, h2⟩, h3, h4⟩
    dsimp only
    rw [if_pos ⟨h1, h2⟩, if_pos ⟨h3, h4⟩, hmod n0 i h1 h2, hmod n1 j h3 h4]
    refine ⟨_, rfl, by simp, fun k hk => ?_⟩
    rw [List.getElem?_map, List.getElem?_range hk, Option.map_some]
    simp only [ravel, List.prod_cons, List.prod_nil, mul_one, add_zero]
    congr 3
    ring
  · intro h
    dsimp only
    by_cases h0 : -(n0 : ℤ) ≤ i ∧ i < n0
    · rw [if_pos h0, if_neg fun h1 => h ⟨h0, h1⟩]
      rfl
    · rw [if_neg h0]
      rfl

/-- The last point of the first axis, on two by two by three points. -/
example (zPoints V : ℕ → ℝ) : ∃ points, plotUnevenPotentialZ 2 2 3 zPoints V (-1, 1) = some points ∧ points.length = 3 ∧ points[2]? = some (zPoints 2, V 11) := by
  obtain ⟨points, h1, h2, h3⟩ := (C150_uneven 2 2 3 zPoints V (-1) 1).1 (by norm_num)
  exact ⟨points, h1, h2, by simpa using h3 2 (by norm_num)⟩

/-- The line above a point of the first two axes: the heights and energies of the points, in order. -/
def Spec.lineAbove (n1 n2 : ℕ) (zPoints V : ℕ → ℝ) (i j : ℕ) : List (ℝ × ℝ) := (List.range n2).map fun k => (zPoints k, V ((i * n1 + j) * n2 + k))

theorem plotUneven_line (n0 n1 n2 : ℕ) (zPoints V : ℕ → ℝ) (i j : ℕ) (hi : i < n0) (hj : j < n1) :
    plotUnevenPotentialZ n0 n1 n2 zPoints V (i, j) = some (Spec.lineAbove n1 n2 zPoints V i j) := by
  obtain ⟨points, h, hl, hp⟩ := (C150_uneven n0 n1 n2 zPoints V i j).1 ⟨⟨by omega, by omega⟩, by omega, by omega⟩
  rw [h]
  congr 1
  apply List.ext_getElem?
  intro k
  by_cases hk : k < n2
  · rw [hp k hk]
    simp [Spec.lineAbove, hk, show ¬((i : ℤ) < 0) by omega, show ¬((j : ℤ) < 0) by omega]
  · simp [Spec.lineAbove, hk, hl]

/-- **C150.** The comparisons of uneven potentials draw the lines above the named sites: above the (111) surface, at two thirds, a sixth, none and a third of the diagonal
of the cell, and above the (100) surface at its corner, the middle of the first side, and its centre. -/
theorem C150_uneven_comparison (n0 n1 n2 : ℕ) (h0 : 0 < n0) (h1 : 0 < n1) (zPoints V : ℕ → ℝ) :
    plotUnevenComparison111 n0 n1 n2 zPoints V (0, 0) = some [
      ("Top Site", Spec.lineAbove n1 n2 zPoints V (2 * n0 / 3) (2 * n1 / 3)), ("Bridge Site", Spec.lineAbove n1 n2 zPoints V (n0 / 6) (n1 / 6)),
      ("FCC Site", Spec.lineAbove n1 n2 zPoints V 0 0), ("HCP Site", Spec.lineAbove n1 n2 zPoints V (n0 / 3) (n1 / 3))] ∧
    plotUnevenComparison100 n0 n1 n2 zPoints V (0, 0) = some [
      ("Hollow Site", Spec.lineAbove n1 n2 zPoints V 0 0), ("Bridge Site", Spec.lineAbove n1 n2 zPoints V (n0 / 2) 0),
      ("Top Site", Spec.lineAbove n1 n2 zPoints V (n0 / 2) (n1 / 2))] := by
  have l := plotUneven_line n0 n1 n2 zPoints V
  have l0 := l 0 0 h0 h1
  have l1 := l (2 * n0 / 3) (2 * n1 / 3) (by omega) (by omega)
  have l2 := l (n0 / 6) (n1 / 6) (by omega) (by omega)
  have l3 := l (n0 / 3) (n1 / 3) (by omega) (by omega)
  have l4 := l (n0 / 2) 0 (by omega) (by omega)
  have l5 := l (n0 / 2) (n1 / 2) (by omega) (by omega)
  rw [Nat.cast_zero] at l0 l4
  constructor
  · simp only [plotUnevenComparison111, plotUnevenComparison, comparisonPoints111, List.mapM_cons, List.mapM_nil, add_zero, l0, l1, l2, l3]
    rfl
  · simp only [plotUnevenComparison100, plotUnevenComparison, comparisonPoints100, List.mapM_cons, List.mapM_nil, add_zero, l0, l4, l5]
    rfl

/-- Six by six points, of which the bridge is the one with indices one and one. -/
example (zPoints V : ℕ → ℝ) : (plotUnevenComparison111 6 6 1 zPoints V (0, 0)).map (fun l => l.getD 1 ("", [])) = some ("Bridge Site", [(zPoints 0, V 7)]) := by
  rw [(C150_uneven_comparison 6 6 1 (by norm_num) (by norm_num) zPoints V).1]
  simp [Spec.lineAbove]

/-! ## Point potentials -/

theorem mem_npUnique (l : List ℝ) (a : ℝ) : a ∈ npUnique l ↔ a ∈ l := by
  unfold npUnique
  rw [Finset.mem_sort, List.mem_toFinset]

theorem mem_pointPotentialXy (n : ℕ) (x y : ℕ → ℝ) (p : ℝ × ℝ) : p ∈ pointPotentialXy n x y ↔ ∃ i < n, x i = p.1 ∧ y i = p.2 := by
  classical
  unfold pointPotentialXy
  simp only [List.mem_flatMap, List.mem_map, mem_npUnique, List.mem_filter, List.mem_range]
  constructor
  · rintro ⟨a, -, c, ⟨i, ⟨hi, hx⟩, hy⟩, rfl⟩
    exact ⟨i, hi, by simpa using hx, hy⟩
  · rintro ⟨i, hi, hx, hy⟩
    exact ⟨p.1, ⟨i, hi, hx⟩, p.2, ⟨i, ⟨hi, by simpa using hx⟩, hy⟩, rfl⟩

theorem pairwise_npUnique (l : List ℝ) : (npUnique l).Pairwise (· < ·) := (Finset.sortedLT_sort l.toFinset).pairwise

/-- **C150.** The locations of a point potential: each location of a point is listed once, in ascending order of `x`, then of `y`. -/
theorem C150_locations (n : ℕ) (x y : ℕ → ℝ) :
    (∀ p, p ∈ pointPotentialXy n x y ↔ ∃ i < n, x i = p.1 ∧ y i = p.2) ∧
      (pointPotentialXy n x y).Pairwise fun p q => p.1 < q.1 ∨ p.1 = q.1 ∧ p.2 < q.2 := by
  classical
  refine ⟨mem_pointPotentialXy n x y, ?_⟩
  unfold pointPotentialXy
  rw [List.pairwise_flatMap]
  refine ⟨fun a _ => ?_, ?_⟩
  · rw [List.pairwise_map]
    exact (pairwise_npUnique _).imp fun h => Or.inr ⟨rfl, h⟩
  · refine (pairwise_npUnique _).imp fun h p hp q hq => ?_
    obtain ⟨_, _, rfl⟩ := List.mem_map.1 hp
    obtain ⟨_, _, rfl⟩ := List.mem_map.1 hq
    exact Or.inl h

/-- **C150.** The lines drawn for a point potential: one for each location, with the heights and energies of all the points there in the order
given; together they have as many points as the potential, that is each point is drawn exactly once. -/
theorem C150_all_z (n : ℕ) (x y z energy : ℕ → ℝ) :
    (pointPotentialAllZ n x y z energy).map Prod.fst = pointPotentialXy n x y ∧
      (∀ l ∈ pointPotentialAllZ n x y z energy, ∃ is : List ℕ, is.Pairwise (· < ·) ∧ (∀ i, i ∈ is ↔ i < n ∧ (x i, y i) = l.1) ∧
        l.2 = is.map fun i => (z i, energy i)) ∧
      ((pointPotentialAllZ n x y z energy).map fun l => l.2.length).sum = n := by
  classical
  refine ⟨?_, ?_, ?_⟩
  · unfold pointPotentialAllZ
    rw [List.map_map]
    exact List.map_id _
  · intro l hl
    unfold pointPotentialAllZ at hl
    obtain ⟨p, hp, rfl⟩ := List.mem_map.1 hl
    refine ⟨_, ?_, fun i => ?_, rfl⟩
    · exact List.Pairwise.filter _ List.pairwise_lt_range
    · rw [List.mem_filter, List.mem_range, decide_eq_true_eq, Prod.ext_iff]
  · have hnd : (pointPotentialXy n x y).Nodup := (C150_locations n x y).2.imp fun {p q} h hpq => by
      subst hpq
      rcases h with h | ⟨_, h⟩ <;> exact lt_irrefl _ h
    unfold pointPotentialAllZ
    rw [List.map_map]
    have e : ∀ p : ℝ × ℝ, ((fun l : (ℝ × ℝ) × List (ℝ × ℝ) => l.2.length) ∘ fun p : ℝ × ℝ =>
        (p, ((List.range n).filter fun i => x i = p.1 ∧ y i = p.2).map fun i => (z i, energy i))) p =
        ((range n).filter fun i => (x i, y i) = p).card := by
      intro p
      simp only [Function.comp_apply, List.length_map]
      rw [show ((List.range n).filter fun i => x i = p.1 ∧ y i = p.2) = (List.range n).filter fun i => (x i, y i) = p from
        List.filter_congr fun i _ => by simp [Prod.ext_iff]]
      rfl
    rw [List.map_congr_left fun p _ => e p, ← List.sum_toFinset _ hnd]
    have := Finset.card_eq_sum_card_fiberwise (s := range n) (t := (pointPotentialXy n x y).toFinset) (f := fun i => (x i, y i)) fun i hi => by
      rw [mem_coe, List.mem_toFinset, mem_pointPotentialXy]
      exact ⟨i, mem_range.1 (mem_coe.1 hi), rfl, rfl⟩
    rw [card_range] at this
    exact this.symm

/-- Three points, two of them at the same location. -/
example : ((0 : ℝ), (1 : ℝ)) ∈ pointPotentialXy 3 (fun i => if i = 1 then 2 else 0) fun i => if i = 1 then 0 else 1 :=
  ((C150_locations 3 _ _).1 _).2 ⟨0, by norm_num, by simp, by simp⟩

end Verif
