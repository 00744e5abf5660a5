import Verif.Model.Wannier90Run
import Verif.Props.C15_Stacked
import Verif.Props.C121_Overlaps
import Verif.Props.C122_UMat
import Verif.Props.C123_Amn

/-!
# C168: localisation with wannier90
-/

set_option autoImplicit false

namespace Verif

open Finset Spec

namespace Spec

/-- The offsets of a line, with zero for ignored axes. -/
def keptOffsets (ignore : List ℕ) (row : List ℤ) : List ℤ :=
  (List.range 3).map fun i => if i ∈ ignore then 0 else row.getD (i + 2) 0

/-- A line of neighbours, for `samples` samples: the two samples, counted from one, and the three offsets. -/
def IsNeighbour (samples : ℕ) (row : List ℤ) : Prop :=
  row.length = 5 ∧ (1 ≤ row.getD 0 0 ∧ row.getD 0 0 ≤ samples) ∧ 1 ≤ row.getD 1 0 ∧ row.getD 1 0 ≤ samples

/-- The overlaps of the states of the bands at the two samples of a line of neighbours, of which that at the second sample is moved by the reciprocal lattice vector of
the offsets (of axes which are not ignored); the bands of the first sample run fastest. -/
noncomputable def neighbourOverlaps (axes : List Basis) (ignore : List ℕ) (w : WavepacketList) (row : List ℤ) : List ℂ :=
  (List.range (size w.band)).flatMap fun n => (List.range (size w.band)).map fun m =>
    ∑ x ∈ range (pointss axes), (starRingEnd ℂ) (periodicPart w m (row.getD 0 0 - 1).toNat x) *
      (latticePhase axes (keptOffsets ignore row) x * periodicPart w n (row.getD 1 0 - 1).toNat x)

/-- The file `spa.mmn` for the lines of neighbours. -/
def IsOverlapFile (axes : List Basis) (ignore : List ℕ) (w : WavepacketList) (n : ℤ) (rows : List (List ℤ)) (f : MmnFile) : Prop :=
  f.bands = size w.band ∧ f.samples = size w.list ∧ f.neighbours = n ∧
    f.blocks = rows.map fun row => ⟨row, neighbourOverlaps axes ignore w row⟩

/-- The samples and points of each axis. -/
def cellAxes (ns : List ℕ) (axes : List Basis) : List (ℕ × ℕ) := ns.zip (axes.map points)

/-- The file `spa.amn`, which is written if the projections have states: for each sample, band and projection (the last fastest) their numbers, counted from one, and the
overlap of the Bloch state with the projection. -/
def IsProjectionFile (axes : List Basis) (ns : List ℕ) (w : WavepacketList) (o : Wannier90Options) (f : Option ((ℕ × ℕ × ℕ) × List (ℕ × ℕ × ℕ × ℂ))) : Prop :=
  match o.states with
  | none => f = none
  | some (bp, P) => f = some ((size w.band, ns.prod, o.projection), (List.range ns.prod).flatMap fun k => (List.range (size w.band)).flatMap fun m =>
      (List.range o.projection).map fun n => (m + 1, n + 1, k + 1,
        ∑ X ∈ range (unfurledShape (cellAxes ns axes)).prod, (starRingEnd ℂ) (blochWave (cellAxes ns axes) w.basis
          (fun j => w.data ((m * ns.prod + k) * size w.basis + j)) (unravel ns k) (unravel (unfurledShape (cellAxes ns axes)) X)) *
            expand bp (fun j => P (n * size bp + j)) X))

/-- The projections, if they have states, are states on all points of the samples. -/
def ProjectsOn (axes : List Basis) (ns : List ℕ) (o : Wannier90Options) : Prop :=
  ∀ p, o.states = some p → ns.length = axes.length ∧ Valid p.1 ∧ OrthonormalParts p.1 ∧ Compatible p.1 (fT (unfurledShape (cellAxes ns axes)))

/-- The file `spa.win` for `ns` samples of each axis of a lattice of which the vectors are the rows of `A`: lengths in units of `1e-10`, and unit vectors of length one
for missing axes. -/
def IsWinFile {d : ℕ} (A : Matrix (Fin d) (Fin d) ℝ) (ns : List ℕ) (bands : ℕ) (o : Wannier90Options) (setup : Bool) (f : WinFile) : Prop :=
  f.setup = setup ∧ f.iterations = o.iterations ∧ f.tolerance = o.tolerance ∧ f.window = o.window ∧ f.autoProjections = o.states.isSome ∧ f.wannier = bands ∧
    (∀ i j : Fin d, ∀ (hi : (i : ℕ) < 3) (hj : (j : ℕ) < 3), f.cell ⟨i, hi⟩ ⟨j, hj⟩ = A i j * 10 ^ 10) ∧
    (∀ i j : Fin 3, d ≤ (i : ℕ) ∨ d ≤ (j : ℕ) → f.cell i j = if i = j then 1 else 0) ∧
    f.grid.length = 3 ∧ (∀ ax < 3, f.grid.getD ax 0 = ns.getD ax 1) ∧ f.samples.length = ns.prod ∧
    ∀ a, InShape ns a → f.samples.getD (ravel ns a) [] = (List.range 3).map fun ax =>
      if ax < ns.length then (freq (ns.getD ax 0) (a.getD ax 0) : ℝ) / (ns.getD ax 0 : ℕ) else 0

end Spec

/-! ## Helpers -/

/-- An axis is kept, or replaced by all plane waves. -/
def Refined (a b : Basis) : Prop := b = a ∨ b = .fundamentalTransformed (points a)

theorem refined_mapIdx (ignore : List ℕ) : ∀ (axes : List Basis) (k : ℕ),
    List.Forall₂ Refined axes (axes.mapIdx fun i b => if i + k ∈ ignore then b else .fundamentalTransformed b.methods.fn)
  | [], _ => by simp
  | a :: axes, k => by
    rw [List.mapIdx_cons]
    refine .cons ?_ ?_
    · split
      · exact .inl rfl
      · exact .inr (by rw [(methods_sizes a).2])
    · have := refined_mapIdx ignore axes (k + 1)
      simp only [show ∀ i, i + (k + 1) = i + 1 + k from fun i => by omega] at this
      exact this

theorem shiftable_mapIdx (ignore : List ℕ) : ∀ (axes : List Basis) (k : ℕ) (o : List ℤ), axes.length ≤ o.length →
    (∀ i < o.length, i + k ∈ ignore → o[i]? = some 0) →
    Shiftable (axes.mapIdx fun i b => if i + k ∈ ignore then b else .fundamentalTransformed b.methods.fn) o
  | [], _, _, _, _ => by simp [Shiftable]
  | a :: axes, k, [], h, _ => by simp at h
  | a :: axes, k, o :: os, h, hz => by
    rw [List.mapIdx_cons]
    refine ⟨?_, ?_⟩
    · split
      · rename_i hk
        have := hz 0 (by simp) hk
        exact .inr (by simpa using this)
      · exact .inl ⟨_, rfl⟩
    · have := shiftable_mapIdx ignore axes (k + 1) os (by simpa using h) fun i hi hk => by
        have := hz (i + 1) (by simpa using hi) (by rwa [show i + 1 + k = i + (k + 1) by omega])
        simpa using this
      simp only [show ∀ i, i + (k + 1) = i + 1 + k from fun i => by omega] at this
      exact this

theorem refined_facts : ∀ {as bs : List Basis}, List.Forall₂ Refined as bs → Valids as → OrthonormalPartss as →
    Valids bs ∧ OrthonormalPartss bs ∧ Compatibles as bs ∧ pointss bs = pointss as
  | _, _, .nil, _, _ => ⟨trivial, trivial, trivial, rfl⟩
  | _, _, .cons (a := a) (b := b) h hs, hv, ho => by
    obtain ⟨h1, h2, h3, h4⟩ := refined_facts hs hv.2 ho.2
    rcases h with rfl | rfl
    · exact ⟨⟨hv.1, h1⟩, ⟨ho.1, h2⟩, ⟨compatible_refl _, h3⟩, by simp only [pointss, h4]⟩
    · refine ⟨⟨trivial, h1⟩, ⟨trivial, h2⟩, ⟨?_, h3⟩, by simp only [pointss, h4, points]⟩
      cases a <;> simp [Compatible, points]

/-- The states of the old axis are in the span of those of the new. -/
def Fixes (n m : ℕ) (S : ℕ → ℕ → ℂ) (k : ℕ) (T : ℕ → ℕ → ℂ) : Prop :=
  ∀ j < k, ∀ x < m, ∑ i ∈ range n, S i x * ∑ y ∈ range m, (starRingEnd ℂ) (S i y) * T j y = T j x

theorem fixes_self (b : Basis) (hv : Valid b) (ho : OrthonormalParts b) : Fixes (size b) (points b) (state b) (size b) (state b) := by
  intro j hj x hx
  have ob := state_orthonormal b hv ho
  rw [sum_congr rfl fun i hi => by rw [ob i (mem_range.1 hi) j hj]]
  simp only [mul_ite, mul_one, mul_zero]
  rw [sum_ite_eq', if_pos (mem_range.2 hj)]

theorem fixes_complete (n : ℕ) (k : ℕ) (T : ℕ → ℕ → ℂ) : Fixes n n (state (.fundamentalTransformed n)) k T := by
  intro j hj x hx
  have ob : Orthonormal' n n (state (.fundamentalTransformed n)) := state_orthonormal (.fundamentalTransformed n) trivial trivial
  simp only [mul_sum]
  rw [sum_comm]
  have : ∀ y ∈ range n, ∑ i ∈ range n, state (.fundamentalTransformed n) i x * ((starRingEnd ℂ) (state (.fundamentalTransformed n) i y) * T j y) =
      if x = y then T j y else 0 := by
    intro y hy
    rw [sum_congr rfl fun i _ => (mul_assoc _ _ _).symm, ← sum_mul, complete_of_orthonormal ob hx (mem_range.1 hy)]
    split <;> simp
  rw [sum_congr rfl this, sum_ite_eq, if_pos (mem_range.2 hx)]

theorem fixes_states : ∀ {as bs : List Basis}, List.Forall₂ Refined as bs → Valids as → OrthonormalPartss as →
    Fixes (sizes bs) (pointss as) (states bs) (sizes as) (states as)
  | _, _, .nil, _, _ => by
    intro j _ x _
    simp [sizes, pointss, states]
  | _, _, .cons (a := a) (b := b) (l₁ := as) (l₂ := bs) h hs, hv, ho => by
    have ih := fixes_states hs hv.2 ho.2
    have hp := (refined_facts hs hv.2 ho.2).2.2.2
    have h1 : Fixes (size b) (points a) (state b) (size a) (state a) := by
      rcases h with rfl | rfl
      · exact fixes_self _ hv.1 ho.1
      · exact fixes_complete _ _ _
    intro j hj x hx
    simp only [sizes, pointss] at hj hx ⊢
    have hsz : 0 < sizes as := Nat.pos_of_ne_zero fun e => by rw [e] at hj; simp at hj
    have hpp : 0 < pointss as := Nat.pos_of_ne_zero fun e => by rw [e] at hx; simp at hx
    have e1 := h1 (j / sizes as) (Nat.div_lt_of_lt_mul (by rwa [mul_comm])) (x / pointss as) (Nat.div_lt_of_lt_mul (by rwa [mul_comm]))
    have e2 := ih (j % sizes as) (Nat.mod_lt _ hsz) (x % pointss as) (Nat.mod_lt _ hpp)
    simp only [states, hp]
    rw [← e1, ← e2, sum_range_mul', sum_mul]
    refine sum_congr rfl fun i _ => ?_
    rw [mul_sum]
    refine sum_congr rfl fun i' hi' => ?_
    have hi' := mem_range.1 hi'
    have d1 : (i * sizes bs + i') / sizes bs = i := by rw [mul_comm, Nat.mul_add_div (by omega), Nat.div_eq_of_lt hi', add_zero]
    have d2 : (i * sizes bs + i') % sizes bs = i' := by rw [mul_comm, Nat.mul_add_mod, Nat.mod_eq_of_lt hi']
    rw [d1, d2, sum_range_mul']
    have : ∀ y ∈ range (points a), ∀ y' ∈ range (pointss as), (starRingEnd ℂ) (state b i ((y * pointss as + y') / pointss as) *
        states bs i' ((y * pointss as + y') % pointss as)) * (state a (j / sizes as) ((y * pointss as + y') / pointss as) *
        states as (j % sizes as) ((y * pointss as + y') % pointss as)) =
        (starRingEnd ℂ) (state b i y) * state a (j / sizes as) y * ((starRingEnd ℂ) (states bs i' y') * states as (j % sizes as) y') := by
      intro y _ y' hy'
      have hy' := mem_range.1 hy'
      have d1 : (y * pointss as + y') / pointss as = y := by rw [mul_comm, Nat.mul_add_div hpp, Nat.div_eq_of_lt hy', add_zero]
      have d2 : (y * pointss as + y') % pointss as = y' := by rw [mul_comm, Nat.mul_add_mod, Nat.mod_eq_of_lt hy']
      rw [d1, d2, map_mul]
      ring
    rw [sum_congr rfl fun y hy => sum_congr rfl (this y hy)]
    simp only [← mul_sum, ← sum_mul]
    ring

/-- The conversion of the wavepackets keeps their states. -/
theorem expand_refined (same : Basis → Basis → Bool) (hs : Sound same) (as bs : List Basis) (hr : List.Forall₂ Refined as bs) (hv : Valids as)
    (ho : OrthonormalPartss as) :
    ∃ f, Basis.convert same (.tuple as) (.tuple bs) = some f ∧ ∀ v, ∀ x < pointss as, expand (.tuple bs) (f v) x = expand (.tuple as) v x := by
  obtain ⟨g1, g2, g3, g4⟩ := refined_facts hr hv ho
  obtain ⟨f, hf, kf⟩ := C10_route same hs (.tuple as) (.tuple bs) hv g1 ho g3
  refine ⟨f, hf, fun v x hx => ?_⟩
  have fx := fixes_states hr hv ho
  unfold expand
  rw [sum_congr rfl fun j hj => by rw [kf v j (mem_range.1 hj)]]
  show ∑ i ∈ range (sizes bs), (∑ y ∈ range (pointss as), (starRingEnd ℂ) (states bs i y) * expand (.tuple as) v y) * states bs i x =
    ∑ j ∈ range (sizes as), v j * states as j x
  have hR : ∑ j ∈ range (sizes as), v j * states as j x = ∑ i ∈ range (sizes bs), ∑ j ∈ range (sizes as),
      v j * (states bs i x * ∑ y ∈ range (pointss as), (starRingEnd ℂ) (states bs i y) * states as j y) := by
    rw [sum_comm]
    exact sum_congr rfl fun j hj => by rw [← mul_sum, fx j (mem_range.1 hj) x hx]
  rw [hR]
  refine sum_congr rfl fun i _ => ?_
  have hL : ∑ y ∈ range (pointss as), (starRingEnd ℂ) (states bs i y) * expand (.tuple as) v y =
      ∑ j ∈ range (sizes as), ∑ y ∈ range (pointss as), (starRingEnd ℂ) (states bs i y) * (v j * states as j y) := by
    rw [sum_comm]
    exact sum_congr rfl fun y _ => by rw [← mul_sum]; rfl
  rw [hL, sum_mul]
  refine sum_congr rfl fun j _ => ?_
  rw [mul_sum, mul_sum, sum_mul]
  exact sum_congr rfl fun y _ => by ring

theorem latticePhase_refined : ∀ {as bs : List Basis}, List.Forall₂ Refined as bs → Valids as → OrthonormalPartss as → ∀ (o : List ℤ) (x : ℕ),
    latticePhase bs o x = latticePhase as o x
  | _, _, .nil, _, _, _, _ => by simp [latticePhase]
  | _, _, .cons (a := a) (b := b) h hs, hv, ho, [], _ => by simp [latticePhase]
  | _, _, .cons (a := a) (b := b) h hs, hv, ho, o :: os, x => by
    have hp := (refined_facts hs hv.2 ho.2).2.2.2
    have : points b = points a := by rcases h with rfl | rfl <;> rfl
    simp only [latticePhase, hp, this, latticePhase_refined hs hv.2 ho.2]

theorem isNeighbour_row {N : ℕ} {row : List ℤ} (h : IsNeighbour N row) :
    ∃ k0 k1 o0 o1 o2, row = [k0, k1, o0, o1, o2] ∧ (1 ≤ k0 ∧ k0 ≤ N) ∧ 1 ≤ k1 ∧ k1 ≤ N := by
  obtain ⟨h1, h2, h3⟩ := h
  match row, h1 with
  | [k0, k1, o0, o1, o2], _ => exact ⟨k0, k1, o0, o1, o2, rfl, by simpa using h2, by simpa using h3⟩

theorem neighbourOverlaps_congr (axes : List Basis) (ignore : List ℕ) (w w' : WavepacketList) (hb : size w.band = size w'.band) (row : List ℤ)
    (hr : IsNeighbour (size w'.list) row)
    (h : ∀ m < size w'.band, ∀ s < size w'.list, ∀ x < pointss axes, periodicPart w m s x = periodicPart w' m s x) :
    neighbourOverlaps axes ignore w row = neighbourOverlaps axes ignore w' row := by
  obtain ⟨k0, k1, o0, o1, o2, rfl, h0, h1⟩ := isNeighbour_row hr
  unfold neighbourOverlaps
  rw [hb, List.flatMap_def, List.flatMap_def]
  congr 1
  refine List.map_congr_left fun n hn => List.map_congr_left fun m hm => sum_congr rfl fun x hx => ?_
  rw [h m (List.mem_range.1 hm) _ (by simp only [List.getD_cons_zero]; omega) x (mem_range.1 hx),
    h n (List.mem_range.1 hn) _ (by simp only [List.getD_cons_succ, List.getD_cons_zero]; omega) x (mem_range.1 hx)]

theorem mmn_converted (same : Basis → Basis → Bool) (hs : Sound same) (axes : List Basis) (h3 : axes.length ≤ 3) (hv : Valids axes) (ho : OrthonormalPartss axes)
    (band list : Basis) (data : ℕ → ℂ) (ignore : List ℕ) (hi : ∀ i ∈ ignore, i < 3) (n : ℤ) (rows : List (List ℤ)) (hr : ∀ row ∈ rows, IsNeighbour (size list) row) :
    ∃ c, convertStateVectorList same (⟨band, list, .tuple axes, data⟩ : WavepacketList).states (.tuple (wannierAxes ignore axes)) = some c ∧
      c.basis = .tuple (wannierAxes ignore axes) ∧
      (∀ i, ∀ x < pointss axes, expand c.basis (fun j => c.data (i * size c.basis + j)) x = expand (.tuple axes) (fun j => data (i * sizes axes + j)) x) ∧
      ∃ f, mmnFile ⟨band, list, c.basis, c.data⟩ ignore ([n] :: rows) = some f ∧ IsOverlapFile axes ignore ⟨band, list, .tuple axes, data⟩ n rows f := by
  have hR : List.Forall₂ Refined axes (wannierAxes ignore axes) := refined_mapIdx ignore axes 0
  obtain ⟨g1, g2, g3, g4⟩ := refined_facts hR hv ho
  obtain ⟨f, hf, kf⟩ := expand_refined same hs axes _ hR hv ho
  generalize hcs : wannierAxes ignore axes = cs at *
  refine ⟨⟨.tuple [band, list], .tuple cs, flatten (Basis.tuple cs).n fun i => f (block (Basis.tuple axes).n data i)⟩,
    by simp [convertStateVectorList, WavepacketList.states, hf], ?_⟩
  dsimp only
  have hexp : ∀ i, ∀ x < pointss axes, expand (.tuple cs) (fun j => flatten (Basis.tuple cs).n (fun i => f (block (Basis.tuple axes).n data i)) (i * size (.tuple cs) + j)) x =
      expand (.tuple axes) (fun j => data (i * sizes axes + j)) x := by
    intro i x hx
    have e : (fun j => data (i * sizes axes + j)) = block (Basis.tuple axes).n data i := by
      rw [Basis.n_eq]
      rfl
    rw [e]
    refine Eq.trans ?_ (kf _ x hx)
    refine expand_congr _ (fun j hj => ?_) x
    have := block_flatten (n := size (.tuple cs)) (fun i => f (block (Basis.tuple axes).n data i)) i hj
    rw [Basis.n_eq (.tuple cs)]
    exact this
  have hper : ∀ m s, ∀ x < pointss axes, periodicPart ⟨band, list, .tuple cs, flatten (Basis.tuple cs).n fun i => f (block (Basis.tuple axes).n data i)⟩ m s x =
      periodicPart ⟨band, list, .tuple axes, data⟩ m s x := fun m s x hx => hexp (m * size list + s) x hx
  have hblock : ∀ row ∈ rows, mmnBlock ⟨band, list, .tuple cs, flatten (Basis.tuple cs).n fun i => f (block (Basis.tuple axes).n data i)⟩ ignore row =
      some ⟨row, neighbourOverlaps axes ignore ⟨band, list, .tuple axes, data⟩ row⟩ := by
    intro row hrow
    obtain ⟨k0, k1, o0, o1, o2, rfl, h0, h1⟩ := isNeighbour_row (hr row hrow)
    have hsh : Shiftable cs (keptOffsets ignore [k0, k1, o0, o1, o2]) := by
      rw [← hcs]
      refine shiftable_mapIdx ignore axes 0 _ (by simpa [keptOffsets] using h3) fun i hi' hk => ?_
      simp only [keptOffsets, List.length_map, List.length_range] at hi'
      simp only [add_zero] at hk
      simp [keptOffsets, List.getElem?_range hi', hk]
    rw [C121_overlaps cs (by rw [← hcs]; simpa [wannierAxes] using h3) g1 g2 band list _ ignore hi k0 k1 o0 o1 o2 h0 h1
      (keptOffsets ignore [k0, k1, o0, o1, o2]) (by simp [keptOffsets]) ?_ hsh]
    · unfold neighbourOverlaps
      congr 2
      rw [List.flatMap_def, List.flatMap_def]
      congr 1
      refine List.map_congr_left fun b _ => List.map_congr_left fun m _ => ?_
      show ∑ x ∈ range (pointss cs), _ = _
      rw [g4]
      refine sum_congr rfl fun x hx => ?_
      rw [hper _ _ x (mem_range.1 hx), hper _ _ x (mem_range.1 hx), latticePhase_refined hR hv ho]
      rfl
    · intro i hi3
      interval_cases i <;> simp [keptOffsets] <;> split <;> simp
  refine ⟨rfl, hexp, ⟨band.n, list.n, n, rows.map fun row => ⟨row, neighbourOverlaps axes ignore ⟨band, list, .tuple axes, data⟩ row⟩⟩, ?_, Basis.n_eq band, Basis.n_eq list,
    rfl, rfl⟩
  unfold mmnFile parseNnkPoints
  rw [Option.bind_some]
  dsimp only
  have hmap : rows.map (fun l => l.take 5) = rows := by
    conv_rhs => rw [← List.map_id rows]
    exact List.map_congr_left fun row hrow => List.take_of_length_le (by rw [(hr row hrow).1])
  rw [hmap, mapM_some_map _ _ _ hblock, Option.map_some]

theorem winFile_facts (same : Basis → Basis → Bool) (hs : Sound same) {d : ℕ} (hd : d ≤ 3) (A : Matrix (Fin d) (Fin d) ℝ) (ns : List ℕ) (hn : ns.length ≤ 3)
    (band basis : Basis) (data : ℕ → ℂ) (setup : Bool) (o : Wannier90Options) :
    ∃ f, winFile same A ⟨band, fT ns, basis, data⟩ setup o = some f ∧ IsWinFile A ns (size band) o setup f := by
  obtain ⟨grid, rows, h1, h2, h3, h4, h5⟩ := C123_samples_partial same hs ns hn
  unfold winFile realLatticeBlock
  rw [if_pos hd, Option.bind_some]
  dsimp only
  rw [h1, Option.map_some]
  refine ⟨_, rfl, rfl, rfl, rfl, rfl, rfl, Basis.n_eq band, ?_, ?_, h2, h4, h3, h5⟩
  · intro i j hi hj
    dsimp only
    rw [dif_pos ⟨i.2, j.2⟩]
  · intro i j hij
    dsimp only
    rw [dif_neg (by omega)]

theorem points_refined : ∀ {as bs : List Basis}, List.Forall₂ Refined as bs → bs.map points = as.map points
  | _, _, .nil => rfl
  | _, _, .cons h hs => by
    rw [List.map_cons, List.map_cons, points_refined hs]
    rcases h with rfl | rfl <;> rfl

theorem fundamentalShape_tuple (axes : List Basis) : (Basis.tuple axes).fundamentalShape = axes.map points := by
  rw [Basis.fundamentalShape]
  induction axes with
  | nil => rfl
  | cons a axes ih => rw [Basis.methodsList, List.map_cons, List.map_cons, ih, (methods_sizes a).2]

theorem amn_converted (same : Basis → Basis → Bool) (hs : Sound same) (axes cs : List Basis) (hR : List.Forall₂ Refined axes cs) (hv : Valids axes)
    (ho : OrthonormalPartss axes) (ns : List ℕ) (bands : ℕ) (data cdata : ℕ → ℂ) (hl : ns.length = axes.length)
    (hexp : ∀ i, ∀ x < pointss axes, expand (.tuple cs) (fun j => cdata (i * sizes cs + j)) x = expand (.tuple axes) (fun j => data (i * sizes axes + j)) x)
    (bp : Basis) (hbp : Valid bp) (hop : OrthonormalParts bp) (hcp : Compatible bp (fT (unfurledShape (cellAxes ns axes)))) (q : ℕ) (P : ℕ → ℂ) :
    amnFile same ⟨bands, ns, .tuple cs, cdata⟩ bp q P = some ((bands, ns.prod, q), (List.range ns.prod).flatMap fun k => (List.range bands).flatMap fun m =>
      (List.range q).map fun n => (m + 1, n + 1, k + 1,
        ∑ X ∈ range (unfurledShape (cellAxes ns axes)).prod, (starRingEnd ℂ) (blochWave (cellAxes ns axes) (.tuple axes)
          (fun j => data ((m * ns.prod + k) * size (.tuple axes) + j)) (unravel ns k) (unravel (unfurledShape (cellAxes ns axes)) X)) *
            expand bp (fun j => P (n * size bp + j)) X)) := by
  obtain ⟨g1, g2, -, -⟩ := refined_facts hR hv ho
  have hsample : sampleShape (cellAxes ns axes) = ns := by
    unfold sampleShape cellAxes
    exact List.map_fst_zip (by simp [hl])
  have hstate : stateShape (cellAxes ns axes) = axes.map points := by
    unfold stateShape cellAxes
    exact List.map_snd_zip (by simp [hl])
  have hpts : (axes.map points).prod = pointss axes := by
    rw [← fundamentalShape_tuple, fundamentalShape_prod]
    rfl
  have h := C123_projections same hs (cellAxes ns axes) bands (.tuple cs) g1 g2 (by rw [fundamentalShape_tuple, points_refined hR, hstate]) cdata bp hbp hop hcp q P
  rw [hsample] at h
  rw [h, List.flatMap_def, List.flatMap_def]
  congr 4
  funext k
  rw [List.flatMap_def, List.flatMap_def]
  congr 2
  funext m
  refine List.map_congr_left fun n _ => ?_
  congr 3
  refine sum_congr rfl fun X hX => ?_
  rw [blochWave_congr (cellAxes ns axes) (b' := .tuple axes) (v' := fun j => data ((m * ns.prod + k) * size (.tuple axes) + j)) (fun x hx => ?_) _ _
    (unravel_inShape _ _ (mem_range.1 hX))]
  rw [hstate, hpts] at hx
  exact hexp (m * ns.prod + k) x hx

theorem asWavepacketList_single (s : StateVectorList) :
    ∃ D, asWavepacketList false [s] = some ⟨.fundamental 1, s.listBasis, s.basis, D⟩ ∧ ∀ k < s.listBasis.n * s.basis.n, D k = s.data k := by
  refine ⟨_, by simp only [asWavepacketList]; rw [if_pos (by simp)]; rfl, fun k hk => ?_⟩
  unfold flatten
  simp only [Bool.false_eq_true, if_false, List.headD_cons, Nat.div_eq_of_lt hk, Nat.mod_eq_of_lt hk, List.getD_cons_zero]

/-! ## Theorems -/

/-- **C168.** The files written for the second run of wannier90: `spa.win` has the numbers of the options and bands, the lattice and the samples, `spa.mmn` the overlaps of
the wavepackets themselves, although they are converted to momentum states first, and `spa.amn` (if there are projections) the overlaps with the projections. -/
theorem C168_files (same : Basis → Basis → Bool) (hs : Sound same) {d : ℕ} (hd : d ≤ 3) (A : Matrix (Fin d) (Fin d) ℝ) (axes : List Basis)
    (h3 : axes.length ≤ 3) (hv : Valids axes) (ho : OrthonormalPartss axes) (ns : List ℕ) (hn : ns.length ≤ 3) (band : Basis) (data : ℕ → ℂ) (o : Wannier90Options)
    (hstates : ProjectsOn axes ns o) (hsym : o.symmetry = false) (hi : ∀ i ∈ o.ignore, i < 3) (n : ℤ) (rows : List (List ℤ)) (hr : ∀ row ∈ rows, IsNeighbour ns.prod row) :
    ∃ files, localizationFiles same A axes ⟨band, fT ns, .tuple axes, data⟩ ([n] :: rows) o = some files ∧ IsWinFile A ns (size band) o false files.win ∧
      IsOverlapFile axes o.ignore ⟨band, fT ns, .tuple axes, data⟩ n rows files.mmn ∧
      IsProjectionFile axes ns ⟨band, fT ns, .tuple axes, data⟩ o files.amn := by
  obtain ⟨win, hw, kw⟩ := winFile_facts same hs hd A ns hn band (.tuple axes) data false o
  obtain ⟨c, hc, hb, he, f, hf, kf⟩ := mmn_converted same hs axes h3 hv ho band (fT ns) data o.ignore hi n rows (by rwa [size_fT])
  unfold localizationFiles
  rw [hw, Option.bind_some, hc, Option.bind_some, hf, Option.bind_some, hsym]
  cases hst : o.states with
  | none => exact ⟨⟨win, f, none⟩, rfl, kw, kf, by simp only [IsProjectionFile, hst]⟩
  | some q =>
    obtain ⟨hl, q1, q2, q3⟩ := hstates q hst
    rw [hb] at he
    obtain ⟨a, ha, ka⟩ : ∃ a, amnFile same ⟨size band, ns, .tuple (wannierAxes o.ignore axes), c.data⟩ q.1 o.projection q.2 = some a ∧
        IsProjectionFile axes ns ⟨band, fT ns, .tuple axes, data⟩ o (some a) :=
      ⟨_, amn_converted same hs axes _ (refined_mapIdx o.ignore axes 0) hv ho ns (size band) data c.data hl he q.1 q1 q2 q3 o.projection q.2,
        by simp only [IsProjectionFile, hst]⟩
    refine ⟨⟨win, f, some a⟩, ?_, kw, kf, ka⟩
    dsimp only
    rw [shape_fT, Basis.n_eq band, hb, ha]
    rfl

/-- The lines of the result which are read, for a program which finds the matrices for these files. -/
theorem wannier90_lines (same : Basis → Basis → Bool) (hs : Sound same) {d : ℕ} (hd : d ≤ 3) (A : Matrix (Fin d) (Fin d) ℝ) (axes : List Basis)
    (h3 : axes.length ≤ 3) (hv : Valids axes) (ho : OrthonormalPartss axes) (ns : List ℕ) (hn : ns.length ≤ 3) (band : Basis) (data : ℕ → ℂ)
    (options : Option Wannier90Options) (o : Wannier90Options) (hopt : options = some o ∨ options = none ∧ o = { projection := size band })
    (hstates : ProjectsOn axes ns o) (hsym : o.symmetry = false) (hi : ∀ i ∈ o.ignore, i < 3)
    (toInt : String → Option ℕ) (toFloat : String → Option ℝ) (program : Wannier90Program) (n : ℤ) (rows : List (List ℤ)) (hr : ∀ row ∈ rows, IsNeighbour ns.prod row)
    (hset : ∀ win, IsWinFile A ns (size band) o true win → program.neighbours win = some ([n] :: rows)) (lines : List (List String))
    (hmat : ∀ files, IsWinFile A ns (size band) o false files.win → IsOverlapFile axes o.ignore ⟨band, fT ns, .tuple axes, data⟩ n rows files.mmn →
      IsProjectionFile axes ns ⟨band, fT ns, .tuple axes, data⟩ o files.amn → program.matrices files = some lines) :
    localizationWannier90 same toInt toFloat program A axes ⟨band, fT ns, .tuple axes, data⟩ options = localizationFromUMat toInt toFloat ns o.projection (size band) lines := by
  have hg : options.getD { projection := (band.n : ℕ) } = o := by
    rcases hopt with h | ⟨h, h'⟩
    · rw [h, Option.getD_some]
    · rw [h, Option.getD_none, h', Basis.n_eq]
  obtain ⟨win, hw, kw⟩ := winFile_facts same hs hd A ns hn band (.tuple axes) data true o
  obtain ⟨files, hf, k1, k2, k3⟩ := C168_files same hs hd A axes h3 hv ho ns hn band data o hstates hsym hi n rows hr
  unfold localizationWannier90
  dsimp only
  rw [hg, hw, Option.bind_some, hset win kw, Option.bind_some, hf, Option.bind_some, hmat files k1 k2 k3, Option.bind_some, Basis.n_eq, shape_fT]

/-- **C168.** If wannier90 finds the unitary matrices `U` for the lattice, the samples, the overlaps of the wavepackets and those with the projections (as many as bands),
the operator has the entry `U n m` for the new state `m` and the band `n`, and the localised wavepackets are the combinations of the bands with these coefficients. -/
theorem C168_operator (same : Basis → Basis → Bool) (hs : Sound same) {d : ℕ} (hd : d ≤ 3) (A : Matrix (Fin d) (Fin d) ℝ) (axes : List Basis)
    (h3 : axes.length ≤ 3) (hv : Valids axes) (ho : OrthonormalPartss axes) (ns : List ℕ) (hn : ns.length ≤ 3) (band : Basis) (data : ℕ → ℂ)
    (options : Option Wannier90Options) (o : Wannier90Options) (hopt : options = some o ∨ options = none ∧ o = { projection := size band })
    (hstates : ProjectsOn axes ns o) (hsym : o.symmetry = false) (hproj : o.projection = size band) (hi : ∀ i ∈ o.ignore, i < 3)
    (toInt : String → Option ℕ) (toFloat : String → Option ℝ) (program : Wannier90Program) (n : ℤ) (rows : List (List ℤ)) (hr : ∀ row ∈ rows, IsNeighbour ns.prod row)
    (hset : ∀ win, IsWinFile A ns (size band) o true win → program.neighbours win = some ([n] :: rows))
    (header : List String) (snk snw : String) (kpoint : ℕ → List String) (re im : ℕ → ℕ → ℕ → String) (U : ℕ → ℕ → ℕ → ℂ) (hnum : toInt snw = some (size band))
    (hU : ∀ k < ns.prod, ∀ i < size band, ∀ j < size band, toFloat (re k i j) = some (U k i j).re ∧ toFloat (im k i j) = some (U k i j).im)
    (hmat : ∀ files, IsWinFile A ns (size band) o false files.win → IsOverlapFile axes o.ignore ⟨band, fT ns, .tuple axes, data⟩ n rows files.mmn →
      IsProjectionFile axes ns ⟨band, fT ns, .tuple axes, data⟩ o files.amn → program.matrices files = some (uMatFile header snk snw kpoint re im ns.prod (size band))) :
    (∃ op, localizationWannier90 same toInt toFloat program A axes ⟨band, fT ns, .tuple axes, data⟩ options = some op ∧ op.samples = ns ∧ op.new = size band ∧
      op.old = size band ∧ ∀ k < ns.prod, ∀ m < size band, ∀ j < size band, op.entry k m j = U k j m) ∧
    ∃ w', localizeWannier90 same toInt toFloat program A axes ⟨band, fT ns, .tuple axes, data⟩ o = some w' ∧ w'.bands = size band ∧ w'.samples = ns ∧
      w'.basis = .tuple axes ∧ ∀ m < size band, ∀ a < ns.prod, ∀ j < sizes axes, w'.data ((m * ns.prod + a) * sizes axes + j) =
        ∑ b ∈ range (size band), U a b m * data ((b * ns.prod + a) * sizes axes + j) := by
  constructor
  · rw [wannier90_lines same hs hd A axes h3 hv ho ns hn band data options o hopt hstates hsym hi toInt toFloat program n rows hr hset _ hmat, hproj]
    exact C122_operator toInt toFloat header snk snw kpoint re im ns (size band) U hnum hU
  · unfold localizeWannier90
    rw [wannier90_lines same hs hd A axes h3 hv ho ns hn band data (some o) o (.inl rfl) hstates hsym hi toInt toFloat program n rows hr hset _ hmat, hproj]
    dsimp only
    rw [Basis.n_eq, shape_fT]
    exact C122_localized toInt toFloat header snk snw kpoint re im ⟨size band, ns, .tuple axes, data⟩ U hnum hU

/-- **C168.** Bands one by one: with the phase `u` found by wannier90 for each band alone, at each sample, the operator is diagonal with these phases. -/
theorem C168_bands (same : Basis → Basis → Bool) (hs : Sound same) {d : ℕ} (hd : d ≤ 3) (A : Matrix (Fin d) (Fin d) ℝ) (axes : List Basis)
    (h3 : axes.length ≤ 3) (hv : Valids axes) (ho : OrthonormalPartss axes) (ns : List ℕ) (hn : ns.length ≤ 3) (band : Basis) (data : ℕ → ℂ)
    (toInt : String → Option ℕ) (toFloat : String → Option ℝ) (program : Wannier90Program) (n : ℤ) (rows : List (List ℤ)) (hr : ∀ row ∈ rows, IsNeighbour ns.prod row)
    (o : Wannier90Options) (hopt : o = { projection := 1, tolerance := 1 / 10 ^ 20, ignore := [2] })
    (hset : ∀ win, IsWinFile A ns 1 o true win → program.neighbours win = some ([n] :: rows))
    (header : List String) (snk snw : String) (kpoint : ℕ → List String) (re im : ℕ → ℕ → String) (u : ℕ → ℕ → ℂ) (hnum : toInt snw = some 1)
    (hU : ∀ b < size band, ∀ k < ns.prod, toFloat (re b k) = some (u b k).re ∧ toFloat (im b k) = some (u b k).im)
    (hmat : ∀ b < size band, ∀ files, IsWinFile A ns 1 o false files.win →
      IsOverlapFile axes [2] ⟨.fundamental 1, fT ns, .tuple axes, fun j => data (b * (ns.prod * sizes axes) + j)⟩ n rows files.mmn → files.amn = none →
      program.matrices files = some (uMatFile header snk snw kpoint (fun k _ _ => re b k) (fun k _ _ => im b k) ns.prod 1)) :
    ∃ op, localizationWannier90Bands same toInt toFloat program A axes ⟨band, fT ns, .tuple axes, data⟩ = some op ∧ op.samples = ns ∧ op.new = size band ∧
      op.old = size band ∧ ∀ a < ns.prod, ∀ i < size band, ∀ j < size band, op.entry a i j = if i = j then u i a else 0 := by
  subst hopt
  have hR : ∀ b, (⟨band, fT ns, .tuple axes, data⟩ : WavepacketList).row * b = b * (ns.prod * sizes axes) := by
    intro b
    unfold WavepacketList.row
    dsimp only
    rw [Basis.n_eq, Basis.n_eq, size_fT, mul_comm]
    rfl
  have hone : ∀ b < size band, ∃ dat, ((asWavepacketList false [⟨fT ns, .tuple axes, block (⟨band, fT ns, .tuple axes, data⟩ : WavepacketList).row data b⟩]).bind fun one =>
      (localizationWannier90 same toInt toFloat program A axes one (some { projection := 1, tolerance := 1 / 10 ^ 20, ignore := [2] })).map
        LocalizationOperator.data) = some dat ∧ ∀ k < ns.prod, dat k = u b k := by
    intro b hb
    obtain ⟨D, hD, kD⟩ := asWavepacketList_single ⟨fT ns, .tuple axes, block (⟨band, fT ns, .tuple axes, data⟩ : WavepacketList).row data b⟩
    rw [hD, Option.bind_some]
    dsimp only at kD ⊢
    have hper : ∀ m < 1, ∀ s < ns.prod, ∀ x < pointss axes, periodicPart ⟨.fundamental 1, fT ns, .tuple axes, D⟩ m s x =
        periodicPart ⟨.fundamental 1, fT ns, .tuple axes, fun j => data (b * (ns.prod * sizes axes) + j)⟩ m s x := by
      intro m hm s hs' x _
      unfold periodicPart
      refine expand_congr _ (fun j hj => ?_) x
      obtain rfl : m = 0 := by omega
      have hlt : s * sizes axes + j < ns.prod * sizes axes := by
        calc s * sizes axes + j < (s + 1) * sizes axes := by rw [add_mul, one_mul]; exact Nat.add_lt_add_left hj _
          _ ≤ _ := Nat.mul_le_mul_right _ hs'
      dsimp only
      rw [zero_mul, zero_add]
      show D (s * sizes axes + j) = data (b * (ns.prod * sizes axes) + (s * sizes axes + j))
      rw [kD _ (by rw [Basis.n_eq, Basis.n_eq, size_fT]; exact hlt)]
      unfold block
      rw [mul_comm b, hR]
    have hover : ∀ row ∈ rows, neighbourOverlaps axes [2] ⟨.fundamental 1, fT ns, .tuple axes, D⟩ row =
        neighbourOverlaps axes [2] ⟨.fundamental 1, fT ns, .tuple axes, fun j => data (b * (ns.prod * sizes axes) + j)⟩ row := fun row hrow =>
      neighbourOverlaps_congr axes [2] ⟨.fundamental 1, fT ns, .tuple axes, D⟩ ⟨.fundamental 1, fT ns, .tuple axes, fun j => data (b * (ns.prod * sizes axes) + j)⟩ rfl row
        (by dsimp only; rw [size_fT]; exact hr row hrow) fun m hm s hs' x hx => hper m hm s (by dsimp only at hs'; rwa [size_fT] at hs') x hx
    have hline := wannier90_lines same hs hd A axes h3 hv ho ns hn (.fundamental 1) D
      (some { projection := 1, tolerance := 1 / 10 ^ 20, ignore := [2] }) _ (.inl rfl) (by simp [ProjectsOn]) rfl (by simp) toInt toFloat program n rows hr hset _ fun files k1 k2 k3 =>
        hmat b hb files k1 ⟨k2.1, k2.2.1, k2.2.2.1, k2.2.2.2.trans (List.map_congr_left fun row hrow => congrArg (MmnBlock.mk row)
          (hover row hrow))⟩ k3
    rw [hline]
    obtain ⟨op, e1, -, e3, e4, e5⟩ := C122_operator toInt toFloat header snk snw kpoint (fun k _ _ => re b k) (fun k _ _ => im b k) ns 1 (fun k _ _ => u b k) hnum
      fun k hk _ _ _ _ => hU b hb k hk
    refine ⟨op.data, by rw [show size (.fundamental 1) = 1 from rfl, e1]; rfl, fun k hk => ?_⟩
    have := e5 k hk 0 (by omega) 0 (by omega)
    unfold LocalizationOperator.entry at this
    rw [e3, e4] at this
    simpa using this
  choose! dat hdat kdat using hone
  unfold localizationWannier90Bands wavepacketListIntoIter
  dsimp only
  rw [List.mapM_map, Basis.n_eq, shape_fT]
  have hall := mapM_some_map (List.range (size band)) ((fun wavepacket : StateVectorList => (asWavepacketList false [wavepacket]).bind fun one =>
    (localizationWannier90 same toInt toFloat program A axes one (some { projection := 1, tolerance := 1 / 10 ^ 20, ignore := [2] })).map
      LocalizationOperator.data) ∘ fun b => ⟨fT ns, .tuple axes, block (⟨band, fT ns, .tuple axes, data⟩ : WavepacketList).row data b⟩) dat
    fun b hb => hdat b (List.mem_range.1 hb)
  rw [hall, Option.map_some]
  refine ⟨_, rfl, rfl, rfl, rfl, fun a ha i hi j hj => ?_⟩
  unfold LocalizationOperator.entry
  dsimp only
  rw [flatten3_at _ hi hj]
  by_cases e : i = j
  · rw [if_pos e, if_pos e, List.getD_eq_getElem?_getD, List.getElem?_map, List.getElem?_range hi]
    exact kdat i hi a ha
  · rw [if_neg e, if_neg e]

/-- **C168.** Symmetry operations always raise. -/
theorem C168_symmetry {d : ℕ} (same : Basis → Basis → Bool) (toInt : String → Option ℕ) (toFloat : String → Option ℝ) (program : Wannier90Program)
    (A : Matrix (Fin d) (Fin d) ℝ) (axes : List Basis) (w : WavepacketList) (o : Wannier90Options) (h : o.symmetry = true) :
    localizationWannier90 same toInt toFloat program A axes w (some o) = none := by
  unfold localizationWannier90 localizationFiles
  simp [h]

/-! ## Concrete cases -/

/-- One band on two samples of a cell of three points (a truncated basis of two plane waves), each sample the neighbour of the other, and a program which finds the
phases `1` and `i`. -/
example (same : Basis → Basis → Bool) (hs : Sound same) (data : ℕ → ℂ) :
    let toInt := fun s : String => if s = "1" then some 1 else none
    let toFloat := fun s : String => if s = "1.0" then some (1 : ℝ) else if s = "0.0" then some 0 else none
    let program : Wannier90Program := ⟨fun _ => some ([2] :: [[1, 2, 0, 0, 0], [2, 1, 1, 0, 0]]), fun _ => some (uMatFile [] "2" "1" (fun _ => [])
      (fun k _ _ => if k = 0 then "1.0" else "0.0") (fun k _ _ => if k = 0 then "0.0" else "1.0") 2 1)⟩
    ∃ op, localizationWannier90 same toInt toFloat program (1 : Matrix (Fin 1) (Fin 1) ℝ) [.transformed 2 3]
      ⟨.fundamental 1, fT [2], .tuple [.transformed 2 3], data⟩ none = some op ∧ op.entry 0 0 0 = 1 ∧ op.entry 1 0 0 = Complex.I := by
  intro toInt toFloat program
  obtain ⟨op, h1, -, -, -, h5⟩ := (C168_operator same hs (by norm_num) (1 : Matrix (Fin 1) (Fin 1) ℝ) [.transformed 2 3] (by simp) (by simp [Valids, Valid])
    (by simp [OrthonormalPartss, OrthonormalParts]) [2] (by simp) (.fundamental 1) data none _ (.inr ⟨rfl, rfl⟩) (by simp [ProjectsOn]) rfl rfl (by simp) toInt toFloat program 2
    [[1, 2, 0, 0, 0], [2, 1, 1, 0, 0]] (by simp [IsNeighbour]) (fun _ _ => rfl) [] "2" "1" (fun _ => []) (fun k _ _ => if k = 0 then "1.0" else "0.0")
    (fun k _ _ => if k = 0 then "0.0" else "1.0") (fun k _ _ => if k = 0 then 1 else Complex.I) rfl
    (by intro k _ i _ j _; by_cases e : k = 0 <;> simp [e, toFloat]) (fun _ _ _ _ => rfl)).1
  exact ⟨op, h1, by rw [h5 0 (by decide) 0 (by decide) 0 (by decide)]; simp, by rw [h5 1 (by decide) 0 (by decide) 0 (by decide)]; simp⟩

/-- The same samples with a projection on a state of the six points of both samples: the first overlap of the file. -/
example (same : Basis → Basis → Bool) (hs : Sound same) (data P : ℕ → ℂ) :
    ∃ files f, localizationFiles same (1 : Matrix (Fin 1) (Fin 1) ℝ) [.transformed 2 3] ⟨.fundamental 1, fT [2], .tuple [.transformed 2 3], data⟩
      ([2] :: [[1, 2, 0, 0, 0], [2, 1, 1, 0, 0]]) { projection := 1, states := some (fT [6], P) } = some files ∧ files.amn = some f ∧ f.1 = (1, 2, 1) ∧
        f.2.map (fun e => (e.1, e.2.1, e.2.2.1)) = [(1, 1, 1), (1, 1, 2)] := by
  obtain ⟨files, h1, -, -, h4⟩ := C168_files same hs (by norm_num) (1 : Matrix (Fin 1) (Fin 1) ℝ) [.transformed 2 3] (by simp) (by simp [Valids, Valid])
    (by simp [OrthonormalPartss, OrthonormalParts]) [2] (by simp) (.fundamental 1) data { projection := 1, states := some (fT [6], P) }
    (by
      intro p hp
      obtain rfl := Option.some.inj hp
      exact ⟨rfl, by simp [fT, Valid, Valids], by simp [fT, OrthonormalParts, OrthonormalPartss], compatible_refl _⟩) rfl (by simp) 2
    [[1, 2, 0, 0, 0], [2, 1, 1, 0, 0]] (by simp [IsNeighbour])
  exact ⟨files, _, h1, h4, rfl, rfl⟩

/-- Two bands one by one, with the phases `1` and `i` at one sample for both bands. -/
example (same : Basis → Basis → Bool) (hs : Sound same) (data : ℕ → ℂ) :
    let toInt := fun s : String => if s = "1" then some 1 else none
    let toFloat := fun s : String => if s = "1.0" then some (1 : ℝ) else if s = "0.0" then some 0 else none
    let program : Wannier90Program := ⟨fun _ => some ([2] :: [[1, 2, 0, 0, 0], [2, 1, 1, 0, 0]]), fun _ => some (uMatFile [] "2" "1" (fun _ => [])
      (fun k _ _ => if k = 0 then "1.0" else "0.0") (fun k _ _ => if k = 0 then "0.0" else "1.0") 2 1)⟩
    ∃ op, localizationWannier90Bands same toInt toFloat program (1 : Matrix (Fin 1) (Fin 1) ℝ) [.transformed 2 3]
      ⟨.fundamental 2, fT [2], .tuple [.transformed 2 3], data⟩ = some op ∧ op.entry 1 1 1 = Complex.I ∧ op.entry 1 0 1 = 0 := by
  intro toInt toFloat program
  obtain ⟨op, h1, -, -, -, h5⟩ := C168_bands same hs (by norm_num) (1 : Matrix (Fin 1) (Fin 1) ℝ) [.transformed 2 3] (by simp) (by simp [Valids, Valid])
    (by simp [OrthonormalPartss, OrthonormalParts]) [2] (by simp) (.fundamental 2) data toInt toFloat program 2
    [[1, 2, 0, 0, 0], [2, 1, 1, 0, 0]] (by simp [IsNeighbour]) _ rfl (fun _ _ => rfl) [] "2" "1" (fun _ => []) (fun _ k => if k = 0 then "1.0" else "0.0")
    (fun _ k => if k = 0 then "0.0" else "1.0") (fun _ k => if k = 0 then 1 else Complex.I) rfl
    (by intro b _ k _; by_cases e : k = 0 <;> simp [e, toFloat]) (fun _ _ _ _ _ _ => rfl)
  exact ⟨op, h1, by rw [h5 1 (by decide) 1 (by decide) 1 (by decide)]; simp, by rw [h5 1 (by decide) 0 (by decide) 1 (by decide)]; simp⟩

end Verif
