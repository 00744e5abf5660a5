import Verif.Model.Wannier90
import Verif.Props.C25_States
import Verif.Props.C45_Unfurl

/-!
# C121: Overlaps written for wannier90
-/

set_option autoImplicit false

namespace Verif

open Finset Spec

namespace Spec

/-- `exp(-i G x)` at the grid point `x`, for the reciprocal lattice vector `G` with the given integer coordinates. -/
noncomputable def latticePhase : List Basis → List ℤ → ℕ → ℂ
  | b :: bs, o :: os, x => Complex.exp (-(2 * Real.pi * Complex.I * (o : ℂ) * ((x / pointss bs : ℕ) : ℂ) / ((points b : ℕ) : ℂ))) *
      latticePhase bs os (x % pointss bs)
  | _, _, _ => 1

/-- The periodic part, at grid point `x`, of the state of a band at a sample. -/
noncomputable def periodicPart (w : WavepacketList) (band sample x : ℕ) : ℂ :=
  expand w.basis (fun j => w.data ((band * size w.list + sample) * size w.basis + j)) x

/-- Every axis is either an axis of all plane waves or is not shifted. -/
def Shiftable : List Basis → List ℤ → Prop
  | b :: bs, o :: os => ((∃ n, b = .fundamentalTransformed n) ∨ o = 0) ∧ Shiftable bs os
  | [], _ => True
  | _, [] => False

end Spec

/-- The flat index moved by the offsets. -/
def rollFlat (ns : List ℕ) (os : List ℤ) (j : ℕ) : ℕ :=
  ravel ns (List.zipWith3 (fun n s j => (((j : ℕ) : ℤ) - s) % ((n : ℕ) : ℤ) |>.toNat) ns (os.map fun o => -o) (unravel ns j))

theorem rollFlat_cons (n : ℕ) (ns : List ℕ) (o : ℤ) (os : List ℤ) (j : ℕ) :
    rollFlat (n :: ns) (o :: os) j = ((((j / ns.prod % n : ℕ) : ℤ) + o) % n).toNat * ns.prod + rollFlat ns os j := by
  unfold rollFlat
  rw [unravel, List.map_cons, List.zipWith3, ravel, sub_neg_eq_add]

theorem rollFlat_mod (ns : List ℕ) (os : List ℤ) (j : ℕ) : rollFlat ns os (j % ns.prod) = rollFlat ns os j := by
  unfold rollFlat
  rw [show unravel ns (j % ns.prod) = unravel ns j by conv_rhs => rw [← Nat.div_add_mod' j ns.prod, unravel_mul_add]]

theorem rollFlat_lt : ∀ (ns : List ℕ) (os : List ℤ) (j : ℕ), ns.length ≤ os.length → 0 < ns.prod → rollFlat ns os j < ns.prod
  | [], _, _, _, _ => by simp [rollFlat, ravel]
  | n :: ns, [], _, h, _ => by simp at h
  | n :: ns, o :: os, j, h, hp => by
    rw [List.prod_cons] at hp ⊢
    have hn := Nat.pos_of_mul_pos_right hp
    have hs := Nat.pos_of_mul_pos_left hp
    rw [rollFlat_cons]
    have h1 := rollFlat_lt ns os j (by simpa using h) (by first | exact hs | exact hn)
    have hn' : (0 : ℤ) < n := by
      rcases Nat.eq_zero_or_pos n with e | e
      · simp [e] at hp
      · exact_mod_cast e
    have g1 := Int.emod_nonneg (((j / ns.prod % n : ℕ) : ℤ) + o) hn'.ne'
    have g2 := Int.emod_lt_of_pos (((j / ns.prod % n : ℕ) : ℤ) + o) hn'
    have g3 : ((((j / ns.prod % n : ℕ) : ℤ) + o) % n).toNat + 1 ≤ n := by omega
    calc _ < ((((j / ns.prod % n : ℕ) : ℤ) + o) % n).toNat * ns.prod + ns.prod := by omega
      _ = (((((j / ns.prod % n : ℕ) : ℤ) + o) % n).toNat + 1) * ns.prod := by ring
      _ ≤ _ := Nat.mul_le_mul_right _ g3

theorem rollFlat_inv : ∀ (ns : List ℕ) (os : List ℤ) (j : ℕ), ns.length ≤ os.length → 0 < ns.prod →
    rollFlat ns (os.map fun o => -o) (rollFlat ns os j) = j % ns.prod
  | [], _, _, _, _ => by simp [rollFlat, ravel, Nat.mod_one]
  | n :: ns, [], _, h, _ => by simp at h
  | n :: ns, o :: os, j, h, hp => by
    rw [List.prod_cons] at hp
    have hn' : 0 < n := by
      rcases Nat.eq_zero_or_pos n with e | e
      · simp [e] at hp
      · exact e
    have hs : 0 < ns.prod := by
      rcases Nat.eq_zero_or_pos ns.prod with e | e
      · simp [e] at hp
      · exact e
    have h1 := rollFlat_lt ns os j (by simpa using h) hs
    rw [rollFlat_cons, List.map_cons, rollFlat_cons]
    set a := ((((j / ns.prod % n : ℕ) : ℤ) + o) % n).toNat with ha
    have e1 : (a * ns.prod + rollFlat ns os j) / ns.prod = a := by
      rw [Nat.mul_comm, Nat.mul_add_div hs, Nat.div_eq_of_lt h1, Nat.add_zero]
    have e2 : rollFlat ns (os.map fun o => -o) (a * ns.prod + rollFlat ns os j) = j % ns.prod := by
      rw [← rollFlat_mod, Nat.mul_add_mod_self_right, Nat.mod_eq_of_lt h1]
      exact rollFlat_inv ns os j (by simpa using h) hs
    have hz : (0 : ℤ) < n := by exact_mod_cast hn'
    have g1 := Int.emod_nonneg (((j / ns.prod % n : ℕ) : ℤ) + o) hz.ne'
    have g2 := Int.emod_lt_of_pos (((j / ns.prod % n : ℕ) : ℤ) + o) hz
    have e3 : ((((a % n : ℕ) : ℤ) + -o) % n).toNat = j / ns.prod % n := by
      have : a % n = a := Nat.mod_eq_of_lt (by omega)
      rw [this, ha, Int.toNat_of_nonneg g1, Int.emod_add_emod]
      rw [show ((j / ns.prod % n : ℕ) : ℤ) + o + -o = ((j / ns.prod % n : ℕ) : ℤ) by ring]
      rw [← Int.natCast_mod, Nat.mod_mod, Int.toNat_natCast]
    rw [e1, e2, e3, List.prod_cons, Nat.mul_comm n, Nat.mod_mul, Nat.mul_comm, Nat.add_comm]

theorem rollFlat_pad : ∀ (ns : List ℕ) (r : ℕ) (os : List ℤ) (j : ℕ), ns.length + r ≤ os.length →
    rollFlat (ns ++ List.replicate r 1) os j = rollFlat ns os j
  | [], r, os, j, h => by
    rw [List.nil_append]
    have : ∀ (r : ℕ) (os : List ℤ), rollFlat (List.replicate r 1) os j = 0 := by
      intro r
      induction r with
      | zero => intro os; simp [rollFlat, ravel]
      | succ r ih =>
        intro os
        cases os with
        | nil => simp [rollFlat, List.replicate_succ, List.zipWith3, ravel]
        | cons o os => rw [List.replicate_succ, rollFlat_cons, ih]; simp
    rw [this]
    simp [rollFlat, ravel]
  | n :: ns, r, [], j, h => by simp at h
  | n :: ns, r, o :: os, j, h => by
    rw [List.cons_append, rollFlat_cons, rollFlat_cons, rollFlat_pad ns r os j (by simp at h; omega)]
    simp

theorem shape_tuple (axes : List Basis) : (Basis.tuple axes).shape = axes.map size := by
  rw [Basis.shape]
  induction axes with
  | nil => rfl
  | cons b bs ih => rw [Basis.methodsList, List.map_cons, List.map_cons, ih, (methods_sizes b).1]

theorem sizes_prod (axes : List Basis) : sizes axes = (axes.map size).prod := by
  induction axes with
  | nil => rfl
  | cons b bs ih => rw [sizes, List.map_cons, List.prod_cons, ih]

/-- Moving the index of a state multiplies it by the phase. -/
theorem states_roll : ∀ (axes : List Basis) (os : List ℤ) (j x : ℕ), Shiftable axes os → j < sizes axes →
    states axes j x = latticePhase axes os x * states axes (rollFlat (axes.map size) os j) x
  | [], os, j, x, _, _ => by cases os <;> simp [states, latticePhase]
  | b :: bs, [], j, x, h, _ => by exact absurd h (by simp [Shiftable])
  | b :: bs, o :: os, j, x, h, hj => by
    rw [sizes] at hj
    have hb : 0 < size b := by
      rcases Nat.eq_zero_or_pos (size b) with e | e
      · simp [e] at hj
      · exact e
    have hs : 0 < sizes bs := by
      rcases Nat.eq_zero_or_pos (sizes bs) with e | e
      · simp [e] at hj
      · exact e
    have hlen : bs.length ≤ os.length := by
      have : ∀ (bs : List Basis) (os : List ℤ), Shiftable bs os → bs.length ≤ os.length := by
        intro bs
        induction bs with
        | nil => intro os _; simp
        | cons b bs ih =>
          intro os h
          cases os with
          | nil => exact absurd h (by simp [Shiftable])
          | cons o os => simpa using ih os h.2
      exact this bs os h.2
    have hr := rollFlat_lt (bs.map size) os j (by simpa using hlen) (by rw [← sizes_prod]; exact hs)
    rw [← sizes_prod] at hr
    have hjb : j / sizes bs < size b := Nat.div_lt_of_lt_mul (by rw [Nat.mul_comm]; exact hj)
    rw [states, states, latticePhase, List.map_cons, rollFlat_cons, ← sizes_prod, Nat.mod_eq_of_lt hjb]
    set a := ((((j / sizes bs : ℕ) : ℤ) + o) % (size b : ℕ)).toNat with ha
    have e1 : (a * sizes bs + rollFlat (bs.map size) os j) / sizes bs = a := by
      rw [Nat.mul_comm, Nat.mul_add_div hs, Nat.div_eq_of_lt hr, Nat.add_zero]
    have e2 : (a * sizes bs + rollFlat (bs.map size) os j) % sizes bs = rollFlat (bs.map size) os (j % sizes bs) := by
      rw [Nat.mul_add_mod_self_right, Nat.mod_eq_of_lt hr]
      conv_rhs => rw [sizes_prod bs, rollFlat_mod]
    rw [e1, e2, states_roll bs os (j % sizes bs) (x % pointss bs) h.2 (Nat.mod_lt _ hs)]
    have key : state b (j / sizes bs) (x / pointss bs) =
        Complex.exp (-(2 * Real.pi * Complex.I * (o : ℂ) * ((x / pointss bs : ℕ) : ℂ) / ((points b : ℕ) : ℂ))) * state b a (x / pointss bs) := by
      rcases h.1 with ⟨n, rfl⟩ | ho
      · have hn : 0 < n := hb
        have hz : (0 : ℤ) < n := by exact_mod_cast hn
        show planeWave n _ _ = Complex.exp (-(2 * Real.pi * Complex.I * (o : ℂ) * ((x / pointss bs : ℕ) : ℂ) / ((n : ℕ) : ℂ))) * planeWave n _ _
        have ea : ((a : ℕ) : ℤ) = (((j / sizes bs : ℕ) : ℤ) + o) % n := by
          rw [ha]
          exact Int.toNat_of_nonneg (Int.emod_nonneg _ hz.ne')
        rw [planeWave_eq, planeWave_eq, ea]
        have e3 : phase n ((((j / sizes bs : ℕ) : ℤ) + o) % n * ((x / pointss bs : ℕ) : ℤ)) =
            phase n (((j / sizes bs : ℕ) : ℤ) * ((x / pointss bs : ℕ) : ℤ)) * phase n (o * ((x / pointss bs : ℕ) : ℤ)) := by
          rw [← phase_add, ← add_mul]
          refine phase_congr hn ?_
          rw [← sub_mul]
          refine Dvd.dvd.mul_right ?_ _
          have := Int.emod_add_mul_ediv (((j / sizes bs : ℕ) : ℤ) + o) n
          exact ⟨-((((j / sizes bs : ℕ) : ℤ) + o) / n), by linarith⟩
        have e4 : Complex.exp (-(2 * Real.pi * Complex.I * (o : ℂ) * ((x / pointss bs : ℕ) : ℂ) / ((n : ℕ) : ℂ))) * phase n (o * ((x / pointss bs : ℕ) : ℤ)) = 1 := by
          unfold phase
          rw [← Complex.exp_add, ← Complex.exp_zero]
          congr 1
          generalize x / pointss bs = y
          push_cast
          ring
        rw [e3]
        linear_combination -(FftNorm.fftScale n .ortho) * phase n (((j / sizes bs : ℕ) : ℤ) * ((x / pointss bs : ℕ) : ℤ)) * e4
      · have : a = j / sizes bs := by
          rw [ha, ho, add_zero, ← Int.natCast_mod, Int.toNat_natCast, Nat.mod_eq_of_lt hjb]
        rw [this, ho]
        simp
    rw [key]
    ring

theorem shiftable_length : ∀ (bs : List Basis) (os : List ℤ), Shiftable bs os → bs.length ≤ os.length
  | [], _, _ => by simp
  | _ :: _, [], h => absurd h (by simp [Shiftable])
  | _ :: bs, _ :: os, h => by simpa using shiftable_length bs os h.2

/-- The moved coefficients are those of the state times the phase. -/
theorem expand_roll (axes : List Basis) (os : List ℤ) (h : Shiftable axes os) (v : ℕ → ℂ) (x : ℕ) :
    expand (.tuple axes) (fun j => v (rollFlat (axes.map size) os j)) x = latticePhase axes os x * expand (.tuple axes) v x := by
  unfold expand
  show ∑ j ∈ range (sizes axes), v (rollFlat (axes.map size) os j) * states axes j x = _ * ∑ j ∈ range (sizes axes), v j * states axes j x
  rw [mul_sum]
  rcases Nat.eq_zero_or_pos (sizes axes) with e | hp
  · rw [e]; simp
  have hl := shiftable_length axes os h
  have hp' : 0 < (axes.map size).prod := by rw [← sizes_prod]; exact hp
  refine sum_nbij' (fun j => rollFlat (axes.map size) os j) (fun j => rollFlat (axes.map size) (os.map fun o => -o) j) ?_ ?_ ?_ ?_ ?_
  · intro j _
    rw [mem_range, sizes_prod]
    exact rollFlat_lt _ _ _ (by simpa using hl) hp'
  · intro j _
    rw [mem_range, sizes_prod]
    exact rollFlat_lt _ _ _ (by simpa using hl) hp'
  · intro j hj
    rw [mem_range, sizes_prod] at hj
    rw [rollFlat_inv _ _ _ (by simpa using hl) hp', Nat.mod_eq_of_lt hj]
  · intro j hj
    rw [mem_range, sizes_prod] at hj
    have := rollFlat_inv (axes.map size) (os.map fun o => -o) j (by simpa using hl) hp'
    rw [List.map_map, show ((fun o : ℤ => -o) ∘ fun o => -o) = id from funext fun o => neg_neg o, List.map_id, Nat.mod_eq_of_lt hj] at this
    exact this
  · intro j hj
    rw [states_roll axes os j x h (mem_range.1 hj)]
    ring

theorem pyIndex_one {n : ℕ} {k : ℤ} (h1 : 1 ≤ k) (h2 : k ≤ n) : pyIndex n (k - 1) = some (k - 1).toNat := by
  unfold pyIndex
  rw [if_pos ⟨by omega, by omega⟩]

/-- One element. -/
theorem mmnElement_eq (axes : List Basis) (h3 : axes.length ≤ 3) (hv : Valid (.tuple axes)) (ho : OrthonormalParts (.tuple axes)) (band list : Basis) (data : ℕ → ℂ)
    (offset : List ℤ) (hoff : offset.length = 3) (hsh : Shiftable axes offset) (k0 k1 : ℤ) (h0 : 1 ≤ k0 ∧ k0 ≤ size list) (h1 : 1 ≤ k1 ∧ k1 ≤ size list) (n m : ℕ) :
    mmnElement offset k0 k1 ⟨list, .tuple axes, block (WavepacketList.row ⟨band, list, .tuple axes, data⟩) data n⟩
      ⟨list, .tuple axes, block (WavepacketList.row ⟨band, list, .tuple axes, data⟩) data m⟩ =
      some (∑ x ∈ range (points (.tuple axes)), (starRingEnd ℂ) (periodicPart ⟨band, list, .tuple axes, data⟩ m (k0 - 1).toNat x) *
        (latticePhase axes offset x * periodicPart ⟨band, list, .tuple axes, data⟩ n (k1 - 1).toNat x)) := by
  have hn : list.n = size list := Basis.n_eq list
  have hb : (Basis.tuple axes).n = size (.tuple axes) := Basis.n_eq _
  unfold mmnElement
  dsimp only
  rw [pyIndex_one h1.1 (by rw [hn]; exact h1.2), Option.bind_some]
  unfold getStateVector
  dsimp only
  rw [if_pos (by rw [hn]; omega), Option.bind_some]
  unfold offsetBlochState
  dsimp only
  rw [shape_tuple, if_pos ⟨by simpa using h3, hoff⟩, Option.bind_some, pyIndex_one h0.1 (by rw [hn]; exact h0.2), Option.bind_some,
    if_pos (by rw [hn]; omega), Option.bind_some]
  unfold calculateInnerProduct asDualVector
  dsimp only
  rw [if_pos rfl]
  have hd : ∀ (band' : ℕ) (k : ℕ), block (Basis.tuple axes).n (block (WavepacketList.row ⟨band, list, .tuple axes, data⟩) data band') k =
      fun j => data ((band' * size list + k) * size (.tuple axes) + j) := by
    intro band' k
    funext j
    unfold block WavepacketList.row
    dsimp only
    rw [hn, hb]
    congr 1
    ring
  rw [hd, hd, hb]
  have hpad : ∀ j, rollAxes (axes.map size ++ List.replicate (3 - (axes.map size).length) 1) (offset.map fun o => -o)
      (fun idx => data ((n * size list + (k1 - 1).toNat) * size (.tuple axes) + ravel (axes.map size ++ List.replicate (3 - (axes.map size).length) 1) idx))
      (unravel (axes.map size ++ List.replicate (3 - (axes.map size).length) 1) j) =
      (fun j => data ((n * size list + (k1 - 1).toNat) * size (.tuple axes) + j)) (rollFlat (axes.map size) offset j) := by
    intro j
    have : (axes.map size).length ≤ 3 := by simpa using h3
    rw [← rollFlat_pad (axes.map size) (3 - (axes.map size).length) offset j (by omega)]
    rfl
  rw [sum_congr rfl fun j _ => by rw [hpad j]]
  have hd2 := dot_expand_expand (state_orthonormal _ hv ho) (fun j => data ((m * size list + (k0 - 1).toNat) * size (.tuple axes) + j))
    (fun j => (fun j => data ((n * size list + (k1 - 1).toNat) * size (.tuple axes) + j)) (rollFlat (axes.map size) offset j))
  unfold dot at hd2
  refine congrArg some (hd2.symm.trans ?_)
  exact sum_congr rfl fun x _ => congrArg _ (expand_roll axes offset hsh (fun j => data ((n * size list + (k1 - 1).toNat) * size (.tuple axes) + j)) x)

theorem mapM_some_map {α β : Type*} (l : List α) (f : α → Option β) (g : α → β) (h : ∀ a ∈ l, f a = some (g a)) : l.mapM f = some (l.map g) := by
  induction l with
  | nil => rfl
  | cons a l ih => rw [List.mapM_cons, h a (by simp), ih fun b hb => h b (by simp [hb])]; rfl

/-- **C121.** The block of two samples of `spa.mmn`, for the line `k0 k1 o0 o1 o2` of the file `.nnkp`: the line itself, and for all pairs of bands the overlap of the
periodic part of the state of the first band (which runs fastest) at the first sample with the periodic part of that of the second at the second sample, moved by the
reciprocal lattice vector of the offsets; the offsets of ignored axes are taken as zero. -/
theorem C121_overlaps (axes : List Basis) (h3 : axes.length ≤ 3) (hv : Valid (.tuple axes)) (ho : OrthonormalParts (.tuple axes)) (band list : Basis) (data : ℕ → ℂ)
    (ignore : List ℕ) (hi : ∀ i ∈ ignore, i < 3) (k0 k1 o0 o1 o2 : ℤ) (h0 : 1 ≤ k0 ∧ k0 ≤ size list) (h1 : 1 ≤ k1 ∧ k1 ≤ size list)
    (o : List ℤ) (hol : o.length = 3) (hoi : ∀ i < 3, o[i]? = if i ∈ ignore then some 0 else [o0, o1, o2][i]?) (hsh : Shiftable axes o) :
    mmnBlock ⟨band, list, .tuple axes, data⟩ ignore [k0, k1, o0, o1, o2] = some ⟨[k0, k1, o0, o1, o2],
      (List.range (size band)).flatMap fun n => (List.range (size band)).map fun m =>
        ∑ x ∈ range (points (.tuple axes)), (starRingEnd ℂ) (periodicPart ⟨band, list, .tuple axes, data⟩ m (k0 - 1).toNat x) *
          (latticePhase axes o x * periodicPart ⟨band, list, .tuple axes, data⟩ n (k1 - 1).toNat x)⟩ := by
  have hfold : ∀ (l : List ℕ) (a : List ℤ), (l.foldl (fun o i => o.set i 0) a).length = a.length ∧ ∀ i < a.length,
      (l.foldl (fun o i => o.set i 0) a)[i]? = if i ∈ l then some 0 else a[i]? := by
    intro l
    induction l with
    | nil => intro a; simp
    | cons b l ih =>
      intro a
      obtain ⟨g1, g2⟩ := ih (a.set b 0)
      rw [List.length_set] at g1 g2
      refine ⟨g1, fun i hi => ?_⟩
      rw [List.foldl_cons, g2 i hi]
      by_cases e1 : i ∈ l
      · simp [e1]
      · rw [if_neg e1, List.getElem?_set]
        by_cases e2 : b = i
        · subst e2; simp [hi]
        · rw [if_neg e2]
          have : i ∉ b :: l := by simp only [List.mem_cons, not_or]; exact ⟨fun e => e2 e.symm, e1⟩
          rw [if_neg this]
  have heq : ignore.foldl (fun o i => o.set i 0) [o0, o1, o2] = o := by
    obtain ⟨g1, g2⟩ := hfold ignore [o0, o1, o2]
    refine List.ext_getElem? fun i => ?_
    by_cases hi3 : i < 3
    · rw [g2 i (by simpa using hi3), hoi i hi3]
    · rw [List.getElem?_eq_none (by rw [g1]; simpa using hi3), List.getElem?_eq_none (by rw [hol]; omega)]
  unfold mmnBlock
  dsimp only
  rw [if_pos hi, heq]
  unfold wavepacketListIntoIter
  dsimp only
  rw [Basis.n_eq band]
  rw [mapM_some_map _ _ (fun wn : StateVectorList => (List.range (size band)).map fun m =>
        ∑ x ∈ range (points (.tuple axes)), (starRingEnd ℂ) (periodicPart ⟨band, list, .tuple axes, data⟩ m (k0 - 1).toNat x) *
          (latticePhase axes o x * expand (.tuple axes) (fun j => wn.data ((k1 - 1).toNat * size (.tuple axes) + j)) x))]
  · rw [Option.map_some, List.map_map, List.flatMap_def]
    congr 3
    refine List.map_congr_left fun n _ => List.map_congr_left fun m _ => sum_congr rfl fun x _ => ?_
    unfold periodicPart block WavepacketList.row
    dsimp only
    rw [Basis.n_eq, Basis.n_eq]
    congr 3
    funext j
    congr 1
    ring
  · intro wn hwn
    obtain ⟨n, hn, rfl⟩ := List.mem_map.1 hwn
    rw [mapM_some_map _ _ (fun wm : StateVectorList => ∑ x ∈ range (points (.tuple axes)), (starRingEnd ℂ) (expand (.tuple axes) (fun j => wm.data ((k0 - 1).toNat * size (.tuple axes) + j)) x) *
          (latticePhase axes o x * periodicPart ⟨band, list, .tuple axes, data⟩ n (k1 - 1).toNat x))]
    · rw [List.map_map]
      refine congrArg some (List.map_congr_left fun m _ => sum_congr rfl fun x _ => ?_)
      unfold periodicPart block WavepacketList.row
      dsimp only [Function.comp]
      rw [Basis.n_eq, Basis.n_eq]
      congr 3
      · congr 1
        funext j
        congr 1
        ring
      · congr 1
        funext j
        congr 1
        ring
    · intro wm hwm
      obtain ⟨m, hm, rfl⟩ := List.mem_map.1 hwm
      rw [mmnElement_eq axes h3 hv ho band list data o hol hsh k0 k1 h0 h1 n m]
      refine congrArg some (sum_congr rfl fun x _ => ?_)
      unfold periodicPart block WavepacketList.row
      dsimp only
      rw [Basis.n_eq, Basis.n_eq]
      congr 3
      congr 1
      funext j
      congr 1
      ring

/-- **C121.** The first line of `spa.mmn` has the numbers of bands and samples and the number of neighbours, which is that of the file `.nnkp`; there is one block
for each of its further lines, from the first five numbers of the line. -/
theorem C121_file (w : WavepacketList) (ignore : List ℕ) (n : ℤ) (rows : List (List ℤ)) (f : MmnFile) (h : mmnFile w ignore ([n] :: rows) = some f) :
    f.bands = size w.band ∧ f.samples = size w.list ∧ f.neighbours = n ∧
      List.Forall₂ (fun row b => mmnBlock w ignore (row.take 5) = some b ∧ b.header = row.take 5) rows f.blocks := by
  unfold mmnFile parseNnkPoints at h
  rw [Option.bind_some, Option.map_eq_some_iff] at h
  obtain ⟨blocks, hb, rfl⟩ := h
  refine ⟨Basis.n_eq _, Basis.n_eq _, rfl, ?_⟩
  dsimp only at hb ⊢
  have key : ∀ (rows : List (List ℤ)) (blocks : List MmnBlock), (rows.map fun l => l.take 5).mapM (mmnBlock w ignore) = some blocks →
      List.Forall₂ (fun row b => mmnBlock w ignore (row.take 5) = some b ∧ b.header = row.take 5) rows blocks := by
    intro rows
    induction rows with
    | nil => intro blocks h; simp at h; subst h; exact .nil
    | cons r rows ih =>
      intro blocks h
      rw [List.map_cons, List.mapM_cons] at h
      simp only [Option.bind_eq_bind, Option.bind_eq_some_iff, Option.pure_def, Option.some.injEq] at h
      obtain ⟨b, hb, bs, hbs, rfl⟩ := h
      refine .cons ⟨hb, ?_⟩ (ih bs hbs)
      generalize r.take 5 = k at hb
      unfold mmnBlock at hb
      split at hb
      · split at hb
        · rw [Option.map_eq_some_iff] at hb
          obtain ⟨_, _, rfl⟩ := hb
          rfl
        · cases hb
      · cases hb
  exact key rows blocks hb

/-- Two axes, the second of which is ignored: the offset of the first moves its plane waves, that of the second (not of plane waves) is taken as zero. -/
example (d : ℕ → ℂ) : mmnBlock ⟨.fundamental 2, .fundamentalTransformed 3, .tuple [.fundamentalTransformed 4, .fundamental 5], d⟩ [1] [3, 1, 1, 7, 0] =
    some ⟨[3, 1, 1, 7, 0], (List.range 2).flatMap fun n => (List.range 2).map fun m =>
      ∑ x ∈ range 20, (starRingEnd ℂ) (periodicPart ⟨.fundamental 2, .fundamentalTransformed 3, .tuple [.fundamentalTransformed 4, .fundamental 5], d⟩ m 2 x) *
        (latticePhase [.fundamentalTransformed 4, .fundamental 5] [1, 0, 0] x *
          periodicPart ⟨.fundamental 2, .fundamentalTransformed 3, .tuple [.fundamentalTransformed 4, .fundamental 5], d⟩ n 0 x)⟩ :=
  C121_overlaps [.fundamentalTransformed 4, .fundamental 5] (by decide) (by simp [Valid, Valids]) (by simp [OrthonormalParts, OrthonormalPartss]) _ _ d [1] (by decide) 3 1 1 7 0
    (by decide) (by decide) [1, 0, 0] rfl (by intro i hi; interval_cases i <;> simp) ⟨.inl ⟨4, rfl⟩, .inr rfl, trivial⟩

example (w : WavepacketList) : ∃ f, mmnFile w [] [[4]] = some f := ⟨_, rfl⟩

end Verif
