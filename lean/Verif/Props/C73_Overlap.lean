import Verif.Model.Overlap
import Verif.Props.C53_TightBinding
import Verif.Props.C29_Operators
import Std.Data.String.ToInt
import Mathlib.Data.Int.ModEq

/-!
C73: names of overlap files. C74: the overlap of wavepackets. C100: shifted overlaps.
-/

set_option autoImplicit false

namespace Verif

open Finset Spec

/-! ## C73 -/

theorem underscore_int (i : ℤ) : '_' ∉ (toString i).toList := by
  show '_' ∉ (Int.repr i).toList
  cases i with
  | ofNat m => simp [Int.repr, Nat.repr_eq_ofList_toDigits]
  | negSucc m => simp [Int.repr, Nat.repr_eq_ofList_toDigits]

theorem split_underscore {u v s t : List Char} (hu : '_' ∉ u) (hv : '_' ∉ v) (h : u ++ '_' :: s = v ++ '_' :: t) : u = v ∧ s = t := by
  induction u generalizing v with
  | nil =>
    cases v with
    | nil => simpa using h
    | cons c v => simp at h; simp at hv; exact absurd h.1 hv.1
  | cons c u ih =>
    cases v with
    | nil => simp at h; simp at hu; exact absurd h.1.symm hu.1
    | cons c' v =>
      simp only [List.cons_append, List.cons.injEq] at h
      obtain ⟨h1, h2⟩ := ih (fun m => hu (List.mem_cons_of_mem _ m)) (fun m => hv (List.mem_cons_of_mem _ m)) h.2
      exact ⟨by rw [h.1, h1], h2⟩

theorem toString_int_inj {i j : ℤ} (h : (toString i).toList = (toString j).toList) : i = j :=
  Int.repr_injective (String.toList_injective h)

/-- **C73**: requests with the same file name are equal, and there is a name exactly for the bands up to 1 and the neighbouring cells. -/
theorem C73_filename (i j i' j' : ℤ) (oi oj oi' oj' : ℤ × ℤ) (s : String) (h : getOverlapCacheFilename i j oi oj = some s)
    (h' : getOverlapCacheFilename i' j' oi' oj' = some s) : i = i' ∧ j = j' ∧ oi = oi' ∧ oj = oj' := by
  unfold getOverlapCacheFilename at h h'
  simp only [] at h h'
  split_ifs at h h' with c c'
  simp only [not_or, not_not] at c c'
  rw [← h'] at h
  have k := congrArg String.toList (Option.some.inj h)
  simp only [String.toList_append, List.append_assoc] at k
  have k := List.append_cancel_left k
  have e : "_".toList = ['_'] := rfl
  rw [e] at k
  simp only [List.singleton_append] at k
  obtain ⟨k1, k⟩ := split_underscore (underscore_int _) (underscore_int _) k
  obtain ⟨k2, k⟩ := split_underscore (underscore_int _) (underscore_int _) k
  obtain ⟨k3, k⟩ := split_underscore (underscore_int _) (underscore_int _) k
  obtain ⟨k4, k⟩ := split_underscore (underscore_int _) (underscore_int _) k
  obtain ⟨k5, k⟩ := split_underscore (underscore_int _) (underscore_int _) k
  have k6 := List.append_cancel_right k
  have := toString_int_inj k1
  have := toString_int_inj k2
  have := toString_int_inj k3
  have := toString_int_inj k4
  have := toString_int_inj k5
  have := toString_int_inj k6
  exact ⟨by omega, by omega, Prod.ext (by omega) (by omega), Prod.ext (by omega) (by omega)⟩

theorem C73_some (i j : ℤ) (oi oj : ℤ × ℤ) : (getOverlapCacheFilename i j oi oj).isSome ↔
    i ≤ 1 ∧ j ≤ 1 ∧ |oi.1| ≤ 1 ∧ |oi.2| ≤ 1 ∧ |oj.1| ≤ 1 ∧ |oj.2| ≤ 1 := by
  unfold getOverlapCacheFilename
  simp only []
  split_ifs with c
  · simp only [Option.isSome_none, Bool.false_eq_true, false_iff, abs_le]
    omega
  · simp only [Option.isSome_some, true_iff, abs_le]
    omega

example : getOverlapCacheFilename 0 1 (-1, 0) (1, 1) = some "overlap/overlap_0_2_0_1_1_1.npy" := by decide +kernel

/-! ## C74 -/

/-- The value at a point of the large cell of the wavepacket with the Bloch states `data` in the basis `b`: the mean over the samples of the Bloch states. -/
noncomputable def packetValue (axes : List (ℕ × ℕ)) (b : Basis) (data : ℕ → ℂ) (X : List ℕ) : ℂ :=
  (∑ a ∈ range (sampleShape axes).prod, blochWave axes b (block (size b) data a) (unravel (sampleShape axes) a) X) /
    (Real.sqrt ((sampleShape axes).prod : ℕ) : ℂ)

theorem packet_convert (same : Basis → Basis → Bool) (hs : Sound same) (axes : List (ℕ × ℕ)) (b : Basis) (hb : Valid b)
    (ho : OrthonormalParts b) (hshape : b.fundamentalShape = stateShape axes) (data : ℕ → ℂ) :
    ∃ u φ, unfurlWavepacket same ⟨.tuple ((sampleShape axes).map .fundamentalTransformed), b, data⟩ = some u ∧
      convertStateVector same u u.basis.asPositionBasis = some ⟨.tuple ((unfurledShape axes).map .fundamental), φ⟩ ∧
      (∀ x < (unfurledShape axes).prod, φ x = expand (fT (unfurledShape axes)) u.data x) ∧
      ∀ X, InShape (unfurledShape axes) X → φ (ravel (unfurledShape axes) X) = packetValue axes b data X := by
  obtain ⟨s, h1, h2, h3⟩ := C45_bloch same hs axes b hb ho hshape data
  obtain ⟨f, hf, kf⟩ := convert_position same hs (fT (unfurledShape axes)) (valids_fT _) (orthonormalPartss_fT _) (unfurledShape axes)
    (compatible_position _)
  refine ⟨s, f s.data, h1, ?_, fun x hx => kf _ _ hx, fun X hX => ?_⟩
  · unfold convertStateVector
    rw [h2, Basis.asPositionBasis, fundamentalShape_fT, hf]
    rfl
  · rw [kf _ _ (ravel_lt _ _ hX), show fT (unfurledShape axes) = s.basis from h2.symm, h3 X hX, packetValue, sum_div, sum_div]
    refine sum_congr rfl fun a _ => ?_
    have hsq : (Real.sqrt ((sampleShape axes).prod : ℕ) : ℂ) * (Real.sqrt ((sampleShape axes).prod : ℕ) : ℂ) =
        (((sampleShape axes).prod : ℕ) : ℂ) := by
      rw [← Complex.ofReal_mul, Real.mul_self_sqrt (Nat.cast_nonneg _), Complex.ofReal_natCast]
    show _ = _ / (Real.sqrt ((sampleShape axes).prod : ℕ) : ℂ) / _
    rw [div_div, hsq]
    rfl

/-- **C74**: the overlap of two wavepackets is at every point of the large cell the product of the conjugated first and the second wavepacket; its sum over
all points is the mean over the samples of the inner products of the Bloch states. -/
theorem C74_wavepacket (same : Basis → Basis → Bool) (hs : Sound same) (axes : List (ℕ × ℕ)) (b b' : Basis) (hb : Valid b) (hb' : Valid b')
    (ho : OrthonormalParts b) (ho' : OrthonormalParts b') (hshape : b.fundamentalShape = stateShape axes)
    (hshape' : b'.fundamentalShape = stateShape axes) (data data' : ℕ → ℂ) :
    ∃ o : Overlap, calculateWavepacketOverlap same ⟨.tuple ((sampleShape axes).map .fundamentalTransformed), b, data⟩
        ⟨.tuple ((sampleShape axes).map .fundamentalTransformed), b', data'⟩ = some o ∧
      (∀ X, InShape (unfurledShape axes) X → o.data (ravel (unfurledShape axes) X) =
        (starRingEnd ℂ) (packetValue axes b data X) * packetValue axes b' data' X) ∧
      ∑ x ∈ range (unfurledShape axes).prod, o.data x =
        (∑ a ∈ range (sampleShape axes).prod, dot (stateShape axes).prod (expand b (block (size b) data a))
          (expand b' (block (size b') data' a))) / ((sampleShape axes).prod : ℕ) := by
  obtain ⟨u, φ, h1, h2, h3, h4⟩ := packet_convert same hs axes b hb ho hshape data
  obtain ⟨u', φ', h1', h2', h3', h4'⟩ := packet_convert same hs axes b' hb' ho' hshape' data'
  refine ⟨⟨.tuple ((unfurledShape axes).map .fundamental), .fundamental 1, .fundamental 1, fun x => (starRingEnd ℂ) (φ x) * φ' x⟩, ?_, ?_, ?_⟩
  · unfold calculateWavepacketOverlap
    rw [h1, Option.bind_some, h2, Option.bind_some, h1', Option.bind_some, h2', Option.bind_some]
    exact if_pos rfl
  · intro X hX
    show (starRingEnd ℂ) (φ _) * φ' _ = _
    rw [h4 X hX, h4' X hX]
  · obtain ⟨s, s', k1, k2, k3⟩ := C46_inner same hs axes b b' hb hb' ho ho' hshape hshape' data data'
    rw [h1] at k1
    rw [h1'] at k2
    cases k1
    cases k2
    rw [← k3]
    have o := state_orthonormal (fT (unfurledShape axes)) (valids_fT _) (orthonormalPartss_fT _)
    have := dot_expand_expand o u.data u'.data
    rw [show size (fT (unfurledShape axes)) = (unfurledShape axes).prod from sizes_fT _,
      show points (fT (unfurledShape axes)) = (unfurledShape axes).prod from pointss_fT _] at this
    rw [← this]
    unfold dot
    exact sum_congr rfl fun x hx => by
      show (starRingEnd ℂ) (φ x) * φ' x = _
      rw [h3 x (mem_range.1 hx), h3' x (mem_range.1 hx)]

/-- A cell of three points repeated twice in the position basis and in the momentum basis. -/
example : Valid (.tuple [.fundamental 3]) ∧ Valid (.tuple [.fundamentalTransformed 3]) ∧ OrthonormalParts (.tuple [.fundamental 3]) ∧
    (Basis.tuple [.fundamental 3]).fundamentalShape = stateShape [(2, 3)] ∧ unfurledShape [(2, 3)] = [6] := by
  refine ⟨by simp [Valid, Valids], by simp [Valid, Valids], by simp [OrthonormalParts, OrthonormalPartss], rfl, rfl⟩

theorem n_eq (b : Basis) : b.n = size b := (methods_sizes b).1

/-- **C74**, lists: the overlap of states `i` and `j` of a list with a flat shift is at every point the product of the conjugated state `i` and the state `j`
moved cyclically by the shift; without a shift the sum over the points is the inner product. -/
theorem C74_list (l : StateVectorList) (shift : ℤ) (i j : ℕ) (hi : i < size l.listBasis) (hj : j < size l.listBasis) :
    ∃ o, getSingleOverlapStacked (stateVectorListOverlap l shift) i j = some o ∧
      (∀ x < size l.basis, o.data x = (starRingEnd ℂ) (block (size l.basis) l.data i x) *
        block (size l.basis) l.data j (((x : ℤ) - shift) % (size l.basis : ℤ)).toNat) ∧
      (shift = 0 → ∑ x ∈ range (size l.basis), o.data x = dot (size l.basis) (block (size l.basis) l.data i) (block (size l.basis) l.data j)) := by
  have hn := n_eq l.listBasis
  have hx := n_eq l.basis
  have key : i * size l.listBasis + j < size l.listBasis * size l.listBasis := by
    calc i * size l.listBasis + j < i * size l.listBasis + size l.listBasis := by omega
      _ = (i + 1) * size l.listBasis := by ring
      _ ≤ _ := Nat.mul_le_mul_right _ hi
  have hval : ∀ x, (stateVectorListOverlap l shift).data (x * (size l.listBasis * size l.listBasis) + (i * size l.listBasis + j)) =
      (starRingEnd ℂ) (block (size l.basis) l.data i x) * block (size l.basis) l.data j (((x : ℤ) - shift) % (size l.basis : ℤ)).toNat := by
    intro x
    unfold stateVectorListOverlap
    simp only [hn, hx]
    have hp : 0 < size l.listBasis := Nat.zero_lt_of_lt hi
    have e1 : (x * (size l.listBasis * size l.listBasis) + (i * size l.listBasis + j)) % size l.listBasis = j := by
      rw [show x * (size l.listBasis * size l.listBasis) + (i * size l.listBasis + j) = j + size l.listBasis * (x * size l.listBasis + i) by ring,
        Nat.add_mul_mod_self_left, Nat.mod_eq_of_lt hj]
    have e2 : (x * (size l.listBasis * size l.listBasis) + (i * size l.listBasis + j)) / size l.listBasis = x * size l.listBasis + i := by
      rw [show x * (size l.listBasis * size l.listBasis) + (i * size l.listBasis + j) = j + size l.listBasis * (x * size l.listBasis + i) by ring,
        Nat.add_mul_div_left _ _ hp, Nat.div_eq_of_lt hj, zero_add]
    have e3 : (x * size l.listBasis + i) % size l.listBasis = i := by
      rw [add_comm, Nat.add_mul_mod_self_right, Nat.mod_eq_of_lt hi]
    have e4 : (x * (size l.listBasis * size l.listBasis) + (i * size l.listBasis + j)) / (size l.listBasis * size l.listBasis) = x := by
      rw [add_comm, Nat.add_mul_div_right _ _ (Nat.mul_pos hp hp), Nat.div_eq_of_lt key, zero_add]
    rw [e1, e2, e3, e4]
    rfl
  refine ⟨⟨l.basis, .fundamental 1, .fundamental 1, fun x => (stateVectorListOverlap l shift).data
    (x * (size l.listBasis * size l.listBasis) + (i * size l.listBasis + j))⟩, ?_, fun x _ => hval x, ?_⟩
  · unfold getSingleOverlapStacked getSingleOverlap
    show (getFlatIndex .raise [l.listBasis.n, l.listBasis.n] [(i : ℤ), (j : ℤ)]).bind _ = _
    rw [hn]
    have : getFlatIndex .raise [size l.listBasis, size l.listBasis] [(i : ℤ), (j : ℤ)] = some (i * size l.listBasis + j) := by
      have := ravelCoords_natCast .raise [size l.listBasis, size l.listBasis] [i, j] ⟨hi, hj, trivial⟩
      rw [getFlatIndex, show [(i : ℤ), (j : ℤ)] = [i, j].map (fun i : ℕ => (i : ℤ)) from rfl, this]
      simp [ravel]
    rw [this, Option.bind_some]
    have e : ((stateVectorListOverlap l shift).list0.n * (stateVectorListOverlap l shift).list1.n) = size l.listBasis * size l.listBasis := by
      show l.listBasis.n * l.listBasis.n = _
      rw [hn]
    simp only [e]
    exact if_pos key
  · intro h0
    subst h0
    unfold dot
    refine sum_congr rfl fun x hx' => ?_
    show (stateVectorListOverlap l 0).data _ = _
    rw [hval, sub_zero, Int.emod_eq_of_lt (by omega) (by exact_mod_cast mem_range.1 hx'), Int.toNat_natCast]

/-- **C74**, lists of wavepackets: the overlap of wavepackets `i` and `j`. -/
theorem C74_wavepacket_list (same : Basis → Basis → Bool) (hs : Sound same) (axes : List (ℕ × ℕ)) (bands : ℕ) (b : Basis) (hb : Valid b)
    (ho : OrthonormalParts b) (hshape : b.fundamentalShape = stateShape axes) (data : ℕ → ℂ) (i j : ℕ) (hi : i < bands) (hj : j < bands) :
    ∃ o o', wavepacketListOverlap same ⟨bands, sampleShape axes, b, data⟩ 0 = some o' ∧ getSingleOverlapStacked o' i j = some o ∧
      ∀ X, InShape (unfurledShape axes) X → o.data (ravel (unfurledShape axes) X) =
        (starRingEnd ℂ) (packetValue axes b (block ((sampleShape axes).prod * size b) data i) X) *
          packetValue axes b (block ((sampleShape axes).prod * size b) data j) X := by
  have hex := fun i => wannierFundamental_eq same hs axes bands b hb ho hshape data i
  choose φ h1 h2 using hex
  have hax : (⟨bands, sampleShape axes, b, data⟩ : BlochWavefunctions).axes = axes := by
    unfold BlochWavefunctions.axes
    show (sampleShape axes).zip b.fundamentalShape = _
    rw [hshape, zip_axes]
  obtain ⟨f1, f2, f3, f4⟩ := fund_facts (unfurledShape axes)
  obtain ⟨l, hl⟩ : ∃ l : StateVectorList, l = ⟨.fundamental bands, Basis.tuple ((unfurledShape axes).map .fundamental),
    flatten (unfurledShape axes).prod φ⟩ := ⟨_, rfl⟩
  have hw : wavepacketListOverlap same ⟨bands, sampleShape axes, b, data⟩ 0 = some (stateVectorListOverlap l 0) := by
    unfold wavepacketListOverlap
    have hc : ∀ i < bands, (wannierFundamental same ⟨bands, sampleShape axes, b, data⟩ i).isSome := fun i _ => by rw [h1 i]; rfl
    rw [if_pos hc, hl]
    simp only [hax, n_eq, f1, h1, Option.getD_some]
  have hl1 : size l.listBasis = bands := by rw [hl]; rfl
  have hl2 : size l.basis = (unfurledShape axes).prod := by rw [hl]; exact f1
  obtain ⟨o, k1, k2, -⟩ := C74_list l 0 i j (by rw [hl1]; exact hi) (by rw [hl1]; exact hj)
  refine ⟨o, _, hw, k1, fun X hX => ?_⟩
  have hlt := ravel_lt _ _ hX
  have hb2 : ∀ i, block (size l.basis) l.data i (ravel (unfurledShape axes) X) = packetValue axes b (block ((sampleShape axes).prod * size b) data i) X := by
    intro i
    rw [hl2]
    have : l.data = flatten (unfurledShape axes).prod φ := by rw [hl]
    rw [this]
    unfold block flatten
    rw [add_comm, Nat.add_mul_div_right _ _ (Nat.zero_lt_of_lt hlt), Nat.div_eq_of_lt hlt, zero_add, Nat.add_mul_mod_self_right,
      Nat.mod_eq_of_lt hlt, h2 i X hX, packetValue]
    congr 1
    refine sum_congr rfl fun a _ => ?_
    rw [← block_block]
    rfl
  rw [k2 _ (by rw [hl2]; exact hlt), sub_zero, Int.emod_eq_of_lt (by omega) (by rw [hl2]; exact_mod_cast hlt), Int.toNat_natCast, hb2, hb2]

/-! ## C100 -/

/-- The point from which a periodic translation by `shift` brings the value at the point `idx`. -/
def translatedFrom : List ℕ → List ℤ → List ℕ → List ℕ
  | n :: ns, s :: ss, i :: is => (((i : ℤ) - s) % (n : ℤ)).toNat :: translatedFrom ns ss is
  | _, _, _ => []

/-- **C100** (for shifts along the first axis): the second state is translated periodically by the stacked shift. -/
theorem C100_shift_partial (n : ℕ) (ns : List ℕ) (hn : 0 < n) (hns : ∀ m ∈ ns, 0 < m) (l : StateVectorList) (hl : size l.basis = (n :: ns).prod) (s : ℤ)
    (i j : ℕ) (hi : i < size l.listBasis) (hj : j < size l.listBasis) :
    ∃ o o', stateVectorListOverlapStacked (n :: ns) l (s :: ns.map fun _ => 0) = some o' ∧ getSingleOverlapStacked o' i j = some o ∧
      ∀ X, InShape (n :: ns) X → o.data (ravel (n :: ns) X) = (starRingEnd ℂ) (block (size l.basis) l.data i (ravel (n :: ns) X)) *
        block (size l.basis) l.data j (ravel (n :: ns) (translatedFrom (n :: ns) (s :: ns.map fun _ => 0) X)) := by
  have hz : ∀ ns : List ℕ, (∀ m ∈ ns, 0 < m) → ravelCoords .wrap ns (ns.map fun _ => 0) = some (ns.map fun _ => 0) ∧ ravel ns (ns.map fun _ => 0) = 0 := by
    intro ns
    induction ns with
    | nil => intro _; exact ⟨rfl, rfl⟩
    | cons m ms ih =>
      intro h
      obtain ⟨i1, i2⟩ := ih fun x hx => h x (List.mem_cons_of_mem _ hx)
      have hm := h m (List.mem_cons_self ..)
      constructor
      · simp only [List.map_cons, ravelCoords, ravelCoord, if_neg hm.ne', i1]
        simp
      · simp only [List.map_cons, ravel, i2]; simp
  obtain ⟨z1, z2⟩ := hz ns hns
  have hf : getFlatIndex .wrap (n :: ns) (s :: ns.map fun _ => 0) = some ((s % (n : ℤ)).toNat * ns.prod) := by
    unfold getFlatIndex
    simp only [ravelCoords, ravelCoord, if_neg hn.ne', z1, Option.map_some, ravel, z2, add_zero]
  obtain ⟨o, h1, h2, -⟩ := C74_list l (((s % (n : ℤ)).toNat * ns.prod : ℕ) : ℤ) i j hi hj
  refine ⟨o, _, by unfold stateVectorListOverlapStacked; rw [hf]; rfl, h1, fun X hX => ?_⟩
  cases X with
  | nil => exact absurd hX (by simp [InShape])
  | cons x xs =>
    have hlt := ravel_lt _ _ hX
    rw [h2 _ (by rw [hl]; exact hlt)]
    congr 2
    have htr : ∀ (ns xs : List ℕ), InShape ns xs → translatedFrom ns (ns.map fun _ => 0) xs = xs := by
      intro ns
      induction ns with
      | nil => intro xs h; cases xs with
        | nil => rfl
        | cons _ _ => exact absurd h (by simp [InShape])
      | cons m ms ih =>
        intro xs h
        cases xs with
        | nil => exact absurd h (by simp [InShape])
        | cons y ys =>
          simp only [List.map_cons, translatedFrom, ih ys h.2, sub_zero]
          rw [Int.emod_eq_of_lt (by omega) (by exact_mod_cast h.1), Int.toNat_natCast]
    have hrx := ravel_lt ns xs hX.2
    have hp : 0 < ns.prod := Nat.zero_lt_of_lt hrx
    simp only [translatedFrom, ravel, htr ns xs hX.2]
    rw [hl, List.prod_cons]
    have hs0 : 0 ≤ s % (n : ℤ) := Int.emod_nonneg _ (by omega)
    have ht0 : 0 ≤ ((x : ℤ) - s) % (n : ℤ) := Int.emod_nonneg _ (by omega)
    have ht1 : ((x : ℤ) - s) % (n : ℤ) < n := Int.emod_lt_of_pos _ (by omega)
    apply Int.ofNat.inj
    show (((_ : ℕ) : ℤ)) = ((_ : ℕ) : ℤ)
    rw [Int.toNat_of_nonneg (Int.emod_nonneg _ (by positivity))]
    generalize ns.prod = P at *
    push_cast
    rw [Int.toNat_of_nonneg hs0, Int.toNat_of_nonneg ht0]
    have hc : ((x : ℤ) * P + ravel ns xs - s % n * P) ≡ (((x : ℤ) - s) % n * P + ravel ns xs) [ZMOD (n * P)] := by
      have a1 : ((x : ℤ) - s % n) ≡ (((x : ℤ) - s) % n) [ZMOD n] := by
        refine Int.ModEq.trans ?_ (Int.mod_modEq _ _).symm
        exact Int.ModEq.sub_left _ (Int.mod_modEq _ _)
      have a2 := (Int.ModEq.mul_right' (c := (P : ℤ)) a1).add_right (ravel ns xs : ℤ)
      rw [show (x : ℤ) * P + ravel ns xs - s % n * P = (x - s % n) * P + ravel ns xs by ring]
      exact a2
    rw [hc.eq]
    refine Int.emod_eq_of_lt (by positivity) ?_
    have : (ravel ns xs : ℤ) < P := by exact_mod_cast hrx
    nlinarith

/-- Two states on a grid of three by two points. -/
example : size (Basis.tuple [.fundamental 3, .fundamental 2]) = [3, 2].prod ∧ size (Basis.fundamental 2) = 2 ∧ InShape [3, 2] [2, 1] ∧
    translatedFrom [3, 2] [1, 0] [0, 1] = [2, 1] := by
  refine ⟨rfl, rfl, by simp [InShape], by decide⟩

/-- **C100** fails for shifts along the other axes: on a grid of two by two points a state at the point `(0, 1)` is moved by `(0, 1)` to the point
`(1, 0)` and not to `(0, 0)`. -/
theorem C100_shift_negation : ∃ (l : StateVectorList) (o : Overlap), l.basis = .tuple [.fundamental 2, .fundamental 2] ∧ size l.listBasis = 2 ∧
    stateVectorListOverlapStacked [2, 2] l [0, 1] = some o ∧
    (∀ i < 2, dot 4 (block 4 l.data i) (block 4 l.data i) = 1) ∧
    ∃ o', getSingleOverlapStacked o 0 1 = some o' ∧
      o'.data (ravel [2, 2] [0, 0]) ≠ (starRingEnd ℂ) (block 4 l.data 0 (ravel [2, 2] [0, 0])) *
        block 4 l.data 1 (ravel [2, 2] (translatedFrom [2, 2] [0, 1] [0, 0])) := by
  obtain ⟨l, hl⟩ : ∃ l : StateVectorList, l = ⟨.fundamental 2, .tuple [.fundamental 2, .fundamental 2], fun k => if k = 0 ∨ k = 5 then 1 else 0⟩ := ⟨_, rfl⟩
  have hsz : size l.basis = 4 := by rw [hl]; rfl
  have hld : l.data = fun k => if k = 0 ∨ k = 5 then 1 else 0 := by rw [hl]
  obtain ⟨o', h1, h2, -⟩ := C74_list l 1 0 1 (by rw [hl]; decide) (by rw [hl]; decide)
  refine ⟨l, _, by rw [hl], by rw [hl]; rfl, rfl, ?_, o', h1, ?_⟩
  · intro i hi
    have : i = 0 ∨ i = 1 := by omega
    rcases this with rfl | rfl <;> simp [dot, block, hld, sum_range_succ]
  · have := h2 0 (by rw [hsz]; norm_num)
    rw [hsz] at this
    rw [show ravel [2, 2] [0, 0] = 0 from rfl, this, hld]
    simp [block, translatedFrom, ravel]

/-- **C74.** `convert_overlap_to_position_basis` gives, for every pair of states, the values of the overlap at the points. -/
theorem C74_position (same : Basis → Basis → Bool) (hs : Sound same) (o : Overlap) (hb : Valid o.basis) (ho : OrthonormalParts o.basis) :
    ∃ o', convertOverlapToPosition same o = some o' ∧ o'.basis = .tuple (o.basis.fundamentalShape.map .fundamental) ∧ o'.list0 = o.list0 ∧ o'.list1 = o.list1 ∧
      ∀ x < o.basis.fundamentalShape.prod, ∀ i < size o.list0, ∀ j < size o.list1, o'.data ((x * size o.list0 + i) * size o.list1 + j) =
        expand o.basis (fun p => o.data ((p * size o.list0 + i) * size o.list1 + j)) x := by
  obtain ⟨f, hf, kf⟩ := convert_position same hs o.basis hb ho o.basis.fundamentalShape (compatible_asPosition o.basis)
  refine ⟨⟨_, o.list0, o.list1, _⟩, by unfold convertOverlapToPosition convertOverlap Basis.asPositionBasis; rw [hf, Option.map_some], rfl, rfl, rfl, ?_⟩
  intro x hx i hi j hj
  dsimp only
  have hn : i * size o.list1 + j < size o.list0 * size o.list1 := add_mul_lt hi hj
  have e : ∀ y, (y * size o.list0 + i) * size o.list1 + j = y * (size o.list0 * size o.list1) + (i * size o.list1 + j) := fun y => by ring
  rw [n_eq, n_eq, e, Nat.mul_comm x, Nat.mul_add_div (by omega), Nat.mul_add_mod, Nat.div_eq_of_lt hn, Nat.mod_eq_of_lt hn, Nat.add_zero, kf _ x hx]
  simp only [e]

/-- An overlap of two and three states given by plane waves. -/
example : ∃ o : Overlap, Valid o.basis ∧ OrthonormalParts o.basis ∧ size o.list0 = 2 ∧ size o.list1 = 3 ∧ o.basis.fundamentalShape = [4] :=
  ⟨⟨.tuple [.fundamentalTransformed 4], .fundamental 2, .fundamental 3, fun k => k⟩, by simp [Valid, Valids],
    by simp [OrthonormalParts, OrthonormalPartss], rfl, rfl, rfl⟩

end Verif
