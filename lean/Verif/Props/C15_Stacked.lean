import Verif.Props.C10_Convert
import Verif.Model.ConvertMatrix

/-!
# C15 – C18: stacked bases, explicit bases, dual vectors and matrices, same basis
-/

set_option autoImplicit false

namespace Verif

open Finset Spec

/-! ## C15 -/

/-- The exact linear map with a given kernel. -/
def lin (a : AxisKernel) : (ℕ → ℂ) → ℕ → ℂ := fun v i => ∑ j ∈ range a.n, a.K i j * v j

theorem getD_set_ne (l : List ℕ) {a b : ℕ} (h : a ≠ b) (i : ℕ) : (l.set a i).getD b 0 = l.getD b 0 := by
  simp [List.getD, List.getElem?_set_ne h]

theorem foldl_lin (k : ℕ → AxisKernel) (l : List (((ℕ → ℂ) → ℕ → ℂ) × ℕ)) :
    (∀ p ∈ l, HasKernel p.1 (k p.2).n (k p.2).m (k p.2).K) → (l.map Prod.snd).Nodup →
    ∀ (arr : List ℕ → ℂ) (idx : List ℕ), (∀ p ∈ l, idx.getD p.2 0 < (k p.2).m) →
    l.foldl (fun arr fax => applyAlong fax.2 fax.1 arr) arr idx =
      (l.map Prod.snd).foldl (fun arr ax => applyAlong ax (lin (k ax)) arr) arr idx := by
  induction l using List.reverseRecOn with
  | nil => intros; rfl
  | append_singleton l p ih =>
    intro hk hnd arr idx hidx
    rw [List.map_append, List.map_singleton, List.foldl_append, List.foldl_append]
    simp only [List.foldl_cons, List.foldl_nil]
    rw [List.map_append, List.map_singleton, List.nodup_append] at hnd
    have hp : p ∈ l ++ [p] := by simp
    unfold applyAlong
    rw [hk p hp _ _ (hidx p hp)]
    unfold lin
    apply sum_congr rfl; intro j _
    congr 1
    apply ih (fun q hq => hk q (by simp [hq])) hnd.1
    intro q hq
    have hne : p.2 ≠ q.2 := fun h => hnd.2.2 q.2 (List.mem_map_of_mem hq) p.2 (by simp) h.symm
    rw [getD_set_ne _ hne]
    exact hidx q (by simp [hq])

theorem applyAlong_lin_comm (k : ℕ → AxisKernel) (x y : ℕ) (z : List ℕ → ℂ) :
    applyAlong y (lin (k y)) (applyAlong x (lin (k x)) z) = applyAlong x (lin (k x)) (applyAlong y (lin (k y)) z) := by
  by_cases h : x = y
  · subst h; rfl
  funext idx
  unfold applyAlong lin
  simp only [getD_set_ne _ h, getD_set_ne _ (Ne.symm h), mul_sum]
  rw [sum_comm]
  apply sum_congr rfl; intro j _
  apply sum_congr rfl; intro i _
  rw [List.set_comm _ _ h]; ring

theorem foldl_perm (k : ℕ → AxisKernel) (l l' : List (((ℕ → ℂ) → ℕ → ℂ) × ℕ)) (hp : l.Perm l')
    (hk : ∀ p ∈ l, HasKernel p.1 (k p.2).n (k p.2).m (k p.2).K) (hnd : (l.map Prod.snd).Nodup)
    (arr : List ℕ → ℂ) (idx : List ℕ) (hidx : ∀ p ∈ l, idx.getD p.2 0 < (k p.2).m) :
    l.foldl (fun arr fax => applyAlong fax.2 fax.1 arr) arr idx =
      l'.foldl (fun arr fax => applyAlong fax.2 fax.1 arr) arr idx := by
  rw [foldl_lin k l hk hnd arr idx hidx, foldl_lin k l' (fun p h => hk p (hp.mem_iff.2 h))
    ((hp.map _).nodup_iff.1 hnd) arr idx (fun p h => hidx p (hp.mem_iff.2 h))]
  rw [(hp.map Prod.snd).foldl_eq' (fun x _ y _ z => applyAlong_lin_comm k x y z)]

theorem inShape_getD : ∀ (ms is : List ℕ), InShape ms is → ∀ i < ms.length, is.getD i 0 < ms.getD i 0
  | [], _, _, i, h => by simp at h
  | _ :: _, [], h, _, _ => absurd h (by simp [InShape])
  | m :: ms, i :: is, h, 0, _ => by simpa using h.1
  | m :: ms, i :: is, h, t + 1, ht => by
    simpa using inShape_getD ms is h.2 t (by simpa using ht)

theorem forall₂_zipIdx {α β : Type} (R : α → β → Prop) (d : β) : ∀ (fs : List α) (l : List β) (s : ℕ),
    List.Forall₂ R fs l → ∀ p ∈ fs.zipIdx s, s ≤ p.2 ∧ p.2 - s < l.length ∧ R p.1 (l.getD (p.2 - s) d)
  | [], [], _, _, p, hp => by simp at hp
  | f :: fs, a :: l, s, .cons h hs, p, hp => by
    rw [List.zipIdx_cons, List.mem_cons] at hp
    rcases hp with rfl | hp
    · refine ⟨le_refl _, ?_, ?_⟩ <;> simp [h]
    · obtain ⟨h1, h2, h3⟩ := forall₂_zipIdx R d fs l (s + 1) hs p hp
      have e : p.2 - s = (p.2 - (s + 1)) + 1 := by omega
      refine ⟨by omega, by rw [e]; simpa using h2, ?_⟩
      rw [e]; simpa using h3

/-- The conversions of the axes one after the other, in the given order, of the tensor of a flattened vector. -/
noncomputable def axesInOrder (shape : List ℕ) (order : List (((ℕ → ℂ) → ℕ → ℂ) × ℕ)) (v : ℕ → ℂ) : List ℕ → ℂ :=
  order.foldl (fun arr fax => fun idx => fax.1 (fun t => arr (idx.set fax.2 t)) (idx.getD fax.2 0))
    (fun idx => v (ravel shape idx))

/-- **C15.** Converting a flattened vector between stacked bases equals converting the tensor along its axes in any
order. -/
theorem C15_any_order (same : Basis → Basis → Bool) (hs : Sound same) (as bs : List Basis) (ha : Valids as)
    (hb : Valids bs) (ho : OrthonormalPartss as) (hc : Compatibles as bs) :
    ∃ F fs, Basis.convert same (.tuple as) (.tuple bs) = some F ∧
      List.Forall₂ (fun ab f => Basis.convert same ab.1 ab.2 = some f) (as.zip bs) fs ∧
      ∀ order : List (((ℕ → ℂ) → ℕ → ℂ) × ℕ), order.Perm fs.zipIdx →
        ∀ v, ∀ idx, InShape (bs.map size) idx →
          F v (ravel (bs.map size) idx) = axesInOrder (as.map size) order v idx := by
  obtain ⟨fs, l, h1, h2, h3, h4, h5⟩ := convertList_kernel same hs as bs ha hb ho hc
  have hsz : ∀ l : List Basis, (Basis.methodsList l).map Methods.n = l.map size := by
    intro l; induction l with
    | nil => rfl
    | cons b bs ih => simp only [Basis.methodsList, List.map_cons, ih, (methods_sizes b).1]
  have hfn : (tupleMethods (Basis.methodsList bs)).fn = (tupleMethods (Basis.methodsList as)).fn := by
    simp only [tupleMethods]
    rw [(methodsList_sizes bs).2, (methodsList_sizes as).2, compatibles_points as bs hc]
  refine ⟨convertTupleVector (as.map size) (bs.map size) fs, fs, ?_, ?_, ?_⟩
  · simp only [Basis.convert]
    rw [if_pos hfn, h1, hsz, hsz]; rfl
  · have : ∀ (as bs : List Basis) (fs), Basis.convertList same as bs = some fs →
        List.Forall₂ (fun ab f => Basis.convert same ab.1 ab.2 = some f) (as.zip bs) fs := by
      intro as
      induction as with
      | nil =>
        intro bs fs h
        cases bs <;> simp only [Basis.convertList, Option.some.injEq, reduceCtorEq] at h
        subst h; exact .nil
      | cons a as ih =>
        intro bs fs h
        cases bs with
        | nil => simp [Basis.convertList] at h
        | cons b bs =>
          simp only [Basis.convertList, Option.bind_eq_some_iff, Option.map_eq_some_iff] at h
          obtain ⟨f, hf, fs', hfs', rfl⟩ := h
          exact .cons hf (ih bs fs' hfs')
    exact this as bs fs h1
  · intro order hperm v idx hidx
    unfold convertTupleVector
    rw [unravel_ravel _ _ hidx]
    have hz := forall₂_zipIdx (fun f (a : AxisKernel) => HasKernel f a.n a.m a.K) ⟨0, 0, fun _ _ => 0⟩ fs l 0 h2
    refine foldl_perm (fun ax => l.getD ax ⟨0, 0, fun _ _ => 0⟩) _ _ hperm.symm ?_ ?_ _ idx ?_
    · intro p hp
      simpa using (hz p hp).2.2
    · rw [List.zipIdx_map_snd]
      exact List.nodup_range'
    · intro p hp
      have h6 := (hz p hp).2.1
      rw [hsz] at h4
      rw [← h4] at hidx
      have := inShape_getD _ _ hidx p.2 (by simpa using h6)
      rw [List.getD_map_eq] at this
      exact this
where
  List.getD_map_eq {l : List AxisKernel} {i : ℕ} :
    (l.map AxisKernel.m).getD i 0 = (l.getD i ⟨0, 0, fun _ _ => 0⟩).m := by
    simp only [List.getD, List.getElem?_map]
    cases l[i]? <;> rfl

/-- The product of one vector per axis, flattened; the last axis runs fastest. -/
noncomputable def prodVec : List (ℕ × (ℕ → ℂ)) → ℕ → ℂ
  | [], _ => 1
  | (_, v) :: vs, k => v (k / (vs.map Prod.fst).prod) * prodVec vs (k % (vs.map Prod.fst).prod)

theorem kron_prodVec (l : List AxisKernel) : ∀ (vs : List (ℕ → ℂ)), vs.length = l.length → ∀ i,
    ∑ j ∈ range (kronN l), kron l i j * prodVec ((l.map AxisKernel.n).zip vs) j =
      prodVec ((l.map AxisKernel.m).zip (List.zipWith (fun a v => lin a v) l vs)) i := by
  induction l with
  | nil => intro vs _ i; simp [kronN, kron, prodVec]
  | cons a l ih =>
    intro vs hl i
    cases vs with
    | nil => simp at hl
    | cons v vs =>
      have hl' : vs.length = l.length := by simpa using hl
      have e1 : (((l.map AxisKernel.n).zip vs).map Prod.fst).prod = kronN l := by
        rw [List.map_fst_zip (by simp [hl']), kronN_eq]
      have e2 : (((l.map AxisKernel.m).zip (List.zipWith (fun a v => lin a v) l vs)).map Prod.fst).prod = kronM l := by
        rw [List.map_fst_zip (by simp [hl']), kronM_eq]
      simp only [List.map_cons, List.zip_cons_cons, List.zipWith_cons_cons, prodVec, e1, e2, kronN, kron]
      rw [← ih vs hl']
      have := sum_kron_split a.n (kronN l) (fun j => a.K (i / kronM l) j * v j)
        (fun j => kron l (i % kronM l) j * prodVec ((l.map AxisKernel.n).zip vs) j)
      unfold lin
      rw [← this]
      exact sum_congr rfl fun j _ => by ring

theorem prodVec_congr : ∀ (ms : List ℕ) (vs ws : List (ℕ → ℂ)), vs.length = ms.length → ws.length = ms.length →
    (∀ i < ms.length, ∀ j < ms.getD i 0, vs.getD i (fun _ => 0) j = ws.getD i (fun _ => 0) j) →
    ∀ k < ms.prod, prodVec (ms.zip vs) k = prodVec (ms.zip ws) k
  | [], [], [], _, _, _, k, _ => rfl
  | m :: ms, v :: vs, w :: ws, h1, h2, h, k, hk => by
    have h1' : vs.length = ms.length := by simpa using h1
    have h2' : ws.length = ms.length := by simpa using h2
    rw [List.prod_cons] at hk
    have hp : 0 < ms.prod := Nat.pos_of_ne_zero fun h => by rw [h] at hk; simp at hk
    simp only [List.zip_cons_cons, prodVec]
    rw [List.map_fst_zip (by simp [h1']), List.map_fst_zip (by simp [h2'])]
    have h0 := h 0 (by simp) (k / ms.prod) (by
      simp only [List.getD_cons_zero]; rw [Nat.div_lt_iff_lt_mul hp]; exact hk)
    simp only [List.getD_cons_zero] at h0
    rw [h0, prodVec_congr ms vs ws h1' h2' (fun i hi j hj => by
      have := h (i + 1) (by simpa using hi) j (by simpa using hj)
      simpa using this) _ (Nat.mod_lt k hp)]

/-- **C15.** The conversion between stacked bases takes product vectors to the products of the converted factors. -/
theorem C15_product (same : Basis → Basis → Bool) (hs : Sound same) (as bs : List Basis) (ha : Valids as)
    (hb : Valids bs) (ho : OrthonormalPartss as) (hc : Compatibles as bs) :
    ∃ F fs, Basis.convert same (.tuple as) (.tuple bs) = some F ∧
      List.Forall₂ (fun ab f => Basis.convert same ab.1 ab.2 = some f) (as.zip bs) fs ∧
      ∀ vs : List (ℕ → ℂ), vs.length = as.length → ∀ k < size (.tuple bs),
        F (prodVec ((as.map size).zip vs)) k =
          prodVec ((bs.map size).zip (List.zipWith (fun f v => f v) fs vs)) k := by
  obtain ⟨F, fs, hF, hfs, -⟩ := C15_any_order same hs as bs ha hb ho hc
  refine ⟨F, fs, hF, hfs, fun vs hvs k hk => ?_⟩
  obtain ⟨fs', l, h1, h2, h3, h4, h5⟩ := convertList_kernel same hs as bs ha hb ho hc
  have hsz : ∀ l : List Basis, (Basis.methodsList l).map Methods.n = l.map size := by
    intro l; induction l with
    | nil => rfl
    | cons b bs ih => simp only [Basis.methodsList, List.map_cons, ih, (methods_sizes b).1]
  rw [hsz] at h3 h4
  have hfs' : fs' = fs := by
    have : ∀ (as bs : List Basis) (fs fs'), Basis.convertList same as bs = some fs' →
        List.Forall₂ (fun ab f => Basis.convert same ab.1 ab.2 = some f) (as.zip bs) fs → fs' = fs := by
      intro as
      induction as with
      | nil =>
        intro bs fs fs' h h'
        cases bs <;> simp only [Basis.convertList, Option.some.injEq, reduceCtorEq] at h
        subst h; cases h'; rfl
      | cons a as ih =>
        intro bs fs fs' h h'
        cases bs with
        | nil => simp [Basis.convertList] at h
        | cons b bs =>
          simp only [Basis.convertList, Option.bind_eq_some_iff, Option.map_eq_some_iff] at h
          obtain ⟨f, hf, fs'', hfs'', rfl⟩ := h
          cases h' with
          | cons hf' hr =>
            rw [hf] at hf'
            cases hf'
            rw [ih bs _ _ hfs'' hr]
    exact this as bs fs fs' h1 hfs
  subst hfs'
  obtain ⟨G, hG, kG⟩ := convert_kernel same hs (.tuple as) (.tuple bs) ha hb ho hc
  rw [hF] at hG; cases hG
  have eN : kronN l = sizes as := by rw [kronN_eq, h3, ← hsz, (methodsList_sizes as).1]
  have eM : kronM l = sizes bs := by rw [kronM_eq, h4, ← hsz, (methodsList_sizes bs).1]
  have hll : l.length = as.length := by simpa using congrArg List.length h3
  have hlb : l.length = bs.length := by simpa using congrArg List.length h4
  have hlf : fs'.length = l.length := h2.length_eq
  rw [kG _ k hk]
  have : ∑ i ∈ range (size (.tuple as)), overlapKernel (.tuple as) (.tuple bs) k i *
      prodVec ((as.map size).zip vs) i =
      ∑ i ∈ range (kronN l), kron l k i * prodVec ((l.map AxisKernel.n).zip vs) i := by
    rw [eN, h3]
    exact sum_congr rfl fun i _ => by rw [h5]; rfl
  rw [this, kron_prodVec l vs (by omega), h4]
  have hk' : k < (bs.map size).prod := by rw [← h4, ← kronM_eq, eM]; exact hk
  apply prodVec_congr _ _ _ (by simp; omega) (by simp; omega) _ k hk'
  intro i hi j hj
  have hi' : i < l.length := by simpa [hlb] using hi
  rw [← h4] at hj
  have hget : ∀ (γ : Type) (L : List γ) (d : γ) (h : i < L.length), L.getD i d = L[i] := by
    intro γ L d h; simp [List.getD, List.getElem?_eq_getElem h]
  rw [hget _ _ _ (by simp; omega), hget _ _ _ (by simp; omega)]
  rw [hget _ _ _ (by simp; omega)] at hj
  simp only [List.getElem_zipWith, List.getElem_map] at hj ⊢
  exact ((List.forall₂_iff_get.1 h2).2 i (by omega) hi' _ j hj).symm

-- a two-axis basis (three momenta out of five, then an explicit pair of states) fulfils the hypotheses
example : Valids [.transformed 3 5, .explicit 1 (fun _ k => if k = 1 then Complex.I else 0) (.fundamental 2)] ∧
    OrthonormalPartss [.transformed 3 5,
      .explicit 1 (fun _ k => if k = 1 then Complex.I else 0) (.fundamental 2)] ∧
    Compatibles [.transformed 3 5, .explicit 1 (fun _ k => if k = 1 then Complex.I else 0) (.fundamental 2)]
      [.truncated 2 5, .fundamentalTransformed 2] := by
  refine ⟨⟨by simp [Valid], trivial, trivial⟩, ⟨trivial, ⟨trivial, ?_⟩, trivial⟩, ⟨rfl, rfl, trivial⟩⟩
  intro j hj j' hj'
  have h1 : j = 0 := by omega
  have h2 : j' = 0 := by omega
  subst h1 h2
  simp [size, sum_range_succ]

/-! ## C16 -/

/-- **C16.** An explicit basis of orthonormal states: converting to the basis of the states forms the combination of
the states, converting back takes the overlaps; back after forth is the identity, forth after back is idempotent,
self-adjoint and fixes exactly the combinations of the states. -/
theorem C16_explicit (same : Basis → Basis → Bool) (hs : Sound same) (n : ℕ) (raw : ℕ → ℕ → ℂ) (inner : Basis)
    (hv : Valid inner) (ho : OrthonormalParts inner)
    (hraw : ∀ j < n, ∀ j' < n, dot (size inner) (raw j) (raw j') = if j = j' then 1 else 0) :
    ∃ f g, Basis.convert same (.explicit n raw inner) inner = some f ∧
      Basis.convert same inner (.explicit n raw inner) = some g ∧
      (∀ v, ∀ k < size inner, f v k = ∑ j ∈ range n, v j * raw j k) ∧
      (∀ w, ∀ j < n, g w j = dot (size inner) (raw j) w) ∧
      (∀ v, ∀ j < n, g (f v) j = v j) ∧
      (∀ w, ∀ k < size inner, f (g (f (g w))) k = f (g w) k) ∧
      (∀ w w', dot (size inner) (f (g w)) w' = dot (size inner) w (f (g w'))) ∧
      (∀ w, (∀ k < size inner, f (g w) k = w k) ↔
        ∃ c : ℕ → ℂ, ∀ k < size inner, w k = ∑ j ∈ range n, c j * raw j k) := by
  have hve : Valid (.explicit n raw inner) := hv
  have hoe : OrthonormalParts (.explicit n raw inner) := ⟨ho, hraw⟩
  have hc : Compatible (.explicit n raw inner) inner := by cases inner <;> rfl
  have hc' : Compatible inner (.explicit n raw inner) := by cases inner <;> rfl
  obtain ⟨f, hf, kf⟩ := C10_route same hs _ _ hve hv hoe hc
  obtain ⟨g, hg, kg⟩ := C10_route same hs _ _ hv hve ho hc'
  have oi := state_orthonormal inner hv ho
  have hexp : ∀ v x, expand (.explicit n raw inner) v x = expand inner (fun k => ∑ j ∈ range n, v j * raw j k) x := by
    intro v x
    unfold expand
    simp only [size, state, mul_sum, sum_mul]
    rw [sum_comm]
    exact sum_congr rfl fun k _ => sum_congr rfl fun j _ => by ring
  have F : ∀ v, ∀ k < size inner, f v k = ∑ j ∈ range n, v j * raw j k := by
    intro v k hk
    rw [kf v k hk]
    simp only [hexp]
    exact dot_state_expand oi _ hk
  have G : ∀ w, ∀ j < n, g w j = dot (size inner) (raw j) w := by
    intro w j hj
    rw [kg w j hj]
    have : ∀ x, state (.explicit n raw inner) j x = expand inner (raw j) x := fun x => rfl
    simp only [this]
    exact dot_expand_expand oi (raw j) w
  have GF : ∀ v, ∀ j < n, g (f v) j = v j := by
    intro v j hj
    rw [G _ j hj]
    have e1 : dot (size inner) (raw j) (f v) = ∑ j' ∈ range n, dot (size inner) (raw j) (raw j') * v j' := by
      unfold dot
      rw [sum_congr rfl fun k hk => by rw [F v k (mem_range.1 hk)]]
      simp only [mul_sum, sum_mul]
      rw [sum_comm]
      exact sum_congr rfl fun j' _ => sum_congr rfl fun k _ => by ring
    rw [e1]
    have e2 : ∀ j' ∈ range n, dot (size inner) (raw j) (raw j') * v j' = if j = j' then v j' else 0 := by
      intro j' hj'; rw [hraw j hj j' (mem_range.1 hj')]; split <;> simp
    rw [sum_congr rfl e2, sum_ite_eq, if_pos (mem_range.2 hj)]
  refine ⟨f, g, hf, hg, F, G, GF, ?_, ?_, ?_⟩
  · intro w k hk
    rw [F _ k hk, F _ k hk]
    exact sum_congr rfl fun j hj => by rw [GF _ j (mem_range.1 hj)]
  · intro w w'
    have h1 : ∀ w w', dot (size inner) w (f (g w')) = ∑ j ∈ range n, (starRingEnd ℂ) (g w j) * g w' j := by
      intro w w'
      unfold dot
      have : ∀ k ∈ range (size inner), (starRingEnd ℂ) (w k) * f (g w') k =
          ∑ j ∈ range n, (starRingEnd ℂ) ((starRingEnd ℂ) (raw j k) * w k) * g w' j := by
        intro k hk
        rw [F _ k (mem_range.1 hk), mul_sum]
        exact sum_congr rfl fun j _ => by rw [map_mul, Complex.conj_conj]; ring
      rw [sum_congr rfl this, sum_comm]
      exact sum_congr rfl fun j hj => by rw [← sum_mul, ← map_sum, G w j (mem_range.1 hj)]; rfl
    have h2 : dot (size inner) (f (g w)) w' = (starRingEnd ℂ) (dot (size inner) w' (f (g w))) := by
      unfold dot; rw [map_sum]
      exact sum_congr rfl fun k _ => by rw [map_mul, Complex.conj_conj, mul_comm]
    rw [h2, h1, h1, map_sum]
    exact sum_congr rfl fun j _ => by rw [map_mul, Complex.conj_conj, mul_comm]
  · intro w
    constructor
    · intro h
      exact ⟨g w, fun k hk => by rw [← h k hk, F _ k hk]⟩
    · rintro ⟨c, hcw⟩ k hk
      have hgc : ∀ j < n, g w j = c j := by
        intro j hj
        rw [← GF c j hj, G _ j hj, G _ j hj]
        unfold dot
        exact sum_congr rfl fun k hk => by rw [hcw k (mem_range.1 hk), F c k (mem_range.1 hk)]
      rw [F _ k hk, hcw k hk]
      exact sum_congr rfl fun j hj => by rw [hgc j (mem_range.1 hj)]

-- two orthonormal states which are not basis states
example : ∀ j < 2, ∀ j' < 2, dot (size (.fundamental 2))
    ((fun j k => if j = 0 then (if k = 0 then 3/5 else 4/5 * Complex.I) else
      (if k = 0 then 4/5 * Complex.I else 3/5) : ℕ → ℕ → ℂ) j)
    ((fun j k => if j = 0 then (if k = 0 then 3/5 else 4/5 * Complex.I) else
      (if k = 0 then 4/5 * Complex.I else 3/5) : ℕ → ℕ → ℂ) j') = if j = j' then 1 else 0 := by
  have hI := Complex.I_mul_I
  intro j hj j' hj'
  interval_cases j <;> interval_cases j' <;>
    simp [dot, size, sum_range_succ, Complex.ext_iff, map_ofNat] <;> norm_num

/-! ## C17 -/

theorem conjVec_conjVec (v : ℕ → ℂ) : conjVec (conjVec v) = v := by
  funext i; simp [conjVec]

/-- **C17.** Converting a matrix computes `B M B'†` where `B`, `B'` are the conversions of vectors in the two bases:
column `k` of `B` is the conversion of the unit vector `k`. -/
theorem C17_matrix (same : Basis → Basis → Bool) (hs : Sound same) (a b a' b' : Basis) (ha : Valid a)
    (hb : Valid b) (ho : OrthonormalParts a) (hc : Compatible a b) (ha' : Valid a') (hb' : Valid b')
    (ho' : OrthonormalParts a') (hc' : Compatible a' b') :
    ∃ C f f', convertMatrix same a b a' b' = some C ∧ Basis.convert same a b = some f ∧
      Basis.convert same a' b' = some f' ∧
      ∀ M, ∀ i < size b, ∀ j < size b', C M i j = ∑ i' ∈ range (size a), ∑ j' ∈ range (size a'),
        f (unit i') i * M i' j' * (starRingEnd ℂ) (f' (unit j') j) := by
  obtain ⟨f, hf, kf⟩ := convert_kernel same hs a b ha hb ho hc
  obtain ⟨f', hf', kf'⟩ := convert_kernel same hs a' b' ha' hb' ho' hc'
  have hunit : ∀ {a b : Basis} {f : (ℕ → ℂ) → ℕ → ℂ}, HasKernel f (size a) (size b) (overlapKernel a b) →
      ∀ i < size b, ∀ k < size a, f (unit k) i = overlapKernel a b i k := by
    intro a b f h i hi k hk
    rw [h _ i hi]
    unfold unit
    simp only [mul_ite, mul_one, mul_zero]
    rw [sum_ite_eq', if_pos (mem_range.2 hk)]
  refine ⟨fun M i => conjVec (f' (conjVec fun j => f (fun i' => M i' j) i)), f, f', ?_, hf, hf', ?_⟩
  · simp only [convertMatrix, convertDual, hf, hf', Option.map_some, Option.bind_some]
  · intro M i hi j hj
    show (starRingEnd ℂ) (f' (conjVec fun j => f (fun i' => M i' j) i) j) = _
    rw [kf' _ j hj, map_sum, sum_comm]
    apply sum_congr rfl; intro j' hj'
    rw [map_mul]
    unfold conjVec
    rw [Complex.conj_conj]
    beta_reduce
    rw [kf _ i hi, mul_sum]
    apply sum_congr rfl; intro i' hi'
    rw [hunit kf i hi i' (mem_range.1 hi'), hunit kf' j hj j' (mem_range.1 hj')]
    ring

/-- **C17.** The conversion of a Hermitian matrix (same bases on both sides) is Hermitian; more generally it commutes
with the adjoint. -/
theorem C17_hermitian (same : Basis → Basis → Bool) (hs : Sound same) (a b : Basis) (ha : Valid a)
    (hb : Valid b) (ho : OrthonormalParts a) (hc : Compatible a b) :
    ∃ C, convertMatrix same a b a b = some C ∧
      (∀ M, ∀ i < size b, ∀ j < size b, C (fun i j => (starRingEnd ℂ) (M j i)) i j = (starRingEnd ℂ) (C M j i)) ∧
      (∀ M, (∀ i < size a, ∀ j < size a, M i j = (starRingEnd ℂ) (M j i)) →
        ∀ i < size b, ∀ j < size b, C M i j = (starRingEnd ℂ) (C M j i)) := by
  obtain ⟨C, f, f', hC, hf, hf', h⟩ := C17_matrix same hs a b a b ha hb ho hc ha hb ho hc
  rw [hf] at hf'; cases hf'
  have h1 : ∀ M, ∀ i < size b, ∀ j < size b,
      C (fun i j => (starRingEnd ℂ) (M j i)) i j = (starRingEnd ℂ) (C M j i) := by
    intro M i hi j hj
    rw [h _ i hi j hj, h _ j hj i hi, map_sum, sum_comm]
    apply sum_congr rfl; intro i' _
    rw [map_sum]
    apply sum_congr rfl; intro j' _
    rw [map_mul, map_mul, Complex.conj_conj]; ring
  refine ⟨C, hC, h1, fun M hM i hi j hj => ?_⟩
  rw [← h1 M i hi j hj, h _ i hi j hj, h _ i hi j hj]
  exact sum_congr rfl fun i' hi' => sum_congr rfl fun j' hj' => by
    rw [← hM i' (mem_range.1 hi') j' (mem_range.1 hj')]

/-- **C17.** Under a lossless conversion the pairing of a dual vector with a vector is preserved, and the converted
matrix acts on converted vectors as the original matrix. -/
theorem C17_lossless (same : Basis → Basis → Bool) (hs : Sound same) (a b : Basis) (ha : Valid a)
    (hb : Valid b) (hoa : OrthonormalParts a) (hob : OrthonormalParts b) (hc : Compatible a b)
    (hc' : Compatible b a) (hspan : SpanLe a b) :
    ∃ C f d, convertMatrix same a b a b = some C ∧ Basis.convert same a b = some f ∧
      convertDual same a b = some d ∧
      (∀ u v, ∑ j ∈ range (size b), d u j * f v j = ∑ i ∈ range (size a), u i * v i) ∧
      (∀ M v, ∀ i < size b, ∑ j ∈ range (size b), C M i j * f v j =
        f (fun i' => ∑ j' ∈ range (size a), M i' j' * v j') i) ∧
      (∀ M u, ∀ j < size b, ∑ i ∈ range (size b), d u i * C M i j =
        d (fun j' => ∑ i' ∈ range (size a), u i' * M i' j') j) := by
  obtain ⟨f₀, g, hf, hg, hgf⟩ := C11_round_trip same hs a b ha hb hoa hob hc hc' hspan
  obtain ⟨f, hf', kf⟩ := convert_kernel same hs a b ha hb hoa hc
  rw [hf] at hf'; cases hf'
  obtain ⟨f₁, g₁, hf₁, hg₁, hadj⟩ := C12_adjoint same hs a b ha hb hoa hob hc hc'
  rw [hf] at hf₁; rw [hg] at hg₁; cases hf₁; cases hg₁
  have hpair : ∀ u v, ∑ j ∈ range (size b), (starRingEnd ℂ) (f₀ (conjVec u) j) * f₀ v j =
      ∑ i ∈ range (size a), u i * v i := by
    intro u v
    have := hadj (conjVec u) (f₀ v)
    unfold dot at this
    rw [this]
    apply sum_congr rfl; intro i hi
    rw [hgf v i (mem_range.1 hi)]
    simp [conjVec]
  refine ⟨fun M i => conjVec (f₀ (conjVec fun j => f₀ (fun i' => M i' j) i)), f₀,
    fun u => conjVec (f₀ (conjVec u)), ?_, hf, ?_, hpair, ?_, ?_⟩
  · simp only [convertMatrix, convertDual, hf, Option.map_some, Option.bind_some]
  · simp only [convertDual, hf, Option.map_some]
  · intro M v i hi
    have := hpair (fun j => f₀ (fun i' => M i' j) i) v
    refine this.trans ?_
    rw [kf _ i hi]
    simp only [kf _ i hi, sum_mul, mul_sum]
    rw [sum_comm]
    exact sum_congr rfl fun i' _ => sum_congr rfl fun j' _ => by ring
  · intro M u j hj
    -- expand the conversion of the rows, then pair the columns
    have e : ∀ M : ℕ → ℕ → ℂ, ∀ i, (starRingEnd ℂ) (f₀ (conjVec fun j => M i j) j) =
        ∑ j' ∈ range (size a), (starRingEnd ℂ) (overlapKernel a b j j') * M i j' := by
      intro M i
      rw [kf _ j hj, map_sum]
      exact sum_congr rfl fun j' _ => by rw [map_mul]; simp [conjVec]
    have e1 : ∀ i ∈ range (size b), (conjVec (f₀ (conjVec u))) i *
        conjVec (f₀ (conjVec fun j => f₀ (fun i' => M i' j) i)) j =
        ∑ j' ∈ range (size a), (starRingEnd ℂ) (overlapKernel a b j j') *
          ((starRingEnd ℂ) (f₀ (conjVec u) i) * f₀ (fun i' => M i' j') i) := by
      intro i _
      have := e (fun i j => f₀ (fun i' => M i' j) i) i
      show _ * (starRingEnd ℂ) (f₀ (conjVec fun j => f₀ (fun i' => M i' j) i) j) = _
      rw [this, mul_sum]
      exact sum_congr rfl fun j' _ => by unfold conjVec; ring
    rw [sum_congr rfl e1, sum_comm]
    have e2 := e (fun _ j' => ∑ i' ∈ range (size a), u i' * M i' j') 0
    show _ = (starRingEnd ℂ) (f₀ (conjVec fun j' => ∑ i' ∈ range (size a), u i' * M i' j') j)
    rw [e2]
    apply sum_congr rfl; intro j' _
    rw [← mul_sum, hpair]

-- lossless: a position basis into the momentum basis of the same grid
example : SpanLe (.fundamental 3) (.fundamentalTransformed 3) := by
  intro i hi
  refine ⟨fun k => (starRingEnd ℂ) (planeWave 3 k i), fun x hx => ?_⟩
  have hi' : i < 3 := hi
  have hx' : x < 3 := hx
  have := (planeWave_unitary 3).2 i hi' x hx'
  unfold expand
  simp only [size, state]
  rw [this]
  simp only [eq_comm]

/-! ## C18 -/

mutual
theorem compatible_refl : ∀ b : Basis, Compatible b b
  | .fundamental _ => rfl
  | .truncated _ _ => rfl
  | .transformed _ _ => rfl
  | .fundamentalTransformed _ => rfl
  | .evenlySpaced _ _ _ => rfl
  | .evenlySpacedTransformed _ _ _ => rfl
  | .tuple axes => compatibles_refl axes
  | .explicit _ _ _ => rfl

theorem compatibles_refl : ∀ l : List Basis, Compatibles l l
  | [] => trivial
  | b :: bs => ⟨compatible_refl b, compatibles_refl bs⟩
end

/-- The claim of C18: conversion to the same basis object returns the values of the vector. -/
def SameBasisIdentity (vector : NumArray) : Prop := convertSameDtype vector = some vector.values

/-- **C18 fails for real data.** `convert_vector` to the very same basis object does not return a nonempty `float64`
vector: an odd length raises, an even length returns half as many entries, made of pairs of neighbours. -/
theorem C18_negation (l : List ℝ) (hl : l ≠ []) : ¬ SameBasisIdentity (.real l) := by
  have hlen : ∀ (n : ℕ) (l : List ℝ) (r : List ℂ), l.length ≤ n → pairUp l = some r → l.length = 2 * r.length := by
    intro n
    induction n with
    | zero =>
      intro l r h1 h2
      have : l = [] := List.length_eq_zero_iff.1 (by omega)
      subst this
      simp only [pairUp, Option.some.injEq] at h2
      subst h2; rfl
    | succ n ih =>
      intro l r h1 h2
      match l, h1, h2 with
      | [], _, h2 => simp only [pairUp, Option.some.injEq] at h2; subst h2; rfl
      | [x], _, h2 => simp [pairUp] at h2
      | x :: y :: l, h1, h2 =>
        simp only [pairUp, Option.map_eq_some_iff] at h2
        obtain ⟨r', hr', rfl⟩ := h2
        have := ih l r' (by simp only [List.length_cons] at h1; omega) hr'
        simp only [List.length_cons]; omega
  intro h
  unfold SameBasisIdentity convertSameDtype viewComplex at h
  have := hlen _ l _ (le_refl _) h
  simp only [NumArray.values, List.length_map] at this
  exact hl (List.length_eq_zero_iff.1 (by omega))

-- concretely: two real coefficients become one complex coefficient
example : convertSameDtype (.real [1, 2]) = some [⟨1, 2⟩] := rfl
example : convertSameDtype (.real [1, 2, 3]) = none := rfl

/-- **C18, complex data.** A complex vector is returned unchanged. Also, whatever the data, conversion to an equal
basis built as another object (`same = false`) returns the values of the vector. What is missing: real data and the
same object, where the claim is false (`C18_negation`). -/
theorem C18_same_partial (same : Basis → Basis → Bool) (hs : Sound same) (b : Basis) (hb : Valid b)
    (ho : OrthonormalParts b) :
    (∀ l : List ℂ, SameBasisIdentity (.complex l)) ∧
    ∃ f, Basis.convert same b b = some f ∧ ∀ v, ∀ i < size b, f v i = v i := by
  refine ⟨fun l => rfl, ?_⟩
  obtain ⟨f, hf, kf⟩ := C10_route same hs b b hb hb ho (compatible_refl b)
  refine ⟨f, hf, fun v i hi => ?_⟩
  rw [kf v i hi, dot_state_expand (state_orthonormal b hb ho) v hi]

/-- The states of three plane waves on five points. -/
example : Valid (.tuple [.transformed 3 5]) ∧ OrthonormalParts (.tuple [.transformed 3 5]) := by
  simp [Valid, Valids, OrthonormalParts, OrthonormalPartss]

end Verif
