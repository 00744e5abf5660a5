import Verif.Model.Localization
import Verif.Props.C48_Bloch
import Mathlib.LinearAlgebra.Matrix.PosDef
import Mathlib.LinearAlgebra.Matrix.NonsingularInverse
import Mathlib.LinearAlgebra.Matrix.Charpoly.Basic
import Mathlib.LinearAlgebra.Matrix.Charpoly.Coeff

/-!
# C50, C51: localisation operators
-/

set_option autoImplicit false

namespace Verif

open Finset Spec
open scoped ComplexOrder

/-! ## Helpers -/

theorem flatten3_at {p q m i j : ℕ} (f : ℕ → ℕ → ℕ → ℂ) (hi : i < p) (hj : j < q) :
    flatten3 p q f ((m * p + i) * q + j) = f m i j := by
  have h1 : (m * p + i) * q + j = (p * q) * m + (q * i + j) := by ring
  have h2 : q * i + j < p * q := by
    calc q * i + j < q * i + q := by omega
      _ = q * (i + 1) := by ring
      _ ≤ q * p := Nat.mul_le_mul_left _ hi
      _ = p * q := Nat.mul_comm _ _
  have hpq : 0 < p * q := Nat.mul_pos (by omega) (by omega)
  unfold flatten3 flatten
  rw [h1, Nat.mul_add_div hpq, Nat.mul_add_mod, Nat.div_eq_of_lt h2, Nat.mod_eq_of_lt h2, Nat.add_zero]
  beta_reduce
  rw [Nat.mul_add_div (by omega), Nat.mul_add_mod, Nat.div_eq_of_lt hj, Nat.mod_eq_of_lt hj, Nat.add_zero]

theorem sum_fin_eq (n : ℕ) (f : ℕ → ℂ) : ∑ i : Fin n, f i = ∑ i ∈ range n, f i := Fin.sum_univ_eq_sum_range f n

/-! ## C50 -/

/-- The wavefunctions of every sample are orthonormal. -/
def Orthonormal (w : BlochWavefunctions) : Prop := ∀ i < w.bands, ∀ i' < w.bands, ∀ a < w.samples.prod,
  dot (size w.basis) (block (size w.basis) w.data (i * w.samples.prod + a))
    (block (size w.basis) w.data (i' * w.samples.prod + a)) = if i = i' then 1 else 0

/-- The bases of all samples have the points of the large cell. -/
theorem compatible_sampled (bp : Basis) : ∀ (axes : List (ℕ × ℕ)) (os : List ℤ) (a : List ℕ), IsOffset axes os a →
    Compatible bp (fT (unfurledShape axes)) → Compatible bp (.tuple (sampleAxes axes os)) := by
  intro axes os a ho h
  have hp : pointss (sampleAxes axes os) = pointss ((unfurledShape axes).map .fundamentalTransformed) := by
    rw [(sizes_sampled axes os a ho).2, pointss_fT]
  cases bp with
  | tuple bs =>
    show Compatibles bs (sampleAxes axes os)
    change Compatibles bs ((unfurledShape axes).map .fundamentalTransformed) at h
    clear hp
    induction axes generalizing bs os a with
    | nil =>
      cases os with
      | nil => exact h
      | cons _ _ => cases bs <;> simp_all [Compatibles, unfurledShape]
    | cons x axes ih =>
      cases os with
      | nil => cases a <;> simp [IsOffset] at ho
      | cons o os =>
        cases a with
        | nil => simp [IsOffset] at ho
        | cons a as =>
          cases bs with
          | nil => simp [Compatibles, unfurledShape] at h
          | cons c cs =>
            refine ⟨?_, ih os as ho.2 cs h.2⟩
            have h1 : points c = x.1 * x.2 := by
              have := h.1
              cases c <;> exact this
            have : points c = x.2 * x.1 := h1.trans (Nat.mul_comm _ _)
            cases c <;> exact this
  | fundamental n => exact Eq.trans h hp.symm
  | truncated n m => exact Eq.trans h hp.symm
  | transformed n m => exact Eq.trans h hp.symm
  | fundamentalTransformed n => exact Eq.trans h hp.symm
  | evenlySpaced n s o => exact Eq.trans h hp.symm
  | evenlySpacedTransformed n s o => exact Eq.trans h hp.symm
  | explicit n r i => exact Eq.trans h hp.symm

/-- The overlaps of the Bloch states of sample `a` with the projections. -/
noncomputable def overlaps (axes : List (ℕ × ℕ)) (b bp : Basis) (p q : ℕ) (data P : ℕ → ℂ) (a : ℕ) :
    Matrix (Fin p) (Fin q) ℂ := Matrix.of fun l i => ∑ X ∈ range (unfurledShape axes).prod,
  (starRingEnd ℂ) (blochWave axes b (block (size b) data (l * (sampleShape axes).prod + a))
    (unravel (sampleShape axes) a) (unravel (unfurledShape axes) X)) * expand bp (block (size bp) P i) X

theorem stateProjections_eq (same : Basis → Basis → Bool) (hs : Sound same) (axes : List (ℕ × ℕ)) (bands : ℕ) (b : Basis)
    (hb : Valid b) (ho : OrthonormalParts b) (hshape : b.fundamentalShape = stateShape axes) (data : ℕ → ℂ)
    (bp : Basis) (hbp : Valid bp) (hop : OrthonormalParts bp) (hcp : Compatible bp (fT (unfurledShape axes))) (q : ℕ)
    (P : ℕ → ℂ) (a : ℕ) (ha : a < (sampleShape axes).prod) :
    stateProjections same ⟨bands, sampleShape axes, b, data⟩ bp q P a = some (overlaps axes b bp bands q data P a) := by
  have sa := unravel_inShape (sampleShape axes) a ha
  have hbn : b.n = size b := (methods_sizes b).1
  have hpts : points b = (stateShape axes).prod := by rw [← fundamentalShape_prod, hshape]
  have hbt : b.asTransformedBasis = fT (stateShape axes) := by rw [Basis.asTransformedBasis, hshape]
  have hax : (⟨bands, sampleShape axes, b, data⟩ : BlochWavefunctions).axes = axes := by
    show (sampleShape axes).zip b.fundamentalShape = axes
    rw [hshape, zip_axes]
  obtain ⟨g, hg, kg⟩ := expand_convert same hs b (fT (stateShape axes)) hb (valids_fT _) ho (orthonormalPartss_fT _)
    (hbt ▸ compatible_asTransformed b) (by rw [(fT_facts _).1, (fT_facts _).2.1])
  obtain ⟨os, hos, io⟩ := sampledBasis_eq axes _ _ sa (labels_nat axes _ sa)
  obtain ⟨vs, os', cs⟩ := sampled_valid axes os _ sa io
  set B := sampledBasis axes ((unravel (sampleShape axes) a).map fun i : ℕ => (i : ℤ)) with hB
  obtain ⟨f, hf, kf⟩ := C10_route same hs bp B hbp (hos ▸ vs) hop (hos ▸ compatible_sampled bp axes os _ io hcp)
  have s1 := C47_momenta axes _ _ sa (labels_nat axes _ sa)
  rw [← hB] at s1
  have hpb : points bp = (unfurledShape axes).prod := (compatible_points bp _ hcp).trans (pointss_fT _)
  have hbpn : bp.n = size bp := (methods_sizes bp).1
  unfold stateProjections
  rw [hax]
  dsimp only
  rw [hbt, hg, Option.bind_some, ← hB, hf, Option.map_some]
  congr 1
  funext l i
  show ∑ k ∈ range B.n, _ = ∑ X ∈ range _, _
  rw [show B.n = size B from (methods_sizes B).1, hbn, hbpn]
  have e : ∀ X ∈ range (unfurledShape axes).prod, (starRingEnd ℂ) (blochWave axes b
      (block (size b) data (l * (sampleShape axes).prod + a)) (unravel (sampleShape axes) a) (unravel (unfurledShape axes) X)) *
      expand bp (block (size bp) P i) X = ∑ k ∈ range (size B), (starRingEnd ℂ)
        (g (block (size b) data (l * (sampleShape axes).prod + a)) k) * ((starRingEnd ℂ) (state B k X) *
          expand bp (block (size bp) P i) X) := by
    intro X hX
    have sX := unravel_inShape _ X (mem_range.1 hX)
    have := sampled_expand axes _ _ sa (labels_nat axes _ sa)
      (g (block (size b) data (l * (sampleShape axes).prod + a))) _ sX
    rw [← hB, ravel_unravel _ X (mem_range.1 hX), show expand (.tuple ((stateShape axes).map .fundamentalTransformed)) _ _ = _
      from kg (block (size b) data (l * (sampleShape axes).prod + a)) _
        (by rw [hpts]; exact ravel_lt _ _ (reduce_inShape axes _ sX))] at this
    have t2 : blochWave axes b (block (size b) data (l * (sampleShape axes).prod + a)) (unravel (sampleShape axes) a)
      (unravel (unfurledShape axes) X) = expand B (g (block (size b) data (l * (sampleShape axes).prod + a))) X := this.symm
    rw [t2]
    unfold expand
    rw [map_sum, sum_mul]
    exact sum_congr rfl fun k _ => by rw [map_mul]; ring
  rw [sum_congr rfl e, sum_comm]
  apply sum_congr rfl; intro k hk
  rw [← mul_sum, kf _ k (mem_range.1 hk), hpb]

theorem localized_block (w : BlochWavefunctions) (op : LocalizationOperator) (ho : w.bands = op.old) (hS : w.samples = op.samples) :
    ∃ w', getLocalizedWavepackets w op = some w' ∧ w'.bands = op.new ∧ w'.samples = w.samples ∧ w'.basis = w.basis ∧
      ∀ i, ∀ a < w.samples.prod, ∀ k < size w.basis, block (size w.basis) w'.data (i * w.samples.prod + a) k =
        ∑ l ∈ range w.bands, op.entry a i l * block (size w.basis) w.data (l * w.samples.prod + a) k := by
  refine ⟨_, if_pos ⟨ho, hS⟩, rfl, rfl, rfl, fun i a ha k hk => ?_⟩
  have hbn : w.basis.n = size w.basis := (methods_sizes _).1
  unfold block
  dsimp only
  rw [hbn, flatten3_at _ ha hk, ho]

/-- **C50.** A localisation operator with orthonormal rows at every sample keeps the wavepackets orthonormal. -/
theorem C50_unitary (w : BlochWavefunctions) (op : LocalizationOperator) (ho : w.bands = op.old) (hS : w.samples = op.samples)
    (hw : Orthonormal w)
    (hop : ∀ a < w.samples.prod, ∀ i < op.new, ∀ i' < op.new,
      ∑ l ∈ range op.old, (starRingEnd ℂ) (op.entry a i l) * op.entry a i' l = if i = i' then 1 else 0) :
    ∃ w', getLocalizedWavepackets w op = some w' ∧ w'.bands = op.new ∧ w'.samples = w.samples ∧ w'.basis = w.basis ∧
      Orthonormal w' := by
  obtain ⟨w', h1, h2, h3, h4, h5⟩ := localized_block w op ho hS
  refine ⟨w', h1, h2, h3, h4, fun i hi i' hi' a ha => ?_⟩
  rw [h2] at hi hi'
  rw [h3] at ha ⊢
  rw [h4]
  unfold dot
  have e : ∀ k ∈ range (size w.basis), (starRingEnd ℂ) (block (size w.basis) w'.data (i * w.samples.prod + a) k) *
      block (size w.basis) w'.data (i' * w.samples.prod + a) k =
      ∑ l ∈ range w.bands, ∑ l' ∈ range w.bands, ((starRingEnd ℂ) (op.entry a i l) * op.entry a i' l') *
        ((starRingEnd ℂ) (block (size w.basis) w.data (l * w.samples.prod + a) k) *
          block (size w.basis) w.data (l' * w.samples.prod + a) k) := by
    intro k hk
    rw [h5 i a ha k (mem_range.1 hk), h5 i' a ha k (mem_range.1 hk), map_sum, sum_mul_sum]
    refine sum_congr rfl fun l _ => sum_congr rfl fun l' _ => ?_
    rw [map_mul]; ring
  rw [sum_congr rfl e, sum_comm]
  have e2 : ∀ l ∈ range w.bands, ∑ k ∈ range (size w.basis), ∑ l' ∈ range w.bands,
      ((starRingEnd ℂ) (op.entry a i l) * op.entry a i' l') *
        ((starRingEnd ℂ) (block (size w.basis) w.data (l * w.samples.prod + a) k) *
          block (size w.basis) w.data (l' * w.samples.prod + a) k) =
      (starRingEnd ℂ) (op.entry a i l) * op.entry a i' l := by
    intro l hl
    rw [sum_comm]
    have : ∀ l' ∈ range w.bands, ∑ k ∈ range (size w.basis), ((starRingEnd ℂ) (op.entry a i l) * op.entry a i' l') *
        ((starRingEnd ℂ) (block (size w.basis) w.data (l * w.samples.prod + a) k) *
          block (size w.basis) w.data (l' * w.samples.prod + a) k) =
        if l = l' then (starRingEnd ℂ) (op.entry a i l) * op.entry a i' l' else 0 := by
      intro l' hl'
      have := hw l (mem_range.1 hl) l' (mem_range.1 hl') a ha
      unfold dot at this
      rw [← mul_sum, this]
      split <;> simp
    rw [sum_congr rfl this, sum_ite_eq, if_pos hl]
  rw [sum_congr rfl e2, ho]
  exact hop a ha i hi i' hi'

/-- The operator of a projection: entries and rows. -/
theorem projection_entry (same : Basis → Basis → Bool) (hs : Sound same) (svd : ∀ p q, Matrix (Fin p) (Fin q) ℂ → Svd p q)
    (axes : List (ℕ × ℕ)) (bands : ℕ) (b : Basis)
    (hb : Valid b) (ho : OrthonormalParts b) (hshape : b.fundamentalShape = stateShape axes) (data : ℕ → ℂ)
    (bp : Basis) (hbp : Valid bp) (hop : OrthonormalParts bp) (hcp : Compatible bp (fT (unfurledShape axes))) (q : ℕ)
    (P : ℕ → ℂ) :
    ∃ op, projectionOperator same svd ⟨bands, sampleShape axes, b, data⟩ bp q P = some op ∧ op.samples = sampleShape axes ∧
      op.new = q ∧ op.old = bands ∧ ∀ a < (sampleShape axes).prod, ∀ (i : Fin q) (l : Fin bands), op.entry a i l =
        ((svd bands q (overlaps axes b bp bands q data P a)).u * (svd bands q (overlaps axes b bp bands q data P a)).vh) l i := by
  have h := stateProjections_eq same hs axes bands b hb ho hshape data bp hbp hop hcp q P
  refine ⟨_, if_pos fun a ha => by rw [h a ha]; rfl, rfl, rfl, rfl, fun a ha i l => ?_⟩
  unfold LocalizationOperator.entry
  dsimp only
  rw [flatten3_at _ i.2 l.2, dif_pos ⟨i.2, l.2⟩, h a ha]
  rfl

theorem svd_gram {p q : ℕ} {A : Matrix (Fin p) (Fin q) ℂ} {d : Svd p q} (h : d.IsDecomposition A) (hq : q ≤ p) :
    (d.u * d.vh).conjTranspose * (d.u * d.vh) = 1 := by
  rw [Matrix.conjTranspose_mul, Matrix.mul_assoc, ← Matrix.mul_assoc d.u.conjTranspose, h.left, Matrix.one_mul]
  exact (Matrix.mul_eq_one_comm_of_equiv (finCongr (Nat.min_eq_right hq))).1 h.right

theorem svd_positive {p q : ℕ} {A : Matrix (Fin p) (Fin q) ℂ} {d : Svd p q} (h : d.IsDecomposition A) :
    ((d.u * d.vh).conjTranspose * A).PosSemidef := by
  have e : (d.u * d.vh).conjTranspose * A = d.vh.conjTranspose * Matrix.diagonal (fun i => (d.s i : ℂ)) * d.vh := by
    conv_lhs => rw [h.eq]
    rw [Matrix.conjTranspose_mul, Matrix.mul_assoc, ← Matrix.mul_assoc d.u.conjTranspose, ← Matrix.mul_assoc d.u.conjTranspose,
      h.left, Matrix.one_mul, Matrix.mul_assoc]
  rw [e]
  apply Matrix.PosSemidef.conjTranspose_mul_mul_same
  rw [Matrix.posSemidef_diagonal_iff]
  intro i
  exact_mod_cast h.nonneg i

/-- **C50.** Localising with at most as many projections as there are bands keeps the wavepackets orthonormal. -/
theorem C50_orthonormal (same : Basis → Basis → Bool) (hs : Sound same) (svd : ∀ p q, Matrix (Fin p) (Fin q) ℂ → Svd p q)
    (axes : List (ℕ × ℕ)) (bands q : ℕ) (hsvd : ∀ A, (svd bands q A).IsDecomposition A) (b : Basis)
    (hb : Valid b) (ho : OrthonormalParts b) (hshape : b.fundamentalShape = stateShape axes) (data : ℕ → ℂ)
    (bp : Basis) (hbp : Valid bp) (hop : OrthonormalParts bp) (hcp : Compatible bp (fT (unfurledShape axes)))
    (P : ℕ → ℂ) (hq : q ≤ bands) (hw : Orthonormal ⟨bands, sampleShape axes, b, data⟩) :
    ∃ w', localizeWavepacketProjection same svd ⟨bands, sampleShape axes, b, data⟩ bp q P = some w' ∧
      w'.bands = q ∧ w'.samples = sampleShape axes ∧ w'.basis = b ∧ Orthonormal w' := by
  obtain ⟨op, h1, h2, h3, h4, h5⟩ := projection_entry same hs svd axes bands b hb ho hshape data bp hbp hop hcp q P
  obtain ⟨w', g1, g2, g3, g4, g5⟩ := C50_unitary ⟨bands, sampleShape axes, b, data⟩ op h4.symm h2.symm hw (by
    intro a ha i hi i' hi'
    rw [h3] at hi hi'
    rw [h4, ← sum_fin_eq bands fun l => (starRingEnd ℂ) (op.entry a i l) * op.entry a i' l]
    have g := congrFun (congrFun (svd_gram (hsvd (overlaps axes b bp bands q data P a)) hq) ⟨i, hi⟩) ⟨i', hi'⟩
    rw [Matrix.mul_apply, Matrix.one_apply] at g
    rw [show (if i = i' then (1 : ℂ) else 0) = if (⟨i, hi⟩ : Fin q) = ⟨i', hi'⟩ then 1 else 0 by simp, ← g]
    apply sum_congr rfl; intro l _
    have k1 := h5 a ha ⟨i, hi⟩ l
    have k2 := h5 a ha ⟨i', hi'⟩ l
    rw [k1, k2]
    rfl)
  refine ⟨w', ?_, by rw [g2, h3], g3, g4, g5⟩
  unfold localizeWavepacketProjection
  rw [h1]
  exact g1

/-- **C50.** The overlaps of the localised states of every sample with the projections are a positive matrix. -/
theorem C50_positive (same : Basis → Basis → Bool) (hs : Sound same) (svd : ∀ p q, Matrix (Fin p) (Fin q) ℂ → Svd p q)
    (axes : List (ℕ × ℕ)) (bands q : ℕ) (hsvd : ∀ A, (svd bands q A).IsDecomposition A) (b : Basis)
    (hb : Valid b) (ho : OrthonormalParts b) (hshape : b.fundamentalShape = stateShape axes) (data : ℕ → ℂ)
    (bp : Basis) (hbp : Valid bp) (hop : OrthonormalParts bp) (hcp : Compatible bp (fT (unfurledShape axes)))
    (P : ℕ → ℂ) :
    ∃ w', localizeWavepacketProjection same svd ⟨bands, sampleShape axes, b, data⟩ bp q P = some w' ∧
      ∀ a < (sampleShape axes).prod, (Matrix.of fun i j : Fin q => ∑ X ∈ range (unfurledShape axes).prod,
        (starRingEnd ℂ) (blochWave axes b (block (size b) w'.data (i * (sampleShape axes).prod + a))
          (unravel (sampleShape axes) a) (unravel (unfurledShape axes) X)) *
            expand bp (block (size bp) P j) X).PosSemidef := by
  obtain ⟨op, h1, h2, h3, h4, h5⟩ := projection_entry same hs svd axes bands b hb ho hshape data bp hbp hop hcp q P
  obtain ⟨w', g1, g2, g3, g4, g5⟩ := localized_block ⟨bands, sampleShape axes, b, data⟩ op h4.symm h2.symm
  refine ⟨w', ?_, fun a ha => ?_⟩
  · unfold localizeWavepacketProjection
    rw [h1]
    exact g1
  · set d := svd bands q (overlaps axes b bp bands q data P a) with hd
    have pos := svd_positive (hsvd (overlaps axes b bp bands q data P a))
    rw [← hd] at pos
    have e : (Matrix.of fun i j : Fin q => ∑ X ∈ range (unfurledShape axes).prod,
        (starRingEnd ℂ) (blochWave axes b (block (size b) w'.data (i * (sampleShape axes).prod + a))
          (unravel (sampleShape axes) a) (unravel (unfurledShape axes) X)) * expand bp (block (size bp) P j) X) =
        (d.u * d.vh).conjTranspose * overlaps axes b bp bands q data P a := by
      ext i j
      rw [Matrix.mul_apply, Matrix.of_apply]
      have t : ∀ X ∈ range (unfurledShape axes).prod,
          (starRingEnd ℂ) (blochWave axes b (block (size b) w'.data (i * (sampleShape axes).prod + a))
            (unravel (sampleShape axes) a) (unravel (unfurledShape axes) X)) * expand bp (block (size bp) P j) X =
          ∑ l : Fin bands, (starRingEnd ℂ) (op.entry a i l) * ((starRingEnd ℂ) (blochWave axes b
            (block (size b) data (l * (sampleShape axes).prod + a)) (unravel (sampleShape axes) a)
              (unravel (unfurledShape axes) X)) * expand bp (block (size bp) P j) X) := by
        intro X _
        rw [blochWave_coeff axes b (fun k hk => g5 i a ha k hk)]
        have := blochWave_sum axes b (range bands) (fun l => op.entry a i l)
          (fun l => block (size b) data (l * (sampleShape axes).prod + a)) (unravel (sampleShape axes) a)
            (unravel (unfurledShape axes) X)
        dsimp only at this ⊢
        rw [this, map_sum, sum_mul, ← sum_fin_eq bands]
        exact sum_congr rfl fun l _ => by rw [map_mul]; ring
      rw [sum_congr rfl t, sum_comm]
      apply sum_congr rfl; intro l _
      rw [← mul_sum, h5 a ha i l]
      rfl
    rw [e]
    exact pos

/-- The assumption on the decomposition can be met: one band, one projection. -/
theorem exists_svd_one : ∃ svd : Matrix (Fin 1) (Fin 1) ℂ → Svd 1 1, ∀ A, (svd A).IsDecomposition A := by
  have h : ∀ z : ℂ, ∃ u : ℂ, z = u * (‖z‖ : ℂ) ∧ (starRingEnd ℂ) u * u = 1 := by
    intro z
    by_cases hz : z = 0
    · exact ⟨1, by simp [hz], by simp⟩
    · refine ⟨z / (‖z‖ : ℂ), ?_, ?_⟩
      · rw [div_mul_cancel₀]
        simpa using hz
      · have : (‖z‖ : ℂ) ≠ 0 := by simpa using hz
        rw [map_div₀, Complex.conj_ofReal, div_mul_div_comm, mul_comm, Complex.mul_conj, Complex.normSq_eq_norm_sq]
        push_cast
        rw [← sq, div_self (pow_ne_zero _ this)]
  choose u hu hv using h
  refine ⟨fun A => ⟨Matrix.of fun _ _ => u (A 0 0), fun _ => ‖A 0 0‖, Matrix.of fun i j => if i.val = j.val then 1 else 0⟩, fun A => ?_⟩
  refine ⟨?_, ?_, ?_, fun _ => norm_nonneg _⟩
  · ext i j
    obtain rfl : i = 0 := Subsingleton.elim _ _
    obtain rfl : j = 0 := Subsingleton.elim _ _
    simpa [Matrix.mul_apply, Matrix.diagonal] using hu (A 0 0)
  · ext i j
    have : i = j := Subsingleton.elim (α := Fin 1) _ _
    subst this
    simpa [Matrix.mul_apply] using hv (A 0 0)
  · ext i j
    have : i = j := Subsingleton.elim (α := Fin 1) _ _
    subst this
    have : (i : ℕ) = 0 := Nat.lt_one_iff.1 i.2
    simp [Matrix.mul_apply, this]

-- projections in a basis with the points of the large cell
example : Compatible (.tuple [.fundamental 12, .transformed 7 10]) (fT (unfurledShape [(3, 4), (2, 5)])) :=
  ⟨rfl, rfl, trivial⟩

/-! ## C51 -/

/-- The matrix the code returns for sample `d`. -/
noncomputable def localizedMatrix (h : ℕ → ℂ) (op : LocalizationOperator) (d : ℕ) : Matrix (Fin op.new) (Fin op.new) ℂ :=
  Matrix.of fun i j => localizedHamiltonian h op ((d * op.new + i) * op.new + j)

/-- The operator of sample `d` as a matrix. -/
def LocalizationOperator.matrix (op : LocalizationOperator) (d : ℕ) : Matrix (Fin op.new) (Fin op.old) ℂ :=
  Matrix.of fun i l => op.entry d i l

theorem localizedMatrix_eq (h : ℕ → ℂ) (op : LocalizationOperator) (d : ℕ) :
    localizedMatrix h op d = op.matrix d * Matrix.diagonal (fun c : Fin op.old => h (c * op.samples.prod + d)) *
      (op.matrix d).conjTranspose := by
  ext i j
  unfold localizedMatrix localizedHamiltonian
  rw [Matrix.of_apply, flatten3_at _ i.2 j.2, Matrix.mul_apply, ← sum_fin_eq op.old fun c => op.entry d i c *
    h (c * op.samples.prod + d) * (starRingEnd ℂ) (op.entry d j c)]
  apply sum_congr rfl; intro c _
  rw [Matrix.mul_diagonal]
  rfl

/-- **C51.** With real energies the localised Hamiltonian of every sample is Hermitian, for any operator. -/
theorem C51_hermitian (h : ℕ → ℂ) (op : LocalizationOperator) (d : ℕ)
    (hreal : ∀ c < op.old, (starRingEnd ℂ) (h (c * op.samples.prod + d)) = h (c * op.samples.prod + d)) (i j : ℕ)
    (hi : i < op.new) (hj : j < op.new) :
    (starRingEnd ℂ) (localizedHamiltonian h op ((d * op.new + i) * op.new + j)) =
      localizedHamiltonian h op ((d * op.new + j) * op.new + i) := by
  unfold localizedHamiltonian
  rw [flatten3_at _ hi hj, flatten3_at _ hj hi, map_sum]
  apply sum_congr rfl; intro c hc
  rw [map_mul, map_mul, Complex.conj_conj, hreal c (mem_range.1 hc)]
  ring

/-- **C51.** If the operator of the sample is unitary, the localised Hamiltonian is unitarily equivalent to the diagonal
matrix of the energies of the bands; in particular its characteristic polynomial has these energies as its roots. -/
theorem C51_spectrum (h : ℕ → ℂ) (op : LocalizationOperator) (hn : op.new = op.old) (d : ℕ)
    (hop : ∀ i < op.new, ∀ i' < op.new,
      ∑ l ∈ range op.old, (starRingEnd ℂ) (op.entry d i l) * op.entry d i' l = if i = i' then 1 else 0) :
    (∃ U : Matrix (Fin op.new) (Fin op.old) ℂ, U * U.conjTranspose = 1 ∧ U.conjTranspose * U = 1 ∧
      (Matrix.of fun i j : Fin op.new => localizedHamiltonian h op ((d * op.new + i) * op.new + j)) =
        U * Matrix.diagonal (fun c : Fin op.old => h (c * op.samples.prod + d)) * U.conjTranspose) ∧
    (Matrix.of fun i j : Fin op.new => localizedHamiltonian h op ((d * op.new + i) * op.new + j)).charpoly =
      ∏ c : Fin op.old, (Polynomial.X - Polynomial.C (h (c * op.samples.prod + d))) := by
  have h1 : op.matrix d * (op.matrix d).conjTranspose = 1 := by
    ext i j
    rw [Matrix.mul_apply, Matrix.one_apply]
    have := hop j j.2 i i.2
    rw [← sum_fin_eq op.old fun l => (starRingEnd ℂ) (op.entry d j l) * op.entry d i l] at this
    rw [show (if i = j then (1 : ℂ) else 0) = if (j : ℕ) = i then 1 else 0 by
      simp only [Fin.ext_iff, eq_comm], ← this]
    exact sum_congr rfl fun l _ => mul_comm _ _
  have h2 : (op.matrix d).conjTranspose * op.matrix d = 1 :=
    (Matrix.mul_eq_one_comm_of_equiv (finCongr hn)).1 h1
  have e := localizedMatrix_eq h op d
  refine ⟨⟨op.matrix d, h1, h2, e⟩, ?_⟩
  show (localizedMatrix h op d).charpoly = _
  rw [e]
  generalize op.matrix d = U at h1 h2
  obtain ⟨samples, new, old, data⟩ := op
  dsimp only at hn U h1 h2 ⊢
  subst hn
  rw [Matrix.mul_assoc, Matrix.charpoly_mul_comm, Matrix.mul_assoc, h2, Matrix.mul_one, Matrix.charpoly_diagonal]

-- a unitary operator which is not diagonal: two bands, one sample, the states exchanged
example : ∀ i < 2, ∀ i' < 2, ∑ l ∈ range 2,
    (starRingEnd ℂ) ((⟨[1], 2, 2, fun k => if k = 1 ∨ k = 2 then 1 else 0⟩ : LocalizationOperator).entry 0 i l) *
      (⟨[1], 2, 2, fun k => if k = 1 ∨ k = 2 then 1 else 0⟩ : LocalizationOperator).entry 0 i' l = if i = i' then 1 else 0 := by
  intro i hi i' hi'
  interval_cases i <;> interval_cases i' <;> simp [LocalizationOperator.entry, sum_range_succ]

/-! ## C88 -/

/-- The matrix element of `T` between the wavepackets `i` and `j` of sample `d`. -/
noncomputable def element (T : ℕ → ℕ → ℂ) (w : BlochWavefunctions) (d i j : ℕ) : ℂ :=
  ∑ k ∈ range (size w.basis), ∑ k' ∈ range (size w.basis),
    (starRingEnd ℂ) (block (size w.basis) w.data (i * w.samples.prod + d) k) * T k k' *
      block (size w.basis) w.data (j * w.samples.prod + d) k'

/-- The wavepackets of sample `d` are eigenstates of `T` with the energies `h`. -/
def Eigen (T : ℕ → ℕ → ℂ) (w : BlochWavefunctions) (h : ℕ → ℂ) (d : ℕ) : Prop :=
  ∀ c < w.bands, ∀ k < size w.basis,
    ∑ k' ∈ range (size w.basis), T k k' * block (size w.basis) w.data (c * w.samples.prod + d) k' =
      h (c * w.samples.prod + d) * block (size w.basis) w.data (c * w.samples.prod + d) k

theorem element_localized (w : BlochWavefunctions) (op : LocalizationOperator) (ho : w.bands = op.old)
    (hS : w.samples = op.samples) (hw : Orthonormal w) (T : ℕ → ℕ → ℂ) (h : ℕ → ℂ) (d : ℕ) (hd : d < w.samples.prod)
    (hT : Eigen T w h d) :
    ∃ w', getLocalizedWavepackets w op = some w' ∧ ∀ i < op.new, ∀ j < op.new, element T w' d i j =
      ∑ c ∈ range op.old, (starRingEnd ℂ) (op.entry d i c) * h (c * op.samples.prod + d) * op.entry d j c := by
  obtain ⟨w', h1, h2, h3, h4, h5⟩ := localized_block w op ho hS
  refine ⟨w', h1, fun i hi j hj => ?_⟩
  unfold element
  rw [h3, h4]
  have act : ∀ k ∈ range (size w.basis), ∑ k' ∈ range (size w.basis),
      (starRingEnd ℂ) (block (size w.basis) w'.data (i * w.samples.prod + d) k) * T k k' *
        block (size w.basis) w'.data (j * w.samples.prod + d) k' =
      ∑ c' ∈ range w.bands, ∑ c ∈ range w.bands, ((starRingEnd ℂ) (op.entry d i c') * op.entry d j c *
        h (c * w.samples.prod + d)) * ((starRingEnd ℂ) (block (size w.basis) w.data (c' * w.samples.prod + d) k) *
          block (size w.basis) w.data (c * w.samples.prod + d) k) := by
    intro k hk
    have hk' := mem_range.1 hk
    have e : ∀ k' ∈ range (size w.basis), (starRingEnd ℂ) (block (size w.basis) w'.data (i * w.samples.prod + d) k) * T k k' *
        block (size w.basis) w'.data (j * w.samples.prod + d) k' =
        ∑ c ∈ range w.bands, (starRingEnd ℂ) (block (size w.basis) w'.data (i * w.samples.prod + d) k) * op.entry d j c *
          (T k k' * block (size w.basis) w.data (c * w.samples.prod + d) k') := by
      intro k' hk'
      rw [h5 j d hd k' (mem_range.1 hk'), mul_sum]
      exact sum_congr rfl fun c _ => by ring
    rw [sum_congr rfl e, sum_comm]
    have e2 : ∀ c ∈ range w.bands, ∑ k' ∈ range (size w.basis),
        (starRingEnd ℂ) (block (size w.basis) w'.data (i * w.samples.prod + d) k) * op.entry d j c *
          (T k k' * block (size w.basis) w.data (c * w.samples.prod + d) k') =
        ∑ c' ∈ range w.bands, ((starRingEnd ℂ) (op.entry d i c') * op.entry d j c *
        h (c * w.samples.prod + d)) * ((starRingEnd ℂ) (block (size w.basis) w.data (c' * w.samples.prod + d) k) *
          block (size w.basis) w.data (c * w.samples.prod + d) k) := by
      intro c hc
      rw [← mul_sum, hT c (mem_range.1 hc) k hk', h5 i d hd k hk', map_sum, sum_mul, sum_mul]
      refine sum_congr rfl fun c' _ => ?_
      rw [map_mul]; ring
    rw [sum_congr rfl e2, sum_comm]
  rw [sum_congr rfl act, sum_comm, ho]
  apply sum_congr rfl; intro c' hc'
  rw [sum_comm]
  have : ∀ c ∈ range op.old, ∑ k ∈ range (size w.basis), ((starRingEnd ℂ) (op.entry d i c') * op.entry d j c *
        h (c * w.samples.prod + d)) * ((starRingEnd ℂ) (block (size w.basis) w.data (c' * w.samples.prod + d) k) *
          block (size w.basis) w.data (c * w.samples.prod + d) k) =
      if c' = c then (starRingEnd ℂ) (op.entry d i c') * h (c * op.samples.prod + d) * op.entry d j c else 0 := by
    intro c hc
    have q := hw c' (by rw [ho]; exact mem_range.1 hc') c (by rw [ho]; exact mem_range.1 hc) d hd
    unfold dot at q
    rw [← mul_sum, q, hS]
    split
    · ring
    · ring
  rw [sum_congr rfl this, sum_ite_eq, if_pos hc']

/-- **C88.** The localised Hamiltonian is the transpose of the matrix of the Hamiltonian between the localised wavepackets: entry
`(i, j)` is the matrix element between `j` and `i`. So its entries are those of the matrix, but for the order of the indices. -/
theorem C88_transposed_partial (w : BlochWavefunctions) (op : LocalizationOperator) (ho : w.bands = op.old)
    (hS : w.samples = op.samples) (hw : Orthonormal w) (T : ℕ → ℕ → ℂ) (h : ℕ → ℂ) (d : ℕ) (hd : d < w.samples.prod)
    (hT : Eigen T w h d) :
    ∃ w', getLocalizedWavepackets w op = some w' ∧ ∀ i < op.new, ∀ j < op.new,
      localizedHamiltonian h op ((d * op.new + i) * op.new + j) = element T w' d j i := by
  obtain ⟨w', h1, h2⟩ := element_localized w op ho hS hw T h d hd hT
  refine ⟨w', h1, fun i hi j hj => ?_⟩
  rw [h2 j hj i hi]
  unfold localizedHamiltonian
  rw [flatten3_at _ hi hj]
  exact sum_congr rfl fun c _ => by ring

/-- **C88.** For real localisation operators the localised Hamiltonian is the matrix of the Hamiltonian between the localised
wavepackets. -/
theorem C88_real_partial (w : BlochWavefunctions) (op : LocalizationOperator) (ho : w.bands = op.old)
    (hS : w.samples = op.samples) (hw : Orthonormal w) (T : ℕ → ℕ → ℂ) (h : ℕ → ℂ) (d : ℕ) (hd : d < w.samples.prod)
    (hT : Eigen T w h d) (hreal : ∀ i < op.new, ∀ l < op.old, (starRingEnd ℂ) (op.entry d i l) = op.entry d i l) :
    ∃ w', getLocalizedWavepackets w op = some w' ∧ ∀ i < op.new, ∀ j < op.new,
      localizedHamiltonian h op ((d * op.new + i) * op.new + j) = element T w' d i j := by
  obtain ⟨w', h1, h2⟩ := element_localized w op ho hS hw T h d hd hT
  refine ⟨w', h1, fun i hi j hj => ?_⟩
  rw [h2 i hi j hj]
  unfold localizedHamiltonian
  rw [flatten3_at _ hi hj]
  exact sum_congr rfl fun c hc => by rw [hreal i hi c (mem_range.1 hc), hreal j hj c (mem_range.1 hc)]

/-- **C88, negation.** For a complex unitary operator the localised Hamiltonian is not the matrix of the Hamiltonian between the
localised wavepackets. -/
theorem C88_negation : ∃ (w : BlochWavefunctions) (op : LocalizationOperator) (T : ℕ → ℕ → ℂ) (h : ℕ → ℂ) (w' : BlochWavefunctions),
    w.bands = op.old ∧ w.samples = op.samples ∧ Orthonormal w ∧ Eigen T w h 0 ∧
    (∀ i < op.new, ∀ i' < op.new,
      ∑ l ∈ range op.old, (starRingEnd ℂ) (op.entry 0 i l) * op.entry 0 i' l = if i = i' then 1 else 0) ∧
    getLocalizedWavepackets w op = some w' ∧ element T w' 0 0 1 ≠ localizedHamiltonian h op 1 := by
  let w : BlochWavefunctions := ⟨2, [1], .fundamental 2, fun k => if k = 0 ∨ k = 3 then 1 else 0⟩
  let r : ℂ := (Real.sqrt 2 : ℂ)⁻¹
  have hr : r * r = 1 / 2 := by
    show (Real.sqrt 2 : ℂ)⁻¹ * (Real.sqrt 2 : ℂ)⁻¹ = 1 / 2
    rw [← mul_inv, ← Complex.ofReal_mul, Real.mul_self_sqrt (by norm_num)]
    norm_num
  have hc : (starRingEnd ℂ) r = r := by
    show (starRingEnd ℂ) (Real.sqrt 2 : ℂ)⁻¹ = _
    rw [map_inv₀, Complex.conj_ofReal]
  let op : LocalizationOperator := ⟨[1], 2, 2, fun k => if k = 0 ∨ k = 3 then r else r * Complex.I⟩
  let h : ℕ → ℂ := fun k => if k = 1 then 1 else 0
  let T : ℕ → ℕ → ℂ := fun k k' => if k = 1 ∧ k' = 1 then 1 else 0
  have hw : Orthonormal w := by
    intro i hi i' hi' a ha
    have hi : i < 2 := hi
    have hi' : i' < 2 := hi'
    have ha : a < 1 := by simpa [w] using ha
    interval_cases a
    interval_cases i <;> interval_cases i' <;> simp [w, dot, block, size, sum_range_succ]
  have hT : Eigen T w h 0 := by
    intro c hc k hk
    have hc : c < 2 := hc
    have hk : k < 2 := hk
    interval_cases c <;> interval_cases k <;> simp [w, h, T, block, size, sum_range_succ]
  obtain ⟨w', h1, h2⟩ := element_localized w op rfl rfl hw T h 0 (by simp [w]) hT
  refine ⟨w, op, T, h, w', rfl, rfl, hw, hT, ?_, h1, ?_⟩
  · intro i hi i' hi'
    have hi : i < 2 := hi
    have hi' : i' < 2 := hi'
    have k1 : r * r + r * Complex.I * -(r * Complex.I) = 1 := by
      linear_combination (1 - Complex.I ^ 2) * hr - (1 / 2) * Complex.I_sq
    interval_cases i <;> interval_cases i' <;>
      simp [op, LocalizationOperator.entry, sum_range_succ, hc] <;>
      first
        | linear_combination (1 - Complex.I ^ 2) * hr - (1 / 2) * Complex.I_sq
        | ring
  · rw [h2 0 (by simp [op]) 1 (by simp [op])]
    have e : localizedHamiltonian h op 1 = r * r * Complex.I := by
      have := flatten3_at (p := 2) (q := 2) (m := 0) (i := 0) (j := 1) (fun d i j => ∑ c ∈ range op.old,
        op.entry d i c * h (c * op.samples.prod + d) * (starRingEnd ℂ) (op.entry d j c)) (by norm_num) (by norm_num)
      refine this.trans ?_
      simp [op, h, LocalizationOperator.entry, sum_range_succ, hc]
      ring
    rw [e, hr]
    simp only [op, h, LocalizationOperator.entry, sum_range_succ, range_zero, sum_empty, List.prod_singleton]
    norm_num
    rw [hc]
    intro q
    have : -(r * r) * Complex.I = 1 / 2 * Complex.I := by linear_combination q
    rw [hr] at this
    have := congrArg Complex.im this
    norm_num at this

/-! ## C89 -/

/-- **C89.** With as many samples as bands the identity operator changes nothing. -/
theorem C89_identity_partial (w : BlochWavefunctions) (h : w.bands = w.samples.prod) :
    ∃ w', getLocalizedWavepackets w (identityLocalization w.bands w.samples) = some w' ∧ w'.bands = w.bands ∧
      w'.samples = w.samples ∧ w'.basis = w.basis ∧ ∀ i < w.bands, ∀ a < w.samples.prod, ∀ k < size w.basis,
        w'.data ((i * w.samples.prod + a) * size w.basis + k) = w.data ((i * w.samples.prod + a) * size w.basis + k) := by
  obtain ⟨w', h1, h2, h3, h4, h5⟩ := localized_block w (identityLocalization w.bands w.samples) rfl rfl
  refine ⟨w', h1, h2.trans h.symm, h3, h4, fun i hi a ha k hk => ?_⟩
  have := h5 i a ha k hk
  unfold block at this
  rw [this, sum_eq_single i]
  · have e : (identityLocalization w.bands w.samples).entry a i i = 1 := by
      unfold LocalizationOperator.entry identityLocalization
      dsimp only
      rw [h, flatten3_at _ (h ▸ hi) (h ▸ hi), if_pos rfl, mul_one]
    rw [e, one_mul]
  · intro l hl hne
    have e : (identityLocalization w.bands w.samples).entry a i l = 0 := by
      unfold LocalizationOperator.entry identityLocalization
      dsimp only
      rw [h, flatten3_at _ (h ▸ hi) (h ▸ mem_range.1 hl), if_neg (Ne.symm hne), mul_zero]
    rw [e, zero_mul]
  · intro hn; exact absurd (mem_range.2 hi) hn

/-- **C89, negation.** Otherwise the result of applying the identity operator does not even have the same number of
wavepackets. -/
theorem C89_identity_negation (w : BlochWavefunctions) (h : w.bands ≠ w.samples.prod) :
    ∃ w', getLocalizedWavepackets w (identityLocalization w.bands w.samples) = some w' ∧ w'.bands ≠ w.bands := by
  obtain ⟨w', h1, h2, _⟩ := localized_block w (identityLocalization w.bands w.samples) rfl rfl
  exact ⟨w', h1, by rw [h2]; exact h.symm⟩

-- two bands with three samples
example : (⟨2, [3], .fundamental 4, fun _ => 0⟩ : BlochWavefunctions).bands ≠
    (⟨2, [3], .fundamental 4, fun _ => 0⟩ : BlochWavefunctions).samples.prod := by decide

end Verif
