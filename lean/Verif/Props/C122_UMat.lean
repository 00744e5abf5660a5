import Verif.Model.Wannier90
import Verif.Props.C50_Localization
import Verif.Props.C121_Overlaps

/-!
# C122: Unitary matrices read from wannier90
-/

set_option autoImplicit false

namespace Verif

open Finset Spec

namespace Spec

/-- The file `spa_u.mat` as written by wannier90, split into words: a comment, the numbers of samples, of localised states (twice), and for every sample an empty line,
the sample and the matrix, the first index of which runs fastest. -/
def uMatFile (header : List String) (snk snw : String) (kpoint : ℕ → List String) (re im : ℕ → ℕ → ℕ → String) (nk nw : ℕ) : List (List String) :=
  [header, [snk, snw, snw]] ++ (List.range nk).flatMap fun k =>
    [[], kpoint k] ++ (List.range nw).flatMap fun j => (List.range nw).map fun i => [re k i j, im k i j]

end Spec

theorem flatMap_range {α : Type*} (f : ℕ → List α) (L : ℕ) (hf : ∀ k, (f k).length = L) : ∀ n : ℕ, ((List.range n).flatMap f).length = n * L ∧
    ∀ k < n, ∀ r < L, ((List.range n).flatMap f)[k * L + r]? = (f k)[r]?
  | 0 => by simp
  | n + 1 => by
    obtain ⟨h1, h2⟩ := flatMap_range f L hf n
    rw [List.range_succ, List.flatMap_append, List.flatMap_singleton]
    refine ⟨by rw [List.length_append, h1, hf]; ring, fun k hk r hr => ?_⟩
    rcases Nat.lt_or_ge k n with h | h
    · rw [List.getElem?_append_left, h2 k h r hr]
      rw [h1]
      calc k * L + r < k * L + L := by omega
        _ = (k + 1) * L := by ring
        _ ≤ _ := Nat.mul_le_mul_right _ h
    · have : k = n := by omega
      subst this
      rw [List.getElem?_append_right (by rw [h1]; omega), h1, Nat.add_sub_cancel_left]

/-- The word lists of one column. -/
theorem strided_column (header : List String) (snk snw : String) (kpoint : ℕ → List String) (re im : ℕ → ℕ → ℕ → String) (nk nw : ℕ) (m n : ℕ)
    (hm : m < nw) (hn : n < nw) : strided (uMatFile header snk snw kpoint re im nk nw) (4 + n + nw * m) (2 + nw * nw) =
      (List.range nk).map fun k => [re k n m, im k n m] := by
  have hin : ∀ k, ((List.range nw).flatMap fun j => (List.range nw).map fun i => [re k i j, im k i j]).length = nw * nw ∧ _ := fun k =>
    flatMap_range (fun j => (List.range nw).map fun i => [re k i j, im k i j]) nw (fun j => by simp) nw
  obtain ⟨g1, g2⟩ := flatMap_range (fun k => [[], kpoint k] ++ (List.range nw).flatMap fun j => (List.range nw).map fun i => [re k i j, im k i j])
    (2 + nw * nw) (fun k => by rw [List.length_append, (hin k).1]; rfl) nk
  have hlt : n + nw * m < nw * nw := by
    calc n + nw * m < nw + nw * m := by omega
      _ = nw * (m + 1) := by ring
      _ ≤ _ := Nat.mul_le_mul_left _ hm
  have hlen : (uMatFile header snk snw kpoint re im nk nw).length = 2 + nk * (2 + nw * nw) := by
    unfold uMatFile
    rw [List.length_append, g1]
    rfl
  have hget : ∀ t, (uMatFile header snk snw kpoint re im nk nw)[4 + n + nw * m + t * (2 + nw * nw)]? =
      if t < nk then some [re t n m, im t n m] else none := by
    intro t
    split
    · rename_i ht
      unfold uMatFile
      rw [List.getElem?_append_right (by simp; omega)]
      rw [show 4 + n + nw * m + t * (2 + nw * nw) - [header, [snk, snw, snw]].length = t * (2 + nw * nw) + (2 + (n + nw * m)) by
        simp only [List.length_cons, List.length_nil]; omega]
      rw [g2 t ht (2 + (n + nw * m)) (by omega), List.getElem?_append_right (by simp),
        show 2 + (n + nw * m) - [[], kpoint t].length = m * nw + n by simp only [List.length_cons, List.length_nil]; rw [Nat.mul_comm]; omega]
      rw [(hin t).2 m hm n hn]
      simp [hn]
    · rename_i ht
      rw [List.getElem?_eq_none]
      rw [hlen]
      have : nk * (2 + nw * nw) ≤ t * (2 + nw * nw) := Nat.mul_le_mul_right _ (by omega)
      omega
  unfold strided
  simp only [hget]
  rw [hlen]
  have hle : nk ≤ 2 + nk * (2 + nw * nw) := by nlinarith [Nat.zero_le (nk * (nw * nw))]
  generalize 2 + nk * (2 + nw * nw) = N at hle
  obtain ⟨d, rfl⟩ := Nat.exists_eq_add_of_le hle
  rw [List.range_add, List.filterMap_append]
  have e2 : ((List.range d).map fun x => nk + x).filterMap (fun t => if t < nk then some [re t n m, im t n m] else none) = [] := by
    rw [List.filterMap_eq_nil_iff]
    intro t ht
    obtain ⟨x, _, rfl⟩ := List.mem_map.1 ht
    rw [if_neg (by omega)]
  rw [e2, List.append_nil]
  rw [← List.filterMap_eq_map]
  exact List.filterMap_congr fun t ht => by rw [if_pos (List.mem_range.1 ht)]; rfl

/-- **C122.** From the file of unitary matrices which wannier90 writes, the localisation operator is made whose entry for the new state `m` and the old band `n` is the
matrix element `U n m` at that sample. -/
theorem C122_operator (toInt : String → Option ℕ) (toFloat : String → Option ℝ) (header : List String) (snk snw : String) (kpoint : ℕ → List String) (re im : ℕ → ℕ → ℕ → String)
    (samples : List ℕ) (nw : ℕ) (U : ℕ → ℕ → ℕ → ℂ) (hnum : toInt snw = some nw)
    (hU : ∀ k < samples.prod, ∀ i < nw, ∀ j < nw, toFloat (re k i j) = some (U k i j).re ∧ toFloat (im k i j) = some (U k i j).im) :
    ∃ op, localizationFromUMat toInt toFloat samples nw nw (uMatFile header snk snw kpoint re im samples.prod nw) = some op ∧ op.samples = samples ∧ op.new = nw ∧ op.old = nw ∧
      ∀ k < samples.prod, ∀ m < nw, ∀ n < nw, op.entry k m n = U k n m := by
  have hcol : ∀ m < nw, ∀ n < nw, parseUMatBlock toFloat (strided (uMatFile header snk snw kpoint re im samples.prod nw) (4 + n + nw * m) (2 + nw * nw)) =
      some ((List.range samples.prod).map fun k => U k n m) := by
    intro m hm n hn
    rw [strided_column header snk snw kpoint re im samples.prod nw m n hm hn]
    unfold parseUMatBlock
    rw [List.mapM_map]
    refine mapM_some_map _ _ _ fun k hk => ?_
    obtain ⟨h1, h2⟩ := hU k (List.mem_range.1 hk) n hn m hm
    show ((some (re k n m)).bind toFloat).bind (fun (x : ℝ) => ((some (im k n m)).bind toFloat).map fun (y : ℝ) => (x : ℂ) + Complex.I * (y : ℂ)) = _
    rw [Option.bind_some, h1, Option.bind_some, Option.bind_some, h2, Option.map_some, mul_comm, Complex.re_add_im]
  have hcond : ∃ len, ∀ m < nw, ∀ n < nw, ∃ c, parseUMatBlock toFloat (strided (uMatFile header snk snw kpoint re im samples.prod nw) (4 + n + nw * m) (2 + nw * nw)) = some c ∧
      c.length = len := ⟨samples.prod, fun m hm n hn => ⟨_, hcol m hm n hn, by simp⟩⟩
  refine ⟨⟨samples, nw, nw, flatten3 nw nw fun k m n =>
    ((parseUMatBlock toFloat (strided (uMatFile header snk snw kpoint re im samples.prod nw) (4 + n + nw * m) (2 + nw * nw))).getD []).getD k 0⟩, ?_, rfl, rfl, rfl, ?_⟩
  · unfold localizationFromUMat
    rw [show (uMatFile header snk snw kpoint re im samples.prod nw)[1]? = some [snk, snw, snw] from rfl, Option.bind_some,
      show ([snk, snw, snw][1]?) = some snw from rfl, Option.bind_some, hnum, Option.bind_some,
      show ([snk, snw, snw][2]?) = some snw from rfl, Option.bind_some, hnum, Option.bind_some, if_pos hcond]
  · intro k hk m hm n hn
    unfold LocalizationOperator.entry
    dsimp only
    rw [flatten3_at _ hm hn, hcol m hm n hn, Option.getD_some]
    simp [hk]

/-- **C122.** With this operator, the localised wavepacket `m` is at every sample the combination of the bands `n` with the coefficients `U n m`, as wannier90 means it. -/
theorem C122_localized (toInt : String → Option ℕ) (toFloat : String → Option ℝ) (header : List String) (snk snw : String) (kpoint : ℕ → List String) (re im : ℕ → ℕ → ℕ → String)
    (w : BlochWavefunctions) (U : ℕ → ℕ → ℕ → ℂ) (hnum : toInt snw = some w.bands)
    (hU : ∀ k < w.samples.prod, ∀ i < w.bands, ∀ j < w.bands, toFloat (re k i j) = some (U k i j).re ∧ toFloat (im k i j) = some (U k i j).im) :
    ∃ w', ((localizationFromUMat toInt toFloat w.samples w.bands w.bands (uMatFile header snk snw kpoint re im w.samples.prod w.bands)).bind
      fun op => getLocalizedWavepackets w op) = some w' ∧ w'.bands = w.bands ∧ w'.samples = w.samples ∧ w'.basis = w.basis ∧
      ∀ m < w.bands, ∀ a < w.samples.prod, ∀ j < size w.basis, w'.data ((m * w.samples.prod + a) * size w.basis + j) =
        ∑ n ∈ range w.bands, U a n m * w.data ((n * w.samples.prod + a) * size w.basis + j) := by
  obtain ⟨op, h1, h2, h3, h4, h5⟩ := C122_operator toInt toFloat header snk snw kpoint re im w.samples w.bands U hnum hU
  obtain ⟨w', g1, g2, g3, g4, g5⟩ := localized_block w op h4.symm h2.symm
  refine ⟨w', by rw [h1, Option.bind_some, g1], g2.trans h3, g3, g4, fun m hm a ha j hj => ?_⟩
  refine (g5 m a ha j hj).trans (sum_congr rfl fun n hn => ?_)
  rw [h5 a ha m hm n (mem_range.1 hn)]
  rfl

/-- Unit matrices for three samples and two bands. -/
example : ∃ op, localizationFromUMat (fun s => if s = "2" then some 2 else none) (fun s => if s = "1.0" then some 1 else if s = "0.0" then some 0 else none) [3] 2 2
    (uMatFile ["written"] "3" "2" (fun _ => ["0.0"]) (fun _ i j => if i = j then "1.0" else "0.0") (fun _ _ _ => "0.0") 3 2) = some op ∧
      op.entry 2 0 1 = 0 ∧ op.entry 2 1 1 = 1 := by
  obtain ⟨op, h1, _, _, _, h5⟩ := C122_operator (fun s => if s = "2" then some 2 else none) (fun s => if s = "1.0" then some 1 else if s = "0.0" then some 0 else none)
    ["written"] "3" "2" (fun _ => ["0.0"]) (fun _ i j => if i = j then "1.0" else "0.0") (fun _ _ _ => "0.0") [3] 2 (fun _ i j => if i = j then 1 else 0) rfl
    (fun k _ i _ j _ => by split <;> simp)
  exact ⟨op, h1, by rw [h5 2 (by decide) 0 (by decide) 1 (by decide)]; simp, by rw [h5 2 (by decide) 1 (by decide) 1 (by decide)]; simp⟩

end Verif
