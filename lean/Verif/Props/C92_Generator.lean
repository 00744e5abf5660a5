import Verif.Model.ExplicitZ
import Verif.Props.C69_Hamiltonian
import Verif.Lemmas.Dft

/-!
C72, C92: the matrix elements computed by the compiled extension, and its size guard.
-/

set_option autoImplicit false

namespace Verif

open Finset Spec

/-! ## The order of the coordinates -/

theorem axisCoordinates_get {n i : ℕ} (hi : i < n) : (axisCoordinates n)[i]? = some (freq n i) := by
  unfold axisCoordinates freq
  by_cases h : 2 * i < n
  · rw [List.getElem?_append_left (by simp; omega), if_pos h]
    rw [List.getElem?_map, List.getElem?_range (by omega), Option.map_some]
  · rw [List.getElem?_append_right (by simp; omega), if_neg h]
    simp only [List.length_map, List.length_range, List.getElem?_map]
    rw [List.getElem?_range (by omega)]
    simp only [Option.map_some]
    congr 1
    omega

theorem axisCoordinates_length (n : ℕ) : (axisCoordinates n).length = n := by
  unfold axisCoordinates; simp; omega

theorem flatMap_get {α β : Type} (l : List α) (f : α → List β) (k : ℕ) (hf : ∀ a, (f a).length = k) (i : ℕ) (hk : 0 < k) :
    (l.flatMap f)[i]? = (l[i / k]?).bind fun a => (f a)[i % k]? := by
  induction l generalizing i with
  | nil => simp
  | cons a l ih =>
    rw [List.flatMap_cons]
    by_cases h : i < k
    · rw [List.getElem?_append_left (by rw [hf]; exact h), Nat.div_eq_of_lt h, Nat.mod_eq_of_lt h]; rfl
    · rw [List.getElem?_append_right (by rw [hf]; omega), hf, ih]
      have h1 : i / k = (i - k) / k + 1 := by
        rw [← Nat.add_div_right _ hk, Nat.sub_add_cancel (by omega)]
      have h2 : i % k = (i - k) % k := Nat.mod_eq_sub_mod (by omega)
      rw [h1, h2, List.getElem?_cons_succ]

theorem coordinates_length (r0 r1 r2 : ℕ) : (generatorCoordinates r0 r1 r2).length = r0 * r1 * r2 := by
  unfold generatorCoordinates
  simp only [List.length_flatMap, List.length_map, List.length_range, List.map_const', List.sum_replicate, axisCoordinates_length, smul_eq_mul]
  ring

theorem coordinates_get {r0 r1 r2 i : ℕ} (hi : i < r0 * r1 * r2) :
    (generatorCoordinates r0 r1 r2)[i]? = some (freq r0 (i / r2 / r1), freq r1 (i / r2 % r1), i % r2) := by
  have h2 : 0 < r2 := Nat.pos_of_ne_zero fun h => by rw [h, mul_zero] at hi; omega
  have h1 : 0 < r1 := Nat.pos_of_ne_zero fun h => by rw [h, mul_zero, zero_mul] at hi; omega
  have hi1 : i / r2 < r0 * r1 := Nat.div_lt_of_lt_mul (by rwa [mul_comm])
  have hi0 : i / r2 / r1 < r0 := Nat.div_lt_of_lt_mul (by rwa [mul_comm])
  unfold generatorCoordinates
  rw [flatMap_get _ _ (r1 * r2) (by
    intro a
    simp only [List.length_flatMap, List.length_map, List.length_range, List.map_const', List.sum_replicate, axisCoordinates_length, smul_eq_mul]) _
    (Nat.mul_pos h1 h2), mul_comm r1 r2, ← Nat.div_div_eq_div_mul, axisCoordinates_get hi0, Option.bind_some,
    flatMap_get _ _ r2 (by simp) _ h2]
  rw [mul_comm r2 r1, Nat.mod_mul_left_div_self, Nat.mod_mul_left_mod, axisCoordinates_get (Nat.mod_lt _ h1), Option.bind_some, List.getElem?_map,
    List.getElem?_range (Nat.mod_lt _ h2), Option.map_some]

/-! ## The cache -/

theorem cachedRow_eq {α κ : Type} [DecidableEq κ] (key : α → α → κ) (value : α → α → ℂ)
    (hk : ∀ a b a' b', key a b = key a' b' → value a b = value a' b') (a : α) : ∀ (bs : List α) (g : List (κ × ℂ)),
    (∀ a b v, g.lookup (key a b) = some v → value a b = v) → (cachedRow key value a bs g).1 = bs.map (value a) ∧
      ∀ a' b v, (cachedRow key value a bs g).2.lookup (key a' b) = some v → value a' b = v
  | [], g, hg => ⟨rfl, hg⟩
  | b :: bs, g, hg => by
    unfold cachedRow
    split
    · rename_i v hv
      have ih := cachedRow_eq key value hk a bs g hg
      exact ⟨by rw [List.map_cons, ← ih.1, hg a b v hv], ih.2⟩
    · have ih := cachedRow_eq key value hk a bs ((key a b, value a b) :: g) (by
        intro a' b' v h
        rw [List.lookup_cons] at h
        by_cases hkey : key a' b' = key a b
        · rw [hkey] at h
          simp only [beq_self_eq_true] at h
          rw [hk _ _ _ _ hkey]
          exact Option.some.inj h
        · have : (key a' b' == key a b) = false := by simpa using hkey
          rw [this] at h
          exact hg _ _ _ h)
      exact ⟨by rw [List.map_cons, ← ih.1], ih.2⟩

theorem cachedRows_eq {α κ : Type} [DecidableEq κ] (key : α → α → κ) (value : α → α → ℂ)
    (hk : ∀ a b a' b', key a b = key a' b' → value a b = value a' b') (all : List α) : ∀ (as : List α) (g : List (κ × ℂ)),
    (∀ a b v, g.lookup (key a b) = some v → value a b = v) → cachedRows key value all as g = as.map fun a => all.map (value a)
  | [], _, _ => rfl
  | a :: as, g, hg => by
    have h := cachedRow_eq key value hk a all g hg
    rw [cachedRows, List.map_cons, h.1, cachedRows_eq key value hk all as _ h.2]

theorem rows_get {α : Type} (l : List α) (value : α → α → ℂ) {i j : ℕ} {a b : α} (hi : l[i]? = some a) (hj : l[j]? = some b) :
    ((l.map fun a => l.map (value a)).getD i []).getD j 0 = value a b := by
  simp [List.getD_eq_getElem?_getD, List.getElem?_map, hi, hj]

/-- **C92.** The cache of the loop has no effect: entry `(i, j)` is the sum over the points of the Fourier component of
the difference of the labels (centred, in FFT order, last axis fastest), the row state and the conjugated column state. -/
theorem C92_cache (ft : ℕ → ℕ → ℕ → ℂ) (n0 n1 nz : ℕ) (e : ℕ → ℕ → ℂ) (r0 r1 r2 i j : ℕ) (hi : i < r0 * r1 * r2) (hj : j < r0 * r1 * r2) :
    ((offDiagonalEnergies2 ft n0 n1 nz e r0 r1 r2).getD i []).getD j 0 =
      ∑ z ∈ range nz, ft ((freq r0 (j / r2 / r1) - freq r0 (i / r2 / r1)) % n0).toNat
        ((freq r1 (j / r2 % r1) - freq r1 (i / r2 % r1)) % n1).toNat z * e (i % r2) z * (starRingEnd ℂ) (e (j % r2) z) := by
  unfold offDiagonalEnergies2
  rw [cachedRows_eq _ _ _ _ _ _ (by simp), rows_get _ _ (coordinates_get hi) (coordinates_get hj)]
  · rfl
  · intro a b a' b' h
    simp only [generatorKey, Prod.mk.injEq] at h
    obtain ⟨h1, h2, h3, h4⟩ := h
    simp only [h1, h2, h3, h4]

/-- **C92.** The same for the generator with oscillator states. -/
theorem C92_cache_sho (hbar : ℝ) (ft : ℕ → ℕ → ℕ → ℂ) (n0 n1 nz r0 r1 r2 : ℕ) (dz mass omega offset : ℝ) (i j : ℕ)
    (hi : i < r0 * r1 * r2) (hj : j < r0 * r1 * r2) :
    ((offDiagonalEnergies hbar ft n0 n1 nz r0 r1 r2 dz mass omega offset).getD i []).getD j 0 =
      (∑ z ∈ range nz, ft ((freq r0 (j / r2 / r1) - freq r0 (i / r2 / r1)) % n0).toNat
        ((freq r1 (j / r2 % r1) - freq r1 (i / r2 % r1)) % n1).toNat z *
          (generatorShoWavefunction hbar omega mass (i % r2) (dz * z + offset) : ℂ) *
          (generatorShoWavefunction hbar omega mass (j % r2) (dz * z + offset) : ℂ)) * dz := by
  unfold offDiagonalEnergies
  rw [cachedRows_eq _ _ _ _ _ _ (by simp), rows_get _ _ (coordinates_get hi) (coordinates_get hj)]
  · rfl
  · intro a b a' b' h
    simp only [generatorKey, Prod.mk.injEq] at h
    obtain ⟨h1, h2, h3, h4⟩ := h
    simp only [h1, h2, h3, h4]

/-! ## Matrix elements -/

theorem ifft_backward (n : ℕ) (v : ℕ → ℂ) {d : ℤ} (hn : 0 < n) :
    ifft .backward n v (d % n).toNat = (∑ x ∈ range n, phase n (d * x) * v x) / n := by
  rw [ifft_eq]
  have h : ((d % n).toNat : ℤ) = d % n := Int.toNat_of_nonneg (Int.emod_nonneg _ (by omega))
  rw [h, show FftNorm.backward.ifftScale n = 1 / (n : ℂ) from rfl, one_div, div_eq_mul_inv, mul_comm (n : ℂ)⁻¹]
  congr 1
  refine sum_congr rfl fun x _ => ?_
  congr 1
  refine phase_congr hn ?_
  rw [← sub_mul]
  refine Dvd.dvd.mul_right ?_ _
  rw [← dvd_neg, neg_sub]
  exact Int.dvd_self_sub_emod

theorem states_three (a b c : Basis) (j x : ℕ) : states [a, b, c] j x =
    state a (j / size c / size b) (x / points c / points b) * (state b (j / size c % size b) (x / points c % points b) *
      state c (j % size c) (x % points c)) := by
  simp only [states, sizes, pointss, mul_one, Nat.div_one, Nat.mod_mul_left_div_self, Nat.mod_mul_left_mod]
  rw [mul_comm (size b), mul_comm (points b), ← Nat.div_div_eq_div_mul, ← Nat.div_div_eq_div_mul]

theorem state_explicit (r2 : ℕ) (e : ℕ → ℕ → ℂ) (nz : ℕ) {j z : ℕ} (hz : z < nz) : state (.explicit r2 e (.fundamental nz)) j z = e j z := by
  show ∑ k ∈ range nz, e j k * (if z = k then (1 : ℂ) else 0) = _
  simp only [mul_ite, mul_one, mul_zero]
  rw [sum_ite_eq, if_pos (mem_range.2 hz)]

theorem sum_three (n0 n1 nz : ℕ) (f : ℕ → ℂ) : ∑ x ∈ range (n0 * n1 * nz), f x =
    ∑ x0 ∈ range n0, ∑ x1 ∈ range n1, ∑ z ∈ range nz, f ((x0 * n1 + x1) * nz + z) := by
  rw [sum_range_mul', sum_range_mul']

theorem three_digits {n1 nz x0 x1 z : ℕ} (h1 : x1 < n1) (hz : z < nz) : ((x0 * n1 + x1) * nz + z) / nz / n1 = x0 ∧
    ((x0 * n1 + x1) * nz + z) / nz % n1 = x1 ∧ ((x0 * n1 + x1) * nz + z) % nz = z := by
  have e : ((x0 * n1 + x1) * nz + z) / nz = x0 * n1 + x1 := by
    rw [mul_comm, Nat.mul_add_div (by omega), Nat.div_eq_of_lt hz, add_zero]
  refine ⟨?_, ?_, ?_⟩
  · rw [e, mul_comm, Nat.mul_add_div (by omega), Nat.div_eq_of_lt h1, add_zero]
  · rw [e, mul_comm, Nat.mul_add_mod, Nat.mod_eq_of_lt h1]
  · rw [mul_comm, Nat.mul_add_mod, Nat.mod_eq_of_lt hz]

theorem planeWave_product' {n : ℕ} (k k' : ℤ) (x : ℕ) : (starRingEnd ℂ) (planeWave n k x) * planeWave n k' x = phase n ((k' - k) * x) / n := by
  by_cases hn : n = 0
  · subst hn; simp [planeWave]
  rw [planeWave_product (by omega)]
  unfold phase
  push_cast
  congr 2
  ring

/-- The elements of a function on the grid between the states of the basis. -/
theorem grid_elements (n0 n1 nz r0 r1 r2 : ℕ) (e : ℕ → ℕ → ℂ) (W : ℕ → ℂ) (i j : ℕ) :
    ∑ x ∈ range (n0 * n1 * nz), (starRingEnd ℂ) (states [.transformed r0 n0, .transformed r1 n1, .explicit r2 e (.fundamental nz)] i x) * W x *
      states [.transformed r0 n0, .transformed r1 n1, .explicit r2 e (.fundamental nz)] j x =
    ∑ z ∈ range nz, (∑ x0 ∈ range n0, phase n0 ((freq r0 (j / r2 / r1) - freq r0 (i / r2 / r1)) * x0) *
      ((∑ x1 ∈ range n1, phase n1 ((freq r1 (j / r2 % r1) - freq r1 (i / r2 % r1)) * x1) * W ((x0 * n1 + x1) * nz + z)) / n1)) / n0 *
      ((starRingEnd ℂ) (e (i % r2) z) * e (j % r2) z) := by
  rw [sum_three]
  simp only [sum_div, sum_mul, mul_sum]
  rw [sum_comm' (s := range nz) (t := fun _ => range n0) (s' := fun _ => range nz) (t' := range n0) (by simp)]
  refine sum_congr rfl fun x0 _ => ?_
  rw [sum_comm]
  refine sum_congr rfl fun z hz => sum_congr rfl fun x1 hx1 => ?_
  obtain ⟨d0, d1, d2⟩ := three_digits (x0 := x0) (mem_range.1 hx1) (mem_range.1 hz)
  rw [states_three, states_three]
  have hs : size (.explicit r2 e (.fundamental nz)) = r2 := rfl
  have hp : points (.explicit r2 e (.fundamental nz)) = nz := rfl
  have hs1 : size (.transformed r1 n1) = r1 := rfl
  have hp1 : points (.transformed r1 n1) = n1 := rfl
  rw [hs, hp, hs1, hp1, d0, d1, d2, state_explicit _ _ _ (mem_range.1 hz), state_explicit _ _ _ (mem_range.1 hz)]
  show (starRingEnd ℂ) (planeWave n0 _ _ * (planeWave n1 _ _ * _)) * _ * (planeWave n0 _ _ * (planeWave n1 _ _ * _)) = _
  rw [map_mul, map_mul]
  have e0 := planeWave_product' (n := n0) (freq r0 (i / r2 / r1)) (freq r0 (j / r2 / r1)) x0
  have e1 := planeWave_product' (n := n1) (freq r1 (i / r2 % r1)) (freq r1 (j / r2 % r1)) x1
  calc _ = ((starRingEnd ℂ) (planeWave n0 (freq r0 (i / r2 / r1)) x0) * planeWave n0 (freq r0 (j / r2 / r1)) x0) *
        ((starRingEnd ℂ) (planeWave n1 (freq r1 (i / r2 % r1)) x1) * planeWave n1 (freq r1 (j / r2 % r1)) x1) *
        W ((x0 * n1 + x1) * nz + z) * ((starRingEnd ℂ) (e (i % r2) z) * e (j % r2) z) := by ring
    _ = _ := by rw [e0, e1]; ring

theorem ftPotential_eq (n0 n1 nz : ℕ) (h0 : 0 < n0) (h1 : 0 < n1) (V Vz : ℕ → ℂ) (d0 d1 : ℤ) {z : ℕ} (hz : z < nz) :
    ftPotential n0 n1 nz V Vz (d0 % n0).toNat (d1 % n1).toNat z = (∑ x0 ∈ range n0, phase n0 (d0 * x0) *
      ((∑ x1 ∈ range n1, phase n1 (d1 * x1) * (fun x => V x - Vz (x % nz)) ((x0 * n1 + x1) * nz + z)) / n1)) / n0 := by
  unfold ftPotential
  rw [ifft_backward _ _ h0]
  simp only [ifft_backward _ _ h1]
  congr 1
  refine sum_congr rfl fun x0 _ => ?_
  congr 2
  refine sum_congr rfl fun x1 hx1 => ?_
  unfold subtractedPoints
  rw [(three_digits (x0 := x0) (mem_range.1 hx1) hz).2.2]

/-- For any states normal to the surface, the result has the elements of the potential (less the one of the normal states)
between states with the *conjugated* normal part. -/
theorem generator_elements (n0 n1 nz r0 r1 r2 : ℕ) (hr0 : r0 ≤ n0) (hr1 : r1 ≤ n1) (V Vz : ℕ → ℂ) (e : ℕ → ℕ → ℂ) (i j : ℕ)
    (hi : i < r0 * r1 * r2) (hj : j < r0 * r1 * r2) :
    ((offDiagonalEnergies2 (ftPotential n0 n1 nz V Vz) n0 n1 nz e r0 r1 r2).getD i []).getD j 0 =
      ∑ x ∈ range (n0 * n1 * nz),
        (starRingEnd ℂ) (states [.transformed r0 n0, .transformed r1 n1, .explicit r2 (fun j z => (starRingEnd ℂ) (e j z)) (.fundamental nz)] i x) *
          (V x - Vz (x % nz)) *
          states [.transformed r0 n0, .transformed r1 n1, .explicit r2 (fun j z => (starRingEnd ℂ) (e j z)) (.fundamental nz)] j x := by
  have h0 : 0 < n0 := Nat.pos_of_ne_zero fun h => by
    have : r0 = 0 := by omega
    rw [this, zero_mul, zero_mul] at hi; omega
  have h1 : 0 < n1 := Nat.pos_of_ne_zero fun h => by
    have : r1 = 0 := by omega
    rw [this, mul_zero, zero_mul] at hi; omega
  rw [C92_cache _ _ _ _ _ _ _ _ _ _ hi hj, grid_elements n0 n1 nz r0 r1 r2 _ (fun x => V x - Vz (x % nz))]
  refine sum_congr rfl fun z hz => ?_
  rw [ftPotential_eq n0 n1 nz h0 h1 V Vz _ _ (mem_range.1 hz), Complex.conj_conj]
  ring

/-- **C92** (for real states normal to the surface): the entries are the matrix elements of the potential, less the potential
of the normal states, between the product states of the basis. For complex normal states (a Bloch phase normal to the
surface) this is false, see `C92_elements_negation`. -/
theorem C92_elements_partial (n0 n1 nz r0 r1 r2 : ℕ) (hr0 : r0 ≤ n0) (hr1 : r1 ≤ n1) (V Vz : ℕ → ℂ) (e : ℕ → ℕ → ℂ)
    (he : ∀ j < r2, ∀ z < nz, (e j z).im = 0) (i j : ℕ) (hi : i < r0 * r1 * r2) (hj : j < r0 * r1 * r2) :
    ((offDiagonalEnergies2 (ftPotential n0 n1 nz V Vz) n0 n1 nz e r0 r1 r2).getD i []).getD j 0 =
      ∑ x ∈ range (n0 * n1 * nz),
        (starRingEnd ℂ) (states [.transformed r0 n0, .transformed r1 n1, .explicit r2 e (.fundamental nz)] i x) * (V x - Vz (x % nz)) *
          states [.transformed r0 n0, .transformed r1 n1, .explicit r2 e (.fundamental nz)] j x := by
  have h2 : 0 < r2 := Nat.pos_of_ne_zero fun h => by rw [h, mul_zero] at hi; omega
  rw [generator_elements n0 n1 nz r0 r1 r2 hr0 hr1 V Vz e i j hi hj, grid_elements n0 n1 nz r0 r1 r2 _ (fun x => V x - Vz (x % nz)),
    grid_elements n0 n1 nz r0 r1 r2 _ (fun x => V x - Vz (x % nz))]
  refine sum_congr rfl fun z hz => ?_
  rw [Complex.conj_eq_iff_im.2 (he (i % r2) (Nat.mod_lt _ h2) z (mem_range.1 hz)), Complex.conj_eq_iff_im.2 (he (j % r2) (Nat.mod_lt _ h2) z (mem_range.1 hz)),
    Complex.conj_eq_iff_im.2 (he (i % r2) (Nat.mod_lt _ h2) z (mem_range.1 hz))]

example : ∀ j < 2, ∀ z < 2, (((if j = z then 1 else 0 : ℝ) : ℂ)).im = 0 := fun _ _ _ _ => Complex.ofReal_im _

/-- **C92** fails for complex states: for the two lowest free states of a Bloch hamiltonian on three points (the plane waves
with labels `0` and `1`) and a potential at the second point, the entry is the conjugate of the matrix element. -/
theorem C92_elements_negation : ∃ (nz r2 : ℕ) (V : ℕ → ℂ) (e : ℕ → ℕ → ℂ), OrthonormalParts (.explicit r2 e (.fundamental nz)) ∧
    (∀ x, (V x).im = 0) ∧
    ((offDiagonalEnergies2 (ftPotential 1 1 nz V fun _ => 0) 1 1 nz e 1 1 r2).getD 0 []).getD 1 0 ≠
      ∑ x ∈ range (1 * 1 * nz),
        (starRingEnd ℂ) (states [.transformed 1 1, .transformed 1 1, .explicit r2 e (.fundamental nz)] 0 x) * (V x - 0) *
          states [.transformed 1 1, .transformed 1 1, .explicit r2 e (.fundamental nz)] 1 x := by
  refine ⟨3, 2, fun x => if x = 1 then 1 else 0, fun j z => planeWave 3 j z, ⟨trivial, fun j hj j' hj' => ?_⟩, fun x => by beta_reduce; split <;> simp, ?_⟩
  · exact planeWave_inner' (show j < 3 by omega) (show j' < 3 by omega)
  · rw [generator_elements 1 1 3 1 1 2 le_rfl le_rfl _ _ _ 0 1 (by norm_num) (by norm_num),
      grid_elements 1 1 3 1 1 2 _ (fun x => (fun x : ℕ => if x = 1 then (1 : ℂ) else 0) x - (fun _ => (0 : ℂ)) (x % 3)),
      grid_elements 1 1 3 1 1 2 _ (fun x => (fun x : ℕ => if x = 1 then (1 : ℂ) else 0) x - 0)]
    have hf : freq 1 0 = 0 := rfl
    simp only [sum_range_succ, sum_range_zero, Nat.reduceDiv, Nat.reduceMod, hf, sub_zero, zero_mul, phase_zero, zero_add,
      Complex.conj_conj, Nat.cast_one, div_one, one_mul, if_neg (show ¬ (0 : ℕ) = 1 by decide), if_neg (show ¬ (2 : ℕ) = 1 by decide), add_zero]
    rw [if_pos trivial, one_mul, one_mul, mul_comm (planeWave 3 _ _), planeWave_product', planeWave_product']
    intro h
    have h3 : phase 3 (((0 : ℕ) - 1) * (1 : ℕ)) = phase 3 ((1 - (0 : ℕ)) * (1 : ℕ)) := by
      field_simp at h
      exact h
    have h4 : phase 3 2 = 1 := by
      have : (2 : ℤ) = (1 - (0 : ℕ)) * (1 : ℕ) - ((0 : ℕ) - 1) * (1 : ℕ) := by norm_num
      rw [this, phase_sub, ← h3, phase_normSq]
    have := (phase_eq_one_iff (by norm_num) 2).1 h4
    omega

/-! ## C72 -/

theorem freq_bound {r i : ℕ} (hi : i < r) : -(r : ℤ) ≤ 2 * freq r i ∧ 2 * freq r i < r := freq_onGrid hi

/-- **C72** (with a strict guard): if `2 (res - 1) < n`, the Fourier component of a matrix element determines the momentum
transfer: pairs of states with different transfers use different components. The guard of the code also accepts equality,
see `C72_guard_negation`. -/
theorem C72_guard_partial (r n : ℕ) (hg : sizeGuard r n = true) (hne : 2 * ((r : ℤ) - 1) ≠ n) {i j i' j' : ℕ} (hi : i < r) (hj : j < r)
    (hi' : i' < r) (hj' : j' < r) (h : remEuclid (freq r j - freq r i) n = remEuclid (freq r j' - freq r i') n) :
    freq r j - freq r i = freq r j' - freq r i' := by
  have hg' : 2 * ((r : ℤ) - 1) < n := by
    simp only [sizeGuard, decide_eq_true_eq] at hg
    omega
  have hn : (n : ℤ) ≠ 0 := by omega
  unfold remEuclid at h
  have h1 := Int.emod_nonneg (freq r j - freq r i) hn
  have h2 := Int.emod_nonneg (freq r j' - freq r i') hn
  have h3 : (freq r j - freq r i) % n = (freq r j' - freq r i') % n := by omega
  have h4 : (n : ℤ) ∣ (freq r j' - freq r i') - (freq r j - freq r i) := Int.ModEq.dvd h3
  have b1 := freq_bound hi; have b2 := freq_bound hj; have b3 := freq_bound hi'; have b4 := freq_bound hj'
  have h5 := Int.eq_zero_of_abs_lt_dvd h4 (by rw [abs_lt]; omega)
  omega

/-- **C72** fails at the boundary: two states per axis and a potential of two points pass the guard, but the transfers `1`
and `-1` use the same component. -/
theorem C72_guard_negation : ∃ r n i j i' j' : ℕ, sizeGuard r n = true ∧ i < r ∧ j < r ∧ i' < r ∧ j' < r ∧
    remEuclid (freq r j - freq r i) n = remEuclid (freq r j' - freq r i') n ∧ freq r j - freq r i ≠ freq r j' - freq r i' :=
  ⟨2, 2, 0, 1, 1, 0, by decide, by decide, by decide, by decide, by decide, by decide, by decide⟩

example : sizeGuard 3 5 = true ∧ 2 * (((3 : ℕ) : ℤ) - 1) ≠ (5 : ℕ) ∧ sizeGuard 4 5 = false := by decide

end Verif
