import Verif.Model.Kernel
import Verif.Props.C29_Operators
import Verif.Props.C03_Index
import Verif.Props.C38_Hops

/-!
C55: conversions between full, diagonal and isotropic kernels.
-/

set_option autoImplicit false

namespace Verif

open Finset Spec

theorem flatten3_mul {q r : ℕ} (f : ℕ → ℕ → ℕ → ℂ) (j : ℕ) {k l : ℕ} (hk : k < q) (hl : l < r) :
    flatten3 q r f ((j * q + k) * r + l) = f j k l := by
  have := flatten3_entry f j hk hl
  rw [← this]
  congr 1
  ring

theorem flatten4_entry {p q r : ℕ} (f : ℕ → ℕ → ℕ → ℕ → ℂ) (i : ℕ) {j k l : ℕ} (hj : j < p) (hk : k < q) (hl : l < r) :
    flatten4 p q r f (((i * p + j) * q + k) * r + l) = f i j k l := by
  unfold flatten4
  have h : (j * q + k) * r + l < p * q * r := by
    have h1 : j * q + k + 1 ≤ p * q := by nlinarith
    nlinarith
  have e : ((i * p + j) * q + k) * r + l = i * (p * q * r) + ((j * q + k) * r + l) := by ring
  rw [e, flatten_entry _ i h, flatten3_mul (f i) j hk hl]

/-! ## Diagonal and full kernels -/

/-- The full kernel of a diagonal kernel is zero except where both operators are diagonal. -/
theorem C55_full_entries (n m : ℕ) (d : ℕ → ℂ) (i i' j j' : ℕ) (hi' : i' < n) (hj : j < m) (hj' : j' < m) :
    fullFromDiagonal n m d (((i * n + i') * m + j) * m + j') = if i = i' ∧ j = j' then d (i * m + j) else 0 := by
  rw [fullFromDiagonal, flatten4_entry _ i hi' hj hj']
  refine if_congr ⟨fun h => ?_, fun h => by rw [h.1, h.2]⟩ rfl rfl
  have h1 : (i * m + j) / m = i := by
    rw [mul_comm, Nat.mul_add_div (by omega), Nat.div_eq_of_lt hj, add_zero]
  have h2 : (i' * m + j') / m = i' := by
    rw [mul_comm, Nat.mul_add_div (by omega), Nat.div_eq_of_lt hj', add_zero]
  have h3 : i = i' := by rw [← h1, h, h2]
  subst h3
  exact ⟨rfl, by omega⟩

/-- Diagonal to full and back is the identity. -/
theorem C55_full_roundtrip (n m : ℕ) (d : ℕ → ℂ) (k : ℕ) (hk : k < n * m) :
    diagonalFromFull n m (fullFromDiagonal n m d) k = d k := by
  rcases Nat.eq_zero_or_pos m with rfl | hm
  · omega
  · have e : k = (k / m) * m + k % m := (Nat.div_add_mod' k m).symm
    have h1 : k / m < n := Nat.div_lt_of_lt_mul (by rw [mul_comm]; exact hk)
    have h2 : k % m < m := Nat.mod_lt _ hm
    rw [e]
    unfold diagonalFromFull
    rw [flatten_entry _ _ h2, C55_full_entries n m d _ _ _ _ h1 h2 h2, if_pos ⟨rfl, rfl⟩]

/-- Full to diagonal and back is the identity for kernels which vanish off the diagonals. -/
theorem C55_diagonal_roundtrip (n m : ℕ) (K : ℕ → ℂ)
    (hK : ∀ i < n, ∀ i' < n, ∀ j < m, ∀ j' < m, ¬ (i = i' ∧ j = j') → K (((i * n + i') * m + j) * m + j') = 0)
    (i i' j j' : ℕ) (hi : i < n) (hi' : i' < n) (hj : j < m) (hj' : j' < m) :
    fullFromDiagonal n m (diagonalFromFull n m K) (((i * n + i') * m + j) * m + j') = K (((i * n + i') * m + j) * m + j') := by
  rw [C55_full_entries n m _ _ _ _ _ hi' hj hj']
  by_cases h : i = i' ∧ j = j'
  · rw [if_pos h, diagonalFromFull, flatten_entry _ _ hj, h.1, h.2]
  · rw [if_neg h, hK i hi i' hi' j hj j' hj' h]

/-- A case with entries off the diagonals which are zero: the full kernel of `1, 2, 3, 4`. -/
example : fullFromDiagonal 2 2 (fun k => k + 1) (((1 * 2 + 1) * 2 + 0) * 2 + 0) = 3 ∧
    fullFromDiagonal 2 2 (fun k => k + 1) (((1 * 2 + 0) * 2 + 0) * 2 + 0) = 0 := by
  rw [C55_full_entries 2 2 _ 1 1 0 0 (by norm_num) (by norm_num) (by norm_num),
    C55_full_entries 2 2 _ 1 0 0 0 (by norm_num) (by norm_num) (by norm_num)]
  constructor <;> norm_num

/-! ## Isotropic kernels on a flat grid -/

/-- The diagonal kernel of an isotropic one depends only on the displacement modulo the number of points. -/
theorem C55_isotropic_entries (n : ℕ) (β : ℕ → ℂ) (i j r : ℕ) (hj : j < n) (hr : r < n) (h : (i : ℤ) - j ≡ r [ZMOD n]) :
    diagonalFromIsotropic n β (i * n + j) = β r := by
  rw [diagonalFromIsotropic, flatten_entry _ _ hj]
  congr 1
  have h1 : ((i : ℤ) - j) % n = r := by
    rw [h.eq, Int.emod_eq_of_lt (by positivity) (by exact_mod_cast hr)]
  rw [h1, Int.toNat_natCast]

/-- Read back without the assertion, the isotropic kernel comes out reflected: entry `j` is the entry `-j` of the original. -/
theorem C55_isotropic_reflected (n : ℕ) (β : ℕ → ℂ) :
    ∃ out, isotropicFromDiagonal n (diagonalFromIsotropic n β) false = some out ∧
      ∀ j < n, out j = β ((-(j : ℤ)) % n).toNat := by
  refine ⟨_, rfl, fun j hj => ?_⟩
  have := C55_isotropic_entries n β 0 j ((-(j : ℤ)) % n).toNat hj
    (by have := Int.emod_lt_of_pos (-(j : ℤ)) (show (0 : ℤ) < n by omega)
        have := Int.emod_nonneg (-(j : ℤ)) (show (n : ℤ) ≠ 0 by omega)
        omega)
    (by have := Int.emod_nonneg (-(j : ℤ)) (show (n : ℤ) ≠ 0 by omega)
        rw [Int.toNat_of_nonneg this]
        simpa using (Int.mod_modEq (-(j : ℤ)) n).symm)
  rwa [zero_mul, zero_add] at this

/-- With the assertion the read back succeeds exactly when the kernel is symmetric, and is then the identity. The statement
without the condition, for all kernels, is false: see `C55_isotropic_negation`. -/
theorem C55_isotropic_roundtrip_partial (n : ℕ) (hn : 0 < n) (β : ℕ → ℂ) :
    ((∀ j < n, β ((-(j : ℤ)) % n).toNat = β j) →
      ∃ out, isotropicFromDiagonal n (diagonalFromIsotropic n β) true = some out ∧ ∀ j < n, out j = β j) ∧
    ((∃ j < n, β ((-(j : ℤ)) % n).toNat ≠ β j) → isotropicFromDiagonal n (diagonalFromIsotropic n β) true = none) := by
  obtain ⟨out, hout, hval⟩ := C55_isotropic_reflected n β
  have he : out = diagonalFromIsotropic n β := by
    unfold isotropicFromDiagonal at hout
    simpa using hout.symm
  have hbound : ∀ z : ℤ, (z % n).toNat < n := fun z => by
    have := Int.emod_lt_of_pos z (show (0 : ℤ) < n by omega)
    have := Int.emod_nonneg z (show (n : ℤ) ≠ 0 by omega)
    omega
  have hcast : ∀ z : ℤ, ((z % n).toNat : ℤ) = z % n := fun z =>
    Int.toNat_of_nonneg (Int.emod_nonneg z (show (n : ℤ) ≠ 0 by omega))
  have hent : ∀ i j, j < n → diagonalFromIsotropic n β (i * n + j) = β (((i : ℤ) - j) % n).toNat := fun i j hj => by
    rw [diagonalFromIsotropic, flatten_entry _ _ hj]
  have hent' : ∀ i j, j < n → diagonalFromIsotropic n (fun k => diagonalFromIsotropic n β k) (i * n + j) =
      β ((-(((i : ℤ) - j) % n)) % n).toNat := fun i j hj => by
    rw [diagonalFromIsotropic, flatten_entry _ _ hj, ← he, hval _ (hbound _), hcast]
  constructor
  · intro hs
    refine ⟨fun j => diagonalFromIsotropic n β j, ?_, fun j hj => ?_⟩
    · unfold isotropicFromDiagonal
      rw [if_neg]
      rintro ⟨-, h⟩
      apply h
      intro k hk
      have e : k = (k / n) * n + k % n := (Nat.div_add_mod' k n).symm
      have h2 : k % n < n := Nat.mod_lt _ hn
      rw [e, hent' _ _ h2, hent _ _ h2]
      have := hs _ (hbound (((k / n : ℕ) : ℤ) - (k % n : ℕ)))
      rwa [hcast] at this
    · rw [← he]
      exact (hval j hj).trans (hs j hj)
  · rintro ⟨j, hj, hne⟩
    unfold isotropicFromDiagonal
    rw [if_pos]
    refine ⟨rfl, fun h => hne ?_⟩
    have := h (j * n + 0) (by nlinarith)
    rw [hent' _ _ hn, hent _ _ hn] at this
    have e1 : ((j : ℤ) - (0 : ℕ)) % n = j := by
      rw [Nat.cast_zero, sub_zero, Int.emod_eq_of_lt (by positivity) (by exact_mod_cast hj)]
    rw [e1] at this
    rw [this, Int.toNat_natCast]

/-- C55 is false for the code: the kernel `0, 1, 0` on three points cannot be read back, and without the assertion it is read
back as `0, 0, 1`. -/
theorem C55_isotropic_negation : ∃ (n : ℕ) (β : ℕ → ℂ),
    isotropicFromDiagonal n (diagonalFromIsotropic n β) true = none ∧
    ∃ out, isotropicFromDiagonal n (diagonalFromIsotropic n β) false = some out ∧ out 1 = 0 ∧ β 1 = 1 := by
  refine ⟨3, fun j => if j = 1 then 1 else 0, ?_, ?_⟩
  · exact (C55_isotropic_roundtrip_partial 3 (by norm_num) _).2 ⟨1, by norm_num, by simp⟩
  · obtain ⟨out, h, hv⟩ := C55_isotropic_reflected 3 fun j => if j = 1 then 1 else 0
    exact ⟨out, h, by rw [hv 1 (by norm_num)]; simp, by norm_num⟩

/-- A symmetric kernel that is not constant. -/
example : ∀ j : ℕ, j < 3 → (fun k : ℕ => if k = 0 then (2 : ℂ) else 1) ((-(j : ℤ)) % (3 : ℕ)).toNat = if j = 0 then (2 : ℂ) else 1 := by
  intro j hj
  obtain rfl | rfl | rfl : j = 0 ∨ j = 1 ∨ j = 2 := by omega
  all_goals simp
  all_goals decide

/-! ## Isotropic kernels on a grid with several axes -/

/-- The displacement of each axis, wrapped. -/
def wrappedDisplacement (shape i j : List ℕ) : List ℕ :=
  List.zipWith3 (fun n a b : ℕ => (((a : ℤ) - b) % n).toNat) shape i j

theorem wrappedDisplacement_inShape : ∀ (shape i j : List ℕ), InShape shape i → InShape shape j →
    InShape shape (wrappedDisplacement shape i j)
  | [], [], [], _, _ => trivial
  | n :: ns, a :: as, b :: bs, hi, hj => by
    refine ⟨?_, wrappedDisplacement_inShape ns as bs hi.2 hj.2⟩
    have hn : 0 < n := lt_of_le_of_lt (Nat.zero_le _) hi.1
    have := Int.emod_lt_of_pos ((a : ℤ) - b) (show (0 : ℤ) < n by omega)
    have := Int.emod_nonneg ((a : ℤ) - b) (show (n : ℤ) ≠ 0 by omega)
    show (((a : ℤ) - b) % n).toNat < n
    omega

theorem wrappedDisplacement_zero : ∀ (shape i : List ℕ), InShape shape i →
    wrappedDisplacement shape i (shape.map fun _ => 0) = i
  | [], [], _ => rfl
  | n :: ns, a :: as, hi => by
    show _ :: wrappedDisplacement ns as (ns.map fun _ => 0) = _
    rw [wrappedDisplacement_zero ns as hi.2]
    congr 1
    show (((a : ℤ) - (0 : ℕ)) % n).toNat = a
    rw [Nat.cast_zero, sub_zero, Int.emod_eq_of_lt (by positivity) (by exact_mod_cast hi.1), Int.toNat_natCast]

theorem unravel_zero : ∀ shape : List ℕ, unravel shape 0 = shape.map fun _ => 0
  | [] => rfl
  | n :: ns => by
    show _ :: unravel ns 0 = _
    rw [unravel_zero ns]
    simp

/-- The diagonal kernel of an isotropic kernel on a grid depends only on the displacements of the axes, each modulo the number of
points of the axis. -/
theorem C55_stacked_entries (shape : List ℕ) (β : ℕ → ℂ) (i j r : List ℕ) (hi : InShape shape i) (hj : InShape shape j)
    (hr : InShape shape r)
    (h : ∀ a < shape.length, ((i.getD a 0 : ℤ) - j.getD a 0) ≡ r.getD a 0 [ZMOD shape.getD a 0]) :
    diagonalFromIsotropicStacked shape β (ravel shape i * shape.prod + ravel shape j) = β (ravel shape r) := by
  rw [diagonalFromIsotropicStacked, flatten_entry _ _ (ravel_lt shape j hj), unravel_ravel shape i hi, unravel_ravel shape j hj]
  congr 2
  clear β
  induction shape generalizing i j r with
  | nil => 
    match i, j, r, hi, hj, hr with
    | [], [], [], _, _, _ => rfl
  | cons n ns ih =>
    match i, j, r, hi, hj, hr, h with
    | a :: as, b :: bs, c :: cs, hi, hj, hr, h =>
      show _ :: _ = _
      rw [ih as bs cs hi.2 hj.2 hr.2 fun q hq => by simpa using h (q + 1) (by simpa using hq)]
      congr 1
      have h0 := h 0 (by simp)
      simp only [List.getD_cons_zero] at h0
      show (((a : ℤ) - b) % n).toNat = c
      rw [h0.eq, Int.emod_eq_of_lt (by positivity) (by exact_mod_cast hr.1), Int.toNat_natCast]

/-- Isotropic to diagonal and back, axis by axis, is the identity for every kernel. -/
theorem C55_stacked_roundtrip (shape : List ℕ) (β : ℕ → ℂ) (check : Bool) :
    ∃ out, isotropicFromDiagonalStacked shape (diagonalFromIsotropicStacked shape β) check = some out ∧
      ∀ k < shape.prod, out k = β k := by
  have hval : ∀ k < shape.prod, diagonalFromIsotropicStacked shape β (k * shape.prod) = β k := fun k hk => by
    have h0 : 0 < shape.prod := by omega
    have := flatten_entry (fun i j => β (ravel shape (wrappedDisplacement shape (unravel shape i) (unravel shape j)))) k h0
    rw [add_zero] at this
    refine Eq.trans this ?_
    rw [unravel_zero, wrappedDisplacement_zero _ _ (unravel_inShape shape k hk), ravel_unravel shape k hk]
  refine ⟨fun k => diagonalFromIsotropicStacked shape β (k * shape.prod), ?_, hval⟩
  unfold isotropicFromDiagonalStacked
  rw [if_neg]
  rintro ⟨-, h⟩
  apply h
  intro k hk
  have h0 : 0 < shape.prod := by
    rcases Nat.eq_zero_or_pos shape.prod with e | e
    · rw [e] at hk; omega
    · exact e
  have e : k = (k / shape.prod) * shape.prod + k % shape.prod := (Nat.div_add_mod' k _).symm
  have h1 : k / shape.prod < shape.prod := Nat.div_lt_of_lt_mul hk
  have h2 : k % shape.prod < shape.prod := Nat.mod_lt _ h0
  rw [e]
  have k1 := fun γ : ℕ → ℂ =>
    flatten_entry (fun i j => γ (ravel shape (wrappedDisplacement shape (unravel shape i) (unravel shape j)))) (k / shape.prod) h2
  refine (k1 fun k => diagonalFromIsotropicStacked shape β (k * shape.prod)).trans (Eq.trans ?_ (k1 β).symm)
  exact hval _ (ravel_lt _ _ (wrappedDisplacement_inShape _ _ _ (unravel_inShape _ _ h1) (unravel_inShape _ _ h2)))

/-- On a grid of two axes the flat displacement is not the displacement of the axes: the points `(0, 1)` and `(1, 0)`. -/
example : diagonalFromIsotropicStacked [2, 2] (fun k => k) (1 * 4 + 2) = 3 ∧ diagonalFromIsotropic 4 (fun k => k) (1 * 4 + 2) = 3
    ∧ diagonalFromIsotropicStacked [2, 2] (fun k => k) (0 * 4 + 1) = 1 ∧ diagonalFromIsotropic 4 (fun k => k) (0 * 4 + 1) = 3 := by
  norm_num [diagonalFromIsotropicStacked, diagonalFromIsotropic, flatten, unravel, ravel, List.zipWith3]
  simp

end Verif
