import Verif.Model.Wannier
import Verif.Props.C50_Localization

/-!
# C49: changing the number of samples of a wavepacket
-/

set_option autoImplicit false

namespace Verif

open Finset Spec

theorem shape_fT (ns : List ℕ) : (fT ns).shape = ns := by
  unfold fT
  rw [Basis.shape]
  induction ns with
  | nil => rfl
  | cons n ns ih => rw [List.map_cons, Basis.methodsList, List.map_cons, ih]; rfl

/-- Sample `a` of the grid `old` and sample `c` of the grid `new` have the same momentum on every axis, as a fraction of the
Brillouin zone. -/
def SameFraction : List ℕ → List ℕ → List ℕ → List ℕ → Prop
  | [], [], [], [] => True
  | N :: old, a :: as, n :: new, c :: cs => (freq N a : ℚ) / N = (freq n c : ℚ) / n ∧ SameFraction old as new cs
  | _, _, _, _ => False

theorem freq_scale {step n c : ℕ} (hs : 0 < step) (hc : c < n) : freq (step * n) (step * c) = step * freq n c := by
  have h1 := freq_onGrid hc
  have hlt : step * c < step * n := Nat.mul_lt_mul_of_pos_left hc hs
  apply onGrid_unique (freq_onGrid hlt)
  · unfold OnGrid at h1 ⊢
    have hs' : (0 : ℤ) < step := by exact_mod_cast hs
    push_cast
    constructor
    · nlinarith [h1.1]
    · nlinarith [h1.2]
  · rw [freq_emod]
    push_cast
    rw [Int.mul_emod_mul_of_pos _ _ (by exact_mod_cast hs), Int.mul_emod_mul_of_pos _ _ (by exact_mod_cast hs), freq_emod]

theorem sameFraction_iff {N n a c : ℕ} (hn : n ≠ 0) (h0 : N / n ≠ 0) (hN : N = N / n * n) (ha : a < N) (hc : c < n) :
    (freq N a : ℚ) / N = (freq n c : ℚ) / n ↔ a = N / n * c := by
  generalize N / n = step at *
  subst hN
  have hs : 0 < step := Nat.pos_of_ne_zero h0
  have e := freq_scale hs hc
  have q1 : ((step * n : ℕ) : ℚ) ≠ 0 := by exact_mod_cast (Nat.mul_pos hs (Nat.pos_of_ne_zero hn)).ne'
  have q2 : (n : ℚ) ≠ 0 := by exact_mod_cast hn
  have q3 : (step : ℚ) ≠ 0 := by exact_mod_cast h0
  constructor
  · intro h
    rw [div_eq_div_iff q1 q2] at h
    have h2 : (freq (step * n) a : ℚ) = step * freq n c := by
      push_cast at h
      have : (n : ℚ) * (freq (step * n) a : ℚ) = n * (step * freq n c) := by linear_combination h
      exact mul_left_cancel₀ q2 this
    have h3 : freq (step * n) a = step * freq n c := by exact_mod_cast h2
    rw [← e] at h3
    have hlt : step * c < step * n := Nat.mul_lt_mul_of_pos_left hc hs
    rw [← slot_freq ha, h3, slot_freq hlt]
  · intro h
    rw [h, e]
    push_cast
    field_simp

/-- The shape divides the old shape on every axis. -/
def Divides : List ℕ → List ℕ → Prop
  | [], [] => True
  | N :: old, n :: new => (0 < n ∧ 0 < N ∧ n ∣ N) ∧ Divides old new
  | _, _ => False

theorem divides_iff : ∀ old new : List ℕ, Divides old new ↔
    old.length = new.length ∧ ∀ p ∈ old.zip new, p.2 ≠ 0 ∧ p.1 / p.2 ≠ 0 ∧ p.1 = p.1 / p.2 * p.2
  | [], [] => by simp [Divides]
  | [], _ :: _ => by simp [Divides]
  | _ :: _, [] => by simp [Divides]
  | N :: old, n :: new => by
    rw [Divides, divides_iff old new, List.zip_cons_cons, List.forall_mem_cons, List.length_cons, List.length_cons]
    have : (0 < n ∧ 0 < N ∧ n ∣ N) ↔ (n ≠ 0 ∧ N / n ≠ 0 ∧ N = N / n * n) := by
      constructor
      · rintro ⟨h1, h2, h3⟩
        exact ⟨h1.ne', (Nat.div_pos (Nat.le_of_dvd h2 h3) h1).ne', (Nat.div_mul_cancel h3).symm⟩
      · rintro ⟨h1, h2, h3⟩
        refine ⟨Nat.pos_of_ne_zero h1, Nat.pos_of_ne_zero fun e => h2 (by simp [e]), ⟨N / n, ?_⟩⟩
        rw [Nat.mul_comm]; exact h3
    rw [this]
    simp only [Nat.add_right_cancel_iff]
    tauto

theorem sameFraction_eq : ∀ old new a c : List ℕ, Divides old new → InShape old a → InShape new c →
    (SameFraction old a new c ↔ a = List.zipWith3 (fun s0 s1 j => s0 / s1 * j) old new c)
  | [], [], [], [], _, _, _ => by simp [SameFraction, List.zipWith3]
  | N :: old, n :: new, a :: as, c :: cs, h, ha, hc => by
    rw [SameFraction, sameFraction_eq old new as cs h.2 ha.2 hc.2, List.zipWith3, List.cons.injEq]
    obtain ⟨h1, h2, h3⟩ := h.1
    rw [sameFraction_iff h1.ne' (Nat.div_pos (Nat.le_of_dvd h2 h3) h1).ne' (Nat.div_mul_cancel h3).symm ha.1 hc.1]
  | [], _ :: _, _, _, h, _, _ => by simp [Divides] at h
  | _ :: _, [], _, _, h, _, _ => by simp [Divides] at h
  | [], [], _ :: _, _, _, h, _ => by simp [InShape] at h
  | [], [], [], _ :: _, _, _, h => by simp [InShape] at h
  | _ :: _, _ :: _, [], _, _, h, _ => by simp [InShape] at h
  | _ :: _, _ :: _, _ :: _, [], _, _, h => by simp [InShape] at h

theorem zip_inShape : ∀ old new c : List ℕ, Divides old new → InShape new c →
    InShape old (List.zipWith3 (fun s0 s1 j => s0 / s1 * j) old new c)
  | [], [], [], _, _ => trivial
  | N :: old, n :: new, c :: cs, h, hc => by
    obtain ⟨h1, h2, h3⟩ := h.1
    refine ⟨?_, zip_inShape old new cs h.2 hc.2⟩
    have := Nat.div_pos (Nat.le_of_dvd h2 h3) h1
    calc N / n * c < N / n * n := Nat.mul_lt_mul_of_pos_left hc.1 this
      _ = N := Nat.div_mul_cancel h3
  | [], _ :: _, _, h, _ => by simp [Divides] at h
  | _ :: _, [], _, h, _ => by simp [Divides] at h
  | [], [], _ :: _, _, h => by simp [InShape] at h
  | _ :: _, _ :: _, [], _, h => by simp [InShape] at h

/-- **C49.** The wavepacket of the new shape has for every sample the coefficients of the old wavepacket at the same momentum,
and such an old sample always exists and is unique: every coefficient whose momentum exists in the new shape is kept, and the
new shape has no others. What is missing is the label of the samples, see `C49_unfurl_negation`. -/
theorem C49_samples_partial (old new : List ℕ) (h : Divides old new) (b : Basis) (data : ℕ → ℂ) :
    ∃ w', wavepacketToShape ⟨fT old, b, data⟩ new = some w' ∧ w'.basis = b ∧ w'.listBasis.shape = new ∧
      (∀ a c, InShape old a → InShape new c → SameFraction old a new c →
        ∀ k < size b, w'.data (ravel new c * size b + k) = data (ravel old a * size b + k)) ∧
      ∀ c, InShape new c → ∃! a, InShape old a ∧ SameFraction old a new c := by
  have hbn : b.n = size b := (methods_sizes b).1
  refine ⟨_, if_pos ?_, rfl, ?_, fun a c ha hc hs k hk => ?_, fun c hc => ?_⟩
  · rw [shape_fT]; exact (divides_iff old new).1 h
  · show (Basis.tuple (new.map .fundamental)).shape = new
    rw [Basis.shape]
    clear h
    induction new with
    | nil => rfl
    | cons n ns ih => rw [List.map_cons, Basis.methodsList, List.map_cons, ih]; rfl
  · dsimp only
    rw [hbn, shape_fT]
    unfold flatten
    rw [Nat.mul_comm (ravel new c), Nat.mul_add_div (by omega), Nat.mul_add_mod, Nat.div_eq_of_lt hk, Nat.mod_eq_of_lt hk,
      Nat.add_zero]
    beta_reduce
    rw [unravel_ravel new c hc, ← (sameFraction_eq old new a c h ha hc).1 hs]
  · refine ⟨_, ⟨zip_inShape old new c h hc, (sameFraction_eq old new _ c h (zip_inShape old new c h hc) hc).2 rfl⟩, ?_⟩
    rintro a ⟨ha, hs⟩
    exact (sameFraction_eq old new a c h ha hc).1 hs

/-- **C49.** A shape which does not divide the old one is rejected. -/
theorem C49_rejects (old new : List ℕ) (h : ¬Divides old new) (b : Basis) (data : ℕ → ℂ) :
    wavepacketToShape ⟨fT old, b, data⟩ new = none := by
  unfold wavepacketToShape
  rw [shape_fT]
  exact if_neg fun q => h ((divides_iff old new).2 q)

-- six by four samples reduced to three by two; sample `(2, 1)` has the momentum of the old sample `(4, 2)`
example : Divides [6, 4] [3, 2] ∧ InShape [6, 4] [4, 2] ∧ InShape [3, 2] [2, 1] ∧ SameFraction [6, 4] [4, 2] [3, 2] [2, 1] := by
  simp [Divides, InShape, SameFraction, freq]
  norm_num
example : ¬Divides [6, 4] [4, 2] := by simp [Divides]

/-- **C49, negation.** The list basis of the result is not transformed, so that the samples are taken for positions: even for the same
shape the unfurled wavepacket changes. -/
theorem C49_unfurl_negation (same : Basis → Basis → Bool) (hs : Sound same) : ∃ (w w' : StateVectorList) (s s' : StateVector),
    wavepacketToShape w w.listBasis.shape = some w' ∧ unfurlWavepacket same w = some s ∧ unfurlWavepacket same w' = some s' ∧
      s'.basis = s.basis ∧ s'.data 0 ≠ s.data 0 := by
  let data : ℕ → ℂ := fun k => if k = 0 then 1 else 0
  obtain ⟨w', h1, h2, h3, h4, -⟩ := C49_samples_partial [2] [2] ⟨⟨by norm_num, by norm_num, by norm_num⟩, trivial⟩ (fT [1]) data
  obtain ⟨u, k1, k2⟩ := C45_place same hs [(2, 1)] data
  have k3 := k2 [0] [0] [0] ⟨by norm_num, trivial⟩ ⟨by norm_num, trivial⟩ ⟨by norm_num, trivial⟩ ⟨by simp [freq], trivial⟩
  obtain ⟨f, hf, kf⟩ := C10_route same hs (.tuple [.fundamental 2]) (.tuple [.fundamentalTransformed 2]) ⟨trivial, trivial⟩
    ⟨trivial, trivial⟩ ⟨trivial, trivial⟩ ⟨rfl, trivial⟩
  obtain ⟨g, hg, kg⟩ := C10_route same hs (.tuple [.fundamentalTransformed 1]) (.tuple [.fundamentalTransformed 1])
    ⟨trivial, trivial⟩ ⟨trivial, trivial⟩ ⟨trivial, trivial⟩ ⟨rfl, trivial⟩
  have hL : w'.listBasis = .tuple [.fundamental 2] := by
    unfold wavepacketToShape at h1
    simp only [Option.ite_none_right_eq_some, Option.some.injEq] at h1
    rw [← h1.2]; rfl
  have d0 : w'.data 0 = 1 := (h4 [0] [0] ⟨by norm_num, trivial⟩ ⟨by norm_num, trivial⟩ ⟨rfl, trivial⟩ 0 (by
    show 0 < 1 * 1; norm_num)).trans (by simp [data, ravel])
  have d1 : w'.data 1 = 0 := (h4 [1] [1] ⟨by norm_num, trivial⟩ ⟨by norm_num, trivial⟩ ⟨rfl, trivial⟩ 0 (by
    show 0 < 1 * 1; norm_num)).trans (by simp [data, ravel, fT, size, sizes])
  have hb : w'.basis = .tuple [.fundamentalTransformed 1] := h2
  let c : ℕ → ℂ := flatten 1 fun i => g fun k => f (fun l => w'.data (l * 1 + k)) i
  have hu : unfurlWavepacket same w' = some ⟨.tuple [.fundamentalTransformed 2], unfurlMomentum [(2, 1)] c⟩ := by
    unfold unfurlWavepacket convertWavepacketToMomentum convertWavepacket wavepacketAxes
    rw [hL, hb]
    rw [show (Basis.tuple [Basis.fundamental 2]).asTransformedBasis = .tuple [.fundamentalTransformed 2] from rfl,
      show (Basis.tuple [Basis.fundamentalTransformed 1]).asTransformedBasis = .tuple [.fundamentalTransformed 1] from rfl,
      hf, hg]
    rfl
  have e := unfurlMomentum_place [(2, 1)] c [0] [0] [0] ⟨by norm_num, trivial⟩ ⟨by norm_num, trivial⟩ ⟨by norm_num, trivial⟩
    ⟨by simp [freq], trivial⟩
  refine ⟨_, w', _, _, h1, k1, hu, rfl, ?_⟩
  have g0 : c 0 = (Real.sqrt 2 : ℂ)⁻¹ := by
    show g (fun k => f (fun l => w'.data (l * 1 + k)) 0) 0 = _
    rw [kg _ 0 (by simp [size, sizes])]
    simp only [points, pointss, Nat.mul_one, sum_range_one, expand, size, sizes]
    rw [kf _ 0 (by simp [size, sizes])]
    simp [state, states, points, pointss, sizes, size, sum_range_succ, expand, planeWave, d0, d1]
  have r2 : (Real.sqrt 2 : ℂ) * Real.sqrt 2 = 2 := by
    rw [← Complex.ofReal_mul, Real.mul_self_sqrt (by norm_num)]; norm_num
  have r0 : (Real.sqrt 2 : ℂ) ≠ 0 := fun h => by rw [h] at r2; norm_num at r2
  have k4 : u 0 = (Real.sqrt 2 : ℂ)⁻¹ := k3.trans (by simp [data, ravel, sampleShape, stateShape])
  have e' : unfurlMomentum [(2, 1)] c 0 = (Real.sqrt 2 : ℂ)⁻¹ / Real.sqrt 2 :=
    e.trans (by simp [block, ravel, sampleShape, stateShape, g0])
  show unfurlMomentum [(2, 1)] c 0 ≠ u 0
  rw [k4, e']
  intro h
  have h5 : (Real.sqrt 2 : ℂ) = 1 := by field_simp at h; exact h.symm
  rw [h5] at r2
  norm_num at r2

end Verif
