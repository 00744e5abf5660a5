import Verif.Model.BandEnergies
import Verif.Props.C104_Position
import Verif.Props.C48_Bloch
import Mathlib.Analysis.SpecialFunctions.Trigonometric.Basic
import Mathlib.Analysis.SpecialFunctions.Trigonometric.Sinc
import Mathlib.Analysis.Real.Pi.Bounds

/-!
C135: effective masses of bands.
-/

set_option autoImplicit false

namespace Verif

open Finset Spec Filter Topology Matrix

/-! ## Sums of cosines -/

theorem sum_mul_cos (θ : ℝ) (M : ℕ) : (2 - 2 * Real.cos θ) * ∑ j ∈ range (M + 1), (j : ℝ) * Real.cos (j * θ) =
    (M + 1) * Real.cos (M * θ) - M * Real.cos ((M + 1) * θ) - 1 := by
  induction M with
  | zero => simp
  | succ M ih =>
    rw [sum_range_succ, mul_add, ih]
    have h : 2 * Real.cos θ * Real.cos ((M + 1) * θ) = Real.cos (M * θ) + Real.cos ((M + 2) * θ) := by
      rw [show ((M : ℝ) * θ) = (M + 1) * θ - θ by ring, show ((M : ℝ) + 2) * θ = (M + 1) * θ + θ by ring, Real.cos_sub, Real.cos_add]
      ring
    push_cast
    rw [show ((M : ℝ) + 1 + 1) = M + 2 by ring]
    linear_combination (-(M + 1 : ℝ)) * h

theorem sum_sq_cos (θ : ℝ) (M : ℕ) : (2 - 2 * Real.cos θ) * ∑ j ∈ range (M + 1), (j : ℝ) ^ 2 * Real.cos (j * θ) =
    (M + 1) ^ 2 * Real.cos (M * θ) - M ^ 2 * Real.cos ((M + 1) * θ) - (2 * ∑ j ∈ range (M + 1), Real.cos (j * θ) - 1) := by
  induction M with
  | zero => simp; norm_num
  | succ M ih =>
    rw [sum_range_succ, mul_add, ih, sum_range_succ (fun j : ℕ => Real.cos (j * θ)) (M + 1)]
    have h : 2 * Real.cos θ * Real.cos ((M + 1) * θ) = Real.cos (M * θ) + Real.cos ((M + 2) * θ) := by
      rw [show ((M : ℝ) * θ) = (M + 1) * θ - θ by ring, show ((M : ℝ) + 2) * θ = (M + 1) * θ + θ by ring, Real.cos_sub, Real.cos_add]
      ring
    push_cast
    rw [show ((M : ℝ) + 1 + 1) = M + 2 by ring]
    linear_combination (-(M + 1 : ℝ) ^ 2) * h

theorem phase_add_conj (n : ℕ) (z : ℤ) : phase n z + phase n (-z) = (2 * Real.cos (z * (2 * Real.pi / n)) : ℝ) := by
  unfold phase
  push_cast
  rw [Complex.two_cos]
  congr 2 <;> ring

/-- Sums of even functions of the centred labels on an odd grid. -/
theorem sum_even_phase (M : ℕ) (g : ℤ → ℝ) (hg : ∀ z, g (-z) = g z) :
    ∑ j ∈ range (2 * M + 1), (g (freq (2 * M + 1) j) : ℂ) * phase (2 * M + 1) j =
      ((2 * ∑ j ∈ range (M + 1), g j * Real.cos (j * (2 * Real.pi / (2 * M + 1 : ℕ))) - g 0 : ℝ) : ℂ) := by
  rw [show 2 * M + 1 = (M + 1) + M by ring, sum_range_add, ← sum_range_reflect (fun x => _) M, sum_range_succ' _ M,
    sum_range_succ' _ M]
  have hN : 0 < M + 1 + M := by omega
  have h0 : (g (freq (M + 1 + M) 0) : ℂ) * phase (M + 1 + M) (0 : ℕ) = g 0 := by
    rw [freq, if_pos (by omega)]
    simp [phase]
  rw [h0]
  have hpair : ∀ j ∈ range M, (g (freq (M + 1 + M) (j + 1)) : ℂ) * phase (M + 1 + M) ((j + 1 : ℕ) : ℤ) +
      (g (freq (M + 1 + M) (M + 1 + (M - 1 - j))) : ℂ) * phase (M + 1 + M) ((M + 1 + (M - 1 - j) : ℕ) : ℤ) =
      ((2 * (g ((j + 1 : ℕ) : ℤ) * Real.cos ((j + 1 : ℕ) * (2 * Real.pi / (M + 1 + M : ℕ)))) : ℝ) : ℂ) := by
    intro j hj
    have hj' := mem_range.1 hj
    have e1 : freq (M + 1 + M) (j + 1) = ((j + 1 : ℕ) : ℤ) := if_pos (by omega)
    have e2 : freq (M + 1 + M) (M + 1 + (M - 1 - j)) = -((j + 1 : ℕ) : ℤ) := by
      rw [freq, if_neg (by omega)]; omega
    have e3 : phase (M + 1 + M) ((M + 1 + (M - 1 - j) : ℕ) : ℤ) = phase (M + 1 + M) (-((j + 1 : ℕ) : ℤ)) :=
      phase_congr hN ⟨1, by omega⟩
    rw [e1, e2, e3, hg, ← mul_add, phase_add_conj]
    push_cast
    ring
  have hs := sum_congr rfl hpair
  rw [sum_add_distrib] at hs
  have h0' : g ((0 : ℕ) : ℤ) * Real.cos ((0 : ℕ) * (2 * Real.pi / (M + 1 + M : ℕ))) = g 0 := by simp
  rw [h0']
  calc _ = (∑ j ∈ range M, (g (freq (M + 1 + M) (j + 1)) : ℂ) * phase (M + 1 + M) ((j + 1 : ℕ) : ℤ) +
        ∑ j ∈ range M, (g (freq (M + 1 + M) (M + 1 + (M - 1 - j))) : ℂ) * phase (M + 1 + M) ((M + 1 + (M - 1 - j) : ℕ) : ℤ)) + g 0 := by
        ring
    _ = _ := by
        rw [hs, ← Complex.ofReal_sum, ← mul_sum]
        push_cast
        ring

section

variable (M : ℕ)

theorem cos_half : Real.cos (M * (2 * Real.pi / (2 * M + 1 : ℕ))) = -Real.cos (Real.pi / (2 * M + 1 : ℕ)) ∧
    Real.cos ((M + 1) * (2 * Real.pi / (2 * M + 1 : ℕ))) = -Real.cos (Real.pi / (2 * M + 1 : ℕ)) := by
  have hN : ((2 * M + 1 : ℕ) : ℝ) ≠ 0 := by positivity
  have hN' : (2 * (M : ℝ) + 1) ≠ 0 := by positivity
  constructor
  · rw [← Real.cos_pi_sub]
    congr 1
    push_cast
    field_simp
    ring
  · rw [← Real.cos_add_pi]
    congr 1
    push_cast
    field_simp
    ring

theorem one_sub_cos : 2 - 2 * Real.cos (2 * Real.pi / (2 * M + 1 : ℕ)) = 4 * Real.sin (Real.pi / (2 * M + 1 : ℕ)) ^ 2 := by
  rw [show 2 * Real.pi / ((2 * M + 1 : ℕ) : ℝ) = 2 * (Real.pi / (2 * M + 1 : ℕ)) by ring, Real.cos_two_mul, Real.cos_sq']
  ring

/-- Sums over all the labels: of the constant, of the modulus, of the square. -/
theorem sum_labels (hM : 0 < M) (g : ℤ → ℝ) (a b c : ℝ) (hg : ∀ z, g z = a + b * |(z : ℝ)| + c * (z : ℝ) ^ 2) :
    4 * Real.sin (Real.pi / (2 * M + 1 : ℕ)) ^ 2 * ∑ j ∈ range (2 * M + 1), (g (freq (2 * M + 1) j) : ℂ) * phase (2 * M + 1) j =
      ((-2 * (b * (1 + Real.cos (Real.pi / (2 * M + 1 : ℕ))) + c * (2 * M + 1) * Real.cos (Real.pi / (2 * M + 1 : ℕ))) : ℝ) : ℂ) := by
  rw [sum_even_phase M g (fun z => by rw [hg, hg]; push_cast; rw [abs_neg]; ring)]
  set θ := 2 * Real.pi / ((2 * M + 1 : ℕ) : ℝ) with hθ
  have h0 : 2 * ∑ j ∈ range (M + 1), Real.cos (j * θ) - 1 = 0 := by
    have h1 := sum_even_phase M (fun _ => 1) (fun _ => rfl)
    have h2 := sum_phase (n := 2 * M + 1) (by omega) 1
    rw [if_neg (by
      intro hd
      have := Int.le_of_dvd (by norm_num) hd
      omega)] at h2
    simp only [one_mul] at h2
    simp only [Complex.ofReal_one, one_mul, h2] at h1
    exact_mod_cast h1.symm
  have h1 := sum_mul_cos θ M
  have h2 := sum_sq_cos θ M
  rw [h0] at h2
  obtain ⟨c1, c2⟩ := cos_half M
  rw [← hθ] at c1 c2
  rw [c1, c2] at h1 h2
  have h3 := one_sub_cos M
  rw [← hθ] at h3
  rw [h3] at h1 h2
  have hsum : ∑ j ∈ range (M + 1), g j * Real.cos (j * θ) = a * ∑ j ∈ range (M + 1), Real.cos (j * θ) +
      b * ∑ j ∈ range (M + 1), (j : ℝ) * Real.cos (j * θ) + c * ∑ j ∈ range (M + 1), (j : ℝ) ^ 2 * Real.cos (j * θ) := by
    rw [mul_sum, mul_sum, mul_sum, ← sum_add_distrib, ← sum_add_distrib]
    refine sum_congr rfl fun j _ => ?_
    rw [hg]
    push_cast
    rw [abs_of_nonneg (by positivity : (0 : ℝ) ≤ j)]
    ring
  have hg0 : g 0 = a := by rw [hg]; simp
  rw [hsum, hg0]
  have key : 4 * Real.sin (Real.pi / (2 * M + 1 : ℕ)) ^ 2 * (2 * (a * ∑ j ∈ range (M + 1), Real.cos (j * θ) +
      b * ∑ j ∈ range (M + 1), (j : ℝ) * Real.cos (j * θ) + c * ∑ j ∈ range (M + 1), (j : ℝ) ^ 2 * Real.cos (j * θ)) - a) =
      -2 * (b * (1 + Real.cos (Real.pi / (2 * M + 1 : ℕ))) + c * (2 * M + 1) * Real.cos (Real.pi / (2 * M + 1 : ℕ))) := by
    linear_combination 2 * b * h1 + 2 * c * h2 + 4 * Real.sin (Real.pi / (2 * M + 1 : ℕ)) ^ 2 * a * h0
  exact_mod_cast key

end

/-! ## The lowest component -/

theorem states_fT_zero : ∀ (ns : List ℕ) (j : ℕ), states (ns.map .fundamentalTransformed) j 0 = 1 / (Real.sqrt ns.prod : ℂ)
  | [], j => by simp [states]
  | n :: ns, j => by
    rw [List.map_cons, states, Nat.zero_div, Nat.zero_mod, states_fT_zero ns, List.prod_cons, Nat.cast_mul, Real.sqrt_mul (by positivity)]
    simp only [state, planeWave]
    push_cast
    simp [mul_comm]

theorem inShape_of_getD : ∀ (ns is : List ℕ), is.length = ns.length → (∀ i < ns.length, is.getD i 0 < ns.getD i 0) → InShape ns is
  | [], [], _, _ => trivial
  | [], _ :: _, h, _ => by simp at h
  | _ :: _, [], h, _ => by simp at h
  | n :: ns, i :: is, h, hi =>
    ⟨by simpa using hi 0 (by simp), inShape_of_getD ns is (by simpa using h) fun k hk => by simpa using hi (k + 1) (by simpa using hk)⟩

theorem inShape_unit (ns : List ℕ) (axis : ℕ) (hpos : 0 ∉ ns) (h2 : 2 ≤ ns.getD axis 0) :
    InShape ns ((List.range ns.length).map fun i => if i = axis then 1 else 0) := by
  refine inShape_of_getD ns _ (by simp) fun i hi => ?_
  have e : ((List.range ns.length).map fun i => if i = axis then 1 else 0).getD i 0 = if i = axis then 1 else 0 := by
    simp [List.getD_eq_getElem?_getD, List.getElem?_map, List.getElem?_range hi]
  rw [e]
  split_ifs with h
  · rw [h]; omega
  · refine Nat.pos_of_ne_zero fun h0 => hpos ?_
    rw [← h0, List.getD_eq_getElem?_getD, List.getElem?_eq_getElem hi]
    exact List.getElem_mem hi

/-- The component of the energies of the samples of momentum one point along an axis. -/
theorem lowestComponent_fT (same : Basis → Basis → Bool) (hs : Sound same) (ns : List ℕ) (hpos : 0 ∉ ns) (axis : ℕ) (h2 : 2 ≤ ns.getD axis 0)
    (eigenvalue : ℕ → ℂ) (band : ℕ) :
    lowestComponent same (fT ns) eigenvalue axis band = some (expand (fT ns) (fun j => eigenvalue (band * ns.prod + j))
      (ravel ns ((List.range ns.length).map fun i => if i = axis then 1 else 0))) := by
  have hsh : (fT ns).fundamentalShape = ns := fundamentalShape_fT ns
  have hn : (fT ns).n = ns.prod := by rw [Basis.n_eq, (fT_facts ns).1]
  obtain ⟨f, hf, kf⟩ := convert_position same hs (fT ns) (valids_fT ns) (orthonormalPartss_fT ns) ns (by
    have := compatible_symm _ _ (compatible_asPosition' (fT ns))
    rwa [Basis.asPositionBasis, hsh] at this)
  have hin := inShape_unit ns axis hpos h2
  unfold lowestComponent convertBandEnergies
  rw [Basis.asPositionBasis, hsh, hf, hn]
  dsimp only
  rw [Option.map_some, Option.bind_some, if_neg (by
    rintro (h | h)
    · omega
    · exact hpos h)]
  rw [kf _ _ (ravel_lt ns _ hin)]

namespace Spec

/-- The wave number of band `b` of a free particle in cells of length `L`, for `N` samples of the zone, at the sample with the label `k`: the one
in the `b`-th zone, `b π / L ≤ q ≤ (b + 1) π / L`, which differs from `2 π k / (N L)` or its negative by a multiple of `2 π / L`. -/
noncomputable def freeWave (L : ℝ) (N b : ℕ) (k : ℤ) : ℝ :=
  if b % 2 = 0 then b * Real.pi / L + 2 * Real.pi * |(k : ℝ)| / (N * L) else (b + 1) * Real.pi / L - 2 * Real.pi * |(k : ℝ)| / (N * L)

end Spec

/-- The specification of the wave numbers. -/
theorem freeWave_spec (L : ℝ) (hL : 0 < L) (N b : ℕ) (hN : 0 < N) (k : ℤ) (hk : 2 * |k| ≤ N) :
    b * Real.pi / L ≤ freeWave L N b k ∧ freeWave L N b k ≤ (b + 1) * Real.pi / L ∧
    ∃ G s : ℤ, (s = 1 ∨ s = -1) ∧ freeWave L N b k = s * (2 * Real.pi * k / (N * L)) + G * (2 * Real.pi / L) := by
  have hN' : (0 : ℝ) < N := by exact_mod_cast hN
  have hk' : 2 * |(k : ℝ)| ≤ N := by exact_mod_cast hk
  have h0 : 0 ≤ 2 * Real.pi * |(k : ℝ)| / (N * L) := by positivity
  have h1 : 2 * Real.pi * |(k : ℝ)| / (N * L) ≤ Real.pi / L := by
    rw [div_le_div_iff₀ (by positivity) hL]
    have := mul_le_mul_of_nonneg_left hk' (by positivity : 0 ≤ Real.pi * L)
    nlinarith
  have e : ((b : ℝ) + 1) * Real.pi / L = b * Real.pi / L + Real.pi / L := by ring
  have hsgn : ∃ s : ℤ, (s = 1 ∨ s = -1) ∧ |(k : ℝ)| = s * k := by
    rcases le_total 0 (k : ℝ) with h | h
    · exact ⟨1, Or.inl rfl, by rw [abs_of_nonneg h]; push_cast; ring⟩
    · exact ⟨-1, Or.inr rfl, by rw [abs_of_nonpos h]; push_cast; ring⟩
  obtain ⟨s, hs, ha⟩ := hsgn
  unfold freeWave
  split_ifs with hb
  · refine ⟨by linarith, by linarith, (b / 2 : ℕ), s, hs, ?_⟩
    rw [ha]
    have : (b : ℝ) = 2 * (b / 2 : ℕ) := by exact_mod_cast (by omega : b = 2 * (b / 2))
    rw [this, show (((b / 2 : ℕ) : ℤ) : ℝ) = ((b / 2 : ℕ) : ℝ) by norm_cast]
    generalize ((b / 2 : ℕ) : ℝ) = c
    have : ((2 * c : ℝ)) = 2 * c := rfl
    field_simp
    ring
  · refine ⟨by linarith, by linarith, ((b + 1) / 2 : ℕ), -s, by rcases hs with h | h <;> simp [h], ?_⟩
    rw [ha]
    have : (b : ℝ) + 1 = 2 * ((b + 1) / 2 : ℕ) := by exact_mod_cast (by omega : b + 1 = 2 * ((b + 1) / 2))
    rw [this, show ((((b + 1) / 2 : ℕ) : ℤ) : ℝ) = (((b + 1) / 2 : ℕ) : ℝ) by norm_cast]
    generalize (((b + 1) / 2 : ℕ) : ℝ) = c
    push_cast
    field_simp
    ring

/-- The ratio of the effective mass to the mass. -/
noncomputable def massRatio (b N : ℕ) : ℝ :=
  (2 * b + 1) * (N * Real.sin (Real.pi / N) / Real.pi) ^ 2 /
    (b * (1 + Real.cos (Real.pi / N)) + if b % 2 = 0 then Real.cos (Real.pi / N) else 1)

/-- **C135.** The effective mass of each band of a free particle of mass `m` in one dimension, for an odd number `N` of samples: the mass times a ratio
which depends only on the band and the number of samples. -/
theorem C135_free_particle (same : Basis → Basis → Bool) (hs : Sound same) (hbar m : ℝ) (hh : hbar ≠ 0) (hm : 0 < m)
    (A : Matrix (Fin 1) (Fin 1) ℝ) (hA : A 0 0 ≠ 0) (M : ℕ) (hM : 0 < M) (b : ℕ) (eigenvalue : ℕ → ℂ)
    (he : ∀ j < 2 * M + 1, eigenvalue (b * (2 * M + 1) + j) =
      (hbar ^ 2 * freeWave |A 0 0| (2 * M + 1) b (freq (2 * M + 1) j) ^ 2 / (2 * m) : ℝ)) :
    getEffectiveMass same hbar A (fT [2 * M + 1]) eigenvalue 0 b = some (m * massRatio b (2 * M + 1)) := by
  have hn : (fT [2 * M + 1]).n = 2 * M + 1 := by rw [Basis.n_eq, (fT_facts _).1]; simp
  have hL : 0 < |A 0 0| := abs_pos.2 hA
  have hv : vnorm (A 0) = |A 0 0| := by
    unfold vnorm
    rw [show A 0 ⬝ᵥ A 0 = A 0 0 ^ 2 by simp [dotProduct, pow_two], Real.sqrt_sq_eq_abs]
  set N := 2 * M + 1 with hN
  set L := |A 0 0| with hLd
  have hNpos : (0 : ℝ) < N := by rw [hN]; positivity
  set c := Real.cos (Real.pi / N) with hc
  set s := Real.sin (Real.pi / N) with hsdef
  have hN3 : (3 : ℝ) ≤ N := by exact_mod_cast (by omega : 3 ≤ N)
  have hxpos : 0 < Real.pi / N := by positivity
  have hxlt : Real.pi / N < Real.pi / 2 := by
    apply div_lt_div_of_pos_left Real.pi_pos (by norm_num) (by linarith)
  have hspos : 0 < s := Real.sin_pos_of_pos_of_lt_pi hxpos (by linarith [Real.pi_pos])
  have hcpos : 0 < c := Real.cos_pos_of_mem_Ioo ⟨by linarith, hxlt⟩
  -- the component
  set D : ℝ := b * (1 + c) + if b % 2 = 0 then c else 1 with hD
  have hDpos : 0 < D := by
    rw [hD]
    have : (0 : ℝ) ≤ b * (1 + c) := by positivity
    split_ifs <;> linarith
  set C : ℝ := hbar ^ 2 / (2 * m) * (2 * Real.pi / (N * L)) ^ 2 with hC
  have hCpos : 0 < C := by rw [hC]; positivity
  obtain ⟨a, β, hβ, hg⟩ : ∃ a β : ℝ, |β * (1 + c) + N * c| = N * D ∧
      ∀ z : ℤ, hbar ^ 2 * freeWave L N b z ^ 2 / (2 * m) = C * a + C * β * |(z : ℝ)| + C * (z : ℝ) ^ 2 := by
    by_cases hb : b % 2 = 0
    · refine ⟨(b * N / 2) ^ 2, b * N, ?_, fun z => ?_⟩
      · rw [hD, if_pos hb, abs_of_nonneg (by positivity)]
        ring
      · rw [freeWave, if_pos hb, hC]
        have := sq_abs (z : ℝ)
        field_simp
        linear_combination (4 : ℝ) * this
    · refine ⟨((b + 1) * N / 2) ^ 2, -((b + 1) * N), ?_, fun z => ?_⟩
      · rw [hD, if_neg hb, abs_of_nonpos (by nlinarith [mul_nonneg (mul_nonneg (Nat.cast_nonneg (α := ℝ) b) hNpos.le) (by linarith : 0 ≤ 1 + c)])]
        ring
      · rw [freeWave, if_neg hb, hC]
        have := sq_abs (z : ℝ)
        field_simp
        linear_combination (4 : ℝ) * this
  have hcomp : ‖expand (fT [N]) (fun j => eigenvalue (b * N + j)) 1‖ = C * (N * D) / (2 * s ^ 2) / Real.sqrt N := by
    have h1 : expand (fT [N]) (fun j => eigenvalue (b * N + j)) 1 =
        (∑ j ∈ range N, (((fun z : ℤ => hbar ^ 2 * freeWave L N b z ^ 2 / (2 * m)) (freq N j) : ℝ) : ℂ) * phase N j) / (Real.sqrt N : ℂ) := by
      unfold expand
      rw [(fT_facts _).1, List.prod_singleton, sum_div]
      refine sum_congr rfl fun j hj => ?_
      beta_reduce
      rw [he j (mem_range.1 hj)]
      have : state (fT [N]) j 1 = planeWave N j 1 := by
        simp [state, states, sizes, pointss]
      rw [this, planeWave, phase, Nat.cast_one, mul_one]
      exact (mul_div_assoc _ _ _).symm
    have h2 := sum_labels M hM (fun z : ℤ => hbar ^ 2 * freeWave L N b z ^ 2 / (2 * m)) (C * a) (C * β) C hg
    rw [← hN, ← hc, ← hsdef] at h2
    have h3 := congrArg norm h2
    rw [norm_mul, Complex.norm_real, show ((4 : ℂ) * (s : ℂ) ^ 2) = ((4 * s ^ 2 : ℝ) : ℂ) by push_cast; ring, Complex.norm_real,
      Real.norm_of_nonneg (by positivity), show (-2 * (C * β * (1 + c) + C * (2 * M + 1) * c) : ℝ) = -(2 * C) * (β * (1 + c) + N * c) by
        rw [hN]; push_cast; ring, norm_mul, norm_neg, Real.norm_of_nonneg (by positivity), Real.norm_eq_abs, hβ] at h3
    rw [h1, norm_div, Complex.norm_real, Real.norm_of_nonneg (Real.sqrt_nonneg _)]
    congr 1
    rw [eq_div_iff (by positivity)]
    linear_combination h3 / 2
  unfold getEffectiveMass
  rw [show (((0 : Fin 1) : ℕ)) = 0 from rfl, lowestComponent_fT same hs [N] (by simp [hN]) 0 (by rw [List.getD_cons_zero]; omega), List.prod_singleton]
  have hr : ravel [N] ((List.range [N].length).map fun i => if i = 0 then 1 else 0) = 1 := by simp [ravel]
  show Option.map _ (some (expand (fT [N]) _ (ravel [N] ((List.range [N].length).map fun i => if i = 0 then 1 else 0)))) = _
  rw [hr, Option.map_some, hcomp, hn, getFreeEnergy, hv, massRatio, ← hc, ← hsdef, ← hD, hC]
  congr 1
  have hsq : Real.sqrt N * Real.sqrt N = N := Real.mul_self_sqrt hNpos.le
  have hsq0 : Real.sqrt N ≠ 0 := (Real.sqrt_pos.2 hNpos).ne'
  have hsq2 : Real.sqrt N ^ 2 = N := by rw [pow_two, hsq]
  field_simp
  rw [hsq2]
  ring

/-- **C135.** With more and more samples the effective mass of every band of a free particle tends to its mass. -/
theorem C135_limit (same : Basis → Basis → Bool) (hs : Sound same) (hbar m : ℝ) (hh : hbar ≠ 0) (hm : 0 < m)
    (A : Matrix (Fin 1) (Fin 1) ℝ) (hA : A 0 0 ≠ 0) (b : ℕ) (eigenvalue : ℕ → ℕ → ℂ)
    (he : ∀ M, ∀ j < 2 * M + 1, eigenvalue M (b * (2 * M + 1) + j) =
      (hbar ^ 2 * freeWave |A 0 0| (2 * M + 1) b (freq (2 * M + 1) j) ^ 2 / (2 * m) : ℝ)) :
    ∃ mass : ℕ → ℝ, (∀ M, 0 < M → getEffectiveMass same hbar A (fT [2 * M + 1]) (eigenvalue M) 0 b = some (mass M)) ∧
      Tendsto mass atTop (𝓝 m) := by
  refine ⟨fun M => m * massRatio b (2 * M + 1), fun M hM => C135_free_particle same hs hbar m hh hm A hA M hM b _ (he M), ?_⟩
  have hx : Tendsto (fun M : ℕ => Real.pi / ((2 * M + 1 : ℕ) : ℝ)) atTop (𝓝 0) := by
    refine tendsto_const_nhds.div_atTop ?_
    refine tendsto_natCast_atTop_atTop.comp ?_
    exact tendsto_atTop_mono (fun M => by show M ≤ 2 * M + 1; omega) tendsto_id
  have hcos : Tendsto (fun M : ℕ => Real.cos (Real.pi / ((2 * M + 1 : ℕ) : ℝ))) atTop (𝓝 1) := by
    have := (Real.continuous_cos.tendsto 0).comp hx
    rwa [Real.cos_zero] at this
  have hsin : Tendsto (fun M : ℕ => ((2 * M + 1 : ℕ) : ℝ) * Real.sin (Real.pi / ((2 * M + 1 : ℕ) : ℝ)) / Real.pi) atTop (𝓝 1) := by
    have := (Real.continuous_sinc.tendsto 0).comp hx
    rw [Real.sinc_zero] at this
    refine this.congr fun M => ?_
    have hN : ((2 * M + 1 : ℕ) : ℝ) ≠ 0 := by positivity
    have hpi := Real.pi_ne_zero
    show Real.sinc (Real.pi / ((2 * M + 1 : ℕ) : ℝ)) = _
    rw [Real.sinc_of_ne_zero (by positivity)]
    field_simp
  have hden : Tendsto (fun M : ℕ => (b : ℝ) * (1 + Real.cos (Real.pi / ((2 * M + 1 : ℕ) : ℝ))) +
      if b % 2 = 0 then Real.cos (Real.pi / ((2 * M + 1 : ℕ) : ℝ)) else 1) atTop (𝓝 (2 * b + 1)) := by
    have h1 : Tendsto (fun M : ℕ => (b : ℝ) * (1 + Real.cos (Real.pi / ((2 * M + 1 : ℕ) : ℝ)))) atTop (𝓝 (b * (1 + 1))) :=
      (hcos.const_add 1).const_mul (b : ℝ)
    have h2 : Tendsto (fun M : ℕ => if b % 2 = 0 then Real.cos (Real.pi / ((2 * M + 1 : ℕ) : ℝ)) else 1) atTop (𝓝 1) := by
      split_ifs
      · exact hcos
      · exact tendsto_const_nhds
    have := h1.add h2
    rwa [show (b : ℝ) * (1 + 1) + 1 = 2 * b + 1 by ring] at this
  have hb : (2 * (b : ℝ) + 1) ≠ 0 := by positivity
  have := (((hsin.pow 2).const_mul (2 * (b : ℝ) + 1)).div hden hb).const_mul m
  rw [one_pow, mul_one, div_self hb, mul_one] at this
  exact this

/-- **C135 (negation).** For a finite number of samples the effective mass of a free particle is not its mass: with three samples the lowest band gives
`27 / (2 π²)`, more than 1.3 times the mass. -/
theorem C135_exact_negation : massRatio 0 3 = 27 / (2 * Real.pi ^ 2) ∧ 13 / 10 < massRatio 0 3 := by
  have h : massRatio 0 3 = 27 / (2 * Real.pi ^ 2) := by
    unfold massRatio
    have hs : Real.sin (Real.pi / 3) ^ 2 = 3 / 4 := by
      rw [Real.sin_pi_div_three, div_pow, Real.sq_sqrt (by norm_num)]; norm_num
    have hpi := Real.pi_ne_zero
    push_cast
    rw [Real.cos_pi_div_three, div_pow, mul_pow, hs]
    norm_num
    field_simp
    norm_num
  refine ⟨h, ?_⟩
  rw [h, div_lt_div_iff₀ (by norm_num) (by positivity)]
  have := Real.pi_lt_d2
  have := Real.pi_pos
  nlinarith

/-! ## General energies -/

/-- **C135.** For any energies, samples of momentum in any number of dimensions and any axis: adding a constant to the energies of a band does not change its
effective mass, and multiplying them divides it. -/
theorem C135_scale (same : Basis → Basis → Bool) (hs : Sound same) (hbar : ℝ) {d : ℕ} (A : Matrix (Fin d) (Fin d) ℝ) (ns : List ℕ)
    (hpos : 0 ∉ ns) (axis : Fin d) (h2 : 2 ≤ ns.getD axis 0) (b : ℕ) (E E' : ℕ → ℂ) (r : ℝ) (hr : 0 < r) (e : ℂ)
    (hE : ∀ j < ns.prod, E' (b * ns.prod + j) = r * E (b * ns.prod + j) + e) :
    ∃ mass, getEffectiveMass same hbar A (fT ns) E axis b = some mass ∧
      getEffectiveMass same hbar A (fT ns) E' axis b = some (mass / r) := by
  set idx := ravel ns ((List.range ns.length).map fun i => if i = (axis : ℕ) then 1 else 0) with hidx
  have hP : 0 < ns.prod := by
    rw [Nat.pos_iff_ne_zero]
    exact fun h => hpos (List.prod_eq_zero_iff.1 h)
  have hin := inShape_unit ns axis hpos h2
  have hlt : idx < ns.prod := ravel_lt ns _ hin
  have hne : idx ≠ 0 := by
    intro h0
    have h1 := unravel_ravel ns _ hin
    rw [← hidx, h0] at h1
    have hax : (axis : ℕ) < ns.length := by
      by_contra hcon
      rw [List.getD_eq_getElem?_getD, List.getElem?_eq_none (by omega)] at h2
      simp at h2
    have h3 : (unravel ns 0).getD axis 0 = 1 := by
      rw [h1]
      simp [List.getD_eq_getElem?_getD, List.getElem?_map, List.getElem?_range hax]
    have h4 : (unravel ns 0).getD axis 0 = 0 := by
      have : ∀ (ns : List ℕ) (i : ℕ), (unravel ns 0).getD i 0 = 0 := by
        intro ns
        induction ns with
        | nil => intro i; simp [unravel]
        | cons n ns ih =>
          intro i
          rw [unravel, Nat.zero_div, Nat.zero_mod]
          cases i with
          | zero => simp
          | succ i => simpa using ih i
      exact this ns axis
    omega
  have hconst : ∑ j ∈ range ns.prod, state (fT ns) j idx = 0 := by
    have h1 := complete_of_orthonormal (fT_facts ns).2.2 hlt hP
    rw [if_neg hne] at h1
    have h0 : ∀ j, state (fT ns) j 0 = 1 / (Real.sqrt ns.prod : ℂ) := states_fT_zero ns
    simp only [h0, ← sum_mul] at h1
    rcases mul_eq_zero.1 h1 with h | h
    · exact h
    · exfalso
      have hsq : (Real.sqrt ns.prod : ℂ) ≠ 0 := by
        exact_mod_cast (Real.sqrt_pos.2 (by exact_mod_cast hP : (0 : ℝ) < ns.prod)).ne'
      rw [map_div₀, map_one, Complex.conj_ofReal, div_eq_zero_iff] at h
      rcases h with h | h
      · exact one_ne_zero h
      · exact hsq h
  have hexp : expand (fT ns) (fun j => E' (b * ns.prod + j)) idx = r * expand (fT ns) (fun j => E (b * ns.prod + j)) idx := by
    unfold expand
    rw [(fT_facts ns).1]
    calc ∑ j ∈ range ns.prod, E' (b * ns.prod + j) * state (fT ns) j idx
        = ∑ j ∈ range ns.prod, (r * (E (b * ns.prod + j) * state (fT ns) j idx) + e * state (fT ns) j idx) :=
          sum_congr rfl fun j hj => by rw [hE j (mem_range.1 hj)]; ring
      _ = _ := by rw [sum_add_distrib, ← mul_sum, ← mul_sum, hconst, mul_zero, add_zero]
  refine ⟨_, by unfold getEffectiveMass; rw [lowestComponent_fT same hs ns hpos axis h2]; rfl, ?_⟩
  unfold getEffectiveMass
  rw [lowestComponent_fT same hs ns hpos axis h2, ← hidx, hexp, Option.map_some]
  congr 1
  rw [norm_mul, Complex.norm_real, Real.norm_of_nonneg hr.le, div_div, mul_comm r]

/-- **C135.** The plot of the lowest component of the energies: its ratio to the line of a free particle is the ratio of the mass of that particle to the effective
mass. -/
theorem C135_drawn (same : Basis → Basis → Bool) (hbar : ℝ) {d : ℕ} (A : Matrix (Fin d) (Fin d) ℝ) (list : Basis) (E : ℕ → ℂ)
    (m : ℝ) (hm : m ≠ 0) (axis : Fin d) (b : ℕ) (value free : ℝ)
    (h : plotTransformedEnergy same hbar A list E m axis b = some (value, free)) (hv : value ≠ 0) :
    ∃ mass, getEffectiveMass same hbar A list E axis b = some mass ∧ value * mass = free * m := by
  unfold plotTransformedEnergy at h
  unfold getEffectiveMass
  generalize lowestComponent same list E axis b = o at h ⊢
  cases o with
  | none => simp at h
  | some c =>
    rw [Option.map_some, Option.some.injEq, Prod.mk.injEq] at h
    obtain ⟨h1, h2⟩ := h
    refine ⟨_, rfl, ?_⟩
    rw [← h1] at hv ⊢
    rw [← h2, getFreeEnergy]
    field_simp

/-- The hypotheses can be met: energies of a free particle with the mass one half and `ℏ = 1`, three samples of two bands. -/
example (same : Basis → Basis → Bool) (hs : Sound same) : ∃ eigenvalue : ℕ → ℂ, ∀ b < 2,
    getEffectiveMass same 1 (1 : Matrix (Fin 1) (Fin 1) ℝ) (fT [3]) eigenvalue 0 b = some (1 / 2 * massRatio b 3) := by
  refine ⟨fun k => ((1 : ℝ) ^ 2 * freeWave |(1 : Matrix (Fin 1) (Fin 1) ℝ) 0 0| 3 (k / 3) (freq 3 (k % 3)) ^ 2 / (2 * (1 / 2)) : ℝ),
    fun b _ => ?_⟩
  refine C135_free_particle same hs 1 (1 / 2) (by norm_num) (by norm_num) 1 (by simp) 1 (by norm_num) b _ fun j hj => ?_
  show (((1 : ℝ) ^ 2 * freeWave _ 3 ((b * 3 + j) / 3) (freq 3 ((b * 3 + j) % 3)) ^ 2 / (2 * (1 / 2)) : ℝ) : ℂ) = _
  rw [show (b * 3 + j) / 3 = b by omega, show (b * 3 + j) % 3 = j by omega]

end Verif
