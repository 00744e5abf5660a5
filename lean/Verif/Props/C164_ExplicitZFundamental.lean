import Verif.Model.ExplicitZFundamental
import Verif.Props.C94_ExplicitZ

/-!
# C164: the hamiltonian with the shape of the surface ignored
-/

set_option autoImplicit false

namespace Verif

open Finset Spec Matrix

/-! ## Helpers -/

theorem planeWave_samples {r s j x : ℕ} (hs : 0 < s) (hj : j < r) :
    planeWave r j x = (Real.sqrt s : ℂ) * planeWave (r * s) (freq r j) (x * s) := by
  have hr : (r : ℂ) ≠ 0 := by exact_mod_cast (show r ≠ 0 by omega)
  have hs' : (s : ℂ) ≠ 0 := by exact_mod_cast hs.ne'
  have hsq : (Real.sqrt s : ℂ) ≠ 0 := by
    rw [Complex.ofReal_ne_zero]
    exact (Real.sqrt_pos.2 (by exact_mod_cast hs)).ne'
  obtain ⟨m, hm⟩ : ∃ m : ℤ, (j : ℤ) = freq r j + r * m := by
    unfold freq
    split_ifs
    · exact ⟨0, by ring⟩
    · exact ⟨1, by ring⟩
  unfold planeWave
  rw [show (Real.sqrt ((r * s : ℕ) : ℝ) : ℂ) = (Real.sqrt r : ℂ) * (Real.sqrt s : ℂ) by
    rw [Nat.cast_mul, Real.sqrt_mul (by positivity), Complex.ofReal_mul]]
  have he : Complex.exp (2 * (Real.pi : ℂ) * Complex.I * ((j : ℤ) : ℂ) * (x : ℂ) / (r : ℂ)) =
      Complex.exp (2 * (Real.pi : ℂ) * Complex.I * ((freq r j : ℤ) : ℂ) * ((x * s : ℕ) : ℂ) / ((r * s : ℕ) : ℂ)) := by
    rw [hm, Complex.exp_eq_exp_iff_exists_int]
    refine ⟨m * x, ?_⟩
    push_cast
    field_simp
  rw [he]
  field_simp

/-! ## Theorems -/

/-- **C164.** `total_surface_hamiltonian_as_fundamental` gives, for a lattice with its third vector normal to the first two and real states normal to
the surface, the matrix elements of the hamiltonian of the momentum basis builder for the same potential on the whole grid between the plane waves
and the states normal to the surface, now with a basis of as many points in the surface as there are plane waves. -/
theorem C164_elements_partial (same : Basis → Basis → Bool) (hs : Sound same) (hbar : ℝ) (hh : hbar ≠ 0) (A : Matrix (Fin 3) (Fin 3) ℝ)
    (hA : IsUnit A.det) (h02 : A 0 2 = 0) (h12 : A 1 2 = 0) (h20 : A 2 0 = 0) (h21 : A 2 1 = 0) (n0 n1 nz : ℕ) (V Vz : ℕ → ℂ) (mass : ℝ)
    (hm : 0 < mass) (φ : Fin 3 → ℝ) (r0 r1 r2 : ℕ) (hr0 : r0 ≤ n0) (hr1 : r1 ≤ n1) (hg0 : sizeGuard r0 n0 = true) (hg1 : sizeGuard r1 n1 = true)
    (Hz : Operator) (hHz : configHamiltonian same hbar (A 2 2) nz Vz mass (some (φ 2)) = some Hz) (r : EigResult)
    (hr : IsEigh nz r2 (matrix nz nz Hz.data) r.eigenvalues r.vectors) (hreal : ∀ j < r2, ∀ z < nz, (r.vectors z j).im = 0) :
    ∃ Hm O H, totalHamiltonian same hbar A ([n0, n1, nz].map Basis.fundamental) V mass (some φ) = some Hm ∧
      convertOperator same Hm (.tuple [.transformed r0 n0, .transformed r1 n1, .explicit r2 (fun j z => r.vectors z j) (.fundamental nz)])
        (.tuple [.transformed r0 n0, .transformed r1 n1, .explicit r2 (fun j z => r.vectors z j) (.fundamental nz)]) = some O ∧
      explicitZAsFundamental same hbar A n0 n1 nz V Vz mass φ r0 r1 r2 r = some H ∧
      H.b0 = .tuple [.fundamentalTransformed r0, .fundamentalTransformed r1, .explicit r2 (fun j z => r.vectors z j) (.fundamental nz)] ∧
      H.b1 = H.b0 ∧ ∀ i < r0 * r1 * r2, ∀ j < r0 * r1 * r2, H.data (i * (r0 * r1 * r2) + j) = O.entry i j := by
  obtain ⟨Hm, O, H, e1, e2, e3, e4⟩ := C94_converted_partial same hs hbar hh A hA h02 h12 h20 h21 n0 n1 nz V Vz mass hm φ r0 r1 r2 hr0 hr1 hg0 hg1
    Hz hHz r hr hreal
  refine ⟨Hm, O, ⟨.tuple (fundamentalZAxes nz r0 r1 r2 r), .tuple (fundamentalZAxes nz r0 r1 r2 r), H.shape, H.data⟩, e1, e2, ?_, rfl, rfl, fun i hi j hj => ?_⟩
  · unfold explicitZAsFundamental
    rw [e3, Option.map_some]
  · have hb : H.b1.n = r0 * r1 * r2 := by
      rw [explicitZHamiltonian, hg0, hg1, Bool.and_self, if_pos rfl] at e3
      obtain ⟨K, k1, k2⟩ := Option.bind_eq_some_iff.1 e3
      rw [xyHamiltonian] at k1
      obtain ⟨K', -, k3⟩ := Option.map_eq_some_iff.1 k1
      rw [addOperator] at k2
      obtain ⟨q, -, k4⟩ := Option.map_eq_some_iff.1 k2
      rw [← k4, ← k3, Basis.n_eq]
      simp [explicitZAxes, size, sizes]
      ring
    rw [← e4 i hi j hj]
    unfold Operator.entry
    rw [hb]

/-- **C164.** If the number of points in the surface is a multiple of the number of plane waves along each axis, a state with given coefficients is, on the
points of the new basis, the state with these coefficients in the basis of `total_surface_hamiltonian` at every `s0`-th and `s1`-th point, up to the normalisation:
the eigenstates of both hamiltonians are the same functions. -/
theorem C164_states (nz r0 r1 r2 s0 s1 : ℕ) (hs0 : 0 < s0) (hs1 : 0 < s1) (r : EigResult) (v : ℕ → ℂ) (x0 x1 z : ℕ) (hx1 : x1 < r1) (hz : z < nz) :
    expand (.tuple (fundamentalZAxes nz r0 r1 r2 r)) v ((x0 * r1 + x1) * nz + z) =
      (Real.sqrt (s0 * s1) : ℂ) * expand (.tuple (explicitZAxes (r0 * s0) (r1 * s1) nz r0 r1 r2 r)) v ((x0 * s0 * (r1 * s1) + x1 * s1) * nz + z) := by
  have hsz : size (.tuple (fundamentalZAxes nz r0 r1 r2 r)) = r0 * (r1 * (r2 * 1)) := rfl
  have hsz' : size (.tuple (explicitZAxes (r0 * s0) (r1 * s1) nz r0 r1 r2 r)) = r0 * (r1 * (r2 * 1)) := rfl
  unfold expand
  rw [hsz, hsz', mul_sum]
  refine sum_congr rfl fun j hj => ?_
  have hj' := mem_range.1 hj
  rw [mul_one] at hj'
  have hr2 : 0 < r2 := by
    rcases Nat.eq_zero_or_pos r2 with h | h
    · simp [h] at hj'
    · exact h
  have hr1 : 0 < r1 := by omega
  have hj0 : j / (r1 * (r2 * 1)) < r0 := by
    rw [mul_one]
    exact Nat.div_lt_of_lt_mul (by rw [mul_comm]; exact hj')
  have hj1 : j % (r1 * (r2 * 1)) / (r2 * 1) < r1 := by
    rw [mul_one]
    exact Nat.div_lt_of_lt_mul (by rw [mul_comm r2]; exact Nat.mod_lt _ (by positivity))
  have hx1' : x1 * s1 < r1 * s1 := Nat.mul_lt_mul_of_pos_right hx1 hs1
  have hnz : 0 < nz := by omega
  have d0 : ∀ a b m : ℕ, b < m → ((a * m + b) * nz + z) / (m * (nz * 1)) = a ∧ ((a * m + b) * nz + z) % (m * (nz * 1)) / (nz * 1) = b ∧
      ((a * m + b) * nz + z) % (m * (nz * 1)) % (nz * 1) = z := by
    intro a b m hb
    have hlt : b * nz + z < m * nz := by nlinarith
    have e : (a * m + b) * nz + z = (b * nz + z) + m * nz * a := by ring
    have hm : 0 < m * nz := Nat.mul_pos (by omega) hnz
    rw [mul_one, e, Nat.add_mul_div_left _ _ hm, Nat.div_eq_of_lt hlt, Nat.add_mul_mod_self_left, Nat.mod_eq_of_lt hlt]
    refine ⟨by omega, ?_, ?_⟩
    · rw [mul_comm b, Nat.mul_add_div hnz, Nat.div_eq_of_lt hz, add_zero]
    · rw [mul_comm b, Nat.mul_add_mod, Nat.mod_eq_of_lt hz]
  obtain ⟨a1, a2, a3⟩ := d0 x0 x1 r1 hx1
  obtain ⟨b1, b2, b3⟩ := d0 (x0 * s0) (x1 * s1) (r1 * s1) hx1'
  have l : state (.tuple (fundamentalZAxes nz r0 r1 r2 r)) j ((x0 * r1 + x1) * nz + z) =
      planeWave r0 ((j / (r1 * (r2 * 1)) : ℕ) : ℤ) (((x0 * r1 + x1) * nz + z) / (r1 * (nz * 1))) *
        (planeWave r1 ((j % (r1 * (r2 * 1)) / (r2 * 1) : ℕ) : ℤ) (((x0 * r1 + x1) * nz + z) % (r1 * (nz * 1)) / (nz * 1)) *
        states [.explicit r2 (fun j z => r.vectors z j) (.fundamental nz)] (j % (r1 * (r2 * 1)) % (r2 * 1))
          (((x0 * r1 + x1) * nz + z) % (r1 * (nz * 1)) % (nz * 1))) := by
    simp only [fundamentalZAxes, state, states, sizes, size, pointss, points]
    rfl
  have l' : state (.tuple (explicitZAxes (r0 * s0) (r1 * s1) nz r0 r1 r2 r)) j ((x0 * s0 * (r1 * s1) + x1 * s1) * nz + z) =
      planeWave (r0 * s0) (freq r0 (j / (r1 * (r2 * 1)))) (((x0 * s0 * (r1 * s1) + x1 * s1) * nz + z) / (r1 * s1 * (nz * 1))) *
        (planeWave (r1 * s1) (freq r1 (j % (r1 * (r2 * 1)) / (r2 * 1)))
          (((x0 * s0 * (r1 * s1) + x1 * s1) * nz + z) % (r1 * s1 * (nz * 1)) / (nz * 1)) *
        states [.explicit r2 (fun j z => r.vectors z j) (.fundamental nz)] (j % (r1 * (r2 * 1)) % (r2 * 1))
          (((x0 * s0 * (r1 * s1) + x1 * s1) * nz + z) % (r1 * s1 * (nz * 1)) % (nz * 1))) := by
    simp only [explicitZAxes, state, states, sizes, size, pointss, points]
    rfl
  rw [l, l', a1, a2, a3, b1, b2, b3, planeWave_samples hs0 hj0, planeWave_samples hs1 hj1, Real.sqrt_mul (by positivity), Complex.ofReal_mul]
  ring

/-! ## Concrete cases -/

/-- A real potential normal to the surface gives real states: the hypotheses of `C164_elements_partial` are met. -/
example (V Vz : ℕ → ℂ) (hV : ∀ z < 8, (Vz z).im = 0) (φ0 φ1 : ℝ) : ∃ r H, explicitZAsFundamental (fun _ _ => false) 1 !![1, 0, 0; 1, 2, 0; 0, 0, 3] 8 8 8 V Vz 1
    ![φ0, φ1, 0] 3 3 5 r = some H := by
  obtain ⟨Hz, hHz, -, r, hr, hre⟩ := C94_real_states (fun _ _ => false) (fun _ _ h => by cases h) 1 one_ne_zero 3 (by norm_num) 8 Vz hV 1 one_pos
  obtain ⟨Hm, O, H, -, -, hH, -⟩ := C164_elements_partial (fun _ _ => false) (fun _ _ h => by cases h) 1 one_ne_zero !![1, 0, 0; 1, 2, 0; 0, 0, 3]
    (by simp [det_fin_three]) rfl rfl rfl rfl 8 8 8 V Vz 1 one_pos ![φ0, φ1, 0] 3 3 5 (by norm_num) (by norm_num)
    (by decide) (by decide) Hz hHz r ⟨fun j hj => hr.1 j (by omega), fun j hj => hr.2.1 j (by omega), fun j hj j' hj' => hr.2.2 j (by omega) j' (by omega)⟩
    (fun j hj z hz => hre j (by omega) z hz)
  exact ⟨r, H, hH⟩

/-- Two plane waves on four points, one point normal to the surface. -/
example (r : EigResult) (v : ℕ → ℂ) :
    expand (.tuple [.fundamentalTransformed 2, .fundamentalTransformed 1, .explicit 1 (fun j z => r.vectors z j) (.fundamental 1)]) v ((1 * 1 + 0) * 1 + 0) =
      (Real.sqrt ((2 : ℕ) * (3 : ℕ)) : ℂ) * expand (.tuple [.transformed 2 4, .transformed 1 3, .explicit 1 (fun j z => r.vectors z j) (.fundamental 1)]) v
        ((1 * 2 * (1 * 3) + 0 * 3) * 1 + 0) :=
  C164_states 1 2 1 1 2 3 (by norm_num) (by norm_num) r v 1 0 0 (by norm_num) (by norm_num)

end Verif
