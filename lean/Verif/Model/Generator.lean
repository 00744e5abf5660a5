import Mathlib.Data.Complex.BigOperators
import Mathlib.Data.Real.Sqrt
import Mathlib.Analysis.SpecialFunctions.Trigonometric.Basic

/-!
The compiled extension `hamiltonian_generator`: `lib/hamiltonian_generator/src/lib.rs`.

Floats are real numbers. The integer arithmetic of the release build wraps around.
-/

set_option autoImplicit false

namespace Verif

open Finset

/-- Arithmetic of `u64`. -/
def wrapU64 (n : ℕ) : ℕ := n % 2 ^ 64

/-- Arithmetic of `i64`. -/
def wrapI64 (z : ℤ) : ℤ := Int.bmod z (2 ^ 64)

/-- `factorial`, `lib/hamiltonian_generator/src/lib.rs:8-10`. -/
def factorialU64 : ℕ → ℕ
  | 0 => 1
  | n + 1 => wrapU64 (factorialU64 n * wrapU64 (n + 1))

/-- `hermite_coefficient`, `lib/hamiltonian_generator/src/lib.rs:12-23`; the arguments are never negative (the calls start
with `0 ≤ m`, and `m - 1` is only used for `m ≠ 0`). -/
def hermiteCoefficient : ℕ → ℕ → ℤ
  | 0, 0 => 1
  | 1, 0 => 0
  | 1, 1 => 2
  | n + 2, 0 => wrapI64 (-hermiteCoefficient (n + 1) 1)
  | 0, _ + 1 => 0
  | n + 1, m + 1 =>
    if m + 1 ≤ n + 1 then
      wrapI64 (wrapI64 (2 * hermiteCoefficient n m) - wrapI64 (((m : ℤ) + 1 + 1) * hermiteCoefficient n (m + 2)))
    else 0

/-- `hermite_val`, `lib/hamiltonian_generator/src/lib.rs:25-29`. -/
noncomputable def hermiteVal (x : ℝ) (n : ℕ) : ℝ := ∑ m ∈ range (n + 1), (hermiteCoefficient n m : ℝ) * x ^ m

/-- `calculate_sho_wavefunction`, `lib/hamiltonian_generator/src/lib.rs:31-45`, at one point. The constant `hbar` is a
parameter. -/
noncomputable def generatorShoWavefunction (hbar omega mass : ℝ) (n : ℕ) (z : ℝ) : ℝ :=
  let norm := Real.sqrt ((omega * mass) / hbar)
  let prefactor := (norm / (factorialU64 n : ℝ)) / (Real.sqrt Real.pi * 2 ^ n)
  Real.sqrt prefactor * hermiteVal (z * norm) n * Real.exp (-(z * norm) ^ 2 / 2)

/-- `x0_coordinates` and `x1_coordinates`, `lib/hamiltonian_generator/src/lib.rs:53-62`. -/
def axisCoordinates (n : ℕ) : List ℤ :=
  ((List.range ((n + 1) / 2)).map fun i : ℕ => (i : ℤ)) ++ (List.range (n / 2)).map fun i : ℕ => -((n / 2 : ℕ) : ℤ) + i

/-- `EigenstateResolution::coordinates`, `lib/hamiltonian_generator/src/lib.rs:63-70`. -/
def generatorCoordinates (r0 r1 r2 : ℕ) : List (ℤ × ℤ × ℕ) :=
  (axisCoordinates r0).flatMap fun x => (axisCoordinates r1).flatMap fun y => (List.range r2).map fun z => (x, y, z)

/-- One row of the nested loops with the cache `g_points`, `lib/hamiltonian_generator/src/lib.rs:188-223` and `247-281`: the
values and the cache after the row. -/
noncomputable def cachedRow {α κ : Type} [DecidableEq κ] (key : α → α → κ) (value : α → α → ℂ) (a : α) :
    List α → List (κ × ℂ) → List ℂ × List (κ × ℂ)
  | [], g => ([], g)
  | b :: bs, g =>
    match g.lookup (key a b) with
    | some v =>
      let r := cachedRow key value a bs g
      (v :: r.1, r.2)
    | none =>
      let r := cachedRow key value a bs ((key a b, value a b) :: g)
      (value a b :: r.1, r.2)

/-- All rows, `lib/hamiltonian_generator/src/lib.rs:188-223` and `247-281`. -/
noncomputable def cachedRows {α κ : Type} [DecidableEq κ] (key : α → α → κ) (value : α → α → ℂ) (all : List α) :
    List α → List (κ × ℂ) → List (List ℂ)
  | [], _ => []
  | a :: as, g =>
    let r := cachedRow key value a all g
    r.1 :: cachedRows key value all as r.2

/-- `rem_euclid` as an index. -/
def remEuclid (z : ℤ) (n : ℕ) : ℕ := (z % n).toNat

/-- The key of the cache, `lib/hamiltonian_generator/src/lib.rs:192-203`. -/
def generatorKey (nx0 nx1 : ℕ) (a b : ℤ × ℤ × ℕ) : ℕ × ℕ × ℕ × ℕ :=
  (remEuclid (b.1 - a.1) nx0, remEuclid (b.2.1 - a.2.1) nx1, a.2.2, b.2.2)

/-- `SurfaceHamiltonian::calculate_off_diagonal_energies`, `lib/hamiltonian_generator/src/lib.rs:180-224`; `ft` has the shape
`(nx0, nx1, nz)`, entry `(i, j)` of the result. -/
noncomputable def offDiagonalEnergies (hbar : ℝ) (ft : ℕ → ℕ → ℕ → ℂ) (nx0 nx1 nz r0 r1 r2 : ℕ) (dz mass omega offset : ℝ) : List (List ℂ) :=
  let sho : ℕ → ℕ → ℝ := fun n z => generatorShoWavefunction hbar omega mass n (dz * z + offset)
  cachedRows (generatorKey nx0 nx1)
    (fun a b => (∑ z ∈ range nz, ft (remEuclid (b.1 - a.1) nx0) (remEuclid (b.2.1 - a.2.1) nx1) z * sho a.2.2 z * sho b.2.2 z) * dz)
    (generatorCoordinates r0 r1 r2) (generatorCoordinates r0 r1 r2) []

/-- `SurfaceHamiltonian2::calculate_off_diagonal_energies`, `lib/hamiltonian_generator/src/lib.rs:242-282`. -/
noncomputable def offDiagonalEnergies2 (ft : ℕ → ℕ → ℕ → ℂ) (nx0 nx1 nz : ℕ) (states : ℕ → ℕ → ℂ) (r0 r1 r2 : ℕ) : List (List ℂ) :=
  cachedRows (generatorKey nx0 nx1)
    (fun a b => ∑ z ∈ range nz, ft (remEuclid (b.1 - a.1) nx0) (remEuclid (b.2.1 - a.2.1) nx1) z * states a.2.2 z *
      (starRingEnd ℂ) (states b.2.2 z))
    (generatorCoordinates r0 r1 r2) (generatorCoordinates r0 r1 r2) []

/-- `EigenstateConfig::dk_prefactor`, `lib/hamiltonian_generator/src/lib.rs:128-132`. -/
noncomputable def dkPrefactor (dx0 dx1 : ℝ × ℝ) : ℝ := 2 * Real.pi / (dx0.1 * dx1.2 - dx0.2 * dx1.1)

/-- `EigenstateConfig::dkx0`, `lib/hamiltonian_generator/src/lib.rs:133-136`. -/
noncomputable def generatorDkx0 (dx0 dx1 : ℝ × ℝ) : ℝ × ℝ := (dkPrefactor dx0 dx1 * dx1.2, -dkPrefactor dx0 dx1 * dx1.1)

/-- `EigenstateConfig::dkx1`, `lib/hamiltonian_generator/src/lib.rs:138-141`. -/
noncomputable def generatorDkx1 (dx0 dx1 : ℝ × ℝ) : ℝ × ℝ := (-dkPrefactor dx0 dx1 * dx0.2, dkPrefactor dx0 dx1 * dx0.1)

/-- `Eigenstate::calculate_wavefunction`, `lib/hamiltonian_generator/src/lib.rs:89-124`, at one point. -/
noncomputable def eigenstateWavefunction (hbar omega mass : ℝ) (dx0 dx1 : ℝ × ℝ) (kx ky : ℝ) (r0 r1 r2 : ℕ) (vector : List ℂ) (p : ℝ × ℝ × ℝ) : ℂ :=
  ((vector.zip (generatorCoordinates r0 r1 r2)).map fun ec =>
    ((generatorShoWavefunction hbar omega mass ec.2.2.2 p.2.2 : ℝ) : ℂ) * ec.1 *
      Complex.exp (⟨0, ((ec.2.1 : ℝ) * (generatorDkx0 dx0 dx1).1 + (ec.2.2.1 : ℝ) * (generatorDkx1 dx0 dx1).1 + kx) * p.1 +
        ((ec.2.1 : ℝ) * (generatorDkx0 dx0 dx1).2 + (ec.2.2.1 : ℝ) * (generatorDkx1 dx0 dx1).2 + ky) * p.2.1⟩ : ℂ)).sum

end Verif
