import Mathlib.Data.Matrix.Mul
import Mathlib.LinearAlgebra.Matrix.NonsingularInverse
import Mathlib.Data.Complex.Basic
import Mathlib.Data.Complex.BigOperators

/-!
Specification: what the numerical eigenvalue routines return. Eigenvalues `lam j`, and `vec i j` is component `i` of
eigenvector `j` (the eigenvectors are columns, as numpy and scipy return them).
-/

set_option autoImplicit false

namespace Verif.Spec

open Finset

/-- Contract of `scipy.linalg.eigh` (the first `m` pairs are returned): real eigenvalues, orthonormal eigenvectors. -/
def IsEigh (n m : ℕ) (M : Matrix (Fin n) (Fin n) ℂ) (lam : ℕ → ℂ) (vec : ℕ → ℕ → ℂ) : Prop :=
  (∀ j < m, (lam j).im = 0) ∧
  (∀ j < m, ∀ i : Fin n, ∑ k : Fin n, M i k * vec k j = lam j * vec i j) ∧
  (∀ j < m, ∀ j' < m, ∑ i : Fin n, (starRingEnd ℂ) (vec i j) * vec i j' = if j = j' then 1 else 0)

/-- Contract of `np.linalg.eig` for a diagonalisable matrix: eigenvectors, linearly independent. -/
def IsEig (n : ℕ) (M : Matrix (Fin n) (Fin n) ℂ) (lam : ℕ → ℂ) (vec : ℕ → ℕ → ℂ) : Prop :=
  (∀ j < n, ∀ i : Fin n, ∑ k : Fin n, M i k * vec k j = lam j * vec i j) ∧
  (∀ c : Fin n → ℂ, (∀ i : Fin n, ∑ j : Fin n, vec i j * c j = 0) → c = 0)

/-- All eigenvalues in increasing order, with orthonormal eigenvectors. -/
def IsEighSorted (n : ℕ) (M : Matrix (Fin n) (Fin n) ℂ) (lam : ℕ → ℂ) (vec : ℕ → ℕ → ℂ) : Prop :=
  IsEigh n n M lam vec ∧ ∀ j j', j ≤ j' → j' < n → (lam j).re ≤ (lam j').re

/-- Contract of `scipy.linalg.eigh` with `subset_by_index=(lo, hi)`: the eigenvalues with the indices `lo, ..., hi` in
increasing order, and their eigenvectors. -/
def IsEighSubset (n : ℕ) (M : Matrix (Fin n) (Fin n) ℂ) (lo hi : ℕ) (lam : ℕ → ℂ) (vec : ℕ → ℕ → ℂ) : Prop :=
  ∃ lam₀ vec₀, IsEighSorted n M lam₀ vec₀ ∧
    ∀ j, lo + j ≤ hi → lam j = lam₀ (lo + j) ∧ ∀ i < n, vec i j = vec₀ i (lo + j)

end Verif.Spec
