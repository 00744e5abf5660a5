import Verif.Model.Kernel

/-!
Conversion of noise operators and noise kernels to another basis: `kernel/conversion.py`.
-/

set_option autoImplicit false

namespace Verif

/-- `convert_noise_operator_list_to_basis`, `kernel/conversion.py:34-54`, with `convert_operator_list_to_basis`,
`operator/conversion.py:76-102`: each operator is converted from the bases `b0`, `b1` to the bases `c0`, `c1`; the eigenvalues are
kept. -/
noncomputable def convertNoiseOperators (same : Basis → Basis → Bool) (ops : NoiseOperators) (b0 b1 c0 c1 : Basis) :
    Option NoiseOperators :=
  (convertMatrix same b0 c0 b1 c1).map fun C =>
    ⟨ops.count, c0.n, c1.n, flatten3 c0.n c1.n fun a => C fun i j => ops.data ((a * ops.rows + i) * ops.cols + j), ops.values,
      ops.eigenvalue⟩

/-- `convert_diagonal_noise_operator_list_to_basis`, `kernel/conversion.py:57-77`, with
`convert_diagonal_operator_list_to_basis`, `operator/conversion.py:105-121`. -/
noncomputable def convertDiagonalNoiseOperators (same : Basis → Basis → Bool) (ops : DiagonalNoiseOperators)
    (b0 b1 c0 c1 : Basis) : Option NoiseOperators := convertNoiseOperators same (asFullOperators ops) b0 b1 c0 c1

/-- `convert_kernel_to_basis`, `kernel/conversion.py:80-97`, for operators with the same basis `b` on both sides, converted to
the basis `c` on both sides. -/
noncomputable def convertKernel (eigh : ∀ N, Matrix (Fin N) (Fin N) ℂ → EigResult) (same : Basis → Basis → Bool) (b c : Basis)
    (K : ℕ → ℂ) : Option (ℕ → ℂ) :=
  (eigenOperators eigh b.n K).bind fun ops => (convertNoiseOperators same ops b b c c).bind getFullKernel

/-- `convert_diagonal_kernel_to_basis`, `kernel/conversion.py:100-117`, likewise. -/
noncomputable def convertDiagonalKernel (eigh : ∀ N, Matrix (Fin N) (Fin N) ℂ → EigResult) (same : Basis → Basis → Bool)
    (b c : Basis) (d : ℕ → ℂ) : Option (ℕ → ℂ) :=
  (diagonalEigenOperators eigh b.n d).bind fun ops => (convertDiagonalNoiseOperators same ops b b c c).bind getFullKernel

/-- `convert_isotropic_kernel_to_basis`, `kernel/conversion.py:120-136`: the values are converted as a vector. -/
noncomputable def convertIsotropicKernel (same : Basis → Basis → Bool) (b c : Basis) (β : ℕ → ℂ) : Option (ℕ → ℂ) :=
  (Basis.convert same b c).map fun f => f β

end Verif
