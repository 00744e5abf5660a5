import Verif.Model.Operator
import Mathlib.Analysis.SpecialFunctions.Pow.Complex

/-!
Noise kernels and noise operators: `kernel/kernel.py`, `kernel/build.py`, `kernel/sample.py`, `kernel/solve/_eigenvalue.py`.

Kernels are flat arrays. A full kernel on `p × q` operators has the entries `((i, j), (k, l))`; a diagonal kernel on diagonal
operators with `n` entries has the entries `(i, j)`; an isotropic kernel has one entry for each displacement.
`np.testing.assert_allclose` and the like are modelled as exact comparisons.
-/

set_option autoImplicit false

namespace Verif

open Finset

/-- The flat data of an array with four axes, of which the last three have lengths `p`, `q`, `r`. -/
def flatten4 (p q r : ℕ) (f : ℕ → ℕ → ℕ → ℕ → ℂ) : ℕ → ℂ := flatten (p * q * r) fun a => flatten3 q r (f a)

/-! ## Conversions of kernels -/

/-- `as_full_kernel_from_diagonal`, `kernel/kernel.py:153-172`: `np.diag(data).reshape(n, m, n, m).swapaxes(1, 2)`. -/
noncomputable def fullFromDiagonal (n m : ℕ) (d : ℕ → ℂ) : ℕ → ℂ :=
  flatten4 n m m fun i i' j j' => if i * m + j = i' * m + j' then d (i * m + j) else 0

/-- `as_diagonal_kernel_from_full`, `kernel/kernel.py:175-195`: the diagonal of
`data.reshape(n, n, m, m).swapaxes(1, 2).reshape(n * m, n * m)`. -/
def diagonalFromFull (n m : ℕ) (K : ℕ → ℂ) : ℕ → ℂ := flatten m fun i j => K (((i * n + i) * m + j) * m + j)

/-- `as_diagonal_kernel_from_isotropic`, `kernel/kernel.py:198-227`. -/
def diagonalFromIsotropic (n : ℕ) (β : ℕ → ℂ) : ℕ → ℂ := flatten n fun i j => β (((i : ℤ) - j) % n).toNat

open Classical in
/-- `as_isotropic_kernel_from_diagonal`, `kernel/kernel.py:230-254`: the first row. `None` is the failed assertion. -/
noncomputable def isotropicFromDiagonal (n : ℕ) (d : ℕ → ℂ) (assertIsotropic : Bool) : Option (ℕ → ℂ) :=
  let out := fun j => d j
  if assertIsotropic = true ∧ ¬ ∀ k < n * n, diagonalFromIsotropic n out k = d k then none else some out

/-- `as_diagonal_kernel_from_isotropic_stacked`, `kernel/kernel.py:260-299`: the displacement of each axis separately. -/
def diagonalFromIsotropicStacked (shape : List ℕ) (β : ℕ → ℂ) : ℕ → ℂ := flatten shape.prod fun i j =>
  β (ravel shape (List.zipWith3 (fun n a b : ℕ => (((a : ℤ) - b) % n).toNat) shape (unravel shape i) (unravel shape j)))

open Classical in
/-- `as_isotropic_kernel_from_diagonal_stacked`, `kernel/kernel.py:302-334`: the first column. -/
noncomputable def isotropicFromDiagonalStacked (shape : List ℕ) (d : ℕ → ℂ) (assertIsotropic : Bool) : Option (ℕ → ℂ) :=
  let out := fun i => d (i * shape.prod)
  if assertIsotropic = true ∧ ¬ ∀ k < shape.prod * shape.prod, diagonalFromIsotropicStacked shape out k = d k then none
  else some out

/-- Entry of the outer product of arrays at a multi-index: `_outer_product`, `kernel/kernel.py:343-347`. -/
def outerProduct : List (ℕ → ℂ) → List ℕ → ℂ
  | k :: ks, i :: is => k i * outerProduct ks is
  | _, _ => 1

/-- `as_isotropic_kernel_from_axis`, `kernel/kernel.py:350-360`; the kernel of each axis has the length given by the shape. -/
def isotropicFromAxis (shape : List ℕ) (kernels : List (ℕ → ℂ)) : ℕ → ℂ := fun k => outerProduct kernels (unravel shape k)

/-- `as_axis_kernel_from_isotropic`, `kernel/kernel.py:363-382`: the values along each axis through the origin, times a power of
the value at the origin. -/
noncomputable def axisFromIsotropic (shape : List ℕ) (β : ℕ → ℂ) : List (ℕ → ℂ) :=
  (List.range shape.length).map fun i : ℕ => fun x : ℕ =>
    β 0 ^ ((1 - (shape.length : ℂ)) / shape.length) * β (ravel shape ((shape.map fun _ : ℕ => 0).set i x))

/-! ## Kernels from operators -/

/-- `SingleBasisDiagonalNoiseOperatorList`, `kernel/kernel.py:126-148`: a list of `count` diagonal operators with `dim` entries
(flat data), and an array of `values` eigenvalues. -/
structure DiagonalNoiseOperators where
  count : ℕ
  dim : ℕ
  data : ℕ → ℂ
  values : ℕ
  eigenvalue : ℕ → ℂ

/-- `NoiseOperatorList`, `kernel/kernel.py:126-148`: a list of `count` operators of shape `rows × cols`. -/
structure NoiseOperators where
  count : ℕ
  rows : ℕ
  cols : ℕ
  data : ℕ → ℂ
  values : ℕ
  eigenvalue : ℕ → ℂ

/-- The length of an index of `np.einsum` which has two lengths: an axis of length one is repeated, other differences raise. -/
def einsumLength (p q : ℕ) : Option ℕ := if p = q then some p else if p = 1 then some q else if q = 1 then some p else none

/-- The entry of an axis of the given length which is used for an index of `np.einsum`. -/
def einsumIndex (len a : ℕ) : ℕ := if len = 1 then 0 else a

/-- `get_full_kernel_from_operators`, `kernel/kernel.py:429-456`: `np.einsum("a,aji,akl->ij kl", ...)`. -/
noncomputable def getFullKernel (ops : NoiseOperators) : Option (ℕ → ℂ) :=
  (einsumLength ops.values ops.count).map fun N =>
    flatten4 ops.rows ops.rows ops.cols fun i j k l => ∑ a ∈ range N,
      ops.eigenvalue (einsumIndex ops.values a) *
        (starRingEnd ℂ) (ops.data ((einsumIndex ops.count a * ops.rows + j) * ops.cols + i)) *
        ops.data ((einsumIndex ops.count a * ops.rows + k) * ops.cols + l)

/-- `get_diagonal_kernel_from_diagonal_operators`, `kernel/kernel.py:459-483`: `np.einsum("a,ai,aj->ij", ...)`. -/
noncomputable def getDiagonalKernel (ops : DiagonalNoiseOperators) : Option (ℕ → ℂ) :=
  (einsumLength ops.values ops.count).map fun N =>
    flatten ops.dim fun i j => ∑ a ∈ range N,
      ops.eigenvalue (einsumIndex ops.values a) * (starRingEnd ℂ) (ops.data (einsumIndex ops.count a * ops.dim + i)) *
        ops.data (einsumIndex ops.count a * ops.dim + j)

/-- `as_noise_operators_from_diagonal`, `kernel/kernel.py:408-426` (`diagonal_operator_list_as_full`,
`operator/operator_list.py:100-121`). -/
noncomputable def asFullOperators (ops : DiagonalNoiseOperators) : NoiseOperators :=
  ⟨ops.count, ops.dim, ops.dim, flatten3 ops.dim ops.dim fun a i j => if i = j then ops.data (a * ops.dim + i) else 0,
    ops.values, ops.eigenvalue⟩

/-- `as_diagonal_noise_operators_from_full`, `kernel/kernel.py:385-404` (`operator_list_as_diagonal`,
`operator/operator_list.py:124-145`), for square operators. -/
def asDiagonalOperators (ops : NoiseOperators) : DiagonalNoiseOperators :=
  ⟨ops.count, ops.rows, flatten ops.rows fun a i => ops.data ((a * ops.rows + i) * ops.cols + i), ops.values, ops.eigenvalue⟩

/-- `get_diagonal_kernel_from_operators`, `kernel/kernel.py:486-502`. -/
noncomputable def getDiagonalKernelFromFull (ops : NoiseOperators) : Option (ℕ → ℂ) := getDiagonalKernel (asDiagonalOperators ops)

/-- `get_isotropic_kernel_from_diagonal_operators`, `kernel/kernel.py:505-530`. -/
noncomputable def getIsotropicKernel (ops : DiagonalNoiseOperators) (assertIsotropic : Bool) : Option (ℕ → ℂ) :=
  (getDiagonalKernel ops).bind fun d => isotropicFromDiagonal ops.dim d assertIsotropic

/-- `get_isotropic_kernel_from_diagonal_operators_stacked`, `kernel/kernel.py:533-558`. -/
noncomputable def getIsotropicKernelStacked (shape : List ℕ) (ops : DiagonalNoiseOperators) (assertIsotropic : Bool) :
    Option (ℕ → ℂ) := (getDiagonalKernel ops).bind fun d => isotropicFromDiagonalStacked shape d assertIsotropic

/-- `get_diagonal_noise_operators_from_axis`, `kernel/kernel.py:589-629`: products of one operator of each axis; the new index
of the operators is the multi-index of the operators of the axes, and likewise for the entries. -/
def operatorsFromAxis (l : List DiagonalNoiseOperators) : DiagonalNoiseOperators :=
  let counts := l.map DiagonalNoiseOperators.count
  let dims := l.map DiagonalNoiseOperators.dim
  let values := l.map DiagonalNoiseOperators.values
  ⟨counts.prod, dims.prod, flatten dims.prod fun a x =>
      outerProduct (List.zipWith (fun ops a' => fun x' => ops.data (a' * ops.dim + x')) l (unravel counts a)) (unravel dims x),
    values.prod, fun a => outerProduct (l.map DiagonalNoiseOperators.eigenvalue) (unravel values a)⟩

/-! ## Eigenvalue method -/

open Classical in
/-- `get_periodic_noise_operators_eigenvalue`, `kernel/solve/_eigenvalue.py:33-81`, for operators of shape `n × n`: the first
two axes are swapped, the matrix must be Hermitian. `eigh` is `np.linalg.eigh`. (The second assertion compares the decomposition
with the matrix, which is the contract of `eigh`.) -/
noncomputable def eigenOperators (eigh : ∀ N, Matrix (Fin N) (Fin N) ℂ → EigResult) (n : ℕ) (K : ℕ → ℂ) :
    Option NoiseOperators :=
  let M := toMatrix (n * n) fun p q => K (((p % n) * n + p / n) * (n * n) + q)
  if M = M.conjTranspose then
    some ⟨n * n, n, n, flatten (n * n) fun a p => (starRingEnd ℂ) ((eigh (n * n) M).vectors p a), n * n,
      (eigh (n * n) M).eigenvalues⟩
  else none

open Classical in
/-- `get_periodic_noise_operators_diagonal_eigenvalue`, `kernel/solve/_eigenvalue.py:85-140`. -/
noncomputable def diagonalEigenOperators (eigh : ∀ N, Matrix (Fin N) (Fin N) ℂ → EigResult) (n : ℕ) (d : ℕ → ℂ) :
    Option DiagonalNoiseOperators :=
  let M := toMatrix n fun i j => d (i * n + j)
  if M = M.conjTranspose then
    some ⟨n, n, flatten n fun a i => (starRingEnd ℂ) ((eigh n M).vectors i a), n, (eigh n M).eigenvalues⟩
  else none

/-! ## Truncation -/

/-- `truncate_diagonal_noise_operator_list`, `kernel/build.py:276-298`: `order` is the result of `np.argsort` for the absolute
values of the eigenvalues; the ranks `truncation` (nonnegative in the model) count from the largest. An empty list raises (an
array of floats is not an index). -/
def truncateDiagonalOperators (order : ℕ → ℕ) (ops : DiagonalNoiseOperators) (truncation : List ℕ) :
    Option DiagonalNoiseOperators :=
  if truncation ≠ [] ∧ ∀ t ∈ truncation, t < ops.values ∧ order (ops.values - 1 - t) < ops.count then
    let args := fun a => order (ops.values - 1 - truncation.getD a 0)
    some ⟨truncation.length, ops.dim, flatten ops.dim fun a i => ops.data (args a * ops.dim + i), truncation.length,
      fun a => ops.eigenvalue (args a)⟩
  else none

/-- `truncate_noise_operator_list`, `kernel/build.py:301-323`: `order` is the result of `np.argsort` for the eigenvalues
themselves. -/
def truncateOperators (order : ℕ → ℕ) (ops : NoiseOperators) (truncation : List ℕ) : Option NoiseOperators :=
  if truncation ≠ [] ∧ ∀ t ∈ truncation, t < ops.values ∧ order (ops.values - 1 - t) < ops.count then
    let args := fun a => order (ops.values - 1 - truncation.getD a 0)
    some ⟨truncation.length, ops.rows, ops.cols,
      flatten (ops.rows * ops.cols) fun a p => ops.data (args a * (ops.rows * ops.cols) + p), truncation.length,
      fun a => ops.eigenvalue (args a)⟩
  else none

/-- `truncate_noise_kernel`, `kernel/build.py:326-345`; `argsort` is `np.argsort` on an array of the given length. -/
noncomputable def truncateKernel (eigh : ∀ N, Matrix (Fin N) (Fin N) ℂ → EigResult) (argsort : ℕ → (ℕ → ℂ) → ℕ → ℕ) (n : ℕ)
    (K : ℕ → ℂ) (truncation : List ℕ) : Option (ℕ → ℂ) :=
  (eigenOperators eigh n K).bind fun ops =>
    (truncateOperators (argsort ops.values ops.eigenvalue) ops truncation).bind getFullKernel

/-- The data of diagonal operators read as the data of full operators, as `operator_list_as_diagonal`
(`operator/operator_list.py:124-145`) does when it is given diagonal operators: the reshape raises unless the number of entries
agrees. -/
def reinterpretAsFull (ops : DiagonalNoiseOperators) : Option NoiseOperators :=
  if ops.count * ops.dim = ops.count * (ops.dim * ops.dim) then
    some ⟨ops.count, ops.dim, ops.dim, ops.data, ops.values, ops.eigenvalue⟩
  else none

/-- `truncate_diagonal_noise_kernel`, `kernel/build.py:350-367`: the diagonal operators are passed to
`get_diagonal_kernel_from_operators`, which expects full operators. -/
noncomputable def truncateDiagonalKernel (eigh : ∀ N, Matrix (Fin N) (Fin N) ℂ → EigResult) (argsort : ℕ → (ℕ → ℝ) → ℕ → ℕ)
    (n : ℕ) (d : ℕ → ℂ) (truncation : List ℕ) : Option (ℕ → ℂ) :=
  (diagonalEigenOperators eigh n d).bind fun ops =>
    (truncateDiagonalOperators (argsort ops.values fun a => ‖ops.eigenvalue a‖) ops truncation).bind fun t =>
      (reinterpretAsFull t).bind getDiagonalKernelFromFull

/-! ## Temperature correction -/

/-- `_get_temperature_corrected_operators`, `kernel/build.py:172-185`; `kT` is the Boltzmann constant times the temperature. -/
noncomputable def temperatureCorrected (same : Basis → Basis → Bool) (H : Operator) (L : OperatorList) (kT : ℝ) :
    Option OperatorList :=
  (getCommutatorOperatorList same H L).bind fun c => addListList same (scaleOperatorList (-1 / (4 * kT)) c) L

/-- `_get_temperature_corrected_diagonal_operators`, `kernel/build.py:225-236`. -/
noncomputable def temperatureCorrectedDiagonal (same : Basis → Basis → Bool) (H : Operator) (L : DiagonalOperatorList) (kT : ℝ) :
    Option OperatorList :=
  (convertOperator same H L.b0 L.b1).bind fun converted =>
    (getCommutatorDiagonalOperatorList same converted L).bind fun c =>
      addListList same (scaleOperatorList (-1 / (4 * kT)) c) (diagonalOperatorListAsFull L)

/-! ## Sampling -/

/-- `np.lib.scimath.sqrt`: the square root, complex for negative numbers. -/
noncomputable def scimathSqrt (z : ℂ) : ℂ := z ^ (1 / 2 : ℂ)

/-- The random factors of both sampling functions,
`kernel/sample.py:51-55` and `kernel/sample.py:150-154`, from two arrays `(sample, operator)` of real random numbers. -/
noncomputable def standardFactors (x y : ℕ → ℕ → ℝ) (i j : ℕ) : ℂ := (x i j + Complex.I * y i j) / Real.sqrt 2

/-- `sample_noise_from_diagonal_operators_split`, `kernel/sample.py:35-69`, for given random factors `(sample, operator)` and
as many eigenvalues as operators: the flat array `(operator, sample, entry)`. -/
noncomputable def sampleSplit (hbar : ℝ) (ops : DiagonalNoiseOperators) (samples : ℕ) (factors : ℕ → ℕ → ℂ) : ℕ → ℂ :=
  flatten3 samples ops.dim fun j i k => factors i j * scimathSqrt (ops.eigenvalue j * hbar) * ops.data (j * ops.dim + k)

/-- `diagonal_operator_list_from_diagonal_split`, `kernel/sample.py:72-90`: the sum over the first axis. -/
def sumSplit (count samples dim : ℕ) (data : ℕ → ℂ) : ℕ → ℂ :=
  flatten dim fun i k => ∑ j ∈ range count, data ((j * samples + i) * dim + k)

/-- `sample_noise_from_diagonal_operators`, `kernel/sample.py:116-131`. -/
noncomputable def sampleNoise (hbar : ℝ) (ops : DiagonalNoiseOperators) (samples : ℕ) (factors : ℕ → ℕ → ℂ) : ℕ → ℂ :=
  sumSplit ops.count samples ops.dim (sampleSplit hbar ops samples factors)

/-- `sample_noise_from_operators`, `kernel/sample.py:134-165`: the flat array `(sample, entry)`. -/
noncomputable def sampleFullNoise (hbar : ℝ) (ops : NoiseOperators) (factors : ℕ → ℕ → ℂ) : ℕ → ℂ :=
  flatten (ops.rows * ops.cols) fun i k => ∑ j ∈ range ops.count,
    factors i j * scimathSqrt (ops.eigenvalue j * hbar) * ops.data (j * (ops.rows * ops.cols) + k)

/-- `sample_noise_from_diagonal_kernel`, `kernel/sample.py:168-190`; `truncation` is `None` for all operators. -/
noncomputable def sampleKernelNoise (eigh : ∀ N, Matrix (Fin N) (Fin N) ℂ → EigResult) (argsort : ℕ → (ℕ → ℝ) → ℕ → ℕ)
    (hbar : ℝ) (n : ℕ) (d : ℕ → ℂ) (samples : ℕ) (truncation : Option (List ℕ)) (factors : ℕ → ℕ → ℂ) : Option (ℕ → ℂ) :=
  (diagonalEigenOperators eigh n d).bind fun ops =>
    (truncateDiagonalOperators (argsort ops.values fun a => ‖ops.eigenvalue a‖) ops (truncation.getD (List.range ops.count))).map
      fun t => sampleNoise hbar t samples factors

end Verif
