import Verif.Model.Wannier
import Verif.Model.Geometry

/-!
Overlaps: `overlap/overlap.py`, `overlap/calculation.py`, `overlap/conversion.py`, `overlap/interpolation.py`.
-/

set_option autoImplicit false

namespace Verif

open Finset Matrix

/-- `get_overlap_cache_filename`, `overlap/overlap.py:56-87`. -/
def getOverlapCacheFilename (i j : ℤ) (offsetI offsetJ : ℤ × ℤ) : Option String :=
  let tooLargeI := ¬((-2 < offsetI.1 ∧ offsetI.1 < 2) ∧ (-2 < offsetI.2 ∧ offsetI.2 < 2))
  let tooLargeJ := ¬((-2 < offsetJ.1 ∧ offsetJ.1 < 2) ∧ (-2 < offsetJ.2 ∧ offsetJ.2 < 2))
  if tooLargeI ∨ tooLargeJ ∨ i > 1 ∨ j > 1 then none
  else some ("overlap/overlap_" ++ toString i ++ "_" ++ toString (offsetI.1 % 3) ++ "_" ++ toString (offsetI.2 % 3) ++ "_" ++ toString j ++ "_" ++
    toString (offsetJ.1 % 3) ++ "_" ++ toString (offsetJ.2 % 3) ++ ".npy")

/-- `Overlap`, `overlap/overlap.py:19`: the basis of the points, the two bases of the states, the flat data. -/
structure Overlap where
  basis : Basis
  list0 : Basis
  list1 : Basis
  data : ℕ → ℂ

/-- `get_single_overlap`, `overlap/overlap.py:25-53`, for a flat index; `none` is the `IndexError` (negative flat indices are not modelled). -/
noncomputable def getSingleOverlap (o : Overlap) (idx : ℕ) : Option Overlap :=
  let n := o.list0.n * o.list1.n
  if idx < n then some ⟨o.basis, .fundamental 1, .fundamental 1, fun x => o.data (x * n + idx)⟩ else none

/-- `get_single_overlap`, `overlap/overlap.py:25-53`, for a pair of indices. -/
noncomputable def getSingleOverlapStacked (o : Overlap) (i j : ℤ) : Option Overlap :=
  (getFlatIndex .raise [o.list0.n, o.list1.n] [i, j]).bind (getSingleOverlap o)

/-- `calculate_wavepacket_overlap`, `overlap/calculation.py:47-84`. States of different lengths raise (the broadcast of a state with one point is not modelled). -/
noncomputable def calculateWavepacketOverlap (same : Basis → Basis → Bool) (w0 w1 : StateVectorList) : Option Overlap :=
  (unfurlWavepacket same w0).bind fun u0 => (convertStateVector same u0 u0.basis.asPositionBasis).bind fun s0 =>
    (unfurlWavepacket same w1).bind fun u1 => (convertStateVector same u1 u1.basis.asPositionBasis).bind fun s1 =>
      if s0.basis.n = s1.basis.n then
        some ⟨s0.basis, .fundamental 1, .fundamental 1, fun x => (starRingEnd ℂ) (s0.data x) * s1.data x⟩
      else none

/-- `calculate_state_vector_list_overlap`, `overlap/calculation.py:87-118`, for a flat shift: the product has the indices
`(a, b, x)`, after `swapaxes(-1, 0)` they are `(x, b, a)`. -/
noncomputable def stateVectorListOverlap (l : StateVectorList) (shift : ℤ) : Overlap :=
  let n := l.listBasis.n
  let nx := l.basis.n
  let product : ℕ → ℕ → ℕ → ℂ := fun a b x => (starRingEnd ℂ) (block nx l.data b x) * roll nx shift (block nx l.data a) x
  ⟨l.basis, l.listBasis, l.listBasis, fun k => product (k % n) (k / n % n) (k / (n * n))⟩

/-- `calculate_state_vector_list_overlap`, `overlap/calculation.py:87-118`, for a stacked shift of a basis with the given shape: it is
flattened with the mode `wrap`. -/
noncomputable def stateVectorListOverlapStacked (shape : List ℕ) (l : StateVectorList) (shift : List ℤ) : Option Overlap :=
  (getFlatIndex .wrap shape shift).map fun s => stateVectorListOverlap l s

open Classical in
/-- `calculate_wavepacket_list_overlap`, `overlap/calculation.py:145-177`, without the argument `basis`: the states are unfurled and
converted to the position basis. -/
noncomputable def wavepacketListOverlap (same : Basis → Basis → Bool) (w : BlochWavefunctions) (shift : ℤ) : Option Overlap :=
  if ∀ i < w.bands, (wannierFundamental same w i).isSome then
    let basis := Basis.tuple ((unfurledShape w.axes).map .fundamental)
    some (stateVectorListOverlap ⟨.fundamental w.bands, basis, flatten basis.n fun i => (wannierFundamental same w i).getD fun _ => 0⟩ shift)
  else none

/-- `convert_overlap_to_basis`, `overlap/conversion.py:33-58`. -/
noncomputable def convertOverlap (same : Basis → Basis → Bool) (o : Overlap) (b : Basis) : Option Overlap :=
  let n := o.list0.n * o.list1.n
  (Basis.convert same o.basis b).map fun f => ⟨b, o.list0, o.list1, fun k => f (fun x => o.data (x * n + k % n)) (k / n)⟩

/-- The checks of the arguments of `np.fft.ifftn` for an array with `ndim` axes: as many lengths as axes, and no axis out of range. -/
def ifftnAccepts (ndim : ℕ) (s axes : List ℕ) : Bool := s.length = axes.length ∧ ∀ a ∈ axes, a < ndim

/-- `convert_overlap_to_momentum_basis`, `overlap/conversion.py:62-94`. The result of the call of `ifftn` is not used, but its arguments are
checked: the data has two axes (points, states). -/
noncomputable def convertOverlapToMomentum (same : Basis → Basis → Bool) (o : Overlap) : Option Overlap :=
  if ifftnAccepts 2 [o.basis.methods.fn, (Basis.tuple [o.list0, o.list1]).methods.fn] [0, 1, 2] then convertOverlap same o o.basis.asTransformedBasis
  else none

/-- `convert_overlap_to_position_basis`, `overlap/conversion.py:97-121`. -/
noncomputable def convertOverlapToPosition (same : Basis → Basis → Bool) (o : Overlap) : Option Overlap :=
  convertOverlap same o o.basis.asPositionBasis

variable {d : ℕ}

/-- `nx_points_wrapped`, `overlap/interpolation.py:68-70` and `overlap/interpolation.py:102-104`: the indices of point `j`, wrapped around the origin on the axes 0 and 1. -/
def wrappedNx (shape : Fin d → ℕ) (j : ℕ) : Fin d → ℤ := fun i =>
  (wrapIndexAroundOrigin (List.ofFn shape) (some [0, 1]) none ((stackedNxPoints (List.ofFn shape) j).map fun x : ℕ => (x : ℤ))).getD i 0

/-- `get_overlap_momentum_interpolator_k_fractions`, `overlap/interpolation.py:46-79`, at one point. All axes are divided by `shape[0]`. -/
noncomputable def overlapInterpolatorFractions (shape : Fin (d + 1) → ℕ) (data : ℕ → ℂ) (k : Fin (d + 1) → ℝ) : ℂ :=
  ∑ j ∈ range (List.ofFn shape).prod, data j *
    Complex.exp (2 * Complex.I * Real.pi * ((∑ i, (wrappedNx shape j i : ℝ) / shape 0 * k i : ℝ) : ℂ))

/-- `get_overlap_momentum_interpolator`, `overlap/interpolation.py:83-113`, at one point. -/
noncomputable def overlapInterpolator (A : Matrix (Fin d) (Fin d) ℝ) (shape : Fin d → ℕ) (data : ℕ → ℂ) (k : Fin d → ℝ) : ℂ :=
  ∑ j ∈ range (List.ofFn shape).prod, data j * Complex.exp (Complex.I * ((xPointAtIndex A shape (wrappedNx shape j) ⬝ᵥ k : ℝ) : ℂ))

/-- The points of `get_overlap_momentum_interpolator_flat`, `overlap/interpolation.py:141-149`: the last axis has a single point; the wrapping uses the
shape of the overlap; the first two components are kept. -/
noncomputable def flatXPoint (A : Matrix (Fin 3) (Fin 3) ℝ) (n0 n1 n2 : ℕ) (j : ℕ) : Fin 2 → ℝ := fun c =>
  xPointAtIndex A ![n0, n1, 1] (fun i =>
    (wrapIndexAroundOrigin [n0, n1, n2] (some [0, 1]) none ((stackedNxPoints [n0, n1, 1] j).map fun x : ℕ => (x : ℤ))).getD i 0) (c.castSucc)

/-- `vector_transformed`, `overlap/interpolation.py:151-152`. -/
noncomputable def flatVector (n0 n1 n2 : ℕ) (data : ℕ → ℂ) (j : ℕ) : ℂ :=
  ifft .forward n2 (fun z => data (ravel [n0, n1, n2] (unravel [n0, n1] j ++ [z]))) 0

/-- `get_overlap_momentum_interpolator_flat`, `overlap/interpolation.py:116-168`, at one point. `order` is the result of `np.argsort` of the absolute values. -/
noncomputable def overlapInterpolatorFlat (A : Matrix (Fin 3) (Fin 3) ℝ) (n0 n1 n2 : ℕ) (data : ℕ → ℂ) (nPoints : Option ℕ) (order : List ℕ)
    (k : Fin 2 → ℝ) : ℂ :=
  let relevant := match nPoints with
    | none => List.range (n0 * n1)
    | some n => order.reverse.take n
  (relevant.map fun j => flatVector n0 n1 n2 data j * Complex.exp (Complex.I * ((flatXPoint A n0 n1 n2 j ⬝ᵥ k : ℝ) : ℂ))).sum

/-- `np.linspace(0, 2 * np.pi, n)`. -/
noncomputable def thetaSample (n j : ℕ) : ℝ := if n = 1 then 0 else 2 * Real.pi * j / (n - 1)

/-- `get_angle_averaged_diagonal_overlap_function`, `overlap/interpolation.py:171-201`, for one length. -/
noncomputable def angleAveraged (f : (Fin 2 → ℝ) → ℂ) (q : ℝ) (samples : ℕ) : ℝ :=
  (∑ j ∈ range samples, ‖f ![q * Real.cos (thetaSample samples j), q * Real.sin (thetaSample samples j)]‖ ^ 2) / samples

end Verif
