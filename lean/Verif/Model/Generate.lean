import Verif.Model.Wannier
import Verif.Model.Bloch
import Verif.Model.Reduce
import Verif.Model.Operator

/-!
Generation of wavepackets and lists of wavepackets (one for each band): `wavepacket/wavepacket.py`, and the Bloch basis and Bloch
hamiltonians of `wavepacket/get_eigenstate.py`.
-/

set_option autoImplicit false

namespace Verif

open Finset

/-- `BlochWavefunctionListList`, `wavepacket/wavepacket.py:94-108`: a list basis `TupleBasis(bands, samples)`, a basis of the
states, and flat data in the order (band, sample, state). -/
structure WavepacketList where
  band : Basis
  list : Basis
  basis : Basis
  data : ℕ → ℂ

/-- The list as a list of states. -/
def WavepacketList.states (w : WavepacketList) : StateVectorList := ⟨.tuple [w.band, w.list], w.basis, w.data⟩

/-- `scipy.linalg.eigh(matrix, subset_by_index=(lo, hi))` as called at `state_vector/eigenstate_calculation.py:57-60`: the
numerical routine `eigh` is a parameter; scipy raises a `ValueError` for indices which are not `0 ≤ lo ≤ hi < n`. -/
noncomputable def eighSubset (eigh : Operator → ℕ → ℕ → EigResult) (A : Operator) (lo hi : ℤ) : Option EigResult :=
  if 0 ≤ lo ∧ lo ≤ hi ∧ hi < A.b0.n then some (eigh A lo.toNat hi.toNat) else none

/-- `offset, step`, `wavepacket/wavepacket.py:266-270`. -/
def bandOffsetStep : Basis → ℤ × ℕ
  | .evenlySpaced _ step offset => (offset, step)
  | _ => (0, 1)

/-- `generate_uneven_wavepacket`, `wavepacket/wavepacket.py:241-294`, for `N` samples with the given fractions (entry
`(axis, sample)`) in `ndim` directions; the result carries the basis of the last hamiltonian. Simplified: hamiltonians of different
sizes raise (the code reshapes with the size of the first one, which fails or mixes up the rows). -/
noncomputable def generateUneven (eigh : Operator → ℕ → ℕ → EigResult) (gen : (ℕ → ℝ) → Operator) (ndim N : ℕ)
    (fractions : ℕ → ℕ → ℝ) (list band : Basis) : Option (WavepacketList × (ℕ → ℂ)) :=
  let h := fun i => gen fun ax => fractions ax i
  let basisSize := (h 0).b0.n
  let offset := (bandOffsetStep band).1
  let step := (bandOffsetStep band).2
  let hi := offset + step * ((band.n : ℤ) - 1)
  if 0 < N ∧ ndim = (h 0).b0.fundamentalShape.length ∧
      ∀ i < N, (h i).b0.n = basisSize ∧ (eighSubset eigh (h i) offset hi).isSome then
    let eigenstates := fun i => calculateEigenvectors (h i) (hi - offset + 1).toNat
      ((eighSubset eigh (h i) offset hi).getD ⟨fun _ => 0, fun _ _ => 0⟩)
    some (⟨band, list, (h (N - 1)).b0, flatten (N * basisSize) fun b => flatten basisSize fun i =>
        block basisSize (eigenstates i).states.data (step * b)⟩,
      flatten N fun b i => (eigenstates i).eigenvalue (step * b))
  else none

/-- `generate_wavepacket`, `wavepacket/wavepacket.py:297-326`. -/
noncomputable def generateWavepacket (same : Basis → Basis → Bool) (eigh : Operator → ℕ → ℕ → EigResult)
    (gen : (ℕ → ℝ) → Operator) (list band : Basis) : Option (WavepacketList × (ℕ → ℂ)) :=
  (sampleFractions same list).bind fun φ => generateUneven eigh gen list.fundamentalShape.length list.n φ list band

/-- The sizes of a row of the list: `reshape(bands, -1)`, `wavepacket/wavepacket.py:364`. -/
noncomputable def WavepacketList.row (w : WavepacketList) : ℕ := w.list.n * w.basis.n

/-- `arr[idx]` for an array with `n` entries and a python integer `idx`, as at `wavepacket/wavepacket.py:364`: negative indices
count from the end, an index out of range raises. -/
def pyIndex (n : ℕ) (idx : ℤ) : Option ℕ :=
  if 0 ≤ idx ∧ idx < n then some idx.toNat else if -n ≤ idx ∧ idx < 0 then some (idx + n).toNat else none

/-- `get_wavepacket`, `wavepacket/wavepacket.py:346-365`, with `get_wavepacket_basis`, `wavepacket/wavepacket.py:329-343`. -/
noncomputable def getWavepacket (w : WavepacketList) (idx : ℤ) : Option StateVectorList :=
  (pyIndex w.band.n idx).map fun i => ⟨w.list, w.basis, block w.row w.data i⟩

/-- `get_wavepacket_at_band`, `wavepacket/wavepacket.py:368-390`: with the eigenvalues. -/
noncomputable def getWavepacketAtBand (w : WavepacketList) (e : ℕ → ℂ) (idx : ℤ) : Option EigenstateList :=
  (pyIndex w.band.n idx).map fun i => ⟨⟨w.list, w.basis, block w.row w.data i⟩, block w.list.n e i⟩

/-- The indices selected by `slice(start, stop, step)` from an axis with `n` entries: `range(*slice.indices(n))`, python's
documented rule, for a positive step. -/
def sliceIndices (n : ℕ) (start stop : Option ℤ) (step : ℕ) : List ℕ :=
  let clip := fun i : ℤ => if i < 0 then (i + n).toNat else min i.toNat n
  let lo := (start.map clip).getD 0
  let hi := (stop.map clip).getD n
  (List.range n).filter fun i => lo ≤ i ∧ i < hi ∧ (i - lo) % step = 0

/-- `get_wavepackets`, `wavepacket/wavepacket.py:393-417`, for the indices selected by the slice. -/
noncomputable def getWavepackets (w : WavepacketList) (start stop : Option ℤ) (step : ℕ) : WavepacketList :=
  let idx := sliceIndices w.band.n start stop step
  ⟨.fundamental idx.length, w.list, w.basis, flatten w.row fun b => block w.row w.data (idx.getD b 0)⟩

/-- `get_wavepackets_with_eigenvalues`, `wavepacket/wavepacket.py:421-447`. -/
noncomputable def getWavepacketsWithEigenvalues (w : WavepacketList) (e : ℕ → ℂ) (start stop : Option ℤ) (step : ℕ) :
    WavepacketList × (ℕ → ℂ) :=
  let idx := sliceIndices w.band.n start stop step
  (getWavepackets w start stop step, flatten w.list.n fun b => block w.list.n e (idx.getD b 0))

/-- `as_wavepacket_list`, `wavepacket/wavepacket.py:450-472`. An iterable is either a container, which can be run through again,
or an iterator (`oneShot`), from which `next(iter(..))` removes the first entry. `none` is the `StopIteration` of an empty
iterable, or arrays of different lengths. -/
noncomputable def asWavepacketList (oneShot : Bool) (l : List StateVectorList) : Option WavepacketList :=
  match l with
  | [] => none
  | w0 :: rest =>
    let seen := if oneShot then rest else w0 :: rest
    if ∀ s ∈ seen, ∀ t ∈ seen, s.listBasis.n * s.basis.n = t.listBasis.n * t.basis.n then
      some ⟨.fundamental seen.length, w0.listBasis, w0.basis,
        flatten ((seen.headD w0).listBasis.n * (seen.headD w0).basis.n) fun b => (seen.getD b w0).data⟩
    else none

/-- `wavepacket_list_into_iter`, `wavepacket/wavepacket.py:475-491`. -/
noncomputable def wavepacketListIntoIter (w : WavepacketList) : List StateVectorList :=
  (List.range w.band.n).map fun b => ⟨w.list, w.basis, block w.row w.data b⟩

/-- `get_average_eigenvalues`, `wavepacket/wavepacket.py:494-513`, with `get_eigenvalues_list`,
`state_vector/eigenstate_list.py:52-69`: the operator has the basis `averaged["basis"][0][0]` twice. -/
noncomputable def getAverageEigenvalues (w : WavepacketList) (e : ℕ → ℂ) : Option DiagonalOperator :=
  (averageEigenvalues [w.band, w.list] (some [1]) e).bind fun r =>
    r.1.head?.map fun b => ⟨b, b, r.2⟩

/-- `get_bloch_hamiltonian`, `wavepacket/get_eigenstate.py:835-857`. -/
def getBlochHamiltonian (w : WavepacketList) (e : ℕ → ℂ) : DiagonalOperatorList := ⟨w.band, w.list, w.list, e⟩

/-- `get_fundamental_wavepacket`, `wavepacket/get_eigenstate.py:431-448`, with `_get_fundamental_wavepacket_basis`,
`wavepacket/get_eigenstate.py:414-428`: the list basis is `TupleBasis(bands, samples)` before and after. -/
noncomputable def getFundamentalWavepacket (same : Basis → Basis → Bool) (w : WavepacketList) : Option WavepacketList :=
  (convertWavepacket same w.states (.tuple [w.band, w.list.asTransformedBasis]) w.basis.asTransformedBasis).map fun c =>
    ⟨w.band, w.list.asTransformedBasis, w.basis.asTransformedBasis, c.data⟩

/-- `BlochBasis.__init__`, `wavepacket/get_eigenstate.py:541-551`, with `get_bloch_basis`,
`wavepacket/get_eigenstate.py:819-832`: only the samples are converted. -/
noncomputable def getBlochBasis (same : Basis → Basis → Bool) (w : WavepacketList) : Option BlochWavefunctions :=
  (convertWavepacket same w.states (.tuple [w.band, w.list.asTransformedBasis]) w.basis).map fun c =>
    ⟨w.band.n, w.list.fundamentalShape, w.basis, c.data⟩

/-- `BlochBasis.vectors_at_bloch_k`, `wavepacket/get_eigenstate.py:790-807`, for a flat index, and
`_get_compressed_bloch_states_at_bloch_idx`, `wavepacket/get_eigenstate.py:403-411`. (Negative indices are not modelled.) -/
noncomputable def vectorsAtBlochK (w : BlochWavefunctions) (idx : ℕ) : Option StateVectorList :=
  if idx < w.samples.prod then
    some ⟨.fundamental w.bands, w.basis, flatten w.basis.n fun b k => w.data ((b * w.samples.prod + idx) * w.basis.n + k)⟩
  else none

/-- `BlochBasis.vectors_at_bloch_k`, `wavepacket/get_eigenstate.py:790-807`, for a stacked index: wrapped. -/
noncomputable def vectorsAtBlochKStacked (w : BlochWavefunctions) (idx : List ℤ) : Option StateVectorList :=
  (getFlatIndex .wrap w.samples idx).bind (vectorsAtBlochK w)

/-- `BlochBasis.basis_at_bloch_k`, `wavepacket/get_eigenstate.py:809-816`. -/
noncomputable def basisAtBlochK (w : BlochWavefunctions) (idx : List ℤ) : Option Basis :=
  (vectorsAtBlochKStacked w idx).map fun s => .explicit w.bands (block w.basis.n s.data) w.basis

/-- `get_full_bloch_hamiltonian`, `wavepacket/get_eigenstate.py:860-877`: the Bloch basis and the eigenvalues, in the order of the
given wavefunctions. -/
noncomputable def getFullBlochHamiltonian (same : Basis → Basis → Bool) (w : WavepacketList) (e : ℕ → ℂ) :
    Option (BlochWavefunctions × (ℕ → ℂ)) :=
  (getBlochBasis same w).map fun b => (b, e)

end Verif
