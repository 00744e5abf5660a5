import Verif.Model.Generate
import Verif.Model.Reduce

/-!
# States used as a first guess for localized states

Models `state_vector/util.py`.
-/

set_option autoImplicit false

namespace Verif

open Finset

/-- `get_single_point_state_vector_excact`, `state_vector/util.py:62-68`; an index from `-n` to `n - 1`, as for numpy arrays,
`none` is an `IndexError`. -/
noncomputable def singlePointState (basis : Basis) (idx : ℤ) : Option StateVector :=
  if -(basis.n : ℤ) ≤ idx ∧ idx < basis.n then some ⟨basis, fun k => if (k : ℤ) = idx % basis.n then 1 else 0⟩ else none

/-- `get_single_point_state_vectors`, `state_vector/util.py:71-88`, for a basis of the states with `S` states and the shape of the
large cell. The points are `range(0, S, n_bands)`, entry `i` of them is `i * n_bands`; `data[i, n]` raises for `i = n_bands`
(`none`), `range` raises for a step of zero (`none`). -/
noncomputable def singlePointStates (S : ℕ) (unfurled : List ℕ) (nBands : ℕ) : Option StateVectorList :=
  if nBands = 0 then none
  else if nBands < (S + nBands - 1) / nBands then none
  else some ⟨.fundamental nBands, .tuple (unfurled.map .fundamental), flatten unfurled.prod fun i p =>
    if p = i * nBands ∧ i * nBands < S then 1 else 0⟩

/-- A row divided by its norm: `data /= np.sqrt(np.sum(np.abs(data) ** 2, axis=1))[:, np.newaxis]`, `state_vector/util.py:141`
and `state_vector/util.py:183`. -/
noncomputable def normalizeRow (n : ℕ) (row : ℕ → ℂ) (p : ℕ) : ℂ := row p / (Real.sqrt (∑ q ∈ range n, ‖row q‖ ^ 2) : ℂ)

/-- `np.exp(-2j * np.pi * np.tensordot(as, bs, axes=(0, 0)))`, `state_vector/util.py:133-140` and `state_vector/util.py:179-181`, for
one pair of columns. -/
noncomputable def phaseFactor (as bs : List ℝ) : ℂ :=
  Complex.exp (-2 * Complex.I * Real.pi * ((List.zipWith (· * ·) as bs).sum : ℝ))

/-- Entries `i / n`: `sample_fractions`, `state_vector/util.py:127-130` and `state_vector/util.py:171-176`. -/
noncomputable def fractionsOf (idx ns : List ℕ) : List ℝ := List.zipWith (fun i n : ℕ => (i : ℝ) / n) idx ns

/-- The sample basis of `get_most_localized_free_state_vectors`, `state_vector/util.py:111-124`. -/
def freeSampleBasis (axes : List (ℕ × ℕ)) (shape : List ℕ) : Basis :=
  .tuple (List.zipWith (fun a s => .transformed (a.1 * s) (a.1 * a.2)) axes shape)

/-- The shape of the sample basis, `state_vector/util.py:129`. -/
def freeSamples (axes : List (ℕ × ℕ)) (shape : List ℕ) : List ℕ := List.zipWith (fun (a : ℕ × ℕ) s => a.1 * s) axes shape

/-- `get_most_localized_free_state_vectors`, `state_vector/util.py:91-142`, for axes with (number of samples, number of points).
`none`: the assertion in `TransformedBasis`, `basis/basis.py:158`, or too many entries of `shape`. -/
noncomputable def mostLocalizedFreeStates (axes : List (ℕ × ℕ)) (shape : List ℕ) : Option StateVectorList :=
  let S := freeSamples axes shape
  if shape.length ≤ axes.length ∧ ∀ p ∈ axes.zip shape, p.1.1 * p.2 ≤ p.1.1 * p.1.2 then
    some ⟨.tuple (shape.map .fundamental), freeSampleBasis axes shape, flatten S.prod fun m => normalizeRow S.prod fun p =>
      phaseFactor (List.zipWith (fun s i => (nkPoints s i : ℝ)) shape (unravel shape m)) (fractionsOf (unravel S p) S)⟩
  else none

/-- `unfurl_wavepacket_list`, `wavepacket/eigenstate_conversion.py:122-152`. -/
noncomputable def unfurlWavepacketList (same : Basis → Basis → Bool) (w : WavepacketList) : Option StateVectorList :=
  ((wavepacketListIntoIter w).mapM fun s => unfurlWavepacket same s).bind fun l =>
    (asStateVectorList l).map fun r => ⟨w.band, r.basis, r.data⟩

/-- `get_most_localized_state_vectors_from_probability`, `state_vector/util.py:145-187`, for fractions given band by band, one entry
for each axis. `from_state_vector_list` is `probability_vector/probability_vector.py:59-73`. -/
noncomputable def mostLocalizedFromProbability (same : Basis → Basis → Bool) (w : WavepacketList) (fractions : List (List ℝ)) :
    Option StateVectorList :=
  (unfurlWavepacketList same (getWavepackets w none (some (fractions.length : ℤ)) 1)).bind fun u =>
    (averageProbabilitiesAll u.listBasis u.basis fun k => ‖u.data k‖ ^ 2).map fun avg =>
      ⟨.fundamental fractions.length, u.basis, flatten u.basis.n fun m => normalizeRow u.basis.n fun p =>
        phaseFactor (fractions.getD m []) (fractionsOf (unravel u.basis.shape p) w.list.shape) * (Real.sqrt (avg p) : ℂ)⟩

end Verif
