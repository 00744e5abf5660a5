import Verif.Model.Generate
import Verif.Model.Localization

/-!
The files exchanged with wannier90: `wavepacket/localization/_wannier90.py`.

A file is modelled by its numbers, in the order in which they are written. The program wannier90 itself is not modelled.
-/

set_option autoImplicit false

namespace Verif

open Finset

/-! ## Overlaps -/

/-- `_get_offset_bloch_state`, `wavepacket/localization/_wannier90.py:186-235`, on a basis of the given shape: the shape is filled
up to three axes, the data are rolled back by the offset. More than three axes raise. (The code after the first `return` is not
reached.) -/
def offsetBlochState (shape : List ℕ) (offset : List ℤ) (v : ℕ → ℂ) : Option (ℕ → ℂ) :=
  if shape.length ≤ 3 ∧ offset.length = 3 then
    let padded := shape ++ List.replicate (3 - shape.length) 1
    some fun k => rollAxes padded (offset.map fun o => -o) (fun idx => v (ravel padded idx)) (unravel padded k)
  else none

/-- The element of two bands, `wavepacket/localization/_wannier90.py:253-259`; `get_bloch_state_vector`,
`wavepacket/get_eigenstate.py:182-199`, is the state at a flat index of the list. -/
noncomputable def mmnElement (offset : List ℤ) (k0 k1 : ℤ) (wn wm : StateVectorList) : Option ℂ :=
  (pyIndex wn.listBasis.n (k1 - 1)).bind fun i1 => (getStateVector wn i1).bind fun s1 =>
    (offsetBlochState s1.basis.shape offset s1.data).bind fun v =>
      (pyIndex wm.listBasis.n (k0 - 1)).bind fun i0 => (getStateVector wm i0).bind fun s0 =>
        calculateInnerProduct ⟨s1.basis, v⟩ (asDualVector s0)

/-- A block of the file `spa.mmn`: the first line and the elements. -/
structure MmnBlock where
  header : List ℤ
  values : List ℂ

/-- `_build_mmn_file_block`, `wavepacket/localization/_wannier90.py:239-261`: the second loop is over the bras. The line of the file
`.nnkp` must have at least the two indices and three offsets; an axis to ignore which is not one of the three raises. -/
noncomputable def mmnBlock (w : WavepacketList) (ignore : List ℕ) : List ℤ → Option MmnBlock
  | [k0, k1, o0, o1, o2] =>
    if ∀ i ∈ ignore, i < 3 then
      let offset := ignore.foldl (fun o i => o.set i 0) [o0, o1, o2]
      ((wavepacketListIntoIter w).mapM fun wn => (wavepacketListIntoIter w).mapM fun wm => mmnElement offset k0 k1 wn wm).map
        fun rows => ⟨[k0, k1, o0, o1, o2], rows.flatten⟩
    else none
  | _ => none

/-- `_parse_nnk_points_file`, `wavepacket/localization/_wannier90.py:264-283`, from the lines between `begin nnkpts` and
`end nnkpts`, already split into numbers: one number, then lines of which five numbers are kept. (Finding the block with a regular
expression and splitting it into words is not modelled.) -/
def parseNnkPoints : List (List ℤ) → Option (ℤ × List (List ℤ))
  | [n] :: rest => some (n, rest.map fun l => l.take 5)
  | _ => none

/-- The file `spa.mmn`: the numbers of the first line and the blocks. -/
structure MmnFile where
  bands : ℕ
  samples : ℕ
  neighbours : ℤ
  blocks : List MmnBlock

/-- `_build_mmn_file`, `wavepacket/localization/_wannier90.py:286-313`. -/
noncomputable def mmnFile (w : WavepacketList) (ignore : List ℕ) (nnkp : List (List ℤ)) : Option MmnFile :=
  (parseNnkPoints nnkp).bind fun p => (p.2.mapM (mmnBlock w ignore)).map fun blocks => ⟨w.band.n, w.list.n, p.1, blocks⟩

/-! ## Projections -/

open Classical in
/-- `_build_amn_file`, `wavepacket/localization/_wannier90.py:316-347`: the numbers of bands, samples and projections, and lines of
three indices and a complex number. -/
noncomputable def amnFile (same : Basis → Basis → Bool) (w : BlochWavefunctions) (bp : Basis) (q : ℕ) (P : ℕ → ℂ) :
    Option ((ℕ × ℕ × ℕ) × List (ℕ × ℕ × ℕ × ℂ)) :=
  if ∀ a < w.samples.prod, (stateProjections same w bp q P a).isSome then
    some ((w.bands, w.samples.prod, q), (List.range w.samples.prod).flatMap fun k => (List.range w.bands).flatMap fun m =>
      (List.range q).map fun n => (m + 1, n + 1, k + 1,
        if h : m < w.bands ∧ n < q then (stateProjections same w bp q P k).getD 0 ⟨m, h.1⟩ ⟨n, h.2⟩ else 0))
  else none

/-- `_build_k_points_block`, `wavepacket/localization/_wannier90.py:130-147`: the shape filled with ones and the fractions filled
with zeros, up to three axes. More than three axes raise. -/
noncomputable def kPointsBlock (same : Basis → Basis → Bool) (l : Basis) : Option (List ℕ × List (List ℝ)) :=
  if l.shape.length ≤ 3 then
    (sampleFractions same l).map fun φ => (l.shape ++ List.replicate (3 - l.shape.length) 1,
      (List.range l.n).map fun i => (List.range 3).map fun ax => if ax < l.shape.length then φ ax i else 0)
  else none

/-! ## The unitary matrices -/

/-- `lines[start::step]`. -/
def strided {α : Type*} (l : List α) (start step : ℕ) : List α := (List.range l.length).filterMap fun t => l[start + t * step]?

/-- `_parse_u_mat_file_block`, `wavepacket/localization/_wannier90.py:415-419`; `toFloat` is python's `float`. -/
noncomputable def parseUMatBlock (toFloat : String → Option ℝ) (block : List (List String)) : Option (List ℂ) :=
  block.mapM fun words => (words[0]?.bind toFloat).bind fun (x : ℝ) => (words[1]?.bind toFloat).map fun (y : ℝ) => (x : ℂ) + Complex.I * (y : ℂ)

open Classical in
/-- `_get_localization_operator_from_u_mat_file`, `wavepacket/localization/_wannier90.py:422-459`, from the lines of the file, split
into words; `toInt` is python's `int`. Columns of different lengths raise. -/
noncomputable def localizationFromUMat (toInt : String → Option ℕ) (toFloat : String → Option ℝ) (samples : List ℕ) (new old : ℕ)
    (lines : List (List String)) : Option LocalizationOperator :=
  (lines[1]?).bind fun l => (l[1]?.bind toInt).bind fun nw => (l[2]?.bind toInt).bind fun nb =>
    let column := fun m n => parseUMatBlock toFloat (strided lines (4 + n + nw * m) (2 + nw * nb))
    if ∃ len, ∀ m < nb, ∀ n < nw, ∃ c, column m n = some c ∧ c.length = len then
      some ⟨samples, new, old, flatten3 nb nw fun k m n => ((column m n).getD []).getD k 0⟩
    else none

/-! ## Symmetry -/

/-- `x0_symmetry_op`, `wavepacket/localization/_wannier90.py:350-355`, for one index. -/
def x0SymmetryOp (shape : List ℕ) (axis : ℕ) (idx : ℕ) : Option ℕ :=
  let s := (unravel shape idx).map fun i : ℕ => (i : ℤ)
  getFlatIndex .wrap shape (s.set axis (-(s.getD axis 0)))

/-- `x0x1_symmetry_op`, `wavepacket/localization/_wannier90.py:358-365`, for one index. -/
def x0x1SymmetryOp (shape : List ℕ) (axes : ℕ × ℕ) (idx : ℕ) : Option ℕ :=
  let s := (unravel shape idx).map fun i : ℕ => (i : ℤ)
  getFlatIndex .wrap shape ((s.set axes.1 (s.getD axes.2 0)).set axes.2 (s.getD axes.1 0))

/-- `_get_fundamental_k_points`, `wavepacket/localization/_wannier90.py:368-376`, for one index. -/
def symmetrySample (ops : List (ℕ → Option ℕ)) (idx : ℕ) : Option ℕ :=
  ops.foldl (fun f op => f.bind fun i => (op i).map fun b => min b i) (some idx)

end Verif
