import Verif.Model.Wannier90

/-!
The use of wannier90: `wavepacket/localization/_wannier90.py:92-180,462-712`. The program itself, run in a temporary directory, is a parameter: its first run makes the
neighbours from the file `spa.win`, its second run the unitary matrices from all files. Files are modelled by their numbers, as in `Model/Wannier90`.
-/

set_option autoImplicit false

namespace Verif

/-- `Wannier90Options`, `wavepacket/localization/_wannier90.py:104-112`: the size of the basis of the projections, their states (if they have data), the number of
iterations, window and tolerance, whether there are symmetry operations, and the ignored axes. -/
structure Wannier90Options where
  projection : ℕ
  states : Option (Basis × (ℕ → ℂ)) := none
  iterations : ℕ := 10000
  window : ℕ := 3
  tolerance : ℝ := 1 / 10 ^ 10
  symmetry : Bool := false
  ignore : List ℕ := []

/-- The file `spa.win`, `wavepacket/localization/_wannier90.py:150-180`. -/
structure WinFile where
  setup : Bool
  iterations : ℕ
  tolerance : ℝ
  window : ℕ
  autoProjections : Bool
  wannier : ℕ
  cell : Fin 3 → Fin 3 → ℝ
  grid : List ℕ
  samples : List (List ℝ)

/-- `_build_real_lattice_block`, `wavepacket/localization/_wannier90.py:115-126`: the rows of `delta_x`, in units of `1e-10`, filled up with the unit matrix. More than
three axes raise. -/
noncomputable def realLatticeBlock {d : ℕ} (A : Matrix (Fin d) (Fin d) ℝ) : Option (Fin 3 → Fin 3 → ℝ) :=
  if d ≤ 3 then
    some fun i j => if h : (i : ℕ) < d ∧ (j : ℕ) < d then A ⟨i, h.1⟩ ⟨j, h.2⟩ * 10 ^ 10 else if i = j then 1 else 0
  else none

/-- `_build_win_file`, `wavepacket/localization/_wannier90.py:150-180`. -/
noncomputable def winFile {d : ℕ} (same : Basis → Basis → Bool) (A : Matrix (Fin d) (Fin d) ℝ) (w : WavepacketList) (setup : Bool) (o : Wannier90Options) :
    Option WinFile :=
  (realLatticeBlock A).bind fun cell => (kPointsBlock same w.list).map fun block =>
    ⟨setup, o.iterations, o.tolerance, o.window, o.states.isSome, w.band.n, cell, block.1, block.2⟩

/-- The basis of the written wavepackets, `wavepacket/localization/_wannier90.py:486-495`: momentum states on every axis which is not ignored. -/
noncomputable def wannierAxes (ignore : List ℕ) (axes : List Basis) : List Basis :=
  axes.mapIdx fun i b => if i ∈ ignore then b else .fundamentalTransformed b.methods.fn

/-- The files of the second run, `wavepacket/localization/_wannier90.py:473-509`. -/
structure Wannier90Files where
  win : WinFile
  mmn : MmnFile
  amn : Option ((ℕ × ℕ × ℕ) × List (ℕ × ℕ × ℕ × ℂ))

/-- The two runs of wannier90: the lines between `begin nnkpts` and `end nnkpts` of `spa.nnkp`, and the words of the lines of `spa_u.mat`; `none` if the file is missing. -/
structure Wannier90Program where
  neighbours : WinFile → Option (List (List ℤ))
  matrices : Wannier90Files → Option (List (List String))

/-- `_write_localization_files_wannier90`, `wavepacket/localization/_wannier90.py:473-509`, for wavepackets on a stack of `axes`. With symmetry operations
`_build_dmn_file`, `wavepacket/localization/_wannier90.py:379-412`, raises `NotImplementedError`. -/
noncomputable def localizationFiles {d : ℕ} (same : Basis → Basis → Bool) (A : Matrix (Fin d) (Fin d) ℝ) (axes : List Basis) (w : WavepacketList)
    (nnkp : List (List ℤ)) (o : Wannier90Options) : Option Wannier90Files :=
  (winFile same A w false o).bind fun win => (convertStateVectorList same w.states (.tuple (wannierAxes o.ignore axes))).bind fun c =>
    (mmnFile ⟨w.band, w.list, c.basis, c.data⟩ o.ignore nnkp).bind fun mmn =>
      (match o.states with
        | none => some none
        | some p => (amnFile same ⟨w.band.n, w.list.shape, c.basis, c.data⟩ p.1 o.projection p.2).map some).bind fun amn =>
          if o.symmetry then none else some ⟨win, mmn, amn⟩

/-- `get_localization_operator_wannier90`, `wavepacket/localization/_wannier90.py:581-651`, with `_write_setup_files_wannier90`,
`wavepacket/localization/_wannier90.py:462-470`; without options one projection for each band, without states. -/
noncomputable def localizationWannier90 {d : ℕ} (same : Basis → Basis → Bool) (toInt : String → Option ℕ) (toFloat : String → Option ℝ) (program : Wannier90Program)
    (A : Matrix (Fin d) (Fin d) ℝ) (axes : List Basis) (w : WavepacketList) (options : Option Wannier90Options) : Option LocalizationOperator :=
  let o := options.getD { projection := w.band.n }
  (winFile same A w true o).bind fun setup => (program.neighbours setup).bind fun nnkp => (localizationFiles same A axes w nnkp o).bind fun files =>
    (program.matrices files).bind fun lines => localizationFromUMat toInt toFloat w.list.shape o.projection w.band.n lines

/-- `localize_wavepacket_wannier90`, `wavepacket/localization/_wannier90.py:654-680`. -/
noncomputable def localizeWannier90 {d : ℕ} (same : Basis → Basis → Bool) (toInt : String → Option ℕ) (toFloat : String → Option ℝ) (program : Wannier90Program)
    (A : Matrix (Fin d) (Fin d) ℝ) (axes : List Basis) (w : WavepacketList) (o : Wannier90Options) : Option BlochWavefunctions :=
  (localizationWannier90 same toInt toFloat program A axes w (some o)).bind fun op =>
    getLocalizedWavepackets ⟨w.band.n, w.list.shape, w.basis, w.data⟩ op

/-- `get_localization_operator_wannier90_individual_bands`, `wavepacket/localization/_wannier90.py:683-712`: one run for each band. (That the data of each operator have
one entry for each sample, otherwise `reshape` raises, is not modelled.) -/
noncomputable def localizationWannier90Bands {d : ℕ} (same : Basis → Basis → Bool) (toInt : String → Option ℕ) (toFloat : String → Option ℝ)
    (program : Wannier90Program) (A : Matrix (Fin d) (Fin d) ℝ) (axes : List Basis) (w : WavepacketList) : Option LocalizationOperator :=
  ((wavepacketListIntoIter w).mapM fun wavepacket => (asWavepacketList false [wavepacket]).bind fun one =>
    (localizationWannier90 same toInt toFloat program A axes one (some { projection := 1, tolerance := 1 / 10 ^ 20, ignore := [2] })).map
      LocalizationOperator.data).map fun data =>
    ⟨w.list.shape, w.band.n, w.band.n, flatten3 w.band.n w.band.n fun a i j => if i = j then data.getD i 0 a else 0⟩

end Verif
