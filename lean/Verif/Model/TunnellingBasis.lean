import Verif.Model.Projection
import Verif.Model.BasisBuilders
import Verif.Model.Generate
import Verif.Model.TightBinding

/-!
# The two sites of a wavepacket, and the basis of bands of the tunnelling simulation
-/

set_option autoImplicit false

namespace Verif

/-- `get_wavepacket_two_points`, `wavepacket/localization/_tight_binding.py:169-203`: `none` for an exception (no points for `np.argmax`, more than three or fewer than
two axes). -/
noncomputable def wavepacketTwoPoints (same : Basis → Basis → Bool) (w : StateVectorList) (offset : ℤ × ℤ) : Option (List ℤ × List ℤ) :=
  let shape := w.basis.shape
  if shape.length < 2 then none else
  let origin : List ℤ := [(shape.getD 0 0 : ℤ) * offset.1, (shape.getD 1 0 : ℤ) * offset.2, 0]
  (getWavepacketStateVector same w 0).bind fun s => (convertStateVector same s s.basis.asPositionBasis).bind fun p =>
    let U := s.basis.fundamentalShape
    if U.prod = 0 then none else
    (wrapIndexChecked shape (some origin) ((unravel U (argmaxReal (fun X => ‖p.data X‖) (U.prod - 1))).map fun i : ℕ => (i : ℤ))).bind fun i0 =>
      (getX01MirroredIndex i0).bind fun m => (wrapIndexChecked shape (some origin) m).map fun i1 => (i0, i1)

/-- `TunnellingSimulationBandsBasis`, `dynamics/tunnelling_basis.py:31-48`: the number of states is the second entry of the shape of the locations; `location0` and
`location1` are the two rows. -/
structure TunnellingBandsBasis where
  n : ℕ
  location0 : ℕ → ℝ
  location1 : ℕ → ℝ
  unitCell : Matrix (Fin 2) (Fin 2) ℝ

/-- `TunnellingSimulationBandsBasis.from_wavepackets`, `dynamics/tunnelling_basis.py:50-68`: `A` is `delta_x_stacked` of the basis of the states; an index from
`get_wavepacket_two_points` has at least two entries. -/
noncomputable def tunnellingFromWavepackets (same : Basis → Basis → Bool) (w : WavepacketList) (A : Matrix (Fin 3) (Fin 3) ℝ) : Option TunnellingBandsBasis :=
  ((wavepacketListIntoIter w).mapM fun s => wavepacketTwoPoints same s (0, 0)).map fun l =>
    ⟨w.band.n, fun i => (((l.getD i ([], [])).1.getD 0 0 + (l.getD i ([], [])).2.getD 0 0 : ℤ) : ℝ) / 2,
      fun i => (((l.getD i ([], [])).1.getD 1 0 + (l.getD i ([], [])).2.getD 1 0 : ℤ) : ℝ) / 2, A.submatrix (Fin.castLE (by omega)) (Fin.castLE (by omega))⟩

/-- The last axis of `get_basis_from_shape`, `dynamics/tunnelling_basis.py:87-114`: the slice `[:, :n_bands]` has at most as many columns as there are. -/
def TunnellingBandsBasis.first (b : TunnellingBandsBasis) (nBands : ℕ) : TunnellingBandsBasis := ⟨min nBands b.n, b.location0, b.location1, b.unitCell⟩

/-- The shape of the basis of `get_basis_from_shape`, `dynamics/tunnelling_basis.py:87-114`. -/
def tunnellingShape (shape : ℕ × ℕ) (nBands : ℕ) (b : TunnellingBandsBasis) : List ℕ := [shape.1, shape.2, (b.first nBands).n]

end Verif
