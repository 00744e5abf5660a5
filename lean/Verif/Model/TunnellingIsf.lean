import Verif.Model.Isf

/-!
The scattering function of a tunnelling simulation, and jump rates read from a matrix of rates. Here the bases matter: an
operator has a pair of bases, and `basis[2]` of a pair raises.
-/

set_option autoImplicit false

namespace Verif

/-- The bases of a tunnelling simulation, `dynamics/tunnelling_basis.py:30-107`: axes of the supercell, bands with their
locations (in fractions of the unit cell) and the unit cell, and tuples. -/
inductive TunnellingBasis
  | fundamental (n : ℕ)
  | bands (n : ℕ) (locations : ℕ → Fin 2 → ℝ) (cell : Matrix (Fin 2) (Fin 2) ℝ)
  | tuple (children : List TunnellingBasis)

mutual

/-- `n` of a tuple, `basis/stacked_basis.py:53-55`. -/
def TunnellingBasis.n : TunnellingBasis → ℕ
  | .fundamental n => n
  | .bands n _ _ => n
  | .tuple children => (TunnellingBasis.sizes children).prod

/-- `shape` of a tuple of bases, `basis/stacked_basis.py:111-113`. -/
def TunnellingBasis.sizes : List TunnellingBasis → List ℕ
  | [] => []
  | b :: bs => b.n :: TunnellingBasis.sizes bs

end

/-- `basis[i]` for `i ≥ 0`, `basis/stacked_basis.py:331-334`; other bases are not subscriptable. -/
def TunnellingBasis.item : TunnellingBasis → ℕ → Option TunnellingBasis
  | .tuple children, i => children[i]?
  | _, _ => none

/-- `basis.shape`, `basis/stacked_basis.py:111-113`; other bases have none. -/
def TunnellingBasis.shape : TunnellingBasis → Option (List ℕ)
  | .tuple children => some (TunnellingBasis.sizes children)
  | _ => none

/-- `calculate_isf_approximate_locations`, `dynamics/isf.py:65-113`, with the basis of the initial occupation: the axes of the
supercell are the first two entries, the bands are the third. The function of the index of the final occupations. -/
noncomputable def isfOnBasis (basis : TunnellingBasis) (initial : ℕ → ℝ) (final : ℕ → ℕ → ℝ) (dk : Fin 2 → ℝ) : Option (ℕ → ℂ) :=
  (basis.item 0).bind fun b0 => (basis.item 1).bind fun b1 => (basis.item 2).bind fun b2 =>
    match b2 with
    | .bands nb locations cell => some fun t => isfApproximateLocations cell locations b0.n b1.n nb initial (final t) dk
    | _ => none

/-- The flat data of a vector with `n` entries. -/
def flatOf {n : ℕ} (p : Fin n → ℝ) : ℕ → ℝ := fun s => if h : s < n then p ⟨s, h⟩ else 0

/-- The basis of the result of `density_matrix_as_probability`, `dynamics/incoherent_propagation/tunnelling_matrix.py:362-376`: that of
the operator, which is a pair. -/
def probabilityBasis (operatorBasis : TunnellingBasis) : TunnellingBasis := operatorBasis

/-- `calculate_isf_at_times`, `dynamics/incoherent_propagation/isf.py:54-78`, for a simulation with the basis `b` on both sides, given the
result of `eig`, with `density_matrix_list_as_probabilities`, `dynamics/incoherent_propagation/tunnelling_matrix.py:379-396`, for the final
states. -/
noncomputable def isfAtTimes (b : TunnellingBasis) (r : EigResult) (initial : Fin b.n → ℂ) (times : ℕ → ℝ) (dk : Fin 2 → ℝ) : Option (ℕ → ℂ) :=
  isfOnBasis (probabilityBasis (.tuple [b, b])) (flatOf (densityMatrixAsProbability initial))
    (fun t => flatOf (densityMatrixAsProbability (calculateTunnellingSimulationState r initial (times t)))) dk

/-- The number of bands in `calculate_equilibrium_state_averaged_isf`, `dynamics/incoherent_propagation/isf.py:81-130`, and in
`calculate_equilibrium_initial_state_isf`, `dynamics/incoherent_propagation/isf.py:133-190`: the third entry of the shape of the basis of the rate
matrix. (The rest of these functions is not modelled.) -/
def equilibriumBands (basis : TunnellingBasis) : Option ℕ := (basis.shape).bind fun shape => shape[2]?

/-- `data.reshape(*util.shape, *util.shape)` for data with as many entries as the basis, `dynamics/incoherent_propagation/tunnelling_matrix.py:97-98,287`: the shape of the
array. -/
def reshapedTwice (basis : TunnellingBasis) : Option (List ℕ) :=
  (basis.shape).bind fun shape => if (shape ++ shape).prod = basis.n then some (shape ++ shape) else none

/-- `get_jump_matrix_from_a_matrix`, `dynamics/incoherent_propagation/tunnelling_matrix.py:78-111`: an index with six entries. -/
def getJumpMatrixFromAMatrix (basis : TunnellingBasis) (data : ℕ → ℂ) : Option (ℕ → ℕ → ℕ → Option ℂ) :=
  (basis.item 2).bind fun _ => (reshapedTwice basis).bind fun shape =>
    if shape.length = 6 then
      some fun n0 n1 hop => (getHopShift hop 2).map fun shift =>
        data (ravel shape [0, 0, n0, (shift.getD 0 0 % (shape.getD 3 0 : ℤ)).toNat, (shift.getD 1 0 % (shape.getD 4 0 : ℤ)).toNat, n1])
    else none

/-- `resample_tunnelling_a_matrix`, `dynamics/incoherent_propagation/tunnelling_matrix.py:192-218`. -/
noncomputable def resampleTunnellingAMatrix (basis : TunnellingBasis) (data : ℕ → ℂ) (B : ℕ) (shape : List ℕ) (nBands : ℕ) :
    Option (List ℕ → ℕ → List ℕ → ℕ → ℂ) :=
  (getJumpMatrixFromAMatrix basis data).bind fun jump =>
    getAMatrixFromJumpMatrix B (fun n0 n1 hop => (jump n0 n1 hop).getD 0) shape (some nBands)

/-- `get_a_matrix_reduced_bands`, `dynamics/incoherent_propagation/tunnelling_matrix.py:251-289`: the rates between the first bands, by the six
indices of the array. -/
def getAMatrixReducedBands (basis : TunnellingBasis) (data : ℕ → ℂ) : Option (ℕ → ℕ → ℕ → ℕ → ℕ → ℕ → ℂ) :=
  (basis.item 0).bind fun b => (b.item 0).bind fun _ => (b.item 1).bind fun _ => (b.item 2).bind fun _ => (reshapedTwice basis).bind fun shape =>
    if shape.length = 6 then some fun i j n i' j' n' => data (ravel shape [i, j, n, i', j', n']) else none

end Verif
