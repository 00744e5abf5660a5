import Verif.Model.Operator
import Verif.Model.BandEnergies
import Verif.Model.Bloch

/-!
Occupations of eigenstates and bands drawn against energy, `state_vector/plot.py`. Only the numbers given to matplotlib are modelled.
-/

set_option autoImplicit false

namespace Verif

open Finset

/-- `np.min` of `n + 1` numbers. -/
noncomputable def minValue (n : ℕ) (x : ℕ → ℝ) : ℝ := (List.range n).foldl (fun m k => min m (x (k + 1))) (x 0)

/-- `_get_eigenstate_occupation`, `state_vector/plot.py:684-695`, given the result of `scipy.linalg.eigh`: energies above the lowest
and the inner products of the states with the eigenstates. `none` for a Hamiltonian without states (`np.min`). -/
noncomputable def getEigenstateOccupation (same : Basis → Basis → Bool) (A : Operator) (r : EigResult) (states : StateVectorList) :
    Option ((ℕ → ℝ) × (ℕ → ℂ)) :=
  let eigenstates := calculateEigenvectors A A.b0.n r
  if A.b0.n = 0 then none
  else (calculateInnerProducts same states eigenstates.states).map fun occupations =>
    (fun k => (eigenstates.eigenvalue k).re - minValue (A.b0.n - 1) fun k => (eigenstates.eigenvalue k).re, occupations)

/-- `plot_all_eigenstate_occupations`, `state_vector/plot.py:698-736`, and the frames of `animate_all_eigenstate_occupations`,
`state_vector/plot.py:739-782`: a line for each state. Without states the reshape raises. -/
noncomputable def plotAllEigenstateOccupations (same : Basis → Basis → Bool) (A : Operator) (r : EigResult) (states : StateVectorList) :
    Option (List DrawnLine) :=
  (getEigenstateOccupation same A r states).bind fun o =>
    if states.listBasis.n = 0 then none
    else some ((List.range states.listBasis.n).map fun i => ⟨A.b0.n, o.1, fun k => ‖o.2 (i * A.b0.n + k)‖ ^ 2⟩)

/-- `plot_eigenstate_occupation`, `state_vector/plot.py:785-810`. -/
noncomputable def plotEigenstateOccupation (same : Basis → Basis → Bool) (A : Operator) (r : EigResult) (state : StateVector) :
    Option (List DrawnLine) :=
  (asStateVectorList [state]).bind fun states => plotAllEigenstateOccupations same A r states

/-- `plot_average_eigenstate_occupation`, `state_vector/plot.py:813-851`. -/
noncomputable def plotAverageEigenstateOccupation (same : Basis → Basis → Bool) (A : Operator) (r : EigResult) (states : StateVectorList) :
    Option DrawnLine :=
  (getEigenstateOccupation same A r states).bind fun o =>
    if states.listBasis.n = 0 then none
    else some ⟨A.b0.n, o.1, fun k => (∑ i ∈ range states.listBasis.n, ‖o.2 (i * A.b0.n + k)‖ ^ 2) / states.listBasis.n⟩

/-- `plot_total_band_occupation_against_energy`, `state_vector/plot.py:875-922`, for a state given by its values at the points of the large
cell: the line, and the average energy marked in the plot. `np.average` raises if the weights add up to zero. -/
noncomputable def plotTotalBandOccupation (same : Basis → Basis → Bool) (w : BlochWavefunctions) (hamiltonian : ℕ → ℂ) (φ : ℕ → ℂ)
    (measure : Measure) : Option (DrawnLine × ℝ) :=
  (blochFrom same w φ).bind fun c =>
    let energies := getAverageBandEnergy w.samples.prod hamiltonian
    let total := fun b => ∑ j ∈ range w.samples.prod, ‖c (b * w.samples.prod + j)‖ ^ 2
    (plotData1d w.bands (fun b => (total b : ℂ)) energies measure false).bind fun line =>
      if ∑ b ∈ range w.bands, total b = 0 then none
      else some (line, (∑ b ∈ range w.bands, energies b * total b) / ∑ b ∈ range w.bands, total b)

end Verif
