import Verif.Spec.Basis

/-!
Specification of wavepackets: which momentum of the large cell a component of a Bloch state has.
-/

set_option autoImplicit false

namespace Verif.Spec

/-- Component `j` of the Bloch state of sample `a` has, on every axis, the momentum `ns * nk(j) + nk(a)` of the large cell with
`ns * nx` points; `p` is the slot with this momentum (momenta are defined up to multiples of `ns * nx`). -/
def AtMomentum : List (ℕ × ℕ) → List ℕ → List ℕ → List ℕ → Prop
  | [], [], [], [] => True
  | (ns, nx) :: axes, a :: as, j :: js, p :: ps =>
    ((ns * nx : ℕ) : ℤ) ∣ p - (ns * freq nx j + freq ns a) ∧ AtMomentum axes as js ps
  | _, _, _, _ => False

/-- The Bloch phase of sample `a` at the point `x` of the large cell. -/
noncomputable def blochPhase : List (ℕ × ℕ) → List ℕ → List ℕ → ℂ
  | (ns, nx) :: axes, a :: as, x :: xs =>
    Complex.exp (2 * Real.pi * Complex.I * (freq ns a : ℂ) * x / ((ns * nx : ℕ) : ℂ)) * blochPhase axes as xs
  | _, _, _ => 1

/-- The point of the small cell below a point of the large cell. -/
def reduce : List (ℕ × ℕ) → List ℕ → List ℕ
  | (_, nx) :: axes, x :: xs => x % nx :: reduce axes xs
  | _, _ => []

/-- The Bloch state of sample `a` on the large cell whose periodic part has the coefficients `v` in the basis `b`: the periodic
part times the Bloch phase, normalised over the large cell. -/
noncomputable def blochWave (axes : List (ℕ × ℕ)) (b : Basis) (v : ℕ → ℂ) (a : List ℕ) (X : List ℕ) : ℂ :=
  blochPhase axes a X * expand b v (ravel (axes.map Prod.snd) (reduce axes X)) /
    (Real.sqrt ((axes.map Prod.fst).prod : ℕ) : ℂ)

end Verif.Spec
