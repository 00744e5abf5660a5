import Verif.Model.Basis

/-!
Fourier interpolation, `util/interpolation.py:80-230`.

An n-dimensional array is a function of the multi-index. Each axis is given as (length, target length if the axis is
listed in `axes`), as in `padFtPoints`.
-/

set_option autoImplicit false

namespace Verif

open Finset

/-- A one-axis operation along an axis if it is listed in `axes`. -/
def alongIf (f : (ℕ → ℂ) → ℕ → ℂ) (a : PadAxis) : (ℕ → ℂ) → ℕ → ℂ :=
  match a.2 with
  | none => fun v => v
  | some _ => f

/-- `np.fft.fftn(points, axes=axes_arr, norm="forward")`, numpy primitive as used at `util/interpolation.py:108`: a
one-axis transform along each listed axis. -/
noncomputable def fftn (axes : List PadAxis) (arr : List ℕ → ℂ) : List ℕ → ℂ :=
  ((axes.map fun a => alongIf (fft .forward a.len) a).zipIdx).foldl (fun arr fax => applyAlong fax.2 fax.1 arr) arr

/-- `scipy.fft.ifftn(padded, s, axes=axes_arr, norm="forward")`, primitive as used at `util/interpolation.py:111-113`
(`padded` already has the lengths `s`). -/
noncomputable def ifftn (axes : List PadAxis) (arr : List ℕ → ℂ) : List ℕ → ℂ :=
  ((axes.map fun a => alongIf (ifft .forward a.newLen) a).zipIdx).foldl
    (fun arr fax => applyAlong fax.2 fax.1 arr) arr

/-- `interpolate_points_fftn`, `util/interpolation.py:80-114`. -/
noncomputable def interpolateFftn (axes : List PadAxis) (points : List ℕ → ℂ) : List ℕ → ℂ :=
  ifftn axes (padFtPoints axes (fftn axes points))

/-- The default of `axes`: `np.arange(-1, -1 - len(s), -1)`, `util/interpolation.py:104`. -/
def defaultInterpAxes (s : List ℕ) : List ℤ := (List.range s.length).map fun i : ℕ => -1 - (i : ℤ)

/-- The shape of the result of `interpolate_points_fftn(points, s)` without `axes` (`util/interpolation.py:104`,
`padded_shape[axes_arr] = s`, `util/interpolation.py:47-48`): the lengths `s` are assigned to the default axes, a
negative axis counting from the end. -/
def defaultInterpShape (shape s : List ℕ) : List ℕ :=
  ((defaultInterpAxes s).zip s).foldl (fun sh p => sh.set ((shape.length : ℤ) + p.1).toNat p.2) shape

/-- `np.fft.rfft(points, norm="forward")` on an axis of `n` real numbers; entries `0 … n // 2` are stored
(`util/interpolation.py:217`). -/
noncomputable def rfft (n : ℕ) (v : ℕ → ℝ) : ℕ → ℂ := fft .forward n fun x => (v x : ℂ)

/-- `np.fft.irfft(a, n, norm="forward")` for `m` stored coefficients (`util/interpolation.py:219`): coefficients
beyond `n // 2` are dropped, missing ones are zero; every coefficient strictly between `0` and `n / 2` stands
for itself and its conjugate; of coefficient `0` and (even `n`) `n / 2` only the real part is used. -/
noncomputable def irfft (m n : ℕ) (a : ℕ → ℂ) (x : ℕ) : ℝ :=
  let a' := fun k => if k < m then a k else 0
  (a' 0).re
    + ∑ k ∈ range ((n - 1) / 2), 2 * (a' (k + 1) * Complex.exp (2 * Real.pi * Complex.I * (k + 1 : ℕ) * x / n)).re
    + if n % 2 = 0 then (a' (n / 2)).re * (-1) ^ x else 0

/-- The symmetrisation `interpolated[slice(None, n // 2, -1)] = interpolated[slice(1, (n + 1) // 2)]`,
`util/interpolation.py:226-228`: the index `n - 1 - t` receives the entry `1 + t` for `t < (n + 1) // 2 - 1`. -/
def symmetrise (n : ℕ) (v : ℕ → ℝ) : ℕ → ℝ := fun x =>
  if n / 2 < x ∧ x < n then v (1 + (n - 1 - x)) else v x

open Classical in
/-- `interpolate_points_rfft` along one axis, `util/interpolation.py:189-230`. -/
noncomputable def interpolateRfft (n s : ℕ) (v : ℕ → ℝ) : ℕ → ℝ :=
  let ft := rfft n v
  let interpolated := irfft (n / 2 + 1) s ft
  if ∀ k < n / 2 + 1, (ft k).im = 0 then symmetrise s interpolated else interpolated

/-- `interpolate_points_rfftn`, `util/interpolation.py:157-186`: a real transform along the last listed axis, complex
transforms and padding along the others, `irfftn` inverting both. (Simplification: the last listed axis is the last
axis of the array; `axes` describes the other axes.) -/
noncomputable def interpolateRfftn (axes : List PadAxis) (n s : ℕ) (points : List ℕ → ℕ → ℝ) (idx : List ℕ) :
    ℕ → ℝ :=
  irfft (n / 2 + 1) s fun k => interpolateFftn axes (fun js => rfft n (points js) k) idx

/-- `pad_ft_points_real_axis`, `util/interpolation.py:117-154`, along the axis: `m` stored coefficients, `n // 2 + 1`
after padding. -/
def padRealAxis (m n : ℕ) (a : ℕ → ℂ) : ℕ → ℂ := fun k => if k < min (n / 2 + 1) m then a k else 0

end Verif
