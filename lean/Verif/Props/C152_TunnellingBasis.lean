import Verif.Model.TunnellingBasis
import Verif.Props.C117_Projection
import Verif.Props.C53_TightBinding
import Verif.Props.C121_Overlaps

/-!
# C152: The two sites of a wavepacket and the locations of the bands
-/

set_option autoImplicit false

namespace Verif

open Finset Spec

/-- The index `a` is within half a cell of `n` points of the index `o`. -/
def Spec.WithinHalfCell (n : ℕ) (o a : ℤ) : Prop := o - n / 2 ≤ a ∧ a < o - n / 2 + n

theorem norm_blochWave_le (axes : List (ℕ × ℕ)) (h0 : 0 < (axes.map Prod.fst).prod) (b : Basis) (v : ℕ → ℂ) (a X Y : List ℕ) :
    ‖blochWave axes b v a X‖ ≤ ‖blochWave axes b v a Y‖ ↔
      ‖expand b v (ravel (axes.map Prod.snd) (reduce axes X))‖ ≤ ‖expand b v (ravel (axes.map Prod.snd) (reduce axes Y))‖ := by
  unfold blochWave
  have hs : (0 : ℝ) < Real.sqrt ((axes.map Prod.fst).prod : ℕ) := Real.sqrt_pos.2 (by exact_mod_cast h0)
  rw [norm_div, norm_mul, norm_blochPhase, one_mul, norm_div, norm_mul, norm_blochPhase, one_mul, Complex.norm_real, Real.norm_of_nonneg hs.le]
  exact div_le_div_iff_of_pos_right hs

/-- **C152.** The two points of a wavepacket in a basis with the shape `(m0, m1, m2)`: the first is, up to multiples of this shape, a point of the large cell at which the
modulus of the wavefunction of the first sample is largest; the second is the first with the first two coordinates exchanged, again up to multiples of the shape; both
are within half a cell of the offset. -/
theorem C152_two_points (same : Basis → Basis → Bool) (hs : Sound same) (s0 s1 s2 n0 n1 n2 m0 m1 m2 : ℕ) (hs0 : 0 < s0) (hs1 : 0 < s1) (hs2 : 0 < s2)
    (hn0 : 0 < n0) (hn1 : 0 < n1) (hn2 : 0 < n2) (hm0 : 0 < m0) (hm1 : 0 < m1) (hm2 : 0 < m2) (b : Basis) (hb : Valid b) (ho : OrthonormalParts b)
    (hf : b.fundamentalShape = [n0, n1, n2]) (hm : b.shape = [m0, m1, m2]) (data : ℕ → ℂ) (f0 f1 : ℤ) :
    ∃ a0 a1 a2 c0 c1 c2 : ℤ, wavepacketTwoPoints same ⟨.tuple ([s0, s1, s2].map .fundamentalTransformed), b, data⟩ (f0, f1) =
        some ([a0, a1, a2], [c0, c1, c2]) ∧
      (∃ x0 x1 x2 : ℕ, x0 < s0 * n0 ∧ x1 < s1 * n1 ∧ x2 < s2 * n2 ∧ a0 ≡ x0 [ZMOD m0] ∧ a1 ≡ x1 [ZMOD m1] ∧ a2 ≡ x2 [ZMOD m2] ∧
        ∀ y0 < n0, ∀ y1 < n1, ∀ y2 < n2, ‖expand b data (ravel [n0, n1, n2] [y0, y1, y2])‖ ≤
          ‖expand b data (ravel [n0, n1, n2] [x0 % n0, x1 % n1, x2 % n2])‖) ∧
      WithinHalfCell m0 (m0 * f0) a0 ∧ WithinHalfCell m1 (m1 * f1) a1 ∧ WithinHalfCell m2 0 a2 ∧
      c0 ≡ a1 [ZMOD m0] ∧ c1 ≡ a0 [ZMOD m1] ∧ c2 = a2 ∧ WithinHalfCell m0 (m0 * f0) c0 ∧ WithinHalfCell m1 (m1 * f1) c1 := by
  set axes : List (ℕ × ℕ) := [(s0, n0), (s1, n1), (s2, n2)] with hax
  have hU : unfurledShape axes = [s0 * n0, s1 * n1, s2 * n2] := rfl
  have hS : sampleShape axes = [s0, s1, s2] := rfl
  have hpS : 0 < (sampleShape axes).prod := by rw [hS]; simp; omega
  obtain ⟨s, p, e1, e2, e3, e4, e5⟩ := sample_position same hs axes b hb ho hf data 0 hpS
  have hpU : 0 < (unfurledShape axes).prod := by
    rw [hU]; simp only [List.prod_cons, List.prod_nil]; positivity
  obtain ⟨q1, q2⟩ := argmaxReal_spec (fun X => ‖p.data X‖) ((unfurledShape axes).prod - 1)
  set M := argmaxReal (fun X => ‖p.data X‖) ((unfurledShape axes).prod - 1) with hM
  have hMlt : M < (unfurledShape axes).prod := by omega
  have hin := unravel_inShape _ M hMlt
  have hrav := ravel_unravel _ M hMlt
  obtain ⟨x0, x1, x2, hx⟩ : ∃ x0 x1 x2, unravel (unfurledShape axes) M = [x0, x1, x2] := by
    have hl := inShape_length _ _ hin
    match h : unravel (unfurledShape axes) M, hl with
    | [x0, x1, x2], _ => exact ⟨x0, x1, x2, rfl⟩
  rw [hx, hU] at hin
  obtain ⟨hx0, hx1, hx2⟩ : x0 < s0 * n0 ∧ x1 < s1 * n1 ∧ x2 < s2 * n2 := by simpa [InShape] using hin
  have w0 := C05_wrap_index_window x0 m0 (m0 * f0) (by omega)
  have w1 := C05_wrap_index_window x1 m1 (m1 * f1) (by omega)
  have w2 := C05_wrap_index_window x2 m2 0 (by omega)
  set a0 := wrapIndex x0 m0 (m0 * f0) with ha0
  set a1 := wrapIndex x1 m1 (m1 * f1) with ha1
  set a2 := wrapIndex x2 m2 0 with ha2
  have v0 := C05_wrap_index_window a1 m0 (m0 * f0) (by omega)
  have v1 := C05_wrap_index_window a0 m1 (m1 * f1) (by omega)
  have v2 : wrapIndex a2 m2 0 = a2 := (C05_wrap_index_unique a2 m2 0 a2 (by omega) rfl w2.2.1 w2.2.2).symm
  refine ⟨a0, a1, a2, wrapIndex a1 m0 (m0 * f0), wrapIndex a0 m1 (m1 * f1), a2, ?_, ⟨x0, x1, x2, hx0, hx1, hx2, w0.1, w1.1, w2.1, ?_⟩, w0.2, w1.2, w2.2, v0.1, v1.1,
    rfl, v0.2, v1.2⟩
  · unfold wavepacketTwoPoints
    have e1' : getWavepacketStateVector same ⟨.tuple ([s0, s1, s2].map .fundamentalTransformed), b, data⟩ 0 = some s := e1
    simp only [hm, e1', Option.bind_some, e3, e2]
    rw [← hM, hx, if_neg (by simp), if_neg hpU.ne']
    simp [wrapIndexChecked, wrapIndexAroundOrigin, List.range_succ, getX01MirroredIndex, ← ha0, ← ha1, ← ha2, v2]
  · intro y0 hy0 y1 hy1 y2 hy2
    have hY : InShape (unfurledShape axes) [y0, y1, y2] := by
      rw [hU]
      exact ⟨hy0.trans_le (Nat.le_mul_of_pos_left _ hs0), hy1.trans_le (Nat.le_mul_of_pos_left _ hs1), hy2.trans_le (Nat.le_mul_of_pos_left _ hs2), trivial⟩
    have hlt := ravel_lt _ _ hY
    have h := q2 (ravel (unfurledShape axes) [y0, y1, y2]) (by omega)
    simp only [e5 _ hlt, e5 _ hMlt, blochCoeff] at h
    rw [norm_blochWave_le axes hpS, unravel_ravel _ _ hY, hx] at h
    have hd : ∀ k, block (size b) data 0 k = data k := fun k => by simp [block]
    have hd' : block (size b) data 0 = data := funext hd
    rw [hd'] at h
    simpa [hax, reduce, Nat.mod_eq_of_lt, hy0, hy1, hy2] using h

-- a truncated basis of plane waves, samples along both axes, and an origin in another cell
example (same : Basis → Basis → Bool) (hs : Sound same) (data : ℕ → ℂ) : ∃ a0 a1 a2 c0 c1 c2 : ℤ,
    wavepacketTwoPoints same ⟨.tuple ([2, 3, 1].map .fundamentalTransformed), .tuple [.transformed 4 6, .transformed 5 7, .fundamental 2], data⟩ (1, -1) =
      some ([a0, a1, a2], [c0, c1, c2]) ∧ WithinHalfCell 4 4 a0 ∧ WithinHalfCell 5 (-5) c1 := by
  obtain ⟨a0, a1, a2, c0, c1, c2, h, -, r0, -, -, -, -, -, -, r4⟩ := C152_two_points same hs 2 3 1 6 7 2 4 5 2 (by norm_num) (by norm_num) (by norm_num) (by norm_num)
    (by norm_num) (by norm_num) (by norm_num) (by norm_num) (by norm_num) (.tuple [.transformed 4 6, .transformed 5 7, .fundamental 2])
    (by simp [Valid, Valids]) (by simp [OrthonormalParts, OrthonormalPartss]) rfl rfl data 1 (-1)
  exact ⟨a0, a1, a2, c0, c1, c2, h, by simpa using r0, by simpa using r4⟩

/-- **C152.** In a basis which is not truncated the first of the two points is, up to multiples of the unit cell, a point at which the modulus of the wavefunction of the
first sample is largest. -/
theorem C152_maximum (same : Basis → Basis → Bool) (hs : Sound same) (s0 s1 s2 n0 n1 n2 : ℕ) (hs0 : 0 < s0) (hs1 : 0 < s1) (hs2 : 0 < s2)
    (hn0 : 0 < n0) (hn1 : 0 < n1) (hn2 : 0 < n2) (b : Basis) (hb : Valid b) (ho : OrthonormalParts b)
    (hf : b.fundamentalShape = [n0, n1, n2]) (hm : b.shape = [n0, n1, n2]) (data : ℕ → ℂ) (f0 f1 : ℤ) :
    ∃ a0 a1 a2 c0 c1 c2 : ℤ, wavepacketTwoPoints same ⟨.tuple ([s0, s1, s2].map .fundamentalTransformed), b, data⟩ (f0, f1) =
        some ([a0, a1, a2], [c0, c1, c2]) ∧
      (∀ y0 < n0, ∀ y1 < n1, ∀ y2 < n2, ‖expand b data (ravel [n0, n1, n2] [y0, y1, y2])‖ ≤
          ‖expand b data (ravel [n0, n1, n2] [(a0 % n0).toNat, (a1 % n1).toNat, (a2 % n2).toNat])‖) ∧
      WithinHalfCell n0 (n0 * f0) a0 ∧ WithinHalfCell n1 (n1 * f1) a1 ∧ WithinHalfCell n2 0 a2 ∧
      c0 ≡ a1 [ZMOD n0] ∧ c1 ≡ a0 [ZMOD n1] ∧ c2 = a2 ∧ WithinHalfCell n0 (n0 * f0) c0 ∧ WithinHalfCell n1 (n1 * f1) c1 := by
  obtain ⟨a0, a1, a2, c0, c1, c2, h, ⟨x0, x1, x2, -, -, -, e0, e1, e2, hmax⟩, r⟩ :=
    C152_two_points same hs s0 s1 s2 n0 n1 n2 n0 n1 n2 hs0 hs1 hs2 hn0 hn1 hn2 hn0 hn1 hn2 b hb ho hf hm data f0 f1
  refine ⟨a0, a1, a2, c0, c1, c2, h, ?_, r⟩
  have key : ∀ (a : ℤ) (x n : ℕ), a ≡ x [ZMOD n] → (a % n).toNat = x % n := by
    intro a x n h
    rw [h, ← Int.natCast_mod, Int.toNat_natCast]
  rw [key _ _ _ e0, key _ _ _ e1, key _ _ _ e2]
  exact hmax

-- a basis of plane waves which is not truncated: some point has the largest modulus
example (same : Basis → Basis → Bool) (hs : Sound same) (data : ℕ → ℂ) : ∃ a0 a1 a2 : ℤ, ∃ c,
    wavepacketTwoPoints same ⟨.tuple ([2, 3, 1].map .fundamentalTransformed), fT [4, 5, 2], data⟩ (0, 0) = some ([a0, a1, a2], c) ∧
      ‖expand (fT [4, 5, 2]) data (ravel [4, 5, 2] [3, 1, 1])‖ ≤ ‖expand (fT [4, 5, 2]) data (ravel [4, 5, 2] [(a0 % 4).toNat, (a1 % 5).toNat, (a2 % 2).toNat])‖ := by
  obtain ⟨a0, a1, a2, c0, c1, c2, h, hmax, -⟩ := C152_maximum same hs 2 3 1 4 5 2 (by norm_num) (by norm_num) (by norm_num) (by norm_num) (by norm_num) (by norm_num)
    (fT [4, 5, 2]) (valids_fT _) (orthonormalPartss_fT _) rfl rfl data 0 0
  exact ⟨a0, a1, a2, _, h, hmax 3 (by norm_num) 1 (by norm_num) 1 (by norm_num)⟩

/-- **C152.** If the cell has as many points along both of the first two axes, the second point is the mirror image of the first up to multiples of the cell: if the
wavefunction does not change when the two axes are exchanged, its modulus is largest at both points. -/
theorem C152_mirror (same : Basis → Basis → Bool) (hs : Sound same) (s0 s1 s2 n n2 : ℕ) (hs0 : 0 < s0) (hs1 : 0 < s1) (hs2 : 0 < s2)
    (hn : 0 < n) (hn2 : 0 < n2) (b : Basis) (hb : Valid b) (ho : OrthonormalParts b)
    (hf : b.fundamentalShape = [n, n, n2]) (hm : b.shape = [n, n, n2]) (data : ℕ → ℂ) (f0 f1 : ℤ)
    (hsym : ∀ y0 < n, ∀ y1 < n, ∀ y2 < n2, ‖expand b data (ravel [n, n, n2] [y0, y1, y2])‖ = ‖expand b data (ravel [n, n, n2] [y1, y0, y2])‖) :
    ∃ a0 a1 a2 c0 c1 c2 : ℤ, wavepacketTwoPoints same ⟨.tuple ([s0, s1, s2].map .fundamentalTransformed), b, data⟩ (f0, f1) =
        some ([a0, a1, a2], [c0, c1, c2]) ∧
      ∀ y0 < n, ∀ y1 < n, ∀ y2 < n2,
        ‖expand b data (ravel [n, n, n2] [y0, y1, y2])‖ ≤ ‖expand b data (ravel [n, n, n2] [(a0 % n).toNat, (a1 % n).toNat, (a2 % n2).toNat])‖ ∧
        ‖expand b data (ravel [n, n, n2] [y0, y1, y2])‖ ≤ ‖expand b data (ravel [n, n, n2] [(c0 % n).toNat, (c1 % n).toNat, (c2 % n2).toNat])‖ := by
  obtain ⟨a0, a1, a2, c0, c1, c2, h, hmax, -, -, -, g0, g1, g2, -, -⟩ :=
    C152_maximum same hs s0 s1 s2 n n n2 hs0 hs1 hs2 hn hn hn2 b hb ho hf hm data f0 f1
  refine ⟨a0, a1, a2, c0, c1, c2, h, fun y0 hy0 y1 hy1 y2 hy2 => ⟨hmax y0 hy0 y1 hy1 y2 hy2, ?_⟩⟩
  have lt : ∀ (a : ℤ) (m : ℕ), 0 < m → (a % m).toNat < m := fun a m hm => by
    have h1 := Int.emod_nonneg a (show (m : ℤ) ≠ 0 by omega)
    have h2 := Int.emod_lt_of_pos a (show (0 : ℤ) < m by omega)
    omega
  rw [show c0 % n = a1 % n from g0, show c1 % n = a0 % n from g1, g2, hsym _ (lt a1 n hn) _ (lt a0 n hn) _ (lt a2 n2 hn2)]
  exact hmax y0 hy0 y1 hy1 y2 hy2

-- a state with equal weights at two mirrored points, which are the points found
example (same : Basis → Basis → Bool) (hs : Sound same) : ∃ a0 a1 a2 c0 c1 c2 : ℤ,
    wavepacketTwoPoints same ⟨.tuple ([2, 2, 1].map .fundamentalTransformed), .tuple ([3, 3, 1].map .fundamental), fun k => if k = 1 ∨ k = 3 then 1 else 0⟩ (0, 0) =
        some ([a0, a1, a2], [c0, c1, c2]) ∧
      (ravel [3, 3, 1] [(a0 % 3).toNat, (a1 % 3).toNat, (a2 % 1).toNat] = 1 ∨ ravel [3, 3, 1] [(a0 % 3).toNat, (a1 % 3).toNat, (a2 % 1).toNat] = 3) ∧
      (ravel [3, 3, 1] [(c0 % 3).toNat, (c1 % 3).toNat, (c2 % 1).toNat] = 1 ∨ ravel [3, 3, 1] [(c0 % 3).toNat, (c1 % 3).toNat, (c2 % 1).toNat] = 3) := by
  have lt : ∀ x y z : ℤ, ravel [3, 3, 1] [(x % 3).toNat, (y % 3).toNat, (z % 1).toNat] < [3, 3, 1].prod := fun x y z => ravel_lt _ _ ⟨by omega, by omega, by omega, trivial⟩
  obtain ⟨a0, a1, a2, c0, c1, c2, h, hmax⟩ := C152_mirror same hs 2 2 1 3 1 (by norm_num) (by norm_num) (by norm_num) (by norm_num) (by norm_num)
    (.tuple ([3, 3, 1].map .fundamental)) ((fund_facts _).2.2.2) (orthonormalParts_fundamental _) rfl rfl (fun k => if k = 1 ∨ k = 3 then 1 else 0) 0 0
    (by
      intro y0 h0 y1 h1 y2 h2
      interval_cases y0 <;> interval_cases y1 <;> interval_cases y2 <;>
        first
          | rfl
          | rw [expand_position _ _ (by decide), expand_position _ _ (by decide)]; simp [ravel])
  obtain ⟨p, q⟩ := hmax 0 (by norm_num) 1 (by norm_num) 0 (by norm_num)
  refine ⟨a0, a1, a2, c0, c1, c2, h, ?_, ?_⟩
  · by_contra hne
    rw [expand_position _ _ (by decide), expand_position _ _ (by exact_mod_cast lt a0 a1 a2)] at p
    have hne' : ¬(ravel [3, 3, 1] [(a0 % ((3 : ℕ) : ℤ)).toNat, (a1 % ((3 : ℕ) : ℤ)).toNat, (a2 % ((1 : ℕ) : ℤ)).toNat] = 1 ∨
      ravel [3, 3, 1] [(a0 % ((3 : ℕ) : ℤ)).toNat, (a1 % ((3 : ℕ) : ℤ)).toNat, (a2 % ((1 : ℕ) : ℤ)).toNat] = 3) := by exact_mod_cast hne
    rw [if_neg hne'] at p
    norm_num [ravel] at p
  · by_contra hne
    rw [expand_position _ _ (by decide), expand_position _ _ (by exact_mod_cast lt c0 c1 c2)] at q
    have hne' : ¬(ravel [3, 3, 1] [(c0 % ((3 : ℕ) : ℤ)).toNat, (c1 % ((3 : ℕ) : ℤ)).toNat, (c2 % ((1 : ℕ) : ℤ)).toNat] = 1 ∨
      ravel [3, 3, 1] [(c0 % ((3 : ℕ) : ℤ)).toNat, (c1 % ((3 : ℕ) : ℤ)).toNat, (c2 % ((1 : ℕ) : ℤ)).toNat] = 3) := by exact_mod_cast hne
    rw [if_neg hne'] at q
    norm_num [ravel] at q

/-- **C152.** The bands of the tunnelling simulation: there is one state for each band, its location is the mean of the two points of the wavepacket of the band (first two
coordinates, as numbers of points of the grid), and it is within half a cell of the origin. The first bands keep their locations in a basis with fewer bands, which is the last of the three axes of the simulation. -/
theorem C152_locations_partial (same : Basis → Basis → Bool) (hs : Sound same) (s0 s1 s2 n0 n1 n2 bands : ℕ) (hs0 : 0 < s0) (hs1 : 0 < s1) (hs2 : 0 < s2)
    (hn0 : 0 < n0) (hn1 : 0 < n1) (hn2 : 0 < n2) (b : Basis) (hb : Valid b) (ho : OrthonormalParts b)
    (hf : b.fundamentalShape = [n0, n1, n2]) (hm : b.shape = [n0, n1, n2]) (data : ℕ → ℂ) (A : Matrix (Fin 3) (Fin 3) ℝ) :
    ∃ t, tunnellingFromWavepackets same ⟨.fundamental bands, .tuple ([s0, s1, s2].map .fundamentalTransformed), b, data⟩ A = some t ∧
      t.n = bands ∧ t.unitCell = !![A 0 0, A 0 1; A 1 0, A 1 1] ∧
      (∀ i < bands, ∃ a0 a1 a2 c0 c1 c2 : ℤ, wavepacketTwoPoints same ⟨.tuple ([s0, s1, s2].map .fundamentalTransformed), b,
          fun k => data (i * (s0 * s1 * s2 * size b) + k)⟩ (0, 0) = some ([a0, a1, a2], [c0, c1, c2]) ∧
        t.location0 i = (a0 + c0) / 2 ∧ t.location1 i = (a1 + c1) / 2 ∧ |t.location0 i| ≤ n0 / 2 ∧ |t.location1 i| ≤ n1 / 2) ∧
      ∀ k ≤ bands, (t.first k).n = k ∧ (∀ m0 m1, tunnellingShape (m0, m1) k t = [m0, m1, k]) ∧ ∀ i < k, (t.first k).location0 i = t.location0 i ∧ (t.first k).location1 i = t.location1 i := by
  set L : Basis := .tuple ([s0, s1, s2].map .fundamentalTransformed) with hL
  have hLn : L.n = s0 * s1 * s2 := by
    rw [hL, show (Basis.tuple ([s0, s1, s2].map .fundamentalTransformed)).n = size _ from (methods_sizes _).1]
    simp [size, sizes, mul_assoc]
  have hbn : b.n = size b := (methods_sizes b).1
  set pt : ℕ → List ℤ × List ℤ := fun i => (wavepacketTwoPoints same ⟨L, b, fun k => data (i * (s0 * s1 * s2 * size b) + k)⟩ (0, 0)).getD ([], []) with hpt
  have each : ∀ i, ∃ a0 a1 a2 c0 c1 c2 : ℤ, wavepacketTwoPoints same ⟨L, b, fun k => data (i * (s0 * s1 * s2 * size b) + k)⟩ (0, 0) =
        some ([a0, a1, a2], [c0, c1, c2]) ∧ WithinHalfCell n0 0 a0 ∧ WithinHalfCell n1 0 a1 ∧ WithinHalfCell n0 0 c0 ∧ WithinHalfCell n1 0 c1 := by
    intro i
    obtain ⟨a0, a1, a2, c0, c1, c2, h, -, r0, r1, -, -, -, -, r2, r3⟩ := C152_maximum same hs s0 s1 s2 n0 n1 n2 hs0 hs1 hs2 hn0 hn1 hn2 b hb ho hf hm
      (fun k => data (i * (s0 * s1 * s2 * size b) + k)) 0 0
    rw [mul_zero] at r0 r1 r2 r3
    exact ⟨a0, a1, a2, c0, c1, c2, h, r0, r1, r2, r3⟩
  have hmap : (wavepacketListIntoIter ⟨.fundamental bands, L, b, data⟩).mapM (fun s => wavepacketTwoPoints same s (0, 0)) =
      some ((List.range bands).map pt) := by
    unfold wavepacketListIntoIter
    have hbl : ∀ i, block (WavepacketList.row ⟨.fundamental bands, L, b, data⟩) data i = fun k => data (i * (s0 * s1 * s2 * size b) + k) := by
      intro i; funext k; simp [block, WavepacketList.row, hLn, hbn]
    have hn : (Basis.fundamental bands).n = bands := (methods_sizes _).1
    simp only [hbl, hn]
    rw [List.mapM_map]
    apply mapM_some_map
    intro i _
    obtain ⟨a0, a1, a2, c0, c1, c2, h, -⟩ := each i
    simp [hpt, h]
  have hget : ∀ i < bands, ((List.range bands).map pt).getD i ([], []) = pt i := by
    intro i hi
    simp [hi]
  have habs : ∀ (n : ℕ) (a c : ℤ), WithinHalfCell n 0 a → WithinHalfCell n 0 c → |((a : ℝ) + c) / 2| ≤ (n : ℝ) / 2 := by
    rintro n a c ⟨h1, h2⟩ ⟨h3, h4⟩
    have e1 : -(n : ℤ) ≤ a + c := by omega
    have e2 : a + c ≤ (n : ℤ) := by omega
    have e1' : -(n : ℝ) ≤ (a : ℝ) + c := by exact_mod_cast e1
    have e2' : (a : ℝ) + c ≤ (n : ℝ) := by exact_mod_cast e2
    rw [abs_le]; constructor <;> linarith
  unfold tunnellingFromWavepackets
  rw [hmap]
  refine ⟨_, rfl, (methods_sizes (.fundamental bands)).1, ?_, fun i hi => ?_, fun k hk => ?_⟩
  · ext i j; fin_cases i <;> fin_cases j <;> rfl
  · obtain ⟨a0, a1, a2, c0, c1, c2, h, r0, r1, r2, r3⟩ := each i
    have hp : pt i = ([a0, a1, a2], [c0, c1, c2]) := by simp [hpt, h]
    refine ⟨a0, a1, a2, c0, c1, c2, h, ?_, ?_, ?_, ?_⟩
    · simp only [hget i hi, hp]; simp
    · simp only [hget i hi, hp]; simp
    · simp only [hget i hi, hp]; simpa using habs n0 a0 c0 r0 r2
    · simp only [hget i hi, hp]; simpa using habs n1 a1 c1 r1 r3
  · have hk' : min k (Basis.fundamental bands).n = k := by
      rw [show (Basis.fundamental bands).n = bands from (methods_sizes _).1]
      exact min_eq_left hk
    exact ⟨hk', fun m0 m1 => by show [m0, m1, min k (Basis.fundamental bands).n] = _; rw [hk'], fun i _ => ⟨rfl, rfl⟩⟩

-- four bands, of which three are kept
example (same : Basis → Basis → Bool) (hs : Sound same) (data : ℕ → ℂ) (A : Matrix (Fin 3) (Fin 3) ℝ) : ∃ t,
    tunnellingFromWavepackets same ⟨.fundamental 4, .tuple ([2, 3, 1].map .fundamentalTransformed), fT [4, 5, 2], data⟩ A = some t ∧
      |t.location1 2| ≤ 5 / 2 ∧ tunnellingShape (7, 8) 3 t = [7, 8, 3] := by
  obtain ⟨t, h, -, -, h2, h3⟩ := C152_locations_partial same hs 2 3 1 4 5 2 4 (by norm_num) (by norm_num) (by norm_num) (by norm_num) (by norm_num) (by norm_num)
    (fT [4, 5, 2]) (valids_fT _) (orthonormalPartss_fT _) rfl rfl data A
  obtain ⟨_, _, _, _, _, _, -, -, -, -, h4⟩ := h2 2 (by norm_num)
  exact ⟨t, h, by exact_mod_cast h4, (h3 3 (by norm_num)).2.1 7 8⟩

/-- **C152, negation.** The locations are not fractions of the unit cell, as the documentation says: for a band with all weight at the point `(1, 1, 0)` of a cell with three points
along the first two axes both points of the wavepacket are `(1, 1, 0)`, a third of the way along the cell, and the location is `(1, 1)`. -/
theorem C152_fraction_negation (same : Basis → Basis → Bool) (hs : Sound same) (A : Matrix (Fin 3) (Fin 3) ℝ) :
    ∃ t, tunnellingFromWavepackets same ⟨.fundamental 1, .tuple ([1, 1, 1].map .fundamentalTransformed), .tuple ([3, 3, 1].map .fundamental),
        fun k => if k = 4 then 1 else 0⟩ A = some t ∧
      wavepacketTwoPoints same ⟨.tuple ([1, 1, 1].map .fundamentalTransformed), .tuple ([3, 3, 1].map .fundamental), fun k => if k = 4 then 1 else 0⟩ (0, 0) =
        some ([1, 1, 0], [1, 1, 0]) ∧ t.location0 0 = 1 ∧ t.location1 0 = 1 ∧ t.location0 0 ≠ 1 / 3 := by
  have hb : Valid (.tuple ([3, 3, 1].map .fundamental)) := (fund_facts _).2.2.2
  have ho : OrthonormalParts (.tuple ([3, 3, 1].map .fundamental)) := orthonormalParts_fundamental _
  have hf : (Basis.tuple ([3, 3, 1].map .fundamental)).fundamentalShape = [3, 3, 1] := rfl
  have hm : (Basis.tuple ([3, 3, 1].map .fundamental)).shape = [3, 3, 1] := rfl
  have hsz : size (.tuple ([3, 3, 1].map Basis.fundamental)) = 9 := rfl
  obtain ⟨a0, a1, a2, c0, c1, c2, h, hmax, r0, r1, r2, g0, g1, g2, r3, r4⟩ := C152_maximum same hs 1 1 1 3 3 1 (by norm_num) (by norm_num) (by norm_num)
    (by norm_num) (by norm_num) (by norm_num) (.tuple ([3, 3, 1].map .fundamental)) hb ho hf hm (fun k => if k = 4 then 1 else 0) 0 0
  have h1 := hmax 1 (by norm_num) 1 (by norm_num) 0 (by norm_num)
  have m0 := Int.emod_nonneg a0 (show (3 : ℤ) ≠ 0 by norm_num)
  have m0' := Int.emod_lt_of_pos a0 (show (0 : ℤ) < 3 by norm_num)
  have m1 := Int.emod_nonneg a1 (show (3 : ℤ) ≠ 0 by norm_num)
  have m1' := Int.emod_lt_of_pos a1 (show (0 : ℤ) < 3 by norm_num)
  have hz : a2 % (1 : ℤ) = 0 := Int.emod_one a2
  rw [expand_position _ _ (by decide), expand_position _ _ (by
    simp only [ravel, List.prod_cons, List.prod_nil]
    push_cast
    omega)] at h1
  simp only [ravel, List.prod_cons, List.prod_nil, Nat.cast_ofNat, Nat.cast_one, hz] at h1
  norm_num at h1
  have hidx : (a0 % 3).toNat * 3 + (a1 % 3).toNat = 4 := by
    by_contra hne
    rw [if_neg hne] at h1
    norm_num at h1
  unfold WithinHalfCell at r0 r1 r2 r3 r4
  norm_num at r0 r1 r2 r3 r4
  have e0 : a0 = 1 := by omega
  have e1 : a1 = 1 := by omega
  have e2 : a2 = 0 := by omega
  have g0' : c0 % 3 = a1 % 3 := g0
  have g1' : c1 % 3 = a0 % 3 := g1
  have e3 : c0 = 1 := by omega
  have e4 : c1 = 1 := by omega
  subst e0 e1 e2 e3 e4 g2
  obtain ⟨t, ht, -, -, hloc, -⟩ := C152_locations_partial same hs 1 1 1 3 3 1 1 (by norm_num) (by norm_num) (by norm_num)
    (by norm_num) (by norm_num) (by norm_num) (.tuple ([3, 3, 1].map .fundamental)) hb ho hf hm (fun k => if k = 4 then 1 else 0) A
  obtain ⟨b0, b1, b2, d0, d1, d2, h', l0, l1, -, -⟩ := hloc 0 (by norm_num)
  simp only [zero_mul, zero_add] at h'
  rw [h] at h'
  simp only [Option.some.injEq, Prod.mk.injEq, List.cons.injEq] at h'
  obtain ⟨⟨q0, q1, -⟩, ⟨q2, q3, -⟩⟩ := h'
  rw [← q0, ← q2] at l0
  rw [← q1, ← q3] at l1
  norm_num at l0 l1
  exact ⟨t, ht, h, l0, l1, by rw [l0]; norm_num⟩

/-- **C152, negation.** In a truncated basis the first point is not where the wavefunction is largest: with two of the three points of the first axis and all weight at the
last point, the first point found is zero, at which the wavefunction vanishes. -/
theorem C152_truncated_negation (same : Basis → Basis → Bool) (hs : Sound same) :
    ∃ c, wavepacketTwoPoints same ⟨.tuple ([1, 1, 1].map .fundamentalTransformed), .tuple [.truncated 2 3, .fundamental 1, .fundamental 1],
        fun k => if k = 1 then 1 else 0⟩ (0, 0) = some ([0, 0, 0], c) ∧
      expand (.tuple [.truncated 2 3, .fundamental 1, .fundamental 1]) (fun k => if k = 1 then 1 else 0) (ravel [3, 1, 1] [0, 0, 0]) = 0 ∧
      expand (.tuple [.truncated 2 3, .fundamental 1, .fundamental 1]) (fun k => if k = 1 then 1 else 0) (ravel [3, 1, 1] [2, 0, 0]) = 1 := by
  have hx : ∀ x : ℕ, expand (.tuple [.truncated 2 3, .fundamental 1, .fundamental 1]) (fun k => if k = 1 then 1 else 0) (ravel [3, 1, 1] [x, 0, 0]) =
      if x = 2 then 1 else 0 := by
    intro x
    have : slot 3 (freq 2 1) = 2 := by decide
    simp [expand, size, sizes, sum_range_succ, state, states, ravel, points, pointss, this, Nat.mod_one]
  obtain ⟨a0, a1, a2, c0, c1, c2, h, ⟨x0, x1, x2, l0, l1, l2, e0, e1, e2, hmax⟩, r0, r1, r2, -⟩ := C152_two_points same hs 1 1 1 3 1 1 2 1 1 (by norm_num) (by norm_num) (by norm_num)
    (by norm_num) (by norm_num) (by norm_num) (by norm_num) (by norm_num) (by norm_num) (.tuple [.truncated 2 3, .fundamental 1, .fundamental 1])
    (by simp [Valid, Valids]) (by simp [OrthonormalParts, OrthonormalPartss]) rfl rfl (fun k => if k = 1 then 1 else 0) 0 0
  have h1 := hmax 2 (by norm_num) 0 (by norm_num) 0 (by norm_num)
  have z1 : x1 % 1 = 0 := Nat.mod_one _
  have z2 : x2 % 1 = 0 := Nat.mod_one _
  rw [z1, z2, hx, hx] at h1
  have hx0 : x0 % 3 = 2 := by
    by_contra hne
    rw [if_neg hne] at h1
    norm_num at h1
  have e0' : a0 % 2 = (x0 : ℤ) % 2 := e0
  unfold WithinHalfCell at r0 r1 r2
  norm_num at r0 r1 r2
  have q0 : a0 = 0 := by omega
  have q1 : a1 = 0 := by omega
  have q2 : a2 = 0 := by omega
  subst q0 q1 q2
  exact ⟨_, h, by rw [hx]; simp, by rw [hx]; simp⟩

end Verif
