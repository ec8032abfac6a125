import Verif.Geom.Rounded
import Verif.Camera.Camera

/-!
# Camera rays in rounded arithmetic (C187)

The constructors and `generate_ray` of `PerspectiveCamera` and `OrthoCamera` (`pytracer/camera/projective.py:36-176`) without a lens and for a camera that does not move, every operation rounded to binary64.
What `numpy.tan` and `numpy.linalg.inv` compute is not modelled: the theorems hold for every value of the scale factor and for every matrix of the pattern of the inverse.
-/
set_option linter.unusedSectionVars false

namespace Verif.CamR
open V3 Verif.Rnd Verif.Xform Verif.XformR Verif.GeomR

/-! ### Model -/

/-- the film resolution and the screen window `[x0, x1, y0, y1]` (`camera/projective.py:42-43`) -/
structure Win where
  xRes : ℕ
  yRes : ℕ
  x0 : ℝ
  x1 : ℝ
  y0 : ℝ
  y1 : ℝ

/-- `s2r` (`camera/projective.py:53-56`) -/
def S2R (c : Win) (t : Transform ℝ) : Prop :=
  ∃ u, MulR (scaleR (c.xRes : ℝ) (c.yRes : ℝ) 1) (scaleR (double (1 / double (c.x1 - c.x0))) (double (1 / double (c.y0 - c.y1))) 1) u ∧ MulR u (translate ⟨-c.x0, -c.y1, 0⟩) t

/-- `r2c` (`camera/projective.py:58-59`) -/
def R2C (c : Win) (c2s r2c : Transform ℝ) : Prop := ∃ s2r, S2R c s2r ∧ MulR c2s.inverse s2r.inverse r2c

/-- `Transform.perspective(fov, .001, 1000.)` (`transform/__init__.py:239-250`): `ti` is the value of `tan_inv`, `p` the matrix with the inverse that `numpy.linalg.inv` computed -/
def PerspC2S (ti : ℝ) (p c2s : Transform ℝ) : Prop := MulR (scaleR ti ti 1) p c2s

/-- `Transform.orthographic(0., 1.)` (`transform/__init__.py:235-237`) -/
def OrthoC2S (c2s : Transform ℝ) : Prop := MulR (scaleR 1 1 (double (1 / double (1 - 0)))) (translate ⟨0, 0, -0⟩) c2s

/-- `PerspectiveCamera.generate_ray` without a lens (`camera/projective.py:145-155, 174-176`): origin and direction of the ray -/
def PerspRayR (r2c c2w : Transform ℝ) (x y : ℝ) (o d : V3 ℝ) : Prop := ∃ p, PtR r2c ⟨x, y, 0⟩ p ∧ PtR c2w ⟨0, 0, 0⟩ o ∧ VecR c2w (normalizeR p) d

/-- `OrthoCamera.generate_ray` without a lens (`camera/projective.py:80-90, 109-111`) -/
def OrthoRayR (r2c c2w : Transform ℝ) (x y : ℝ) (o d : V3 ℝ) : Prop := ∃ p, PtR r2c ⟨x, y, 0⟩ p ∧ PtR c2w p o ∧ VecR c2w ⟨0, 0, 1⟩ d

/-! ### Specification -/

/-- the horizontal screen coordinate of raster column `x`: the window is crossed from left to right -/
noncomputable def Win.scrX (c : Win) (x : ℝ) : ℝ := c.x0 + x / c.xRes * (c.x1 - c.x0)
/-- the vertical screen coordinate of raster row `y`: the window is crossed from top to bottom -/
noncomputable def Win.scrY (c : Win) (y : ℝ) : ℝ := c.y1 - y / c.yRes * (c.y1 - c.y0)
/-- the magnitude of the terms of these -/
noncomputable def Win.magX (c : Win) (x : ℝ) : ℝ := |c.x0| + |x| / c.xRes * (c.x1 - c.x0)
noncomputable def Win.magY (c : Win) (y : ℝ) : ℝ := |c.y1| + |y| / c.yRes * (c.y1 - c.y0)

/-- a multiple of `2^-60`, not larger than `2^20` -/
def Mid (x : ℝ) : Prop := IsDouble x ∧ Grid (-60) x ∧ |x| ≤ 2 ^ (20 : ℤ)
/-- between `2^-20` and `2^20` -/
def Factor (x : ℝ) : Prop := 2 ^ (-20 : ℤ) ≤ x ∧ x ≤ 2 ^ (20 : ℤ)

/-- a film and a screen window that are not empty, of ordinary sizes -/
structure Win.Ok (c : Win) : Prop where
  xr : 0 < c.xRes ∧ c.xRes ≤ 2 ^ 20
  yr : 0 < c.yRes ∧ c.yRes ≤ 2 ^ 20
  x0 : Mid c.x0
  x1 : Mid c.x1
  y0 : Mid c.y0
  y1 : Mid c.y1
  w : Factor (c.x1 - c.x0)
  h : Factor (c.y1 - c.y0)

/-- the pattern of the inverse of the projective matrix: the entries called `q` and `e` do not matter, `g` and `w` are positive -/
structure InvPattern (m : M4 ℝ) (g : ℝ) : Prop where
  ex : ∃ q e w : ℝ, m = !![1, 0, 0, 0; 0, 1, 0, 0; 0, 0, q, g; 0, 0, e, w] ∧ IsDouble w ∧ Factor w
  dbl : IsDouble g
  size : Factor g

/-! ### The matrices -/

theorem mm {a b c : M4 ℝ} (h : MatMulR a b c) (i j k0 : Fin 4) (h0 : ∀ k, k ≠ k0 → a i k * b k j = 0) : c i j = double (a i k0 * b k0 j) :=
  (h i j).single k0 (by decide) (by fin_cases k0 <;> decide) fun k _ hk => h0 k hk

theorem dz : double (0 : ℝ) = 0 := double_zero
theorem d1 : double (1 : ℝ) = 1 := double_of_isDouble isDouble_one

theorem diag_mul {a b x y p q : ℝ} {c : M4 ℝ} (h : MatMulR !![a, 0, 0, 0; 0, b, 0, 0; 0, 0, p, 0; 0, 0, 0, 1] !![x, 0, 0, 0; 0, y, 0, 0; 0, 0, q, 0; 0, 0, 0, 1] c) :
    c = !![double (a * x), 0, 0, 0; 0, double (b * y), 0, 0; 0, 0, double (p * q), 0; 0, 0, 0, 1] := by
  ext i j
  rw [mm h i j i (by intro k hk; fin_cases i <;> fin_cases k <;> first | exact absurd rfl hk | simp)]
  fin_cases i <;> fin_cases j <;> simp [dz, d1]

theorem trans_mul {x y z a b p : ℝ} (ha : IsDouble a) (hb : IsDouble b) (hp : IsDouble p) (hx : IsDouble x) (hy : IsDouble y) (hz : IsDouble z) {c : M4 ℝ}
    (h : MatMulR !![1, 0, 0, x; 0, 1, 0, y; 0, 0, 1, z; 0, 0, 0, 1] !![a, 0, 0, 0; 0, b, 0, 0; 0, 0, p, 0; 0, 0, 0, 1] c) : c = !![a, 0, 0, x; 0, b, 0, y; 0, 0, p, z; 0, 0, 0, 1] := by
  ext i j
  rw [mm h i j j (by intro k hk; fin_cases j <;> fin_cases k <;> first | exact absurd rfl hk | simp)]
  fin_cases i <;> fin_cases j <;> simp [dz, d1, double_of_isDouble, *]

/-- the first two columns, the last column, of the product with the inverse of the projection -/
theorem persp_mul {g w τ : ℝ} {q e : ℝ} (hg : IsDouble g) (hw : IsDouble w) (hτ : IsDouble τ) {c : M4 ℝ}
    (h : MatMulR !![1, 0, 0, 0; 0, 1, 0, 0; 0, 0, q, g; 0, 0, e, w] !![τ, 0, 0, 0; 0, τ, 0, 0; 0, 0, 1, 0; 0, 0, 0, 1] c) :
    c = !![τ, 0, 0, 0; 0, τ, 0, 0; 0, 0, double q, g; 0, 0, double e, w] := by
  ext i j
  rw [mm h i j j (by intro k hk; fin_cases j <;> fin_cases k <;> first | exact absurd rfl hk | simp)]
  fin_cases i <;> fin_cases j <;> simp [dz, double_of_isDouble, *]

theorem r2c_mul {τ q g e w a b p x y : ℝ} (hg : IsDouble g) (hw : IsDouble w) {c : M4 ℝ}
    (h : MatMulR !![τ, 0, 0, 0; 0, τ, 0, 0; 0, 0, q, g; 0, 0, e, w] !![a, 0, 0, x; 0, b, 0, y; 0, 0, p, 0; 0, 0, 0, 1] c) :
    c = !![double (τ * a), 0, 0, double (τ * x); 0, double (τ * b), 0, double (τ * y); 0, 0, double (q * p), g; 0, 0, double (e * p), w] := by
  ext i j
  by_cases hi : i = 0 ∨ i = 1
  · rw [mm h i j i (by intro k hk; rcases hi with rfl | rfl <;> fin_cases k <;> first | exact absurd rfl hk | simp)]
    rcases hi with rfl | rfl <;> fin_cases j <;> simp [dz]
  · rw [mm h i j j (by intro k hk; fin_cases i <;> simp at hi <;> fin_cases j <;> fin_cases k <;> first | exact absurd rfl hk | simp)]
    fin_cases i <;> simp at hi <;> fin_cases j <;> simp [dz, double_of_isDouble, *]

/-- the stored factor for one axis of the raster -/
noncomputable def step (n : ℕ) (s : ℝ) : ℝ := double (double (1 / double (1 / s)) * double (1 / (n : ℝ)))

theorem s2r_mInv {c : Win} (hc : c.Ok) {t : Transform ℝ} (h : S2R c t) :
    t.mInv = !![step c.xRes (double (c.x1 - c.x0)), 0, 0, c.x0; 0, step c.yRes (double (c.y0 - c.y1)), 0, c.y1; 0, 0, 1, 0; 0, 0, 0, 1] := by
  obtain ⟨u, ⟨-, h1⟩, -, h2⟩ := h
  have e := diag_mul h1
  rw [e] at h2
  have z : double (double (1 / (1 : ℝ)) * double (1 / 1)) = 1 := by rw [div_one, d1, one_mul, d1]
  rw [z] at h2
  have e' : (translate (⟨-c.x0, -c.y1, 0⟩ : V3 ℝ)).mInv = !![1, 0, 0, c.x0; 0, 1, 0, c.y1; 0, 0, 1, 0; 0, 0, 0, 1] := by simp [translate]
  rw [e'] at h2
  exact trans_mul (isDouble_double _) (isDouble_double _) isDouble_one hc.x0.1 hc.y1.1 isDouble_zero h2

theorem persp_r2c {c : Win} (hc : c.Ok) {ti g : ℝ} {p c2s r2c : Transform ℝ} (hp : InvPattern p.mInv g) (h : PerspC2S ti p c2s) (h' : R2C c c2s r2c) :
    ∃ q e w, r2c.m = !![double (double (1 / ti) * step c.xRes (double (c.x1 - c.x0))), 0, 0, double (double (1 / ti) * c.x0);
      0, double (double (1 / ti) * step c.yRes (double (c.y0 - c.y1))), 0, double (double (1 / ti) * c.y1); 0, 0, q, g; 0, 0, e, w] ∧ IsDouble w ∧ Factor w := by
  obtain ⟨q, e, w, hm, hw, hf⟩ := hp.ex
  obtain ⟨-, h1⟩ := h
  obtain ⟨s2r, hs, h2, -⟩ := h'
  have k1 : MatMulR !![1, 0, 0, 0; 0, 1, 0, 0; 0, 0, q, g; 0, 0, e, w] !![double (1 / ti), 0, 0, 0; 0, double (1 / ti), 0, 0; 0, 0, 1, 0; 0, 0, 0, 1] c2s.mInv := by
    rw [hm] at h1
    have : (scaleR ti ti 1).mInv = !![double (1 / ti), 0, 0, 0; 0, double (1 / ti), 0, 0; 0, 0, 1, 0; 0, 0, 0, 1] := by
      simp only [scaleR]; rw [div_one, d1]
    rwa [this] at h1
  have k2 : MatMulR c2s.mInv s2r.mInv r2c.m := h2
  rw [persp_mul hp.dbl hw (isDouble_double _) k1, s2r_mInv hc hs] at k2
  exact ⟨_, _, w, r2c_mul hp.dbl hw k2, hw, hf⟩

theorem ortho_r2c {c : Win} (hc : c.Ok) {c2s r2c : Transform ℝ} (h : OrthoC2S c2s) (h' : R2C c c2s r2c) :
    r2c.m = !![step c.xRes (double (c.x1 - c.x0)), 0, 0, c.x0; 0, step c.yRes (double (c.y0 - c.y1)), 0, c.y1; 0, 0, 1, 0; 0, 0, 0, 1] := by
  obtain ⟨-, h1⟩ := h
  obtain ⟨s2r, hs, h2, -⟩ := h'
  have k2 : MatMulR c2s.mInv s2r.mInv r2c.m := h2
  have k1 : MatMulR !![1, 0, 0, 0; 0, 1, 0, 0; 0, 0, 1, 0; 0, 0, 0, 1] !![1, 0, 0, 0; 0, 1, 0, 0; 0, 0, 1, 0; 0, 0, 0, 1] c2s.mInv := by
    have e : (scaleR (1 : ℝ) 1 (double (1 / double (1 - 0)))).mInv = !![1, 0, 0, 0; 0, 1, 0, 0; 0, 0, 1, 0; 0, 0, 0, 1] := by
      simp only [scaleR, sub_zero, div_one, d1]
    have e' : (translate (⟨0, 0, -0⟩ : V3 ℝ)).mInv = !![1, 0, 0, 0; 0, 1, 0, 0; 0, 0, 1, 0; 0, 0, 0, 1] := by simp [translate]
    rwa [e, e'] at h1
  have e := diag_mul k1
  simp only [mul_one, d1] at e
  rw [e, s2r_mInv hc hs] at k2
  have := r2c_mul (τ := 1) isDouble_zero isDouble_one k2
  rw [this]
  simp only [step, one_mul, mul_one, d1, double_of_isDouble (isDouble_double _), double_of_isDouble hc.x0.1, double_of_isDouble hc.y1.1, dz]

/-! ### Errors -/

/-- what a relative error leaves of the size -/
theorem mag {k : ℕ} (hk : k ≤ 100) {xc x : ℝ} (h : Err k xc x |x|) : |x| / 2 ≤ |xc| ∧ |xc| ≤ 2 * |x| := by
  have hp := pow_half k hk
  have h3 : ((1 + uu) ^ k - 1) * |x| ≤ 1 / 2 * |x| := mul_le_mul_of_nonneg_right (by linarith) (abs_nonneg _)
  have h1 := h.1.trans h3
  have a := abs_sub_abs_le_abs_sub x xc
  have b := abs_sub_abs_le_abs_sub xc x
  rw [abs_sub_comm] at a
  have := abs_nonneg x
  constructor <;> linarith

theorem z2 {a b : ℤ} (h : a ≤ b) : (2 : ℝ) ^ a ≤ 2 ^ b := zpow_le_zpow_right₀ one_le_two h

theorem normal_of {l : ℤ} (hl : -1022 ≤ l) {x : ℝ} (h : 2 ^ l ≤ |x|) : Normal x := Or.inr ((z2 hl).trans h)

theorem half_pow (l : ℤ) : (2 : ℝ) ^ l / 2 = 2 ^ (l - 1) := by rw [zpow_sub₀ two_ne_zero, zpow_one]

/-- relative error of a rounded quotient `1 / xc`, for sizes up to `2^l` -/
theorem recip {k : ℕ} (hk : k ≤ 40) {l : ℤ} (hl0 : 0 ≤ l) (hl : l ≤ 500) {xc x : ℝ} (h : Err k xc x |x|) (h1 : 2 ^ (-l) ≤ |x|) (h2 : |x| ≤ 2 ^ l) :
    Err (2 * k + 1) (double (1 / xc)) (1 / x) |1 / x| ∧ 2 ^ (-l) ≤ |1 / x| ∧ |1 / x| ≤ 2 ^ l := by
  have hx : 0 < |x| := (two_zpow_pos _).trans_le h1
  have e := err_inv h (abs_pos.1 hx) (pow_half k (by omega))
  have b1 : (2 : ℝ) ^ (-l) ≤ |1 / x| := by
    rw [abs_div, abs_one, zpow_neg, ← one_div]; exact one_div_le_one_div_of_le hx h2
  have b2 : |1 / x| ≤ 2 ^ l := by
    rw [abs_div, abs_one]
    have := one_div_le_one_div_of_le (two_zpow_pos _) h1
    rwa [one_div ((2 : ℝ) ^ (-l)), zpow_neg, inv_inv] at this
  refine ⟨e.round (normal_of (l := -l - 1) (by omega) ?_), b1, b2⟩
  have := (mag (by omega) e).1
  rw [← half_pow]; linarith

theorem abs_mul_pow {a b : ℝ} {l m : ℤ} (ha : 2 ^ l ≤ |a|) (hb : 2 ^ m ≤ |b|) : 2 ^ (l + m) ≤ |a * b| := by
  rw [abs_mul, zpow_add₀ two_ne_zero]
  exact mul_le_mul ha hb (two_zpow_pos _).le (abs_nonneg _)

theorem factor_abs {x : ℝ} (h : Factor x) : 2 ^ (-20 : ℤ) ≤ |x| ∧ |x| ≤ 2 ^ (20 : ℤ) := by
  rw [abs_of_pos ((two_zpow_pos _).trans_le h.1)]; exact h

/-- the stored step of the raster -/
theorem step_err {n : ℕ} (hn : 0 < n ∧ n ≤ 2 ^ 20) {σ W : ℝ} (hW : Err 1 σ W |W|) (hf : Factor |W|) :
    Err 9 (step n σ) (W / n) |W / n| ∧ 2 ^ (-40 : ℤ) ≤ |W / n| := by
  obtain ⟨e1, a1, a2⟩ := recip (by norm_num) (l := 20) (by norm_num) (by norm_num) hW hf.1 hf.2
  obtain ⟨e2, b1, b2⟩ := recip (k := 3) (by norm_num) (l := 20) (by norm_num) (by norm_num) e1 a1 a2
  rw [one_div_one_div] at e2 b1 b2
  have n1 : (2 : ℝ) ^ (-20 : ℤ) ≤ |(n : ℝ)| := by
    rw [Nat.abs_cast]
    have : (1 : ℝ) ≤ n := by exact_mod_cast hn.1
    exact (zpow_le_one_of_nonpos₀ one_le_two (by norm_num)).trans this
  have n2 : |(n : ℝ)| ≤ 2 ^ (20 : ℤ) := by rw [Nat.abs_cast]; exact_mod_cast hn.2
  obtain ⟨e3, c1, c2⟩ := recip (k := 0) (by norm_num) (l := 20) (by norm_num) (by norm_num) (Err.refl (n : ℝ)) n1 n2
  have e := e2.mul e3
  rw [← abs_mul, mul_one_div] at e
  have m : (2 : ℝ) ^ (-40 : ℤ) ≤ |W / n| := by
    have := abs_mul_pow b1 c1
    rwa [mul_one_div] at this
  refine ⟨e.round (normal_of (l := -41) (by norm_num) ?_), m⟩
  have := (mag (by norm_num) e).1
  rw [show (-41 : ℤ) = -40 - 1 by norm_num, ← half_pow]; linarith

theorem grid_of {l : ℤ} {x : ℝ} (hd : IsDouble x) (h : 2 ^ l ≤ |x|) : Grid (l - 53) x := Big.grid ⟨hd, Or.inr h⟩

theorem big_of {k : ℕ} (hk : k ≤ 100) {l : ℤ} {xc x : ℝ} (h : Err k xc x |x|) (h1 : 2 ^ l ≤ |x|) : 2 ^ (l - 1) ≤ |xc| := by
  have := (mag hk h).1
  rw [← half_pow]; linarith

/-- one coordinate of the raster point in camera space, orthographic … -/
theorem ortho_axis {n : ℕ} (hn : 0 < n ∧ n ≤ 2 ^ 20) {σ W : ℝ} (hW : Err 1 σ W |W|) (hf : Factor |W|) {x x0 : ℝ} (hx : Mid x) (h0 : Mid x0) :
    Flt 11 (-154) (double (double (step n σ * x) + x0)) (x0 + x / n * W) (|x0| + |x| / n * |W|) := by
  obtain ⟨e, m⟩ := step_err hn hW hf
  have b := big_of (by norm_num) e m
  have g : Grid (-94) (step n σ) := grid_of (isDouble_double _) b
  have f : Flt 9 (-94) (step n σ) (W / n) |W / n| := ⟨e, g⟩
  have f1 := f.rmul (f := -60) (by norm_num) (Flt.refl hx.2.1)
  have f2 : Flt 10 (-154) x0 x0 |x0| := ⟨(Err.refl x0).mono (by norm_num) le_rfl, h0.2.1.mono (by norm_num)⟩
  have f3 := f1.radd (by norm_num) f2
  have a1 : W / n * x + x0 = x0 + x / n * W := by ring
  have a2 : |W / n| * |x| + |x0| = |x0| + |x| / n * |W| := by rw [abs_div, Nat.abs_cast]; ring
  rw [a1, a2] at f3
  exact f3

/-- … and perspective -/
theorem persp_axis {n : ℕ} (hn : 0 < n ∧ n ≤ 2 ^ 20) {σ W : ℝ} (hW : Err 1 σ W |W|) (hf : Factor |W|) {ti : ℝ} (ht : Factor ti) {x x0 : ℝ} (hx : Mid x) (h0 : Mid x0) :
    Flt 13 (-174) (double (double (double (double (1 / ti) * step n σ) * x) + double (double (1 / ti) * x0))) ((x0 + x / n * W) / ti) ((|x0| + |x| / n * |W|) / ti) := by
  obtain ⟨e, m⟩ := step_err hn hW hf
  have t0 : 0 < ti := (two_zpow_pos _).trans_le ht.1
  obtain ⟨t1, t2, t3⟩ := recip (k := 0) (by norm_num) (l := 20) (by norm_num) (by norm_num) (Err.refl ti) (factor_abs ht).1 (factor_abs ht).2
  have bt := big_of (by norm_num) t1 t2
  have gt : Grid (-74) (double (1 / ti)) := grid_of (isDouble_double _) bt
  have ea := t1.mul e
  rw [← abs_mul] at ea
  have ma : (2 : ℝ) ^ (-60 : ℤ) ≤ |1 / ti * (W / n)| := abs_mul_pow t2 m
  have ea' := ea.round (normal_of (l := -60 - 1) (by norm_num) (big_of (by norm_num) ea ma))
  have ba := big_of (by norm_num) ea' ma
  have ga : Grid (-114) (double (double (1 / ti) * step n σ)) := grid_of (isDouble_double _) ba
  have f1 := Flt.rmul (f := -60) (by norm_num) ⟨ea', ga⟩ (Flt.refl hx.2.1)
  have f2 := Flt.rmul (f := -60) (by norm_num) ⟨t1, gt⟩ (Flt.refl h0.2.1)
  have f3 := f1.radd (by norm_num) (⟨f2.err.mono (by norm_num) le_rfl, f2.grid.mono (by norm_num)⟩)
  have a1 : 1 / ti * (W / n) * x + 1 / ti * x0 = (x0 + x / n * W) / ti := by ring
  have a2 : |1 / ti * (W / n)| * |x| + |1 / ti| * |x0| = (|x0| + |x| / n * |W|) / ti := by
    rw [abs_mul, abs_div, abs_div, Nat.abs_cast, abs_one, abs_of_pos t0]; ring
  rw [a1, a2] at f3
  exact f3

/-! ### The point on the near plane -/

theorem Err.chain {k l : ℕ} {z y x A : ℝ} (h : Err k z y |y|) (h' : Err l y x A) : Err (k + l) z x A := by
  refine ⟨?_, h'.2⟩
  have a := h.1
  have b := h'.abs_le
  have c := h'.1
  have p : 0 ≤ (1 + uu : ℝ) ^ k - 1 := by have := one_le_g (K := ℝ) k; linarith
  have d := mul_le_mul_of_nonneg_left b p
  calc |z - x| = |(z - y) + (y - x)| := by ring_nf
    _ ≤ |z - y| + |y - x| := abs_add_le _ _
    _ ≤ ((1 + uu) ^ k - 1) * ((1 + uu) ^ l * A) + ((1 + uu) ^ l - 1) * A := by linarith
    _ = ((1 + uu) ^ (k + l) - 1) * A := by rw [pow_add]; ring

theorem homog_row {m : M4 ℝ} {x y : ℝ} {i : Fin 4} {r : ℝ} (h : HomogR m ⟨x, y, 0⟩ i r) :
    (m i 1 = 0 → r = double (double (m i 0 * x) + m i 3)) ∧ (m i 0 = 0 → r = double (double (m i 1 * y) + m i 3)) := by
  obtain ⟨s, hs, rfl⟩ := h
  constructor
  · intro h0
    rw [hs.single 0 (by decide) (by decide) (fun j _ hj => by
      fin_cases j
      · exact absurd rfl hj
      · change m i 1 * y = 0; rw [h0, zero_mul]
      · exact mul_zero _)]
    rfl
  · intro h0
    rw [hs.single 1 (by decide) (by decide) (fun j _ hj => by
      fin_cases j
      · change m i 0 * x = 0; rw [h0, zero_mul]
      · exact absurd rfl hj
      · exact mul_zero _)]
    rfl

theorem window_err {a b : ℝ} (ha : Mid a) (hb : Mid b) : Err 1 (double (a - b)) (a - b) |a - b| :=
  (Flt.diff (by norm_num) ha.2.1 hb.2.1).err

theorem Win.Ok.xErr {c : Win} (hc : c.Ok) : Err 1 (double (c.x1 - c.x0)) (c.x1 - c.x0) |c.x1 - c.x0| := window_err hc.x1 hc.x0
theorem Win.Ok.yErr {c : Win} (hc : c.Ok) : Err 1 (double (c.y0 - c.y1)) (c.y0 - c.y1) |c.y0 - c.y1| := window_err hc.y0 hc.y1
theorem Win.Ok.xFac {c : Win} (hc : c.Ok) : Factor |c.x1 - c.x0| := factor_abs hc.w
theorem Win.Ok.yFac {c : Win} (hc : c.Ok) : Factor |c.y0 - c.y1| := by rw [abs_sub_comm]; exact factor_abs hc.h

theorem scr_eq {c : Win} (hc : c.Ok) (x y : ℝ) :
    c.scrX x = c.x0 + x / c.xRes * (c.x1 - c.x0) ∧ c.magX x = |c.x0| + |x| / c.xRes * |c.x1 - c.x0| ∧ c.scrY y = c.y1 + y / c.yRes * (c.y0 - c.y1) ∧
      c.magY y = |c.y1| + |y| / c.yRes * |c.y0 - c.y1| := by
  have w := (two_zpow_pos (K := ℝ) _).trans_le hc.w.1
  have h := (two_zpow_pos (K := ℝ) _).trans_le hc.h.1
  refine ⟨rfl, by rw [Win.magX, abs_of_pos w], by rw [Win.scrY]; ring, by rw [Win.magY, abs_sub_comm c.y0, abs_of_pos h]⟩

/-- the ideal direction, not normalised, for the focal length `f`; the magnitude of its terms -/
noncomputable def Win.dir (c : Win) (f x y : ℝ) : V3 ℝ := ⟨c.scrX x, c.scrY y, f⟩
noncomputable def Win.mag (c : Win) (f x y : ℝ) : V3 ℝ := ⟨c.magX x, c.magY y, f⟩

theorem near_point {c : Win} (hc : c.Ok) {ti g : ℝ} (ht : Factor ti) {p c2s r2c : Transform ℝ} (hp : InvPattern p.mInv g) (h : PerspC2S ti p c2s) (h' : R2C c c2s r2c)
    {x y : ℝ} (hx : Mid x) (hy : Mid y) {q : V3 ℝ} (hq : PtR r2c ⟨x, y, 0⟩ q) :
    ∃ μ : ℝ, 0 < μ ∧ μ ≤ 2 ^ (40 : ℤ) ∧ (∀ i, Err 14 (q.get i) (μ * (c.dir (ti * g) x y).get i) (μ * (c.mag (ti * g) x y).get i)) ∧ BigV (-200) q := by
  obtain ⟨A, B, w, hm, dw, fw⟩ := persp_r2c hc hp h h'
  have t0 : 0 < ti := (two_zpow_pos _).trans_le ht.1
  have w0 : 0 < w := (two_zpow_pos _).trans_le fw.1
  obtain ⟨s1, s2, s3, s4⟩ := scr_eq hc x y
  obtain ⟨r, w', q0, q1, q2, q3, hq⟩ := hq
  have r0 : Flt 13 (-174) r.x (c.scrX x / ti) (c.magX x / ti) := by
    rw [(homog_row q0).1 (by rw [hm]; rfl), hm, s1, s2]
    exact persp_axis hc.xr hc.xErr hc.xFac ht hx hc.x0
  have r1 : Flt 13 (-174) r.y (c.scrY y / ti) (c.magY y / ti) := by
    rw [(homog_row q1).2 (by rw [hm]; rfl), hm, s3, s4]
    exact persp_axis hc.yr hc.yErr hc.yFac ht hy hc.y1
  have r2 : r.z = g := by
    rw [(homog_row q2).1 (by rw [hm]; rfl), hm]
    change double (double (0 * x) + g) = g
    rw [zero_mul, dz, zero_add, double_of_isDouble hp.dbl]
  have r3 : w' = w := by
    rw [(homog_row q3).1 (by rw [hm]; rfl), hm]
    change double (double (0 * x) + w) = w
    rw [zero_mul, dz, zero_add, double_of_isDouble dw]
  have dx : IsDouble r.x := by obtain ⟨s, -, e⟩ := q0; rw [e]; exact isDouble_double _
  have dy : IsDouble r.y := by obtain ⟨s, -, e⟩ := q1; rw [e]; exact isDouble_double _
  have g20 := (factor_abs hp.size).1
  have r2' : Flt 13 (-174) r.z g g := by
    rw [r2]
    refine ⟨?_, Grid.mono (by norm_num) (grid_of hp.dbl g20)⟩
    have := (Err.refl g).mono (show 0 ≤ 13 by norm_num) le_rfl
    rwa [abs_of_pos ((two_zpow_pos _).trans_le hp.size.1)] at this
  subst r3
  have c1 : ∀ D : ℝ, 1 / (ti * w') * D = D / ti * (1 / w') := fun D => by field_simp
  have c1' : ∀ D : ℝ, 1 / ti * D = D / ti := fun D => by field_simp
  have c2 : ti * g / ti = g := by field_simp
  have tb : 1 / ti ≤ 2 ^ (20 : ℤ) := by
    have := one_div_le_one_div_of_le (two_zpow_pos _) ht.1
    rwa [one_div ((2 : ℝ) ^ (-20 : ℤ)), zpow_neg, inv_inv] at this
  have wb : 1 / w' ≤ 2 ^ (20 : ℤ) := by
    have := one_div_le_one_div_of_le (two_zpow_pos _) fw.1
    rwa [one_div ((2 : ℝ) ^ (-20 : ℤ)), zpow_neg, inv_inv] at this
  rcases hq with ⟨-, rfl⟩ | ⟨-, rfl⟩
  · have div : ∀ {v D A : ℝ}, Flt 13 (-174) v D A → Err 14 (double (v / w')) (D * (1 / w')) (A * (1 / w')) ∧ Big (-200) (double (v / w')) := by
      intro v D A hv
      have e := hv.err.mul (Err.refl (1 / w'))
      rw [abs_of_pos (one_div_pos.2 w0)] at e
      rcases hv.grid.zero_or with rfl | hb
      · rw [zero_div, dz]
        have : Normal ((0 : ℝ) * (1 / w')) := Or.inl (zero_mul _)
        have e' := e.round this
        rw [zero_mul, dz] at e'
        exact ⟨e', isDouble_zero, Or.inl rfl⟩
      · have l : (2 : ℝ) ^ (-194 : ℤ) ≤ |v / w'| := by
          rw [abs_div, abs_of_pos w0, le_div_iff₀ w0]
          calc (2 : ℝ) ^ (-194 : ℤ) * w' ≤ 2 ^ (-194 : ℤ) * 2 ^ (20 : ℤ) := mul_le_mul_of_nonneg_left fw.2 (two_zpow_pos _).le
            _ = 2 ^ (-174 : ℤ) := by rw [← zpow_add₀ two_ne_zero]; norm_num
            _ ≤ |v| := hb
        have n := normal_of (by norm_num) l
        refine ⟨by rw [div_eq_mul_one_div]; exact e.round (by rw [mul_one_div]; exact n), isDouble_double _, Or.inr ?_⟩
        have := (mag (k := 1) (by norm_num) ((Err.refl (v / w')).round n)).1
        refine (z2 (show (-200 : ℤ) ≤ -194 - 1 by norm_num)).trans ?_
        rw [← half_pow]; linarith
    refine ⟨1 / (ti * w'), by positivity, ?_, ?_, (div r0).2, (div r1).2, (div r2').2⟩
    · rw [show 1 / (ti * w') = 1 / ti * (1 / w') by field_simp, show (40 : ℤ) = 20 + 20 by norm_num, zpow_add₀ two_ne_zero]
      exact mul_le_mul tb wb (one_div_pos.2 w0).le (two_zpow_pos _).le
    · intro i
      rw [c1, c1]
      fin_cases i
      · exact (div r0).1
      · exact (div r1).1
      · change Err 14 (double (r.z / w')) (ti * g / ti * (1 / w')) (ti * g / ti * (1 / w'))
        rw [c2]; exact (div r2').1
  · have big : ∀ {v D A : ℝ}, Flt 13 (-174) v D A → IsDouble v → Big (-200) v := fun hv hd =>
      ⟨hd, hv.grid.zero_or.imp_right fun h => (z2 (by norm_num)).trans h⟩
    refine ⟨1 / ti, by positivity, tb.trans (z2 (by norm_num)), ?_, big r0 dx, big r1 dy, big r2' (by rw [r2]; exact hp.dbl)⟩
    intro i
    rw [c1', c1']
    fin_cases i
    · exact r0.err.mono (by norm_num) le_rfl
    · exact r1.err.mono (by norm_num) le_rfl
    · change Err 14 q.z (ti * g / ti) (ti * g / ti)
      rw [c2]; exact r2'.err.mono (by norm_num) le_rfl

theorem mag_bounds {c : Win} (hc : c.Ok) {x y : ℝ} (hx : Mid x) (hy : Mid y) : 0 ≤ c.magX x ∧ c.magX x ≤ 2 ^ (41 : ℤ) ∧ 0 ≤ c.magY y ∧ c.magY y ≤ 2 ^ (41 : ℤ) := by
  have key : ∀ {a W x : ℝ} {n : ℕ}, 0 < n → |a| ≤ 2 ^ (20 : ℤ) → Factor W → |x| ≤ 2 ^ (20 : ℤ) → 0 ≤ |a| + |x| / n * W ∧ |a| + |x| / n * W ≤ 2 ^ (41 : ℤ) := by
    intro a W x n hn ha hW hx
    have n1 : (1 : ℝ) ≤ n := by exact_mod_cast hn
    have W0 := (two_zpow_pos (K := ℝ) _).trans_le hW.1
    have b := abs_nonneg a
    have d0 : 0 ≤ |x| / n := by positivity
    have d1 : |x| / n ≤ |x| := div_le_self (abs_nonneg _) n1
    have m := mul_le_mul (d1.trans hx) hW.2 W0.le (two_zpow_pos _).le
    have m0 := mul_nonneg d0 W0.le
    refine ⟨by linarith, ?_⟩
    have : (2 : ℝ) ^ (20 : ℤ) + 2 ^ (20 : ℤ) * 2 ^ (20 : ℤ) ≤ 2 ^ (41 : ℤ) := by norm_num
    linarith
  exact ⟨(key hc.xr.1 hc.x0.2.2 hc.w hx.2.2).1, (key hc.xr.1 hc.x0.2.2 hc.w hx.2.2).2, (key hc.yr.1 hc.y1.2.2 hc.h hy.2.2).1, (key hc.yr.1 hc.y1.2.2 hc.h hy.2.2).2⟩

/-- the direction in camera space -/
theorem camera_dir {c : Win} (hc : c.Ok) {ti g : ℝ} (ht : Factor ti) {p c2s r2c : Transform ℝ} (hp : InvPattern p.mInv g) (h : PerspC2S ti p c2s) (h' : R2C c c2s r2c)
    {x y : ℝ} (hx : Mid x) (hy : Mid y) {q : V3 ℝ} (hq : PtR r2c ⟨x, y, 0⟩ q) :
    ∃ l : ℝ, 0 < l ∧ (∀ i, Err 23 ((normalizeR q).get i) (l * (c.dir (ti * g) x y).get i) (l * (c.mag (ti * g) x y).get i) ∧ Grid (-453) ((normalizeR q).get i)) ∧
      |sqLength (normalizeR q) - 1| ≤ 2 ^ (-46 : ℤ) := by
  obtain ⟨μ, μ0, μ1, he, hb⟩ := near_point hc ht hp h h' hx hy hq
  obtain ⟨m1, m2, m3, m4⟩ := mag_bounds hc hx hy
  have f0 : 0 < ti * g := mul_pos ((two_zpow_pos _).trans_le ht.1) ((two_zpow_pos _).trans_le hp.size.1)
  have f1 : ti * g ≤ 2 ^ (40 : ℤ) := by
    rw [show (40 : ℤ) = 20 + 20 by norm_num, zpow_add₀ two_ne_zero]
    exact mul_le_mul ht.2 hp.size.2 ((two_zpow_pos _).trans_le hp.size.1).le (two_zpow_pos _).le
  have small : ∀ i, |q.get i| ≤ 2 ^ (150 : ℤ) := fun i => by
    have a := (he i).abs_le
    have hA : 0 ≤ (c.mag (ti * g) x y).get i ∧ (c.mag (ti * g) x y).get i ≤ 2 ^ (41 : ℤ) := by
      fin_cases i
      · exact ⟨m1, m2⟩
      · exact ⟨m3, m4⟩
      · exact ⟨f0.le, f1.trans (z2 (by norm_num))⟩
    have b := pow_half 14 (by norm_num)
    have d := mul_le_mul μ1 hA.2 hA.1 (two_zpow_pos _).le
    have e := mul_le_mul b d (mul_nonneg μ0.le hA.1) (by norm_num)
    refine a.trans (e.trans ?_)
    norm_num
  have q0 : q ≠ 0 := by
    intro h0
    have e := he 2
    rw [h0] at e
    have k := e.1
    change |(0 : ℝ) - μ * (ti * g)| ≤ ((1 + uu) ^ 14 - 1) * (μ * (ti * g)) at k
    rw [zero_sub, abs_neg, abs_of_pos (mul_pos μ0 f0)] at k
    have b := pow_half 14 (by norm_num)
    nlinarith [mul_pos μ0 f0]
  have sv : SmallV q := ⟨small 0, small 1, small 2⟩
  have hl := (length_err ⟨hb.1.mono (by norm_num), hb.2.1.mono (by norm_num), hb.2.2.mono (by norm_num)⟩ q0).2
  refine ⟨μ * (1 / Geom.length q), mul_pos μ0 (one_div_pos.2 hl), fun i => ?_, C183_unit q hb sv q0⟩
  obtain ⟨n1, n2⟩ := normalize_err hb sv q0 i
  refine ⟨Err.chain (k := 9) (l := 14) n1 ?_, n2.grid⟩
  have := (he i).mul (Err.refl (1 / Geom.length q))
  rw [abs_of_pos (one_div_pos.2 hl), mul_one_div] at this
  convert this using 1 <;> ring

theorem g23 : (1 + uu : ℝ) ^ 23 - 1 ≤ 2 ^ (-47 : ℤ) := by
  refine (g_le 23 (by norm_num)).trans ?_
  rw [uu, show (-47 : ℤ) = 6 + -53 by norm_num, zpow_add₀ two_ne_zero]; norm_num
theorem g26 : (1 + uu : ℝ) ^ 26 - 1 ≤ 2 ^ (-47 : ℤ) := by
  refine (g_le 26 (by norm_num)).trans ?_
  rw [uu, show (-47 : ℤ) = 6 + -53 by norm_num, zpow_add₀ two_ne_zero]; norm_num
theorem g15 : (1 + uu : ℝ) ^ 15 - 1 ≤ 2 ^ (-48 : ℤ) := by
  refine (g_le 15 (by norm_num)).trans ?_
  rw [uu, show (-48 : ℤ) = 5 + -53 by norm_num, zpow_add₀ two_ne_zero]; norm_num

/-! ### Theorems -/

/-- **C187** The perspective camera: the ray starts exactly at the position of the camera, and there is a focal length `f`, the same for all samples, such that the direction is that
from the camera to the point `(scrX x, scrY y, f)` of the screen, carried to world space, up to `2^-47` of the magnitude of the terms. -/
theorem C187_perspective (c : Win) (hc : c.Ok) (ti : ℝ) (ht : Factor ti) (p : Transform ℝ) (g : ℝ) (hp : InvPattern p.mInv g) (c2s r2c : Transform ℝ) (h : PerspC2S ti p c2s) (h' : R2C c c2s r2c)
    (c2w : Transform ℝ) (ha : Affine c2w.m) (hm : CoarseM c2w.m) (hd : ∀ i, IsDouble (c2w.m i 3)) :
    ∃ f : ℝ, 0 < f ∧ f = ti * g ∧ ∀ x y : ℝ, Mid x → Mid y → ∀ o d : V3 ℝ, PerspRayR r2c c2w x y o d →
      o = ⟨c2w.m 0 3, c2w.m 1 3, c2w.m 2 3⟩ ∧
      ∃ l : ℝ, 0 < l ∧ ∀ i : Fin 3, |d.get i - l * lin c2w.m ⟨c.scrX x, c.scrY y, f⟩ i.castSucc| ≤ 2 ^ (-47 : ℤ) * (l * sizeVec c2w.m ⟨c.magX x, c.magY y, f⟩ i.castSucc) := by
  have f0 : 0 < ti * g := mul_pos ((two_zpow_pos _).trans_le ht.1) ((two_zpow_pos _).trans_le hp.size.1)
  refine ⟨ti * g, f0, rfl, fun x y hx hy o d hr => ?_⟩
  obtain ⟨q, hq, ho, hv⟩ := hr
  constructor
  · have k := affine_pt ha ho
    have z : ∀ i : Fin 3, o.get i = c2w.m i.castSucc 3 := fun i => by
      obtain ⟨s, hs, e⟩ := k i
      have := hs.single 0 (by decide) (by decide) (fun j _ _ => by fin_cases j <;> exact mul_zero _)
      rw [e, this, show c2w.m i.castSucc ((0 : Fin 3).castSucc) * V3.get (⟨0, 0, 0⟩ : V3 ℝ) 0 = 0 from mul_zero _, dz, zero_add, double_of_isDouble (hd _)]
    exact V3.ext (z 0) (z 1) (z 2)
  · obtain ⟨l, l0, he, -⟩ := camera_dir hc ht hp h h' hx hy hq
    refine ⟨l, l0, fun i => ?_⟩
    have hs := hv i
    have fl := hs.flt (k := 23) (g := -653) (by norm_num) (x := fun j => c2w.m i.castSucc j.castSucc * (l * (c.dir (ti * g) x y).get j))
      (A := fun j => |c2w.m i.castSucc j.castSucc| * (l * (c.mag (ti * g) x y).get j)) fun j _ => by
        refine ⟨?_, (hm _ _).mul (he j).2⟩
        have := (Err.refl (c2w.m i.castSucc j.castSucc)).mul (he j).1
        rwa [Nat.zero_add] at this
    obtain ⟨m1, -, m3, -⟩ := mag_bounds hc hx hy
    have e1 : (List.map (fun j : Fin 3 => c2w.m i.castSucc j.castSucc * (l * (c.dir (ti * g) x y).get j)) [0, 1, 2]).sum = l * lin c2w.m ⟨c.scrX x, c.scrY y, ti * g⟩ i.castSucc := by
      simp [lin, Win.dir, V3.get]; ring
    have e2 : (List.map (fun j : Fin 3 => |c2w.m i.castSucc j.castSucc| * (l * (c.mag (ti * g) x y).get j)) [0, 1, 2]).sum = l * sizeVec c2w.m ⟨c.magX x, c.magY y, ti * g⟩ i.castSucc := by
      simp [sizeVec, Win.mag, V3.get, abs_of_nonneg m1, abs_of_nonneg m3, abs_of_pos f0, -abs_mul]; ring
    rw [e1, e2] at fl
    exact fl.err.1.trans (mul_le_mul_of_nonneg_right g26 fl.err.nonneg)

/-- the raster position at which a direction in camera space points -/
noncomputable def Win.atX (c : Win) (f : ℝ) (d : V3 ℝ) : ℝ := (f * d.x / d.z - c.x0) * c.xRes / (c.x1 - c.x0)
noncomputable def Win.atY (c : Win) (f : ℝ) (d : V3 ℝ) : ℝ := (c.y1 - f * d.y / d.z) * c.yRes / (c.y1 - c.y0)

theorem ratio_err {dx dz D A f l ε : ℝ} (l0 : 0 < l) (f0 : 0 < f) (e0 : 0 ≤ ε) (e1 : ε ≤ 1 / 8) (hD : |D| ≤ A) (hx : |dx - l * D| ≤ ε * (l * A)) (hz : |dz - l * f| ≤ ε * (l * f)) :
    0 < dz ∧ |f * dx / dz - D| ≤ 3 * ε * A := by
  have lf := mul_pos l0 f0
  have a := abs_le.1 hz
  have z0 : 7 / 8 * (l * f) ≤ dz := by nlinarith
  have dz0 : 0 < dz := by linarith
  refine ⟨dz0, ?_⟩
  have A0 := (abs_nonneg _).trans hD
  rw [show f * dx / dz - D = (f * (dx - l * D) - D * (dz - l * f)) / dz by field_simp; ring, abs_div, abs_of_pos dz0, div_le_iff₀ dz0]
  have b1 : |f * (dx - l * D)| ≤ f * (ε * (l * A)) := by rw [abs_mul, abs_of_pos f0]; exact mul_le_mul_of_nonneg_left hx f0.le
  have b2 : |D * (dz - l * f)| ≤ A * (ε * (l * f)) := by rw [abs_mul]; exact mul_le_mul hD hz (abs_nonneg _) A0
  have b3 := abs_sub (f * (dx - l * D)) (D * (dz - l * f))
  have b4 : 3 * ε * A * (7 / 8 * (l * f)) ≤ 3 * ε * A * dz := mul_le_mul_of_nonneg_left z0 (by positivity)
  have b5 : 0 ≤ ε * A * (l * f) := by positivity
  nlinarith

/-- **C187** Before it is carried to world space the direction is a unit vector up to `2^-46`, points forward, and points at the raster position of the sample up to `2^-45` of the
distance, in pixels, of the sample from the corner of the raster plus that of the axis of the camera. -/
theorem C187_pixel (c : Win) (hc : c.Ok) (ti : ℝ) (ht : Factor ti) (p : Transform ℝ) (g : ℝ) (hp : InvPattern p.mInv g) (c2s r2c : Transform ℝ) (h : PerspC2S ti p c2s) (h' : R2C c c2s r2c)
    (x y : ℝ) (hx : Mid x) (hy : Mid y) (q : V3 ℝ) (hq : PtR r2c ⟨x, y, 0⟩ q) :
    |sqLength (normalizeR q) - 1| ≤ 2 ^ (-46 : ℤ) ∧ 0 < (normalizeR q).z ∧
    |c.atX (ti * g) (normalizeR q) - x| ≤ 2 ^ (-45 : ℤ) * (|c.x0| * c.xRes / (c.x1 - c.x0) + |x|) ∧
    |c.atY (ti * g) (normalizeR q) - y| ≤ 2 ^ (-45 : ℤ) * (|c.y1| * c.yRes / (c.y1 - c.y0) + |y|) := by
  obtain ⟨l, l0, he, hu⟩ := camera_dir hc ht hp h h' hx hy hq
  have f0 : 0 < ti * g := mul_pos ((two_zpow_pos _).trans_le ht.1) ((two_zpow_pos _).trans_le hp.size.1)
  have rel : ∀ i, |(normalizeR q).get i - l * (c.dir (ti * g) x y).get i| ≤ 2 ^ (-47 : ℤ) * (l * (c.mag (ti * g) x y).get i) := fun i =>
    (he i).1.1.trans (mul_le_mul_of_nonneg_right g23 (he i).1.nonneg)
  have sub : ∀ i, |(c.dir (ti * g) x y).get i| ≤ (c.mag (ti * g) x y).get i := fun i => by
    have := (he i).1.2
    rw [abs_mul, abs_of_pos l0] at this
    exact le_of_mul_le_mul_left this l0
  have ε0 := (two_zpow_pos (K := ℝ) (-47)).le
  have ε1 : (2 : ℝ) ^ (-47 : ℤ) ≤ 1 / 8 := by norm_num
  have rx := ratio_err l0 f0 ε0 ε1 (sub 0) (rel 0) (rel 2)
  have ry := ratio_err l0 f0 ε0 ε1 (sub 1) (rel 1) (rel 2)
  have e3 : 3 * (2 : ℝ) ^ (-47 : ℤ) ≤ 2 ^ (-45 : ℤ) := by norm_num
  have W := (two_zpow_pos (K := ℝ) _).trans_le hc.w.1
  have H := (two_zpow_pos (K := ℝ) _).trans_le hc.h.1
  have n0 : (0 : ℝ) < c.xRes := by exact_mod_cast hc.xr.1
  have k0 : (0 : ℝ) < c.yRes := by exact_mod_cast hc.yr.1
  obtain ⟨m1, -, m3, -⟩ := mag_bounds hc hx hy
  refine ⟨hu, rx.1, ?_, ?_⟩
  · have r := rx.2.trans (mul_le_mul_of_nonneg_right e3 m1)
    change |ti * g * (normalizeR q).x / (normalizeR q).z - c.scrX x| ≤ 2 ^ (-45 : ℤ) * c.magX x at r
    have e : c.atX (ti * g) (normalizeR q) - x = (ti * g * (normalizeR q).x / (normalizeR q).z - c.scrX x) * (c.xRes / (c.x1 - c.x0)) := by
      rw [Win.atX, Win.scrX]; generalize ti * g * (normalizeR q).x / (normalizeR q).z = v
      generalize c.x1 - c.x0 = w at *
      field_simp; ring
    have e' : 2 ^ (-45 : ℤ) * (|c.x0| * c.xRes / (c.x1 - c.x0) + |x|) = 2 ^ (-45 : ℤ) * c.magX x * (c.xRes / (c.x1 - c.x0)) := by
      rw [Win.magX]; generalize c.x1 - c.x0 = w at *; field_simp
    rw [e, e', abs_mul, abs_of_pos (div_pos n0 W)]
    exact mul_le_mul_of_nonneg_right r (div_pos n0 W).le
  · have r := ry.2.trans (mul_le_mul_of_nonneg_right e3 m3)
    change |ti * g * (normalizeR q).y / (normalizeR q).z - c.scrY y| ≤ 2 ^ (-45 : ℤ) * c.magY y at r
    have e : c.atY (ti * g) (normalizeR q) - y = -((ti * g * (normalizeR q).y / (normalizeR q).z - c.scrY y) * (c.yRes / (c.y1 - c.y0))) := by
      rw [Win.atY, Win.scrY]; generalize ti * g * (normalizeR q).y / (normalizeR q).z = v
      generalize c.y1 - c.y0 = w at *
      field_simp; ring
    have e' : 2 ^ (-45 : ℤ) * (|c.y1| * c.yRes / (c.y1 - c.y0) + |y|) = 2 ^ (-45 : ℤ) * c.magY y * (c.yRes / (c.y1 - c.y0)) := by
      rw [Win.magY]; generalize c.y1 - c.y0 = w at *; field_simp
    rw [e, e', abs_neg, abs_mul, abs_of_pos (div_pos k0 H)]
    exact mul_le_mul_of_nonneg_right r (div_pos k0 H).le

/-- **C187** The orthographic camera: all rays have exactly the direction of the axis of the camera, and start at the point `(scrX x, scrY y, 0)` of the screen, carried to world space, up to
`2^-48` of the magnitude of the terms. -/
theorem C187_orthographic (c : Win) (hc : c.Ok) (c2s r2c : Transform ℝ) (h : OrthoC2S c2s) (h' : R2C c c2s r2c) (c2w : Transform ℝ) (ha : Affine c2w.m) (hm : CoarseM c2w.m)
    (hd : ∀ i, IsDouble (c2w.m i 2)) (x y : ℝ) (hx : Mid x) (hy : Mid y) (o d : V3 ℝ) (hr : OrthoRayR r2c c2w x y o d) :
    d = ⟨c2w.m 0 2, c2w.m 1 2, c2w.m 2 2⟩ ∧
    ∀ i : Fin 3, |o.get i - homog c2w.m ⟨c.scrX x, c.scrY y, 0⟩ i.castSucc| ≤ 2 ^ (-48 : ℤ) * size c2w.m ⟨c.magX x, c.magY y, 0⟩ i.castSucc := by
  obtain ⟨q, hq, ho, hv⟩ := hr
  have hM := ortho_r2c hc h h'
  constructor
  · have z : ∀ i : Fin 3, d.get i = c2w.m i.castSucc 2 := fun i => by
      rw [(hv i).single 2 (by decide) (by decide) (fun j _ hj => by
        fin_cases j
        · exact mul_zero _
        · exact mul_zero _
        · exact absurd rfl hj)]
      change double (c2w.m i.castSucc 2 * 1) = _
      rw [mul_one, double_of_isDouble (hd _)]
    exact V3.ext (z 0) (z 1) (z 2)
  · intro i
    have k := affine_pt (t := r2c) (by rw [hM]; exact ⟨rfl, rfl, rfl, rfl⟩) hq
    obtain ⟨s1, s2, s3, s4⟩ := scr_eq hc x y
    have r0 : Flt 11 (-154) q.x (c.scrX x) (c.magX x) := by
      rw [(homog_row (r := q.x) (k 0)).1 (by rw [hM]; rfl), hM, s1, s2]
      exact ortho_axis hc.xr hc.xErr hc.xFac hx hc.x0
    have r1 : Flt 11 (-154) q.y (c.scrY y) (c.magY y) := by
      rw [(homog_row (r := q.y) (k 1)).2 (by rw [hM]; rfl), hM, s3, s4]
      exact ortho_axis hc.yr hc.yErr hc.yFac hy hc.y1
    have r2 : Flt 11 (-154) q.z 0 0 := by
      rw [(homog_row (r := q.z) (k 2)).1 (by rw [hM]; rfl), hM]
      change Flt 11 (-154) (double (double (0 * x) + 0)) 0 0
      rw [zero_mul, dz, zero_add, dz]
      exact ⟨Err.zero _, 0, by simp⟩
    obtain ⟨m1, -, m3, -⟩ := mag_bounds hc hx hy
    have fl := homog_flt (by norm_num) (by norm_num) (affine_pt ha ho i) (M := c2w.m) (N := fun i j => |c2w.m i j|) (fun j => Flt.refl (hm _ j)) (x := ⟨c.scrX x, c.scrY y, 0⟩) (A := ⟨c.magX x, c.magY y, 0⟩)
      (k := 11) (g := -154) (fun j => by fin_cases j; exacts [r0, r1, r2])
    have e := fl.err.1.trans (mul_le_mul_of_nonneg_right g15 fl.err.nonneg)
    rw [size, abs_of_nonneg m1, abs_of_nonneg m3, abs_zero]
    exact e

/-- **C187** a camera can be made, and each sample has a ray: the relations of the model are not empty -/
theorem C187_total (c : Win) (ti : ℝ) (p c2w : Transform ℝ) :
    (∃ c2s r2c, PerspC2S ti p c2s ∧ R2C c c2s r2c ∧ ∀ x y, ∃ o d, PerspRayR r2c c2w x y o d) ∧ ∃ c2s r2c, OrthoC2S c2s ∧ R2C c c2s r2c ∧ ∀ x y, ∃ o d, OrthoRayR r2c c2w x y o d := by
  have mul : ∀ a b : Transform ℝ, ∃ c, MulR a b c := fun a b => (C182_total a b 0).2.2.2
  have pt : ∀ (a : Transform ℝ) (v : V3 ℝ), ∃ q, PtR a v q := fun a v => (C182_total a a v).1
  have vec : ∀ (a : Transform ℝ) (v : V3 ℝ), ∃ q, VecR a v q := fun a v => (C182_total a a v).2.1
  have r2c : ∀ c2s, ∃ r2c, R2C c c2s r2c := fun c2s => by
    obtain ⟨u, hu⟩ := mul (scaleR (c.xRes : ℝ) (c.yRes : ℝ) 1) (scaleR (double (1 / double (c.x1 - c.x0))) (double (1 / double (c.y0 - c.y1))) 1)
    obtain ⟨t, ht⟩ := mul u (translate ⟨-c.x0, -c.y1, 0⟩)
    obtain ⟨r, hr⟩ := mul c2s.inverse t.inverse
    exact ⟨r, t, ⟨u, hu, ht⟩, hr⟩
  constructor
  · obtain ⟨c2s, hc⟩ := mul (scaleR ti ti 1) p
    obtain ⟨r, hr⟩ := r2c c2s
    refine ⟨c2s, r, hc, hr, fun x y => ?_⟩
    obtain ⟨q, hq⟩ := pt r ⟨x, y, 0⟩
    obtain ⟨o, ho⟩ := pt c2w ⟨0, 0, 0⟩
    obtain ⟨d, hd⟩ := vec c2w (normalizeR q)
    exact ⟨o, d, q, hq, ho, hd⟩
  · obtain ⟨c2s, hc⟩ := mul (scaleR 1 1 (double (1 / double (1 - 0)))) (translate ⟨0, 0, -0⟩)
    obtain ⟨r, hr⟩ := r2c c2s
    refine ⟨c2s, r, hc, hr, fun x y => ?_⟩
    obtain ⟨q, hq⟩ := pt r ⟨x, y, 0⟩
    obtain ⟨o, ho⟩ := pt c2w q
    obtain ⟨d, hd⟩ := vec c2w ⟨0, 0, 1⟩
    exact ⟨o, d, q, hq, ho, hd⟩

/-- a film of 640×480 pixels behind the window `[-1, 1] × [-3/4, 3/4]` -/
noncomputable def vga : Win := ⟨640, 480, -1, 1, -3 / 4, 3 / 4⟩

/-- the hypotheses are met: this film, a field of view of 90 degrees, the near plane at 1/1024, a camera moved along two axes, a sample off the centre of a pixel -/
example : vga.Ok ∧ Factor 1 ∧ InvPattern !![1, 0, 0, 0; 0, 1, 0, 0; 0, 0, 0, 1; 0, 0, -1023, 1024] 1 ∧ Affine (translate (⟨2, 0, -5⟩ : V3 ℝ)).m ∧ CoarseM (translate (⟨2, 0, -5⟩ : V3 ℝ)).m ∧
    (∀ i, IsDouble ((translate (⟨2, 0, -5⟩ : V3 ℝ)).m i 3) ∧ IsDouble ((translate (⟨2, 0, -5⟩ : V3 ℝ)).m i 2)) ∧ Mid (321 / 4) ∧ Mid (7 / 2) := by
  have dbl : ∀ (n : ℤ) (x : ℝ), |n| ≤ 2 ^ 53 → x = n * 2 ^ (-2 : ℤ) → IsDouble x := fun n x h e => ⟨n, -2, h, by norm_num, e⟩
  have grd : ∀ (n : ℤ) (x : ℝ), x = n * 2 ^ (-2 : ℤ) → Grid (-60) x := fun n x e => Grid.mono (show (-60 : ℤ) ≤ -2 by norm_num) ⟨n, e⟩
  have mid : ∀ (n : ℤ) (x : ℝ), |n| ≤ 2 ^ 20 → x = n * 2 ^ (-2 : ℤ) → Mid x := fun n x h e => by
    refine ⟨dbl n x (h.trans (by norm_num)) e, grd n x e, ?_⟩
    have : |(n : ℝ)| ≤ 2 ^ 20 := by exact_mod_cast h
    rw [e, abs_mul, abs_of_pos (show (0 : ℝ) < 2 ^ (-2 : ℤ) from two_zpow_pos _)]
    norm_num at this ⊢
    linarith
  have coarse : CoarseM (translate (⟨2, 0, -5⟩ : V3 ℝ)).m := by
    have z : ∀ n : ℤ, Grid (-200) (n : ℝ) := fun n => Grid.mono (show (-200 : ℤ) ≤ 0 by norm_num) ⟨n, by simp⟩
    have h0 := z 0; have h1 := z 1; have h2 := z 2; have h5 := z (-5)
    push_cast at h0 h1 h2 h5
    intro i j
    fin_cases i <;> fin_cases j <;> simp [translate] <;> assumption
  refine ⟨⟨by norm_num [vga], by norm_num [vga], mid (-4) _ (by norm_num) (by norm_num [vga]), mid 4 _ (by norm_num) (by norm_num [vga]), mid (-3) _ (by norm_num) (by norm_num [vga]), mid 3 _ (by norm_num) (by norm_num [vga]),
    by norm_num [vga, Factor], by norm_num [vga, Factor]⟩, by norm_num [Factor], ⟨⟨0, -1023, 1024, rfl, dbl 4096 _ (by norm_num) (by norm_num), by norm_num [Factor]⟩, isDouble_one, by norm_num [Factor]⟩,
    (translate_affine _).1, coarse, fun i => ?_, mid 321 _ (by norm_num) (by norm_num), mid 14 _ (by norm_num) (by norm_num)⟩
  have z0 : IsDouble (0 : ℝ) := isDouble_zero
  have z1 : IsDouble (1 : ℝ) := isDouble_one
  have z2 : IsDouble (2 : ℝ) := dbl 8 _ (by norm_num) (by norm_num)
  have z5 : IsDouble (-5 : ℝ) := dbl (-20) _ (by norm_num) (by norm_num)
  fin_cases i <;> simp [translate] <;> first | exact ⟨z2, z0⟩ | exact z0 | exact ⟨z5, z1⟩ | exact ⟨z1, z0⟩

end Verif.CamR
