import Verif.Shape.SelfHit
import Verif.Geom.Rounded

/-!
# Shadow rays in rounded arithmetic (C185)

`VisibilityTester.set_segment` (`pytracer/light/utility.py:34-42`) as `DiffuseAreaLight.sample_l` uses it (`pytracer/light/light.py:514-521`): a segment from a surface point to a
point sampled on a light, shortened by `EPS` at the light, tested against the scene.  `Triangle.sample` (`pytracer/shape/triangle.py:146-152`) with
`uniform_sample_triangle` (`pytracer/montecarlo/utility.py:197-206`) makes the point.  Every operation is rounded to binary64.
-/
set_option linter.unusedSectionVars false

namespace Verif.ShadowR
open V3 Verif.Rnd Verif.Shape Verif.XformR Verif.BVH Verif.SelfHit
open Verif.GeomR (Big BigV SmallV lengthR sqLengthR normalizeR length_err normalize_err pow_small)
open Verif.TriScene (Tri openRay C181_scene ClearHit)

/-! ### Model -/

/-- the literal `1e-5` (`pytracer/__init__.py:23`) -/
noncomputable def EPS : ℝ := double (1 / 100000)

/-- `set_segment` (`light/utility.py:34-42`), rounded -/
noncomputable def segR (p : V3 ℝ) (eps1 : ℝ) (q : V3 ℝ) (eps2 : ℝ) : Ray ℝ :=
  let dist := lengthR (subR ieee p q)
  let v := subR ieee q p
  ⟨p, ⟨double (v.x / dist), double (v.y / dist), double (v.z / dist)⟩, eps1, ((double (dist * double (1 - eps2)) : ℝ) : WithTop ℝ)⟩

/-- `uniform_sample_triangle` (`montecarlo/utility.py:197-206`), rounded -/
noncomputable def uniformTriR (u1 u2 : ℝ) : ℝ × ℝ := (double (1 - double (√u1)), double (u2 * double (√u1)))

/-- one coordinate of the sampled point (`triangle.py:150-152`), rounded -/
noncomputable def combR (b1 b2 x y z : ℝ) : ℝ := double (double (double (b1 * x) + double (b2 * y)) + double (double (double (1 - b1) - b2) * z))

/-- `Triangle.sample` (`triangle.py:146-152`), rounded; `a`, `b`, `c` are the three points it reads (the corners of the triangle if the mesh stores them one after the other, C71) -/
noncomputable def sampleR (a b c : V3 ℝ) (u1 u2 : ℝ) : V3 ℝ :=
  let w := uniformTriR u1 u2
  ⟨combR w.1 w.2 a.x b.x c.x, combR w.1 w.2 a.y b.y c.y, combR w.1 w.2 a.z b.z c.z⟩

/-! ### Specification -/

/-- a point of the plane of the triangle -/
def OnPlane (q1 q2 q3 x : V3 ℝ) : Prop := dot (x - q1) (cross (q2 - q1) (q3 - q1)) = 0

/-! ### Lemmas -/

theorem subR_neg (p q : V3 ℝ) : subR ieee p q = -subR ieee q p := by
  have e : ∀ a b : ℝ, Rounding.sub' ieee a b = -Rounding.sub' ieee b a := fun a b => by
    change double (a - b) = -double (b - a)
    rw [← double_neg, neg_sub]
  simp only [subR]
  rw [e p.x, e p.y, e p.z]
  rfl

theorem length_neg (v : V3 ℝ) : lengthR (-v) = lengthR v := by
  simp only [lengthR, sqLengthR, V3.neg_x, V3.neg_y, V3.neg_z, neg_mul_neg]

/-- the difference of two points as it is computed: near the exact one, and of moderate size -/
theorem diff_near {a b S : ℝ} (ga : Grid (-200) a) (gb : Grid (-200) b) (ha : |a| ≤ S) (hb : |b| ≤ S) :
    |double (a - b) - (a - b)| ≤ uu * |a - b| ∧ |a - b| ≤ 2 * S ∧ |double (a - b)| ≤ 17 / 16 * (2 * S) ∧ |a - b| ≤ 17 / 16 * |double (a - b)| ∧ Big (-200) (double (a - b)) := by
  have g := ga.sub gb
  have e := g.err (by norm_num)
  have u1 : (uu : ℝ) ≤ 1 / 32 := by rw [uu_eq]; norm_num
  change _ ≤ uu * _ at e
  have m : uu * |a - b| ≤ 1 / 32 * |a - b| := mul_le_mul_of_nonneg_right u1 (abs_nonneg _)
  have s : |a - b| ≤ 2 * S := by have := abs_sub a b; linarith
  have t1 := abs_sub_abs_le_abs_sub (a - b) (double (a - b))
  have t2 := abs_sub_abs_le_abs_sub (double (a - b)) (a - b)
  rw [abs_sub_comm (a - b) (double (a - b))] at t1
  refine ⟨e, s, by linarith, by linarith [abs_nonneg (a - b)], isDouble_double _, ?_⟩
  exact g.round.zero_or

theorem length_mono {a b : V3 ℝ} {c : ℝ} (hc : 0 ≤ c) (hx : |a.x| ≤ c * |b.x|) (hy : |a.y| ≤ c * |b.y|) (hz : |a.z| ≤ c * |b.z|) : Geom.length a ≤ c * Geom.length b := by
  rw [Geom.length]
  refine Real.sqrt_le_iff.2 ⟨mul_nonneg hc (Real.sqrt_nonneg _), ?_⟩
  have e : (Geom.length b) ^ 2 = sqLength b := Real.sq_sqrt (by simp only [sqLength]; nlinarith [mul_self_nonneg b.x, mul_self_nonneg b.y, mul_self_nonneg b.z])
  rw [mul_pow, e]
  have s : ∀ {x y : ℝ}, |x| ≤ c * |y| → x * x ≤ c ^ 2 * (y * y) := fun {x y} h => by
    rw [← abs_mul_abs_self x, ← abs_mul_abs_self y]
    calc |x| * |x| ≤ (c * |y|) * (c * |y|) := mul_le_mul h h (abs_nonneg _) (by positivity)
      _ = _ := by ring
  have := s hx; have := s hy; have := s hz
  simp only [sqLength]
  linarith

theorem length_le_of {v : V3 ℝ} {S : ℝ} (hS : 0 ≤ S) (h : Within (17 / 16 * (2 * S)) v) : Geom.length v ≤ 4 * S := by
  rw [Geom.length]
  refine Real.sqrt_le_iff.2 ⟨by positivity, ?_⟩
  have s : ∀ {x : ℝ}, |x| ≤ 17 / 16 * (2 * S) → x * x ≤ (17 / 16 * (2 * S)) * (17 / 16 * (2 * S)) := fun {x} h => by
    rw [← abs_mul_abs_self x]; exact mul_le_mul h h (abs_nonneg _) (by positivity)
  have := s h.1; have := s h.2.1; have := s h.2.2
  simp only [sqLength]
  nlinarith

/-- the shortened length of a segment -/
theorem maxt_le {l dist : ℝ} (hl : (2 : ℝ) ^ (-400 : ℤ) ≤ l) (hd : |dist - l| ≤ 2 ^ (-45 : ℤ) * l) : double (dist * double (1 - EPS)) ≤ (1 - 9 / 1000000) * l := by
  have l0 : 0 < l := (two_zpow_pos _).trans_le hl
  have u0 := uu_pos (K := ℝ)
  have u1 : (uu : ℝ) ≤ 1 / 1000000000 := by rw [uu_eq]; norm_num
  have p1 : (2 : ℝ) ^ (-45 : ℤ) ≤ 1 / 1000000000 := by rw [zpow_neg]; norm_num
  have s0 : (2 : ℝ) ^ (-1075 : ℤ) ≤ 1 / 1000000000 * l := by
    have e : (2 : ℝ) ^ (-1075 : ℤ) = 2 ^ (-645 : ℤ) * 2 ^ (-30 : ℤ) * 2 ^ (-400 : ℤ) := by rw [← zpow_add₀ two_ne_zero, ← zpow_add₀ two_ne_zero]; norm_num
    have q : (2 : ℝ) ^ (-645 : ℤ) ≤ 1 := zpow_le_one_of_nonpos₀ (by norm_num) (by norm_num)
    rw [e]
    refine mul_le_mul ?_ hl (two_zpow_pos _).le (by norm_num)
    refine (mul_le_of_le_one_left (two_zpow_pos _).le q).trans ?_
    rw [zpow_neg]; norm_num
  have s1 : (2 : ℝ) ^ (-1075 : ℤ) ≤ 1 / 1000000000 := by
    have e : (2 : ℝ) ^ (-1075 : ℤ) = 2 ^ (-1045 : ℤ) * 2 ^ (-30 : ℤ) := by rw [← zpow_add₀ two_ne_zero]; norm_num
    have q : (2 : ℝ) ^ (-1045 : ℤ) ≤ 1 := zpow_le_one_of_nonpos₀ (by norm_num) (by norm_num)
    rw [e]
    refine (mul_le_of_le_one_left (two_zpow_pos _).le q).trans ?_
    rw [zpow_neg]; norm_num
  have e1 := double_err (1 / 100000 : ℝ)
  have e2 := double_err (1 - EPS)
  have e3 := double_err (dist * double (1 - EPS))
  change _ ≤ uu * _ + _ at e1 e2 e3
  have hE : EPS = double (1 / 100000) := rfl
  rw [← hE] at e1
  generalize (2 : ℝ) ^ (-1075 : ℤ) = s at *
  generalize (2 : ℝ) ^ (-45 : ℤ) = p at *
  rw [abs_of_pos (show (0 : ℝ) < 1 / 100000 by norm_num)] at e1
  have a1 := abs_le.1 e1
  have b1 : |1 - EPS| ≤ 1 := abs_le.2 ⟨by linarith, by linarith⟩
  have a2 := abs_le.1 (e2.trans (add_le_add (mul_le_mul_of_nonneg_left b1 u0.le) s1))
  set o := double (1 - EPS)
  have o1 : o ≤ 1 - 98 / 10000000 := by linarith
  have o0 : 0 ≤ o := by linarith
  have a3 := abs_le.1 hd
  have pl : p * l ≤ 1 / 1000000000 * l := mul_le_mul_of_nonneg_right p1 l0.le
  have d0 : 0 ≤ dist := by linarith
  have m1 : dist * o ≤ (1 + 1 / 1000000000) * l * (1 - 98 / 10000000) := mul_le_mul (by linarith) o1 o0 (by positivity)
  have m0 : 0 ≤ dist * o := mul_nonneg d0 o0
  rw [abs_of_nonneg m0] at e3
  have a4 := (abs_le.1 e3).2
  have m2 : uu * (dist * o) ≤ 1 / 1000000000 * (dist * o) := mul_le_mul_of_nonneg_right u1 m0
  linarith

/-! ### Theorems -/

/-- **C185** A shadow ray is not reported to be blocked by the triangle of the light that it goes to, nor by another triangle in its plane, with every operation rounded.  `x` is a point of
the plane within `δ` of the point the ray goes to, `S` bounds all coordinates. -/
theorem C185_target (p q q1 q2 q3 : V3 ℝ) (eps1 L S δ : ℝ) (h : Sized q1 q2 q3 (segR p eps1 q EPS) L 2) (h0 : Transversal q1 q2 q3 (segR p eps1 q EPS).d)
    (hs : 2 ^ (-45 : ℤ) * skew q1 q2 q3 (segR p eps1 q EPS).d L 2 ≤ 1 / 8) (x : V3 ℝ) (hx : OnPlane q1 q2 q3 x) (hxq : Within δ (q - x)) (hL : L ≤ S) (hS : S ≤ 2 ^ (100 : ℤ))
    (hp : Within S p) (hq : Within S q) (cq : Coarse q)
    (far : 2 ^ (22 : ℤ) * skew q1 q2 q3 (segR p eps1 q EPS).d L 2 * (δ + 2 ^ (-46 : ℤ) * S) < Geom.length (q - p)) :
    coreR ieee q1 q2 q3 (segR p eps1 q EPS) = none := by
  rcases hh : coreR ieee q1 q2 q3 (segR p eps1 q EPS) with _ | ⟨s, c1, c2⟩
  · rfl
  exfalso
  obtain ⟨T, B1, B2, τ, γ1, γ2, -, -, hr, ε0, ε8, -, -, k3, H⟩ := coreR_spec h h0 (tol_eq q1 q2 q3 _ L 2).symm hs
  obtain ⟨rfl, -, -, -, -, -, hmax⟩ := (H _ _ _).1 hh
  have cp : Coarse p := h.coarse.2.2.2.1
  have S0 : 0 < S := h.size.1.trans_le hL
  have L0 := h.size.1
  have sL := size_ge h h0
  -- the difference
  obtain ⟨x1, x2, x3, x4, x5⟩ := diff_near cq.1 cp.1 hq.1 hp.1
  obtain ⟨y1, y2, y3, y4, y5⟩ := diff_near cq.2.1 cp.2.1 hq.2.1 hp.2.1
  obtain ⟨z1, z2, z3, z4, z5⟩ := diff_near cq.2.2 cp.2.2 hq.2.2 hp.2.2
  set v : V3 ℝ := subR ieee q p with hv
  have vx : v.x = double (q.x - p.x) := rfl
  have vy : v.y = double (q.y - p.y) := rfl
  have vz : v.z = double (q.z - p.z) := rfl
  rw [← vx] at x1 x3 x4 x5
  rw [← vy] at y1 y3 y4 y5
  rw [← vz] at z1 z3 z4 z5
  have len : Geom.length (q - p) ≤ 17 / 16 * Geom.length v := length_mono (by norm_num) x4 y4 z4
  have δ0 : 0 ≤ δ := (abs_nonneg _).trans hxq.1
  set κ := skew q1 q2 q3 (segR p eps1 q EPS).d L 2 with hκ
  set E : ℝ := δ + 2 ^ (-46 : ℤ) * S with hE
  have E0 : 0 < E := by have := mul_pos (two_zpow_pos (K := ℝ) (-46)) S0; linarith
  have uk : (uu : ℝ) * 2 ^ (45 : ℤ) = 1 / 256 := by rw [uu, ← zpow_add₀ two_ne_zero]; norm_num
  have p45 : (2 : ℝ) ^ (-45 : ℤ) * 2 ^ (45 : ℤ) = 1 := by rw [← zpow_add₀ two_ne_zero]; norm_num
  have κ1 : 1 / 32 ≤ κ := by
    have := mul_le_mul_of_nonneg_right ε8 (two_zpow_pos (K := ℝ) 45).le
    have e : 8 * (uu : ℝ) * 2 ^ (45 : ℤ) = 1 / 32 := by rw [mul_assoc, uk]; norm_num
    rw [e, mul_right_comm, p45] at this
    linarith
  have κE : 0 < κ * E := mul_pos (by linarith) E0
  have lv : 0 < Geom.length v := by
    have : 0 < 2 ^ (22 : ℤ) * κ * E := by rw [mul_assoc]; exact mul_pos (two_zpow_pos _) κE
    linarith
  have v0 : v ≠ 0 := by
    rintro hv0
    rw [hv0] at lv
    simp [Geom.length, sqLength] at lv
  have bv : BigV (-200) v := ⟨x5, y5, z5⟩
  have bv' : BigV (-400) v := ⟨x5.mono (by norm_num), y5.mono (by norm_num), z5.mono (by norm_num)⟩
  have sv : SmallV v := by
    have b : 17 / 16 * (2 * S) ≤ (2 : ℝ) ^ (150 : ℤ) := by
      rw [show (150 : ℤ) = 50 + 100 by norm_num, zpow_add₀ two_ne_zero]
      have : (4 : ℝ) ≤ 2 ^ (50 : ℤ) := by norm_num
      generalize (2 : ℝ) ^ (100 : ℤ) = w at *
      nlinarith
    exact ⟨x3.trans b, y3.trans b, z3.trans b⟩
  obtain ⟨el, -⟩ := length_err bv' v0
  have ed : lengthR (subR ieee p q) = lengthR v := by rw [subR_neg, length_neg]
  set l := Geom.length v with hl
  have dist_err : |lengthR v - l| ≤ 2 ^ (-45 : ℤ) * l := by
    refine el.1.trans (mul_le_mul_of_nonneg_right ?_ lv.le)
    have := pow_small 4 (by norm_num)
    linarith
  have ln0 : lengthR v ≠ 0 := by
    intro h0
    rw [h0, zero_sub, abs_neg, abs_of_pos lv] at dist_err
    have : (2 : ℝ) ^ (-45 : ℤ) ≤ 1 / 2 := by rw [zpow_neg]; norm_num
    nlinarith
  have dn : (segR p eps1 q EPS).d = normalizeR v := by
    simp only [segR, normalizeR, ed]
    rw [if_pos ln0]
  have mt : (segR p eps1 q EPS).maxt = ((double (lengthR v * double (1 - EPS)) : ℝ) : WithTop ℝ) := by simp only [segR, ed]
  have so : (segR p eps1 q EPS).o = p := rfl
  rw [so] at hr
  -- direction
  have comp : ∀ {dc vc ec : ℝ}, Err 9 dc (vc / l) |vc / l| → |vc - ec| ≤ uu * |ec| → |vc| ≤ 17 / 16 * (2 * S) → |ec| ≤ 2 * S → |l * dc - ec| ≤ 2 ^ (-46 : ℤ) * S := by
    intro dc vc ec he h1 h2 h3
    have g : (1 + uu : ℝ) ^ 9 - 1 ≤ 18 * uu := by have := g_le (K := ℝ) 9 (by norm_num); push_cast at this; linarith
    have a : |dc - vc / l| ≤ 18 * uu * |vc / l| := he.1.trans (mul_le_mul_of_nonneg_right g (abs_nonneg _))
    have b : |l * dc - vc| ≤ 18 * uu * |vc| := by
      have e : l * dc - vc = l * (dc - vc / l) := by field_simp
      rw [e, abs_mul, abs_of_pos lv]
      refine (mul_le_mul_of_nonneg_left a lv.le).trans (le_of_eq ?_)
      rw [abs_div, abs_of_pos lv]; field_simp
    have c := abs_sub_le (l * dc) vc ec
    have u0 := uu_pos (K := ℝ)
    have b1 : 18 * uu * |vc| ≤ 18 * uu * (17 / 16 * (2 * S)) := mul_le_mul_of_nonneg_left h2 (by positivity)
    have b2 : uu * |ec| ≤ uu * (2 * S) := mul_le_mul_of_nonneg_left h3 u0.le
    have e46 : (2 : ℝ) ^ (-46 : ℤ) = 128 * uu := by rw [uu, show (-46 : ℤ) = 7 + -53 by norm_num, zpow_add₀ two_ne_zero]; norm_num
    rw [e46]
    have uS := mul_pos u0 S0
    linarith
  have nx := (normalize_err bv sv v0 0).1
  have ny := (normalize_err bv sv v0 1).1
  have nz := (normalize_err bv sv v0 2).1
  rw [← dn] at nx ny nz
  have near : Within E (⟨l * (segR p eps1 q EPS).d.x - (x.x - p.x), l * (segR p eps1 q EPS).d.y - (x.y - p.y), l * (segR p eps1 q EPS).d.z - (x.z - p.z)⟩ : V3 ℝ) := by
    have t : ∀ {a b c e : ℝ}, |a - (b - e)| ≤ 2 ^ (-46 : ℤ) * S → |b - c| ≤ δ → |a - (c - e)| ≤ E := by
      intro a b c e h1 h2
      have := abs_add_le (a - (b - e)) (b - c)
      rw [show a - (b - e) + (b - c) = a - (c - e) by ring] at this
      linarith
    exact ⟨t (comp nx x1 x3 x2) hxq.1, t (comp ny y1 y3 y2) hxq.2.1, t (comp nz z1 z3 z2) hxq.2.2⟩
  have nb := cross_bound h.e1 h.e2
  have b := plane_own q1 q2 q3 γ1 γ2
  rw [← hr] at b
  have D0 : 0 < |dot (segR p eps1 q EPS).d (cross (q2 - q1) (q3 - q1))| := abs_pos.2 h0
  have ek : κ * |dot (segR p eps1 q EPS).d (cross (q2 - q1) (q3 - q1))| = 2 * L ^ 2 := by rw [hκ, skew]; field_simp
  simp only [OnPlane] at hx
  rw [mt] at hmax
  have hmax := WithTop.coe_le_coe.1 hmax
  generalize (segR p eps1 q EPS).d = d at *
  generalize cross (q2 - q1) (q3 - q1) = n at *
  have k : dot (⟨l * d.x - (x.x - p.x), l * d.y - (x.y - p.y), l * d.z - (x.z - p.z)⟩ : V3 ℝ) n = (l - τ) * dot d n := by
    simp only [dot, rayAt, V3.sub_x, V3.sub_y, V3.sub_z] at hx b ⊢
    linear_combination b - hx
  have k1 := dot_bound near nb
  rw [k, abs_mul] at k1
  have tb : |l - τ| ≤ 3 * (κ * E) := by
    refine le_of_mul_le_mul_right (k1.trans (le_of_eq ?_)) D0
    have : 3 * (κ * E) * |dot d n| = 3 * E * (κ * |dot d n|) := by ring
    rw [this, ek]
    ring
  have tl := abs_le.1 tb
  have ll : l ≤ 4 * S := length_le_of S0.le ⟨x3, y3, z3⟩
  have eS : 2 ^ (-45 : ℤ) * κ * S ≤ 2 * (κ * E) := by
    rw [show (-45 : ℤ) = 1 + -46 by norm_num, zpow_add₀ two_ne_zero, zpow_one]
    have : (2 : ℝ) ^ (-46 : ℤ) * S ≤ E := by linarith
    have := mul_le_mul_of_nonneg_left this (show 0 ≤ κ by linarith)
    linarith
  have at1 : |τ| ≤ l + 3 * (κ * E) := abs_le.2 ⟨by linarith, by linarith⟩
  have loss : 2 ^ (-45 : ℤ) * κ * (L / 2 + |τ|) ≤ 12 * (κ * E) := by
    have a1 : 2 ^ (-45 : ℤ) * κ * (L / 2 + |τ|) ≤ 2 ^ (-45 : ℤ) * κ * (S / 2 + (4 * S + 3 * (κ * E))) := mul_le_mul_of_nonneg_left (by linarith) ε0.le
    have a2 : 2 ^ (-45 : ℤ) * κ * (3 * (κ * E)) ≤ 1 / 8 * (3 * (κ * E)) := mul_le_mul_of_nonneg_right hs (by positivity)
    generalize (2 : ℝ) ^ (-45 : ℤ) * κ = e at *
    linarith
  have big : (2 : ℝ) ^ (-400 : ℤ) ≤ l := by
    have a1 : (1 / 32 : ℝ) * (2 ^ (-46 : ℤ) * 2 ^ (-200 : ℤ)) ≤ κ * E := by
      refine mul_le_mul κ1 ?_ (by positivity) (by linarith)
      have := mul_le_mul_of_nonneg_left (sL.trans hL) (two_zpow_pos (K := ℝ) (-46)).le
      linarith
    have a2 : (2 : ℝ) ^ (-400 : ℤ) ≤ 1 / 32 * (2 ^ (-46 : ℤ) * 2 ^ (-200 : ℤ)) := by
      rw [show (1 / 32 : ℝ) = 2 ^ (-5 : ℤ) by norm_num, ← zpow_add₀ two_ne_zero, ← zpow_add₀ two_ne_zero]
      exact zpow_le_zpow_right₀ (by norm_num) (by norm_num)
    have a3 : κ * E ≤ l := by
      have e : (2 : ℝ) ^ (22 : ℤ) = 4194304 := by norm_num
      rw [e] at far
      linarith
    exact a2.trans (a1.trans a3)
  have ml := maxt_le big dist_err
  have x := (abs_le.1 k3).1
  have e : (2 : ℝ) ^ (22 : ℤ) = 4194304 := by norm_num
  rw [e] at far
  generalize (2 : ℝ) ^ (-45 : ℤ) * κ * (L / 2 + |τ|) = y1 at *
  linarith

theorem double_unit {x : ℝ} (h0 : 0 ≤ x) (h1 : x ≤ 1) : 0 ≤ double x ∧ double x ≤ 1 :=
  ⟨Rounding.rnd_nonneg ieee h0, Rounding.rnd_le ieee (Rounding.rep_one _) h1⟩

/-- the barycentric coordinates that are drawn -/
theorem uniformTri_range {u1 u2 : ℝ} (h1 : 0 ≤ u1 ∧ u1 ≤ 1) (h2 : 0 ≤ u2 ∧ u2 ≤ 1) :
    (0 ≤ (uniformTriR u1 u2).1 ∧ (uniformTriR u1 u2).1 ≤ 1) ∧ (0 ≤ (uniformTriR u1 u2).2 ∧ (uniformTriR u1 u2).2 ≤ 1) ∧ (uniformTriR u1 u2).1 + (uniformTriR u1 u2).2 ≤ 1 + 2 ^ (-53 : ℤ) := by
  have r0 := double_unit (Real.sqrt_nonneg u1) (Real.sqrt_le_one.2 h1.2)
  have dr : IsDouble (double (√u1)) := isDouble_double _
  set w := double (√u1) with hw
  have b1 : 0 ≤ 1 - w ∧ 1 - w ≤ 1 := ⟨by linarith, by linarith⟩
  have m : u2 * w ≤ w := mul_le_of_le_one_left r0.1 h2.2
  have m0 : 0 ≤ u2 * w := mul_nonneg h2.1 r0.1
  have one : IsDouble (1 : ℝ) := ⟨1, 0, by norm_num, by norm_num, by norm_num⟩
  have e := (abs_le.1 (sub_err one dr)).2
  rw [abs_of_nonneg b1.1] at e
  have e2 : double (u2 * w) ≤ w := by
    have := double_mono m
    rwa [double_of_isDouble dr] at this
  refine ⟨double_unit b1.1 b1.2, double_unit m0 (m.trans r0.2), ?_⟩
  change double (1 - w) + double (u2 * w) ≤ _
  have p := two_zpow_pos (K := ℝ) (-53)
  generalize (2 : ℝ) ^ (-53 : ℤ) = u at *
  nlinarith

theorem comb_err {b1 b2 x y z S : ℝ} (d1 : IsDouble b1) (d2 : IsDouble b2) (h1 : 0 ≤ b1 ∧ b1 ≤ 1) (h2 : 0 ≤ b2 ∧ b2 ≤ 1) (hS : (2 : ℝ) ^ (-200 : ℤ) ≤ S) (hx : |x| ≤ S) (hy : |y| ≤ S) (hz : |z| ≤ S) :
    |combR b1 b2 x y z - ((1 - b1 - b2) * z + b1 * x + b2 * y)| ≤ 2 ^ (-46 : ℤ) * S := by
  have S0 : 0 < S := (two_zpow_pos _).trans_le hS
  have u0 := uu_pos (K := ℝ)
  have u1 : (uu : ℝ) ≤ 1 / 64 := by rw [uu_eq]; norm_num
  have s0 : (2 : ℝ) ^ (-1075 : ℤ) ≤ uu * S := by
    have e : (2 : ℝ) ^ (-1075 : ℤ) = 2 ^ (-822 : ℤ) * 2 ^ (-53 : ℤ) * 2 ^ (-200 : ℤ) := by rw [← zpow_add₀ two_ne_zero, ← zpow_add₀ two_ne_zero]; norm_num
    have l : (2 : ℝ) ^ (-822 : ℤ) ≤ 1 := zpow_le_one_of_nonpos₀ (by norm_num) (by norm_num)
    rw [e]
    exact mul_le_mul (mul_le_of_le_one_left (two_zpow_pos _).le l) hS (two_zpow_pos _).le u0.le
  have one : IsDouble (1 : ℝ) := ⟨1, 0, by norm_num, by norm_num, by norm_num⟩
  have e1 := sub_err one d1
  have c1 := double_unit (show 0 ≤ 1 - b1 by linarith) (show 1 - b1 ≤ 1 by linarith)
  have dc : IsDouble (double (1 - b1)) := isDouble_double _
  rw [combR]
  set c := double (1 - b1) with hc
  have e2 := sub_err dc d2
  set b3 := double (c - b2) with hb3
  change _ ≤ uu * _ at e1 e2
  have c2 : |c - b2| ≤ 1 := abs_le.2 ⟨by linarith, by linarith⟩
  have c3 : |(1 : ℝ) - b1| ≤ 1 := abs_le.2 ⟨by linarith, by linarith⟩
  have e1' := abs_le.1 (e1.trans (mul_le_of_le_one_right u0.le c3))
  have e2' := abs_le.1 (e2.trans (mul_le_of_le_one_right u0.le c2))
  have b3e : |b3 - (1 - b1 - b2)| ≤ 2 * uu := abs_le.2 ⟨by linarith, by linarith⟩
  have b3b : |b3| ≤ 2 := by have := abs_le.1 c2; exact abs_le.2 ⟨by linarith, by linarith⟩
  have r : ∀ {w B : ℝ}, |w| ≤ B * S → |double w - w| ≤ uu * (B * S) + uu * S := fun {w B} h =>
    (double_err w).trans (add_le_add (mul_le_mul_of_nonneg_left h u0.le) s0)
  have mulb : ∀ {b w B : ℝ}, |b| ≤ B → |w| ≤ S → |b * w| ≤ B * S := fun {b w B} hb hw => by
    rw [abs_mul]; exact mul_le_mul hb hw (abs_nonneg _) ((abs_nonneg _).trans hb)
  have uS := mul_pos u0 S0
  have uuS : uu * S ≤ 1 / 64 * S := mul_le_mul_of_nonneg_right u1 S0.le
  have bx := mulb (abs_le.2 ⟨by linarith, h1.2⟩ : |b1| ≤ 1) hx
  have by' := mulb (abs_le.2 ⟨by linarith, h2.2⟩ : |b2| ≤ 1) hy
  have bz := mulb b3b hz
  have rx := abs_le.1 (r bx)
  have ry := abs_le.1 (r by')
  have rz := abs_le.1 (r bz)
  have bz' : |(b3 - (1 - b1 - b2)) * z| ≤ 2 * uu * S := mulb b3e hz
  have bx := abs_le.1 bx
  have by' := abs_le.1 by'
  have bz := abs_le.1 bz
  have bz' := abs_le.1 bz'
  set X := double (b1 * x)
  set Y := double (b2 * y)
  set Z := double (b3 * z)
  have s1 : |X + Y| ≤ 3 * S := abs_le.2 ⟨by linarith, by linarith⟩
  have r1 := abs_le.1 (r s1)
  have s1 := abs_le.1 s1
  set W := double (X + Y)
  have s2 : |W + Z| ≤ 6 * S := abs_le.2 ⟨by linarith, by linarith⟩
  have r2 := abs_le.1 (r s2)
  have e46 : (2 : ℝ) ^ (-46 : ℤ) = 128 * uu := by rw [uu, show (-46 : ℤ) = 7 + -53 by norm_num, zpow_add₀ two_ne_zero]; norm_num
  rw [e46]
  exact abs_le.2 ⟨by linarith, by linarith⟩

/-- **C185** The point sampled on a triangle is within `2^-46 S` of a point of the triangle's plane that is in the triangle up to `2^-53`. -/
theorem C185_sample (a b c : V3 ℝ) (S : ℝ) (hS : (2 : ℝ) ^ (-200 : ℤ) ≤ S) (ha : Within S a) (hb : Within S b) (hc : Within S c) (u1 u2 : ℝ) (h1 : 0 ≤ u1 ∧ u1 ≤ 1) (h2 : 0 ≤ u2 ∧ u2 ≤ 1) :
    ∃ w1 w2 : ℝ, 0 ≤ w1 ∧ 0 ≤ w2 ∧ w1 + w2 ≤ 1 + 2 ^ (-53 : ℤ) ∧ Within (2 ^ (-46 : ℤ) * S) (sampleR a b c u1 u2 - bary c a b w1 w2) := by
  obtain ⟨r1, r2, r3⟩ := uniformTri_range h1 h2
  have d1 : IsDouble (uniformTriR u1 u2).1 := isDouble_double _
  have d2 : IsDouble (uniformTriR u1 u2).2 := isDouble_double _
  refine ⟨(uniformTriR u1 u2).1, (uniformTriR u1 u2).2, r1.1, r2.1, r3, ?_, ?_, ?_⟩
  · exact comb_err d1 d2 r1 r2 hS ha.1 hb.1 hc.1
  · exact comb_err d1 d2 r1 r2 hS ha.2.1 hb.2.1 hc.2.1
  · exact comb_err d1 d2 r1 r2 hS ha.2.2 hb.2.2 hc.2.2

/-- **C185** A shadow ray to a point sampled on a triangle is not reported to be blocked by that triangle or another one in its plane, if it is longer than `2^-23 S` times its skew. -/
theorem C185_light (p a b c q1 q2 q3 : V3 ℝ) (hc : Coplanar a b c q1 q2 q3) (eps1 L S u1 u2 : ℝ) (h1 : 0 ≤ u1 ∧ u1 ≤ 1) (h2 : 0 ≤ u2 ∧ u2 ≤ 1)
    (hwa : Within S a) (hwb : Within S b) (hwc : Within S c) (hp : Within S p) (hq : Within S (sampleR a b c u1 u2)) (cq : Coarse (sampleR a b c u1 u2)) (hL : L ≤ S) (hS : S ≤ 2 ^ (100 : ℤ))
    (h : Sized q1 q2 q3 (segR p eps1 (sampleR a b c u1 u2) EPS) L 2) (h0 : Transversal q1 q2 q3 (segR p eps1 (sampleR a b c u1 u2) EPS).d)
    (hs : 2 ^ (-45 : ℤ) * skew q1 q2 q3 (segR p eps1 (sampleR a b c u1 u2) EPS).d L 2 ≤ 1 / 8)
    (far : 2 ^ (-23 : ℤ) * skew q1 q2 q3 (segR p eps1 (sampleR a b c u1 u2) EPS).d L 2 * S < Geom.length (sampleR a b c u1 u2 - p)) :
    coreR ieee q1 q2 q3 (segR p eps1 (sampleR a b c u1 u2) EPS) = none := by
  obtain ⟨w1, w2, -, -, -, hw⟩ := C185_sample a b c S ((size_ge h h0).trans hL) hwa hwb hwc u1 u2 h1 h2
  refine C185_target p _ q1 q2 q3 eps1 L S (2 ^ (-46 : ℤ) * S) h h0 hs (bary c a b w1 w2) (plane_bary ⟨hc.2.2, hc.1, hc.2.1⟩ w1 w2) hw hL hS hp hq cq ?_
  refine lt_of_le_of_lt (le_of_eq ?_) far
  rw [show (-23 : ℤ) = 22 + (1 + -46) by norm_num, zpow_add₀ two_ne_zero, zpow_add₀ two_ne_zero, zpow_one]
  ring

/-- a hit within the range is still a hit when the range is cut behind it -/
theorem coreR_cut {p1 p2 p3 o d : V3 ℝ} {mint s b1 b2 : ℝ} {m : WithTop ℝ} (h : coreR ieee p1 p2 p3 ⟨o, d, mint, ⊤⟩ = some (s, b1, b2)) (hm : (s : WithTop ℝ) ≤ m) :
    coreR ieee p1 p2 p3 ⟨o, d, mint, m⟩ = some (s, b1, b2) := by
  simp only [coreR] at h ⊢
  split at h
  · simp at h
  split at h
  · simp at h
  split at h
  · simp at h
  split at h
  · simp at h
  rename_i g1 g2 g3 g4
  rw [if_neg g1, if_neg g2, if_neg g3]
  simp only [Option.some.injEq, Prod.mk.injEq] at h
  obtain ⟨e1, e2, e3⟩ := h
  rw [if_neg, e1, e2, e3]
  push Not at g4 ⊢
  exact ⟨g4.1, by rw [e1]; exact hm⟩

/-- **C185** The whole shadow test in a scene of triangles under the hierarchy, with everything rounded: the ray from the point where `r` hits the triangle `A` (at `t`) to a point `q` of the
light's triangle `B`.  It is reported to be blocked only by triangles that lie neither in the plane of `A` nor in the plane of `B`, whose reported distance is in the range of the ray;
and whatever clearly crosses the ray in that range does block it. -/
theorem C185_scene (cfg : Config ℝ) (tris : List (Tri ℝ)) (A B : Tri ℝ) (hA : A ∈ tris) (r : FRay ℝ) (mint L G : ℝ)
    (h : Sized A.p1 A.p2 A.p3 (openRay r mint) L G) (h0 : Transversal A.p1 A.p2 A.p3 (rayDir r)) (hs : 2 ^ (-45 : ℤ) * skew A.p1 A.p2 A.p3 (rayDir r) L G ≤ 1 / 8)
    (t b1 b2 : ℝ) (hit : coreR ieee A.p1 A.p2 A.p3 (openRay r mint) = some (t, b1, b2))
    (p q : V3 ℝ) (hp : p = atR r.o (rayDir r) t) (seg : Ray ℝ) (hseg : seg = segR p (rEps t) q EPS)
    (r' : FRay ℝ) (ho' : r'.o = seg.o) (hd' : rayDir r' = seg.d) (hm' : r'.mint = .fin seg.mint) (mx : ℝ) (hx' : r'.maxt = .fin mx) (hx : seg.maxt = mx) (hr' : NoNegZero r')
    (S δ : ℝ) (hS : S ≤ 2 ^ (100 : ℤ)) (hL : L ≤ S) (hro : Within S r.o) (ht : G * |t| ≤ S) (hpS : Within S p) (hqS : Within S q) (cq : Coarse q)
    (c1 c2 : ℝ) (hq : Within δ (q - bary B.p1 B.p2 B.p3 c1 c2))
    (nearA : ∀ c ∈ tris, Coplanar A.p1 A.p2 A.p3 c.p1 c.p2 c.p3 → ∃ L' : ℝ, Sized c.p1 c.p2 c.p3 seg L' 2 ∧ Transversal c.p1 c.p2 c.p3 seg.d ∧
      2 ^ (-45 : ℤ) * skew c.p1 c.p2 c.p3 seg.d L' 2 ≤ 1 / 8 ∧ L' ≤ S ∧
      2 ^ (-29 : ℤ) * (skew A.p1 A.p2 A.p3 (rayDir r) L G * skew c.p1 c.p2 c.p3 seg.d L' 2) * (S / 2) < t)
    (nearB : ∀ c ∈ tris, Coplanar B.p1 B.p2 B.p3 c.p1 c.p2 c.p3 → ∃ L' : ℝ, Sized c.p1 c.p2 c.p3 seg L' 2 ∧ Transversal c.p1 c.p2 c.p3 seg.d ∧
      2 ^ (-45 : ℤ) * skew c.p1 c.p2 c.p3 seg.d L' 2 ≤ 1 / 8 ∧ L' ≤ S ∧
      2 ^ (22 : ℤ) * skew c.p1 c.p2 c.p3 seg.d L' 2 * (δ + 2 ^ (-46 : ℤ) * S) < Geom.length (q - p))
    (node : Node ℝ) (ordered : List (Tri ℝ)) (total : ℕ)
    (hb : buildG (decideR ieee cfg) tris tris.length (buildData Tri.bound tris) [] 0 = .ok (node, ordered, total)) (hh : node.height ≤ 64) :
    ∃ bvh blocked, mkR ieee cfg Tri.bound tris = .ok bvh ∧ (∀ fuel ≥ total, bvh.intersectPR ieee (TriScene.dist r' (rEps t)) r' fuel = .ok blocked) ∧
      (blocked = true → ∃ c ∈ tris, ¬ Coplanar A.p1 A.p2 A.p3 c.p1 c.p2 c.p3 ∧ ¬ Coplanar B.p1 B.p2 B.p3 c.p1 c.p2 c.p3 ∧
        ∃ s b1 b2, coreR ieee c.p1 c.p2 c.p3 seg = some (s, b1, b2) ∧ rEps t ≤ s ∧ s ≤ mx) ∧
      (∀ c ∈ tris, ∀ s slack, ClearHit r' (rEps t) c s slack → s + slack < mx → blocked = true) := by
  have hmn : r'.mint = .fin (rEps t) := by rw [hm', hseg]; rfl
  have hso : seg.o = p := by rw [hseg]; rfl
  have hsm : seg.mint = rEps t := by rw [hseg]; rfl
  have eseg : seg = ⟨r'.o, rayDir r', rEps t, (mx : WithTop ℝ)⟩ := by
    cases seg with | mk o d mi ma => simp only [] at ho' hd' hx hsm; rw [← ho', ← hd', ← hx, hsm]
  have eA : seg = secondary (openRay r mint) t seg.d mx := by
    rw [secondary]
    cases seg with | mk o d mi ma =>
      simp only [] at hso hx hsm
      simp only [hso, hx, hsm, hp]
      rfl
  have none_of : ∀ c ∈ tris, (Coplanar A.p1 A.p2 A.p3 c.p1 c.p2 c.p3 ∨ Coplanar B.p1 B.p2 B.p3 c.p1 c.p2 c.p3) → coreR ieee c.p1 c.p2 c.p3 seg = none := by
    intro c hc hcop
    rcases hcop with hcop | hcop
    · obtain ⟨L', a1, a2, a3, a4, a5⟩ := nearA c hc hcop
      rw [eA] at a1 ⊢
      exact C184_self _ _ _ _ _ _ hcop _ L G h h0 hs t b1 b2 hit _ _ L' 2 a1 a2 a3 S hL a4 hro ht a5
    · obtain ⟨L', a1, a2, a3, a4, a5⟩ := nearB c hc hcop
      rw [hseg] at a1 a2 a3 a5 ⊢
      exact C185_target p q _ _ _ _ L' S δ a1 a2 a3 _ (plane_bary hcop c1 c2) hq a4 hS hpS hqS cq a5
  obtain ⟨bvh, acc, res, k1, k2, -, -, k5, k6⟩ := C181_scene cfg tris (List.ne_nil_of_mem hA) r' (rEps t) hmn hr' node ordered total hb hh
  refine ⟨bvh, res, k1, fun fuel hf => (k2 fuel hf).2, fun hres => ?_, fun c hc s slack hcl hlt => k6 c hc s slack hcl ?_⟩
  · obtain ⟨c, hc, s, β1, β2, hcr, hle⟩ := k5 hres
    rw [hx'] at hle
    have sm : s ≤ mx := by simpa [F.le] using hle
    have hcr' : coreR ieee c.p1 c.p2 c.p3 seg = some (s, β1, β2) := by
      rw [eseg]; exact coreR_cut hcr (WithTop.coe_le_coe.2 sm)
    have nn : ∀ {P : Prop}, (P → coreR ieee c.p1 c.p2 c.p3 seg = none) → ¬ P := fun hP h => Option.some_ne_none _ (hcr'.symm.trans (hP h))
    refine ⟨c, hc, nn fun h => none_of c hc (Or.inl h), nn fun h => none_of c hc (Or.inr h), s, β1, β2, hcr', ?_, sm⟩
    simp only [coreR] at hcr
    split at hcr
    · simp at hcr
    split at hcr
    · simp at hcr
    split at hcr
    · simp at hcr
    split at hcr
    · simp at hcr
    rename_i g
    push Not at g
    simp only [Option.some.injEq, Prod.mk.injEq] at hcr
    rw [← hcr.1]
    exact g.1
  · rw [hx']
    simpa [F.lt] using hlt

/-! ### Concrete case -/

theorem dbl (m e : ℤ) (hm : |m| ≤ 2 ^ 53) (he : -1074 ≤ e) {x : ℝ} (h : x = m * 2 ^ e) : double x = x := double_of_isDouble ⟨m, e, hm, he, h⟩

/-- a light above the origin: the sample `(1/4, 1/2)` is the point `(0, 0, 4)`, and all hypotheses of `C185_light` hold for the ray to it -/
example : ∃ (p a b c : V3 ℝ) (L S u1 u2 : ℝ), Coplanar a b c a b c ∧ (0 ≤ u1 ∧ u1 ≤ 1) ∧ (0 ≤ u2 ∧ u2 ≤ 1) ∧ (Within S a ∧ Within S b ∧ Within S c ∧ Within S p ∧ Within S (sampleR a b c u1 u2)) ∧
    Coarse (sampleR a b c u1 u2) ∧ L ≤ S ∧ S ≤ 2 ^ (100 : ℤ) ∧ Sized a b c (segR p 0 (sampleR a b c u1 u2) EPS) L 2 ∧ Transversal a b c (segR p 0 (sampleR a b c u1 u2) EPS).d ∧
    2 ^ (-45 : ℤ) * skew a b c (segR p 0 (sampleR a b c u1 u2) EPS).d L 2 ≤ 1 / 8 ∧
    2 ^ (-23 : ℤ) * skew a b c (segR p 0 (sampleR a b c u1 u2) EPS).d L 2 * S < Geom.length (sampleR a b c u1 u2 - p) := by
  have half : double (1 / 2 : ℝ) = 1 / 2 := dbl 1 (-1) (by norm_num) (by norm_num) (by norm_num)
  have quarter : double (1 / 4 : ℝ) = 1 / 4 := dbl 1 (-2) (by norm_num) (by norm_num) (by norm_num)
  have one : double (1 : ℝ) = 1 := dbl 1 0 (by norm_num) (by norm_num) (by norm_num)
  have four : double (4 : ℝ) = 4 := dbl 4 0 (by norm_num) (by norm_num) (by norm_num)
  have mfour : double (-4 : ℝ) = -4 := dbl (-4) 0 (by norm_num) (by norm_num) (by norm_num)
  have sixteen : double (16 : ℝ) = 16 := dbl 16 0 (by norm_num) (by norm_num) (by norm_num)
  have two : double (2 : ℝ) = 2 := dbl 2 0 (by norm_num) (by norm_num) (by norm_num)
  have three : double (3 : ℝ) = 3 := dbl 3 0 (by norm_num) (by norm_num) (by norm_num)
  have mh : double (-(1 / 2) : ℝ) = -(1 / 2) := dbl (-1) (-1) (by norm_num) (by norm_num) (by norm_num)
  have mq : double (-(1 / 4) : ℝ) = -(1 / 4) := dbl (-1) (-2) (by norm_num) (by norm_num) (by norm_num)
  have m34 : double (-(3 / 4) : ℝ) = -(3 / 4) := dbl (-3) (-2) (by norm_num) (by norm_num) (by norm_num)
  have q34 : double (3 / 4 : ℝ) = 3 / 4 := dbl 3 (-2) (by norm_num) (by norm_num) (by norm_num)
  have z := double_zero (K := ℝ)
  have rt : √(1 / 4 : ℝ) = 1 / 2 := by rw [show (1 / 4 : ℝ) = (1 / 2) ^ 2 by norm_num]; exact Real.sqrt_sq (by norm_num)
  have rt16 : √(16 : ℝ) = 4 := by rw [show (16 : ℝ) = 4 ^ 2 by norm_num]; exact Real.sqrt_sq (by norm_num)
  have ht : uniformTriR (1 / 4) (1 / 2) = (1 / 2, 1 / 4) := by
    simp only [uniformTriR, rt, half]
    rw [show (1 : ℝ) - 1 / 2 = 1 / 2 by norm_num, show (1 : ℝ) / 2 * (1 / 2) = 1 / 4 by norm_num, half, quarter]
  have hsmp : sampleR ⟨-1, -1, 4⟩ ⟨3, -1, 4⟩ ⟨-1, 3, 4⟩ (1 / 4) (1 / 2) = ⟨0, 0, 4⟩ := by
    simp only [sampleR, ht, combR]
    norm_num [half, quarter, one, two, three, mh, mq, m34, q34, z, four]
  have hseg : segR ⟨0, 0, 0⟩ 0 ⟨0, 0, 4⟩ EPS = ⟨⟨0, 0, 0⟩, ⟨0, 0, 1⟩, 0, ((double (4 * double (1 - EPS)) : ℝ) : WithTop ℝ)⟩ := by
    have e : ∀ a b : ℝ, Rounding.sub' ieee a b = double (a - b) := fun _ _ => rfl
    simp only [segR, subR, e, lengthR, sqLengthR]
    norm_num [z, four, mfour, sixteen, rt16, one]
  refine ⟨⟨0, 0, 0⟩, ⟨-1, -1, 4⟩, ⟨3, -1, 4⟩, ⟨-1, 3, 4⟩, 4, 4, 1 / 4, 1 / 2, ?_, by norm_num, by norm_num, ?_, ?_, le_rfl, by norm_num, ?_⟩
  · simp only [Coplanar, dot, cross, V3.sub_x, V3.sub_y, V3.sub_z]; norm_num
  · rw [hsmp]; simp only [Within]; norm_num
  · rw [hsmp]
    exact ⟨⟨0, by norm_num⟩, ⟨0, by norm_num⟩, Grid.mono (show (-200 : ℤ) ≤ 0 by norm_num) ⟨4, by norm_num⟩⟩
  · rw [hsmp, hseg]
    have g : ∀ {n : ℤ} {x : ℝ}, x = n → Grid (-200) x := fun {n x} h => Grid.mono (show (-200 : ℤ) ≤ 0 by norm_num) ⟨n, by rw [h]; norm_num⟩
    refine ⟨⟨⟨by norm_num, by norm_num⟩, ⟨by norm_num, by norm_num⟩, ⟨?_, ?_, ?_, ?_, ?_⟩, ?_, ?_, ?_, ?_⟩, ?_, ?_, ?_⟩
    · exact ⟨g (n := -1) (by norm_num), g (n := -1) (by norm_num), g (n := 4) (by norm_num)⟩
    · exact ⟨g (n := 3) (by norm_num), g (n := -1) (by norm_num), g (n := 4) (by norm_num)⟩
    · exact ⟨g (n := -1) (by norm_num), g (n := 3) (by norm_num), g (n := 4) (by norm_num)⟩
    · exact ⟨g (n := 0) (by norm_num), g (n := 0) (by norm_num), g (n := 0) (by norm_num)⟩
    · exact ⟨g (n := 0) (by norm_num), g (n := 0) (by norm_num), g (n := 1) (by norm_num)⟩
    · simp only [Within, V3.sub_x, V3.sub_y, V3.sub_z]; norm_num
    · simp only [Within, V3.sub_x, V3.sub_y, V3.sub_z]; norm_num
    · simp only [Within, V3.sub_x, V3.sub_y, V3.sub_z]; norm_num
    · simp only [Within]; norm_num
    · simp only [Transversal, dot, cross, V3.sub_x, V3.sub_y, V3.sub_z]; norm_num
    · simp only [skew, dot, cross, V3.sub_x, V3.sub_y, V3.sub_z]; norm_num
    · have e : Geom.length ((⟨0, 0, 4⟩ : V3 ℝ) - ⟨0, 0, 0⟩) = 4 := by
        simp only [Geom.length, sqLength, V3.sub_x, V3.sub_y, V3.sub_z]
        norm_num [rt16]
      rw [e]
      simp only [skew, dot, cross, V3.sub_x, V3.sub_y, V3.sub_z]; norm_num

end Verif.ShadowR
