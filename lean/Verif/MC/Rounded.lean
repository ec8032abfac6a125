import Verif.MC.Model
import Verif.Shape.DiskRounded

/-!
# Sampled directions and points in rounded arithmetic (C195)

The samplers of `pytracer/montecarlo/utility.py` 59-226 with every operation rounded to binary64.  `np.cos` and `np.sin` are functions that are correct up to `2^-52` and do not exceed 1; `np.sqrt` is
correctly rounded, and gives NaN for negative numbers.
-/

namespace Verif.MCR
open V3 Verif.Rnd
open Verif.DiskR (npPi twoPi npPi_close twoPi_close)

/-! ### Model -/

/-- montecarlo/utility.py 68 and 93: `np.sqrt(max(0., 1. - z * z))` -/
noncomputable def ringR (z : ℝ) : ℝ := double (√(max 0 (double (1 - double (z * z)))))

/-- montecarlo/utility.py 69, 94 and 119: `2. * PI * u2` -/
noncomputable def turnR (u2 : ℝ) : ℝ := double (twoPi * u2)

section
variable (cosR sinR : ℝ → ℝ)

/-- `uniform_sample_hemisphere`, montecarlo/utility.py 59-70 -/
noncomputable def hemisphereR (u1 u2 : ℝ) : V3 ℝ :=
  let r := ringR u1
  let phi := turnR u2
  ⟨double (r * cosR phi), double (r * sinR phi), u1⟩

/-- `uniform_sample_sphere`, montecarlo/utility.py 83-95 -/
noncomputable def sphereR (u1 u2 : ℝ) : V3 ℝ :=
  let z := double (1 - double (2 * u1))
  let r := ringR z
  let phi := turnR u2
  ⟨double (r * cosR phi), double (r * sinR phi), z⟩

/-- `cosine_sample_hemisphere`, montecarlo/utility.py 171-184 -/
noncomputable def cosineR (u1 u2 : ℝ) : V3 ℝ :=
  let vec := sphereR cosR sinR u1 u2
  ⟨vec.x, vec.y, double (√(max 0 (double (double (1 - double (vec.x * vec.x)) - double (vec.y * vec.y)))))⟩

/-- `uniform_sample_disk`, montecarlo/utility.py 108-119 -/
noncomputable def diskR (u1 u2 : ℝ) : ℝ × ℝ := (double (double (√u1) * cosR (turnR u2)), double (double (√u1) * sinR (turnR u2)))

open Classical in
/-- radius and angle of `concentric_sample_disk`, montecarlo/utility.py 134-166 -/
noncomputable def concentricPolarR (u1 u2 : ℝ) : ℝ × ℝ :=
  let sx := double (double (2 * u1) - 1)
  let sy := double (double (2 * u2) - 1)
  let rt : ℝ × ℝ :=
    if sx > -sy then
      if sx > sy then (sx, if sy ≤ 0 then double (double (sy / sx) + 8) else double (sy / sx))
      else (sy, double (2 - double (sx / sy)))
    else
      if sx > sy then (-sy, double (6 + double (sx / sy)))
      else (-sx, double (4 - double (sy / sx)))
  (rt.1, double (rt.2 * double (npPi / 4)))

open Classical in
/-- `concentric_sample_disk`, montecarlo/utility.py 122-168 -/
noncomputable def concentricR (u1 u2 : ℝ) : ℝ × ℝ :=
  if double (double (2 * u1) - 1) = 0 ∧ double (double (2 * u2) - 1) = 0 then (0, 0) else
  let p := concentricPolarR u1 u2
  (double (p.1 * cosR p.2), double (p.1 * sinR p.2))

/-- `uniform_sample_triangle`, montecarlo/utility.py 197-206 -/
noncomputable def triangleR (u1 u2 : ℝ) : ℝ × ℝ := (double (1 - double (√u1)), double (u2 * double (√u1)))

open Classical in
/-- `np.sqrt`; `none` is NaN -/
noncomputable def sqrtR (x : ℝ) : Option ℝ := if x < 0 then none else some (double (√x))

/-- the cosine in `uniform_sample_cone`, montecarlo/utility.py 223 with `util.lerp` (`utility/utility.py:89-91`) -/
noncomputable def coneCosR (u1 ctMax : ℝ) : ℝ := double (double (double (1 - u1) * ctMax) + double (u1 * 1))

/-- `uniform_sample_cone` with a frame, montecarlo/utility.py 223-226; `none` if a NaN arises (`geo.Vector` does not take it).  The branch without a frame raises always, see `Verif.MC.cone`. -/
noncomputable def coneR (u1 u2 ctMax : ℝ) (x y z : V3 ℝ) : Option (V3 ℝ) :=
  let ct := coneCosR u1 ctMax
  match sqrtR (double (1 - double (ct * ct))) with
  | none => none
  | some st =>
    let phi := double (double (u2 * 2) * npPi)
    let a := double (cosR phi * st)
    let b := double (sinR phi * st)
    some ⟨double (double (double (a * x.x) + double (b * y.x)) + double (ct * z.x)),
      double (double (double (a * x.y) + double (b * y.y)) + double (ct * z.y)),
      double (double (double (a * x.z) + double (b * y.z)) + double (ct * z.z))⟩

end

/-! ### Specification -/

/-- `np.cos` and `np.sin`: at most 1, and correct up to `2^-52` -/
structure Trig (cosR sinR : ℝ → ℝ) : Prop where
  cos_le : ∀ x, |cosR x| ≤ 1
  sin_le : ∀ x, |sinR x| ≤ 1
  cos_near : ∀ x, |cosR x - Real.cos x| ≤ 2 ^ (-52 : ℤ)
  sin_near : ∀ x, |sinR x - Real.sin x| ≤ 2 ^ (-52 : ℤ)

/-- a unit vector up to `2^-48` in the square of the length -/
def NearlyUnit (v : V3 ℝ) : Prop := |v.x ^ 2 + v.y ^ 2 + v.z ^ 2 - 1| ≤ 2 ^ (-48 : ℤ)

/-- all coordinates within `ε` -/
def Within (ε : ℝ) (v w : V3 ℝ) : Prop := |v.x - w.x| ≤ ε ∧ |v.y - w.y| ≤ ε ∧ |v.z - w.z| ≤ ε

/-! ### Roundings of numbers up to 2 -/

theorem tiny : (2 : ℝ) ^ (-1075 : ℤ) ≤ 2 ^ (-60 : ℤ) := zpow_le_zpow_right₀ (by norm_num) (by norm_num)

theorem near {x : ℝ} (h : |x| ≤ 3 / 2) : |double x - x| ≤ 2 ^ (-52 : ℤ) := by
  have := double_err x
  have t := tiny
  generalize (2 : ℝ) ^ (-1075 : ℤ) = η at *
  norm_num at this t ⊢
  linarith

theorem near8 {x : ℝ} (h : |x| ≤ 15 / 2) : |double x - x| ≤ 2 ^ (-50 : ℤ) := by
  have := double_err x
  have t := tiny
  generalize (2 : ℝ) ^ (-1075 : ℤ) = η at *
  norm_num at this t ⊢
  linarith

theorem d_one : double (1 : ℝ) = 1 := double_of_isDouble ⟨1, 0, by norm_num, by norm_num, by simp⟩
theorem d_le_one {x : ℝ} (h : x ≤ 1) : double x ≤ 1 := by have := double_mono h; rwa [d_one] at this
theorem d_nonneg {x : ℝ} (h : 0 ≤ x) : 0 ≤ double x := by have := double_mono h; rwa [double_zero] at this
theorem d_abs {x : ℝ} (h : |x| ≤ 1) : |double x| ≤ 1 := by
  obtain ⟨h1, h2⟩ := abs_le.1 h
  refine abs_le.2 ⟨?_, d_le_one h2⟩
  have := double_mono h1
  rwa [double_neg, d_one] at this

theorem mul_le_one' {a b : ℝ} (ha : |a| ≤ 1) (hb : |b| ≤ 1) : |a * b| ≤ 1 := by rw [abs_mul]; exact mul_le_one₀ ha (abs_nonneg _) hb

/-- squares of close numbers -/
theorem sq_sub {a b e : ℝ} (ha : |a| ≤ 1) (hb : |b| ≤ 1) (h : |a - b| ≤ e) : |a ^ 2 - b ^ 2| ≤ 2 * e := by
  rw [show a ^ 2 - b ^ 2 = (a + b) * (a - b) by ring, abs_mul]
  have : |a + b| ≤ 2 := (abs_add_le _ _).trans (by linarith)
  exact mul_le_mul this h (abs_nonneg _) (by norm_num)

theorem mul_near {a b A B d e : ℝ} (hb : |b| ≤ 1) (hA : |A| ≤ 1) (h : |a - A| ≤ d) (h' : |b - B| ≤ e) : |a * b - A * B| ≤ d + e := by
  rw [show a * b - A * B = (a - A) * b + A * (b - B) by ring]
  refine (abs_add_le _ _).trans (add_le_add ?_ ?_)
  · rw [abs_mul]; exact (mul_le_of_le_one_right (abs_nonneg _) hb).trans h
  · rw [abs_mul]; exact (mul_le_of_le_one_left (abs_nonneg _) hA).trans h'

theorem sqrt_sub {a b d : ℝ} (ha : 0 ≤ a) (hb : 0 ≤ b) (d0 : 0 ≤ d) (h : |a - b| ≤ d ^ 2) : |√a - √b| ≤ d := by
  obtain ⟨h1, h2⟩ := abs_le.1 h
  have key : ∀ x y : ℝ, 0 ≤ x → 0 ≤ y → x ≤ y + d ^ 2 → √x ≤ √y + d := fun x y _ y0 hxy => by
    rw [Real.sqrt_le_left (by positivity)]
    have := Real.sq_sqrt y0
    nlinarith [mul_nonneg (Real.sqrt_nonneg y) d0]
  have k1 := key a b ha hb (by linarith)
  have k2 := key b a hb ha (by linarith)
  exact abs_le.2 ⟨by linarith, by linarith⟩

theorem sqrt_le_one' {a : ℝ} (h : a ≤ 1) : √a ≤ 1 := (Real.sqrt_le_iff).2 ⟨by norm_num, by linarith⟩

/-- a rounded square root of a number up to 1 -/
theorem root_near {m : ℝ} (m0 : 0 ≤ m) (m1 : m ≤ 1) : 0 ≤ double (√m) ∧ double (√m) ≤ 1 ∧ |double (√m) - √m| ≤ 2 ^ (-52 : ℤ) ∧ |double (√m) ^ 2 - m| ≤ 2 * 2 ^ (-52 : ℤ) := by
  have s0 := Real.sqrt_nonneg m
  have s1 : √m ≤ 1 := sqrt_le_one' m1
  have n : |double (√m) - √m| ≤ 2 ^ (-52 : ℤ) := near (by rw [abs_of_nonneg s0]; linarith)
  have r0 := d_nonneg s0
  have r1 := d_le_one s1
  refine ⟨r0, r1, n, ?_⟩
  have := sq_sub (by rwa [abs_of_nonneg r0]) (by rwa [abs_of_nonneg s0]) n
  rwa [Real.sq_sqrt m0] at this

/-- the rounded radius of a circle of latitude -/
theorem ring_near {z : ℝ} (hz : |z| ≤ 1) : 0 ≤ double (1 - double (z * z)) ∧ double (1 - double (z * z)) ≤ 1 ∧ |double (1 - double (z * z)) - (1 - z ^ 2)| ≤ 2 * 2 ^ (-52 : ℤ) := by
  have zz0 : 0 ≤ double (z * z) := d_nonneg (mul_self_nonneg z)
  have zz1 : double (z * z) ≤ 1 := d_le_one (by have := mul_le_one' hz hz; rwa [abs_of_nonneg (mul_self_nonneg z)] at this)
  have n1 : |double (z * z) - z * z| ≤ 2 ^ (-52 : ℤ) := near ((mul_le_one' hz hz).trans (by norm_num))
  have n2 : |double (1 - double (z * z)) - (1 - double (z * z))| ≤ 2 ^ (-52 : ℤ) := near (by rw [abs_of_nonneg (by linarith)]; linarith)
  refine ⟨d_nonneg (by linarith), d_le_one (by linarith), ?_⟩
  generalize (2 : ℝ) ^ (-52 : ℤ) = e at *
  generalize double (1 - double (z * z)) = m at *
  generalize double (z * z) = w at *
  obtain ⟨a1, a2⟩ := abs_le.1 n1
  obtain ⟨b1, b2⟩ := abs_le.1 n2
  rw [sq]
  exact abs_le.2 ⟨by linarith, by linarith⟩

theorem ringR_near {z : ℝ} (hz : |z| ≤ 1) : 0 ≤ ringR z ∧ ringR z ≤ 1 ∧ |ringR z ^ 2 - (1 - z ^ 2)| ≤ 4 * 2 ^ (-52 : ℤ) := by
  obtain ⟨m0, m1, n⟩ := ring_near hz
  simp only [ringR]
  rw [max_eq_right m0]
  obtain ⟨r0, r1, -, q⟩ := root_near m0 m1
  refine ⟨r0, r1, ?_⟩
  generalize (2 : ℝ) ^ (-52 : ℤ) = e at *
  obtain ⟨a1, a2⟩ := abs_le.1 q
  obtain ⟨b1, b2⟩ := abs_le.1 n
  exact abs_le.2 ⟨by linarith, by linarith⟩

theorem turn_near {u2 : ℝ} (h0 : 0 ≤ u2) (h1 : u2 ≤ 1) : |turnR u2 - 2 * Real.pi * u2| ≤ 2 ^ (-47 : ℤ) := by
  obtain ⟨t1, t2, t3⟩ := twoPi_close
  have n : |turnR u2 - twoPi * u2| ≤ 2 ^ (-50 : ℤ) := near8 (by rw [abs_of_nonneg (by positivity)]; nlinarith)
  have k : |twoPi * u2 - 2 * Real.pi * u2| ≤ 16 * uu := by
    rw [← sub_mul, abs_mul, abs_of_nonneg h0]
    exact (mul_le_of_le_one_right (abs_nonneg _) h1).trans t1
  rw [uu_eq] at k
  have := abs_sub_le (turnR u2) (twoPi * u2) (2 * Real.pi * u2)
  norm_num at n k ⊢
  linarith

section
variable {cosR sinR : ℝ → ℝ}

theorem cos_at (h : Trig cosR sinR) (p q : ℝ) : |cosR p - Real.cos q| ≤ 2 ^ (-52 : ℤ) + |p - q| :=
  (abs_sub_le _ (Real.cos p) _).trans (add_le_add (h.cos_near p) (Real.abs_cos_sub_cos_le p q))
theorem sin_at (h : Trig cosR sinR) (p q : ℝ) : |sinR p - Real.sin q| ≤ 2 ^ (-52 : ℤ) + |p - q| :=
  (abs_sub_le _ (Real.sin p) _).trans (add_le_add (h.sin_near p) (Real.abs_sin_sub_sin_le p q))

/-- a point at the radius `r` -/
theorem circle (h : Trig cosR sinR) {r : ℝ} (hr : |r| ≤ 1) (φ : ℝ) :
    |double (r * cosR φ)| ≤ 1 ∧ |double (r * sinR φ)| ≤ 1 ∧ |double (r * cosR φ) ^ 2 + double (r * sinR φ) ^ 2 - r ^ 2| ≤ 8 * 2 ^ (-52 : ℤ) := by
  have c1 := mul_le_one' hr (h.cos_le φ)
  have s1 := mul_le_one' hr (h.sin_le φ)
  have x1 := d_abs c1
  have y1 := d_abs s1
  refine ⟨x1, y1, ?_⟩
  have nx := sq_sub x1 c1 (near (c1.trans (by norm_num)))
  have ny := sq_sub y1 s1 (near (s1.trans (by norm_num)))
  have qc := sq_sub (h.cos_le φ) (Real.abs_cos_le_one φ) (h.cos_near φ)
  have qs := sq_sub (h.sin_le φ) (Real.abs_sin_le_one φ) (h.sin_near φ)
  have r2 : r ^ 2 ≤ 1 := by rw [sq_le_one_iff_abs_le_one]; exact hr
  have k : |r ^ 2 * (cosR φ ^ 2 + sinR φ ^ 2 - 1)| ≤ 4 * 2 ^ (-52 : ℤ) := by
    rw [abs_mul, abs_of_nonneg (sq_nonneg r)]
    refine (mul_le_of_le_one_left (abs_nonneg _) r2).trans ?_
    have : cosR φ ^ 2 + sinR φ ^ 2 - 1 = (cosR φ ^ 2 - Real.cos φ ^ 2) + (sinR φ ^ 2 - Real.sin φ ^ 2) := by
      have := Real.cos_sq_add_sin_sq φ; linarith
    rw [this]
    exact (abs_add_le _ _).trans (by linarith)
  have e : double (r * cosR φ) ^ 2 + double (r * sinR φ) ^ 2 - r ^ 2 =
      (double (r * cosR φ) ^ 2 - (r * cosR φ) ^ 2) + (double (r * sinR φ) ^ 2 - (r * sinR φ) ^ 2) + r ^ 2 * (cosR φ ^ 2 + sinR φ ^ 2 - 1) := by ring
  rw [e]
  refine (abs_add_le _ _).trans ((add_le_add (abs_add_le _ _) k).trans ?_)
  linarith

/-- the coordinates of such a point -/
theorem coords (h : Trig cosR sinR) {r ρ φ ψ d : ℝ} (hr : |r| ≤ 1) (hρ : |ρ| ≤ 1) (hd : |r - ρ| ≤ d) (hφ : |φ - ψ| ≤ 2 ^ (-47 : ℤ)) :
    |double (r * cosR φ) - ρ * Real.cos ψ| ≤ d + 2 ^ (-46 : ℤ) ∧ |double (r * sinR φ) - ρ * Real.sin ψ| ≤ d + 2 ^ (-46 : ℤ) := by
  have key : ∀ c C : ℝ, |c| ≤ 1 → |c - C| ≤ 2 ^ (-52 : ℤ) + |φ - ψ| → |double (r * c) - ρ * C| ≤ d + 2 ^ (-46 : ℤ) := fun c C hc hcC => by
    have n : |double (r * c) - r * c| ≤ 2 ^ (-52 : ℤ) := near ((mul_le_one' hr hc).trans (by norm_num))
    have k := mul_near hc hρ hd hcC
    have t := abs_sub_le (double (r * c)) (r * c) (ρ * C)
    norm_num at n k hφ ⊢
    linarith
  exact ⟨key _ _ (h.cos_le φ) (cos_at h φ ψ), key _ _ (h.sin_le φ) (sin_at h φ ψ)⟩

/-! ### The samplers -/

theorem hemi_z {u : ℝ} (h0 : 0 ≤ u) (h1 : u ≤ 1) : |u| ≤ 1 := by rwa [abs_of_nonneg h0]

theorem ring_abs {z : ℝ} (hz : |z| ≤ 1) : |ringR z| ≤ 1 := by
  obtain ⟨r0, r1, -⟩ := ringR_near hz
  rwa [abs_of_nonneg r0]

theorem unit_of (h : Trig cosR sinR) {z : ℝ} (hz : |z| ≤ 1) (φ : ℝ) : NearlyUnit ⟨double (ringR z * cosR φ), double (ringR z * sinR φ), z⟩ := by
  obtain ⟨-, -, q⟩ := ringR_near hz
  obtain ⟨-, -, c⟩ := circle h (ring_abs hz) φ
  simp only [NearlyUnit]
  obtain ⟨a1, a2⟩ := abs_le.1 q
  obtain ⟨b1, b2⟩ := abs_le.1 c
  norm_num at *
  exact abs_le.2 ⟨by linarith, by linarith⟩

theorem sphere_z {u : ℝ} (h0 : 0 ≤ u) (h1 : u ≤ 1) : |double (1 - double (2 * u))| ≤ 1 ∧ |double (1 - double (2 * u)) - (1 - 2 * u)| ≤ 5 * 2 ^ (-52 : ℤ) := by
  have w0 : 0 ≤ double (2 * u) := d_nonneg (by linarith)
  have w2 : double (2 * u) ≤ 2 := by
    have := double_mono (show 2 * u ≤ 2 by linarith)
    rwa [show double (2 : ℝ) = 2 from double_of_isDouble ⟨2, 0, by norm_num, by norm_num, by simp⟩] at this
  have n1 : |double (2 * u) - 2 * u| ≤ 2 ^ (-50 : ℤ) := near8 (by rw [abs_of_nonneg (by linarith)]; linarith)
  have m1 : |1 - double (2 * u)| ≤ 1 := abs_le.2 ⟨by linarith, by linarith⟩
  have n2 := near (x := 1 - double (2 * u)) (m1.trans (by norm_num))
  refine ⟨d_abs m1, ?_⟩
  obtain ⟨a1, a2⟩ := abs_le.1 n1
  obtain ⟨b1, b2⟩ := abs_le.1 n2
  norm_num at *
  exact abs_le.2 ⟨by linarith, by linarith⟩

/-- **C195** Sampled directions are unit vectors up to `2^-48` in the square of their length, on the right side of the horizon … -/
theorem C195_unit (h : Trig cosR sinR) (u1 u2 : ℝ) (a0 : 0 ≤ u1) (a1 : u1 ≤ 1) :
    NearlyUnit (hemisphereR cosR sinR u1 u2) ∧ 0 ≤ (hemisphereR cosR sinR u1 u2).z ∧ NearlyUnit (sphereR cosR sinR u1 u2) ∧ NearlyUnit (cosineR cosR sinR u1 u2) ∧ 0 ≤ (cosineR cosR sinR u1 u2).z := by
  refine ⟨unit_of h (hemi_z a0 a1) _, a0, unit_of h (sphere_z a0 a1).1 _, ?_, d_nonneg (Real.sqrt_nonneg _)⟩
  obtain ⟨r0, r1, q⟩ := ringR_near (sphere_z a0 a1).1
  obtain ⟨x1, y1, c⟩ := circle h (ring_abs (sphere_z a0 a1).1) (turnR u2)
  simp only [NearlyUnit, cosineR, sphereR]
  generalize double (ringR (double (1 - double (2 * u1))) * cosR (turnR u2)) = x at *
  generalize double (ringR (double (1 - double (2 * u1))) * sinR (turnR u2)) = y at *
  have rr : ringR (double (1 - double (2 * u1))) ^ 2 ≤ 1 := pow_le_one₀ r0 r1
  generalize ringR (double (1 - double (2 * u1))) = r at *
  have xx : |double (x * x) - x * x| ≤ 2 ^ (-52 : ℤ) := near ((mul_le_one' x1 x1).trans (by norm_num))
  have yy : |double (y * y) - y * y| ≤ 2 ^ (-52 : ℤ) := near ((mul_le_one' y1 y1).trans (by norm_num))
  have xx0 : 0 ≤ double (x * x) := d_nonneg (mul_self_nonneg x)
  have xx1 : double (x * x) ≤ 1 := d_le_one (by have := mul_le_one' x1 x1; rwa [abs_of_nonneg (mul_self_nonneg x)] at this)
  have yy0 : 0 ≤ double (y * y) := d_nonneg (mul_self_nonneg y)
  have yy1 : double (y * y) ≤ 1 := d_le_one (by have := mul_le_one' y1 y1; rwa [abs_of_nonneg (mul_self_nonneg y)] at this)
  have n1 : |double (1 - double (x * x)) - (1 - double (x * x))| ≤ 2 ^ (-52 : ℤ) := near (by rw [abs_of_nonneg (by linarith)]; linarith)
  have m0 : 0 ≤ double (1 - double (x * x)) := d_nonneg (by linarith)
  have m1 : double (1 - double (x * x)) ≤ 1 := d_le_one (by linarith)
  have n2 : |double (double (1 - double (x * x)) - double (y * y)) - (double (1 - double (x * x)) - double (y * y))| ≤ 2 ^ (-52 : ℤ) := near (abs_le.2 ⟨by linarith, by linarith⟩)
  have i1 : double (double (1 - double (x * x)) - double (y * y)) ≤ 1 := d_le_one (by linarith)
  obtain ⟨-, -, -, s⟩ := root_near (le_max_left 0 (double (double (1 - double (x * x)) - double (y * y)))) (max_le zero_le_one i1)
  generalize double (double (1 - double (x * x)) - double (y * y)) = i at *
  generalize double (1 - double (x * x)) = m at *
  generalize double (√(max 0 i)) = z at *
  generalize double (x * x) = X at *
  generalize double (y * y) = Y at *
  rw [← sq] at xx yy
  generalize x ^ 2 = x' at *
  generalize y ^ 2 = y' at *
  generalize z ^ 2 = z' at *
  generalize r ^ 2 = r' at *
  have E : (2 : ℝ) ^ (-48 : ℤ) = 16 * 2 ^ (-52 : ℤ) := by norm_num
  rw [E]
  generalize (2 : ℝ) ^ (-52 : ℤ) = e at *
  rw [abs_le] at xx yy n1 n2 s c ⊢
  rcases le_total 0 i with i0 | i0
  · rw [max_eq_right i0] at s
    exact ⟨by linarith, by linarith⟩
  · rw [max_eq_left i0] at s
    exact ⟨by linarith, by linarith⟩

theorem ring_exact {z w : ℝ} (hz : |z| ≤ 1) (hw : |w| ≤ 1) (h : |z - w| ≤ 5 * 2 ^ (-52 : ℤ)) : |ringR z - √(1 - w ^ 2)| ≤ 2 ^ (-24 : ℤ) + 2 ^ (-52 : ℤ) := by
  obtain ⟨m0, m1, n⟩ := ring_near hz
  simp only [ringR]
  rw [max_eq_right m0]
  obtain ⟨-, -, k, -⟩ := root_near m0 m1
  have w0 : 0 ≤ 1 - w ^ 2 := by have := (sq_le_one_iff_abs_le_one w).2 hw; linarith
  have q := sq_sub hz hw h
  have := sqrt_sub m0 w0 (show (0 : ℝ) ≤ 2 ^ (-24 : ℤ) by positivity) (by
    have E : ((2 : ℝ) ^ (-24 : ℤ)) ^ 2 = 16 * 2 ^ (-52 : ℤ) := by norm_num
    rw [E]
    generalize (2 : ℝ) ^ (-52 : ℤ) = e at *
    rw [abs_le] at n q ⊢
    exact ⟨by linarith, by linarith⟩)
  have t := abs_sub_le (double (√(double (1 - double (z * z))))) (√(double (1 - double (z * z)))) (√(1 - w ^ 2))
  linarith

theorem sqrt_abs_one {w : ℝ} : |√(1 - w ^ 2)| ≤ 1 := by
  rw [abs_of_nonneg (Real.sqrt_nonneg _)]
  exact sqrt_le_one' (by nlinarith [sq_nonneg w])

theorem exact_max {w : ℝ} (hw : |w| ≤ 1) : max 0 (1 - w * w) = 1 - w ^ 2 := by
  rw [← sq, max_eq_right]
  have := (sq_le_one_iff_abs_le_one w).2 hw; linarith

/-- … they are those of the exact formulas up to `2^-22` in each coordinate (near the poles a square root halves the number of correct digits) … -/
theorem C195_accurate (h : Trig cosR sinR) (u1 u2 : ℝ) (a0 : 0 ≤ u1) (a1 : u1 ≤ 1) (b0 : 0 ≤ u2) (b1 : u2 ≤ 1) :
    Within (2 ^ (-22 : ℤ)) (hemisphereR cosR sinR u1 u2) (MC.hemisphere u1 u2) ∧ Within (2 ^ (-22 : ℤ)) (sphereR cosR sinR u1 u2) (MC.sphere u1 u2) ∧
    Within (2 ^ (-22 : ℤ)) (cosineR cosR sinR u1 u2) (MC.cosineHemisphere u1 u2) := by
  have hu := hemi_z a0 a1
  obtain ⟨z1, zn⟩ := sphere_z a0 a1
  have w1 : |1 - 2 * u1| ≤ 1 := abs_le.2 ⟨by linarith, by linarith⟩
  have t := turn_near b0 b1
  have e52 : (0 : ℝ) ≤ 5 * 2 ^ (-52 : ℤ) := by positivity
  obtain ⟨p1, p2⟩ := coords h (ring_abs hu) sqrt_abs_one (ring_exact hu hu (by rw [sub_self, abs_zero]; exact e52)) t
  obtain ⟨q1, q2⟩ := coords h (ring_abs z1) sqrt_abs_one (ring_exact z1 w1 zn) t
  have up : (2 : ℝ) ^ (-24 : ℤ) + 2 ^ (-52 : ℤ) + 2 ^ (-46 : ℤ) ≤ 2 ^ (-22 : ℤ) := by norm_num
  refine ⟨⟨?_, ?_, ?_⟩, ⟨?_, ?_, ?_⟩, ?_, ?_, ?_⟩
  · simp only [hemisphereR, MC.hemisphere]; rw [exact_max hu]; exact p1.trans up
  · simp only [hemisphereR, MC.hemisphere]; rw [exact_max hu]; exact p2.trans up
  · simp only [hemisphereR, MC.hemisphere]; rw [sub_self, abs_zero]; positivity
  · simp only [sphereR, MC.sphere]; rw [exact_max w1]; exact q1.trans up
  · simp only [sphereR, MC.sphere]; rw [exact_max w1]; exact q2.trans up
  · simp only [sphereR, MC.sphere]; exact zn.trans (by norm_num)
  · simp only [cosineR, sphereR, MC.cosineHemisphere, MC.sphere]; rw [exact_max w1]; exact q1.trans up
  · simp only [cosineR, sphereR, MC.cosineHemisphere, MC.sphere]; rw [exact_max w1]; exact q2.trans up
  -- the height of the cosine-weighted sample
  have hz : (MC.cosineHemisphere u1 u2).z = √((1 - 2 * u1) ^ 2) := by
    simp only [MC.cosineHemisphere, MC.sphere]
    rw [exact_max w1]
    have s := Real.sq_sqrt (show 0 ≤ 1 - (1 - 2 * u1) ^ 2 by have := (sq_le_one_iff_abs_le_one _).2 w1; linarith)
    have cs := Real.cos_sq_add_sin_sq (2 * Real.pi * u2)
    have : 1 - √(1 - (1 - 2 * u1) ^ 2) * Real.cos (2 * Real.pi * u2) * (√(1 - (1 - 2 * u1) ^ 2) * Real.cos (2 * Real.pi * u2)) -
        √(1 - (1 - 2 * u1) ^ 2) * Real.sin (2 * Real.pi * u2) * (√(1 - (1 - 2 * u1) ^ 2) * Real.sin (2 * Real.pi * u2)) = (1 - 2 * u1) ^ 2 := by
      linear_combination (-(Real.cos (2 * Real.pi * u2) ^ 2 + Real.sin (2 * Real.pi * u2) ^ 2)) * s - (1 - (1 - 2 * u1) ^ 2) * cs
    rw [this, max_eq_right (sq_nonneg _)]
  rw [hz]
  have U := (C195_unit h u1 u2 a0 a1).2.2.1
  have N := (C195_unit h u1 u2 a0 a1).2.2.2
  obtain ⟨N1, N0⟩ := N
  rw [show (cosineR cosR sinR u1 u2).z = √((cosineR cosR sinR u1 u2).z ^ 2) from (Real.sqrt_sq N0).symm]
  refine (sqrt_sub (d := 2 ^ (-23 : ℤ)) (sq_nonneg _) (sq_nonneg _) (by positivity) ?_).trans (by norm_num)
  have sz := sq_sub z1 w1 zn
  simp only [NearlyUnit] at U N1
  have ex : (cosineR cosR sinR u1 u2).x = (sphereR cosR sinR u1 u2).x := rfl
  have ey : (cosineR cosR sinR u1 u2).y = (sphereR cosR sinR u1 u2).y := rfl
  have ez : (sphereR cosR sinR u1 u2).z = double (1 - double (2 * u1)) := rfl
  rw [ex, ey] at N1
  rw [ez] at U
  have E : ((2 : ℝ) ^ (-23 : ℤ)) ^ 2 = 64 * 2 ^ (-52 : ℤ) := by norm_num
  have E' : (2 : ℝ) ^ (-48 : ℤ) = 16 * 2 ^ (-52 : ℤ) := by norm_num
  rw [E]
  rw [E'] at U N1
  generalize (2 : ℝ) ^ (-52 : ℤ) = e at *
  rw [abs_le] at sz U N1 ⊢
  exact ⟨by linarith, by linarith⟩

/-- … sampled points of the disc are in it up to `2^-49` … -/
theorem C195_disc (h : Trig cosR sinR) (u1 u2 : ℝ) (a0 : 0 ≤ u1) (a1 : u1 ≤ 1) (b0 : 0 ≤ u2) (b1 : u2 ≤ 1) :
    ((diskR cosR sinR u1 u2).1 ^ 2 + (diskR cosR sinR u1 u2).2 ^ 2 ≤ 1 + 2 ^ (-49 : ℤ) ∧
      |(diskR cosR sinR u1 u2).1 - (MC.disk u1 u2).1| ≤ 2 ^ (-45 : ℤ) ∧ |(diskR cosR sinR u1 u2).2 - (MC.disk u1 u2).2| ≤ 2 ^ (-45 : ℤ)) ∧
    (concentricR cosR sinR u1 u2).1 ^ 2 + (concentricR cosR sinR u1 u2).2 ^ 2 ≤ 1 + 2 ^ (-49 : ℤ) := by
  have E : (2 : ℝ) ^ (-49 : ℤ) = 8 * 2 ^ (-52 : ℤ) := by norm_num
  constructor
  · obtain ⟨r0, r1, n, -⟩ := root_near a0 a1
    have hr : |double (√u1)| ≤ 1 := by rwa [abs_of_nonneg r0]
    obtain ⟨-, -, c⟩ := circle h hr (turnR u2)
    obtain ⟨p1, p2⟩ := coords h hr (by rw [abs_of_nonneg (Real.sqrt_nonneg _)]; exact sqrt_le_one' a1) n (turn_near b0 b1)
    have up : (2 : ℝ) ^ (-52 : ℤ) + 2 ^ (-46 : ℤ) ≤ 2 ^ (-45 : ℤ) := by norm_num
    have rr := pow_le_one₀ (n := 2) r0 r1
    exact ⟨by simp only [diskR]; rw [E]; linarith [(abs_le.1 c).2], p1.trans up, p2.trans up⟩
  · have s : ∀ u : ℝ, 0 ≤ u → u ≤ 1 → |double (double (2 * u) - 1)| ≤ 1 := fun u h0 h1 => by
      have w0 : 0 ≤ double (2 * u) := d_nonneg (by linarith)
      have w2 : double (2 * u) ≤ 2 := by
        have := double_mono (show 2 * u ≤ 2 by linarith)
        rwa [show double (2 : ℝ) = 2 from double_of_isDouble ⟨2, 0, by norm_num, by norm_num, by simp⟩] at this
      exact d_abs (abs_le.2 ⟨by linarith, by linarith⟩)
    have sx := s u1 a0 a1
    have sy := s u2 b0 b1
    have hr : |(concentricPolarR u1 u2).1| ≤ 1 := by
      simp only [concentricPolarR]
      split_ifs <;> first | exact sx | exact sy | (rw [abs_neg]; exact sx) | (rw [abs_neg]; exact sy)
    simp only [concentricR]
    split_ifs
    · norm_num
    · obtain ⟨-, -, c⟩ := circle h hr (concentricPolarR u1 u2).2
      have rr := (sq_le_one_iff_abs_le_one _).2 hr
      rw [E]
      linarith [(abs_le.1 c).2]

theorem quarter_near : |double (npPi / 4) - Real.pi / 4| ≤ 2 ^ (-50 : ℤ) ∧ 0 ≤ double (npPi / 4) ∧ double (npPi / 4) ≤ 13 / 16 := by
  obtain ⟨t1, t2, t3⟩ := npPi_close
  have n := near (x := npPi / 4) (by rw [abs_of_nonneg (by linarith)]; linarith)
  refine ⟨?_, d_nonneg (by linarith), ?_⟩
  · rw [uu_eq] at t1
    rw [abs_le] at n t1 ⊢
    norm_num at n t1 ⊢
    exact ⟨by linarith, by linarith⟩
  · have := double_mono (show npPi / 4 ≤ 13 / 16 by linarith)
    rwa [show double (13 / 16 : ℝ) = 13 / 16 from double_of_isDouble ⟨13, -4, by norm_num, by norm_num, by norm_num⟩] at this

/-- the angle from the position in the square: quotients are rounded, whole turns added, the unit changed -/
theorem eighth_near {t T : ℝ} (hT : |T| ≤ 8) (h : |t - T| ≤ 2 ^ (-48 : ℤ)) : |double (t * double (npPi / 4)) - T * (Real.pi / 4)| ≤ 2 ^ (-45 : ℤ) := by
  obtain ⟨k1, k2, k3⟩ := quarter_near
  have ht : |t| ≤ 9 := by
    have := abs_sub_abs_le_abs_sub t T
    norm_num at h
    linarith
  have tk : |t * double (npPi / 4)| ≤ 15 / 2 := by
    rw [abs_mul, abs_of_nonneg k2]
    nlinarith [abs_nonneg t]
  have n := near8 tk
  have e1 : |(t - T) * double (npPi / 4)| ≤ 2 ^ (-48 : ℤ) := by
    rw [abs_mul, abs_of_nonneg k2]
    exact (mul_le_of_le_one_right (abs_nonneg _) (by linarith)).trans h
  have e2 : |T * (double (npPi / 4) - Real.pi / 4)| ≤ 8 * 2 ^ (-50 : ℤ) := by
    rw [abs_mul]; exact mul_le_mul hT k1 (abs_nonneg _) (by norm_num)
  rw [abs_le] at n e1 e2 ⊢
  norm_num at n e1 e2 ⊢
  exact ⟨by linarith, by linarith⟩

theorem near16 {x : ℝ} (h : |x| ≤ 15) : |double x - x| ≤ 2 ^ (-49 : ℤ) := by
  have := double_err x
  have t := tiny
  generalize (2 : ℝ) ^ (-1075 : ℤ) = η at *
  norm_num at this t ⊢
  linarith

theorem quot_abs {a b : ℝ} (h : |a| ≤ |b|) : |a / b| ≤ 1 := by rw [abs_div]; exact div_le_one_of_le₀ h (abs_nonneg _)

theorem two_v {s : ℝ} : 2 * ((s + 1) / 2) - 1 = s := by ring

/-- the concentric map, from the rounded position in the square -/
theorem concentric_polar (u1 u2 : ℝ) (h0 : ¬ (double (double (2 * u1) - 1) = 0 ∧ double (double (2 * u2) - 1) = 0)) :
    ∃ θ, MC.concentricPolar ((double (double (2 * u1) - 1) + 1) / 2) ((double (double (2 * u2) - 1) + 1) / 2) = some ((concentricPolarR u1 u2).1, θ) ∧ |(concentricPolarR u1 u2).2 - θ| ≤ 2 ^ (-45 : ℤ) := by
  simp only [MC.concentricPolar, concentricPolarR]
  rw [two_v, two_v]
  generalize double (double (2 * u1) - 1) = sx at *
  generalize double (double (2 * u2) - 1) = sy at *
  rw [if_neg h0]
  have e52 : ∀ a b : ℝ, |a| ≤ |b| → |double (a / b) - a / b| ≤ 2 ^ (-52 : ℤ) ∧ |double (a / b)| ≤ 1 ∧ |a / b| ≤ 1 := fun a b h => ⟨near ((quot_abs h).trans (by norm_num)), d_abs (quot_abs h), quot_abs h⟩
  by_cases c1 : sx > -sy
  · rw [if_pos c1, if_pos c1]
    by_cases c2 : sx > sy
    · rw [if_pos c2, if_pos c2]
      have p : 0 < sx := by linarith
      obtain ⟨q1, q2, q3⟩ := e52 sy sx (by rw [abs_of_pos p]; exact abs_le.2 ⟨by linarith, c2.le⟩)
      rw [MC.qdiv, if_neg p.ne', Option.map_some, Option.map_some]
      refine ⟨_, rfl, ?_⟩
      obtain ⟨l1, l2⟩ := abs_le.1 q2
      obtain ⟨l3, l4⟩ := abs_le.1 q3
      simp only
      by_cases c3 : sy ≤ 0
      · rw [if_pos c3, if_pos c3]
        have nq : sy / sx ≤ 0 := div_nonpos_of_nonpos_of_nonneg c3 p.le
        refine eighth_near (abs_le.2 ⟨by linarith, by linarith⟩) ?_
        have n := near16 (x := double (sy / sx) + 8) (abs_le.2 ⟨by linarith, by linarith⟩)
        rw [abs_le] at n q1 ⊢
        norm_num at n q1 ⊢
        exact ⟨by linarith, by linarith⟩
      · rw [if_neg c3, if_neg c3]
        exact eighth_near (by linarith) (q1.trans (by norm_num))
    · rw [if_neg c2, if_neg c2]
      push Not at c2
      have p : 0 < sy := by linarith
      obtain ⟨q1, q2, q3⟩ := e52 sx sy (by rw [abs_of_pos p]; exact abs_le.2 ⟨by linarith, c2⟩)
      rw [MC.qdiv, if_neg p.ne', Option.map_some, Option.map_some]
      refine ⟨_, rfl, ?_⟩
      obtain ⟨l1, l2⟩ := abs_le.1 q2
      obtain ⟨l3, l4⟩ := abs_le.1 q3
      refine eighth_near (abs_le.2 ⟨by linarith, by linarith⟩) ?_
      have n := near16 (x := 2 - double (sx / sy)) (abs_le.2 ⟨by linarith, by linarith⟩)
      rw [abs_le] at n q1 ⊢
      norm_num at n q1 ⊢
      exact ⟨by linarith, by linarith⟩
  · rw [if_neg c1, if_neg c1]
    push Not at c1
    by_cases c2 : sx > sy
    · rw [if_pos c2, if_pos c2]
      have p : sy < 0 := by linarith
      obtain ⟨q1, q2, q3⟩ := e52 sx sy (by rw [abs_of_neg p]; exact abs_le.2 ⟨by linarith, by linarith⟩)
      rw [MC.qdiv, if_neg p.ne, Option.map_some, Option.map_some]
      refine ⟨_, rfl, ?_⟩
      obtain ⟨l1, l2⟩ := abs_le.1 q2
      obtain ⟨l3, l4⟩ := abs_le.1 q3
      refine eighth_near (abs_le.2 ⟨by linarith, by linarith⟩) ?_
      have n := near16 (x := 6 + double (sx / sy)) (abs_le.2 ⟨by linarith, by linarith⟩)
      rw [abs_le] at n q1 ⊢
      norm_num at n q1 ⊢
      exact ⟨by linarith, by linarith⟩
    · rw [if_neg c2, if_neg c2]
      push Not at c2
      have p : sx < 0 := by
        rcases lt_or_ge sx 0 with h | h
        · exact h
        · exact absurd ⟨by linarith, by linarith⟩ h0
      obtain ⟨q1, q2, q3⟩ := e52 sy sx (by rw [abs_of_neg p]; exact abs_le.2 ⟨by linarith, by linarith⟩)
      rw [MC.qdiv, if_neg p.ne, Option.map_some, Option.map_some]
      refine ⟨_, rfl, ?_⟩
      obtain ⟨l1, l2⟩ := abs_le.1 q2
      obtain ⟨l3, l4⟩ := abs_le.1 q3
      refine eighth_near (abs_le.2 ⟨by linarith, by linarith⟩) ?_
      have n := near16 (x := 4 - double (sy / sx)) (abs_le.2 ⟨by linarith, by linarith⟩)
      rw [abs_le] at n q1 ⊢
      norm_num at n q1 ⊢
      exact ⟨by linarith, by linarith⟩

/-- … those of the concentric map are its exact values, up to `2^-44`, for random numbers within `2^-49` of the given ones … -/
theorem C195_concentric (h : Trig cosR sinR) (u1 u2 : ℝ) (a0 : 0 ≤ u1) (a1 : u1 ≤ 1) (b0 : 0 ≤ u2) (b1 : u2 ≤ 1) :
    ∃ v1 v2 p, 0 ≤ v1 ∧ v1 ≤ 1 ∧ 0 ≤ v2 ∧ v2 ≤ 1 ∧ |v1 - u1| ≤ 2 ^ (-49 : ℤ) ∧ |v2 - u2| ≤ 2 ^ (-49 : ℤ) ∧ MC.concentric v1 v2 = some p ∧
      |(concentricR cosR sinR u1 u2).1 - p.1| ≤ 2 ^ (-44 : ℤ) ∧ |(concentricR cosR sinR u1 u2).2 - p.2| ≤ 2 ^ (-44 : ℤ) := by
  have s : ∀ u : ℝ, 0 ≤ u → u ≤ 1 → |double (double (2 * u) - 1)| ≤ 1 ∧ |(double (double (2 * u) - 1) + 1) / 2 - u| ≤ 2 ^ (-49 : ℤ) := fun u h0 h1 => by
    obtain ⟨k1, k2⟩ := sphere_z h0 h1
    have e : double (double (2 * u) - 1) = -double (1 - double (2 * u)) := by rw [← double_neg]; congr 1; ring
    rw [e, abs_neg]
    refine ⟨k1, ?_⟩
    rw [abs_le] at k2 ⊢
    norm_num at k2 ⊢
    exact ⟨by linarith, by linarith⟩
  obtain ⟨sx, nx⟩ := s u1 a0 a1
  obtain ⟨sy, ny⟩ := s u2 b0 b1
  obtain ⟨x0, x1⟩ := abs_le.1 sx
  obtain ⟨y0, y1⟩ := abs_le.1 sy
  have hr : |(concentricPolarR u1 u2).1| ≤ 1 := by
    simp only [concentricPolarR]
    split_ifs <;> first | exact sx | exact sy | (rw [abs_neg]; exact sx) | (rw [abs_neg]; exact sy)
  by_cases h0 : double (double (2 * u1) - 1) = 0 ∧ double (double (2 * u2) - 1) = 0
  · refine ⟨(double (double (2 * u1) - 1) + 1) / 2, (double (double (2 * u2) - 1) + 1) / 2, (0, 0), by linarith, by linarith, by linarith, by linarith, nx, ny, ?_, ?_, ?_⟩
    · simp only [MC.concentric, MC.concentricPolar]
      rw [two_v, two_v, if_pos h0]
      simp
    · simp only [concentricR]; rw [if_pos h0, sub_self, abs_zero]; positivity
    · simp only [concentricR]; rw [if_pos h0, sub_self, abs_zero]; positivity
  · obtain ⟨θ, e, n⟩ := concentric_polar u1 u2 h0
    refine ⟨(double (double (2 * u1) - 1) + 1) / 2, (double (double (2 * u2) - 1) + 1) / 2, ((concentricPolarR u1 u2).1 * Real.cos θ, (concentricPolarR u1 u2).1 * Real.sin θ),
      by linarith, by linarith, by linarith, by linarith, nx, ny, ?_, ?_, ?_⟩
    · rw [MC.concentric, e]; rfl
    all_goals
      simp only [concentricR]
      rw [if_neg h0]
      generalize concentricPolarR u1 u2 = p at *
      have key : ∀ c C : ℝ, |c| ≤ 1 → |c - C| ≤ 2 ^ (-52 : ℤ) + |p.2 - θ| → |double (p.1 * c) - p.1 * C| ≤ 2 ^ (-44 : ℤ) := fun c C hc hcC => by
        have n1 := near ((mul_le_one' hr hc).trans (by norm_num))
        have k := mul_near hc hr (show |p.1 - p.1| ≤ 0 by simp) hcC
        have t := abs_sub_le (double (p.1 * c)) (p.1 * c) (p.1 * C)
        norm_num at n n1 k ⊢
        linarith
    · exact key _ _ (h.cos_le _) (cos_at h _ _)
    · exact key _ _ (h.sin_le _) (sin_at h _ _)

/-- … sampled barycentric coordinates are those of a point of the triangle, their sum being at most 1 up to `2^-52` … -/
theorem C195_triangle (u1 u2 : ℝ) (a0 : 0 ≤ u1) (a1 : u1 ≤ 1) (b0 : 0 ≤ u2) (b1 : u2 ≤ 1) :
    0 ≤ (triangleR u1 u2).1 ∧ 0 ≤ (triangleR u1 u2).2 ∧ (triangleR u1 u2).1 + (triangleR u1 u2).2 ≤ 1 + 2 ^ (-52 : ℤ) ∧
    |(triangleR u1 u2).1 - (MC.triangle u1 u2).1| ≤ 2 ^ (-51 : ℤ) ∧ |(triangleR u1 u2).2 - (MC.triangle u1 u2).2| ≤ 2 ^ (-51 : ℤ) := by
  obtain ⟨r0, r1, n, -⟩ := root_near a0 a1
  have id : double (double (√u1)) = double (√u1) := double_of_isDouble (isDouble_double _)
  have le : double (u2 * double (√u1)) ≤ double (√u1) := by
    have := double_mono (show u2 * double (√u1) ≤ double (√u1) from mul_le_of_le_one_left r0 b1)
    rwa [id] at this
  simp only [triangleR, MC.triangle]
  have p0 : 0 ≤ u2 * double (√u1) := mul_nonneg b0 r0
  have n1 : |double (1 - double (√u1)) - (1 - double (√u1))| ≤ 2 ^ (-52 : ℤ) := near (by rw [abs_of_nonneg (by linarith)]; linarith)
  have n2 : |double (u2 * double (√u1)) - u2 * double (√u1)| ≤ 2 ^ (-52 : ℤ) := near (by rw [abs_of_nonneg p0]; nlinarith)
  have n3 : |u2 * double (√u1) - u2 * √u1| ≤ 2 ^ (-52 : ℤ) := by
    rw [← mul_sub, abs_mul, abs_of_nonneg b0]
    exact (mul_le_of_le_one_left (abs_nonneg _) b1).trans n
  refine ⟨d_nonneg (by linarith), d_nonneg p0, ?_, ?_, ?_⟩
  · linarith [(abs_le.1 n1).2]
  · rw [show (2 : ℝ) ^ (-51 : ℤ) = 2 * 2 ^ (-52 : ℤ) by norm_num]
    rw [abs_le] at n n1 ⊢
    exact ⟨by linarith, by linarith⟩
  · rw [show (2 : ℝ) ^ (-51 : ℤ) = 2 * 2 ^ (-52 : ℤ) by norm_num]
    rw [abs_le] at n2 n3 ⊢
    exact ⟨by linarith, by linarith⟩

/-! ### Cones -/

/-- `1 - t` rounded, plus `t`, rounded: not more than 1 -/
theorem lerp_le_one {t d : ℝ} (t0 : 0 ≤ t) (t1 : t ≤ 1) (hd : d ≤ double (1 - t)) : double (d + t) ≤ 1 := by
  have d1 : double (1 - t) ≤ 1 := d_le_one (by linarith)
  have lt : d + t < 1 + 2 ^ (-53 : ℤ) := by
    have er := (abs_le.1 (double_err (1 - t))).2
    rw [abs_of_nonneg (by linarith)] at er
    have tn : (2 : ℝ) ^ (-1075 : ℤ) ≤ 2 ^ (-200 : ℤ) := zpow_le_zpow_right₀ (by norm_num) (by norm_num)
    generalize (2 : ℝ) ^ (-1075 : ℤ) = η at *
    rcases le_or_gt t (2 ^ (-54 : ℤ)) with h | h
    · norm_num at h ⊢; linarith
    · norm_num at h er tn ⊢; linarith
  rcases le_or_gt (d + t) 1 with h | h
  · exact d_le_one h
  · rw [double_eq (x := d + t) (2 ^ 52) (-52) (by norm_num) (Or.inl ?_) (by norm_num; linarith) (by norm_num at lt ⊢; linarith)]
    · norm_num
    · norm_num at lt ⊢
      exact abs_lt.2 ⟨by linarith, by linarith⟩

theorem coneCos_range {u1 ctMax : ℝ} (hu : IsDouble u1) (a0 : 0 ≤ u1) (a1 : u1 ≤ 1) (hc : |ctMax| ≤ 1) :
    |coneCosR u1 ctMax| ≤ 1 ∧ |coneCosR u1 ctMax - ((1 - u1) * ctMax + u1 * 1)| ≤ 6 * 2 ^ (-52 : ℤ) := by
  simp only [coneCosR]
  rw [mul_one, double_of_isDouble hu]
  obtain ⟨c1, c2⟩ := abs_le.1 hc
  have w0 : 0 ≤ double (1 - u1) := d_nonneg (by linarith)
  have w1 : double (1 - u1) ≤ 1 := d_le_one (by linarith)
  have id : double (double (1 - u1)) = double (1 - u1) := double_of_isDouble (isDouble_double _)
  have hi : double (double (1 - u1) * ctMax) ≤ double (1 - u1) := by
    have := double_mono (show double (1 - u1) * ctMax ≤ double (1 - u1) from mul_le_of_le_one_right w0 c2)
    rwa [id] at this
  have wc : |double (1 - u1) * ctMax| ≤ 1 := mul_le_one' (by rwa [abs_of_nonneg w0]) hc
  have lo : -1 ≤ double (double (1 - u1) * ctMax) := (abs_le.1 (d_abs wc)).1
  have hi1 : double (double (1 - u1) * ctMax) ≤ 1 := hi.trans w1
  constructor
  · refine abs_le.2 ⟨?_, lerp_le_one a0 a1 hi⟩
    have := double_mono (show -1 ≤ double (double (1 - u1) * ctMax) + u1 by linarith)
    rwa [double_neg, d_one] at this
  · have n1 : |double (1 - u1) - (1 - u1)| ≤ 2 ^ (-52 : ℤ) := near (by rw [abs_of_nonneg (by linarith)]; linarith)
    have n2 : |double (double (1 - u1) * ctMax) - double (1 - u1) * ctMax| ≤ 2 ^ (-52 : ℤ) := near (wc.trans (by norm_num))
    have n3 : |double (double (double (1 - u1) * ctMax) + u1) - (double (double (1 - u1) * ctMax) + u1)| ≤ 2 ^ (-50 : ℤ) := near8 (abs_le.2 ⟨by linarith, by linarith⟩)
    have n4 : |double (1 - u1) * ctMax - (1 - u1) * ctMax| ≤ 2 ^ (-52 : ℤ) := by
      rw [← sub_mul, abs_mul]
      exact (mul_le_of_le_one_right (abs_nonneg _) hc).trans n1
    rw [show (2 : ℝ) ^ (-50 : ℤ) = 4 * 2 ^ (-52 : ℤ) by norm_num] at n3
    rw [abs_le] at n2 n3 n4 ⊢
    exact ⟨by linarith, by linarith⟩

theorem conePhi_near {u2 : ℝ} (h0 : 0 ≤ u2) (h1 : u2 ≤ 1) : |double (double (u2 * 2) * npPi) - u2 * 2 * Real.pi| ≤ 2 ^ (-47 : ℤ) := by
  obtain ⟨t1, t2, t3⟩ := npPi_close
  have n1 : |double (u2 * 2) - u2 * 2| ≤ 2 ^ (-50 : ℤ) := near8 (by rw [abs_of_nonneg (by linarith)]; linarith)
  have w0 : 0 ≤ double (u2 * 2) := d_nonneg (by linarith)
  have w2 : double (u2 * 2) ≤ 2 := by
    have := double_mono (show u2 * 2 ≤ 2 by linarith)
    rwa [show double (2 : ℝ) = 2 from double_of_isDouble ⟨2, 0, by norm_num, by norm_num, by simp⟩] at this
  have n2 : |double (double (u2 * 2) * npPi) - double (u2 * 2) * npPi| ≤ 2 ^ (-50 : ℤ) := near8 (by rw [abs_of_nonneg (by positivity)]; nlinarith)
  have n3 : |(double (u2 * 2) - u2 * 2) * npPi| ≤ 2 ^ (-50 : ℤ) * (13 / 4) := by
    rw [abs_mul, abs_of_nonneg (show 0 ≤ npPi by linarith)]
    exact mul_le_mul n1 t3 (by linarith) (by positivity)
  have n4 : |u2 * 2 * (npPi - Real.pi)| ≤ 2 * (4 * uu) := by
    rw [abs_mul, abs_of_nonneg (show 0 ≤ u2 * 2 by linarith)]
    exact mul_le_mul (by linarith) t1 (abs_nonneg _) (by norm_num)
  rw [uu_eq] at n4
  rw [abs_le] at n2 n3 n4 ⊢
  norm_num at n2 n3 n4 ⊢
  exact ⟨by linarith, by linarith⟩

/-- one coordinate of the combination -/
theorem combine {a b c A B C x y z d : ℝ} (ha : |a| ≤ 1) (hb : |b| ≤ 1) (hc : |c| ≤ 1) (hx : |x| ≤ 1) (hy : |y| ≤ 1) (hz : |z| ≤ 1)
    (na : |a - A| ≤ d) (nb : |b - B| ≤ d) (nc : |c - C| ≤ d) :
    |double (double (double (a * x) + double (b * y)) + double (c * z)) - (A * x + B * y + C * z)| ≤ 3 * d + 2 ^ (-48 : ℤ) := by
  have ax := mul_le_one' ha hx
  have b_y := mul_le_one' hb hy
  have cz := mul_le_one' hc hz
  have dax := d_abs ax
  have dby := d_abs b_y
  have dcz := d_abs cz
  have n1 := near (ax.trans (by norm_num))
  have n2 := near (b_y.trans (by norm_num))
  have n3 := near (cz.trans (by norm_num))
  have s1 : |double (a * x) + double (b * y)| ≤ 2 := (abs_add_le _ _).trans (by linarith)
  have n4 := near8 (s1.trans (by norm_num))
  have s1' : |double (double (a * x) + double (b * y))| ≤ 3 := by
    have := abs_sub_abs_le_abs_sub (double (double (a * x) + double (b * y))) (double (a * x) + double (b * y))
    norm_num at n4
    linarith
  have s2 : |double (double (a * x) + double (b * y)) + double (c * z)| ≤ 4 := (abs_add_le _ _).trans (by linarith)
  have n5 := near8 (s2.trans (by norm_num))
  have m : ∀ p P w : ℝ, |w| ≤ 1 → |p - P| ≤ d → |p * w - P * w| ≤ d := fun p P w hw hp => by
    rw [← sub_mul, abs_mul]; exact (mul_le_of_le_one_right (abs_nonneg _) hw).trans hp
  have k1 := m a A x hx na
  have k2 := m b B y hy nb
  have k3 := m c C z hz nc
  generalize double (double (double (a * x) + double (b * y)) + double (c * z)) = t at *
  generalize double (double (a * x) + double (b * y)) = s at *
  generalize double (a * x) = p at *
  generalize double (b * y) = q at *
  generalize double (c * z) = r at *
  rw [abs_le] at n1 n2 n3 n4 n5 k1 k2 k3 ⊢
  norm_num at n1 n2 n3 n4 n5 ⊢
  exact ⟨by linarith, by linarith⟩

/-- … and directions sampled in a cone never involve the square root of a negative number, and are those of the exact formula up to `2^-21` in each coordinate. -/
theorem C195_cone (h : Trig cosR sinR) (u1 u2 ctMax : ℝ) (hu : IsDouble u1) (a0 : 0 ≤ u1) (a1 : u1 ≤ 1) (b0 : 0 ≤ u2) (b1 : u2 ≤ 1) (hc : |ctMax| ≤ 1) (x y z : V3 ℝ)
    (hx : ∀ i, |x.get i| ≤ 1) (hy : ∀ i, |y.get i| ≤ 1) (hz : ∀ i, |z.get i| ≤ 1) :
    ∃ v w, coneR cosR sinR u1 u2 ctMax x y z = some v ∧ MC.cone u1 u2 ctMax (some (x, y, z)) = some w ∧ Within (2 ^ (-21 : ℤ)) v w := by
  obtain ⟨c1, cn⟩ := coneCos_range hu a0 a1 hc
  have C1 : |(1 - u1) * ctMax + u1 * 1| ≤ 1 := by
    obtain ⟨l, r⟩ := abs_le.1 hc
    exact abs_le.2 ⟨by nlinarith, by nlinarith⟩
  obtain ⟨m0, m1, mn⟩ := ring_near c1
  obtain ⟨s0, s1, sn, -⟩ := root_near m0 m1
  have C0 : 0 ≤ 1 - ((1 - u1) * ctMax + u1 * 1) ^ 2 := by have := (sq_le_one_iff_abs_le_one _).2 C1; linarith
  have st : |double (√(double (1 - double (coneCosR u1 ctMax * coneCosR u1 ctMax)))) - √(1 - ((1 - u1) * ctMax + u1 * 1) ^ 2)| ≤ 2 ^ (-24 : ℤ) + 2 ^ (-52 : ℤ) := by
    have q := sq_sub c1 C1 cn
    have := sqrt_sub m0 C0 (show (0 : ℝ) ≤ 2 ^ (-24 : ℤ) by positivity) (by
      have E : ((2 : ℝ) ^ (-24 : ℤ)) ^ 2 = 16 * 2 ^ (-52 : ℤ) := by norm_num
      rw [E]
      generalize (2 : ℝ) ^ (-52 : ℤ) = e at *
      rw [abs_le] at mn q ⊢
      exact ⟨by linarith, by linarith⟩)
    have t := abs_sub_le (double (√(double (1 - double (coneCosR u1 ctMax * coneCosR u1 ctMax))))) (√(double (1 - double (coneCosR u1 ctMax * coneCosR u1 ctMax)))) (√(1 - ((1 - u1) * ctMax + u1 * 1) ^ 2))
    linarith
  have S1 : |√(1 - ((1 - u1) * ctMax + u1 * 1) ^ 2)| ≤ 1 := sqrt_abs_one
  have hs : |double (√(double (1 - double (coneCosR u1 ctMax * coneCosR u1 ctMax))))| ≤ 1 := by rwa [abs_of_nonneg s0]
  obtain ⟨p1, p2⟩ := coords h hs S1 st (conePhi_near b0 b1)
  obtain ⟨q1, q2, -⟩ := circle h hs (double (double (u2 * 2) * npPi))
  have up : (2 : ℝ) ^ (-24 : ℤ) + 2 ^ (-52 : ℤ) + 2 ^ (-46 : ℤ) ≤ 2 ^ (-23 : ℤ) := by norm_num
  have P1 := p1.trans up
  have P2 := p2.trans up
  have P3 : |coneCosR u1 ctMax - ((1 - u1) * ctMax + u1 * 1)| ≤ 2 ^ (-23 : ℤ) := cn.trans (by norm_num)
  simp only [coneR, MC.cone, sqrtR]
  rw [if_neg (not_lt.2 m0)]
  refine ⟨_, _, rfl, rfl, ?_⟩
  rw [← sq ((1 - u1) * ctMax + u1 * 1)]
  rw [mul_comm (cosR _), mul_comm (sinR _), mul_comm (Real.cos _), mul_comm (Real.sin _)]
  have up2 : 3 * (2 : ℝ) ^ (-23 : ℤ) + 2 ^ (-48 : ℤ) ≤ 2 ^ (-21 : ℤ) := by norm_num
  exact ⟨(combine q1 q2 c1 (hx 0) (hy 0) (hz 0) P1 P2 P3).trans up2, (combine q1 q2 c1 (hx 1) (hy 1) (hz 1) P1 P2 P3).trans up2,
    (combine q1 q2 c1 (hx 2) (hy 2) (hz 2) P1 P2 P3).trans up2⟩

end

/-! ### Concrete cases -/

/-- the correctly rounded functions are a case of `Trig` -/
theorem trig_round : Trig (fun x => double (Real.cos x)) (fun x => double (Real.sin x)) :=
  ⟨fun x => d_abs (Real.abs_cos_le_one x), fun x => d_abs (Real.abs_sin_le_one x), fun x => near ((Real.abs_cos_le_one x).trans (by norm_num)), fun x => near ((Real.abs_sin_le_one x).trans (by norm_num))⟩

/-- a direction in the cone of 60 degrees about the third axis -/
example : ∃ v w, coneR (fun x => double (Real.cos x)) (fun x => double (Real.sin x)) (3 / 4) (1 / 8) (1 / 2) ⟨1, 0, 0⟩ ⟨0, 1, 0⟩ ⟨0, 0, 1⟩ = some v ∧
    MC.cone (3 / 4) (1 / 8) (1 / 2) (some (⟨1, 0, 0⟩, ⟨0, 1, 0⟩, ⟨0, 0, 1⟩)) = some w ∧ Within (2 ^ (-21 : ℤ)) v w := by
  refine C195_cone trig_round (3 / 4) (1 / 8) (1 / 2) ⟨3, -2, by norm_num, by norm_num, by norm_num⟩ (by norm_num) (by norm_num) (by norm_num) (by norm_num) (by norm_num [abs_of_pos]) _ _ _ ?_ ?_ ?_ <;>
    (intro i; fin_cases i <;> simp [V3.get])

end Verif.MCR
