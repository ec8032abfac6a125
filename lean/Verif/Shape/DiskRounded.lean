import Verif.Shape.Disk
import Verif.Xform.Rounded
import Verif.Light.ShadowRounded
import Mathlib.Analysis.Real.Pi.Bounds

/-!
# Disks in rounded arithmetic (C190)

`Disk.intersect` and `Disk.intersect_p` (`pytracer/shape/disk.py` 58-91 and 114-142) with every operation rounded to binary64, the ray being transformed by `self.w2o` with every order of
summation in `numpy.dot`.  `np.arctan2` is a function that is correct up to `2^-50`, up to full turns (so that signed zeros do not matter).
-/

namespace Verif.DiskR
open V3 Verif.Rnd Verif.XformR Verif.Shape
open Verif.Xform (Transform M4 homog)
open Verif.ShadowR (EPS)

/-! ### Model -/

/-- `np.pi` -/
noncomputable def npPi : ℝ := double Real.pi

/-- `2. * np.pi`, also `np.deg2rad(360.)` -/
noncomputable def twoPi : ℝ := double (2 * npPi)

/-- disk.py 86-88 and 132-134 -/
noncomputable def angleR (at2 : ℝ → ℝ → ℝ) (p : V3 ℝ) : ℝ :=
  let phi := at2 p.y p.x
  if phi < 0 then double (phi + twoPi) else phi

/-- disk.py 69-91 with every operation rounded, the ray being in object space: the hit parameter and the position -/
noncomputable def hitObjR (at2 : ℝ → ℝ → ℝ) (s : Disk) (ray : Shape.Ray ℝ) : Option (ℝ × V3 ℝ) :=
  if |ray.d.z| < EPS then none else
  let thit := double (double (s.height - ray.o.z) / ray.d.z)
  if thit < ray.mint ∨ (thit : WithTop ℝ) > ray.maxt then none else
  let phit := atR ray.o ray.d thit
  let dt2 := double (double (phit.x * phit.x) + double (phit.y * phit.y))
  if dt2 > double (s.radius * s.radius) ∨ dt2 < double (s.inner * s.inner) then none else
  if angleR at2 phit > s.phiMax then none else some (thit, phit)

/-- disk.py 117-142 -/
noncomputable def hitObjPR (at2 : ℝ → ℝ → ℝ) (s : Disk) (ray : Shape.Ray ℝ) : Bool :=
  if |ray.d.z| < EPS then false else
  let thit := double (double (s.height - ray.o.z) / ray.d.z)
  if thit < ray.mint ∨ (thit : WithTop ℝ) > ray.maxt then false else
  let phit := atR ray.o ray.d thit
  let dt2 := double (double (phit.x * phit.x) + double (phit.y * phit.y))
  if dt2 > double (s.radius * s.radius) ∨ dt2 < double (s.inner * s.inner) then false else
  if angleR at2 phit > s.phiMax then false else true

/-- `ray = self.w2o(r)` may be `q` (`transform/__init__.py` 77-81) -/
def RayR (w2o : Transform ℝ) (r q : Shape.Ray ℝ) : Prop := PtR w2o r.o q.o ∧ VecR w2o r.d q.d ∧ q.mint = r.mint ∧ q.maxt = r.maxt

/-! ### Specification -/

/-- `np.arctan2`: between `-np.pi` and `np.pi`, and the angle of the point up to `2^-50` and full turns -/
def Arctan2 (at2 : ℝ → ℝ → ℝ) : Prop :=
  ∀ x y, |at2 y x| ≤ npPi ∧ ∃ k : ℤ, |at2 y x - (Complex.arg ⟨x, y⟩ + k * (2 * Real.pi))| ≤ 2 ^ (-50 : ℤ)

/-- the distance from the axis of the disk -/
noncomputable def axisDist (p : V3 ℝ) : ℝ := Real.sqrt (p.x ^ 2 + p.y ^ 2)

/-- the ray crosses the plane of the disk at the parameter `t`, not too flatly; `σ` and `δ` are large enough to hold the rounding errors of the parameter and of the position -/
structure Crosses (s : Disk) (w2o : Transform ℝ) (r : Shape.Ray ℝ) (t σ δ : ℝ) : Prop where
  plane : (w2o.pt (r.pos t)).z = s.height
  steep : EPS + 2 ^ (-50 : ℤ) * sizeVec w2o.m r.d 2 ≤ |(w2o.vec r.d).z|
  sharp : 2 ^ (-48 : ℤ) * sizeVec w2o.m r.d 2 ≤ |(w2o.vec r.d).z|
  time : 2 ^ (-49 : ℤ) * ((size w2o.m r.o 2 + |t| * sizeVec w2o.m r.d 2) / |(w2o.vec r.d).z|) + 2 ^ (-51 : ℤ) * |t| + 2 ^ (-1050 : ℤ) ≤ σ
  place : ∀ i : Fin 3, 2 * sizeVec w2o.m r.d i.castSucc * σ + 2 ^ (-49 : ℤ) * (size w2o.m r.o i.castSucc + |t| * sizeVec w2o.m r.d i.castSucc) + 2 ^ (-500 : ℤ) ≤ δ

/-- `p` has the angle `θ` about the axis, clear of the cut at 0 by the margin that belongs to `δ` -/
structure HasAngle (p : V3 ℝ) (δ θ : ℝ) : Prop where
  x : p.x = axisDist p * Real.cos θ
  y : p.y = axisDist p * Real.sin θ
  far : 8 * δ ≤ axisDist p
  low : 8 * δ / axisDist p + 2 ^ (-46 : ℤ) ≤ θ
  high : θ + (8 * δ / axisDist p + 2 ^ (-46 : ℤ)) ≤ 2 * Real.pi

/-- `p` is in the ring by a margin that belongs to `δ` -/
structure Inside (s : Disk) (p : V3 ℝ) (δ : ℝ) : Prop where
  outer : axisDist p + (3 * δ + 2 ^ (-50 : ℤ) * s.radius) ≤ s.radius
  inner : s.inner = 0 ∨ s.inner + (3 * δ + 2 ^ (-50 : ℤ) * s.inner) ≤ axisDist p
  angle : s.phiMax = twoPi ∨ ∃ θ, HasAngle p δ θ ∧ θ + (8 * δ / axisDist p + 2 ^ (-46 : ℤ)) ≤ s.phiMax

/-- `p` is off the ring by a margin that belongs to `δ` -/
def Outside (s : Disk) (p : V3 ℝ) (δ : ℝ) : Prop :=
  s.radius + (3 * δ + 2 ^ (-50 : ℤ) * s.radius) ≤ axisDist p ∨ axisDist p + (3 * δ + 2 ^ (-50 : ℤ) * s.inner) ≤ s.inner ∨
  ∃ θ, HasAngle p δ θ ∧ s.phiMax + (8 * δ / axisDist p + 2 ^ (-46 : ℤ)) < θ

/-! ### The parameter and the position -/

theorem u_small : (0 : ℝ) < uu ∧ (uu : ℝ) ≤ 1 / 1024 := ⟨uu_pos, by rw [uu_eq]; norm_num⟩

theorem time_close {h o d O D a b t : ℝ} (ho : |o - O| ≤ a) (hd : |d - D| ≤ b) (hb : b ≤ |D| / 4) (hD : 2 ^ (-17 : ℤ) ≤ |D|) (ht : t * D = h - O) :
    |double (double (h - o) / d) - t| ≤ 2 * ((a + |t| * b) / |D|) + 4 * uu * |t| + 2 ^ (-1050 : ℤ) := by
  obtain ⟨u0, u1⟩ := u_small
  have D0 : 0 < |D| := lt_of_lt_of_le (by positivity) hD
  have a0 : 0 ≤ a := (abs_nonneg _).trans ho
  have b0 : 0 ≤ b := (abs_nonneg _).trans hd
  have dl : 3 / 4 * |D| ≤ |d| := by
    have := abs_sub_abs_le_abs_sub D d
    rw [abs_sub_comm] at this; linarith
  have d0 : 0 < |d| := lt_of_lt_of_le (by positivity) dl
  have e1 := double_err (h - o)
  have e2 := double_err (double (h - o) / d)
  have eη : (2 : ℝ) ^ (-1050 : ℤ) = 2 ^ (25 : ℤ) * 2 ^ (-1075 : ℤ) := by rw [← zpow_add₀ two_ne_zero]; norm_num
  have η0 : (0 : ℝ) < 2 ^ (-1075 : ℤ) := by positivity
  rw [eη]
  change _ ≤ uu * _ + _ at e1
  change _ ≤ uu * _ + _ at e2
  generalize (2 : ℝ) ^ (-1075 : ℤ) = η at *
  set n := double (h - o)
  set q := n / d
  -- the numerator
  have n1 : |h - o| ≤ |t| * |D| + a := by
    have : h - o = t * D - (o - O) := by rw [ht]; ring
    rw [this]
    exact (abs_sub _ _).trans (by rw [abs_mul]; linarith)
  have n2 : |n - t * D| ≤ a + uu * (|t| * |D| + a) + η := by
    have : n - t * D = (n - (h - o)) + -(o - O) := by rw [ht]; ring
    rw [this]
    refine (abs_add_le _ _).trans ?_
    rw [abs_neg]
    have := mul_le_mul_of_nonneg_left n1 u0.le
    linarith
  -- the quotient
  have q1 : |q - t| * |d| ≤ a + uu * (|t| * |D| + a) + η + |t| * b := by
    rw [← abs_mul]
    have : (q - t) * d = (n - t * D) + t * (D - d) := by
      have : q * d = n := div_mul_cancel₀ _ (abs_pos.1 d0)
      rw [sub_mul, this]; ring
    rw [this]
    refine (abs_add_le _ _).trans ?_
    rw [abs_mul, abs_sub_comm D d]
    have := mul_le_mul_of_nonneg_left hd (abs_nonneg t)
    linarith
  have t0 := abs_nonneg t
  have k0 : 0 ≤ |q - t| := abs_nonneg _
  -- everything relative to `|D|`
  obtain ⟨α, hα⟩ : ∃ α, α = a / |D| := ⟨_, rfl⟩
  obtain ⟨β, hβ⟩ : ∃ β, β = b / |D| := ⟨_, rfl⟩
  have ha : a = α * |D| := by rw [hα]; field_simp
  have hb' : b = β * |D| := by rw [hβ]; field_simp
  have α0 : 0 ≤ α := by rw [hα]; positivity
  have β0 : 0 ≤ β := by rw [hβ]; positivity
  have hη : η ≤ 2 ^ (17 : ℤ) * η * |D| := by
    have : (1 : ℝ) ≤ 2 ^ (17 : ℤ) * |D| := by
      calc (1 : ℝ) = 2 ^ (17 : ℤ) * 2 ^ (-17 : ℤ) := by norm_num
        _ ≤ _ := by gcongr
    nlinarith
  have goal : (a + |t| * b) / |D| = α + |t| * β := by rw [ha, hb']; field_simp
  rw [goal]
  have q2 : |q - t| * (3 / 4) ≤ α * (1 + uu) + uu * |t| + 2 ^ (17 : ℤ) * η + |t| * β := by
    have : |q - t| * (3 / 4) * |D| ≤ (α * (1 + uu) + uu * |t| + 2 ^ (17 : ℤ) * η + |t| * β) * |D| := by
      calc |q - t| * (3 / 4) * |D| = |q - t| * (3 / 4 * |D|) := by ring
        _ ≤ |q - t| * |d| := by gcongr
        _ ≤ a + uu * (|t| * |D| + a) + η + |t| * b := q1
        _ ≤ a + uu * (|t| * |D| + a) + 2 ^ (17 : ℤ) * η * |D| + |t| * b := by linarith
        _ = _ := by rw [ha, hb']; ring
    exact le_of_mul_le_mul_right this D0
  have s1 : |double q - t| ≤ |q - t| + (uu * (|t| + |q - t|) + η) := by
    have : |q| ≤ |t| + |q - t| := by have := abs_sub_abs_le_abs_sub q t; linarith
    have m := mul_le_mul_of_nonneg_left this u0.le
    calc |double q - t| = |(q - t) + (double q - q)| := by congr 1; ring
      _ ≤ |q - t| + |double q - q| := abs_add_le _ _
      _ ≤ _ := by linarith
  refine s1.trans ?_
  have hp : (0 : ℝ) ≤ |t| * β := by positivity
  have z1 : (2 : ℝ) ^ (17 : ℤ) = 131072 := by norm_num
  have z2 : (2 : ℝ) ^ (25 : ℤ) = 33554432 := by norm_num
  rw [z1] at q2
  rw [z2]
  have uα : α * uu ≤ α / 1024 := by nlinarith
  have uq : uu * |q - t| ≤ 1 / 1024 * |q - t| := mul_le_mul_of_nonneg_right u1 k0
  have ut : 0 ≤ uu * |t| := by positivity
  linarith

theorem place_close {o d O D S V t s σ : ℝ} (ho : |o - O| ≤ 8 * uu * S) (hd : |d - D| ≤ 8 * uu * V) (hO : |O| ≤ S) (hDV : |D| ≤ V) (hs : |s - t| ≤ σ) :
    |double (o + double (d * s)) - (O + D * t)| ≤ 2 * V * σ + 16 * uu * (S + |t| * V) + 3 * 2 ^ (-1075 : ℤ) := by
  obtain ⟨u0, u1⟩ := u_small
  have e1 := double_err (d * s)
  have e2 := double_err (o + double (d * s))
  have η0 : (0 : ℝ) < 2 ^ (-1075 : ℤ) := by positivity
  change _ ≤ uu * _ + _ at e1
  change _ ≤ uu * _ + _ at e2
  generalize (2 : ℝ) ^ (-1075 : ℤ) = η at *
  have t0 := abs_nonneg t
  have V0 : 0 ≤ V := (abs_nonneg _).trans hDV
  have S0 : 0 ≤ S := (abs_nonneg _).trans hO
  have σ0 : 0 ≤ σ := (abs_nonneg _).trans hs
  set m := double (d * s)
  have dV : |d| ≤ (1 + 8 * uu) * V := by
    have := abs_sub_abs_le_abs_sub d D; linarith
  have c1 : |d * s - D * t| ≤ (1 + 8 * uu) * V * σ + 8 * uu * V * |t| := by
    have : d * s - D * t = d * (s - t) + (d - D) * t := by ring
    rw [this]
    refine (abs_add_le _ _).trans ?_
    rw [abs_mul, abs_mul]
    exact add_le_add (mul_le_mul dV hs (abs_nonneg _) (by positivity)) (mul_le_mul_of_nonneg_right hd t0)
  have dt : |D * t| ≤ V * |t| := by rw [abs_mul]; exact mul_le_mul_of_nonneg_right hDV t0
  have ds : |d * s| ≤ V * |t| + ((1 + 8 * uu) * V * σ + 8 * uu * V * |t|) := by
    have := abs_sub_abs_le_abs_sub (d * s) (D * t); linarith
  obtain ⟨X, hX⟩ : ∃ X, X = V * |t| := ⟨_, rfl⟩
  obtain ⟨Y, hY⟩ : ∃ Y, Y = V * σ := ⟨_, rfl⟩
  have X0 : 0 ≤ X := by rw [hX]; positivity
  have Y0 : 0 ≤ Y := by rw [hY]; positivity
  rw [show (1 + 8 * uu) * V * σ + 8 * uu * V * |t| = (1 + 8 * uu) * Y + 8 * uu * X by rw [hX, hY]; ring] at c1
  rw [show V * |t| + ((1 + 8 * uu) * V * σ + 8 * uu * V * |t|) = X + ((1 + 8 * uu) * Y + 8 * uu * X) by rw [hX, hY]; ring] at ds
  rw [← hX] at dt
  obtain ⟨c, hc⟩ : ∃ c, c = (1 + 8 * uu) * Y + 8 * uu * X := ⟨_, rfl⟩
  obtain ⟨x, hx⟩ : ∃ x, x = uu * X := ⟨_, rfl⟩
  obtain ⟨w, hw⟩ : ∃ w, w = uu * S := ⟨_, rfl⟩
  rw [← hc] at c1 ds
  have c0 : 0 ≤ c := (abs_nonneg _).trans c1
  have c2 : c ≤ 129 / 128 * Y + 8 * x := by
    have : uu * Y ≤ 1 / 1024 * Y := mul_le_mul_of_nonneg_right u1 Y0
    rw [hc, hx]; linarith
  have m1 : |m - D * t| ≤ c + (x + 1 / 1024 * c + η) := by
    have k1 := mul_le_mul_of_nonneg_left ds u0.le
    have k2 : uu * c ≤ 1 / 1024 * c := mul_le_mul_of_nonneg_right u1 c0
    rw [mul_add, ← hx] at k1
    calc |m - D * t| = |(m - d * s) + (d * s - D * t)| := by congr 1; ring
      _ ≤ |m - d * s| + |d * s - D * t| := abs_add_le _ _
      _ ≤ _ := by linarith
  obtain ⟨Z, hZ⟩ : ∃ Z, Z = |(o + m) - (O + D * t)| := ⟨_, rfl⟩
  have Z0 : 0 ≤ Z := by rw [hZ]; exact abs_nonneg _
  have m2 : Z ≤ 8 * w + (c + (x + 1 / 1024 * c + η)) := by
    rw [hZ, hw]
    calc |(o + m) - (O + D * t)| = |(o - O) + (m - D * t)| := by congr 1; ring
      _ ≤ |o - O| + |m - D * t| := abs_add_le _ _
      _ ≤ _ := by linarith
  have m3 : |o + m| ≤ S + X + Z := by
    have h1 := abs_sub_abs_le_abs_sub (o + m) (O + D * t)
    have h2 := abs_add_le O (D * t)
    rw [← hZ] at h1
    linarith
  have m4 : |double (o + m) - (O + D * t)| ≤ Z + (w + x + 1 / 1024 * Z + η) := by
    have k1 := mul_le_mul_of_nonneg_left m3 u0.le
    have k2 : uu * Z ≤ 1 / 1024 * Z := mul_le_mul_of_nonneg_right u1 Z0
    rw [mul_add, mul_add, ← hx, ← hw] at k1
    calc |double (o + m) - (O + D * t)| = |(double (o + m) - (o + m)) + ((o + m) - (O + D * t))| := by congr 1; ring
      _ ≤ |double (o + m) - (o + m)| + |(o + m) - (O + D * t)| := abs_add_le _ _
      _ ≤ _ := by rw [← hZ]; linarith
  have x0 : 0 ≤ x := by rw [hx]; positivity
  have w0 : 0 ≤ w := by rw [hw]; positivity
  rw [show 2 * V * σ + 16 * uu * (S + |t| * V) + 3 * η = 2 * Y + 16 * w + 16 * x + 3 * η by rw [hx, hw, hX, hY]; ring]
  linarith

/-! ### The distance from the axis -/

theorem axis_sq (p : V3 ℝ) : axisDist p ^ 2 = p.x ^ 2 + p.y ^ 2 := Real.sq_sqrt (by positivity)
theorem axis_nonneg (p : V3 ℝ) : 0 ≤ axisDist p := Real.sqrt_nonneg _

theorem axis_dot (p q : V3 ℝ) : p.x * q.x + p.y * q.y ≤ axisDist p * axisDist q := by
  refine abs_le_of_sq_le_sq' ?_ (mul_nonneg (axis_nonneg p) (axis_nonneg q)) |>.2
  rw [mul_pow, axis_sq, axis_sq]
  nlinarith [sq_nonneg (p.x * q.y - p.y * q.x)]

theorem axis_close {p q : V3 ℝ} {δ : ℝ} (hx : |p.x - q.x| ≤ δ) (hy : |p.y - q.y| ≤ δ) : |axisDist p - axisDist q| ≤ 2 * δ := by
  have δ0 : 0 ≤ δ := (abs_nonneg _).trans hx
  refine abs_le_of_sq_le_sq ?_ (by positivity)
  have h := axis_dot p q
  have h1 := sq_le_sq' (neg_le_of_abs_le hx) (le_of_abs_le hx)
  have h2 := sq_le_sq' (neg_le_of_abs_le hy) (le_of_abs_le hy)
  nlinarith [axis_sq p, axis_sq q]

theorem dt2_close (x y : ℝ) : |double (double (x * x) + double (y * y)) - (x ^ 2 + y ^ 2)| ≤ 3 * uu * (x ^ 2 + y ^ 2) + 4 * 2 ^ (-1075 : ℤ) := by
  obtain ⟨u0, u1⟩ := u_small
  have e1 := double_err (x * x)
  have e2 := double_err (y * y)
  have e3 := double_err (double (x * x) + double (y * y))
  have η0 : (0 : ℝ) < 2 ^ (-1075 : ℤ) := by positivity
  change _ ≤ uu * _ + _ at e1
  change _ ≤ uu * _ + _ at e2
  change _ ≤ uu * _ + _ at e3
  generalize (2 : ℝ) ^ (-1075 : ℤ) = η at *
  rw [abs_of_nonneg (mul_self_nonneg x), ← sq] at e1
  rw [abs_of_nonneg (mul_self_nonneg y), ← sq] at e2
  rw [← sq, ← sq] at e3
  rw [← sq, ← sq]
  set a := double (x ^ 2)
  set b := double (y ^ 2)
  have X0 := sq_nonneg x
  have Y0 := sq_nonneg y
  generalize x ^ 2 = X at *
  generalize y ^ 2 = Y at *
  obtain ⟨c, hc⟩ : ∃ c, c = uu * X + η + (uu * Y + η) := ⟨_, rfl⟩
  have c0 : 0 ≤ c := by rw [hc]; positivity
  have s1 : |a + b - (X + Y)| ≤ c := by
    calc |a + b - (X + Y)| = |(a - X) + (b - Y)| := by congr 1; ring
      _ ≤ |a - X| + |b - Y| := abs_add_le _ _
      _ ≤ _ := by rw [hc]; exact add_le_add e1 e2
  have s2 : |a + b| ≤ X + Y + c := by
    have := abs_sub_abs_le_abs_sub (a + b) (X + Y)
    rw [abs_of_nonneg (add_nonneg X0 Y0)] at this
    linarith
  have k1 := mul_le_mul_of_nonneg_left s2 u0.le
  have k2 : uu * c ≤ 1 / 1024 * c := mul_le_mul_of_nonneg_right u1 c0
  have uX := mul_nonneg u0.le X0
  have uY := mul_nonneg u0.le Y0
  calc |double (a + b) - (X + Y)| = |(double (a + b) - (a + b)) + (a + b - (X + Y))| := by congr 1; ring
    _ ≤ |double (a + b) - (a + b)| + |a + b - (X + Y)| := abs_add_le _ _
    _ ≤ _ := by linarith

theorem sq_close (r : ℝ) : |double (r * r) - r ^ 2| ≤ uu * r ^ 2 + 2 ^ (-1075 : ℤ) := by
  have := double_err (r * r)
  rw [abs_of_nonneg (mul_self_nonneg r), ← sq] at this
  rw [← sq]; exact this

theorem delta_sq {δ : ℝ} (h : 2 ^ (-500 : ℤ) ≤ δ) : 16 * (2 : ℝ) ^ (-1075 : ℤ) ≤ δ ^ 2 := by
  have z : (0 : ℝ) < 2 ^ (-500 : ℤ) := by positivity
  calc 16 * (2 : ℝ) ^ (-1075 : ℤ) ≤ (2 ^ (-500 : ℤ)) ^ 2 := by
        rw [← zpow_natCast, ← zpow_mul, show (16 : ℝ) = 2 ^ (4 : ℤ) by norm_num, ← zpow_add₀ two_ne_zero]
        exact zpow_le_zpow_right₀ (by norm_num) (by norm_num)
    _ ≤ _ := by gcongr

theorem within_sq' {p : V3 ℝ} {r δ : ℝ} (hδ : 2 ^ (-500 : ℤ) ≤ δ) (h : axisDist p + (δ + 8 * uu * r) ≤ r) :
    double (double (p.x * p.x) + double (p.y * p.y)) < double (r * r) := by
  obtain ⟨u0, u1⟩ := u_small
  have δ0 : 0 < δ := lt_of_lt_of_le (by positivity) hδ
  have e1 := le_of_abs_le (dt2_close p.x p.y)
  have e2 := neg_le_of_abs_le (sq_close r)
  have d2 := delta_sq hδ
  rw [← axis_sq] at e1
  have a0 := axis_nonneg p
  have η0 : (0 : ℝ) < 2 ^ (-1075 : ℤ) := by positivity
  generalize (2 : ℝ) ^ (-1075 : ℤ) = η at *
  have r1 : axisDist p + δ ≤ (1 - 8 * uu) * r := by linarith
  have r0 : 0 ≤ r := by
    by_contra hn
    push Not at hn
    have : (1 - 8 * uu) * r < 0 := mul_neg_of_pos_of_neg (by linarith) hn
    linarith
  have s1 : axisDist p ^ 2 + δ ^ 2 ≤ ((1 - 8 * uu) * r) ^ 2 := by
    have := pow_le_pow_left₀ (by positivity) r1 2
    nlinarith [mul_nonneg a0 δ0.le]
  have s2 : ((1 - 8 * uu) * r) ^ 2 ≤ (1 - 8 * uu) * r ^ 2 := by
    rw [mul_pow]
    refine mul_le_mul_of_nonneg_right ?_ (sq_nonneg _)
    nlinarith
  have R0 := sq_nonneg r
  have A0 := sq_nonneg (axisDist p)
  generalize axisDist p ^ 2 = A at *
  generalize r ^ 2 = R at *
  have k : uu * A ≤ uu * R := by
    refine mul_le_mul_of_nonneg_left ?_ u0.le
    nlinarith
  have k2 := mul_nonneg u0.le R0
  linarith

theorem within_sq {p : V3 ℝ} {r δ : ℝ} (hδ : 2 ^ (-500 : ℤ) ≤ δ) (h : axisDist p + (δ + 8 * uu * r) ≤ r) :
    double (double (p.x * p.x) + double (p.y * p.y)) ≤ double (r * r) := (within_sq' hδ h).le

theorem beyond_sq {p : V3 ℝ} {r δ : ℝ} (hδ : 2 ^ (-500 : ℤ) ≤ δ) (hr : 0 ≤ r) (h : r + (δ + 8 * uu * r) ≤ axisDist p) :
    double (r * r) < double (double (p.x * p.x) + double (p.y * p.y)) := by
  obtain ⟨u0, u1⟩ := u_small
  have δ0 : 0 < δ := lt_of_lt_of_le (by positivity) hδ
  have e1 := neg_le_of_abs_le (dt2_close p.x p.y)
  have e2 := le_of_abs_le (sq_close r)
  have d2 := delta_sq hδ
  rw [← axis_sq] at e1
  have η0 : (0 : ℝ) < 2 ^ (-1075 : ℤ) := by positivity
  generalize (2 : ℝ) ^ (-1075 : ℤ) = η at *
  have s1 : ((1 + 8 * uu) * r) ^ 2 + δ ^ 2 ≤ axisDist p ^ 2 := by
    have h' : (1 + 8 * uu) * r + δ ≤ axisDist p := by linarith
    have := pow_le_pow_left₀ (by positivity) h' 2
    have : 0 ≤ (1 + 8 * uu) * r * δ := by positivity
    nlinarith
  have s2 : (1 + 16 * uu) * r ^ 2 ≤ ((1 + 8 * uu) * r) ^ 2 := by
    rw [mul_pow]
    refine mul_le_mul_of_nonneg_right ?_ (sq_nonneg _)
    nlinarith [sq_nonneg (uu : ℝ)]
  have R0 := sq_nonneg r
  have A0 := sq_nonneg (axisDist p)
  generalize axisDist p ^ 2 = A at *
  generalize r ^ 2 = R at *
  have k2 := mul_nonneg u0.le R0
  have D0 := sq_nonneg δ
  -- `(1 - 3u) A ≥ (1 - 3u) ((1 + 16 u) R + δ²)`
  have k : (1 - 3 * uu) * ((1 + 16 * uu) * R + δ ^ 2) ≤ (1 - 3 * uu) * A := mul_le_mul_of_nonneg_left (by linarith) (by linarith)
  have k3 : uu * (uu * R) ≤ 1 / 1024 * (uu * R) := mul_le_mul_of_nonneg_right u1 k2
  have k4 : uu * δ ^ 2 ≤ 1 / 1024 * δ ^ 2 := mul_le_mul_of_nonneg_right u1 D0
  nlinarith

/-! ### The angle -/

theorem npPi_close : |npPi - Real.pi| ≤ 4 * uu ∧ 3 ≤ npPi ∧ npPi ≤ 13 / 4 := by
  obtain ⟨u0, u1⟩ := u_small
  have p3 := Real.pi_gt_three
  have p4 := Real.pi_le_four
  have p5 := Real.pi_lt_d2
  have e : |npPi - Real.pi| ≤ uu * |Real.pi| := Normal.err (Or.inr (by rw [abs_of_pos Real.pi_pos]; exact (zpow_le_one_of_nonpos₀ (by norm_num) (by norm_num)).trans (by linarith)))
  rw [abs_of_pos Real.pi_pos] at e
  have e' : |npPi - Real.pi| ≤ 4 * uu := e.trans (by nlinarith)
  refine ⟨e', ?_, ?_⟩
  · have := double_mono p3.le
    rwa [double_of_isDouble ⟨3, 0, by norm_num, by norm_num, by norm_num⟩] at this
  · have := le_of_abs_le e'
    linarith

theorem twoPi_close : |twoPi - 2 * Real.pi| ≤ 16 * uu ∧ 6 ≤ twoPi ∧ twoPi ≤ 27 / 4 := by
  obtain ⟨u0, u1⟩ := u_small
  obtain ⟨a, b, c⟩ := npPi_close
  have e : |twoPi - 2 * npPi| ≤ uu * |2 * npPi| := Normal.err (Or.inr (by rw [abs_of_pos (by linarith)]; exact (zpow_le_one_of_nonpos₀ (by norm_num) (by norm_num)).trans (by linarith)))
  rw [abs_of_pos (show 0 < 2 * npPi by linarith)] at e
  have e1 : |twoPi - 2 * npPi| ≤ 13 / 2 * uu := e.trans (by nlinarith)
  have e2 : |twoPi - 2 * Real.pi| ≤ 16 * uu := by
    calc |twoPi - 2 * Real.pi| = |(twoPi - 2 * npPi) + 2 * (npPi - Real.pi)| := by congr 1; ring
      _ ≤ |twoPi - 2 * npPi| + |2 * (npPi - Real.pi)| := abs_add_le _ _
      _ ≤ _ := by rw [abs_mul, abs_two]; linarith
  refine ⟨e2, ?_, ?_⟩
  · have := double_mono (show (6 : ℝ) ≤ 2 * npPi by linarith)
    rwa [double_of_isDouble ⟨6, 0, by norm_num, by norm_num, by norm_num⟩] at this
  · have := le_of_abs_le e1
    linarith

/-- the angle the program computes is between 0 and one turn, and is the angle of the point up to `2^-47` and full turns -/
theorem angle_close {at2 : ℝ → ℝ → ℝ} (h : Arctan2 at2) (p : V3 ℝ) :
    0 ≤ angleR at2 p ∧ angleR at2 p ≤ twoPi ∧ ∃ k : ℤ, |angleR at2 p - (Complex.arg ⟨p.x, p.y⟩ + k * (2 * Real.pi))| ≤ 2 ^ (-47 : ℤ) := by
  obtain ⟨u0, u1⟩ := u_small
  obtain ⟨h1, k, h2⟩ := h p.x p.y
  obtain ⟨a1, a2, a3⟩ := npPi_close
  obtain ⟨b1, b2, b3⟩ := twoPi_close
  have z50 : (2 : ℝ) ^ (-50 : ℤ) = 8 * uu := by rw [uu, show (-50 : ℤ) = 3 + -53 by norm_num, zpow_add₀ two_ne_zero]; norm_num
  have z47 : (2 : ℝ) ^ (-47 : ℤ) = 64 * uu := by rw [uu, show (-47 : ℤ) = 6 + -53 by norm_num, zpow_add₀ two_ne_zero]; norm_num
  rw [z50] at h2
  rw [z47]
  obtain ⟨h3, h4⟩ := abs_le.1 h1
  simp only [angleR]
  generalize at2 p.y p.x = f at *
  split_ifs with hf
  · have m : 1 ≤ f + twoPi := by linarith
    refine ⟨?_, ?_, k + 1, ?_⟩
    · have := double_mono (show (0 : ℝ) ≤ f + twoPi by linarith)
      rwa [double_zero] at this
    · have := double_mono (show f + twoPi ≤ twoPi by linarith)
      rwa [show double twoPi = twoPi from double_of_isDouble (isDouble_double _)] at this
    · have e : |double (f + twoPi) - (f + twoPi)| ≤ uu * |f + twoPi| := Normal.err (Or.inr (by rw [abs_of_pos (by linarith)]; exact (zpow_le_one_of_nonpos₀ (by norm_num) (by norm_num)).trans m))
      rw [abs_of_pos (show 0 < f + twoPi by linarith)] at e
      have e' : uu * (f + twoPi) ≤ uu * 7 := mul_le_mul_of_nonneg_left (by linarith) u0.le
      push_cast
      calc |double (f + twoPi) - (Complex.arg ⟨p.x, p.y⟩ + (k + 1) * (2 * Real.pi))|
          = |(double (f + twoPi) - (f + twoPi)) + ((f - (Complex.arg ⟨p.x, p.y⟩ + k * (2 * Real.pi))) + (twoPi - 2 * Real.pi))| := by congr 1; ring
        _ ≤ |double (f + twoPi) - (f + twoPi)| + (|f - (Complex.arg ⟨p.x, p.y⟩ + k * (2 * Real.pi))| + |twoPi - 2 * Real.pi|) := (abs_add_le _ _).trans (by gcongr; exact abs_add_le _ _)
        _ ≤ _ := by linarith
  · push Not at hf
    exact ⟨hf, by linarith, k, h2.trans (by linarith)⟩

/-- a small sine with a positive cosine, away from the multiples of a turn other than 0 -/
theorem small_angle {x c : ℝ} (h1 : |Real.sin x| ≤ c) (h2 : 0 < Real.cos x) (lo : -(2 * Real.pi) + 2 * c < x) (hi : x < 2 * Real.pi - 2 * c) : |x| ≤ 2 * c := by
  have p0 := Real.pi_pos
  have p4 := Real.pi_le_four
  have core : ∀ y : ℝ, 0 ≤ y → y ≤ Real.pi → |Real.sin y| ≤ c → 0 < Real.cos y → y ≤ 2 * c := fun y y0 y1 hs hc => by
    have yh : y ≤ Real.pi / 2 := by
      by_contra hn
      push Not at hn
      have := Real.cos_nonpos_of_pi_div_two_le_of_le hn.le (by linarith)
      linarith
    have := Real.mul_le_sin y0 yh
    have hs' := (le_abs_self _).trans hs
    have k : 2 / Real.pi * y ≤ c := this.trans hs'
    have : 1 / 2 * y ≤ 2 / Real.pi * y := by
      refine mul_le_mul_of_nonneg_right ?_ y0
      rw [le_div_iff₀ p0]; linarith
    linarith
  have c0 : 0 ≤ c := (abs_nonneg _).trans h1
  wlog hx : 0 ≤ x generalizing x with H
  · have := H (x := -x) (by rwa [Real.sin_neg, abs_neg]) (by rwa [Real.cos_neg]) (by linarith) (by linarith) (by linarith)
    rwa [abs_neg] at this
  rw [abs_of_nonneg hx]
  by_cases hp : x ≤ Real.pi
  · exact core x hx hp h1 h2
  · push Not at hp
    have := core (2 * Real.pi - x) (by linarith) (by linarith) (by rwa [Real.sin_two_pi_sub, abs_neg]) (by rwa [Real.cos_two_pi_sub])
    linarith

theorem angle_near {at2 : ℝ → ℝ → ℝ} (h : Arctan2 at2) {p q : V3 ℝ} {δ θ : ℝ} (δ0 : 0 < δ) (hx : |q.x - p.x| ≤ δ) (hy : |q.y - p.y| ≤ δ) (ha : HasAngle p δ θ) :
    |angleR at2 q - θ| ≤ 8 * δ / axisDist p + 2 ^ (-47 : ℤ) := by
  obtain ⟨ax, ay, far, low, high⟩ := ha
  obtain ⟨f0, f1, k, hk⟩ := angle_close h q
  have ρ0 : 0 < axisDist p := by linarith
  have ac := abs_le.1 (axis_close hx hy)
  have ρq : axisDist p / 2 ≤ axisDist q := by linarith
  have ρq0 : 0 < axisDist q := by linarith
  -- the direction of `q`
  obtain ⟨ψ, hψ⟩ : ∃ ψ, ψ = Complex.arg ⟨q.x, q.y⟩ + k * (2 * Real.pi) := ⟨_, rfl⟩
  rw [← hψ] at hk
  have hne : (⟨q.x, q.y⟩ : ℂ) ≠ 0 := fun e => by
    have e1 : q.x = 0 := congrArg Complex.re e
    have e2 : q.y = 0 := congrArg Complex.im e
    have := axis_sq q
    rw [e1, e2] at this
    nlinarith
  have nrm : ‖(⟨q.x, q.y⟩ : ℂ)‖ = axisDist q := by
    rw [Complex.norm_def, Complex.normSq_mk, axisDist]; congr 1; ring
  have qc : Real.cos ψ * axisDist q = q.x := by
    rw [hψ, Real.cos_add_int_mul_two_pi, Complex.cos_arg hne, nrm]
    exact div_mul_cancel₀ _ ρq0.ne'
  have qs : Real.sin ψ * axisDist q = q.y := by
    rw [hψ, Real.sin_add_int_mul_two_pi, Complex.sin_arg, nrm]
    exact div_mul_cancel₀ _ ρq0.ne'
  have px : |p.x| ≤ axisDist p := by
    rw [ax, abs_mul, abs_of_pos ρ0]
    calc _ ≤ axisDist p * 1 := by gcongr; exact Real.abs_cos_le_one _
      _ = _ := mul_one _
  have py : |p.y| ≤ axisDist p := by
    rw [ay, abs_mul, abs_of_pos ρ0]
    calc _ ≤ axisDist p * 1 := by gcongr; exact Real.abs_sin_le_one _
      _ = _ := mul_one _
  have s1 : axisDist p * axisDist q * Real.sin (ψ - θ) = p.x * (q.y - p.y) - p.y * (q.x - p.x) := by
    rw [Real.sin_sub]
    calc _ = (axisDist p * Real.cos θ) * (Real.sin ψ * axisDist q) - (axisDist p * Real.sin θ) * (Real.cos ψ * axisDist q) := by ring
      _ = _ := by rw [qc, qs, ← ax, ← ay]; ring
  have c1 : axisDist p * axisDist q * Real.cos (ψ - θ) = axisDist p ^ 2 + (p.x * (q.x - p.x) + p.y * (q.y - p.y)) := by
    rw [Real.cos_sub, axis_sq]
    calc _ = (axisDist p * Real.cos θ) * (Real.cos ψ * axisDist q) + (axisDist p * Real.sin θ) * (Real.sin ψ * axisDist q) := by ring
      _ = _ := by rw [qc, qs, ← ax, ← ay]; ring
  have b1 : |p.x * (q.y - p.y)| ≤ axisDist p * δ := by rw [abs_mul]; exact mul_le_mul px hy (abs_nonneg _) ρ0.le
  have b2 : |p.y * (q.x - p.x)| ≤ axisDist p * δ := by rw [abs_mul]; exact mul_le_mul py hx (abs_nonneg _) ρ0.le
  have b3 : |p.x * (q.x - p.x)| ≤ axisDist p * δ := by rw [abs_mul]; exact mul_le_mul px hx (abs_nonneg _) ρ0.le
  have b4 : |p.y * (q.y - p.y)| ≤ axisDist p * δ := by rw [abs_mul]; exact mul_le_mul py hy (abs_nonneg _) ρ0.le
  have s2 : |Real.sin (ψ - θ)| ≤ 4 * δ / axisDist p := by
    have e : axisDist p * axisDist q * |Real.sin (ψ - θ)| ≤ axisDist p * (2 * δ) := by
      rw [← abs_of_pos (mul_pos ρ0 ρq0), ← abs_mul, s1]
      exact (abs_sub _ _).trans (by linarith)
    have e2 : axisDist q * |Real.sin (ψ - θ)| ≤ 2 * δ := by
      rw [mul_assoc] at e
      exact le_of_mul_le_mul_left e ρ0
    rw [le_div_iff₀ ρ0]
    have := mul_le_mul_of_nonneg_right ρq (abs_nonneg (Real.sin (ψ - θ)))
    linarith
  have c2 : 0 < Real.cos (ψ - θ) := by
    have e : 0 < axisDist p * axisDist q * Real.cos (ψ - θ) := by
      rw [c1]
      have := neg_le_of_abs_le b3
      have := neg_le_of_abs_le b4
      nlinarith
    exact (mul_pos_iff_of_pos_left (mul_pos ρ0 ρq0)).1 e
  obtain ⟨k1, k2⟩ := abs_le.1 hk
  obtain ⟨t1, -, -⟩ := twoPi_close
  have t2 := le_of_abs_le t1
  have z47 : (2 : ℝ) ^ (-47 : ℤ) = 64 * uu := by rw [uu, show (-47 : ℤ) = 6 + -53 by norm_num, zpow_add₀ two_ne_zero]; norm_num
  have z46 : (2 : ℝ) ^ (-46 : ℤ) = 128 * uu := by rw [uu, show (-46 : ℤ) = 7 + -53 by norm_num, zpow_add₀ two_ne_zero]; norm_num
  rw [z46] at low high
  rw [z47] at k1 k2 ⊢
  obtain ⟨u0, -⟩ := u_small
  have e8 : 8 * δ / axisDist p = 2 * (4 * δ / axisDist p) := by ring
  rw [e8] at low high ⊢
  have fin := small_angle s2 c2 (by linarith) (by linarith)
  calc |angleR at2 q - θ| = |(angleR at2 q - ψ) + (ψ - θ)| := by congr 1; ring
    _ ≤ |angleR at2 q - ψ| + |ψ - θ| := abs_add_le _ _
    _ ≤ _ := by
      have := abs_le.2 ⟨k1, k2⟩
      linarith

/-! ### The intersection -/

theorem eps_ge : (2 : ℝ) ^ (-17 : ℤ) ≤ EPS := by
  have := double_mono (show (2 : ℝ) ^ (-17 : ℤ) ≤ 1 / 100000 by norm_num)
  rwa [double_of_isDouble ⟨1, -17, by norm_num, by norm_num, by simp⟩] at this

theorem pt_get {m : Transform ℝ} (hm : Affine m.m) (p : V3 ℝ) (i : Fin 3) : (m.pt p).get i = homog m.m p i.castSucc := by
  obtain ⟨a, b, c, d⟩ := hm
  have hw : homog m.m p 3 = 1 := by rw [homog, a, b, c, d]; ring
  have hn : ¬ Xform.neUnity (1 : ℝ) := by
    rw [Xform.neUnity]; norm_num [Xform.EPS]
  simp only [Transform.pt, hw, if_neg hn]
  fin_cases i <;> rfl

theorem vec_get (m : Transform ℝ) (v : V3 ℝ) (i : Fin 3) : (m.vec v).get i = lin m.m v i.castSucc := by fin_cases i <;> rfl

theorem pt_pos {m : Transform ℝ} (hm : Affine m.m) (r : Shape.Ray ℝ) (t : ℝ) (i : Fin 3) : (m.pt (r.pos t)).get i = homog m.m r.o i.castSucc + lin m.m r.d i.castSucc * t := by
  rw [pt_get hm, Shape.Ray.pos]
  simp only [homog, lin, V3.rayAt]
  ring

theorem homog_le (m : M4 ℝ) (p : V3 ℝ) (i : Fin 4) : |homog m p i| ≤ size m p i := by
  simp only [homog, size]
  refine (abs_add_le _ _).trans (add_le_add ((abs_add_le _ _).trans (add_le_add ((abs_add_le _ _).trans (add_le_add ?_ ?_)) ?_)) le_rfl) <;> rw [abs_mul]

theorem lin_le (m : M4 ℝ) (p : V3 ℝ) (i : Fin 4) : |lin m p i| ≤ sizeVec m p i := by
  simp only [lin, sizeVec]
  refine (abs_add_le _ _).trans (add_le_add ((abs_add_le _ _).trans (add_le_add ?_ ?_)) ?_) <;> rw [abs_mul]

/-- the numbers for which the bounds on the transformed ray hold (C182): an affine transformation, entries that are multiples of `2^-200` -/
structure RayOk (w2o : Transform ℝ) (r : Shape.Ray ℝ) : Prop where
  affine : Affine w2o.m
  m : CoarseM w2o.m
  o : CoarseV r.o
  d : CoarseV r.d

section
variable {at2 : ℝ → ℝ → ℝ} {s : Disk} {w2o : Transform ℝ} {r q : Shape.Ray ℝ} {t σ δ : ℝ}

theorem z50 : (2 : ℝ) ^ (-50 : ℤ) = 8 * uu := by rw [uu, show (-50 : ℤ) = 3 + -53 by norm_num, zpow_add₀ two_ne_zero]; norm_num

/-- where the ray crosses the plane clearly, the parameter and the position the program computes -/
theorem crossing (ok : RayOk w2o r) (hq : RayR w2o r q) (h : Crosses s w2o r t σ δ) :
    EPS ≤ |q.d.z| ∧ |double (double (s.height - q.o.z) / q.d.z) - t| ≤ σ ∧ 2 ^ (-500 : ℤ) ≤ δ ∧
    ∀ i, |(atR q.o q.d (double (double (s.height - q.o.z) / q.d.z))).get i - (w2o.pt (r.pos t)).get i| ≤ δ := by
  obtain ⟨u0, u1⟩ := u_small
  have ho := C182_point w2o ok.affine ok.m r.o q.o ok.o hq.1
  have hd := C182_vector w2o ok.m r.d q.d ok.d hq.2.1
  obtain ⟨plane, steep, sharp, time, place⟩ := h
  have z48 : (2 : ℝ) ^ (-48 : ℤ) = 32 * uu := by rw [uu, show (-48 : ℤ) = 5 + -53 by norm_num, zpow_add₀ two_ne_zero]; norm_num
  have z49 : (2 : ℝ) ^ (-49 : ℤ) = 16 * uu := by rw [uu, show (-49 : ℤ) = 4 + -53 by norm_num, zpow_add₀ two_ne_zero]; norm_num
  have z51 : (2 : ℝ) ^ (-51 : ℤ) = 4 * uu := by rw [uu, show (-51 : ℤ) = 2 + -53 by norm_num, zpow_add₀ two_ne_zero]; norm_num
  simp only [z50] at ho hd steep
  rw [z48] at sharp
  rw [z49, z51] at time
  simp only [z49] at place
  have Dz : (w2o.vec r.d).z = lin w2o.m r.d 2 := vec_get w2o r.d 2
  rw [Dz] at steep sharp time
  have oz := ho 2
  have dz := hd 2
  change |q.o.z - homog w2o.m r.o 2| ≤ _ at oz
  change |q.d.z - lin w2o.m r.d 2| ≤ _ at dz
  change _ ≤ 8 * uu * size w2o.m r.o 2 at oz
  change _ ≤ 8 * uu * sizeVec w2o.m r.d 2 at dz
  have V0 : 0 ≤ sizeVec w2o.m r.d 2 := (abs_nonneg _).trans (lin_le _ _ _)
  have DE : EPS ≤ |lin w2o.m r.d 2| := by have := mul_nonneg u0.le V0; linarith
  have hD := eps_ge.trans DE
  have t1 : |double (double (s.height - q.o.z) / q.d.z) - t| ≤ σ := by
    have pz := pt_pos ok.affine r t 2
    change (w2o.pt (r.pos t)).z = homog w2o.m r.o 2 + lin w2o.m r.d 2 * t at pz
    refine (time_close oz dz (by linarith) hD (by rw [← plane, pz]; ring)).trans (le_trans (le_of_eq ?_) time)
    ring
  refine ⟨?_, t1, ?_, fun i => ?_⟩
  · have := abs_sub_abs_le_abs_sub (lin w2o.m r.d 2) q.d.z
    rw [abs_sub_comm] at this
    linarith
  · refine le_trans ?_ (place 0)
    have σ0 : 0 ≤ σ := (abs_nonneg _).trans t1
    have S0 : 0 ≤ size w2o.m r.o (Fin.castSucc 0) := (abs_nonneg _).trans (homog_le _ _ _)
    have V0 : 0 ≤ sizeVec w2o.m r.d (Fin.castSucc 0) := (abs_nonneg _).trans (lin_le _ _ _)
    have : 0 ≤ 2 * sizeVec w2o.m r.d (Fin.castSucc 0) * σ + 16 * uu * (size w2o.m r.o (Fin.castSucc 0) + |t| * sizeVec w2o.m r.d (Fin.castSucc 0)) := by positivity
    exact le_add_of_nonneg_left this
  · rw [atR_get, pt_pos ok.affine]
    refine (place_close (ho i) (hd i) (homog_le _ _ _) (lin_le _ _ _) t1).trans (le_trans ?_ (place i))
    have : 3 * (2 : ℝ) ^ (-1075 : ℤ) ≤ 2 ^ (-500 : ℤ) := by
      calc 3 * (2 : ℝ) ^ (-1075 : ℤ) ≤ 2 ^ (2 : ℤ) * 2 ^ (-1075 : ℤ) := by gcongr; norm_num
        _ = 2 ^ (-1073 : ℤ) := by rw [← zpow_add₀ two_ne_zero]; norm_num
        _ ≤ _ := zpow_le_zpow_right₀ (by norm_num) (by norm_num)
    gcongr

/-- **C190** A ray that crosses the plane of the disk clearly within its range and within the ring is reported, with the parameter and the position up to the margins … -/
theorem C190_hit (h2 : Arctan2 at2) (ok : RayOk w2o r) (hq : RayR w2o r q) (h : Crosses s w2o r t σ δ) (lo : r.mint + σ ≤ t) (hi : ((t + σ : ℝ) : WithTop ℝ) ≤ r.maxt) (hin : Inside s (w2o.pt (r.pos t)) δ) (ri : 0 ≤ s.inner) :
    ∃ t' p, hitObjR at2 s q = some (t', p) ∧ |t' - t| ≤ σ ∧ ∀ i, |p.get i - (w2o.pt (r.pos t)).get i| ≤ δ := by
  obtain ⟨a1, a2, a3, a4⟩ := crossing ok hq h
  have δ0 : 0 < δ := lt_of_lt_of_le (by positivity) a3
  obtain ⟨outer, inner, angle⟩ := hin
  rw [z50] at outer inner
  refine ⟨double (double (s.height - q.o.z) / q.d.z), atR q.o q.d (double (double (s.height - q.o.z) / q.d.z)), ?_, a2, a4⟩
  obtain ⟨b1, b2⟩ := abs_le.1 a2
  have px := a4 0
  have py := a4 1
  change |V3.x _ - V3.x _| ≤ _ at px
  change |V3.y _ - V3.y _| ≤ _ at py
  obtain ⟨c1, c2⟩ := abs_le.1 (axis_close px py)
  simp only [hitObjR]
  rw [if_neg (not_lt.2 a1), if_neg, if_neg, if_neg]
  · rw [not_lt]
    rcases angle with e | ⟨θ, hθ, hm⟩
    · rw [e]; exact (angle_close h2 _).2.1
    · have := le_of_abs_le (angle_near h2 δ0 px py hθ)
      have : (2 : ℝ) ^ (-47 : ℤ) ≤ 2 ^ (-46 : ℤ) := zpow_le_zpow_right₀ (by norm_num) (by norm_num)
      linarith
  · rintro (hc | hc)
    · exact absurd (within_sq (r := s.radius) a3 (by linarith)) (not_le.2 hc)
    · rcases inner with e | hm
      · rw [e, mul_zero, double_zero] at hc
        have h0 : ∀ x : ℝ, 0 ≤ x → 0 ≤ double x := fun x hx => by have := double_mono hx; rwa [double_zero] at this
        exact absurd (h0 _ (add_nonneg (h0 _ (mul_self_nonneg _)) (h0 _ (mul_self_nonneg _)))) (not_le.2 hc)
      · exact absurd (beyond_sq (r := s.inner) a3 ri (by linarith)) (not_lt.2 hc.le)
  · rintro (hc | hc)
    · rw [hq.2.2.1] at hc; linarith
    · rw [hq.2.2.2] at hc
      exact absurd (lt_of_lt_of_le hc (le_trans (WithTop.coe_le_coe.2 (by linarith)) hi)) (lt_irrefl _)

/-- … a ray that crosses it clearly out of its range or off the ring is not … -/
theorem C190_miss (h2 : Arctan2 at2) (ok : RayOk w2o r) (hq : RayR w2o r q) (h : Crosses s w2o r t σ δ) (rad : 0 ≤ s.radius)
    (hm : t + σ < r.mint ∨ r.maxt < ((t - σ : ℝ) : WithTop ℝ) ∨ Outside s (w2o.pt (r.pos t)) δ) : hitObjR at2 s q = none := by
  obtain ⟨a1, a2, a3, a4⟩ := crossing ok hq h
  have δ0 : 0 < δ := lt_of_lt_of_le (by positivity) a3
  obtain ⟨b1, b2⟩ := abs_le.1 a2
  have px := a4 0
  have py := a4 1
  change |V3.x _ - V3.x _| ≤ _ at px
  change |V3.y _ - V3.y _| ≤ _ at py
  obtain ⟨c1, c2⟩ := abs_le.1 (axis_close px py)
  simp only [hitObjR]
  rw [if_neg (not_lt.2 a1)]
  by_cases hr : double (double (s.height - q.o.z) / q.d.z) < q.mint ∨ ((double (double (s.height - q.o.z) / q.d.z) : ℝ) : WithTop ℝ) > q.maxt
  · rw [if_pos hr]
  rw [if_neg hr]
  rcases hm with hm | hm | hm
  · refine absurd (Or.inl ?_) hr
    rw [hq.2.2.1]; linarith
  · refine absurd (Or.inr ?_) hr
    rw [hq.2.2.2]
    exact lt_of_lt_of_le hm (WithTop.coe_le_coe.2 (by linarith))
  rw [Outside, z50] at hm
  rcases hm with hm | hm | ⟨θ, hθ, hm⟩
  · rw [if_pos (Or.inl (beyond_sq (r := s.radius) a3 rad (by linarith)))]
  · have hs : double (double ((atR q.o q.d (double (double (s.height - q.o.z) / q.d.z))).x * (atR q.o q.d (double (double (s.height - q.o.z) / q.d.z))).x) + double ((atR q.o q.d (double (double (s.height - q.o.z) / q.d.z))).y * (atR q.o q.d (double (double (s.height - q.o.z) / q.d.z))).y)) < double (s.inner * s.inner) := within_sq' a3 (by linarith)
    rw [if_pos (Or.inr hs)]
  · have hθ' := neg_le_of_abs_le (angle_near h2 δ0 px py hθ)
    have z : (2 : ℝ) ^ (-47 : ℤ) ≤ 2 ^ (-46 : ℤ) := zpow_le_zpow_right₀ (by norm_num) (by norm_num)
    split_ifs with hc hd
    · rfl
    · rfl
    · exact absurd (show angleR at2 _ > s.phiMax by linarith) hd

/-- … nor is a ray that is clearly parallel to the plane … -/
theorem C190_parallel (ok : RayOk w2o r) (hq : RayR w2o r q) (h : |(w2o.vec r.d).z| + 2 ^ (-50 : ℤ) * sizeVec w2o.m r.d 2 < EPS) : hitObjR at2 s q = none := by
  have dz := C182_vector w2o ok.m r.d q.d ok.d hq.2.1 2
  rw [← vec_get] at dz
  change |q.d.z - (w2o.vec r.d).z| ≤ _ * sizeVec w2o.m r.d 2 at dz
  have := abs_sub_abs_le_abs_sub q.d.z (w2o.vec r.d).z
  simp only [hitObjR]
  rw [if_pos (by linarith)]

/-- … and `intersect_p` says the same as `intersect`, always. -/
theorem C190_p : hitObjPR at2 s q = (hitObjR at2 s q).isSome := by
  simp only [hitObjPR, hitObjR]
  split_ifs <;> rfl

end

/-! ### Concrete case -/

/-- the correctly rounded arctangent is a case of `Arctan2` -/
theorem arctan2_round : Arctan2 fun y x => double (Complex.arg ⟨x, y⟩) := fun x y => by
  obtain ⟨u0, u1⟩ := u_small
  have h := Complex.abs_arg_le_pi ⟨x, y⟩
  obtain ⟨h1, h2⟩ := abs_le.1 h
  refine ⟨abs_le.2 ⟨?_, double_mono h2⟩, 0, ?_⟩
  · have := double_mono h1
    rwa [double_neg] at this
  · have e := double_err (Complex.arg ⟨x, y⟩)
    change _ ≤ uu * _ + _ at e
    have p4 := Real.pi_le_four
    have η : (2 : ℝ) ^ (-1075 : ℤ) ≤ uu := zpow_le_zpow_right₀ (by norm_num) (by norm_num)
    have := mul_le_mul_of_nonneg_left (h.trans p4) u0.le
    rw [z50]
    simp only [Int.cast_zero, zero_mul, add_zero]
    linarith

/-- a ray that looks down on a sector of a ring -/
noncomputable def demoRay : Shape.Ray ℝ := ⟨⟨0, 3 / 2, 4⟩, ⟨0, 0, -1⟩, 0, ⊤⟩
noncomputable def demoDisk (r : ℝ) : Disk := ⟨0, r, 1, 3⟩

theorem demo_crosses (r : ℝ) : Crosses (demoDisk r) Xform.ident demoRay 4 (2 ^ (-45 : ℤ)) (2 ^ (-43 : ℤ)) := by
  have tiny : (2 : ℝ) ^ (-1050 : ℤ) ≤ 2 ^ (-60 : ℤ) := zpow_le_zpow_right₀ (by norm_num) (by norm_num)
  have tiny' : (2 : ℝ) ^ (-500 : ℤ) ≤ 2 ^ (-60 : ℤ) := zpow_le_zpow_right₀ (by norm_num) (by norm_num)
  have e1 : EPS ≤ 1 / 32 := by
    have := double_mono (show (1 / 100000 : ℝ) ≤ 1 / 32 by norm_num)
    rwa [show double (1 / 32 : ℝ) = 1 / 32 from double_of_isDouble ⟨1, -5, by norm_num, by norm_num, by norm_num⟩] at this
  constructor
  · simp [Xform.ident, Transform.pt, homog, Shape.Ray.pos, V3.rayAt, demoRay, demoDisk]
  · simp [Xform.ident, Transform.vec, sizeVec, demoRay]
    norm_num; linarith
  · simp [Xform.ident, Transform.vec, sizeVec, demoRay]
    norm_num
  · generalize (2 : ℝ) ^ (-1050 : ℤ) = e at *
    simp [Xform.ident, Transform.vec, sizeVec, size, demoRay]
    norm_num at tiny ⊢; linarith
  · generalize (2 : ℝ) ^ (-500 : ℤ) = e at *
    intro i
    fin_cases i <;> simp [Xform.ident, sizeVec, size, demoRay] <;> norm_num at tiny' ⊢ <;> linarith

theorem demo_ok : RayOk Xform.ident demoRay := by
  have g0 : Grid (-200) (0 : ℝ) := ⟨0, by simp⟩
  have g : ∀ {n : ℤ} {x : ℝ}, x = n * 2 ^ (-1 : ℤ) → Grid (-200) x := fun {n x} h => Grid.mono (show (-200 : ℤ) ≤ -1 by norm_num) ⟨n, h⟩
  refine ⟨by simp [Affine, Xform.ident], fun i j => ?_, fun i => ?_, fun i => ?_⟩
  · have : (Xform.ident : Transform ℝ).m i j = if i = j then 1 else 0 := by
      fin_cases i <;> fin_cases j <;> simp [Xform.ident]
    rw [this]
    split_ifs
    · exact g (n := 2) (by norm_num)
    · exact g0
  · fin_cases i
    · exact g0
    · exact g (n := 3) (by norm_num [demoRay, V3.get])
    · exact g (n := 8) (by norm_num [demoRay, V3.get])
  · fin_cases i
    · exact g0
    · exact g0
    · exact g (n := -2) (by norm_num [demoRay, V3.get])

theorem demo_pt : Xform.ident.pt (demoRay.pos 4) = ⟨0, 3 / 2, 0⟩ := by
  refine V3.ext ?_ ?_ ?_ <;> simp [Xform.ident, Transform.pt, homog, Shape.Ray.pos, V3.rayAt, demoRay]

theorem demo_axis : axisDist ⟨0, 3 / 2, 0⟩ = 3 / 2 := by
  rw [axisDist, show (0 : ℝ) ^ 2 + (3 / 2) ^ 2 = (3 / 2) ^ 2 by ring]
  exact Real.sqrt_sq (by norm_num)

/-- the ring between 1 and 2 is hit, the ring that ends at the radius 5/4 is missed -/
example (q : Shape.Ray ℝ) (hq : RayR Xform.ident demoRay q) :
    (∃ t' p, hitObjR (fun y x => double (Complex.arg ⟨x, y⟩)) (demoDisk 2) q = some (t', p) ∧ |t' - 4| ≤ 2 ^ (-45 : ℤ) ∧ |p.y - 3 / 2| ≤ 2 ^ (-43 : ℤ)) ∧
    hitObjR (fun y x => double (Complex.arg ⟨x, y⟩)) (demoDisk (5 / 4)) q = none := by
  have p3 := Real.pi_gt_three
  have p4 := Real.pi_lt_d2
  constructor
  · obtain ⟨t', p, a, b, c⟩ := C190_hit arctan2_round demo_ok hq (demo_crosses 2) (by norm_num [demoRay]) le_top (by
      rw [demo_pt]
      refine ⟨?_, Or.inr ?_, Or.inr ⟨Real.pi / 2, ⟨?_, ?_, ?_, ?_, ?_⟩, ?_⟩⟩ <;> rw [demo_axis]
      · norm_num [demoDisk]
      · norm_num [demoDisk]
      · simp
      · simp
      · norm_num
      · norm_num; linarith
      · norm_num; linarith
      · norm_num [demoDisk]; linarith) (by norm_num [demoDisk])
    refine ⟨t', p, a, b, ?_⟩
    have := c 1
    rwa [demo_pt] at this
  · refine C190_miss arctan2_round demo_ok hq (demo_crosses _) (by norm_num [demoDisk]) (Or.inr (Or.inr (Or.inl ?_)))
    rw [demo_pt, demo_axis]
    norm_num [demoDisk]

/-- such a transformed ray exists -/
example : ∃ q, RayR Xform.ident demoRay q := by
  obtain ⟨⟨o, ho⟩, -⟩ := C182_total (Xform.ident : Transform ℝ) Xform.ident demoRay.o
  obtain ⟨-, ⟨d, hd⟩, -⟩ := C182_total (Xform.ident : Transform ℝ) Xform.ident demoRay.d
  exact ⟨⟨o, d, 0, ⊤⟩, ho, hd, rfl, rfl⟩

end Verif.DiskR
