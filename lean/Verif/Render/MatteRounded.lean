import Verif.Integrator.MatteRounded
import Verif.Shape.SelfHit

/-!
# The picture of matte triangles under point lights in rounded arithmetic (C189)

The whole way from the camera ray to the pixel, every operation rounded to binary64: the hierarchy and the triangle test (C181, C186), the point that is hit, the normal, the
loop over the lights with the shadow rays (C188), the film (C178).  The reference is Lambert's law at the point where the ray really meets the triangle.
-/
set_option linter.unusedSectionVars false

namespace Verif.MatteP
open V3 Verif.Rnd Verif.XformR Verif.GeomR Verif.CamR Verif.MatteR
open Verif.Shape (subR)
open Verif.SelfHit (rEps)
open Verif.ShadowR (EPS)
open Verif.BVH
open Verif.TriScene (Tri ClearHit)
open Verif.FirstR (Beyond Sees C186_first C186_miss)

variable {ι : Type*}

/-! ### Model -/

/-- the surfaces of the scene: the reflectance of each triangle (`material/material.py:102-`, a constant texture, no roughness), whether its normal is flipped, and the lights -/
structure World (ι : Type*) where
  kd : Tri ℝ → ι → ℝ
  flip : Tri ℝ → Bool
  lights : List (PLight ι)

/-- what `WhittedIntegrator.li` reads (`integrator/surface/whitted.py:31-36`) when the ray meets `A` at the reported distance `s`: the point (`shape/triangle.py:229`), the normal
(`geometry/diffgeom.py:30-38`; the shading geometry is the geometry, `shape/triangle.py:323-`), the direction to the viewer -/
noncomputable def World.spot (w : World ι) (r : FRay ℝ) (A : Tri ℝ) (s : ℝ) : Spot ι :=
  ⟨atR r.o (rayDir r) s, nnR A.p1 A.p2 A.p3 (w.flip A), nnR A.p1 A.p2 A.p3 (w.flip A), -rayDir r, w.kd A⟩

/-- `vis.unoccluded(scene)` (`light/utility.py:53-59`) -/
def Unoccluded (bvh : Bvh ℝ (Tri ℝ)) (fuel : ℕ) (p : V3 ℝ) (eps : ℝ) (l : PLight ι) : Prop :=
  bvh.intersectPR ieee (TriScene.dist (shadowRay p eps l) eps) (shadowRay p eps l) fuel = .ok false

/-- `renderer.li` (`renderer/renderer.py:58-75`, `integrator/surface/whitted.py:26-60`) may return `L` for the camera ray `r`: the nearest hit, then the loop over the lights; point
lights are not seen by a ray that meets nothing (`light/light.py:52-57`).  The emission of the surface and the specular rays add zero (C163), the volume multiplies by one. -/
def RadR (bvh : Bvh ℝ (Tri ℝ)) (fuel : ℕ) (mint : ℝ) (w : World ι) (r : FRay ℝ) (L : ι → ℝ) : Prop :=
  match bvh.intersectR ieee (TriScene.dist r mint) r fuel with
  | .ok ⟨.fin s, some A, true⟩ => LoopR (w.spot r A s) (fun l => Unoccluded bvh fuel (w.spot r A s).p (rEps s) l) w.lights (fun _ => 0) L
  | .ok ⟨_, _, false⟩ => L = fun _ => 0
  | _ => False

/-! ### Specification -/

/-- the radiance that Lambert's law gives for the point `x` of the triangle `A` and the lights for which `vis` holds, seen along `d` -/
noncomputable def World.radiance (w : World ι) (A : Tri ℝ) (x d : V3 ℝ) (vis : PLight ι → Prop) (k : ι) : ℝ :=
  (w.lights.map fun l => lambertOf x (trueNormal A.p1 A.p2 A.p3) (trueNormal A.p1 A.p2 A.p3) (-d) (w.kd A) vis l k).sum

/-- what the lights could add if all of them were seen and faced the surface -/
noncomputable def World.most (w : World ι) (A : Tri ℝ) (x : V3 ℝ) (k : ι) : ℝ := (w.lights.map fun l => w.kd A k / Real.pi * arriving l x k).sum

/-- the camera ray: origin, and components of the direction that are zero or move the point visibly -/
structure RayOk (r : FRay ℝ) (t slack : ℝ) : Prop where
  o : ∀ i, Grid (-100) (r.o.get i) ∧ |r.o.get i| ≤ 2 ^ (49 : ℤ)
  d : BigV (-400) (rayDir r)
  move : ∀ i, (rayDir r).get i = 0 ∨ 2 ^ (-46 : ℤ) ≤ |(rayDir r).get i * t|
  far : ∀ i, |(rayDir r).get i * t| ≤ 2 ^ (48 : ℤ)
  slack : slack ≤ |t| / 2

/-- the surface: not too thin, not black, and seen clearly from one side -/
structure SurfOk (A : Tri ℝ) (ρ : ι → ℝ) (d : V3 ℝ) (E G : ℝ) : Prop where
  tri : TriOk A.p1 A.p2 A.p3 E G
  R : ∀ k, Strength (ρ k)
  paint : ∃ k, EPS * (1 + 2 ^ (-40 : ℤ)) ≤ ρ k / Real.pi
  side : 2 ^ (-40 : ℤ) * G * (|d.x| + |d.y| + |d.z|) ≤ |dot d (trueNormal A.p1 A.p2 A.p3)|
  front : 2 ^ (-59 : ℤ) ≤ |dot d (trueNormal A.p1 A.p2 A.p3)|

/-- a light, for a point `x` that is computed with an error of at most `δ` in each coordinate: the error is at most `κ` of the distance, and the light is not at the limit of what
counts as black -/
structure LitOk (x : V3 ℝ) (δ κ : ℝ) (l : PLight ι) : Prop where
  pos : Place l.pos
  I : ∀ k, Strength (l.I k)
  apart : 0 < Geom.length (l.pos - x)
  near : δ ≤ κ * Geom.length (l.pos - x)
  limit : (∃ k, EPS * (1 + 2 ^ (-39 : ℤ) + 8 * κ) ≤ arriving l x k) ∨ ∀ k, arriving l x k ≤ EPS * (1 - 2 ^ (-39 : ℤ) - 8 * κ)

/-- the ray clearly meets `A` first, at the distance `t` (up to `slack`), the numbers are in the ranges, and each light is clearly seen or clearly hidden, also from the point at
the distance that the test reports -/
structure Shot (tris : List (Tri ℝ)) (w : World ι) (r : FRay ℝ) (mint : ℝ) (A : Tri ℝ) (t slack δ κ E G : ℝ) (vis : PLight ι → Prop) : Prop where
  mem : A ∈ tris
  hit : ClearHit r mint A t slack
  range : F.lt (.fin (t + slack)) r.maxt = true
  first : ∀ c ∈ tris, c = A ∨ Beyond r mint c (.fin (t + slack))
  ray : RayOk r t slack
  surf : SurfOk A (w.kd A) (rayDir r) E G
  err : ∀ i, |(rayDir r).get i| * slack + 2 ^ (-51 : ℤ) * (|r.o.get i| + |(rayDir r).get i * t|) ≤ δ
  small : κ ≤ 1 / 64
  lights : ∀ l ∈ w.lights, LitOk (rayAt r.o (rayDir r) t) δ κ l
  shadow : ∀ s, |s - t| ≤ slack → TriScene.dist r mint A = some s → ∀ l ∈ w.lights, (vis l ∧ Free tris (atR r.o (rayDir r) s) (rEps s) l) ∨ (¬ vis l ∧ Blocked tris (atR r.o (rayDir r) s) (rEps s) l)

/-! ### The point -/

theorem at_close {o d t s slack : ℝ} (ho : Grid (-100) o ∧ |o| ≤ 2 ^ (49 : ℤ)) (hm : d = 0 ∨ 2 ^ (-46 : ℤ) ≤ |d * t|) (hf : |d * t| ≤ 2 ^ (48 : ℤ)) (hsl : slack ≤ |t| / 2)
    (hs : |s - t| ≤ slack) :
    |double (o + double (d * s)) - (o + d * t)| ≤ |d| * slack + 2 ^ (-51 : ℤ) * (|o| + |d * t|) ∧ Grid (-100) (double (o + double (d * s))) ∧ |double (o + double (d * s))| ≤ 2 ^ (50 : ℤ) := by
  have u0 := uu_pos (K := ℝ)
  have u1 : (uu : ℝ) ≤ 1 / 64 := by rw [uu_eq]; norm_num
  have e51 : (2 : ℝ) ^ (-51 : ℤ) = 4 * uu := by rw [uu, show (-51 : ℤ) = 2 + -53 by norm_num, zpow_add₀ two_ne_zero]; norm_num
  have sl0 : 0 ≤ slack := (abs_nonneg _).trans hs
  have ds : |d * s - d * t| ≤ |d| * slack := by rw [← mul_sub, abs_mul]; exact mul_le_mul_of_nonneg_left hs (abs_nonneg _)
  have dt : |d| * slack ≤ |d * t| / 2 := by rw [abs_mul]; nlinarith [abs_nonneg d]
  have d1 : |d * s| ≤ 3 / 2 * |d * t| := by
    have := abs_sub_abs_le_abs_sub (d * s) (d * t); linarith
  have d2 : |d * t| / 2 ≤ |d * s| := by
    have := abs_sub_abs_le_abs_sub (d * t) (d * s)
    rw [abs_sub_comm] at this; linarith
  -- the product
  obtain ⟨e1, g1⟩ : |double (d * s) - d * s| ≤ uu * |d * s| ∧ Grid (-100) (double (d * s)) := by
    rcases hm with rfl | hm
    · rw [zero_mul, double_zero]; simp; exact ⟨0, by simp⟩
    · have b : (2 : ℝ) ^ (-47 : ℤ) ≤ |d * s| := by
        rw [show (-47 : ℤ) = -46 - 1 by norm_num, ← half_pow]; generalize (2 : ℝ) ^ (-46 : ℤ) = z at *; linarith
      refine ⟨(normal_of (by norm_num) b).err, ?_⟩
      have hd : IsDouble ((2 : ℝ) ^ (-47 : ℤ)) := ⟨1, -47, by norm_num, by norm_num, by simp⟩
      refine grid_of (l := -47) (isDouble_double _) ?_
      rcases le_abs.1 b with h | h
      · have := double_mono h
        rw [double_of_isDouble hd] at this
        exact this.trans (le_abs_self _)
      · have := double_mono h
        rw [double_of_isDouble hd, double_neg] at this
        exact this.trans (neg_le_abs _)
  have g2 : Grid (-100) (o + double (d * s)) := ho.1.add g1
  have e2 := g2.err (by norm_num)
  change _ ≤ uu * _ at e2
  have m1 : |double (d * s)| ≤ |d * s| + uu * |d * s| := by
    have := abs_sub_abs_le_abs_sub (double (d * s)) (d * s); linarith
  have m2 : |o + double (d * s)| ≤ |o| + |double (d * s)| := abs_add_le _ _
  have m3 := abs_sub_abs_le_abs_sub (double (o + double (d * s))) (o + double (d * s))
  have p0 : 0 ≤ |d * t| := abs_nonneg _
  have q0 : 0 ≤ |d * s| := abs_nonneg _
  have r0 : 0 ≤ |o| := abs_nonneg _
  have k1 : uu * |d * s| ≤ uu * (3 / 2 * |d * t|) := mul_le_mul_of_nonneg_left d1 u0.le
  have k2 : uu * |o + double (d * s)| ≤ uu * (|o| + 2 * |d * t|) := by
    refine mul_le_mul_of_nonneg_left ?_ u0.le
    nlinarith
  refine ⟨?_, g2.round, ?_⟩
  · rw [e51]
    calc |double (o + double (d * s)) - (o + d * t)| = |(double (o + double (d * s)) - (o + double (d * s))) + ((double (d * s) - d * s) + (d * s - d * t))| := by congr 1; ring
      _ ≤ _ := abs_add_le _ _
      _ ≤ _ := add_le_add e2 (abs_add_le _ _)
      _ ≤ |d| * slack + 4 * uu * (|o| + |d * t|) := by nlinarith
  · have h50 : (2 : ℝ) ^ (50 : ℤ) = 4 * 2 ^ (48 : ℤ) := by norm_num
    have h49 : (2 : ℝ) ^ (49 : ℤ) = 2 * 2 ^ (48 : ℤ) := by norm_num
    have o2 := ho.2
    rw [h49] at o2
    rw [h50]
    generalize (2 : ℝ) ^ (48 : ℤ) = z at *
    nlinarith

theorem rayAt_get (o d : V3 ℝ) (t : ℝ) (i : Fin 3) : (rayAt o d t).get i = o.get i + d.get i * t := by fin_cases i <;> rfl

theorem point_close {r : FRay ℝ} {t slack s : ℝ} (h : RayOk r t slack) (hs : |s - t| ≤ slack) (i : Fin 3) :
    |(atR r.o (rayDir r) s).get i - (rayAt r.o (rayDir r) t).get i| ≤ |(rayDir r).get i| * slack + 2 ^ (-51 : ℤ) * (|r.o.get i| + |(rayDir r).get i * t|) ∧
      Grid (-100) ((atR r.o (rayDir r) s).get i) ∧ |(atR r.o (rayDir r) s).get i| ≤ 2 ^ (50 : ℤ) := by
  rw [atR_get, rayAt_get]
  exact at_close (h.o i) (h.move i) (h.far i) h.slack hs

/-! ### Moving the point -/

theorem one_norm (D : V3 ℝ) : |D.x| + |D.y| + |D.z| ≤ 2 * Geom.length D := by
  have h2 : Geom.length D * Geom.length D = sqLength D := Real.mul_self_sqrt (by simp only [sqLength]; nlinarith [mul_self_nonneg D.x, mul_self_nonneg D.y, mul_self_nonneg D.z])
  have hl0 : 0 ≤ Geom.length D := Real.sqrt_nonneg _
  apply abs_le_of_sq_le_sq' _ (by linarith) |>.2
  have : (2 * Geom.length D) ^ 2 = 4 * sqLength D := by rw [← h2]; ring
  rw [this]
  simp only [sqLength]
  rw [← abs_mul_abs_self D.x, ← abs_mul_abs_self D.y, ← abs_mul_abs_self D.z]
  nlinarith [sq_nonneg (|D.x| - |D.y|), sq_nonneg (|D.x| - |D.z|), sq_nonneg (|D.y| - |D.z|), sq_nonneg |D.x|, sq_nonneg |D.y|, sq_nonneg |D.z|]

/-- the ratio of two nearly equal lengths -/
theorem ratio_close {A B κ : ℝ} (hB : 0 < B) (k1 : κ ≤ 1 / 64) (h : |A - B| ≤ 2 * κ * B) : 0 < A ∧ |B / A - 1| ≤ 17 / 8 * κ := by
  have k0 : 0 ≤ κ := by
    have := (abs_nonneg _).trans h
    by_contra hk
    nlinarith [not_le.1 hk]
  have a := abs_le.1 h
  have kb : κ * B ≤ 1 / 64 * B := mul_le_mul_of_nonneg_right k1 hB.le
  have A0 : 0 < A := by nlinarith
  refine ⟨A0, ?_⟩
  rw [show B / A - 1 = (B - A) / A by field_simp, abs_div, abs_of_pos A0, div_le_iff₀ A0, abs_sub_comm]
  refine h.trans ?_
  nlinarith [mul_nonneg k0 hB.le, mul_le_mul_of_nonneg_left k1 (mul_nonneg k0 hB.le)]

/-- inverse square and cosine for a point that is moved -/
theorem falloff {I A B ua ub κ : ℝ} (hI : 0 ≤ I) (hB : 0 < B) (k1 : κ ≤ 1 / 64) (h : |A - B| ≤ 2 * κ * B) (hu : |ua - ub| ≤ 2 * κ * B) (u0 : 0 ≤ ub) (u1 : ub ≤ B) :
    |I / (A * A) * (ua / A) - I / (B * B) * (ub / B)| ≤ 12 * κ * (I / (B * B)) := by
  obtain ⟨A0, hx⟩ := ratio_close hB k1 h
  have k0 : 0 ≤ κ := by
    have := (abs_nonneg _).trans h
    by_contra hk
    nlinarith [not_le.1 hk]
  set x := B / A with hxd
  have v : |ua / B - ub / B| ≤ 2 * κ := by
    rw [← sub_div, abs_div, abs_of_pos hB, div_le_iff₀ hB]; exact hu
  have w0 : 0 ≤ ub / B := div_nonneg u0 hB.le
  have w1 : ub / B ≤ 1 := (div_le_one hB).2 u1
  have e : I / (A * A) * (ua / A) - I / (B * B) * (ub / B) = I / (B * B) * (x * x * x * (ua / B) - ub / B) := by
    rw [hxd]; field_simp
  rw [e, abs_mul, abs_of_nonneg (div_nonneg hI (mul_pos hB hB).le), mul_comm]
  refine mul_le_mul_of_nonneg_right ?_ (div_nonneg hI (mul_pos hB hB).le)
  generalize ua / B = p at *
  generalize ub / B = q at *
  have hx' := abs_le.1 hx
  have x0 : 29 / 30 ≤ x := by linarith
  have x1 : x ≤ 31 / 30 := by linarith
  have s1 : x * x ≤ 109 / 100 := by nlinarith
  have s2 : 0 ≤ x * x := mul_self_nonneg x
  have c1 : x * x * x ≤ 9 / 8 := by nlinarith
  have c0 : 0 ≤ x * x * x := by nlinarith
  have d1 : |x * x * x - 1| ≤ 7 * κ := by
    have : x * x * x - 1 = (x - 1) * (x * x + x + 1) := by ring
    rw [this, abs_mul, abs_of_nonneg (show 0 ≤ x * x + x + 1 by nlinarith)]
    nlinarith [abs_nonneg (x - 1)]
  rw [show x * x * x * p - q = x * x * x * (p - q) + (x * x * x - 1) * q by ring]
  refine (abs_add_le _ _).trans ?_
  rw [abs_mul (x * x * x), abs_mul _ q, abs_of_nonneg c0, abs_of_nonneg w0]
  nlinarith [abs_nonneg (p - q), abs_nonneg (x * x * x - 1)]

/-- the cosine on the side of the viewer, times the distance -/
noncomputable def fac (a c : ℝ) : ℝ := if 0 < a * c then |a| else 0

theorem fac_lip (a b c : ℝ) : |fac a c - fac b c| ≤ |a - b| := by
  rw [fac, fac]
  rcases lt_trichotomy c 0 with hc | hc | hc
  · have i : ∀ x : ℝ, 0 < x * c ↔ x < 0 := fun x =>
      ⟨fun h => by by_contra hx; exact absurd h (not_lt.2 (mul_nonpos_of_nonneg_of_nonpos (not_lt.1 hx) hc.le)), fun h => mul_pos_of_neg_of_neg h hc⟩
    simp only [i]
    split_ifs with h1 h2 h2
    · exact abs_abs_sub_abs_le _ _
    · rw [sub_zero, abs_abs, abs_of_neg h1]; exact (by linarith : -a ≤ -(a - b)).trans (neg_le_abs _)
    · rw [zero_sub, abs_neg, abs_abs, abs_of_neg h2]; exact (by linarith : -b ≤ a - b).trans (le_abs_self _)
    · simp
  · subst hc; simp
  · have i : ∀ x : ℝ, 0 < x * c ↔ 0 < x := fun x => mul_pos_iff_of_pos_right hc
    simp only [i]
    split_ifs with h1 h2 h2
    · exact abs_abs_sub_abs_le _ _
    · rw [sub_zero, abs_abs, abs_of_pos h1]; exact (by linarith : a ≤ a - b).trans (le_abs_self _)
    · rw [zero_sub, abs_neg, abs_abs, abs_of_pos h2]; exact (by linarith : b ≤ -(a - b)).trans (neg_le_abs _)
    · simp

theorem fac_le (a c : ℝ) : 0 ≤ fac a c ∧ fac a c ≤ |a| := by rw [fac]; split_ifs <;> simp

open Classical in
theorem lambertOf_eq (p N wo : V3 ℝ) (R : ι → ℝ) (vis : PLight ι → Prop) (l : PLight ι) (k : ι) :
    lambertOf p N N wo R vis l k = if vis l ∧ Bright l p then R k / Real.pi * (l.I k / (Geom.length (l.pos - p) * Geom.length (l.pos - p)) * (fac (dot (l.pos - p) N) (dot wo N) / Geom.length (l.pos - p))) else 0 := by
  have h2 : Geom.length (l.pos - p) * Geom.length (l.pos - p) = sqLength (l.pos - p) := Real.mul_self_sqrt (by simp only [sqLength]; nlinarith [mul_self_nonneg (l.pos - p).x, mul_self_nonneg (l.pos - p).y, mul_self_nonneg (l.pos - p).z])
  have l0 : 0 ≤ Geom.length (l.pos - p) := Real.sqrt_nonneg _
  rw [lambertOf, h2, ← arriving, fac]
  by_cases hv : vis l ∧ Bright l p
  · rw [if_pos hv]
    by_cases hs : 0 < dot (l.pos - p) N * dot wo N
    · rw [if_pos ⟨hv.1, hv.2, hs⟩, if_pos hs, cosAt, abs_div, abs_of_nonneg l0, mul_assoc]
    · rw [if_neg (fun h => hs h.2.2), if_neg hs]; simp
  · rw [if_neg (fun h => hv ⟨h.1, h.2.1⟩), if_neg hv]

/-- what is known about the moved point -/
theorem moved {x p : V3 ℝ} {δ κ : ℝ} {l : PLight ι} (h : LitOk x δ κ l) (k1 : κ ≤ 1 / 64) (hp : ∀ i, |p.get i - x.get i| ≤ δ) :
    |Geom.length (l.pos - p) - Geom.length (l.pos - x)| ≤ 2 * κ * Geom.length (l.pos - x) ∧ 0 < Geom.length (l.pos - p) ∧ 0 ≤ κ ∧
      (∀ k, arriving l p k ≤ (1 + 5 * κ) * arriving l x k ∧ (1 - 5 * κ) * arriving l x k ≤ arriving l p k) := by
  have d : ∀ i, |(l.pos - p).get i - (l.pos - x).get i| ≤ δ := fun i => by
    rw [sub_get', sub_get', sub_sub_sub_cancel_left, abs_sub_comm]; exact hp i
  have c := (len_close d).trans (by linarith [h.near] : 2 * δ ≤ 2 * (κ * Geom.length (l.pos - x)))
  rw [← mul_assoc] at c
  obtain ⟨A0, hx⟩ := ratio_close h.apart k1 c
  have k0 : 0 ≤ κ := by
    have := (abs_nonneg _).trans c
    by_contra hk
    nlinarith [not_le.1 hk, h.apart]
  refine ⟨c, A0, k0, fun k => ?_⟩
  have h2 : ∀ v : V3 ℝ, sqLength v = Geom.length v * Geom.length v := fun v => (Real.mul_self_sqrt (by simp only [sqLength]; nlinarith [mul_self_nonneg v.x, mul_self_nonneg v.y, mul_self_nonneg v.z])).symm
  have B0 := h.apart
  have e : arriving l p k = (Geom.length (l.pos - x) / Geom.length (l.pos - p)) * (Geom.length (l.pos - x) / Geom.length (l.pos - p)) * arriving l x k := by
    rw [arriving, arriving, h2, h2]; field_simp
  have a0 : 0 ≤ arriving l x k := div_nonneg (h.I k).1 (by rw [h2]; exact (mul_pos B0 B0).le)
  rw [e]
  generalize Geom.length (l.pos - x) / Geom.length (l.pos - p) = y at *
  have hy := abs_le.1 hx
  constructor <;> refine mul_le_mul_of_nonneg_right ?_ a0 <;> nlinarith

/-- Lambert's law for a point that is moved a little -/
theorem lambert_move {x p N : V3 ℝ} (hN : sqLength N = 1) {δ κ : ℝ} {l : PLight ι} (h : LitOk x δ κ l) (k1 : κ ≤ 1 / 64) (hp : ∀ i, |p.get i - x.get i| ≤ δ)
    (wo : V3 ℝ) (R : ι → ℝ) (hR : ∀ k, 0 ≤ R k / Real.pi) (vis : PLight ι → Prop) (k : ι) :
    |lambertOf p N N wo R vis l k - lambertOf x N N wo R vis l k| ≤ 12 * κ * (R k / Real.pi * arriving l x k) := by
  classical
  obtain ⟨c, A0, k0, ha⟩ := moved h k1 hp
  have B0 := h.apart
  have h2 : ∀ v : V3 ℝ, sqLength v = Geom.length v * Geom.length v := fun v => (Real.mul_self_sqrt (by simp only [sqLength]; nlinarith [mul_self_nonneg v.x, mul_self_nonneg v.y, mul_self_nonneg v.z])).symm
  have a0 : ∀ k, 0 ≤ arriving l x k := fun k => div_nonneg (h.I k).1 (by rw [h2]; exact (mul_pos B0 B0).le)
  have z39 : (0 : ℝ) < 2 ^ (-39 : ℤ) := two_zpow_pos _
  have ep := eps_pos
  have br : Bright l p ↔ Bright l x := by
    rcases h.limit with ⟨j, hj⟩ | hj
    · have hx : EPS ≤ arriving l x j := by nlinarith
      have hq := (ha j).2
      refine ⟨fun _ => ⟨j, hx⟩, fun _ => ⟨j, ?_⟩⟩
      have b1 : EPS * ((1 - 5 * κ) * (1 + 8 * κ)) ≤ (1 - 5 * κ) * arriving l x j := by
        have := mul_le_mul_of_nonneg_left hj (show 0 ≤ 1 - 5 * κ by linarith)
        nlinarith [mul_pos ep z39, mul_nonneg (show 0 ≤ 1 - 5 * κ by linarith) (mul_pos ep z39).le]
      have b2 : 1 ≤ (1 - 5 * κ) * (1 + 8 * κ) := by nlinarith
      nlinarith
    · have hx : ∀ j, ¬ EPS ≤ arriving l x j := fun j => by
        have := hj j; push Not; nlinarith [mul_pos ep z39, mul_nonneg ep.le k0]
      have hq : ∀ j, ¬ EPS ≤ arriving l p j := fun j => by
        push Not
        refine (ha j).1.trans_lt ?_
        have b1 := mul_le_mul_of_nonneg_left (hj j) (show 0 ≤ 1 + 5 * κ by linarith)
        refine b1.trans_lt ?_
        have b2 : (1 + 5 * κ) * (1 - 2 ^ (-39 : ℤ) - 8 * κ) < 1 := by nlinarith [mul_nonneg k0 z39.le]
        calc (1 + 5 * κ) * (EPS * (1 - 2 ^ (-39 : ℤ) - 8 * κ)) = EPS * ((1 + 5 * κ) * (1 - 2 ^ (-39 : ℤ) - 8 * κ)) := by ring
          _ < EPS * 1 := mul_lt_mul_of_pos_left b2 ep
          _ = _ := mul_one _
      exact ⟨fun ⟨j, hj⟩ => absurd hj (hq j), fun ⟨j, hj⟩ => absurd hj (hx j)⟩
  rw [lambertOf_eq, lambertOf_eq]
  by_cases hv : vis l ∧ Bright l x
  swap
  · rw [if_neg (fun h => hv ⟨h.1, br.1 h.2⟩), if_neg hv, sub_zero, abs_zero]
    exact mul_nonneg (by linarith) (mul_nonneg (hR k) (a0 k))
  rw [if_pos ⟨hv.1, br.2 hv.2⟩, if_pos hv, ← mul_sub, abs_mul, abs_of_nonneg (hR k), arriving, h2 (l.pos - x), mul_left_comm]
  refine mul_le_mul_of_nonneg_left ?_ (hR k)
  have Nl : Geom.length N = 1 := by rw [Geom.length, hN, Real.sqrt_one]
  refine falloff (h.I k).1 B0 k1 c ?_ (fac_le _ _).1 ?_
  · refine (fac_lip _ _ _).trans ?_
    have e : dot (l.pos - p) N - dot (l.pos - x) N = dot N (x - p) := by simp only [dot, V3.sub_x, V3.sub_y, V3.sub_z]; ring
    rw [e]
    refine (dot_le N (x - p) (fun i => by rw [sub_get', abs_sub_comm]; exact hp i)).trans ?_
    have n1 := one_norm N
    rw [Nl, mul_one] at n1
    have d0 : 0 ≤ δ := (abs_nonneg _).trans (hp 0)
    have := mul_le_mul_of_nonneg_right n1 d0
    linarith [h.near]
  · refine (fac_le _ _).2.trans ?_
    have cs := cauchy (l.pos - x) N
    rw [hN, mul_one] at cs
    have t : |dot (l.pos - x) N| ≤ |(l.pos - x).x| * |N.x| + |(l.pos - x).y| * |N.y| + |(l.pos - x).z| * |N.z| := by
      rw [← abs_mul, ← abs_mul, ← abs_mul]; exact abs_add_three _ _ _
    refine t.trans (Real.le_sqrt_of_sq_le cs)

/-! ### One ray -/

theorem lamp_of {x p : V3 ℝ} {δ κ : ℝ} {l : PLight ι} (h : LitOk x δ κ l) (k1 : κ ≤ 1 / 64) (hp : ∀ i, |p.get i - x.get i| ≤ δ) : LampOk p l := by
  obtain ⟨c, A0, k0, ha⟩ := moved h k1 hp
  have ep := eps_pos
  have z : (0 : ℝ) < 2 ^ (-40 : ℤ) := two_zpow_pos _
  have z39 : (2 : ℝ) ^ (-39 : ℤ) = 2 * 2 ^ (-40 : ℤ) := by rw [show (-39 : ℤ) = 1 + -40 by norm_num, zpow_add₀ two_ne_zero, zpow_one]
  refine ⟨h.pos, ?_, h.I, ?_⟩
  · rintro rfl
    have : l.pos - l.pos = (⟨0, 0, 0⟩ : V3 ℝ) := V3.ext (sub_self _) (sub_self _) (sub_self _)
    rw [this] at A0
    simp [Geom.length, sqLength] at A0
  · rcases h.limit with ⟨j, hj⟩ | hj
    · refine Or.inl ⟨j, le_trans ?_ (ha j).2⟩
      have b := mul_le_mul_of_nonneg_left hj (show 0 ≤ 1 - 5 * κ by linarith)
      refine le_trans ?_ b
      rw [z39]
      generalize (2 : ℝ) ^ (-40 : ℤ) = u at *
      have b2 : 1 + u ≤ (1 - 5 * κ) * (1 + 2 * u + 8 * κ) := by nlinarith [mul_nonneg k0 z.le]
      calc EPS * (1 + u) ≤ EPS * ((1 - 5 * κ) * (1 + 2 * u + 8 * κ)) := mul_le_mul_of_nonneg_left b2 ep.le
        _ = _ := by ring
    · refine Or.inr fun j => (ha j).1.trans ?_
      have b := mul_le_mul_of_nonneg_left (hj j) (show 0 ≤ 1 + 5 * κ by linarith)
      refine b.trans ?_
      rw [z39]
      generalize (2 : ℝ) ^ (-40 : ℤ) = u at *
      have b2 : (1 + 5 * κ) * (1 - 2 * u - 8 * κ) ≤ 1 - u := by nlinarith [mul_nonneg k0 z.le]
      calc (1 + 5 * κ) * (EPS * (1 - 2 * u - 8 * κ)) = EPS * ((1 + 5 * κ) * (1 - 2 * u - 8 * κ)) := by ring
        _ ≤ _ := mul_le_mul_of_nonneg_left b2 ep.le

theorem spot_on {w : World ι} {r : FRay ℝ} {A : Tri ℝ} {t slack E G : ℝ} (hr : RayOk r t slack) (h : SurfOk A (w.kd A) (rayDir r) E G) {s : ℝ} (hs : |s - t| ≤ slack) :
    OnTri (w.spot r A s) A.p1 A.p2 A.p3 E G := by
  have nd : ∀ v : V3 ℝ, dot (-v) (trueNormal A.p1 A.p2 A.p3) = -dot v (trueNormal A.p1 A.p2 A.p3) := fun v => by simp only [dot, V3.neg_x, V3.neg_y, V3.neg_z]; ring
  refine ⟨h.tri, ⟨w.flip A, rfl, rfl⟩, fun i => (point_close hr hs i).2, ⟨big_neg hr.d.1, big_neg hr.d.2.1, big_neg hr.d.2.2⟩, h.R, h.paint, ?_, ?_⟩
  · change 2 ^ (-40 : ℤ) * G * (|-(rayDir r).x| + |-(rayDir r).y| + |-(rayDir r).z|) ≤ |dot (-rayDir r) _|
    rw [nd, abs_neg, abs_neg, abs_neg, abs_neg]; exact h.side
  · change _ ≤ |dot (-rayDir r) _|
    rw [nd, abs_neg]; exact h.front

theorem unoccluded_iff (cfg : Config ℝ) (tris : List (Tri ℝ)) (hne : tris ≠ []) (node : Node ℝ) (ordered : List (Tri ℝ)) (total : ℕ)
    (hb : buildG (decideR ieee cfg) tris tris.length (buildData Tri.bound tris) [] 0 = .ok (node, ordered, total)) (hh : node.height ≤ 64)
    (bvh : Bvh ℝ (Tri ℝ)) (hbvh : mkR ieee cfg Tri.bound tris = .ok bvh) (fuel : ℕ) (hf : fuel ≥ total) (p : V3 ℝ) (eps : ℝ) (l : PLight ι) (vis : Prop)
    (h : (vis ∧ Free tris p eps l) ∨ (¬ vis ∧ Blocked tris p eps l)) : Unoccluded bvh fuel p eps l ↔ vis := by
  have nz : NoNegZero (shadowRay p eps l) := ⟨Or.inr rfl, Or.inr rfl, Or.inr rfl⟩
  rcases h with ⟨hv, hfree⟩ | ⟨hv, A, hA, t, slack, hc, hlt⟩
  · obtain ⟨bvh', h1, h2⟩ := C186_miss cfg tris hne (shadowRay p eps l) eps rfl nz node ordered total hb hh hfree
    rw [hbvh] at h1
    cases h1
    exact ⟨fun _ => hv, fun _ => (h2 fuel hf).2⟩
  · obtain ⟨bvh', acc, res, h1, h2, -, -, -, h6⟩ := TriScene.C181_scene cfg tris hne (shadowRay p eps l) eps rfl nz node ordered total hb hh
    rw [hbvh] at h1
    cases h1
    have := (h2 fuel hf).2
    rw [h6 A hA t slack hc hlt] at this
    refine ⟨fun hu => ?_, fun h => absurd h hv⟩
    rw [Unoccluded, this] at hu
    cases hu

/-- the spot that the program computes on a triangle, and the loop over the lights: `V` is what the shadow test answers, `s` the reported distance -/
theorem ray_core (w : World ι) (hn : w.lights.length ≤ 2 ^ 50) (r : FRay ℝ) (A : Tri ℝ) (t slack δ κ E G s : ℝ) (vis V : PLight ι → Prop) (ray : RayOk r t slack)
    (surf : SurfOk A (w.kd A) (rayDir r) E G) (err : ∀ i, |(rayDir r).get i| * slack + 2 ^ (-51 : ℤ) * (|r.o.get i| + |(rayDir r).get i * t|) ≤ δ) (small : κ ≤ 1 / 64)
    (lights : ∀ l ∈ w.lights, LitOk (rayAt r.o (rayDir r) t) δ κ l) (hs : |s - t| ≤ slack) (un : ∀ l ∈ w.lights, V l ↔ vis l) (L : ι → ℝ)
    (hL : LoopR (w.spot r A s) V w.lights (fun _ => 0) L) (k : ι) :
    |L k - w.radiance A (rayAt r.o (rayDir r) t) (rayDir r) vis k| ≤ (4 * ((w.lights.length + 52) * 2 ^ (-52 : ℤ) + 2 ^ (-45 : ℤ) * G) + 12 * κ) * w.most A (rayAt r.o (rayDir r) t) k := by
  set x := rayAt r.o (rayDir r) t with hx
  have pc : ∀ i, |(w.spot r A s).p.get i - x.get i| ≤ δ := fun i => (point_close ray hs i).1.trans (err i)
  have on := spot_on (w := w) ray surf hs
  have lamp : ∀ l ∈ w.lights, LampOk (w.spot r A s).p l := fun l hl => lamp_of (lights l hl) small pc
  have tr := C188_triangle (w.spot r A s) A.p1 A.p2 A.p3 E G on _ w.lights hn lamp L hL k
  have e : (w.lights.map fun l => lambert ((w.spot r A s).facing (trueNormal A.p1 A.p2 A.p3)) V l k) =
      w.lights.map fun l => lambert ((w.spot r A s).facing (trueNormal A.p1 A.p2 A.p3)) vis l k := by
    refine List.map_congr_left fun l hl => ?_
    exact lambert_congr _ _ _ l k (un l hl)
  rw [e] at tr
  have N1 : sqLength (trueNormal A.p1 A.p2 A.p3) = 1 := normalize_unit (nn_close surf.tri false).2.2.1
  have R0 : ∀ k, 0 ≤ w.kd A k / Real.pi := fun k => div_nonneg (surf.R k).1 Real.pi_pos.le
  have mv := sum_close w.lights (fun l => lambert ((w.spot r A s).facing (trueNormal A.p1 A.p2 A.p3)) vis l k)
    (fun l => lambertOf x (trueNormal A.p1 A.p2 A.p3) (trueNormal A.p1 A.p2 A.p3) (-rayDir r) (w.kd A) vis l k) (fun l => w.kd A k / Real.pi * arriving l x k) (12 * κ)
    (fun l hl => lambert_move N1 (lights l hl) small pc _ _ R0 vis k)
  have up : (w.lights.map fun l => 2 * ((w.spot r A s).R k / Real.pi * arriving l (w.spot r A s).p k)).sum ≤ 4 * w.most A x k := by
    have : ∀ ls : List (PLight ι), (∀ l ∈ ls, l ∈ w.lights) → (ls.map fun l => 2 * ((w.spot r A s).R k / Real.pi * arriving l (w.spot r A s).p k)).sum ≤
        4 * (ls.map fun l => w.kd A k / Real.pi * arriving l x k).sum := by
      intro ls
      induction ls with
      | nil => intro _; simp
      | cons l ls ih =>
        intro hls
        have i := ih fun a ha => hls a (by simp [ha])
        obtain ⟨-, -, k0, ha⟩ := moved (lights l (hls l (by simp))) small pc
        have a1 := (ha k).1
        have a2 := (ha k).2
        simp only [List.map_cons, List.sum_cons]
        have sm := small
        have x0 : 0 ≤ arriving l x k := div_nonneg ((lights l (hls l (by simp))).I k).1
          (by simp only [sqLength]; nlinarith [mul_self_nonneg (l.pos - x).x, mul_self_nonneg (l.pos - x).y, mul_self_nonneg (l.pos - x).z])
        have : w.kd A k / Real.pi * arriving l (w.spot r A s).p k ≤ w.kd A k / Real.pi * (2 * arriving l x k) := mul_le_mul_of_nonneg_left (by nlinarith) (R0 k)
        change 2 * (w.kd A k / Real.pi * arriving l (w.spot r A s).p k) + _ ≤ _
        linarith
    exact this w.lights fun _ h => h
  have C0 : 0 ≤ ((w.lights.length : ℝ) + 52) * 2 ^ (-52 : ℤ) + 2 ^ (-45 : ℤ) * G := by
    have g : 0 ≤ G := by
      have := (nn_close surf.tri false).2.1
      linarith
    positivity
  have fin := mul_le_mul_of_nonneg_left up C0
  change |_ - (w.lights.map _).sum| ≤ _ at mv
  rw [World.radiance]
  have tri := abs_add_le (L k - (w.lights.map fun l => lambert ((w.spot r A s).facing (trueNormal A.p1 A.p2 A.p3)) vis l k).sum)
    ((w.lights.map fun l => lambert ((w.spot r A s).facing (trueNormal A.p1 A.p2 A.p3)) vis l k).sum - (w.lights.map fun l => lambertOf x (trueNormal A.p1 A.p2 A.p3) (trueNormal A.p1 A.p2 A.p3) (-rayDir r) (w.kd A) vis l k).sum)
  rw [sub_add_sub_cancel] at tri
  refine tri.trans ?_
  rw [World.most] at *
  linarith

/-- **C189** One camera ray that clearly meets a matte triangle first: the radiance the program returns is what Lambert's law gives at the point where the ray meets the triangle, with
the normal of the triangle and the lights that are seen from it, up to `4((N + 52) 2^-52 + 2^-45 G) + 12 κ` of what the lights could add at most. -/
theorem C189_ray (cfg : Config ℝ) (tris : List (Tri ℝ)) (node : Node ℝ) (ordered : List (Tri ℝ)) (total : ℕ)
    (hb : buildG (decideR ieee cfg) tris tris.length (buildData Tri.bound tris) [] 0 = .ok (node, ordered, total)) (hh : node.height ≤ 64)
    (bvh : Bvh ℝ (Tri ℝ)) (hbvh : mkR ieee cfg Tri.bound tris = .ok bvh) (fuel : ℕ) (hf : fuel ≥ total)
    (w : World ι) (hn : w.lights.length ≤ 2 ^ 50) (r : FRay ℝ) (mint : ℝ) (hmint : r.mint = .fin mint) (hz : NoNegZero r) (A : Tri ℝ) (t slack δ κ E G : ℝ) (vis : PLight ι → Prop)
    (h : Shot tris w r mint A t slack δ κ E G vis) (L : ι → ℝ) (hL : RadR bvh fuel mint w r L) (k : ι) :
    |L k - w.radiance A (rayAt r.o (rayDir r) t) (rayDir r) vis k| ≤ (4 * ((w.lights.length + 52) * 2 ^ (-52 : ℤ) + 2 ^ (-45 : ℤ) * G) + 12 * κ) * w.most A (rayAt r.o (rayDir r) t) k := by
  have hne : tris ≠ [] := List.ne_nil_of_mem h.mem
  obtain ⟨bvh', s, e1, hs, e2⟩ := C186_first cfg tris r mint hmint hz node ordered total hb hh A h.mem t slack h.hit h.range h.first
  rw [hbvh] at e1
  cases e1
  have hd : TriScene.dist r mint A = some s := by
    obtain ⟨bvh', acc, res, a1, a2, a3, -⟩ := TriScene.C181_scene cfg tris hne r mint hmint hz node ordered total hb hh
    rw [hbvh] at a1
    cases a1
    have := (a2 fuel hf).1.symm.trans (e2 fuel hf).1
    injection this with this
    subst this
    rcases a3 with a3 | ⟨q, hq, s', b1, b2, hc, e, -⟩
    · have := congrArg Acc.hit a3; cases this
    · have k1 := congrArg Acc.maxt e
      have k2 := congrArg Acc.isect e
      simp only [F.fin.injEq, Option.some.injEq] at k1 k2
      subst k1; subst k2
      rw [TriScene.dist, hc]; rfl
  simp only [RadR, (e2 fuel hf).1] at hL
  exact ray_core w hn r A t slack δ κ E G s vis _ h.ray h.surf h.err h.small h.lights hs
    (fun l hl => unoccluded_iff cfg tris hne node ordered total hb hh bvh hbvh fuel hf _ _ l (vis l) (h.shadow s hs hd l hl)) L hL k

/-- **C189** A camera ray that clearly meets nothing: black. -/
theorem C189_background (cfg : Config ℝ) (tris : List (Tri ℝ)) (hne : tris ≠ []) (node : Node ℝ) (ordered : List (Tri ℝ)) (total : ℕ)
    (hb : buildG (decideR ieee cfg) tris tris.length (buildData Tri.bound tris) [] 0 = .ok (node, ordered, total)) (hh : node.height ≤ 64)
    (bvh : Bvh ℝ (Tri ℝ)) (hbvh : mkR ieee cfg Tri.bound tris = .ok bvh) (fuel : ℕ) (hf : fuel ≥ total)
    (w : World ι) (r : FRay ℝ) (mint : ℝ) (hmint : r.mint = .fin mint) (hz : NoNegZero r) (h : Sees r mint tris none) (L : ι → ℝ) (hL : RadR bvh fuel mint w r L) : L = fun _ => 0 := by
  obtain ⟨bvh', e1, e2⟩ := C186_miss cfg tris hne r mint hmint hz node ordered total hb hh h
  rw [hbvh] at e1
  cases e1
  simp only [RadR, (e2 fuel hf).1] at hL
  exact hL

/-! ### The picture -/

section
open Verif.FullR Verif.Sampler
open Verif.Film (Vec Film reach Covers sumW)
open Verif.FirstR (reach_covers)

variable {E : Type*}

/-- `X` is the radiance that belongs to the ray: Lambert's law at the point of the triangle that is clearly met first, the numbers being such that the program is within `η` of it; or
black if clearly nothing is met -/
def Shows (tris : List (Tri ℝ)) (w : World (Fin 3)) (r : FRay ℝ) (mint η : ℝ) (X : Fin 3 → ℝ) : Prop :=
  (∃ (A : Tri ℝ) (t slack δ κ E G : ℝ) (vis : PLight (Fin 3) → Prop), Shot tris w r mint A t slack δ κ E G vis ∧ X = w.radiance A (rayAt r.o (rayDir r) t) (rayDir r) vis ∧
    ∀ k, (4 * ((w.lights.length + 52) * 2 ^ (-52 : ℤ) + 2 ^ (-45 : ℤ) * G) + 12 * κ) * w.most A (rayAt r.o (rayDir r) t) k ≤ η) ∨
  (Sees r mint tris none ∧ X = fun _ => 0)

/-- the averages of two lists of radiances with the same weights -/
theorem reach_close (f : Film ℝ) (i j : ℕ) (k : Fin 3) (η : ℝ) : ∀ (log : List (Sample ℝ × Vec ℝ)) (X : Sample ℝ → Vec ℝ),
    (∀ s ∈ reach ieee f i j (calls log), 0 < s.1) → (∀ q ∈ log, Covers ieee f q.1.imageX q.1.imageY i j → |q.2 k - X q.1 k| ≤ η) →
    sumW (reach ieee f i j (calls (log.map fun q => (q.1, X q.1)))) = sumW (reach ieee f i j (calls log)) ∧
    |((reach ieee f i j (calls log)).map (fun s => s.1 * s.2 k)).sum - ((reach ieee f i j (calls (log.map fun q => (q.1, X q.1)))).map (fun s => s.1 * s.2 k)).sum| ≤
      η * sumW (reach ieee f i j (calls log))
  | [], X, _, _ => by simp [calls, reach, sumW]
  | q :: log, X, hp, h => by
    have ih := reach_close f i j k η log X
    simp only [calls, List.map_cons, reach] at *
    by_cases hc : Covers ieee f q.1.imageX q.1.imageY i j
    · simp only [if_pos hc] at *
      obtain ⟨a, b⟩ := ih (fun s hs => hp s (by simp [hs])) (fun q hq => h q (by simp [hq]))
      have w0 := hp _ List.mem_cons_self
      have hq := h q (by simp) hc
      simp only [sumW, List.map_cons, List.sum_cons] at *
      refine ⟨by rw [a], ?_⟩
      generalize Film.wtAt ieee f q.1.imageX q.1.imageY i j = wt at *
      rw [add_sub_add_comm, ← mul_sub, mul_add]
      refine (abs_add_le _ _).trans (add_le_add ?_ b)
      rw [abs_mul, abs_of_pos w0, mul_comm]
      exact mul_le_mul_of_nonneg_right hq w0.le
    · simp only [if_neg hc] at *
      exact ih hp (fun q hq => h q (by simp [hq]))

/-- the picture, if the radiance of each sample that reaches the pixel is within `η` of `X` -/
theorem picture_core (rad : E → Sample ℝ → Vec ℝ × E)
    (M : ℝ) (hM : ∀ e smp k, Film.Low (-500) ((rad e smp).1 k) ∧ (rad e smp).1 k ≤ M)
    (r : Rand ℝ) (hr : UnitDraws r) (hs : Shuffles r) (x0 y0 : ℤ) (wd ht : ℕ) (hw : 0 < wd) (xst yst : ℕ) (hcnt : max xst 1 * max yst 1 ≤ 2 ^ 53)
    (jitter : Bool) (sOpen sClose : ℝ) (n1 n2 : List ℕ) (h1 : ∀ n ∈ n1, n ≤ 2 ^ 53) (h2 : ∀ n ∈ n2, n ≤ 2 ^ 53) (st : RS) (e : E) (f0 : Film ℝ)
    (hf : Ready f0 x0 y0 wd ht (max xst 1 * max yst 1)) :
    ∃ s1 log, renderR ieee rad r n1 n2 (wd * ht + 1) ⟨sampler x0 y0 wd ht xst yst jitter sOpen sClose, st, e, f0⟩ = some (s1, log) ∧
      ∀ i < f0.xCnt, ∀ j < f0.yCnt, ∀ (η : ℝ) (X : Sample ℝ → Vec ℝ),
        (∀ q ∈ log, Covers ieee f0 q.1.imageX q.1.imageY i j → ∀ e' k, |(rad e' q.1).1 k - X q.1 k| ≤ η) →
        let l := reach ieee f0 i j (calls (log.map fun q => (q.1, X q.1)))
        max xst 1 * max yst 1 ≤ l.length ∧ (∀ s ∈ l, 0 < s.1) ∧
        ∀ k, |pictureR ieee s1.film j i k - (l.map (fun s => s.1 * s.2 k)).sum / sumW l| ≤ η + (3 / 1000000 * M + ((l.length + 9) * 2 ^ (-47 : ℤ) * M + 2 ^ (-1075 : ℤ))) := by
  obtain ⟨s1, log, e1, e2, e3⟩ := C178_picture r hr hs x0 y0 wd ht hw xst yst hcnt jitter sOpen sClose rad M hM n1 n2 h1 h2 st e f0 hf
  refine ⟨s1, log, e1, fun i hi j hj η X hX => ?_⟩
  intro l
  obtain ⟨a1, a2, -, a4⟩ := e3 i hi j hj
  have close : ∀ k, ∀ q ∈ log, Covers ieee f0 q.1.imageX q.1.imageY i j → |q.2 k - X q.1 k| ≤ η := fun k q hq hc => by
    obtain ⟨e', he⟩ := e2 q hq
    have := hX q hq hc e' k
    rwa [← he] at this
  have len : ∀ (log : List (Sample ℝ × Vec ℝ)), (reach ieee f0 i j (calls (log.map fun q => (q.1, X q.1)))).map Prod.fst = (reach ieee f0 i j (calls log)).map Prod.fst := by
    intro log
    induction log with
    | nil => rfl
    | cons q log ih =>
      simp only [calls, List.map_cons, reach] at *
      by_cases hc : Covers ieee f0 q.1.imageX q.1.imageY i j
      · simp only [if_pos hc, List.map_cons, ih]
      · simp only [if_neg hc, ih]
  have hlen : l.length = (reach ieee f0 i j (calls log)).length := by
    have := congrArg List.length (len log)
    simpa only [List.length_map] using this
  have hp : ∀ s ∈ l, 0 < s.1 := fun s hs => by
    have : s.1 ∈ l.map Prod.fst := List.mem_map_of_mem hs
    rw [show l.map Prod.fst = _ from len log] at this
    obtain ⟨s', hs', e⟩ := List.mem_map.1 this
    rw [← e]; exact a2 s' hs'
  refine ⟨by rw [hlen]; exact a1, hp, fun k => ?_⟩
  obtain ⟨b1, b2⟩ := reach_close f0 i j k η log X a2 (close k)
  have c := a4 k
  change |_ - (List.map _ (reach ieee f0 i j (calls log))).sum / sumW (reach ieee f0 i j (calls log))| ≤ _ at c
  rw [hlen]
  change |_ - (l.map _).sum / sumW l| ≤ _
  change sumW l = _ at b1
  rw [b1]
  have l0 : 0 < (reach ieee f0 i j (calls log)).length := lt_of_lt_of_le (Nat.mul_pos (by omega) (by omega)) a1
  have S0 : 0 < sumW (reach ieee f0 i j (calls log)) := by
    rw [sumW]
    refine List.sum_pos _ ?_ ?_
    · intro x hx
      obtain ⟨s, hs, rfl⟩ := List.mem_map.1 hx
      exact a2 s hs
    · simpa [List.ne_nil_iff_length_pos] using l0
  have d : |(List.map (fun s => s.1 * s.2 k) (reach ieee f0 i j (calls log))).sum / sumW (reach ieee f0 i j (calls log)) - (l.map fun s => s.1 * s.2 k).sum / sumW (reach ieee f0 i j (calls log))| ≤ η := by
    rw [← sub_div, abs_div, abs_of_pos S0, div_le_iff₀ S0]
    exact b2
  have tri := abs_add_le (pictureR ieee s1.film j i k - (List.map (fun s => s.1 * s.2 k) (reach ieee f0 i j (calls log))).sum / sumW (reach ieee f0 i j (calls log)))
    ((List.map (fun s => s.1 * s.2 k) (reach ieee f0 i j (calls log))).sum / sumW (reach ieee f0 i j (calls log)) - (l.map fun s => s.1 * s.2 k).sum / sumW (reach ieee f0 i j (calls log)))
  rw [sub_add_sub_cancel] at tri
  linarith

/-- **C189** The whole rendering of a scene of matte triangles under point lights in binary64.  Let `rad` be what the program may return for the ray of a sample (any order of summation
in the scalar products).  The rendering ends without an exception, and for every pixel for which the rays of all samples that reach it clearly meet a triangle or clearly nothing, each
channel of the pixel is the weighted average, with the weights of the filter, of the radiances that Lambert's law gives for the points that the rays meet, up to `η` and the error of the
film. -/
theorem C189_picture (cfg : Config ℝ) (tris : List (Tri ℝ)) (hne : tris ≠ []) (node : Node ℝ) (ordered : List (Tri ℝ)) (total : ℕ)
    (hbuild : buildG (decideR ieee cfg) tris tris.length (buildData Tri.bound tris) [] 0 = .ok (node, ordered, total)) (hh : node.height ≤ 64)
    (w : World (Fin 3)) (hn : w.lights.length ≤ 2 ^ 50) (bvh : Bvh ℝ (Tri ℝ)) (hbvh : mkR ieee cfg Tri.bound tris = .ok bvh) (fuel : ℕ) (hfuel : fuel ≥ total)
    (mint : ℝ) (ray : Sample ℝ → FRay ℝ) (hmint : ∀ smp, (ray smp).mint = .fin mint) (hz : ∀ smp, NoNegZero (ray smp))
    (rad : E → Sample ℝ → Vec ℝ × E) (hrad : ∀ e smp, RadR bvh fuel mint w (ray smp) (rad e smp).1)
    (M : ℝ) (hM : ∀ e smp k, Film.Low (-500) ((rad e smp).1 k) ∧ (rad e smp).1 k ≤ M)
    (r : Rand ℝ) (hr : UnitDraws r) (hs : Shuffles r) (x0 y0 : ℤ) (wd ht : ℕ) (hw : 0 < wd) (xst yst : ℕ) (hcnt : max xst 1 * max yst 1 ≤ 2 ^ 53)
    (jitter : Bool) (sOpen sClose : ℝ) (n1 n2 : List ℕ) (h1 : ∀ n ∈ n1, n ≤ 2 ^ 53) (h2 : ∀ n ∈ n2, n ≤ 2 ^ 53) (st : RS) (e : E) (f0 : Film ℝ)
    (hf : Ready f0 x0 y0 wd ht (max xst 1 * max yst 1)) :
    ∃ s1 log, renderR ieee rad r n1 n2 (wd * ht + 1) ⟨sampler x0 y0 wd ht xst yst jitter sOpen sClose, st, e, f0⟩ = some (s1, log) ∧
      ∀ i < f0.xCnt, ∀ j < f0.yCnt, ∀ (η : ℝ) (X : Sample ℝ → Vec ℝ),
        (∀ q ∈ log, Covers ieee f0 q.1.imageX q.1.imageY i j → Shows tris w (ray q.1) mint η (X q.1)) → 0 ≤ η →
        let l := reach ieee f0 i j (calls (log.map fun q => (q.1, X q.1)))
        max xst 1 * max yst 1 ≤ l.length ∧ (∀ s ∈ l, 0 < s.1) ∧
        ∀ k, |pictureR ieee s1.film j i k - (l.map (fun s => s.1 * s.2 k)).sum / sumW l| ≤ η + (3 / 1000000 * M + ((l.length + 9) * 2 ^ (-47 : ℤ) * M + 2 ^ (-1075 : ℤ))) := by
  obtain ⟨s1, log, e1, e2⟩ := picture_core rad M hM r hr hs x0 y0 wd ht hw xst yst hcnt jitter sOpen sClose n1 n2 h1 h2 st e f0 hf
  refine ⟨s1, log, e1, fun i hi j hj η X hX η0 => e2 i hi j hj η X fun q hq hc e' k => ?_⟩
  have hL := hrad e' q.1
  rcases hX q hq hc with ⟨A, t, slack, δ, κ, E, G, vis, sh, ex, hη⟩ | ⟨hsee, ex⟩
  · rw [ex]
    exact (C189_ray cfg tris node ordered total hbuild hh bvh hbvh fuel hfuel w hn (ray q.1) mint (hmint _) (hz _) A t slack δ κ E G vis sh _ hL k).trans (hη k)
  · rw [ex, C189_background cfg tris hne node ordered total hbuild hh bvh hbvh fuel hfuel w (ray q.1) mint (hmint _) (hz _) hsee _ hL, sub_zero, abs_zero]
    exact η0

end

/-! ### Concrete case -/

/-- a ray that looks down on the spot of `demoSpot` from the height 4 -/
noncomputable def demoRay : FRay ℝ := ⟨⟨1 / 4, 1 / 4, 4⟩, ⟨⟨0, false⟩, ⟨0, false⟩, ⟨-1, false⟩⟩, .fin 0, .pinf⟩
noncomputable def demoTri : Tri ℝ := ⟨⟨1, 0, 0⟩, ⟨0, 1, 0⟩, ⟨0, 0, 0⟩⟩
noncomputable def demoWorld : World (Fin 3) := ⟨fun _ _ => 1 / 2, fun _ => false, [demoLamp]⟩

theorem demo_dist {s : ℝ} (h : TriScene.dist demoRay 0 demoTri = some s) : s = 4 := by
  have dd : ∀ (n : ℤ) (x : ℝ), x = n * 2 ^ (-2 : ℤ) → |n| ≤ 2 ^ 53 → double x = x := fun n x e h => double_of_isDouble ⟨n, -2, h, by norm_num, e⟩
  have d0 : double (0 : ℝ) = 0 := double_zero
  have d1 : double (1 : ℝ) = 1 := dd 4 _ (by norm_num) (by norm_num)
  have d1' : double (-1 : ℝ) = -1 := dd (-4) _ (by norm_num) (by norm_num)
  have d4 : double (4 : ℝ) = 4 := dd 16 _ (by norm_num) (by norm_num)
  have d4' : double (-4 : ℝ) = -4 := dd (-16) _ (by norm_num) (by norm_num)
  simp [TriScene.dist, TriScene.openRay, Shape.coreR, Shape.subR, Shape.crossR, Shape.dotR, demoRay, demoTri, rayDir, Rounding.sub', Rounding.mul, Rounding.add, Rounding.div, ieee, d0, d1, d1', d4, d4'] at h
  exact h.2.2.symm

theorem demo_at : atR demoRay.o (rayDir demoRay) 4 = demoSpot.p := by
  have dd : ∀ (n : ℤ) (x : ℝ), x = n * 2 ^ (-2 : ℤ) → |n| ≤ 2 ^ 53 → double x = x := fun n x e h => double_of_isDouble ⟨n, -2, h, by norm_num, e⟩
  refine V3.ext ?_ ?_ ?_
  · change double (1 / 4 + double (0 * 4)) = 1 / 4
    rw [zero_mul, double_zero, add_zero]; exact dd 1 _ (by norm_num) (by norm_num)
  · change double (1 / 4 + double (0 * 4)) = 1 / 4
    rw [zero_mul, double_zero, add_zero]; exact dd 1 _ (by norm_num) (by norm_num)
  · change double (4 + double (-1 * 4)) = 0
    rw [dd (-16) (-1 * 4) (by norm_num) (by norm_num)]; norm_num [double_zero]

/-- the scene of one triangle and one lamp: the ray shows the triangle, with the radiance `1/π` -/
theorem demo_shot : Shot [demoTri] demoWorld demoRay 0 demoTri 4 (2 ^ (-38 : ℤ)) (2 ^ (-37 : ℤ)) (2 ^ (-38 : ℤ)) 1 1 (fun _ => True) ∧
    ∀ k, demoWorld.radiance demoTri (rayAt demoRay.o (rayDir demoRay) 4) (rayDir demoRay) (fun _ => True) k = 1 / Real.pi := by
  obtain ⟨on, lp, val⟩ := demo_ok
  have q := fun k => quarter_grid k
  have at4 : rayAt demoRay.o (rayDir demoRay) 4 = demoSpot.p := by
    refine V3.ext ?_ ?_ ?_ <;> norm_num [demoRay, rayDir, demoSpot, V3.rayAt]
  have arr : ∀ k, arriving demoLamp demoSpot.p k = 2 := fun k => by simp [arriving, demoLamp, demoSpot, sqLength]; norm_num
  have len2 : Geom.length (demoLamp.pos - demoSpot.p) = 2 := by
    simp [demoLamp, demoSpot, Geom.length, sqLength]
  have g : ∀ {n : ℤ} {x : ℝ}, x = n * 2 ^ (-2 : ℤ) → Grid (-200) x := fun {n x} h => Grid.mono (show (-200 : ℤ) ≤ -2 by norm_num) ⟨n, h⟩
  have g' : ∀ {n : ℤ} {x : ℝ}, x = n * 2 ^ (-2 : ℤ) → Grid (-100) x := fun {n x} h => Grid.mono (show (-100 : ℤ) ≤ -2 by norm_num) ⟨n, h⟩
  have g0 : Grid (-200) (0 : ℝ) := g (n := 0) (by simp)
  have g1 : Grid (-200) (1 : ℝ) := g (n := 4) (by norm_num)
  have gm : Grid (-200) (-1 : ℝ) := g (n := -4) (by norm_num)
  have g4 : Grid (-200) (4 : ℝ) := g (n := 16) (by norm_num)
  have gq : Grid (-200) (1 / 4 : ℝ) := g (n := 1) (by norm_num)
  have tl : Shape.tol demoTri.p1 demoTri.p2 demoTri.p3 (TriScene.openRay demoRay 0) 4 1 = 2 ^ (-41 : ℤ) := by
    simp [Shape.tol, TriScene.openRay, rayDir, dot, cross, demoTri, demoRay]; norm_num
  refine ⟨⟨by simp, ⟨4, 1, 2 ^ (-41 : ℤ), 1 / 4, 1 / 2, ⟨by norm_num, by norm_num, ⟨⟨g1, g0, g0⟩, ⟨g0, g1, g0⟩, ⟨g0, g0, g0⟩, ⟨gq, gq, g4⟩, ⟨g0, g0, gm⟩⟩, ?_, ?_, ?_, ?_⟩, ?_, tl.symm, by norm_num, ?_,
    by norm_num, by norm_num, by norm_num, by norm_num, by norm_num⟩, rfl, by simp, ⟨?_, ?_, ?_, ?_, by norm_num⟩, ⟨on.tri, on.R, on.paint, ?_, ?_⟩, ?_, by norm_num, ?_, ?_⟩, ?_⟩
  · norm_num [Shape.Within, demoTri]
  · norm_num [Shape.Within, demoTri]
  · norm_num [Shape.Within, TriScene.openRay, demoTri, demoRay, abs_le]
  · norm_num [Shape.Within, TriScene.openRay, rayDir, demoRay]
  · simp [Shape.Transversal, rayDir, dot, cross, demoTri, demoRay]
  · refine V3.ext ?_ ?_ ?_ <;> norm_num [V3.rayAt, Shape.bary, rayDir, demoTri, demoRay]
  · intro i
    fin_cases i
    · exact ⟨g' (n := 1) (by norm_num [demoRay, V3.get]), by norm_num [demoRay, V3.get, abs_le]⟩
    · exact ⟨g' (n := 1) (by norm_num [demoRay, V3.get]), by norm_num [demoRay, V3.get, abs_le]⟩
    · exact ⟨g' (n := 16) (by norm_num [demoRay, V3.get]), by norm_num [demoRay, V3.get, abs_le]⟩
  · exact ⟨big_of_double isDouble_zero (Or.inl rfl) (by norm_num), big_of_double isDouble_zero (Or.inl rfl) (by norm_num), big_of_double isDouble_neg_one (Or.inr (by norm_num [demoRay, rayDir])) (by norm_num)⟩
  · intro i; fin_cases i <;> norm_num [demoRay, rayDir, V3.get]
  · intro i; fin_cases i <;> norm_num [demoRay, rayDir, V3.get]
  · have := on.side
    simpa [demoSpot, demoRay, rayDir, dot, demoTri] using this
  · have := on.front
    simpa [demoSpot, demoRay, rayDir, dot, demoTri] using this
  · intro i; fin_cases i <;> norm_num [demoRay, rayDir, V3.get]
  · intro l hl
    simp only [demoWorld, List.mem_singleton] at hl
    subst hl
    rw [at4]
    refine ⟨lp.pos, lp.I, by rw [len2]; norm_num, by rw [len2]; norm_num, Or.inl ⟨0, ?_⟩⟩
    rw [arr]
    have es := eps_small
    have e0 := eps_pos
    have : EPS * (1 + 2 ^ (-39 : ℤ) + 8 * 2 ^ (-38 : ℤ)) ≤ EPS * (2 * (1 + 2 ^ (-40 : ℤ))) := mul_le_mul_of_nonneg_left (by norm_num) e0.le
    refine this.trans ?_
    rw [mul_left_comm]
    exact (mul_le_mul_of_nonneg_left es zero_le_two).trans (by norm_num)
  · intro s _ hd l hl
    rw [demo_dist hd]
    simp only [demoWorld, List.mem_singleton] at hl
    subst hl
    rw [demo_at]
    have re := SelfHit.rEps_ge (t := (4 : ℝ)) ((zpow_le_one_of_nonpos₀ (by norm_num : (1 : ℝ) ≤ 2) (by norm_num)).trans (by norm_num))
    exact Or.inl ⟨trivial, demo_free (by linarith)⟩
  · intro k
    rw [at4]
    simp only [World.radiance, demoWorld, List.map_cons, List.map_nil, List.sum_cons, List.sum_nil, add_zero]
    rw [← val k]
    change lambertOf _ _ _ (-rayDir demoRay) _ _ _ _ = lambertOf _ _ _ demoSpot.wo _ _ _ _
    congr 1
    refine V3.ext ?_ ?_ ?_ <;> simp [demoRay, rayDir, demoSpot]

end Verif.MatteP
