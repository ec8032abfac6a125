import Verif.Shape.Triangle
import Verif.Xform.Props
import Mathlib.Analysis.SpecialFunctions.Complex.Arg
import Mathlib.Algebra.QuadraticDiscriminant
/-!
# Spheres (C41)

Models `pytracer/shape/sphere.py` `Sphere`: the constructor 26-34, `object_bound` 39-41, `intersect` 125-224 (here: the hit decision, lines 133-183; the differential
geometry, lines 187-223, is in `Shape/SphereGeo.lean`), `intersect_p` 226-279.  Real arithmetic; `np.arctan2(y, x)` is the argument of `x + iy` (signed zeros are
not modelled); `np.roots` is taken to return the two roots of the quadratic, in either order — lines 147-148 sort them, so the order does not matter.
-/
namespace Verif.Shape
open V3 Xform

/-- the tolerance of `__init__.py` 23 -/
noncomputable def eps : ℝ := 1 / 100000

theorem eps_pos : 0 < eps := by unfold eps; norm_num

/-- `np.clip(x, lo, hi)` -/
noncomputable def npClip (x lo hi : ℝ) : ℝ := min (max x lo) hi

/-- the ray at parameter `t` (`geometry/__init__.py` 320-324) -/
noncomputable def Ray.pos (r : Ray ℝ) (t : ℝ) : V3 ℝ := rayAt r.o r.d t

/-- `self.w2o(r)` on a ray (`transform/__init__.py` 77-81, as in `Xform.Transform.ray`) -/
noncomputable def Ray.map (t : Transform ℝ) (r : Ray ℝ) : Ray ℝ := ⟨t.pt r.o, t.vec r.d, r.mint, r.maxt⟩

/-- sphere.py 161-163, disk.py 86-88: the angle about the z axis, from 0 to 2 pi -/
noncomputable def azimuth (p : V3 ℝ) : ℝ :=
  let phi := Complex.arg ⟨p.x, p.y⟩
  if phi < 0 then phi + 2 * Real.pi else phi

/-- `Sphere`, sphere.py 29-34 -/
structure Sphere where
  radius : ℝ
  zmin : ℝ
  zmax : ℝ
  phiMax : ℝ

/-- `Sphere.__init__`, sphere.py 26-34 (`thetaMin`, `thetaMax` are computed where they are used) -/
noncomputable def Sphere.init (rad z0 z1 pm : ℝ) : Sphere :=
  ⟨rad, npClip (min z0 z1) (-rad) rad, npClip (max z0 z1) (-rad) rad, Xform.rad (npClip pm 0 360)⟩

/-- sphere.py 159-160 -/
noncomputable def Sphere.nudge (s : Sphere) (p : V3 ℝ) : V3 ℝ :=
  if p.x = 0 ∧ p.y = 0 then ⟨eps * s.radius, p.y, p.z⟩ else p

/-- sphere.py 166-168 -/
def Sphere.clipped (s : Sphere) (p : V3 ℝ) (phi : ℝ) : Prop :=
  (s.zmin > -s.radius ∧ p.z < s.zmin) ∨ (s.zmax < s.radius ∧ p.z > s.zmax) ∨ phi > s.phiMax

open Classical in
/-- sphere.py 136-183: the hit parameter, the hit position in object space and its angle -/
noncomputable def Sphere.hitObj (s : Sphere) (ray : Ray ℝ) : Option (ℝ × V3 ℝ × ℝ) :=
  let A := sqLength ray.d
  let B := 2 * dot ray.d ray.o
  let C := sqLength ray.o - s.radius * s.radius
  let D := B * B - 4 * A * C
  if D ≤ 0 + eps then none else
  let t0 := (-B - Real.sqrt D) / (2 * A)
  let t1 := (-B + Real.sqrt D) / (2 * A)
  if (t0 : WithTop ℝ) > ray.maxt ∨ t1 < ray.mint then none else
  if t0 < ray.mint ∧ (t1 : WithTop ℝ) > ray.maxt then none else
  let thit := if t0 < ray.mint then t1 else t0
  let phit := s.nudge (ray.pos thit)
  let phi := azimuth phit
  if s.clipped phit phi then
    if thit = t1 ∨ (t1 : WithTop ℝ) > ray.maxt then none else
    let phit := s.nudge (ray.pos t1)
    let phi := azimuth phit
    if s.clipped phit phi then none else some (t1, phit, phi)
  else some (thit, phit, phi)

/-- `Sphere.intersect`, sphere.py 125-183 -/
noncomputable def Sphere.hit (s : Sphere) (w2o : Transform ℝ) (r : Ray ℝ) : Option (ℝ × V3 ℝ × ℝ) := s.hitObj (r.map w2o)

open Classical in
/-- `Sphere.intersect_p`, sphere.py 226-279 -/
noncomputable def Sphere.hitP (s : Sphere) (w2o : Transform ℝ) (r : Ray ℝ) : Bool :=
  let ray := r.map w2o
  let A := sqLength ray.d
  let B := 2 * dot ray.d ray.o
  let C := sqLength ray.o - s.radius * s.radius
  let D := B * B - 4 * A * C
  if D ≤ 0 + eps then false else
  let t0 := (-B - Real.sqrt D) / (2 * A)
  let t1 := (-B + Real.sqrt D) / (2 * A)
  if (t0 : WithTop ℝ) > ray.maxt ∨ t1 < ray.mint then false else
  if t0 < ray.mint ∧ (t1 : WithTop ℝ) > ray.maxt then false else
  let thit := if t0 < ray.mint then t1 else t0
  let phit := s.nudge (ray.pos thit)
  let phi := azimuth phit
  if s.clipped phit phi then
    if thit = t1 ∨ (t1 : WithTop ℝ) > ray.maxt then false else
    let phit := s.nudge (ray.pos t1)
    let phi := azimuth phit
    if s.clipped phit phi then false else true
  else true

/-- `Sphere.object_bound`, sphere.py 39-41 -/
noncomputable def Sphere.objectBound (s : Sphere) : BBox ℝ :=
  BBox.ofPoints ⟨-s.radius, -s.radius, s.zmin⟩ ⟨s.radius, s.radius, s.zmax⟩

/-! ### Specification -/

/-- `p` has an angle about the z axis between 0 and `phiMax` -/
def AngleWithin (phiMax : ℝ) (p : V3 ℝ) : Prop :=
  ∃ phi, 0 ≤ phi ∧ phi ≤ phiMax ∧ p.x = Real.sqrt (p.x ^ 2 + p.y ^ 2) * Real.cos phi ∧ p.y = Real.sqrt (p.x ^ 2 + p.y ^ 2) * Real.sin phi

/-- the (partial) sphere as a set of points: at distance `radius` from the origin, z between `zmin` and `zmax`, angle between 0 and `phiMax` -/
def OnSphere (s : Sphere) (p : V3 ℝ) : Prop :=
  sqLength p = s.radius ^ 2 ∧ s.zmin ≤ p.z ∧ p.z ≤ s.zmax ∧ AngleWithin s.phiMax p

/-- the parameters at which the ray is, within its range, on the sphere (seen through the world-to-object transform) -/
def Sphere.hits (s : Sphere) (w2o : Transform ℝ) (r : Ray ℝ) : Set ℝ :=
  {t | r.mint ≤ t ∧ (t : WithTop ℝ) ≤ r.maxt ∧ OnSphere s (w2o.pt (r.pos t))}

/-- `B² − 4AC` of the ray in object space: `4 (radius² |d|² − |o × d|²)`, see `C41_discriminant` -/
noncomputable def Sphere.discr (s : Sphere) (w2o : Transform ℝ) (r : Ray ℝ) : ℝ :=
  4 * (s.radius ^ 2 * sqLength (w2o.vec r.d) - sqLength (cross (w2o.pt r.o) (w2o.vec r.d)))

/-- a sphere as the constructor makes it -/
structure Sphere.Ok (s : Sphere) : Prop where
  radius : 0 < s.radius
  low : -s.radius ≤ s.zmin
  high : s.zmax ≤ s.radius
  phi0 : 0 ≤ s.phiMax
  phi1 : s.phiMax ≤ 2 * Real.pi

/-- every sphere the constructor makes from a positive radius is `Ok`, with `zmin ≤ zmax` -/
theorem Sphere.init_ok (rad z0 z1 pm : ℝ) (h : 0 < rad) : (Sphere.init rad z0 z1 pm).Ok ∧ (Sphere.init rad z0 z1 pm).zmin ≤ (Sphere.init rad z0 z1 pm).zmax := by
  have hm : min z0 z1 ≤ max z0 z1 := min_le_max
  have hpi := Real.pi_pos
  have a : 0 ≤ npClip pm 0 360 := le_min (le_max_right _ _) (by norm_num)
  have b : npClip pm 0 360 ≤ 360 := min_le_right _ _
  refine ⟨⟨h, le_min (le_max_right _ _) (by simp only [Sphere.init]; linarith), min_le_right _ _, ?_, ?_⟩, ?_⟩
  · simp only [Sphere.init, Xform.rad]; positivity
  · simp only [Sphere.init, Xform.rad]
    have := mul_le_mul_of_nonneg_right b hpi.le
    linarith
  · exact min_le_min (max_le_max hm le_rfl) le_rfl

theorem azimuth_spec (p : V3 ℝ) : 0 ≤ azimuth p ∧ azimuth p < 2 * Real.pi ∧ p.x = Real.sqrt (p.x ^ 2 + p.y ^ 2) * Real.cos (azimuth p) ∧
    p.y = Real.sqrt (p.x ^ 2 + p.y ^ 2) * Real.sin (azimuth p) := by
  have h1 := Complex.neg_pi_lt_arg ⟨p.x, p.y⟩
  have h2 := Complex.arg_le_pi ⟨p.x, p.y⟩
  have hn : ‖(⟨p.x, p.y⟩ : ℂ)‖ = √(p.x ^ 2 + p.y ^ 2) := by
    rw [Complex.norm_def, Complex.normSq_apply]; congr 1; ring
  have hc : ‖(⟨p.x, p.y⟩ : ℂ)‖ * Real.cos (Complex.arg ⟨p.x, p.y⟩) = p.x := Complex.norm_mul_cos_arg _
  have hs : ‖(⟨p.x, p.y⟩ : ℂ)‖ * Real.sin (Complex.arg ⟨p.x, p.y⟩) = p.y := Complex.norm_mul_sin_arg _
  rw [hn] at hc hs
  have hpi := Real.pi_pos
  simp only [azimuth]
  split_ifs with h
  · refine ⟨by linarith, by linarith, ?_, ?_⟩
    · rw [Real.cos_add_two_pi]; exact hc.symm
    · rw [Real.sin_add_two_pi]; exact hs.symm
  · exact ⟨not_lt.1 h, by linarith, hc.symm, hs.symm⟩

/-- off the z axis the angle in `[0, 2 pi)` is unique, so the specification's angle test is the code's -/
theorem angleWithin_iff {phiMax : ℝ} (h1 : phiMax ≤ 2 * Real.pi) (p : V3 ℝ) (hp : ¬(p.x = 0 ∧ p.y = 0)) (h0 : 0 ≤ phiMax) :
    AngleWithin phiMax p ↔ azimuth p ≤ phiMax := by
  obtain ⟨a0, a1, ac, as⟩ := azimuth_spec p
  constructor
  · rintro ⟨phi, b0, b1, bc, bs⟩
    have hr : 0 < Real.sqrt (p.x ^ 2 + p.y ^ 2) := by
      apply Real.sqrt_pos.2
      rcases not_and_or.1 hp with h | h
      · have := sq_pos_of_ne_zero h; positivity
      · have := sq_pos_of_ne_zero h; positivity
    have ec : Real.cos phi = Real.cos (azimuth p) := mul_left_cancel₀ hr.ne' (bc.symm.trans ac)
    have es : Real.sin phi = Real.sin (azimuth p) := mul_left_cancel₀ hr.ne' (bs.symm.trans as)
    rcases (b1.trans h1).eq_or_lt with h | h
    · rw [h, Real.cos_two_pi] at ec
      rw [h, Real.sin_two_pi] at es
      have : azimuth p = 0 := by
        have := (Real.cos_eq_one_iff_of_lt_of_lt (x := azimuth p) (by linarith [Real.pi_pos]) a1).1 ec.symm
        exact this
      rw [this]; exact h0
    · have hd : Real.cos (phi - azimuth p) = 1 := by
        rw [Real.cos_sub, ec, es]; nlinarith [Real.sin_sq_add_cos_sq (azimuth p)]
      have := (Real.cos_eq_one_iff_of_lt_of_lt (x := phi - azimuth p) (by linarith) (by linarith)).1 hd
      linarith
  · intro h
    exact ⟨_, a0, h, ac, as⟩

theorem azimuth_nudge {s : Sphere} (hs : 0 < s.radius) (p : V3 ℝ) (hp : p.x = 0 ∧ p.y = 0) : azimuth (s.nudge p) = 0 := by
  have : (⟨eps * s.radius, p.y⟩ : ℂ) = ((eps * s.radius : ℝ) : ℂ) := by apply Complex.ext <;> simp [hp.2]
  simp only [azimuth, Sphere.nudge, if_pos hp, this]
  rw [Complex.arg_ofReal_of_nonneg (mul_nonneg eps_pos.le hs.le)]
  simp

theorem nudge_z (s : Sphere) (p : V3 ℝ) : (s.nudge p).z = p.z := by unfold Sphere.nudge; split <;> rfl

/-- the code's clipping test is the complement of the specification, for points at distance `radius` -/
theorem clipped_iff {s : Sphere} (hs : s.Ok) (p : V3 ℝ) (hp : sqLength p = s.radius ^ 2) :
    s.clipped (s.nudge p) (azimuth (s.nudge p)) ↔ ¬ OnSphere s p := by
  have hz : p.z ^ 2 ≤ s.radius ^ 2 := by rw [← hp]; simp only [sqLength]; nlinarith [mul_self_nonneg p.x, mul_self_nonneg p.y]
  have hz' := abs_le_of_sq_le_sq' hz hs.radius.le
  have hangle : AngleWithin s.phiMax p ↔ azimuth (s.nudge p) ≤ s.phiMax := by
    by_cases h : p.x = 0 ∧ p.y = 0
    · rw [azimuth_nudge hs.radius p h]
      refine ⟨fun _ => hs.phi0, fun _ => ⟨0, le_rfl, hs.phi0, ?_, ?_⟩⟩ <;> simp [h.1, h.2]
    · rw [angleWithin_iff hs.phi1 p h hs.phi0]
      simp only [Sphere.nudge, if_neg h]
  have hl : (s.zmin > -s.radius ∧ p.z < s.zmin) ↔ ¬ s.zmin ≤ p.z := by
    constructor
    · rintro ⟨-, h⟩; exact not_le.2 h
    · intro h; exact ⟨by linarith [not_le.1 h, hz'.1], not_le.1 h⟩
  have hh : (s.zmax < s.radius ∧ p.z > s.zmax) ↔ ¬ p.z ≤ s.zmax := by
    constructor
    · rintro ⟨-, h⟩; exact not_le.2 h
    · intro h; exact ⟨by linarith [not_le.1 h, hz'.2], not_le.1 h⟩
  simp only [Sphere.clipped, nudge_z, OnSphere, hangle, gt_iff_lt] at hl hh ⊢
  rw [hl, hh, ← not_le]
  tauto

/-- the discriminant in terms of the distance from the centre to the line -/
theorem C41_discriminant (s : Sphere) (w2o : Transform ℝ) (r : Ray ℝ) :
    s.discr w2o r = (2 * dot (w2o.vec r.d) (w2o.pt r.o)) * (2 * dot (w2o.vec r.d) (w2o.pt r.o)) -
      4 * sqLength (w2o.vec r.d) * (sqLength (w2o.pt r.o) - s.radius * s.radius) := by
  simp only [Sphere.discr, sqLength, dot, cross]; ring

theorem on_line_iff (o d : V3 ℝ) (R t : ℝ) (hd : sqLength d ≠ 0)
    (hD : 0 ≤ (2 * dot d o) * (2 * dot d o) - 4 * sqLength d * (sqLength o - R * R)) :
    sqLength (rayAt o d t) = R ^ 2 ↔
      t = (-(2 * dot d o) - Real.sqrt ((2 * dot d o) * (2 * dot d o) - 4 * sqLength d * (sqLength o - R * R))) / (2 * sqLength d) ∨
      t = (-(2 * dot d o) + Real.sqrt ((2 * dot d o) * (2 * dot d o) - 4 * sqLength d * (sqLength o - R * R))) / (2 * sqLength d) := by
  have h := quadratic_eq_zero_iff (a := sqLength d) (b := 2 * dot d o) (c := sqLength o - R * R) hd
    (s := Real.sqrt ((2 * dot d o) * (2 * dot d o) - 4 * sqLength d * (sqLength o - R * R)))
    (by rw [Real.mul_self_sqrt hD, discrim]; ring) t
  rw [or_comm] at h
  rw [← h]
  have e : sqLength (rayAt o d t) = sqLength d * (t * t) + 2 * dot d o * t + sqLength o := by
    simp only [sqLength, rayAt, dot, add_x, add_y, add_z, smul_x, smul_y, smul_z]; ring
  rw [e]
  constructor <;> intro h <;> linarith

/-- the decision, abstracted: two candidates `t0 < t1`, a range and a test -/
theorem decide_core {t0 t1 mint : ℝ} {maxt : WithTop ℝ} (h01 : t0 < t1) (ok : ℝ → Prop) (f : ℝ → V3 ℝ × ℝ) (bad : ℝ → Prop) [DecidablePred bad]
    (hb : ∀ t, (t = t0 ∨ t = t1) → (bad t ↔ ¬ ok t)) (hok : ∀ t, ok t → t = t0 ∨ t = t1) (res : Option (ℝ × V3 ℝ × ℝ))
    (hres : res = open Classical in (if (t0 : WithTop ℝ) > maxt ∨ t1 < mint then none else
      if t0 < mint ∧ (t1 : WithTop ℝ) > maxt then none else
      if bad (if t0 < mint then t1 else t0) then
        if (if t0 < mint then t1 else t0) = t1 ∨ (t1 : WithTop ℝ) > maxt then none else
        if bad t1 then none else some (t1, f t1)
      else some ((if t0 < mint then t1 else t0), f (if t0 < mint then t1 else t0)))) :
    (∀ x, res = some x → IsLeast {t | mint ≤ t ∧ (t : WithTop ℝ) ≤ maxt ∧ ok t} x.1 ∧ x.2 = f x.1) ∧
    (res = none → {t | mint ≤ t ∧ (t : WithTop ℝ) ≤ maxt ∧ ok t} = ∅) := by
  have hmono : (t0 : WithTop ℝ) < (t1 : WithTop ℝ) := WithTop.coe_lt_coe.2 h01
  have b0 := hb t0 (Or.inl rfl)
  have b1 := hb t1 (Or.inr rfl)
  -- membership in terms of the two candidates
  have mem : ∀ t, t ∈ {t | mint ≤ t ∧ (t : WithTop ℝ) ≤ maxt ∧ ok t} ↔
      (t = t0 ∧ mint ≤ t0 ∧ (t0 : WithTop ℝ) ≤ maxt ∧ ¬ bad t0) ∨ (t = t1 ∧ mint ≤ t1 ∧ (t1 : WithTop ℝ) ≤ maxt ∧ ¬ bad t1) := by
    intro t
    simp only [Set.mem_setOf_eq, b0, b1, not_not]
    constructor
    · rintro ⟨h1, h2, h3⟩
      rcases hok t h3 with rfl | rfl
      · exact Or.inl ⟨rfl, h1, h2, h3⟩
      · exact Or.inr ⟨rfl, h1, h2, h3⟩
    · rintro (⟨rfl, h⟩ | ⟨rfl, h⟩) <;> exact h
  have hempty : (∀ t, ¬ ((t = t0 ∧ mint ≤ t0 ∧ (t0 : WithTop ℝ) ≤ maxt ∧ ¬ bad t0) ∨ (t = t1 ∧ mint ≤ t1 ∧ (t1 : WithTop ℝ) ≤ maxt ∧ ¬ bad t1))) →
      {t | mint ≤ t ∧ (t : WithTop ℝ) ≤ maxt ∧ ok t} = ∅ := by
    intro h
    apply Set.eq_empty_iff_forall_notMem.2
    intro t ht
    exact h t ((mem t).1 ht)
  have none_ok : {t | mint ≤ t ∧ (t : WithTop ℝ) ≤ maxt ∧ ok t} = ∅ → res = none →
      (∀ x, res = some x → IsLeast {t | mint ≤ t ∧ (t : WithTop ℝ) ≤ maxt ∧ ok t} x.1 ∧ x.2 = f x.1) ∧
      (res = none → {t | mint ≤ t ∧ (t : WithTop ℝ) ≤ maxt ∧ ok t} = ∅) := by
    intro h1 h2
    exact ⟨fun x hx => by { rw [h2] at hx; cases hx }, fun _ => h1⟩
  have some_ok : ∀ t, IsLeast {t | mint ≤ t ∧ (t : WithTop ℝ) ≤ maxt ∧ ok t} t → res = some (t, f t) →
      (∀ x, res = some x → IsLeast {t | mint ≤ t ∧ (t : WithTop ℝ) ≤ maxt ∧ ok t} x.1 ∧ x.2 = f x.1) ∧
      (res = none → {t | mint ≤ t ∧ (t : WithTop ℝ) ≤ maxt ∧ ok t} = ∅) := by
    intro t h1 h2
    exact ⟨fun x hx => by rw [h2] at hx; cases hx; exact ⟨h1, rfl⟩, fun h => by rw [h2] at h; cases h⟩
  by_cases c1 : (t0 : WithTop ℝ) > maxt ∨ t1 < mint
  · rw [if_pos c1] at hres
    refine none_ok (hempty ?_) hres
    rintro t (⟨-, h1, h2, -⟩ | ⟨-, h1, h2, -⟩) <;> rcases c1 with c | c
    · exact absurd h2 (not_le.2 c)
    · linarith
    · exact absurd (h2.trans_lt c) (not_lt.2 hmono.le)
    · linarith
  rw [if_neg c1] at hres
  rw [not_or, gt_iff_lt, not_lt, not_lt] at c1
  obtain ⟨c1a, c1b⟩ := c1
  by_cases c2 : t0 < mint
  · by_cases c3 : (t1 : WithTop ℝ) > maxt
    · rw [if_pos ⟨c2, c3⟩] at hres
      refine none_ok (hempty ?_) hres
      rintro t (⟨-, h1, h2, -⟩ | ⟨-, h1, h2, -⟩)
      · linarith
      · exact absurd h2 (not_le.2 c3)
    · rw [if_neg (fun h => c3 h.2)] at hres
      simp only [if_pos c2] at hres
      by_cases c4 : bad t1
      · rw [if_pos c4, if_pos (Or.inl trivial)] at hres
        refine none_ok (hempty ?_) hres
        rintro t (⟨-, h1, h2, -⟩ | ⟨-, h1, h2, h3⟩)
        · linarith
        · exact h3 c4
      · rw [if_neg c4] at hres
        refine some_ok t1 ⟨(mem t1).2 (Or.inr ⟨rfl, c1b, not_lt.1 c3, c4⟩), ?_⟩ hres
        intro t ht
        rcases (mem t).1 ht with ⟨rfl, h, -⟩ | ⟨rfl, -⟩
        · linarith
        · exact le_rfl
  · rw [if_neg (fun h => c2 h.1)] at hres
    simp only [if_neg c2] at hres
    by_cases c4 : bad t0
    · rw [if_pos c4] at hres
      by_cases c5 : (t1 : WithTop ℝ) > maxt
      · rw [if_pos (Or.inr c5)] at hres
        refine none_ok (hempty ?_) hres
        rintro t (⟨-, h1, h2, h3⟩ | ⟨-, h1, h2, h3⟩)
        · exact h3 c4
        · exact absurd h2 (not_le.2 c5)
      · rw [if_neg (not_or.2 ⟨h01.ne, c5⟩)] at hres
        by_cases c6 : bad t1
        · rw [if_pos c6] at hres
          refine none_ok (hempty ?_) hres
          rintro t (⟨-, h1, h2, h3⟩ | ⟨-, h1, h2, h3⟩)
          · exact h3 c4
          · exact h3 c6
        · rw [if_neg c6] at hres
          refine some_ok t1 ⟨(mem t1).2 (Or.inr ⟨rfl, c1b, not_lt.1 c5, c6⟩), ?_⟩ hres
          intro t ht
          rcases (mem t).1 ht with ⟨rfl, -, -, h⟩ | ⟨rfl, -⟩
          · exact absurd c4 h
          · exact le_rfl
    · rw [if_neg c4] at hres
      refine some_ok t0 ⟨(mem t0).2 (Or.inl ⟨rfl, not_lt.1 c2, c1a, c4⟩), ?_⟩ hres
      intro t ht
      rcases (mem t).1 ht with ⟨rfl, -⟩ | ⟨rfl, -⟩
      · exact le_rfl
      · exact h01.le

theorem pos_map (w2o : Transform ℝ) (hw : AffineM w2o.m) (r : Ray ℝ) (t : ℝ) : (r.map w2o).pos t = w2o.pt (r.pos t) :=
  (C10_ray_commutes w2o hw (⟨r.o, r.d, r.mint, r.maxt, 0, 0⟩ : Xform.Ray ℝ (WithTop ℝ)) t).1

theorem hitObj_spec (s : Sphere) (hs : s.Ok) (ray : Ray ℝ)
    (hD : ¬ (2 * dot ray.d ray.o) * (2 * dot ray.d ray.o) - 4 * sqLength ray.d * (sqLength ray.o - s.radius * s.radius) ≤ eps) :
    (∀ x, s.hitObj ray = some x → IsLeast {t | ray.mint ≤ t ∧ (t : WithTop ℝ) ≤ ray.maxt ∧ OnSphere s (ray.pos t)} x.1 ∧
      x.2 = (s.nudge (ray.pos x.1), azimuth (s.nudge (ray.pos x.1)))) ∧
    (s.hitObj ray = none → {t | ray.mint ≤ t ∧ (t : WithTop ℝ) ≤ ray.maxt ∧ OnSphere s (ray.pos t)} = ∅) := by
  have hpos := eps_pos.trans (not_le.1 hD)
  have hA : sqLength ray.d ≠ 0 := by
    intro h0
    have h1 : ray.d.x * ray.d.x + ray.d.y * ray.d.y + ray.d.z * ray.d.z = 0 := h0
    have hx : ray.d.x = 0 := by nlinarith [mul_self_nonneg ray.d.x, mul_self_nonneg ray.d.y, mul_self_nonneg ray.d.z]
    have hy : ray.d.y = 0 := by nlinarith [mul_self_nonneg ray.d.x, mul_self_nonneg ray.d.y, mul_self_nonneg ray.d.z]
    have hz : ray.d.z = 0 := by nlinarith [mul_self_nonneg ray.d.x, mul_self_nonneg ray.d.y, mul_self_nonneg ray.d.z]
    rw [h0] at hpos
    simp only [dot, hx, hy, hz] at hpos
    simp at hpos
  have hA' : 0 < sqLength ray.d := lt_of_le_of_ne (by simp only [sqLength]; nlinarith [mul_self_nonneg ray.d.x, mul_self_nonneg ray.d.y, mul_self_nonneg ray.d.z]) (Ne.symm hA)
  have key := fun t => on_line_iff ray.o ray.d s.radius t hA hpos.le
  have hsq := Real.sqrt_pos.2 hpos
  classical
  refine decide_core (t0 := (-(2 * dot ray.d ray.o) - Real.sqrt ((2 * dot ray.d ray.o) * (2 * dot ray.d ray.o) - 4 * sqLength ray.d * (sqLength ray.o - s.radius * s.radius))) / (2 * sqLength ray.d))
    (t1 := (-(2 * dot ray.d ray.o) + Real.sqrt ((2 * dot ray.d ray.o) * (2 * dot ray.d ray.o) - 4 * sqLength ray.d * (sqLength ray.o - s.radius * s.radius))) / (2 * sqLength ray.d))
    ?_ (fun t => OnSphere s (ray.pos t)) (fun t => (s.nudge (ray.pos t), azimuth (s.nudge (ray.pos t)))) (bad := fun t => s.clipped (s.nudge (ray.pos t)) (azimuth (s.nudge (ray.pos t))))
    (hb := ?_) (hok := ?_) _ ?_
  · exact div_lt_div_of_pos_right (by linarith) (by linarith)
  · intro t ht
    exact clipped_iff hs _ ((key t).2 ht)
  · intro t ht
    exact (key t).1 ht.1
  · simp only [Sphere.hitObj, zero_add, if_neg hD]

/-- **C41** a reported parameter is within the ray's range, the ray is there on the sphere and inside the z and angle limits, and it is the smallest
such parameter; the reported position is the ray's position in object space, except that a position on the axis is moved by `EPS · radius` in x. -/
theorem C41_hit (s : Sphere) (hs : s.Ok) (w2o : Transform ℝ) (hw : AffineM w2o.m) (r : Ray ℝ) (t phi : ℝ) (p : V3 ℝ)
    (h : s.hit w2o r = some (t, p, phi)) :
    IsLeast (s.hits w2o r) t ∧ (¬((w2o.pt (r.pos t)).x = 0 ∧ (w2o.pt (r.pos t)).y = 0) → p = w2o.pt (r.pos t)) ∧
    p.y = (w2o.pt (r.pos t)).y ∧ p.z = (w2o.pt (r.pos t)).z ∧ |p.x - (w2o.pt (r.pos t)).x| ≤ 1 / 100000 * s.radius := by
  have hD : ¬ (2 * dot (r.map w2o).d (r.map w2o).o) * (2 * dot (r.map w2o).d (r.map w2o).o) -
      4 * sqLength (r.map w2o).d * (sqLength (r.map w2o).o - s.radius * s.radius) ≤ eps := by
    intro hD
    simp only [Sphere.hit, Sphere.hitObj, zero_add, if_pos hD] at h
    cases h
  obtain ⟨h1, -⟩ := hitObj_spec s hs (r.map w2o) hD
  obtain ⟨h2, h3⟩ := h1 _ h
  simp only [Prod.mk.injEq, pos_map w2o hw] at h2 h3
  refine ⟨h2, ?_⟩
  rw [h3.1]
  unfold Sphere.nudge
  split
  · rename_i hc
    refine ⟨fun h => absurd hc h, rfl, rfl, ?_⟩
    rw [hc.1, sub_zero, abs_of_nonneg (mul_nonneg eps_pos.le hs.radius.le)]
    exact le_rfl
  · refine ⟨fun _ => rfl, rfl, rfl, ?_⟩
    rw [sub_self, abs_zero]
    exact mul_nonneg (by norm_num) hs.radius.le

/-- **C41** a miss means that the ray is nowhere on the (partial) sphere within its range, unless the discriminant is at most `EPS`. -/
theorem C41_miss (s : Sphere) (hs : s.Ok) (w2o : Transform ℝ) (hw : AffineM w2o.m) (r : Ray ℝ) (h : s.hit w2o r = none) :
    s.hits w2o r = ∅ ∨ s.discr w2o r ≤ 1 / 100000 := by
  by_cases hD : (2 * dot (r.map w2o).d (r.map w2o).o) * (2 * dot (r.map w2o).d (r.map w2o).o) -
      4 * sqLength (r.map w2o).d * (sqLength (r.map w2o).o - s.radius * s.radius) ≤ eps
  · right
    rw [C41_discriminant]; exact hD
  · left
    obtain ⟨-, h1⟩ := hitObj_spec s hs (r.map w2o) hD
    have := h1 h
    simp only [pos_map w2o hw] at this
    exact this

/-- the exception is needed: a sphere of radius at most 0.0015 is missed by every ray with a unit direction (in object space) -/
theorem C41_small_sphere_invisible (s : Sphere) (hr : 0 < s.radius) (h : s.radius ≤ 15 / 10000) (w2o : Transform ℝ) (r : Ray ℝ) (hd : sqLength (w2o.vec r.d) = 1) :
    s.hit w2o r = none := by
  have h1 : s.discr w2o r ≤ 1 / 100000 := by
    simp only [Sphere.discr, hd]
    have : 0 ≤ sqLength (cross (w2o.pt r.o) (w2o.vec r.d)) := by
      simp only [sqLength]
      nlinarith [mul_self_nonneg (cross (w2o.pt r.o) (w2o.vec r.d)).x, mul_self_nonneg (cross (w2o.pt r.o) (w2o.vec r.d)).y, mul_self_nonneg (cross (w2o.pt r.o) (w2o.vec r.d)).z]
    nlinarith
  rw [C41_discriminant] at h1
  simp only [Sphere.hit, Sphere.hitObj, zero_add]
  exact if_pos h1

/-- **C41** `intersect_p` answers True exactly when `intersect` reports a hit. -/
theorem C41_intersect_p_agrees (s : Sphere) (w2o : Transform ℝ) (r : Ray ℝ) : s.hitP w2o r = (s.hit w2o r).isSome := by
  have hi : ∀ (c : Prop) [Decidable c] (a b : Option (ℝ × V3 ℝ × ℝ)), (if c then a else b).isSome = if c then a.isSome else b.isSome := by
    intro c _ a b; split <;> rfl
  simp only [Sphere.hitP, Sphere.hit, Sphere.hitObj, hi, Option.isSome_none, Option.isSome_some]

/-- **C41** every point of the sphere, in particular every hit point, is inside the object bound. -/
theorem C41_object_bound (s : Sphere) (hs : s.Ok) (p : V3 ℝ) (hp : OnSphere s p) : s.objectBound.inside p = true := by
  obtain ⟨h1, h2, h3, -⟩ := hp
  have hr := hs.radius
  have hx := abs_le_of_sq_le_sq' (a := p.x) (b := s.radius) (by rw [← h1]; simp only [sqLength]; nlinarith [mul_self_nonneg p.y, mul_self_nonneg p.z]) hr.le
  have hy := abs_le_of_sq_le_sq' (a := p.y) (b := s.radius) (by rw [← h1]; simp only [sqLength]; nlinarith [mul_self_nonneg p.x, mul_self_nonneg p.z]) hr.le
  simp only [Sphere.objectBound, BBox.inside, BBox.ofPoints, Bool.and_eq_true, decide_eq_true_eq, ge_iff_le]
  exact ⟨⟨⟨⟨⟨le_max_of_le_right hx.2, decide_eq_true (min_le_of_left_le hx.1)⟩, le_max_of_le_right hy.2⟩, decide_eq_true (min_le_of_left_le hy.1)⟩, le_max_of_le_right h3⟩,
    decide_eq_true (min_le_of_left_le h2)⟩

/-! ### Concrete cases -/

/-- the unit sphere from the constructor meets `Ok` -/
example : (Sphere.init 1 (-1) 1 360).Ok := (Sphere.init_ok 1 (-1) 1 360 one_pos).1

/-- a ray along the x axis from outside meets the discriminant condition -/
example : ¬ (Sphere.init 1 (-1) 1 360).discr (ident : Transform ℝ) ⟨⟨-3, 0, 0⟩, ⟨1, 0, 0⟩, 0, ⊤⟩ ≤ 1 / 100000 := by
  simp [Sphere.discr, Sphere.init, ident, Transform.vec, Transform.pt, homog, neUnity, cross, sqLength, Xform.EPS]
  norm_num

end Verif.Shape
