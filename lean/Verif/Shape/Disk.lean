import Verif.Shape.Sphere
import Verif.MC.Props
import Mathlib.Analysis.Calculus.Deriv.Mul
import Mathlib.Analysis.SpecialFunctions.Trigonometric.Deriv
import Mathlib.Analysis.SpecialFunctions.Integrals.Basic
/-!
# Disks (C42, C73, C74)

Models `pytracer/shape/disk.py` `Disk`: the constructor 26-32, `object_bound` 38-40, `sample` 42-56, `intersect` 58-112, `intersect_p` 114-142, `area` 144-146.
Real arithmetic; `np.arctan2` is the argument of a complex number (signed zeros are not modelled).
-/
namespace Verif.Shape
open V3 Xform

/-- `Disk`, disk.py 29-32 -/
structure Disk where
  height : ℝ
  radius : ℝ
  inner : ℝ
  phiMax : ℝ

/-- `Disk.__init__`, disk.py 26-32 -/
noncomputable def Disk.init (ht r ri pm : ℝ) : Disk := ⟨ht, r, ri, Xform.rad (npClip pm 0 360)⟩

/-- disk.py 69-91: the hit parameter, the position in object space, its angle -/
noncomputable def Disk.hitObj (s : Disk) (ray : Ray ℝ) : Option (ℝ × V3 ℝ × ℝ) :=
  if |ray.d.z| < eps then none else
  let thit := (s.height - ray.o.z) / ray.d.z
  if thit < ray.mint ∨ (thit : WithTop ℝ) > ray.maxt then none else
  let phit := ray.pos thit
  let dt2 := phit.x * phit.x + phit.y * phit.y
  if dt2 > s.radius * s.radius ∨ dt2 < s.inner * s.inner then none else
  let phi := azimuth phit
  if phi > s.phiMax then none else some (thit, phit, phi)

/-- `Disk.intersect`, disk.py 66-91 -/
noncomputable def Disk.hit (s : Disk) (w2o : Transform ℝ) (r : Ray ℝ) : Option (ℝ × V3 ℝ × ℝ) := s.hitObj (r.map w2o)

/-- `Disk.intersect_p`, disk.py 114-142 -/
noncomputable def Disk.hitP (s : Disk) (w2o : Transform ℝ) (r : Ray ℝ) : Bool :=
  let ray := r.map w2o
  if |ray.d.z| < eps then false else
  let thit := (s.height - ray.o.z) / ray.d.z
  if thit < ray.mint ∨ (thit : WithTop ℝ) > ray.maxt then false else
  let phit := ray.pos thit
  let dt2 := phit.x * phit.x + phit.y * phit.y
  if dt2 > s.radius * s.radius ∨ dt2 < s.inner * s.inner then false else
  let phi := azimuth phit
  if phi > s.phiMax then false else true

/-- `Disk.object_bound`, disk.py 38-40 -/
noncomputable def Disk.objectBound (s : Disk) : BBox ℝ :=
  BBox.ofPoints ⟨-s.radius, -s.radius, s.height⟩ ⟨s.radius, s.radius, s.height⟩

/-! ### Specification -/

/-- the (partial) disk as a set of points: in the plane `z = height`, distance from the axis between the two radii, angle between 0 and `phiMax` -/
def OnDisk (s : Disk) (p : V3 ℝ) : Prop :=
  p.z = s.height ∧ s.inner ^ 2 ≤ p.x ^ 2 + p.y ^ 2 ∧ p.x ^ 2 + p.y ^ 2 ≤ s.radius ^ 2 ∧ AngleWithin s.phiMax p

/-- the parameters at which the ray is, within its range, on the disk -/
def Disk.hits (s : Disk) (w2o : Transform ℝ) (r : Ray ℝ) : Set ℝ :=
  {t | r.mint ≤ t ∧ (t : WithTop ℝ) ≤ r.maxt ∧ OnDisk s (w2o.pt (r.pos t))}

/-- the constructor's limits on the angle -/
structure Disk.Ok (s : Disk) : Prop where
  phi0 : 0 ≤ s.phiMax
  phi1 : s.phiMax ≤ 2 * Real.pi

theorem Disk.init_ok (ht r ri pm : ℝ) : (Disk.init ht r ri pm).Ok := by
  have hpi := Real.pi_pos
  have a : 0 ≤ npClip pm 0 360 := le_min (le_max_right _ _) (by norm_num)
  have b : npClip pm 0 360 ≤ 360 := min_le_right _ _
  constructor
  · simp only [Disk.init, Xform.rad]; positivity
  · simp only [Disk.init, Xform.rad]
    have := mul_le_mul_of_nonneg_right b hpi.le
    linarith

theorem angle_iff {phiMax : ℝ} (h0 : 0 ≤ phiMax) (h1 : phiMax ≤ 2 * Real.pi) (p : V3 ℝ) : AngleWithin phiMax p ↔ azimuth p ≤ phiMax := by
  by_cases h : p.x = 0 ∧ p.y = 0
  · have ha : azimuth p = 0 := by
      have : (⟨p.x, p.y⟩ : ℂ) = 0 := Complex.ext h.1 h.2
      simp [azimuth, this]
    rw [ha]
    exact ⟨fun _ => h0, fun _ => ⟨0, le_rfl, h0, by simp [h.1, h.2], by simp [h.1, h.2]⟩⟩
  · exact angleWithin_iff h1 p h h0

theorem Disk.hitObj_eq_some (s : Disk) (hs : s.Ok) (ray : Ray ℝ) (x : ℝ × V3 ℝ × ℝ) :
    s.hitObj ray = some x ↔ eps ≤ |ray.d.z| ∧ ray.mint ≤ x.1 ∧ (x.1 : WithTop ℝ) ≤ ray.maxt ∧ OnDisk s (ray.pos x.1) ∧ x.2 = (ray.pos x.1, azimuth (ray.pos x.1)) := by
  unfold Disk.hitObj
  by_cases c0 : |ray.d.z| < eps
  · rw [if_pos c0]
    exact ⟨(fun h => nomatch h), fun h => absurd c0 (not_lt.2 h.1)⟩
  rw [if_neg c0]
  have hz : ray.d.z ≠ 0 := by
    intro h; rw [h, abs_zero] at c0; exact c0 eps_pos
  have hpl : ∀ t, (ray.pos t).z = s.height ↔ t = (s.height - ray.o.z) / ray.d.z := by
    intro t
    rw [eq_div_iff hz]
    simp only [Ray.pos, rayAt]
    constructor <;> intro h <;> linarith
  set t := (s.height - ray.o.z) / ray.d.z with ht
  have hon : ∀ t', OnDisk s (ray.pos t') → t' = t := fun t' h => (hpl t').1 h.1
  by_cases c1 : t < ray.mint ∨ (t : WithTop ℝ) > ray.maxt
  · simp only [if_pos c1]
    refine ⟨(fun h => nomatch h), fun ⟨_, h1, h2, h3, _⟩ => ?_⟩
    rw [hon _ h3] at h1 h2
    rcases c1 with c | c
    · linarith
    · exact absurd h2 (not_le.2 c)
  simp only [if_neg c1]
  rw [not_or, gt_iff_lt, not_lt, not_lt] at c1
  by_cases c2 : (ray.pos t).x * (ray.pos t).x + (ray.pos t).y * (ray.pos t).y > s.radius * s.radius ∨
      (ray.pos t).x * (ray.pos t).x + (ray.pos t).y * (ray.pos t).y < s.inner * s.inner
  · simp only [if_pos c2]
    refine ⟨(fun h => nomatch h), fun ⟨_, _, _, h3, _⟩ => ?_⟩
    have e := hon _ h3
    obtain ⟨-, h4, h5, -⟩ := h3
    rw [e] at h4 h5
    rcases c2 with c | c <;> nlinarith
  simp only [if_neg c2]
  rw [not_or, gt_iff_lt, not_lt, not_lt] at c2
  by_cases c3 : azimuth (ray.pos t) > s.phiMax
  · simp only [if_pos c3]
    refine ⟨(fun h => nomatch h), fun ⟨_, _, _, h3, _⟩ => ?_⟩
    have e := hon _ h3
    obtain ⟨-, -, -, h6⟩ := h3
    rw [e, angle_iff hs.phi0 hs.phi1] at h6
    linarith
  · simp only [if_neg c3]
    constructor
    · intro h
      cases h
      exact ⟨not_lt.1 c0, c1.1, c1.2, ⟨(hpl t).2 rfl, by nlinarith [c2.2], by nlinarith [c2.1], (angle_iff hs.phi0 hs.phi1 _).2 (not_lt.1 c3)⟩, rfl⟩
    · rintro ⟨-, -, -, h3, h4⟩
      have e := hon _ h3
      rw [e] at h4
      rw [← h4]
      exact congrArg some (Prod.ext e.symm rfl)

/-- **C42** for rays that are not nearly parallel to the disk (object-space direction with `|z| ≥ EPS`), `intersect` reports `t` exactly when the ray at
`t` is on the disk and `t` is in the ray's range; the reported position is the ray's position in object space.  There is at most one such `t`. -/
theorem C42_hit (s : Disk) (hs : s.Ok) (w2o : Transform ℝ) (hw : AffineM w2o.m) (r : Ray ℝ) (hz : 1 / 100000 ≤ |(w2o.vec r.d).z|) (t : ℝ) :
    (∃ phi, s.hit w2o r = some (t, w2o.pt (r.pos t), phi)) ↔ t ∈ s.hits w2o r := by
  constructor
  · rintro ⟨phi, h⟩
    obtain ⟨-, h1, h2, h3, -⟩ := (s.hitObj_eq_some hs _ _).1 h
    rw [pos_map w2o hw] at h3
    exact ⟨h1, h2, h3⟩
  · rintro ⟨h1, h2, h3⟩
    refine ⟨azimuth (w2o.pt (r.pos t)), (s.hitObj_eq_some hs _ _).2 ⟨hz, h1, h2, ?_, ?_⟩⟩
    · rw [pos_map w2o hw]; exact h3
    · rw [pos_map w2o hw]

/-- **C42** a hit is always a point of the disk in the ray's range, reported with the ray's position; a miss means there is none, or that the ray is nearly parallel
to the disk. -/
theorem C42_sound (s : Disk) (hs : s.Ok) (w2o : Transform ℝ) (hw : AffineM w2o.m) (r : Ray ℝ) :
    (∀ t p phi, s.hit w2o r = some (t, p, phi) → t ∈ s.hits w2o r ∧ p = w2o.pt (r.pos t)) ∧
    (s.hit w2o r = none → s.hits w2o r = ∅ ∨ |(w2o.vec r.d).z| < 1 / 100000) := by
  constructor
  · intro t p phi h
    obtain ⟨-, h1, h2, h3, h4⟩ := (s.hitObj_eq_some hs _ _).1 h
    rw [pos_map w2o hw] at h3 h4
    exact ⟨⟨h1, h2, h3⟩, congrArg Prod.fst h4⟩
  · intro h
    by_cases hz : |(w2o.vec r.d).z| < 1 / 100000
    · exact Or.inr hz
    · left
      apply Set.eq_empty_iff_forall_notMem.2
      intro t ht
      obtain ⟨phi, h'⟩ := (C42_hit s hs w2o hw r (not_lt.1 hz) t).2 ht
      rw [h] at h'; cases h'

/-- **C42** `intersect_p` answers True exactly when `intersect` reports a hit. -/
theorem C42_intersect_p_agrees (s : Disk) (w2o : Transform ℝ) (r : Ray ℝ) : s.hitP w2o r = (s.hit w2o r).isSome := by
  have hi : ∀ (c : Prop) [Decidable c] (a b : Option (ℝ × V3 ℝ × ℝ)), (if c then a else b).isSome = if c then a.isSome else b.isSome := by
    intro c _ a b; split <;> rfl
  simp only [Disk.hitP, Disk.hit, Disk.hitObj, hi, Option.isSome_none, Option.isSome_some]

/-- **C42** every point of the disk, in particular every hit point, is inside the object bound. -/
theorem C42_object_bound (s : Disk) (hr : 0 ≤ s.radius) (p : V3 ℝ) (hp : OnDisk s p) : s.objectBound.inside p = true := by
  obtain ⟨h1, h2, h3, -⟩ := hp
  have hx := abs_le_of_sq_le_sq' (a := p.x) (b := s.radius) (by nlinarith [sq_nonneg p.y]) hr
  have hy := abs_le_of_sq_le_sq' (a := p.y) (b := s.radius) (by nlinarith [sq_nonneg p.x]) hr
  simp only [Disk.objectBound, BBox.inside, BBox.ofPoints, Bool.and_eq_true, decide_eq_true_eq, ge_iff_le]
  exact ⟨⟨⟨⟨⟨le_max_of_le_right hx.2, decide_eq_true (min_le_of_left_le hx.1)⟩, le_max_of_le_right hy.2⟩, decide_eq_true (min_le_of_left_le hy.1)⟩, le_max_of_le_right h1.le⟩,
    decide_eq_true (min_le_of_left_le h1.ge)⟩

/-- the exception is needed: a long ray that does meet the disk is missed when its direction is nearly parallel -/
theorem C42_nearly_parallel_missed : ∃ r : Ray ℝ, (Disk.init 0 1 0 360).hit (ident : Transform ℝ) r = none ∧ (0 : ℝ) ∈ (Disk.init 0 1 0 360).hits (ident : Transform ℝ) r := by
  have hpt : ∀ p : V3 ℝ, (ident : Transform ℝ).pt p = p := by
    intro p
    apply V3.ext <;> simp [ident, Transform.pt, homog, neUnity, Xform.EPS] <;> norm_num
  refine ⟨⟨⟨0, 0, 0⟩, ⟨1, 0, 1 / 1000000⟩, 0, ⊤⟩, ?_, ?_⟩
  · simp only [Disk.hit, Disk.hitObj, Ray.map]
    apply if_pos
    simp [Transform.vec, ident, eps]
    norm_num
  · refine ⟨le_rfl, le_top, ?_⟩
    rw [hpt]
    have : AngleWithin (Disk.init 0 1 0 360).phiMax ((⟨⟨0, 0, 0⟩, ⟨1, 0, 1 / 1000000⟩, 0, ⊤⟩ : Ray ℝ).pos 0) := by
      refine ⟨0, le_rfl, (Disk.init_ok 0 1 0 360).phi0, ?_, ?_⟩ <;> simp [Ray.pos, rayAt]
    refine ⟨?_, ?_, ?_, this⟩ <;> simp [Ray.pos, rayAt, Disk.init]

/-! ### Surface parameters (C73) -/

/-- disk.py 95-103: `u`, `v`, `dpdu`, `dpdv`; `none` where `np.sqrt` of a negative number or a division by zero makes a value NaN or infinite -/
noncomputable def Disk.geo (s : Disk) (phit : V3 ℝ) (phi : ℝ) : Option (ℝ × ℝ × V3 ℝ × V3 ℝ) :=
  let dt2 := phit.x * phit.x + phit.y * phit.y
  if dt2 - s.inner < 0 ∨ s.radius = s.inner ∨ s.phiMax = 0 ∨ s.radius = 0 then none else
  let u := phi / s.phiMax
  let v := 1 - Real.sqrt (dt2 - s.inner) / (s.radius - s.inner)
  if 1 - v = 0 then none else
  let dpdu : V3 ℝ := ⟨-s.phiMax * phit.y, s.phiMax * phit.x, 0⟩
  let dpdv : V3 ℝ := ⟨-phit.x / (1 - v), -phit.y / (1 - v), 0⟩
  some (u, v, (s.phiMax * MC.inv2Pi) * dpdu, ((s.radius - s.inner) / s.radius) * dpdv)

/-- the disk's parametrisation (pbrt): angle `u · phiMax`, distance from the axis falling from `radius` at `v = 0` to `inner` at `v = 1` -/
noncomputable def Disk.param (s : Disk) (u v : ℝ) : V3 ℝ :=
  let rho := (1 - v) * s.radius + v * s.inner
  ⟨rho * Real.cos (u * s.phiMax), rho * Real.sin (u * s.phiMax), s.height⟩

/-- the derivatives of the three coordinates -/
def HasDerivAt3 (f : ℝ → V3 ℝ) (d : V3 ℝ) (x : ℝ) : Prop :=
  HasDerivAt (fun t => (f t).x) d.x x ∧ HasDerivAt (fun t => (f t).y) d.y x ∧ HasDerivAt (fun t => (f t).z) d.z x

/-- **C73 (part)** for a disk without a hole and a hit off the axis: `u` and `v` are in `[0, 1]`, the parametrisation at `(u, v)` is the hit point,
`dpdv` is its derivative in `v`, `dpdu` is its derivative in `u` when the disk is also complete (`phiMax = 2π`), and `dpdu × dpdv` points along +z.
Missing: disks with a hole (`C73_disk_hole_false`) and `dpdu` of sectors (`C73_disk_sector_false`). -/
theorem C73_disk_partial (s : Disk) (hs : s.Ok) (hphi : 0 < s.phiMax) (hr : 0 < s.radius) (hi : s.inner = 0) (p : V3 ℝ) (hp : OnDisk s p) (hp0 : ¬(p.x = 0 ∧ p.y = 0)) :
    ∃ u v dpdu dpdv, s.geo p (azimuth p) = some (u, v, dpdu, dpdv) ∧ 0 ≤ u ∧ u ≤ 1 ∧ 0 ≤ v ∧ v ≤ 1 ∧ s.param u v = p ∧
      HasDerivAt3 (fun v' => s.param u v') dpdv v ∧ (s.phiMax = 2 * Real.pi → HasDerivAt3 (fun u' => s.param u' v) dpdu u) ∧
      (cross dpdu dpdv).x = 0 ∧ (cross dpdu dpdv).y = 0 ∧ 0 < (cross dpdu dpdv).z := by
  obtain ⟨hz, h1, h2, h3⟩ := hp
  obtain ⟨a0, a1, ac, as⟩ := azimuth_spec p
  have hle := (angle_iff hs.phi0 hs.phi1 p).1 h3
  have hsum : 0 < p.x ^ 2 + p.y ^ 2 := by
    rcases not_and_or.1 hp0 with h | h
    · have := sq_pos_of_ne_zero h; positivity
    · have := sq_pos_of_ne_zero h; positivity
  set rho := Real.sqrt (p.x ^ 2 + p.y ^ 2) with hrho
  have hrpos : 0 < rho := Real.sqrt_pos.2 hsum
  have hrle : rho ≤ s.radius := Real.sqrt_le_iff.2 ⟨hr.le, h2⟩
  have hdt : p.x * p.x + p.y * p.y - s.inner = p.x ^ 2 + p.y ^ 2 := by rw [hi]; ring
  have hc1 : ¬ (p.x * p.x + p.y * p.y - s.inner < 0 ∨ s.radius = s.inner ∨ s.phiMax = 0 ∨ s.radius = 0) := by
    rw [hdt, hi]
    push Not
    exact ⟨hsum.le, hr.ne', hphi.ne', hr.ne'⟩
  have hc2 : ¬ (1 - (1 - Real.sqrt (p.x * p.x + p.y * p.y - s.inner) / (s.radius - s.inner)) = 0) := by
    rw [hdt, hi, sub_zero, sub_sub_cancel]
    exact (div_pos hrpos hr).ne'
  have e1 : (1 - (1 - rho / s.radius)) = rho / s.radius := by ring
  have hu : azimuth p / s.phiMax * s.phiMax = azimuth p := div_mul_cancel₀ _ hphi.ne'
  have hpi := Real.pi_pos
  refine ⟨_, _, _, _, by simp only [Disk.geo, if_neg hc1, if_neg hc2]; rfl, ?_⟩
  rw [hdt, hi, sub_zero, ← hrho, e1, div_self hr.ne']
  have hparam : ∀ v, s.param (azimuth p / s.phiMax) v = ⟨(1 - v) * s.radius * Real.cos (azimuth p), (1 - v) * s.radius * Real.sin (azimuth p), s.height⟩ := by
    intro v
    simp only [Disk.param, hu, hi, mul_zero, add_zero]
  have hv1 : rho / s.radius * s.radius = rho := div_mul_cancel₀ _ hr.ne'
  refine ⟨by positivity, (div_le_one hphi).2 hle, sub_nonneg.2 ((div_le_one hr).2 hrle), by linarith [div_pos hrpos hr], ?_, ?_, ?_, ?_, ?_, ?_⟩
  · rw [hparam, e1, hv1]
    exact V3.ext ac.symm as.symm hz.symm
  · simp only [hparam]
    refine ⟨?_, ?_, ?_⟩
    · have : HasDerivAt (fun t => (1 - t) * s.radius * Real.cos (azimuth p)) (-1 * s.radius * Real.cos (azimuth p)) (1 - rho / s.radius) :=
        (((hasDerivAt_id _).const_sub 1).mul_const _).mul_const _
      convert this using 1
      simp only [smul_x]
      rw [ac]; field_simp
    · have : HasDerivAt (fun t => (1 - t) * s.radius * Real.sin (azimuth p)) (-1 * s.radius * Real.sin (azimuth p)) (1 - rho / s.radius) :=
        (((hasDerivAt_id _).const_sub 1).mul_const _).mul_const _
      convert this using 1
      simp only [smul_y]
      rw [as]; field_simp
    · simp only [smul_z, mul_zero]
      exact hasDerivAt_const _ _
  · intro hfull
    have hinv : s.phiMax * MC.inv2Pi = 1 := by rw [MC.inv2Pi, hfull]; field_simp
    rw [hinv]
    simp only [Disk.param, e1, hi, mul_zero, add_zero, hv1]
    have hl : HasDerivAt (fun t : ℝ => t * s.phiMax) s.phiMax (azimuth p / s.phiMax) := by
      simpa using (hasDerivAt_id (azimuth p / s.phiMax)).mul_const s.phiMax
    refine ⟨?_, ?_, ?_⟩
    · have := ((Real.hasDerivAt_cos _).comp _ hl).const_mul rho
      rw [hu] at this
      refine this.congr_deriv ?_
      show _ = 1 * (-s.phiMax * p.y)
      rw [as]; ring
    · have := ((Real.hasDerivAt_sin _).comp _ hl).const_mul rho
      rw [hu] at this
      refine this.congr_deriv ?_
      show _ = 1 * (s.phiMax * p.x)
      rw [ac]; ring
    · simp only [smul_z, mul_zero]
      exact hasDerivAt_const _ _
  · simp only [cross, smul_x, smul_y, smul_z]; ring
  · simp only [cross, smul_x, smul_y, smul_z]; ring
  · simp only [cross, smul_x, smul_y, smul_z]
    have : s.phiMax * MC.inv2Pi * (-s.phiMax * p.y) * (1 * (-p.y / (rho / s.radius))) - s.phiMax * MC.inv2Pi * (s.phiMax * p.x) * (1 * (-p.x / (rho / s.radius)))
        = s.phiMax ^ 2 * MC.inv2Pi * ((p.x ^ 2 + p.y ^ 2) / (rho / s.radius)) := by ring
    rw [this, MC.inv2Pi]
    positivity

/-- **C73 is false for disks with a hole**: on the annulus with radii 1/2 and 1 the hit point on the outer edge has `v < 0`, and hit points near the
inner edge have no `v` at all (NaN). -/
theorem C73_disk_hole_false :
    (∃ p, OnDisk ⟨0, 1, 1 / 2, 2 * Real.pi⟩ p ∧ ∃ u v a b, (⟨0, 1, 1 / 2, 2 * Real.pi⟩ : Disk).geo p (azimuth p) = some (u, v, a, b) ∧ v < 0) ∧
    (∃ p, OnDisk ⟨0, 1, 1 / 2, 2 * Real.pi⟩ p ∧ (⟨0, 1, 1 / 2, 2 * Real.pi⟩ : Disk).geo p (azimuth p) = none) := by
  have hpi := Real.pi_pos
  have hang : ∀ p : V3 ℝ, AngleWithin (2 * Real.pi) p := fun p => (angle_iff (by positivity) le_rfl p).2 (azimuth_spec p).2.1.le
  constructor
  · refine ⟨⟨1, 0, 0⟩, ⟨rfl, by norm_num, by norm_num, hang _⟩, ?_⟩
    have hs : 1 / 2 < Real.sqrt (1 * 1 + 0 * 0 - 1 / 2) := Real.lt_sqrt_of_sq_lt (by norm_num)
    have c1 : ¬ ((1 : ℝ) * 1 + 0 * 0 - 1 / 2 < 0 ∨ (1 : ℝ) = 1 / 2 ∨ 2 * Real.pi = 0 ∨ (1 : ℝ) = 0) := by
      push Not
      exact ⟨by norm_num, by norm_num, by positivity, by norm_num⟩
    have c2 : ¬ (1 - (1 - Real.sqrt ((1 : ℝ) * 1 + 0 * 0 - 1 / 2) / (1 - 1 / 2)) = 0) := by
      rw [sub_sub_cancel]
      exact (div_pos (by linarith) (by norm_num)).ne'
    refine ⟨_, _, _, _, by simp only [Disk.geo, if_neg c1, if_neg c2]; rfl, ?_⟩
    have : (1 : ℝ) < Real.sqrt (1 * 1 + 0 * 0 - 1 / 2) / (1 - 1 / 2) := by
      rw [lt_div_iff₀ (by norm_num)]; linarith
    linarith
  · refine ⟨⟨3 / 5, 0, 0⟩, ⟨rfl, by norm_num, by norm_num, hang _⟩, ?_⟩
    simp only [Disk.geo]
    exact if_pos (Or.inl (by norm_num))

/-- **C73 is false for sectors**: on a half disk the reported `dpdu` is half the derivative. -/
theorem C73_disk_sector_false : ∃ (p : V3 ℝ) (u v : ℝ) (a b : V3 ℝ), OnDisk ⟨0, 1, 0, Real.pi⟩ p ∧
    (⟨0, 1, 0, Real.pi⟩ : Disk).geo p (azimuth p) = some (u, v, a, b) ∧ (⟨0, 1, 0, Real.pi⟩ : Disk).param u v = p ∧
    ¬ HasDerivAt3 (fun u' => (⟨0, 1, 0, Real.pi⟩ : Disk).param u' v) a u := by
  have hpi := Real.pi_pos
  have hon : OnDisk ⟨0, 1, 0, Real.pi⟩ ⟨1, 0, 0⟩ := ⟨rfl, by norm_num, by norm_num, ⟨0, le_rfl, hpi.le, by simp, by simp⟩⟩
  have haz : azimuth ⟨1, 0, 0⟩ = 0 := by
    have : (⟨1, 0⟩ : ℂ) = 1 := by apply Complex.ext <;> simp
    simp [azimuth, this]
  have c1 : ¬ ((1 : ℝ) * 1 + 0 * 0 - 0 < 0 ∨ (1 : ℝ) = 0 ∨ Real.pi = 0 ∨ (1 : ℝ) = 0) := by
    push Not
    exact ⟨by norm_num, by norm_num, hpi.ne', by norm_num⟩
  have c2 : ¬ (1 - (1 - Real.sqrt ((1 : ℝ) * 1 + 0 * 0 - 0) / (1 - 0)) = 0) := by simp
  refine ⟨⟨1, 0, 0⟩, _, _, _, _, hon, by simp only [Disk.geo, if_neg c1, if_neg c2]; rfl, ?_, ?_⟩
  · rw [haz]; simp [Disk.param]
  · rintro ⟨-, hy, -⟩
    rw [haz] at hy
    have h2 : HasDerivAt (fun u' => Real.sin (u' * Real.pi)) Real.pi (0 / Real.pi) := by
      have hl : HasDerivAt (fun t : ℝ => t * Real.pi) Real.pi (0 / Real.pi) := by simpa using (hasDerivAt_id (0 / Real.pi)).mul_const Real.pi
      have := (Real.hasDerivAt_sin _).comp _ hl
      rw [zero_div, zero_mul, Real.cos_zero, one_mul] at this
      rw [zero_div]
      exact this
    have e : (fun u' : ℝ => ((⟨0, 1, 0, Real.pi⟩ : Disk).param u' (1 - Real.sqrt ((1 : ℝ) * 1 + 0 * 0 - 0) / (1 - 0))).y) = fun u' => Real.sin (u' * Real.pi) := by
      funext u'; simp [Disk.param]
    rw [e] at hy
    have := hy.unique h2
    simp only [smul_y, MC.inv2Pi] at this
    field_simp at this
    norm_num at this

/-! ### Sampling (C74) -/

/-- `Disk.sample`, disk.py 42-56, without the division by 2π rounding: the point and the normal, in object space before `o2w` is applied to the point and to the
"normal"; `none` is never returned for canonical samples -/
noncomputable def Disk.sampleObj (s : Disk) (u1 u2 : ℝ) : Option (V3 ℝ) :=
  (MC.concentric u1 u2).map fun xy =>
    let phi := Complex.arg ⟨xy.1, xy.2⟩ * s.phiMax * MC.inv2Pi
    let r := s.inner + Real.sqrt (xy.1 * xy.1 + xy.2 * xy.2) * (s.radius - s.inner)
    ⟨r * Real.cos phi, r * Real.sin phi, s.height⟩

/-- `Disk.sample`, disk.py 52-56 -/
noncomputable def Disk.sample (s : Disk) (o2w : Transform ℝ) (ro : Bool) (u1 u2 : ℝ) : Option (V3 ℝ × V3 ℝ) :=
  (s.sampleObj u1 u2).map fun p =>
    let n := Geom.normalize (o2w.pt p)
    (o2w.pt p, if ro then (-1 : ℝ) * n else n)

/-- **C74 (part)** a complete disk or annulus: every canonical sample gives a point of the disk.  Missing: sectors (`C74_disk_sector_false`) and the normal
(`C74_disk_normal_false`). -/
theorem C74_disk_partial (s : Disk) (hfull : s.phiMax = 2 * Real.pi) (h0 : 0 ≤ s.inner) (h1 : s.inner ≤ s.radius) (o2w : Transform ℝ) (ro : Bool) (u1 u2 : ℝ)
    (a0 : 0 ≤ u1) (a1 : u1 ≤ 1) (b0 : 0 ≤ u2) (b1 : u2 ≤ 1) : ∃ p n, s.sample o2w ro u1 u2 = some (o2w.pt p, n) ∧ OnDisk s p := by
  obtain ⟨x, y, hc, -, hle⟩ := MC.C21_concentric u1 u2 a0 a1 b0 b1
  have hs0 := Real.sqrt_nonneg (x * x + y * y)
  have hs1 : Real.sqrt (x * x + y * y) ≤ 1 := Real.sqrt_le_one.2 (by nlinarith)
  refine ⟨_, _, by simp only [Disk.sample, Disk.sampleObj, hc, Option.map_some]; rfl, ?_⟩
  set r := s.inner + Real.sqrt (x * x + y * y) * (s.radius - s.inner) with hr
  have r0 : s.inner ≤ r := by rw [hr]; nlinarith
  have r1 : r ≤ s.radius := by rw [hr]; nlinarith
  set phi := Complex.arg ⟨x, y⟩ * s.phiMax * MC.inv2Pi
  have e : (r * Real.cos phi) ^ 2 + (r * Real.sin phi) ^ 2 = r ^ 2 := by
    have := Real.sin_sq_add_cos_sq phi
    linear_combination r ^ 2 * this
  refine ⟨rfl, ?_, ?_, ?_⟩
  · rw [e]; nlinarith
  · rw [e]; nlinarith
  · rw [hfull]
    exact (angle_iff (by positivity) le_rfl _).2 (azimuth_spec _).2.1.le

/-- **C74 is false for sectors**: half of the samples of a half disk lie outside it, for example the canonical sample (1/2, 0). -/
theorem C74_disk_sector_false : ∃ p n, (⟨0, 1, 0, Real.pi⟩ : Disk).sample (ident : Transform ℝ) false (1 / 2) 0 = some ((ident : Transform ℝ).pt p, n) ∧
    ¬ OnDisk ⟨0, 1, 0, Real.pi⟩ p := by
  have hpi := Real.pi_pos
  have hc : MC.concentric (1 / 2) 0 = some (Real.cos (6 * (Real.pi / 4)), Real.sin (6 * (Real.pi / 4))) := by
    simp [MC.concentric, MC.concentricPolar, MC.qdiv]
  have e6 : 6 * (Real.pi / 4) = Real.pi + Real.pi / 2 := by ring
  rw [e6, Real.cos_add, Real.sin_add] at hc
  simp only [Real.cos_pi, Real.sin_pi, Real.cos_pi_div_two, Real.sin_pi_div_two] at hc
  norm_num at hc
  have harg : Complex.arg ⟨0, -1⟩ = -(Real.pi / 2) := by
    have : (⟨0, -1⟩ : ℂ) = -Complex.I := by apply Complex.ext <;> simp
    rw [this, Complex.arg_neg_I]
  refine ⟨_, _, by simp only [Disk.sample, Disk.sampleObj, hc, Option.map_some]; rfl, ?_⟩
  rintro ⟨-, -, -, h⟩
  rw [angle_iff hpi.le (by linarith)] at h
  simp only [harg, MC.inv2Pi] at h
  have e1 : -(Real.pi / 2) * Real.pi * (1 / (2 * Real.pi)) = -(Real.pi / 4) := by field_simp; ring
  have e2 : Real.sqrt (0 * 0 + -1 * -1) = 1 := by norm_num
  rw [e1, e2] at h
  obtain ⟨a0, a1, -, as⟩ := azimuth_spec ⟨(0 + 1 * (1 - 0)) * Real.cos (-(Real.pi / 4)), (0 + 1 * (1 - 0)) * Real.sin (-(Real.pi / 4)), 0⟩
  have hsin := Real.sin_nonneg_of_nonneg_of_le_pi a0 h
  have hneg : Real.sin (-(Real.pi / 4)) < 0 := Real.sin_neg_of_neg_of_neg_pi_lt (by linarith) (by linarith)
  have := mul_nonneg (Real.sqrt_nonneg (((0 + 1 * (1 - 0)) * Real.cos (-(Real.pi / 4))) ^ 2 + ((0 + 1 * (1 - 0)) * Real.sin (-(Real.pi / 4))) ^ 2)) hsin
  simp only at as
  rw [← as] at this
  linarith

/-- **C74 is false for the normal**: the returned normal is the normalised *position*.  On the unit disk in the plane `z = 0`, whose normal is the z axis, the canonical sample
(1, 1/2) gets the normal (1, 0, 0), which lies in the disk. -/
theorem C74_disk_normal_false : (⟨0, 1, 0, 2 * Real.pi⟩ : Disk).sample (ident : Transform ℝ) false 1 (1 / 2) = some (⟨1, 0, 0⟩, ⟨1, 0, 0⟩) := by
  have hpt : ∀ p : V3 ℝ, (ident : Transform ℝ).pt p = p := by
    intro p
    apply V3.ext <;> simp [ident, Transform.pt, homog, neUnity, Xform.EPS]
  have hc : MC.concentric 1 (1 / 2) = some (1, 0) := by
    have e8 : 8 * (Real.pi / 4) = 2 * Real.pi := by ring
    simp [MC.concentric, MC.concentricPolar, MC.qdiv]
    norm_num [e8]
    exact ⟨1, _, ⟨rfl, rfl⟩, by simp, by simp⟩
  have harg : Complex.arg ⟨1, 0⟩ = 0 := by
    have : (⟨1, 0⟩ : ℂ) = 1 := by apply Complex.ext <;> simp
    rw [this, Complex.arg_one]
  simp only [Disk.sample, Disk.sampleObj, hc, Option.map_some, hpt, harg]
  simp [Geom.normalize, Geom.length, sqLength]

/-- `Disk.area`, disk.py 144-146 -/
noncomputable def Disk.area (s : Disk) : ℝ := s.phiMax * (1 / 2) * (s.radius * s.radius - s.inner * s.inner)

/-- **C74 (part)** reversing the orientation of a disk leaves the sampled point alone and reverses the direction returned with it, whatever that direction is; away
from the origin of the world that direction is of unit length. -/
theorem C74_disk_reversed_partial (s : Disk) (o2w : Transform ℝ) (u1 u2 : ℝ) (p n : V3 ℝ) (h : s.sample o2w false u1 u2 = some (p, n)) :
    s.sample o2w true u1 u2 = some (p, ⟨-n.x, -n.y, -n.z⟩) ∧ (p ≠ ⟨0, 0, 0⟩ → Geom.length n = 1) := by
  simp only [Disk.sample, Bool.false_eq_true, if_false, if_true, Option.map_eq_some_iff, Prod.mk.injEq] at h ⊢
  obtain ⟨q, hq, rfl, rfl⟩ := h
  refine ⟨⟨q, hq, rfl, by ext <;> simp⟩, fun hp => ?_⟩
  exact ((Geom.C06_normalize _).1 hp).1

/-- **C74** the area is the integral over the disk of the area element `rho drho dphi`. -/
theorem C74_disk_area (s : Disk) : s.area = ∫ _phi in (0 : ℝ)..s.phiMax, ∫ rho in s.inner..s.radius, rho := by
  simp only [integral_id, intervalIntegral.integral_const, smul_eq_mul, sub_zero, Disk.area]
  ring

/-- a disk and a hit point meeting the hypotheses of `C73_disk_partial` -/
example : (Disk.init 0 2 0 360).Ok ∧ 0 < (Disk.init 0 2 0 360).phiMax ∧ OnDisk (Disk.init 0 2 0 360) ⟨1, 0, 0⟩ := by
  have hphi : (Disk.init 0 2 0 360).phiMax = 2 * Real.pi := by simp [Disk.init, Xform.rad, npClip]; ring
  refine ⟨Disk.init_ok _ _ _ _, by rw [hphi]; exact Real.two_pi_pos, rfl, by simp [Disk.init], by simp [Disk.init], ?_⟩
  exact ⟨0, le_rfl, (Disk.init_ok _ _ _ _).phi0, by simp, by simp⟩

end Verif.Shape
