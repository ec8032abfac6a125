import Verif.Shape.Disk
import Mathlib.MeasureTheory.Measure.Lebesgue.Basic
/-!
# Cylinders (C149)

Models `pytracer/shape/cylinder.py` `Cylinder`: the constructor 26-32, `object_bound` 37-39, `sample` 41-50, `intersect` 52-140, `intersect_p` 142-189, `area` 191-192.
The class does not define the abstract method `refine` (`shape/__init__.py:69-75`), so only a subclass that adds it has instances; the model is of the methods such a subclass inherits.
Real arithmetic; `np.arctan2` is the argument of a complex number (signed zeros are not modelled); `np.roots` is taken to return the two roots of the quadratic, in either order — lines 74-75 sort them.
It is called only when the discriminant is positive, hence with a leading coefficient that is not zero.
-/
namespace Verif.Shape
open V3 Xform

/-- `Cylinder`, cylinder.py 29-32 -/
structure Cylinder where
  radius : ℝ
  zmin : ℝ
  zmax : ℝ
  phiMax : ℝ

/-- `Cylinder.__init__`, cylinder.py 26-32 -/
noncomputable def Cylinder.init (rad z0 z1 pm : ℝ) : Cylinder := ⟨rad, min z0 z1, max z0 z1, Xform.rad (npClip pm 0 360)⟩

/-- cylinder.py 91, 102, 174, 185 -/
def Cylinder.clipped (s : Cylinder) (p : V3 ℝ) (phi : ℝ) : Prop := p.z < s.zmin ∨ p.z > s.zmax ∨ phi > s.phiMax

open Classical in
/-- cylinder.py 63-104: the hit parameter, the position in object space, its angle -/
noncomputable def Cylinder.hitObj (s : Cylinder) (ray : Ray ℝ) : Option (ℝ × V3 ℝ × ℝ) :=
  let A := ray.d.x * ray.d.x + ray.d.y * ray.d.y
  let B := 2 * (ray.d.x * ray.o.x + ray.d.y * ray.o.y)
  let C := ray.o.x * ray.o.x + ray.o.y * ray.o.y - s.radius * s.radius
  let D := B * B - 4 * A * C
  if D ≤ 0 then none else
  let t0 := (-B - Real.sqrt D) / (2 * A)
  let t1 := (-B + Real.sqrt D) / (2 * A)
  if (t0 : WithTop ℝ) > ray.maxt ∨ t1 < ray.mint then none else
  if t0 < ray.mint ∧ (t1 : WithTop ℝ) > ray.maxt then none else
  let thit := if t0 < ray.mint then t1 else t0
  let phit := ray.pos thit
  let phi := azimuth phit
  if s.clipped phit phi then
    if thit = t1 ∨ (t1 : WithTop ℝ) > ray.maxt then none else
    let phit := ray.pos t1
    let phi := azimuth phit
    if s.clipped phit phi then none else some (t1, phit, phi)
  else some (thit, phit, phi)

/-- what `intersect` does -/
inductive Outcome where
  | miss
  | attributeError
deriving DecidableEq

/-- `Cylinder.intersect`, cylinder.py 52-140: on every hit line 109 reads `self.thetaMax`, which the class does not have -/
noncomputable def Cylinder.intersect (s : Cylinder) (w2o : Transform ℝ) (r : Ray ℝ) : Outcome :=
  match s.hitObj (r.map w2o) with
  | none => .miss
  | some _ => .attributeError

open Classical in
/-- `Cylinder.intersect_p`, cylinder.py 142-189 -/
noncomputable def Cylinder.hitP (s : Cylinder) (w2o : Transform ℝ) (r : Ray ℝ) : Bool :=
  let ray := r.map w2o
  let A := ray.d.x * ray.d.x + ray.d.y * ray.d.y
  let B := 2 * (ray.d.x * ray.o.x + ray.d.y * ray.o.y)
  let C := ray.o.x * ray.o.x + ray.o.y * ray.o.y - s.radius * s.radius
  let D := B * B - 4 * A * C
  if D ≤ 0 then false else
  let t0 := (-B - Real.sqrt D) / (2 * A)
  let t1 := (-B + Real.sqrt D) / (2 * A)
  if (t0 : WithTop ℝ) > ray.maxt ∨ t1 < ray.mint then false else
  if t0 < ray.mint ∧ (t1 : WithTop ℝ) > ray.maxt then false else
  let thit := if t0 < ray.mint then t1 else t0
  let phit := ray.pos thit
  let phi := azimuth phit
  if s.clipped phit phi then
    if thit = t1 ∨ (t1 : WithTop ℝ) > ray.maxt then false else
    let phit := ray.pos t1
    let phi := azimuth phit
    if s.clipped phit phi then false else true
  else true

/-- `Cylinder.object_bound`, cylinder.py 37-39 -/
noncomputable def Cylinder.objectBound (s : Cylinder) : BBox ℝ :=
  BBox.ofPoints ⟨-s.radius, -s.radius, s.zmin⟩ ⟨s.radius, s.radius, s.zmax⟩

/-- `Cylinder.sample`, cylinder.py 42-44: the point in object space (`util.lerp`, `utility/utility.py:89-91`) -/
noncomputable def Cylinder.sampleObj (s : Cylinder) (u1 u2 : ℝ) : V3 ℝ :=
  let z := (1 - u1) * s.zmin + u1 * s.zmax
  let t := u2 * s.phiMax
  ⟨s.radius * Real.cos t, s.radius * Real.sin t, z⟩

/-- `Cylinder.sample`, cylinder.py 41-50 -/
noncomputable def Cylinder.sample (s : Cylinder) (o2w : Transform ℝ) (ro : Bool) (u1 u2 : ℝ) : V3 ℝ × V3 ℝ :=
  let p := s.sampleObj u1 u2
  let n := Geom.normalize (o2w.nrm ⟨p.x, p.y, 0⟩)
  (o2w.pt p, if ro then (-1 : ℝ) * n else n)

/-- `Cylinder.area`, cylinder.py 191-192 -/
noncomputable def Cylinder.area (s : Cylinder) : ℝ := s.phiMax * s.radius * (s.zmax - s.zmin)

/-! ### Specification -/

/-- the (partial) cylinder as a set of points -/
def OnCylinder (s : Cylinder) (p : V3 ℝ) : Prop :=
  p.x ^ 2 + p.y ^ 2 = s.radius ^ 2 ∧ s.zmin ≤ p.z ∧ p.z ≤ s.zmax ∧ AngleWithin s.phiMax p

/-- the parameters at which the ray is, within its range, on the cylinder -/
def Cylinder.hits (s : Cylinder) (w2o : Transform ℝ) (r : Ray ℝ) : Set ℝ :=
  {t | r.mint ≤ t ∧ (t : WithTop ℝ) ≤ r.maxt ∧ OnCylinder s (w2o.pt (r.pos t))}

/-- the line of the ray passes through the inside of the infinite cylinder: some point of it is closer to the axis than the radius, and some is not -/
def Cylinder.Crosses (s : Cylinder) (w2o : Transform ℝ) (r : Ray ℝ) : Prop :=
  (∃ t, (w2o.pt (r.pos t)).x ^ 2 + (w2o.pt (r.pos t)).y ^ 2 < s.radius ^ 2) ∧ (∃ t, s.radius ^ 2 < (w2o.pt (r.pos t)).x ^ 2 + (w2o.pt (r.pos t)).y ^ 2)

/-- what the constructor makes -/
structure Cylinder.Ok (s : Cylinder) : Prop where
  z : s.zmin ≤ s.zmax
  phi0 : 0 ≤ s.phiMax
  phi1 : s.phiMax ≤ 2 * Real.pi

theorem Cylinder.init_ok (rad z0 z1 pm : ℝ) : (Cylinder.init rad z0 z1 pm).Ok := by
  have h := Disk.init_ok 0 0 0 pm
  exact ⟨min_le_max, h.phi0, h.phi1⟩

/-! ### Intersection -/

/-- the squared distance from the axis along a line -/
theorem axis_dist (o d : V3 ℝ) (t : ℝ) : (rayAt o d t).x ^ 2 + (rayAt o d t).y ^ 2 =
    (d.x * d.x + d.y * d.y) * (t * t) + 2 * (d.x * o.x + d.y * o.y) * t + (o.x * o.x + o.y * o.y) := by
  simp only [rayAt]; ring

theorem Cylinder.on_line_iff (o d : V3 ℝ) (R t : ℝ) (hd : d.x * d.x + d.y * d.y ≠ 0)
    (hD : 0 ≤ (2 * (d.x * o.x + d.y * o.y)) * (2 * (d.x * o.x + d.y * o.y)) - 4 * (d.x * d.x + d.y * d.y) * (o.x * o.x + o.y * o.y - R * R)) :
    (rayAt o d t).x ^ 2 + (rayAt o d t).y ^ 2 = R ^ 2 ↔
      t = (-(2 * (d.x * o.x + d.y * o.y)) - Real.sqrt ((2 * (d.x * o.x + d.y * o.y)) * (2 * (d.x * o.x + d.y * o.y)) - 4 * (d.x * d.x + d.y * d.y) * (o.x * o.x + o.y * o.y - R * R))) / (2 * (d.x * d.x + d.y * d.y)) ∨
      t = (-(2 * (d.x * o.x + d.y * o.y)) + Real.sqrt ((2 * (d.x * o.x + d.y * o.y)) * (2 * (d.x * o.x + d.y * o.y)) - 4 * (d.x * d.x + d.y * d.y) * (o.x * o.x + o.y * o.y - R * R))) / (2 * (d.x * d.x + d.y * d.y)) := by
  have h := quadratic_eq_zero_iff (a := d.x * d.x + d.y * d.y) (b := 2 * (d.x * o.x + d.y * o.y)) (c := o.x * o.x + o.y * o.y - R * R) hd
    (s := Real.sqrt ((2 * (d.x * o.x + d.y * o.y)) * (2 * (d.x * o.x + d.y * o.y)) - 4 * (d.x * d.x + d.y * d.y) * (o.x * o.x + o.y * o.y - R * R)))
    (by rw [Real.mul_self_sqrt hD, discrim]; ring) t
  rw [or_comm] at h
  rw [← h, axis_dist]
  constructor <;> intro h <;> linarith

/-- the discriminant is positive exactly when the line crosses the infinite cylinder -/
theorem discr_pos_iff (o d : V3 ℝ) (R : ℝ) :
    0 < (2 * (d.x * o.x + d.y * o.y)) * (2 * (d.x * o.x + d.y * o.y)) - 4 * (d.x * d.x + d.y * d.y) * (o.x * o.x + o.y * o.y - R * R) ↔
    (∃ t, (rayAt o d t).x ^ 2 + (rayAt o d t).y ^ 2 < R ^ 2) ∧ (∃ t, R ^ 2 < (rayAt o d t).x ^ 2 + (rayAt o d t).y ^ 2) := by
  simp only [axis_dist]
  set a := d.x * d.x + d.y * d.y with ha
  set b := d.x * o.x + d.y * o.y with hb
  set c := o.x * o.x + o.y * o.y with hc
  have ha0 : 0 ≤ a := by rw [ha]; nlinarith [mul_self_nonneg d.x, mul_self_nonneg d.y]
  constructor
  · intro h
    have hane : a ≠ 0 := by
      intro h0
      have hx : d.x = 0 := by nlinarith [mul_self_nonneg d.x, mul_self_nonneg d.y]
      have hy : d.y = 0 := by nlinarith [mul_self_nonneg d.x, mul_self_nonneg d.y]
      have hb0 : b = 0 := by rw [hb, hx, hy]; ring
      rw [h0, hb0] at h; norm_num at h
    have hap : 0 < a := lt_of_le_of_ne ha0 (Ne.symm hane)
    refine ⟨⟨-b / a, ?_⟩, ⟨(-b + (|b| + a + R ^ 2 + 1)) / a, ?_⟩⟩
    · have e : a * (-b / a * (-b / a)) + 2 * b * (-b / a) + c = c - b * b / a := by field_simp; ring
      rw [e, sub_lt_iff_lt_add, ← sub_lt_iff_lt_add', lt_div_iff₀ hap]
      nlinarith
    · set k := |b| + a + R ^ 2 + 1 with hk
      have hk1 : 1 ≤ k := by rw [hk]; nlinarith [abs_nonneg b, sq_nonneg R]
      have hka : a ≤ k := by rw [hk]; nlinarith [abs_nonneg b, sq_nonneg R]
      have e : a * ((-b + k) / a * ((-b + k) / a)) + 2 * b * ((-b + k) / a) + c = (k * k + (a * c - b * b)) / a := by field_simp; ring
      rw [e, lt_div_iff₀ hap]
      have hcs : 0 ≤ a * c - b * b := by
        have : a * c - b * b = (d.x * o.y - d.y * o.x) ^ 2 := by rw [ha, hb, hc]; ring
        rw [this]; positivity
      have hR : R ^ 2 < k := by rw [hk]; nlinarith [abs_nonneg b]
      have h1 : R ^ 2 * a ≤ R ^ 2 * k := mul_le_mul_of_nonneg_left hka (sq_nonneg R)
      have h2 : R ^ 2 * k < k * k := mul_lt_mul_of_pos_right hR (by linarith)
      linarith
  · rintro ⟨⟨t, ht⟩, ⟨t', ht'⟩⟩
    have hane : a ≠ 0 := by
      intro h0
      have hx : d.x = 0 := by nlinarith [mul_self_nonneg d.x, mul_self_nonneg d.y]
      have hy : d.y = 0 := by nlinarith [mul_self_nonneg d.x, mul_self_nonneg d.y]
      have hb0 : b = 0 := by rw [hb, hx, hy]; ring
      rw [h0, hb0] at ht ht'; linarith
    have hap : 0 < a := lt_of_le_of_ne ha0 (Ne.symm hane)
    have : a * (a * (t * t) + 2 * b * t + c - R ^ 2) < 0 := mul_neg_of_pos_of_neg hap (by linarith)
    nlinarith [sq_nonneg (a * t + b)]

theorem Cylinder.clipped_iff {s : Cylinder} (hs : s.Ok) (p : V3 ℝ) (hp : p.x ^ 2 + p.y ^ 2 = s.radius ^ 2) : s.clipped p (azimuth p) ↔ ¬ OnCylinder s p := by
  simp only [Cylinder.clipped, OnCylinder, hp, angle_iff hs.phi0 hs.phi1, true_and, not_and_or, not_le, gt_iff_lt]

theorem Cylinder.hitObj_spec (s : Cylinder) (hs : s.Ok) (ray : Ray ℝ)
    (hD : 0 < (2 * (ray.d.x * ray.o.x + ray.d.y * ray.o.y)) * (2 * (ray.d.x * ray.o.x + ray.d.y * ray.o.y)) -
      4 * (ray.d.x * ray.d.x + ray.d.y * ray.d.y) * (ray.o.x * ray.o.x + ray.o.y * ray.o.y - s.radius * s.radius)) :
    (∀ x, s.hitObj ray = some x → IsLeast {t | ray.mint ≤ t ∧ (t : WithTop ℝ) ≤ ray.maxt ∧ OnCylinder s (ray.pos t)} x.1 ∧ x.2 = (ray.pos x.1, azimuth (ray.pos x.1))) ∧
    (s.hitObj ray = none → {t | ray.mint ≤ t ∧ (t : WithTop ℝ) ≤ ray.maxt ∧ OnCylinder s (ray.pos t)} = ∅) := by
  have hA : ray.d.x * ray.d.x + ray.d.y * ray.d.y ≠ 0 := by
    intro h0
    have hx : ray.d.x = 0 := by nlinarith [mul_self_nonneg ray.d.x, mul_self_nonneg ray.d.y]
    have hy : ray.d.y = 0 := by nlinarith [mul_self_nonneg ray.d.x, mul_self_nonneg ray.d.y]
    rw [hx, hy] at hD
    simp at hD
  have hA' : 0 < ray.d.x * ray.d.x + ray.d.y * ray.d.y := lt_of_le_of_ne (by nlinarith [mul_self_nonneg ray.d.x, mul_self_nonneg ray.d.y]) (Ne.symm hA)
  have key := fun t => Cylinder.on_line_iff ray.o ray.d s.radius t hA hD.le
  have hsq := Real.sqrt_pos.2 hD
  classical
  refine decide_core ?_ (fun t => OnCylinder s (ray.pos t)) (fun t => (ray.pos t, azimuth (ray.pos t))) (bad := fun t => s.clipped (ray.pos t) (azimuth (ray.pos t)))
    (hb := fun t ht => Cylinder.clipped_iff hs _ ((key t).2 ht)) (hok := fun t ht => (key t).1 ht.1) _ (by simp only [Cylinder.hitObj, if_neg (not_le.2 hD)])
  exact div_lt_div_of_pos_right (by linarith) (by linarith)

theorem Cylinder.hitP_eq (s : Cylinder) (w2o : Transform ℝ) (r : Ray ℝ) : s.hitP w2o r = (s.hitObj (r.map w2o)).isSome := by
  have hi : ∀ (c : Prop) [Decidable c] (a b : Option (ℝ × V3 ℝ × ℝ)), (if c then a else b).isSome = if c then a.isSome else b.isSome := by
    intro c _ a b; split <;> rfl
  simp only [Cylinder.hitP, Cylinder.hitObj, hi, Option.isSome_none, Option.isSome_some]

theorem Cylinder.crosses_iff (s : Cylinder) (w2o : Transform ℝ) (hw : AffineM w2o.m) (r : Ray ℝ) : s.Crosses w2o r ↔
    0 < (2 * ((r.map w2o).d.x * (r.map w2o).o.x + (r.map w2o).d.y * (r.map w2o).o.y)) * (2 * ((r.map w2o).d.x * (r.map w2o).o.x + (r.map w2o).d.y * (r.map w2o).o.y)) -
      4 * ((r.map w2o).d.x * (r.map w2o).d.x + (r.map w2o).d.y * (r.map w2o).d.y) * ((r.map w2o).o.x * (r.map w2o).o.x + (r.map w2o).o.y * (r.map w2o).o.y - s.radius * s.radius) := by
  rw [discr_pos_iff]
  have e (t : ℝ) : rayAt (r.map w2o).o (r.map w2o).d t = w2o.pt (r.pos t) := pos_map w2o hw r t
  simp only [e, Cylinder.Crosses]

/-- **C149** `intersect_p` answers True exactly when the ray, within its range, is on the (partial) cylinder and its line crosses the infinite cylinder (it is not tangent and does not run along it) -/
theorem C149_intersect_p (s : Cylinder) (hs : s.Ok) (w2o : Transform ℝ) (hw : AffineM w2o.m) (r : Ray ℝ) :
    s.hitP w2o r = true ↔ (s.hits w2o r).Nonempty ∧ s.Crosses w2o r := by
  rw [Cylinder.hitP_eq]
  by_cases hc : s.Crosses w2o r
  · obtain ⟨h1, h2⟩ := s.hitObj_spec hs (r.map w2o) ((s.crosses_iff w2o hw r).1 hc)
    simp only [pos_map w2o hw] at h1 h2
    simp only [hc, and_true]
    rcases ho : s.hitObj (r.map w2o) with _ | x
    · simp only [Option.isSome_none, Bool.false_eq_true, false_iff]
      have := h2 ho
      rw [show s.hits w2o r = ∅ from this]
      exact Set.not_nonempty_empty
    · simp only [Option.isSome_some, true_iff]
      exact ⟨x.1, (h1 x ho).1.1⟩
  · have hD := mt (s.crosses_iff w2o hw r).2 hc
    have : s.hitObj (r.map w2o) = none := by simp only [Cylinder.hitObj, if_pos (not_lt.1 hD)]
    simp [this, hc]

/-- **C149 (part)** `intersect` reports a miss exactly when `intersect_p` does.  Missing: a hit is never reported (`C149_intersect_false`). -/
theorem C149_intersect_partial (s : Cylinder) (w2o : Transform ℝ) (r : Ray ℝ) : s.intersect w2o r = .miss ↔ s.hitP w2o r = false := by
  rw [Cylinder.hitP_eq]
  simp only [Cylinder.intersect]
  rcases s.hitObj (r.map w2o) with _ | x <;> simp

/-- **C149 fails** for `intersect`: whenever there is something to report it raises, since it reads an attribute that belongs to spheres -/
theorem C149_intersect_false (s : Cylinder) (hs : s.Ok) (w2o : Transform ℝ) (hw : AffineM w2o.m) (r : Ray ℝ) :
    s.intersect w2o r = .attributeError ↔ (s.hits w2o r).Nonempty ∧ s.Crosses w2o r := by
  rw [← C149_intersect_p s hs w2o hw r, Cylinder.hitP_eq]
  simp only [Cylinder.intersect]
  rcases s.hitObj (r.map w2o) with _ | x <;> simp

/-- **C149** every point of the cylinder is inside the object bound -/
theorem C149_object_bound (s : Cylinder) (hr : 0 ≤ s.radius) (p : V3 ℝ) (hp : OnCylinder s p) : s.objectBound.inside p = true := by
  obtain ⟨h1, h2, h3, -⟩ := hp
  have hx := abs_le_of_sq_le_sq' (a := p.x) (b := s.radius) (by nlinarith [sq_nonneg p.y]) hr
  have hy := abs_le_of_sq_le_sq' (a := p.y) (b := s.radius) (by nlinarith [sq_nonneg p.x]) hr
  simp only [Cylinder.objectBound, BBox.inside, BBox.ofPoints, Bool.and_eq_true, decide_eq_true_eq, ge_iff_le]
  exact ⟨⟨⟨⟨⟨le_max_of_le_right hx.2, decide_eq_true (min_le_of_left_le hx.1)⟩, le_max_of_le_right hy.2⟩, decide_eq_true (min_le_of_left_le hy.1)⟩, le_max_of_le_right h3⟩,
    decide_eq_true (min_le_of_left_le h2)⟩

/-! ### Sampling -/

/-- **C149** every canonical sample gives a point of the cylinder, with a unit normal perpendicular to the surface (to the images of both tangents), which points away from the axis in object space unless the orientation is
reversed -/
theorem C149_sample (s : Cylinder) (hs : s.Ok) (hr : 0 < s.radius) (o2w : Transform ℝ) (ho : HasInv o2w) (ha : AffineM o2w.m) (ro : Bool) (u1 u2 : ℝ)
    (a0 : 0 ≤ u1) (a1 : u1 ≤ 1) (b0 : 0 ≤ u2) (b1 : u2 ≤ 1) :
    ∃ p n, s.sample o2w ro u1 u2 = (o2w.pt p, n) ∧ OnCylinder s p ∧ Geom.length n = 1 ∧ dot n (o2w.vec ⟨-p.y, p.x, 0⟩) = 0 ∧ dot n (o2w.vec ⟨0, 0, 1⟩) = 0 ∧
      (if ro then dot n (o2w.vec ⟨p.x, p.y, 0⟩) < 0 else 0 < dot n (o2w.vec ⟨p.x, p.y, 0⟩)) := by
  set p := s.sampleObj u1 u2 with hp
  have hcs := Real.sin_sq_add_cos_sq (u2 * s.phiMax)
  have hpx : p.x = s.radius * Real.cos (u2 * s.phiMax) := rfl
  have hpy : p.y = s.radius * Real.sin (u2 * s.phiMax) := rfl
  have hxy : p.x ^ 2 + p.y ^ 2 = s.radius ^ 2 := by rw [hpx, hpy]; linear_combination s.radius ^ 2 * hcs
  have hon : OnCylinder s p := by
    refine ⟨hxy, ?_, ?_, u2 * s.phiMax, mul_nonneg b0 hs.phi0, by nlinarith [hs.phi0], ?_, ?_⟩
    · show s.zmin ≤ (1 - u1) * s.zmin + u1 * s.zmax
      nlinarith [hs.z]
    · show (1 - u1) * s.zmin + u1 * s.zmax ≤ s.zmax
      nlinarith [hs.z]
    · rw [hxy, Real.sqrt_sq hr.le, hpx]
    · rw [hxy, Real.sqrt_sq hr.le, hpy]
  set w := o2w.nrm ⟨p.x, p.y, 0⟩ with hw
  have hdot (v : V3 ℝ) : dot w (o2w.vec v) = dot (⟨p.x, p.y, 0⟩ : V3 ℝ) v := (C09_normals_stay_perpendicular o2w ha ho _ v).1
  have h1 : dot w (o2w.vec ⟨p.x, p.y, 0⟩) = s.radius ^ 2 := by rw [hdot]; simp only [dot]; linarith
  have hw0 : w ≠ 0 := by
    intro h
    rw [h] at h1
    simp [dot] at h1
    exact hr.ne' ((pow_eq_zero_iff two_ne_zero).1 h1.symm)
  obtain ⟨l1, l2, l3⟩ := (Geom.C06_normalize w).1 hw0
  have hnd (v : V3 ℝ) : Geom.length w * dot (Geom.normalize w) (o2w.vec v) = dot (⟨p.x, p.y, 0⟩ : V3 ℝ) v := by
    rw [← hdot]
    conv_rhs => rw [← l2]
    simp only [dot, smul_x, smul_y, smul_z]; ring
  have t1 : dot (Geom.normalize w) (o2w.vec ⟨-p.y, p.x, 0⟩) = 0 := by
    have := hnd ⟨-p.y, p.x, 0⟩
    have e : dot (⟨p.x, p.y, 0⟩ : V3 ℝ) ⟨-p.y, p.x, 0⟩ = 0 := by simp only [dot]; ring
    rw [e] at this
    exact (mul_eq_zero.1 this).resolve_left l3.ne'
  have t2 : dot (Geom.normalize w) (o2w.vec ⟨0, 0, 1⟩) = 0 := by
    have := hnd ⟨0, 0, 1⟩
    have e : dot (⟨p.x, p.y, 0⟩ : V3 ℝ) ⟨0, 0, 1⟩ = 0 := by simp [dot]
    rw [e] at this
    exact (mul_eq_zero.1 this).resolve_left l3.ne'
  have t3 : 0 < dot (Geom.normalize w) (o2w.vec ⟨p.x, p.y, 0⟩) := by
    have := hnd ⟨p.x, p.y, 0⟩
    have e : dot (⟨p.x, p.y, 0⟩ : V3 ℝ) ⟨p.x, p.y, 0⟩ = s.radius ^ 2 := by simp only [dot]; linarith
    rw [e] at this
    have h2 : 0 < Geom.length w * dot (Geom.normalize w) (o2w.vec ⟨p.x, p.y, 0⟩) := by rw [this]; positivity
    exact (mul_pos_iff_of_pos_left l3).1 h2
  have hneg (v : V3 ℝ) : dot ((-1 : ℝ) * Geom.normalize w) v = -dot (Geom.normalize w) v := by simp only [dot, smul_x, smul_y, smul_z]; ring
  refine ⟨p, _, rfl, hon, ?_, ?_, ?_, ?_⟩
  all_goals cases ro
  · exact l1
  · simp only [if_true]
    have hl : Geom.length ((-1 : ℝ) * Geom.normalize w) = Geom.length (Geom.normalize w) := by simp [Geom.length, sqLength]
    exact hl.trans l1
  · exact t1
  · simp only [if_true]; rw [hneg, t1, neg_zero]
  · exact t2
  · simp only [if_true]; rw [hneg, t2, neg_zero]
  · exact t3
  · simp only [if_true]; rw [hneg]; linarith

/-- **C149** samples are spread evenly by area: of the unit square of canonical samples, the part that gives points of a patch (heights between `za` and `zb`, angles between `pa` and `pb`) is the patch's share of the area -/
theorem C149_uniform (s : Cylinder) (hr : 0 < s.radius) (hz : s.zmin < s.zmax) (hp : 0 < s.phiMax) (za zb pa pb : ℝ) (h1 : s.zmin ≤ za) (h2 : za ≤ zb) (h3 : zb ≤ s.zmax)
    (h4 : 0 ≤ pa) (_h5 : pa ≤ pb) (h6 : pb ≤ s.phiMax) :
    MeasureTheory.volume {u : ℝ × ℝ | (s.sampleObj u.1 u.2).z ∈ Set.Icc za zb ∧ ∃ phi ∈ Set.Icc pa pb, u.2 = phi / s.phiMax ∧ (s.sampleObj u.1 u.2).x = s.radius * Real.cos phi ∧ (s.sampleObj u.1 u.2).y = s.radius * Real.sin phi} =
      ENNReal.ofReal ((pb - pa) * s.radius * (zb - za) / s.area) ∧
    {u : ℝ × ℝ | (s.sampleObj u.1 u.2).z ∈ Set.Icc za zb ∧ ∃ phi ∈ Set.Icc pa pb, u.2 = phi / s.phiMax ∧ (s.sampleObj u.1 u.2).x = s.radius * Real.cos phi ∧ (s.sampleObj u.1 u.2).y = s.radius * Real.sin phi} ⊆ Set.Icc 0 1 ×ˢ Set.Icc 0 1 := by
  have hd : 0 < s.zmax - s.zmin := by linarith
  have hset : {u : ℝ × ℝ | (s.sampleObj u.1 u.2).z ∈ Set.Icc za zb ∧ ∃ phi ∈ Set.Icc pa pb, u.2 = phi / s.phiMax ∧ (s.sampleObj u.1 u.2).x = s.radius * Real.cos phi ∧ (s.sampleObj u.1 u.2).y = s.radius * Real.sin phi} =
      Set.Icc ((za - s.zmin) / (s.zmax - s.zmin)) ((zb - s.zmin) / (s.zmax - s.zmin)) ×ˢ Set.Icc (pa / s.phiMax) (pb / s.phiMax) := by
    ext ⟨u, v⟩
    simp only [Cylinder.sampleObj, Set.mem_ofPred_eq, Set.mem_prod, Set.mem_Icc]
    rw [div_le_iff₀ hd, le_div_iff₀ hd, div_le_iff₀ hp, le_div_iff₀ hp]
    constructor
    · rintro ⟨⟨a, b⟩, phi, ⟨c, d⟩, rfl, -⟩
      refine ⟨⟨by linarith, by linarith⟩, ?_, ?_⟩ <;> rw [div_mul_cancel₀ _ hp.ne'] <;> assumption
    · rintro ⟨⟨a, b⟩, c, d⟩
      exact ⟨⟨by linarith, by linarith⟩, v * s.phiMax, ⟨c, d⟩, by field_simp, rfl, rfl⟩
  rw [hset]
  constructor
  · rw [MeasureTheory.Measure.volume_eq_prod, MeasureTheory.Measure.prod_prod, Real.volume_Icc, Real.volume_Icc, ← ENNReal.ofReal_mul]
    · congr 1
      simp only [Cylinder.area]
      field_simp
      ring
    · rw [← sub_div]
      exact div_nonneg (by linarith) hd.le
  · refine Set.prod_mono (Set.Icc_subset_Icc ?_ ?_) (Set.Icc_subset_Icc ?_ ?_)
    · exact div_nonneg (by linarith) hd.le
    · rw [div_le_one hd]; linarith
    · exact div_nonneg h4 hp.le
    · rw [div_le_one hp]; exact h6

/-- **C149** the area is the integral of the area element `radius dphi dz` -/
theorem C149_area (s : Cylinder) : s.area = ∫ _phi in (0 : ℝ)..s.phiMax, ∫ _z in s.zmin..s.zmax, s.radius := by
  simp only [intervalIntegral.integral_const, smul_eq_mul, sub_zero, Cylinder.area]
  ring

/-- a half cylinder and a ray through it -/
example : ∃ r : Ray ℝ, ((Cylinder.init 1 0 2 180).hits (ident : Transform ℝ) r).Nonempty ∧ (Cylinder.init 1 0 2 180).Crosses (ident : Transform ℝ) r ∧ (Cylinder.init 1 0 2 180).Ok := by
  have hpt : ∀ p : V3 ℝ, (ident : Transform ℝ).pt p = p := by
    intro p
    apply V3.ext <;> simp [ident, Transform.pt, homog, neUnity, Xform.EPS]
  refine ⟨⟨⟨-2, 0, 1⟩, ⟨1, 0, 0⟩, 0, ⊤⟩, ⟨3, by norm_num, le_top, ?_⟩, ⟨⟨2, ?_⟩, ⟨0, ?_⟩⟩, Cylinder.init_ok _ _ _ _⟩
  · rw [hpt]
    refine ⟨?_, ?_, ?_, 0, le_rfl, (Cylinder.init_ok _ _ _ _).phi0, ?_, ?_⟩ <;> norm_num [Ray.pos, rayAt, Cylinder.init]
  · rw [hpt]; norm_num [Ray.pos, rayAt, Cylinder.init]
  · rw [hpt]; norm_num [Ray.pos, rayAt, Cylinder.init]

end Verif.Shape
