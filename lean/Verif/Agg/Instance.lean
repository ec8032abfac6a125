import Verif.Geom.DiffGeom
import Verif.Xform.AnimProps

/-!
# Instances (`pytracer/aggregate/primitive.py:136-184`): property C153

`TransformedPrimitive` lacks three methods that `Primitive` declares abstract, so it cannot be made (`C153_construct_false`); what is modelled is its `intersect` and `intersect_p`, which a subclass that adds the missing
methods inherits.  The instanced primitive is a `GeometricPrimitive` of a shape whose test depends on the ray in object space only (spheres, disks, cylinders), or any primitive.  Real arithmetic.
-/
namespace Verif.Inst
open Verif V3 Xform DiffG

abbrev R := Xform.Ray ℝ (WithTop ℝ)

/-- `Intersection` (`intersection.py:19-28`) without the primitive -/
@[ext] structure Isect where
  dg : DiffGeom
  w2o : Transform ℝ
  o2w : Transform ℝ
  shapeId : ℕ
  primitiveId : ℕ
  rEps : ℝ

/-- a primitive's `intersect(r, isect)`: the answer, and the ray and the record afterwards -/
abbrev Test := R → Isect → Bool × R × Isect

/-- `TransformedPrimitive.intersect` (`primitive.py:146-170`); `inner` is `self.primitive.intersect`, `id` is `self.primitiveId` -/
noncomputable def intersect (inner : Test) (anim : Animated ℝ) (id : ℕ) (r : R) (isect : Isect) : Bool × R × Isect :=
  let w2p := anim.interpolate r.time
  let (hit, ray, isect) := inner (w2p.ray r) isect
  if !hit then (false, r, isect)
  else
    let r := { r with maxt := ray.maxt }
    let isect := { isect with primitiveId := id }
    if !w2p.isIdentity then
      let w2o := isect.w2o * w2p
      let o2w := w2o.inverse
      let p2w := w2p.inverse
      let dg := { isect.dg with
        p := p2w.pt isect.dg.p
        nn := Geom.normalize (p2w.nrm isect.dg.nn)
        dpdu := p2w.vec isect.dg.dpdu
        dpdv := p2w.vec isect.dg.dpdv
        dndu := p2w.nrm isect.dg.dndu
        dndv := p2w.nrm isect.dg.dndv }
      (true, r, { isect with dg := dg, w2o := w2o, o2w := o2w })
    else (true, r, isect)

/-- `TransformedPrimitive.intersect_p` (`primitive.py:172-173`) -/
noncomputable def intersectP (innerP : R → Bool) (anim : Animated ℝ) (r : R) : Bool := innerP (anim.ray r)

/-- what a shape's test finds in object space: parameter, position, its derivatives, those of the normal, and the surface parameters -/
structure Local where
  t : ℝ
  p : V3 ℝ
  dpdu : V3 ℝ
  dpdv : V3 ℝ
  dndu : V3 ℝ
  dndv : V3 ℝ
  u : ℝ
  v : ℝ

/-- a `GeometricPrimitive` of a shape with transforms `o2w` and `w2o`: the shape's object-space test, `ro`, the identifiers (`shape/__init__.py:45-53`, `primitive.py:80-84`) -/
structure Quadric where
  hit : R → Option Local
  ro : Bool
  shapeId : ℕ
  primitiveId : ℕ

/-- `GeometricPrimitive.intersect` (`primitive.py:89-108`) with a shape's `intersect` (`sphere.py:133-134`, `222-224` and alike in `disk.py`), placed by `o2w` and `w2o`; the sign of the normal is `diffgeom.py:36-38` -/
noncomputable def Quadric.intersect (s : Quadric) (o2w w2o : Transform ℝ) : Test := fun r isect =>
  match s.hit (w2o.ray r) with
  | none => (false, r, isect)
  | some l => (true, { r with maxt := (l.t : WithTop ℝ) },
      ⟨DiffGeom.init (o2w.pt l.p) (o2w.vec l.dpdu) (o2w.vec l.dpdv) (o2w.nrm l.dndu) (o2w.nrm l.dndv) l.u l.v (xor s.ro o2w.swapsHandedness), w2o, o2w, s.shapeId, s.primitiveId, 1 / 100000 * l.t⟩)

/-- the methods `Primitive` declares abstract (`primitive.py:36-66`) -/
def abstractMethods : List String := ["world_bound", "can_intersect", "intersect", "intersect_p", "refine", "get_area_light", "get_bsdf", "get_bssrdf"]

/-- the methods `TransformedPrimitive` defines (`primitive.py:138-184`) -/
def instanceMethods : List String := ["__init__", "__repr__", "intersect", "intersect_p", "world_bound", "can_intersect", "refine"]

/-! ## Proofs -/

/-- an affine transform with its inverse -/
def Good (t : Transform ℝ) : Prop := AffineM t.m ∧ HasInv t

theorem Good.inv {t : Transform ℝ} (h : Good t) : Good t.inverse := ⟨affine_inv h.1 h.2, h.2.2, h.2.1⟩

theorem Good.det {t : Transform ℝ} (h : Good t) : det3 t.m ≠ 0 := by
  intro h0
  have := det3_mul t.m t.mInv (affine_inv h.1 h.2)
  rw [h.2.1, h0, zero_mul] at this
  simp [det3] at this

/-- the cross product of transformed vectors -/
theorem cross_vec {t : Transform ℝ} (h : Good t) (a b : V3 ℝ) : cross (t.vec a) (t.vec b) = det3 t.m * t.nrm (cross a b) := by
  have hA := h.1
  obtain ⟨a1, a2, a3, a4⟩ := affine_inv h.1 h.2
  obtain ⟨b1, b2, b3, b4⟩ := hA
  -- cofactors from the inverse
  have e : ∀ i j, t.m i 0 * t.mInv 0 j + t.m i 1 * t.mInv 1 j + t.m i 2 * t.mInv 2 j + t.m i 3 * t.mInv 3 j = (1 : M4 ℝ) i j := by
    intro i j; rw [← entry, h.2.1]
  have e00 := e 0 0; have e01 := e 0 1; have e02 := e 0 2
  have e10 := e 1 0; have e11 := e 1 1; have e12 := e 1 2
  have e20 := e 2 0; have e21 := e 2 1; have e22 := e 2 2
  simp only [a1, a2, a3, mul_zero, add_zero] at e00 e01 e02 e10 e11 e12 e20 e21 e22
  simp at e00 e01 e02 e10 e11 e12 e20 e21 e22
  -- det · M⁻¹ is the adjugate
  have c00 : det3 t.m * t.mInv 0 0 = t.m 1 1 * t.m 2 2 - t.m 1 2 * t.m 2 1 := by
    simp only [det3]; linear_combination (t.m 1 1 * t.m 2 2 - t.m 1 2 * t.m 2 1) * e00 - (t.m 0 1 * t.m 2 2 - t.m 0 2 * t.m 2 1) * e10 + (t.m 0 1 * t.m 1 2 - t.m 0 2 * t.m 1 1) * e20
  have c01 : det3 t.m * t.mInv 0 1 = -(t.m 0 1 * t.m 2 2 - t.m 0 2 * t.m 2 1) := by
    simp only [det3]; linear_combination (t.m 1 1 * t.m 2 2 - t.m 1 2 * t.m 2 1) * e01 - (t.m 0 1 * t.m 2 2 - t.m 0 2 * t.m 2 1) * e11 + (t.m 0 1 * t.m 1 2 - t.m 0 2 * t.m 1 1) * e21
  have c02 : det3 t.m * t.mInv 0 2 = t.m 0 1 * t.m 1 2 - t.m 0 2 * t.m 1 1 := by
    simp only [det3]; linear_combination (t.m 1 1 * t.m 2 2 - t.m 1 2 * t.m 2 1) * e02 - (t.m 0 1 * t.m 2 2 - t.m 0 2 * t.m 2 1) * e12 + (t.m 0 1 * t.m 1 2 - t.m 0 2 * t.m 1 1) * e22
  have c10 : det3 t.m * t.mInv 1 0 = -(t.m 1 0 * t.m 2 2 - t.m 1 2 * t.m 2 0) := by
    simp only [det3]; linear_combination -(t.m 1 0 * t.m 2 2 - t.m 1 2 * t.m 2 0) * e00 + (t.m 0 0 * t.m 2 2 - t.m 0 2 * t.m 2 0) * e10 - (t.m 0 0 * t.m 1 2 - t.m 0 2 * t.m 1 0) * e20
  have c11 : det3 t.m * t.mInv 1 1 = t.m 0 0 * t.m 2 2 - t.m 0 2 * t.m 2 0 := by
    simp only [det3]; linear_combination -(t.m 1 0 * t.m 2 2 - t.m 1 2 * t.m 2 0) * e01 + (t.m 0 0 * t.m 2 2 - t.m 0 2 * t.m 2 0) * e11 - (t.m 0 0 * t.m 1 2 - t.m 0 2 * t.m 1 0) * e21
  have c12 : det3 t.m * t.mInv 1 2 = -(t.m 0 0 * t.m 1 2 - t.m 0 2 * t.m 1 0) := by
    simp only [det3]; linear_combination -(t.m 1 0 * t.m 2 2 - t.m 1 2 * t.m 2 0) * e02 + (t.m 0 0 * t.m 2 2 - t.m 0 2 * t.m 2 0) * e12 - (t.m 0 0 * t.m 1 2 - t.m 0 2 * t.m 1 0) * e22
  have c20 : det3 t.m * t.mInv 2 0 = t.m 1 0 * t.m 2 1 - t.m 1 1 * t.m 2 0 := by
    simp only [det3]; linear_combination (t.m 1 0 * t.m 2 1 - t.m 1 1 * t.m 2 0) * e00 - (t.m 0 0 * t.m 2 1 - t.m 0 1 * t.m 2 0) * e10 + (t.m 0 0 * t.m 1 1 - t.m 0 1 * t.m 1 0) * e20
  have c21 : det3 t.m * t.mInv 2 1 = -(t.m 0 0 * t.m 2 1 - t.m 0 1 * t.m 2 0) := by
    simp only [det3]; linear_combination (t.m 1 0 * t.m 2 1 - t.m 1 1 * t.m 2 0) * e01 - (t.m 0 0 * t.m 2 1 - t.m 0 1 * t.m 2 0) * e11 + (t.m 0 0 * t.m 1 1 - t.m 0 1 * t.m 1 0) * e21
  have c22 : det3 t.m * t.mInv 2 2 = t.m 0 0 * t.m 1 1 - t.m 0 1 * t.m 1 0 := by
    simp only [det3]; linear_combination (t.m 1 0 * t.m 2 1 - t.m 1 1 * t.m 2 0) * e02 - (t.m 0 0 * t.m 2 1 - t.m 0 1 * t.m 2 0) * e12 + (t.m 0 0 * t.m 1 1 - t.m 0 1 * t.m 1 0) * e22
  ext
  · simp only [cross, Transform.vec, Transform.nrm, smul_x]
    linear_combination -(a.y * b.z - a.z * b.y) * c00 - (a.z * b.x - a.x * b.z) * c10 - (a.x * b.y - a.y * b.x) * c20
  · simp only [cross, Transform.vec, Transform.nrm, smul_y]
    linear_combination -(a.y * b.z - a.z * b.y) * c01 - (a.z * b.x - a.x * b.z) * c11 - (a.x * b.y - a.y * b.x) * c21
  · simp only [cross, Transform.vec, Transform.nrm, smul_z]
    linear_combination -(a.y * b.z - a.z * b.y) * c02 - (a.z * b.x - a.x * b.z) * c12 - (a.x * b.y - a.y * b.x) * c22

theorem length_smul (c : ℝ) (v : V3 ℝ) : Geom.length (c * v) = |c| * Geom.length v := by
  have : sqLength (c * v) = c ^ 2 * sqLength v := by simp only [sqLength, smul_x, smul_y, smul_z]; ring
  rw [Geom.length, this, Real.sqrt_mul (sq_nonneg c), Real.sqrt_sq_eq_abs]; rfl

/-- scaling by a positive number does not change the direction, by a negative one reverses it -/
theorem normalize_smul (c : ℝ) (hc : c ≠ 0) (v : V3 ℝ) : Geom.normalize (c * v) = if c < 0 then (-1 : ℝ) * Geom.normalize v else Geom.normalize v := by
  have hl := length_smul c v
  have hz : sqLength v = 0 → v.x = 0 ∧ v.y = 0 ∧ v.z = 0 := by
    intro h
    simp only [sqLength] at h
    refine ⟨?_, ?_, ?_⟩ <;> nlinarith [mul_self_nonneg v.x, mul_self_nonneg v.y, mul_self_nonneg v.z]
  by_cases h0 : Geom.length v = 0
  · have hv : sqLength v = 0 := by
      rw [Geom.length, Real.sqrt_eq_zero'] at h0
      exact le_antisymm h0 (by simp only [sqLength]; nlinarith [mul_self_nonneg v.x, mul_self_nonneg v.y, mul_self_nonneg v.z])
    obtain ⟨x, y, z⟩ := hz hv
    have e1 : Geom.normalize v = v := by rw [Geom.normalize]; simp [h0]
    have e2 : Geom.normalize (c * v) = c * v := by rw [Geom.normalize]; simp [hl, h0]
    rw [e1, e2]
    split_ifs <;> ext <;> simp [x, y, z]
  · have hl0 : Geom.length (c * v) ≠ 0 := by rw [hl]; exact mul_ne_zero (abs_ne_zero.2 hc) h0
    rw [Geom.normalize, Geom.normalize]
    simp only [hl0, h0, not_false_eq_true, if_true]
    rw [hl]
    split_ifs with h
    · rw [abs_of_neg h]
      ext <;> simp only [smul_x, smul_y, smul_z] <;> field_simp
    · have h' : 0 < c := lt_of_le_of_ne (not_lt.1 h) hc.symm
      rw [abs_of_pos h']
      ext <;> simp only [smul_x, smul_y, smul_z] <;> field_simp

theorem nrm_smul (t : Transform ℝ) (c : ℝ) (v : V3 ℝ) : t.nrm (c * v) = c * t.nrm v := by
  ext <;> simp only [Transform.nrm, smul_x, smul_y, smul_z] <;> ring

theorem smul_smul' (a b : ℝ) (v : V3 ℝ) : a * (b * v) = (a * b) * v := by
  ext <;> simp only [smul_x, smul_y, smul_z] <;> ring

/-- `normalize v` is `v` times a positive number -/
theorem normalize_eq (v : V3 ℝ) : ∃ k : ℝ, 0 < k ∧ Geom.normalize v = k * v := by
  by_cases h0 : Geom.length v = 0
  · exact ⟨1, one_pos, by rw [Geom.normalize]; simp [h0]; ext <;> simp⟩
  · refine ⟨1 / Geom.length v, ?_, ?_⟩
    · have := Real.sqrt_nonneg (sqLength v)
      exact one_div_pos.2 (lt_of_le_of_ne this (Ne.symm h0))
    · rw [Geom.normalize]; simp only [h0, not_false_eq_true, if_true]
      ext <;> simp <;> ring

/-- the normal of the transformed surface: the transformed normal, made to unit length, is the normal the constructor would compute from the transformed derivatives, with the handedness of the transform added -/
theorem normal_transforms {t : Transform ℝ} (h : Good t) (a b : V3 ℝ) (f : Bool) :
    Geom.normalize (t.nrm (if f then (-1 : ℝ) * Geom.normalize (cross a b) else Geom.normalize (cross a b))) =
      if xor t.swapsHandedness f then (-1 : ℝ) * Geom.normalize (cross (t.vec a) (t.vec b)) else Geom.normalize (cross (t.vec a) (t.vec b)) := by
  obtain ⟨k, hk, e⟩ := normalize_eq (cross a b)
  have hd := h.det
  have hc : t.nrm (cross a b) = (1 / det3 t.m) * cross (t.vec a) (t.vec b) := by
    rw [cross_vec h, smul_smul', one_div, inv_mul_cancel₀ hd]; ext <;> simp
  have hs : t.nrm (if f then (-1 : ℝ) * Geom.normalize (cross a b) else Geom.normalize (cross a b)) = ((if f then -1 else 1) * k / det3 t.m) * cross (t.vec a) (t.vec b) := by
    rw [e]
    cases f
    · simp only [Bool.false_eq_true, if_false]
      rw [nrm_smul, hc, smul_smul']; congr 1; ring
    · simp only [if_true]
      rw [nrm_smul, nrm_smul, hc, smul_smul', smul_smul']; congr 1; ring
  rw [hs, normalize_smul _ (div_ne_zero (mul_ne_zero (by split_ifs <;> norm_num) hk.ne') hd)]
  rcases lt_or_gt_of_ne hd with h1 | h1 <;> cases f
  · have : (if false = true then (-1 : ℝ) else 1) * k / det3 t.m < 0 := by simp; exact div_neg_of_pos_of_neg hk h1
    rw [if_pos this]; simp [Transform.swapsHandedness, h1]
  · have : ¬ (if true = true then (-1 : ℝ) else 1) * k / det3 t.m < 0 := by simp; exact div_nonneg_of_nonpos (by linarith) h1.le
    rw [if_neg this]; simp [Transform.swapsHandedness, h1]
  · have : ¬ (if false = true then (-1 : ℝ) else 1) * k / det3 t.m < 0 := by simp; positivity
    rw [if_neg this]; simp [Transform.swapsHandedness, h1.le]
  · have : (if true = true then (-1 : ℝ) else 1) * k / det3 t.m < 0 := by simp; exact div_neg_of_neg_of_pos (by linarith) h1
    rw [if_pos this]; simp [Transform.swapsHandedness, h1.le]

theorem ray_comp {s t : Transform ℝ} (hs : Good s) (ht : Good t) (r : R) : s.ray (t.ray r) = (s * t).ray r := by
  have h := fun x => C08_composition s t hs.1 ht.1 (affine_inv hs.1 hs.2) (affine_inv ht.1 ht.2) x
  simp only [Transform.ray, (h r.o).1, (h r.d).2.1]

theorem identity_eq {t : Transform ℝ} (h : HasInv t) (hi : t.isIdentity = true) : t = ident := by
  have hm : t.m = 1 := by simpa [Transform.isIdentity] using hi
  refine Transform.ext hm ?_
  have := h.1
  rw [hm, Matrix.one_mul] at this
  simpa [ident] using this

/-- **C153 (part)** an instance of a shape, at the time of the ray, answers as the shape itself would if it were placed with the transforms of the instance after its own: the same answer, the same reduced ray and the same
record — position, derivatives, the derivatives of the normal, the normal with its sign, surface parameters, transforms, shape identifier and epsilon — except that the primitive identifier is the instance's, and that the
shape the record refers to (and with it the sign it would give a normal) is the instanced one.  Missing: that instances can be made (`C153_construct_false`), refined or asked whether they can be intersected, and copies of the
record when the instance mirrors (`C153_mirrored_false`). -/
theorem C153_placed_partial (s : Quadric) (o2w : Transform ℝ) (anim : Animated ℝ) (id : ℕ) (r : R) (isect : Isect) (hs : Good o2w) (hw : Good (anim.interpolate r.time)) :
    let w := anim.interpolate r.time
    let a := intersect (s.intersect o2w o2w.inverse) anim id r isect
    let b := s.intersect (w.inverse * o2w) (o2w.inverse * w) r isect
    a.1 = b.1 ∧ a.2.1 = b.2.1 ∧ (b.1 = false → a.2.2 = isect) ∧
      (b.1 = true → a.2.2 = { b.2.2 with primitiveId := id, dg := { b.2.2.dg with flip := xor s.ro o2w.swapsHandedness } }) := by
  intro w a b
  obtain ⟨w', hw'⟩ : ∃ w', w' = anim.interpolate r.time := ⟨_, rfl⟩
  rw [← hw'] at hw
  have ew : w = w' := hw'.symm
  have hb : b = s.intersect (w'.inverse * o2w) (o2w.inverse * w') r isect := by rw [← ew]
  have ha : a = intersect (s.intersect o2w o2w.inverse) anim id r isect := rfl
  have hray := ray_comp hs.inv hw r
  simp only [intersect, ← hw', Quadric.intersect, hray] at ha
  simp only [Quadric.intersect] at hb
  cases hh : s.hit ((o2w.inverse * w').ray r) with
  | none =>
    rw [hh] at ha hb
    simp at ha hb
    rw [ha, hb]; simp
  | some l =>
    rw [hh] at ha hb
    simp only [Bool.not_true, Bool.false_eq_true, if_false] at ha hb
    have hcomp := fun x => C08_composition w'.inverse o2w hw.inv.1 hs.1 hw.1 (affine_inv hs.1 hs.2) x
    have hx : (w'.inverse * o2w).swapsHandedness = xor w'.inverse.swapsHandedness o2w.swapsHandedness := C13_handedness_xor _ _ hs.1 hw.inv.det hs.det
    have hinv : (o2w.inverse * w').inverse = w'.inverse * o2w := rfl
    by_cases hid : w'.isIdentity = true
    · have hI := identity_eq hw.2 hid
      rw [hid] at ha
      simp only [Bool.not_true, Bool.false_eq_true, if_false] at ha
      have e1 : w'.inverse * o2w = o2w := by rw [hI]; exact (C08_monoid o2w o2w o2w).2.1
      have e2 : o2w.inverse * w' = o2w.inverse := by rw [hI]; exact (C08_monoid o2w.inverse o2w o2w).2.2
      rw [e1, e2] at hb
      rw [ha, hb]
      refine ⟨rfl, rfl, (fun h => by simp at h), fun _ => ?_⟩
      simp [DiffGeom.init]
    · simp only [hid, Bool.not_false, if_true] at ha
      rw [ha, hb]
      refine ⟨rfl, rfl, (fun h => by simp at h), fun _ => ?_⟩
      simp only [Isect.mk.injEq, and_true, true_and, hinv]
      simp only [DiffGeom.init, (hcomp l.p).1, (hcomp l.dpdu).2.1, (hcomp l.dpdv).2.1, (hcomp l.dndu).2.2, (hcomp l.dndv).2.2, hx]
      rw [normal_transforms hw.inv]
      have : xor w'.inverse.swapsHandedness (xor s.ro o2w.swapsHandedness) = xor s.ro (xor w'.inverse.swapsHandedness o2w.swapsHandedness) := by
        cases w'.inverse.swapsHandedness <;> cases s.ro <;> cases o2w.swapsHandedness <;> rfl
      rw [this]

theorem animated_ray (a : Animated ℝ) (h : a.startTime < a.endTime) (r : R) : a.ray r = (a.interpolate r.time).ray r := by
  simp only [Animated.ray]
  by_cases h1 : a.animated = false ∨ r.time < a.startTime
  · rw [if_pos h1]
    have : a.interpolate r.time = a.start := by
      rw [Animated.interpolate, if_pos (h1.imp id le_of_lt)]
    rw [this]; rfl
  · rw [if_neg h1]
    split_ifs with h2
    · have h3 : ¬ (a.animated = false ∨ r.time ≤ a.startTime) := by
        rintro (h3 | h3)
        · exact h1 (Or.inl h3)
        · linarith
      have : a.interpolate r.time = a.stop := by rw [Animated.interpolate, if_neg h3, if_pos h2]
      rw [this]; rfl
    · rfl

/-- **C153 (part)** for an instance of any primitive whose two tests agree, the two tests of the instance agree -/
theorem C153_agree_partial (inner : Test) (innerP : R → Bool) (hagree : ∀ r i, innerP r = (inner r i).1) (anim : Animated ℝ) (h : anim.startTime < anim.endTime) (id : ℕ) (r : R) (isect : Isect) :
    intersectP innerP anim r = (intersect inner anim id r isect).1 := by
  rw [intersectP, animated_ray anim h, hagree _ isect]
  simp only [intersect]
  obtain ⟨w, hw⟩ : ∃ w, w = anim.interpolate r.time := ⟨_, rfl⟩
  rw [← hw]
  obtain ⟨b, ray, i⟩ := inner (w.ray r) isect
  cases b
  · simp
  · simp only [Bool.not_true, Bool.false_eq_true, if_false]
    split_ifs <;> rfl

/-- **C153 (part)** for an instance of any primitive that reports the point of the ray at the parameter it leaves as the ray's end, the instance does: the reported point is the point of the ray in the world -/
theorem C153_point_partial (inner : Test) (anim : Animated ℝ) (id : ℕ) (r : R) (isect : Isect) (hw : Good (anim.interpolate r.time))
    (hin : ∀ r i, (inner r i).1 = true → ∃ t : ℝ, (inner r i).2.1.maxt = t ∧ (inner r i).2.2.dg.p = r.at t) (hit : (intersect inner anim id r isect).1 = true) :
    ∃ t : ℝ, (intersect inner anim id r isect).2.1.maxt = t ∧ (intersect inner anim id r isect).2.2.dg.p = r.at t := by
  simp only [intersect] at hit ⊢
  obtain ⟨w, hwe⟩ : ∃ w, w = anim.interpolate r.time := ⟨_, rfl⟩
  rw [← hwe] at hit hw ⊢
  have hc := hin (w.ray r) isect
  revert hit hc
  obtain ⟨b, ray, i⟩ := inner (w.ray r) isect
  cases b
  · simp
  · simp only [Bool.not_true, Bool.false_eq_true, if_false]
    intro _ hc
    obtain ⟨t, h1, h2⟩ := hc trivial
    have hp : w.inverse.pt ((w.ray r).at t) = r.at t := by
      rw [(C10_ray_commutes w hw.1 r t).1, (C08_inverse_undoes w hw.1 hw.2 (r.at t)).1]
    by_cases hid : w.isIdentity = true
    · simp only [hid, Bool.not_true, Bool.false_eq_true, if_false]
      refine ⟨t, h1, ?_⟩
      rw [h2, ← hp]
      have := identity_eq hw.2 hid
      have hI : ∀ x, (ident : Transform ℝ).inverse.pt x = x := by
        intro x
        rw [pt_affine]
        · ext <;> simp [homog, ident, Transform.inverse]
        · simp [AffineM, ident, Transform.inverse]
      rw [this, hI]
    · simp only [hid, Bool.not_false, if_true]
      exact ⟨t, h1, by rw [h2, hp]⟩

/-- **C153 fails**: `TransformedPrimitive` cannot be made, because it does not define all methods that are abstract -/
theorem C153_construct_false : ∃ m ∈ abstractMethods, m ∉ instanceMethods := ⟨"get_area_light", by decide, by decide⟩

/-- **C153 fails** for mirrored instances: the copy of the record that shading is done with (`shape/__init__.py:86-88`) has the normal of the record reversed, for every shape, placement, hit and instance transform that swaps
handedness (surface points with a normal) -/
theorem C153_mirrored_false (s : Quadric) (o2w : Transform ℝ) (anim : Animated ℝ) (id : ℕ) (r : R) (isect : Isect) (hs : Good o2w) (hw : Good (anim.interpolate r.time))
    (hm : (anim.interpolate r.time).inverse.swapsHandedness = true) (hit : (intersect (s.intersect o2w o2w.inverse) anim id r isect).1 = true) :
    (intersect (s.intersect o2w o2w.inverse) anim id r isect).2.2.dg.copy.nn = (-1 : ℝ) * (intersect (s.intersect o2w o2w.inverse) anim id r isect).2.2.dg.nn := by
  obtain ⟨h1, -, -, h2⟩ := C153_placed_partial s o2w anim id r isect hs hw
  rw [h2 (by rw [← h1]; exact hit)]
  rw [h1] at hit
  clear h1 h2
  revert hit
  simp only [Quadric.intersect]
  cases s.hit ((o2w.inverse * anim.interpolate r.time).ray r) with
  | none => simp
  | some l =>
    intro _
    have hx : ((anim.interpolate r.time).inverse * o2w).swapsHandedness = xor (anim.interpolate r.time).inverse.swapsHandedness o2w.swapsHandedness :=
      C13_handedness_xor _ _ hs.1 hw.inv.det hs.det
    simp only [DiffGeom.copy, DiffGeom.init, hx, hm]
    cases s.ro <;> cases o2w.swapsHandedness <;> simp <;> ext <;> simp

/-- a case the theorems apply to: a translated and mirrored instance of a shape that is scaled -/
example : Good (scale (2 : ℝ) 3 4) ∧ Good (Animated.interpolate (⟨0, 1, scale (-1) 1 1, scale (-1) 1 1, fun _ => ident⟩ : Animated ℝ) 0) ∧
    (Animated.interpolate (⟨0, 1, scale (-1) 1 1, scale (-1) 1 1, fun _ => ident⟩ : Animated ℝ) 0).inverse.swapsHandedness = true := by
  have e : Animated.interpolate (⟨0, 1, scale (-1) 1 1, scale (-1) 1 1, fun _ => ident⟩ : Animated ℝ) 0 = scale (-1) 1 1 := by
    simp [Animated.interpolate]
  rw [e]
  exact ⟨⟨by simp [AffineM, scale], scale_hasInv _ _ _ (by norm_num) (by norm_num) (by norm_num)⟩, ⟨by simp [AffineM, scale], scale_hasInv _ _ _ (by norm_num) (by norm_num) (by norm_num)⟩,
    by simp [Transform.swapsHandedness, Transform.inverse, det3, scale]⟩

end Verif.Inst
