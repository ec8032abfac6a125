import Verif.Xform.AnimProps
import Verif.MC.Props
import Verif.Util.Ints

/-!
# Cameras (C121 - C126)

Models `pytracer/camera/camera.py`, `camera/projective.py` and `camera/environment.py`.  Exact real arithmetic.  The ray passed on by a camera is
modelled with all its fields, because the environment camera puts the time into the wrong one.
-/
namespace Verif.Camera
open Verif V3 Verif.Xform

/-! ### Model -/

/-- `Ray` (`geometry/__init__.py:281-298`); `depth` is a number of any kind in the code, `maxt` may be infinite -/
@[ext] structure CRay where
  o : V3 ℝ
  d : V3 ℝ
  mint : ℝ
  maxt : WithTop ℝ
  depth : ℝ
  time : ℝ

/-- the differential fields of `RayDifferential` (`geometry/__init__.py:327-342`) together with the ray -/
@[ext] structure CRayD where
  main : CRay
  hasDiff : Bool
  rxO : V3 ℝ
  ryO : V3 ℝ
  rxD : V3 ℝ
  ryD : V3 ℝ

/-- `CameraSample` (`sampler/sample.py:16-29`) -/
@[ext] structure CSample where
  imageX : ℝ
  imageY : ℝ
  lensU : ℝ
  lensV : ℝ
  time : ℝ

/-- the transform an `AnimatedTransform` applies to a ray of the given time (`transform/__init__.py:291-296`) -/
noncomputable def selT (a : Animated ℝ) (time : ℝ) : Transform ℝ :=
  if a.animated = false ∨ time < a.startTime then a.start
  else if time ≥ a.endTime then a.stop
  else a.interpolate time

/-- `AnimatedTransform.__call__` on a `Ray` (`transform/__init__.py:289-298`, `77-81`) -/
noncomputable def toWorld (a : Animated ℝ) (r : CRay) : CRay :=
  { r with o := (selT a r.time).pt r.o, d := (selT a r.time).vec r.d }

/-- `AnimatedTransform.__call__` on a `RayDifferential` (`transform/__init__.py:289-298`, `71-75`): the differential fields are copied -/
noncomputable def toWorldD (a : Animated ℝ) (r : CRayD) : CRayD := { r with main := toWorld a r.main }

/-- the film resolution, the screen window `[x0, x1, y0, y1]`, the shutter and the lens (`camera/camera.py:22-27`, `camera/projective.py:42-48`) -/
structure Proj where
  c2w : Animated ℝ
  xRes : ℕ
  yRes : ℕ
  x0 : ℝ
  x1 : ℝ
  y0 : ℝ
  y1 : ℝ
  sOpen : ℝ
  sClose : ℝ
  lensRad : ℝ
  focal : ℝ

/-- `s2r` (`camera/projective.py:53-56`) -/
noncomputable def Proj.s2r (c : Proj) : Transform ℝ :=
  scale (c.xRes : ℝ) (c.yRes : ℝ) 1 * scale (1 / (c.x1 - c.x0)) (1 / (c.y0 - c.y1)) 1 * translate ⟨-c.x0, -c.y1, 0⟩

/-- `r2c` (`camera/projective.py:58-59`) -/
noncomputable def Proj.r2c (c : Proj) (c2s : Transform ℝ) : Transform ℝ := c2s.inverse * c.s2r.inverse

/-- the depth of field block (`camera/projective.py:92-107, 156-172, 188-202`): new origin and direction; `none` would be a division by zero in
`concentric_sample_disk` -/
noncomputable def Proj.dof (c : Proj) (s : CSample) (o d : V3 ℝ) : Option (V3 ℝ × V3 ℝ) :=
  if 0 < c.lensRad then do
    let uv ← MC.concentric s.lensU s.lensV
    let lu := uv.1 * c.lensRad
    let lv := uv.2 * c.lensRad
    let ft := c.focal / d.z
    let pfoc := o + ft * d
    let o' : V3 ℝ := ⟨lu, lv, 0⟩
    some (o', Geom.normalize (pfoc - o'))
  else some (o, d)

/-- `self.c2s` of the orthographic camera (`camera/projective.py:74`) -/
noncomputable def orthoC2S : Transform ℝ := orthographic 0 1

/-- `OrthoCamera.generate_ray` (`camera/projective.py:80-111`) -/
noncomputable def Proj.orthoRay (c : Proj) (s : CSample) : Option (ℝ × CRay) := do
  let pcam := (c.r2c orthoC2S).pt ⟨s.imageX, s.imageY, 0⟩
  let od ← c.dof s pcam ⟨0, 0, 1⟩
  some (1, toWorld c.c2w ⟨od.1, od.2, 0, ⊤, 0, Ints.lerp s.time c.sOpen c.sClose⟩)

/-- `OrthoCamera.generate_ray_differential` (`camera/projective.py:113-127`): the ray that comes back from `generate_ray` is already in world space and
is transformed once more -/
noncomputable def Proj.orthoRayD (c : Proj) (s : CSample) : Option (ℝ × CRayD) := do
  let wr ← c.orthoRay s
  let dx := (c.r2c orthoC2S).vec ⟨1, 0, 0⟩
  let dy := (c.r2c orthoC2S).vec ⟨0, 1, 0⟩
  some (wr.1, toWorldD c.c2w ⟨wr.2, true, wr.2.o + dx, wr.2.o + dy, wr.2.d, wr.2.d⟩)

/-- `self.c2s` of the perspective camera (`camera/projective.py:139`) -/
noncomputable def perspC2S (fov : ℝ) : Transform ℝ := perspective fov (1 / 1000) 1000

/-- `PerspectiveCamera.generate_ray` (`camera/projective.py:145-176`) -/
noncomputable def Proj.perspRay (c : Proj) (fov : ℝ) (s : CSample) : Option (ℝ × CRay) := do
  let pcam := (c.r2c (perspC2S fov)).pt ⟨s.imageX, s.imageY, 0⟩
  let od ← c.dof s 0 (Geom.normalize pcam)
  some (1, toWorld c.c2w ⟨od.1, od.2, 0, ⊤, 0, Ints.lerp s.time c.sOpen c.sClose⟩)

/-- `dxCam` (`camera/projective.py:142`) -/
noncomputable def Proj.dxCam (c : Proj) (fov : ℝ) : V3 ℝ := (c.r2c (perspC2S fov)).pt ⟨1, 0, 0⟩ - (c.r2c (perspC2S fov)).pt ⟨0, 0, 0⟩
/-- `dyCam` (`camera/projective.py:143`) -/
noncomputable def Proj.dyCam (c : Proj) (fov : ℝ) : V3 ℝ := (c.r2c (perspC2S fov)).pt ⟨0, 1, 0⟩ - (c.r2c (perspC2S fov)).pt ⟨0, 0, 0⟩

/-- `PerspectiveCamera.generate_ray_differential` (`camera/projective.py:178-232`): the time of the sample is not mapped to the shutter interval -/
noncomputable def Proj.perspRayD (c : Proj) (fov : ℝ) (s : CSample) : Option (ℝ × CRayD) := do
  let pcam := (c.r2c (perspC2S fov)).pt ⟨s.imageX, s.imageY, 0⟩
  let od ← c.dof s 0 (Geom.normalize pcam)
  let x ← c.dof s 0 (Geom.normalize (c.dxCam fov + pcam))
  let y ← c.dof s 0 (Geom.normalize (pcam + c.dyCam fov))
  some (1, toWorldD c.c2w ⟨⟨od.1, od.2, 0, ⊤, 0, s.time⟩, true, x.1, y.1, x.2, y.2⟩)

/-- `PinholeCamera.generate_ray` (`camera/projective.py:29-34`) -/
noncomputable def pinholeRay (c2w : Animated ℝ) (focal : ℝ) (s : CSample) : ℝ × CRay :=
  let p : V3 ℝ := ⟨s.imageX, s.imageY, 0⟩
  let pp : V3 ℝ := ⟨0, 0, focal⟩
  (1, ⟨c2w.start.pt p, c2w.start.vec (pp - p), 0, ⊤, 0, 0⟩)

/-- `EnvironmentCamera.generate_ray` (`camera/environment.py:29-43`): the time is passed as the fifth argument of `Ray`, which is the depth -/
noncomputable def envRay (c2w : Animated ℝ) (sOpen sClose : ℝ) (xRes yRes : ℕ) (s : CSample) : ℝ × CRay :=
  let time := Ints.lerp s.time sOpen sClose
  let theta := Real.pi * s.imageY / yRes
  let phi := 2 * Real.pi * s.imageX / xRes
  let st := Real.sin theta
  (1, toWorld c2w ⟨0, ⟨st * Real.cos phi, Real.cos theta, st * Real.sin phi⟩, 0, ⊤, time, 0⟩)

/-- `Sample.duplicate` (`sampler/sample.py:55-64`): the copies are default samples, image position, lens position and time are not copied -/
def duplicate (_s : CSample) : CSample := ⟨0, 0, 0, 0, 0⟩

/-- `Camera.generate_ray_differential` (`camera/camera.py:47-74`), used by the pinhole and the environment camera -/
noncomputable def baseRayD (gen : CSample → ℝ × CRay) (s : CSample) : ℝ × CRayD :=
  let m := gen s
  let x := gen { duplicate s with imageX := (duplicate s).imageX + 1 }
  let y := gen { duplicate s with imageY := (duplicate s).imageY + 1 }
  let rd : CRayD := ⟨m.2, false, x.2.o, y.2.o, x.2.d, y.2.d⟩
  if x.1 = 0 ∨ y.1 = 0 then (0, rd) else (m.1, { rd with hasDiff := true })

/-! ### Specification -/

/-- the horizontal screen coordinate of raster column `x`: the window is crossed from left to right -/
noncomputable def Proj.scrX (c : Proj) (x : ℝ) : ℝ := c.x0 + (x / c.xRes) * (c.x1 - c.x0)
/-- the vertical screen coordinate of raster row `y`: the window is crossed from top to bottom -/
noncomputable def Proj.scrY (c : Proj) (y : ℝ) : ℝ := c.y1 - (y / c.yRes) * (c.y1 - c.y0)

/-- a camera with a film and a screen window that are not empty -/
structure Proj.Ok (c : Proj) : Prop where
  xr : 0 < c.xRes
  yr : 0 < c.yRes
  x : c.x0 < c.x1
  y : c.y0 < c.y1

/-! ### The raster to camera transforms -/

theorem persp_inv (n f : ℝ) (hn : n ≠ 0) (hf : f ≠ 0) (h : f - n ≠ 0) :
    (perspM n f)⁻¹ = !![1, 0, 0, 0; 0, 1, 0, 0; 0, 0, 0, 1; 0, 0, -(f - n) / (f * n), 1 / n] := by
  apply Matrix.inv_eq_right_inv
  ext i j
  rw [Matrix.mul_apply, Fin.sum_univ_four]
  fin_cases i <;> fin_cases j <;> simp [perspM] <;> field_simp <;> ring

theorem s2r_mInv (c : Proj) : c.s2r.mInv =
    !![(c.x1 - c.x0) / c.xRes, 0, 0, c.x0; 0, (c.y0 - c.y1) / c.yRes, 0, c.y1; 0, 0, 1, 0; 0, 0, 0, 1] := by
  ext i j
  simp only [Proj.s2r, mul_mInv, entry]
  fin_cases i <;> fin_cases j <;> simp [scale, translate] <;> ring

theorem persp_r2c_pt (c : Proj) (fov : ℝ) (x y : ℝ) :
    (c.r2c (perspC2S fov)).pt ⟨x, y, 0⟩ = (1 / 1000 : ℝ) * (⟨c.scrX x * Real.tan (rad fov / 2), c.scrY y * Real.tan (rad fov / 2), 1⟩ : V3 ℝ) := by
  have e : (c.r2c (perspC2S fov)).m = (perspM (1 / 1000 : ℝ) 1000)⁻¹ * (scale (1 / Real.tan (rad fov / 2)) (1 / Real.tan (rad fov / 2)) 1).mInv * c.s2r.mInv := by
    rfl
  have h0 : homog (c.r2c (perspC2S fov)).m ⟨x, y, 0⟩ 0 = c.scrX x * Real.tan (rad fov / 2) := by
    simp only [homog, e, persp_inv (1 / 1000) 1000 (by norm_num) (by norm_num) (by norm_num), s2r_mInv, entry, scale]
    simp [Proj.scrX]; ring
  have h1 : homog (c.r2c (perspC2S fov)).m ⟨x, y, 0⟩ 1 = c.scrY y * Real.tan (rad fov / 2) := by
    simp only [homog, e, persp_inv (1 / 1000) 1000 (by norm_num) (by norm_num) (by norm_num), s2r_mInv, entry, scale]
    simp [Proj.scrY]; ring
  have h2 : homog (c.r2c (perspC2S fov)).m ⟨x, y, 0⟩ 2 = 1 := by
    simp only [homog, e, persp_inv (1 / 1000) 1000 (by norm_num) (by norm_num) (by norm_num), s2r_mInv, entry, scale]
    simp
  have h3 : homog (c.r2c (perspC2S fov)).m ⟨x, y, 0⟩ 3 = 1000 := by
    simp only [homog, e, persp_inv (1 / 1000) 1000 (by norm_num) (by norm_num) (by norm_num), s2r_mInv, entry, scale]
    simp
  have hne : neUnity (1000 : ℝ) = true := by simp [neUnity, EPS]; norm_num
  simp only [Transform.pt, h0, h1, h2, h3, hne, if_true]
  ext <;> simp only [smul_x, smul_y, smul_z] <;> ring

theorem ortho_m (c : Proj) : (c.r2c orthoC2S).m =
    !![(c.x1 - c.x0) / c.xRes, 0, 0, c.x0; 0, (c.y0 - c.y1) / c.yRes, 0, c.y1; 0, 0, 1, 0; 0, 0, 0, 1] := by
  have e : (c.r2c orthoC2S).m = (translate (⟨0, 0, -0⟩ : V3 ℝ)).mInv * (scale (1 : ℝ) 1 (1 / (1 - 0))).mInv * c.s2r.mInv := rfl
  rw [e, s2r_mInv]
  ext i j
  simp only [entry]
  fin_cases i <;> fin_cases j <;> simp [scale, translate]

theorem ortho_r2c_pt (c : Proj) (x y : ℝ) : (c.r2c orthoC2S).pt ⟨x, y, 0⟩ = ⟨c.scrX x, c.scrY y, 0⟩ := by
  have h3 : homog (c.r2c orthoC2S).m ⟨x, y, 0⟩ 3 = 1 := by rw [ortho_m]; simp [homog]
  simp only [Transform.pt, h3, not_neUnity_one, Bool.false_eq_true, if_false]
  rw [ortho_m]
  ext <;> simp [homog, Proj.scrX, Proj.scrY] <;> ring

theorem ortho_r2c_vec (c : Proj) (x y : ℝ) : (c.r2c orthoC2S).vec ⟨x, y, 0⟩ = ⟨x * (c.x1 - c.x0) / c.xRes, y * (c.y0 - c.y1) / c.yRes, 0⟩ := by
  simp only [Transform.vec, ortho_m]
  ext <;> simp <;> ring

theorem tan_half_pos (fov : ℝ) (h0 : 0 < fov) (h1 : fov < 180) : 0 < Real.tan (rad fov / 2) := by
  have hp := Real.pi_pos
  apply Real.tan_pos_of_pos_of_lt_pi_div_two
  · simp only [rad]; positivity
  · simp only [rad]; nlinarith


/-! ### C121: the perspective camera -/

/-- **C121** the camera transform of a time: a camera that does not move always uses its one transform, a moving one uses exactly the first before the start, exactly the last
from the end on, and the interpolated one between -/
theorem C121_moving (a : Animated ℝ) (t : ℝ) :
    (a.animated = false → selT a t = a.start) ∧ (t < a.startTime → selT a t = a.start) ∧
    (a.animated = true → a.startTime ≤ t → a.endTime ≤ t → selT a t = a.stop) ∧
    (a.animated = true → a.startTime ≤ t → t < a.endTime → selT a t = a.interpolate t) := by
  refine ⟨fun h => ?_, fun h => ?_, fun h h1 h2 => ?_, fun h h1 h2 => ?_⟩ <;> unfold selT
  · rw [if_pos (Or.inl h)]
  · rw [if_pos (Or.inr h)]
  · rw [if_neg (by simp [h, h1]), if_pos h2]
  · rw [if_neg (by simp [h, h1]), if_neg (not_le.2 h2)]

/-- `d` is the unit vector towards the point of the plane `z = 1` that the screen position of raster point `(x, y)` has for the given field of view -/
structure PerspDir (c : Proj) (fov x y : ℝ) (d : V3 ℝ) : Prop where
  unit : Geom.length d = 1
  fwd : 0 < d.z
  hx : d.x = d.z * (c.scrX x * Real.tan (rad fov / 2))
  hy : d.y = d.z * (c.scrY y * Real.tan (rad fov / 2))

theorem normalize_scale (k : ℝ) (hk : 0 < k) (v : V3 ℝ) (hv : v ≠ 0) : ∃ m : ℝ, 0 < m ∧ Geom.normalize (k * v) = m * v ∧ Geom.length (Geom.normalize (k * v)) = 1 := by
  have hne : k * v ≠ 0 := by
    intro h
    apply hv
    have hx := congrArg V3.x h
    have hy := congrArg V3.y h
    have hz := congrArg V3.z h
    simp only [smul_x, smul_y, smul_z, zero_x, zero_y, zero_z, mul_eq_zero, hk.ne', false_or] at hx hy hz
    ext <;> assumption
  obtain ⟨h1, h2, h3⟩ := (Geom.C06_normalize (k * v)).1 hne
  refine ⟨k / Geom.length (k * v), by positivity, ?_, h1⟩
  have hx := congrArg V3.x h2
  have hy := congrArg V3.y h2
  have hz := congrArg V3.z h2
  simp only [smul_x, smul_y, smul_z] at hx hy hz
  ext <;> simp only [smul_x, smul_y, smul_z] <;> field_simp <;> linarith

theorem persp_dir (c : Proj) (fov : ℝ) (h0 : 0 < fov) (h1 : fov < 180) (x y : ℝ) :
    PerspDir c fov x y (Geom.normalize ((c.r2c (perspC2S fov)).pt ⟨x, y, 0⟩)) := by
  have ht := tan_half_pos fov h0 h1
  rw [persp_r2c_pt c fov]
  obtain ⟨m, hm, e, hl⟩ := normalize_scale (1 / 1000) (by norm_num) (⟨c.scrX x * Real.tan (rad fov / 2), c.scrY y * Real.tan (rad fov / 2), 1⟩ : V3 ℝ)
    (by intro h; have := congrArg V3.z h; simp at this)
  refine ⟨hl, ?_, ?_, ?_⟩ <;> rw [e] <;> simp only [smul_x, smul_y, smul_z, mul_one]
  exact hm

theorem perspDir_unique (c : Proj) (fov x y : ℝ) (d d' : V3 ℝ) (h : PerspDir c fov x y d) (h' : PerspDir c fov x y d') : d = d' := by
  have e1 := h.unit
  have e2 := h'.unit
  simp only [Geom.length, sqLength, Real.sqrt_eq_one] at e1 e2
  rw [h.hx, h.hy] at e1
  rw [h'.hx, h'.hy] at e2
  set a := c.scrX x * Real.tan (rad fov / 2)
  set b := c.scrY y * Real.tan (rad fov / 2)
  have k : (d.z - d'.z) * ((d.z + d'.z) * (a ^ 2 + b ^ 2 + 1)) = 0 := by linear_combination e1 - e2
  have hp : 0 < (d.z + d'.z) * (a ^ 2 + b ^ 2 + 1) := mul_pos (by linarith [h.fwd, h'.fwd]) (by positivity)
  have hz : d.z = d'.z := by
    rcases mul_eq_zero.1 k with h | h
    · linarith
    · exact absurd h hp.ne'
  ext
  · rw [h.hx, h'.hx, hz]
  · rw [h.hy, h'.hy, hz]
  · exact hz

/-- **C121** without a lens the ray of raster point `(x, y)` starts at the eye and goes, with unit length, through the screen position of `(x, y)`; it is
brought to world space by the camera transform of its time, which is the sample time mapped to the shutter interval; its weight is 1 and it is not clipped -/
theorem C121_ray (c : Proj) (fov : ℝ) (h0 : 0 < fov) (h1 : fov < 180) (hl : c.lensRad ≤ 0) (s : CSample) :
    ∃ d, PerspDir c fov s.imageX s.imageY d ∧
      c.perspRay fov s = some (1, toWorld c.c2w ⟨⟨0, 0, 0⟩, d, 0, ⊤, 0, Ints.lerp s.time c.sOpen c.sClose⟩) := by
  refine ⟨_, persp_dir c fov h0 h1 s.imageX s.imageY, ?_⟩
  simp only [Proj.perspRay, Proj.dof, if_neg (not_lt.2 hl)]
  rfl

/-- **C121** the four corners of the film see the four corners of the screen window (row 0 is the top), and columns and rows are spaced evenly -/
theorem C121_corners (c : Proj) (h : c.Ok) : c.scrX 0 = c.x0 ∧ c.scrX c.xRes = c.x1 ∧ c.scrY 0 = c.y1 ∧ c.scrY c.yRes = c.y0 ∧
    (∀ x k : ℝ, c.scrX (x + k) = c.scrX x + k * ((c.x1 - c.x0) / c.xRes)) ∧ (∀ y k : ℝ, c.scrY (y + k) = c.scrY y - k * ((c.y1 - c.y0) / c.yRes)) := by
  have hx : (c.xRes : ℝ) ≠ 0 := by have := h.xr; positivity
  have hy : (c.yRes : ℝ) ≠ 0 := by have := h.yr; positivity
  refine ⟨by simp [Proj.scrX], by simp [Proj.scrX, hx], by simp [Proj.scrY], by simp [Proj.scrY, hy], fun x k => ?_, fun y k => ?_⟩
  · simp only [Proj.scrX]; ring
  · simp only [Proj.scrY]; ring

/-- **C121** for a window from -1 to 1 the rays of the left and right edge at mid height enclose the field of view: their slopes are `∓ tan(fov / 2)` -/
theorem C121_fov (c : Proj) (h : c.Ok) (fov : ℝ) (hw : c.x0 = -1 ∧ c.x1 = 1 ∧ c.y0 = -1 ∧ c.y1 = 1) (d d' : V3 ℝ)
    (hd : PerspDir c fov 0 (c.yRes / 2) d) (hd' : PerspDir c fov c.xRes (c.yRes / 2) d') :
    d.x / d.z = -Real.tan (rad fov / 2) ∧ d.y = 0 ∧ d'.x / d'.z = Real.tan (rad fov / 2) ∧ d'.y = 0 := by
  obtain ⟨c1, c2, c3, c4, -⟩ := C121_corners c h
  obtain ⟨w1, w2, w3, w4⟩ := hw
  have hy : (c.yRes : ℝ) ≠ 0 := by have := h.yr; positivity
  have hm : c.scrY (c.yRes / 2) = 0 := by
    simp only [Proj.scrY, w3, w4]; field_simp; ring
  have z1 := hd.fwd.ne'
  have z2 := hd'.fwd.ne'
  rw [hd.hx, hd'.hx, hd.hy, hd'.hy, hm, c1, c2, w1, w2]
  refine ⟨by field_simp, by ring, by field_simp, by ring⟩

theorem s2r_m (c : Proj) : c.s2r.m = !![c.xRes / (c.x1 - c.x0), 0, 0, -c.x0 * (c.xRes / (c.x1 - c.x0)); 0, c.yRes / (c.y0 - c.y1), 0, -c.y1 * (c.yRes / (c.y0 - c.y1)); 0, 0, 1, 0; 0, 0, 0, 1] := by
  ext i j
  simp only [Proj.s2r, mul_m, entry]
  fin_cases i <;> fin_cases j <;> simp [scale, translate] <;> ring

/-- **C121** rays and projection agree: every point of the ray in front of the eye is projected by the camera to the raster point the ray was made for
(points at a depth within `1e-5` of 1 are left out because there `Transform` skips the division, see `C62_division_skipped_false`) -/
theorem C121_projects (c : Proj) (h : c.Ok) (fov : ℝ) (h0 : 0 < fov) (h1 : fov < 180) (x y t : ℝ) (d : V3 ℝ) (hd : PerspDir c fov x y d) (ht : 0 < t)
    (hz : neUnity (t * d.z) = true ∨ t * d.z = 1) :
    (c.s2r.pt ((perspC2S fov).pt (t * d))).x = x ∧ (c.s2r.pt ((perspC2S fov).pt (t * d))).y = y := by
  have hT := tan_half_pos fov h0 h1
  have hdz := hd.fwd
  have hx : (c.xRes : ℝ) ≠ 0 := by have := h.xr; positivity
  have hy : (c.yRes : ℝ) ≠ 0 := by have := h.yr; positivity
  have hxx : c.x1 - c.x0 ≠ 0 := (sub_pos.2 h.x).ne'
  have hyy : c.y0 - c.y1 ≠ 0 := (sub_neg.2 h.y).ne
  have key := (C62_perspective_partial fov (1 / 1000) 1000 (by norm_num) (t * d) (by simp only [smul_z]; positivity) (by simpa only [smul_z] using hz)).1
  have e : (perspC2S fov).pt (t * d) = ⟨c.scrX x, c.scrY y, ((perspC2S fov).pt (t * d)).z⟩ := by
    ext
    · rw [perspC2S, key]; simp only [smul_x, smul_z, hd.hx]; field_simp
    · rw [perspC2S, key]; simp only [smul_y, smul_z, hd.hy]; field_simp
    · rfl
  rw [e]
  generalize ((perspC2S fov).pt (t * d)).z = z
  have h3 : homog c.s2r.m ⟨c.scrX x, c.scrY y, z⟩ 3 = 1 := by rw [s2r_m]; simp [homog]
  simp only [Transform.pt, h3, not_neUnity_one, Bool.false_eq_true, if_false]
  rw [s2r_m]
  constructor
  · simp [homog, Proj.scrX]; field_simp; ring
  · simp [homog, Proj.scrY]; field_simp; ring

/-! ### C122: depth of field -/

theorem dof_spec (c : Proj) (s : CSample) (o d F : V3 ℝ) (hl : 0 < c.lensRad) (hf : 0 < c.focal) (ho : o.z = 0) (hd : 0 < d.z) (hF : F = o + (c.focal / d.z) * d)
    (u0 : 0 ≤ s.lensU) (u1 : s.lensU ≤ 1) (v0 : 0 ≤ s.lensV) (v1 : s.lensV ≤ 1) :
    ∃ o' d' : V3 ℝ, c.dof s o d = some (o', d') ∧ o'.z = 0 ∧ o'.x ^ 2 + o'.y ^ 2 ≤ c.lensRad ^ 2 ∧ Geom.length d' = 1 ∧ 0 < d'.z ∧ ∃ t : ℝ, 0 < t ∧ o' + t * d' = F := by
  obtain ⟨x, y, e, -, hxy⟩ := MC.C21_concentric s.lensU s.lensV u0 u1 v0 v1
  have hFz : F.z = c.focal := by
    rw [hF]; simp only [add_z, smul_z, ho]; field_simp; ring
  set o' : V3 ℝ := ⟨x * c.lensRad, y * c.lensRad, 0⟩ with ho'
  have hne : F - o' ≠ 0 := by
    intro h; have := congrArg V3.z h; simp only [sub_z, hFz, ho', zero_z, sub_zero] at this; linarith
  obtain ⟨n1, n2, n3⟩ := (Geom.C06_normalize (F - o')).1 hne
  refine ⟨o', Geom.normalize (F - o'), ?_, rfl, ?_, n1, ?_, Geom.length (F - o'), n3, ?_⟩
  · simp only [Proj.dof, if_pos hl, e, Option.bind_eq_bind, Option.bind_some]
    rw [hF]
  · simp only [ho']; nlinarith [sq_nonneg c.lensRad]
  · have := congrArg V3.z n2
    simp only [smul_z, sub_z, hFz, ho', sub_zero] at this
    by_contra hc
    have := mul_nonpos_of_nonneg_of_nonpos n3.le (not_lt.1 hc)
    linarith
  · rw [n2]; ext <;> simp

/-- **C122** with a lens, the perspective rays of one raster point start on the lens disc and all pass, forwards, through the same point: the one seen by the
pinhole ray on the plane at the focal distance -/
theorem C122_perspective (c : Proj) (fov : ℝ) (h0 : 0 < fov) (h1 : fov < 180) (hl : 0 < c.lensRad) (hf : 0 < c.focal) (s : CSample)
    (u0 : 0 ≤ s.lensU) (u1 : s.lensU ≤ 1) (v0 : 0 ≤ s.lensV) (v1 : s.lensV ≤ 1) :
    ∃ o d : V3 ℝ, c.perspRay fov s = some (1, toWorld c.c2w ⟨o, d, 0, ⊤, 0, Ints.lerp s.time c.sOpen c.sClose⟩) ∧ o.z = 0 ∧ o.x ^ 2 + o.y ^ 2 ≤ c.lensRad ^ 2 ∧
      Geom.length d = 1 ∧ 0 < d.z ∧ ∃ t : ℝ, 0 < t ∧
        o + t * d = ⟨c.focal * (c.scrX s.imageX * Real.tan (rad fov / 2)), c.focal * (c.scrY s.imageY * Real.tan (rad fov / 2)), c.focal⟩ := by
  have hd := persp_dir c fov h0 h1 s.imageX s.imageY
  obtain ⟨o, d, e, r⟩ := dof_spec c s 0 _ ⟨c.focal * (c.scrX s.imageX * Real.tan (rad fov / 2)), c.focal * (c.scrY s.imageY * Real.tan (rad fov / 2)), c.focal⟩
    hl hf rfl hd.fwd (by
      have := hd.fwd.ne'
      ext
      · simp only [add_x, zero_x, smul_x, hd.hx]; field_simp; ring
      · simp only [add_y, zero_y, smul_y, hd.hy]; field_simp; ring
      · simp only [add_z, zero_z, smul_z]; field_simp; ring) u0 u1 v0 v1
  refine ⟨o, d, ?_, r⟩
  simp only [Proj.perspRay, e, Option.bind_eq_bind, Option.bind_some]

/-- **C122** the same for the orthographic camera: all rays of one raster point pass through the point of the plane of focus straight ahead of its screen
position -/
theorem C122_orthographic (c : Proj) (hl : 0 < c.lensRad) (hf : 0 < c.focal) (s : CSample)
    (u0 : 0 ≤ s.lensU) (u1 : s.lensU ≤ 1) (v0 : 0 ≤ s.lensV) (v1 : s.lensV ≤ 1) :
    ∃ o d : V3 ℝ, c.orthoRay s = some (1, toWorld c.c2w ⟨o, d, 0, ⊤, 0, Ints.lerp s.time c.sOpen c.sClose⟩) ∧ o.z = 0 ∧ o.x ^ 2 + o.y ^ 2 ≤ c.lensRad ^ 2 ∧
      Geom.length d = 1 ∧ 0 < d.z ∧ ∃ t : ℝ, 0 < t ∧ o + t * d = ⟨c.scrX s.imageX, c.scrY s.imageY, c.focal⟩ := by
  obtain ⟨o, d, e, r⟩ := dof_spec c s ⟨c.scrX s.imageX, c.scrY s.imageY, 0⟩ ⟨0, 0, 1⟩ ⟨c.scrX s.imageX, c.scrY s.imageY, c.focal⟩
    hl hf rfl (by norm_num) (by ext <;> simp) u0 u1 v0 v1
  refine ⟨o, d, ?_, r⟩
  simp only [Proj.orthoRay, ortho_r2c_pt, e, Option.bind_eq_bind, Option.bind_some]

/-! ### C123: the orthographic camera -/

/-- **C123** without a lens the orthographic rays are all parallel to the camera axis and start at the screen position of their raster point -/
theorem C123_ray (c : Proj) (hl : c.lensRad ≤ 0) (s : CSample) :
    c.orthoRay s = some (1, toWorld c.c2w ⟨⟨c.scrX s.imageX, c.scrY s.imageY, 0⟩, ⟨0, 0, 1⟩, 0, ⊤, 0, Ints.lerp s.time c.sOpen c.sClose⟩) := by
  simp only [Proj.orthoRay, ortho_r2c_pt, Proj.dof, if_neg (not_lt.2 hl)]
  rfl

/-! ### C124: times -/

theorem lerp_mem (t a b : ℝ) (h0 : 0 ≤ t) (h1 : t ≤ 1) (h : a ≤ b) : a ≤ Ints.lerp t a b ∧ Ints.lerp t a b ≤ b := by
  simp only [Ints.lerp]; constructor <;> nlinarith

/-- **C124 (part)** the rays of `generate_ray` of the projective cameras have a time in the shutter interval, running from its begin to its end with the time
of the sample, and depth 0.  Missing: the environment camera (`C124_environment_false`) and the differential rays of the perspective camera
(`C124_perspective_differential_false`). -/
theorem C124_time_partial (c : Proj) (fov : ℝ) (s : CSample) (h : c.sOpen ≤ c.sClose) (h0 : 0 ≤ s.time) (h1 : s.time ≤ 1) (w : ℝ) (r : CRay)
    (hr : c.perspRay fov s = some (w, r) ∨ c.orthoRay s = some (w, r)) :
    c.sOpen ≤ r.time ∧ r.time ≤ c.sClose ∧ (s.time = 0 → r.time = c.sOpen) ∧ (s.time = 1 → r.time = c.sClose) ∧ r.depth = 0 ∧ w = 1 := by
  have e : r.time = Ints.lerp s.time c.sOpen c.sClose ∧ r.depth = 0 ∧ w = 1 := by
    rcases hr with hr | hr
    · simp only [Proj.perspRay, Option.bind_eq_bind, Option.bind_eq_some_iff] at hr
      obtain ⟨od, -, h⟩ := hr
      obtain ⟨rfl, rfl⟩ := Prod.mk.inj (Option.some.inj h)
      exact ⟨rfl, rfl, rfl⟩
    · simp only [Proj.orthoRay, Option.bind_eq_bind, Option.bind_eq_some_iff] at hr
      obtain ⟨od, -, h⟩ := hr
      obtain ⟨rfl, rfl⟩ := Prod.mk.inj (Option.some.inj h)
      exact ⟨rfl, rfl, rfl⟩
  obtain ⟨e1, e2, e3⟩ := e
  obtain ⟨m1, m2⟩ := lerp_mem s.time c.sOpen c.sClose h0 h1 h
  rw [e1]
  refine ⟨m1, m2, fun h => ?_, fun h => ?_, e2, e3⟩ <;> simp [Ints.lerp, h]

/-- **C124 fails** for the environment camera: whatever the sample and the shutter, the ray has time 0 and its depth is the time it should have; with the
shutter open from 1 to 2 the time is outside and the recursion depth of the camera ray starts at 1 or more -/
theorem C124_environment_false : (∀ (a : Animated ℝ) (o cl : ℝ) (xr yr : ℕ) (s : CSample), (envRay a o cl xr yr s).2.time = 0 ∧ (envRay a o cl xr yr s).2.depth = Ints.lerp s.time o cl) ∧
    ∀ (a : Animated ℝ) (xr yr : ℕ) (s : CSample), 0 ≤ s.time → s.time ≤ 1 → 1 ≤ (envRay a 1 2 xr yr s).2.depth ∧ ¬ (1 ≤ (envRay a 1 2 xr yr s).2.time) := by
  refine ⟨fun a o cl xr yr s => ⟨rfl, rfl⟩, fun a xr yr s h0 h1 => ⟨?_, ?_⟩⟩
  · exact (lerp_mem s.time 1 2 h0 h1 (by norm_num)).1
  · show ¬ ((1 : ℝ) ≤ 0)
    norm_num

/-- **C124 fails** for the differential rays of the perspective camera: their time is the raw sample time, so with the shutter open from 1 to 2 it is never
inside for sample times below 1 -/
theorem C124_perspective_differential_false (c : Proj) (fov : ℝ) (s : CSample) (w : ℝ) (r : CRayD) (hr : c.perspRayD fov s = some (w, r)) :
    r.main.time = s.time ∧ (c.sOpen = 1 → c.sClose = 2 → s.time < 1 → ¬ (c.sOpen ≤ r.main.time)) := by
  have e : r.main.time = s.time := by
    simp only [Proj.perspRayD, Option.bind_eq_bind, Option.bind_eq_some_iff] at hr
    obtain ⟨od, -, x, -, y, -, h⟩ := hr
    obtain ⟨rfl, rfl⟩ := Prod.mk.inj (Option.some.inj h)
    rfl
  exact ⟨e, fun h1 _ h3 => by rw [e, h1]; linarith⟩

/-! ### C125: ray differentials -/

/-- what ray differentials should be: the main ray is the ray of the sample, the auxiliary rays are the rays of the neighbouring pixels -/
def IsDiff (gen : CSample → Option (ℝ × CRay)) (s : CSample) (res : ℝ × CRayD) : Prop :=
  gen s = some (res.1, res.2.main) ∧ res.2.hasDiff = true ∧
  (∃ w r, gen { s with imageX := s.imageX + 1 } = some (w, r) ∧ res.2.rxO = r.o ∧ res.2.rxD = r.d) ∧
  (∃ w r, gen { s with imageY := s.imageY + 1 } = some (w, r) ∧ res.2.ryO = r.o ∧ res.2.ryD = r.d)

/-- the camera stands at the origin and does not move -/
def AtOrigin (c : Proj) : Prop := c.c2w.animated = false ∧ c.c2w.start = ⟨1, 1⟩

theorem toWorld_id (a : Animated ℝ) (h : a.animated = false) (h1 : a.start = ⟨1, 1⟩) (r : CRay) : toWorld a r = r := by
  have e : selT a r.time = ⟨1, 1⟩ := by rw [selT, if_pos (Or.inl h), h1]
  have hp (p : V3 ℝ) : (⟨1, 1⟩ : Transform ℝ).pt p = p := by
    have : homog (1 : M4 ℝ) p 3 = 1 := by simp [homog]
    simp only [Transform.pt, this, not_neUnity_one, Bool.false_eq_true, if_false]
    ext <;> simp [homog]
  have hv (p : V3 ℝ) : (⟨1, 1⟩ : Transform ℝ).vec p = p := by
    ext <;> simp [Transform.vec]
  simp only [toWorld, e, hp, hv]

theorem persp_next_x (c : Proj) (fov : ℝ) (x y : ℝ) :
    c.dxCam fov + (c.r2c (perspC2S fov)).pt ⟨x, y, 0⟩ = (c.r2c (perspC2S fov)).pt ⟨x + 1, y, 0⟩ := by
  simp only [Proj.dxCam, persp_r2c_pt c fov]
  ext <;> simp only [add_x, add_y, add_z, sub_x, sub_y, sub_z, smul_x, smul_y, smul_z, Proj.scrX, Proj.scrY] <;> ring

theorem persp_next_y (c : Proj) (fov : ℝ) (x y : ℝ) :
    (c.r2c (perspC2S fov)).pt ⟨x, y, 0⟩ + c.dyCam fov = (c.r2c (perspC2S fov)).pt ⟨x, y + 1, 0⟩ := by
  simp only [Proj.dyCam, persp_r2c_pt c fov]
  ext <;> simp only [add_x, add_y, add_z, sub_x, sub_y, sub_z, smul_x, smul_y, smul_z, Proj.scrX, Proj.scrY] <;> ring

theorem dof_some (c : Proj) (s : CSample) (o d : V3 ℝ) : ∃ r, c.dof s o d = some r := by
  by_cases hl : 0 < c.lensRad
  · obtain ⟨r, θ, e, -⟩ := MC.concentricPolar_spec s.lensU s.lensV
    simp only [Proj.dof, if_pos hl, MC.concentric, e, Option.map_some, Option.bind_eq_bind, Option.bind_some]
    exact ⟨_, rfl⟩
  · exact ⟨_, by rw [Proj.dof, if_neg hl]⟩

/-- **C125 (part)** the perspective camera at the origin with shutter interval `[0, 1]` returns the ray of the sample and the rays of the two neighbouring
pixels, with and without a lens.  Missing: other positions of the camera (the auxiliary rays stay in camera space, `C125_perspective_false`) and other
shutter intervals (`C124_perspective_differential_false`). -/
theorem C125_perspective_partial (c : Proj) (hc : AtOrigin c) (hs : c.sOpen = 0 ∧ c.sClose = 1) (fov : ℝ) (s : CSample) :
    ∃ res, c.perspRayD fov s = some res ∧ IsDiff (c.perspRay fov) s res := by
  obtain ⟨a, ha⟩ := dof_some c s 0 (Geom.normalize ((c.r2c (perspC2S fov)).pt ⟨s.imageX, s.imageY, 0⟩))
  obtain ⟨x, hx⟩ := dof_some c s 0 (Geom.normalize ((c.r2c (perspC2S fov)).pt ⟨s.imageX + 1, s.imageY, 0⟩))
  obtain ⟨y, hy⟩ := dof_some c s 0 (Geom.normalize ((c.r2c (perspC2S fov)).pt ⟨s.imageX, s.imageY + 1, 0⟩))
  have hx' : c.dof { s with imageX := s.imageX + 1 } 0 (Geom.normalize ((c.r2c (perspC2S fov)).pt ⟨s.imageX + 1, s.imageY, 0⟩)) = some x := hx
  have hy' : c.dof { s with imageY := s.imageY + 1 } 0 (Geom.normalize ((c.r2c (perspC2S fov)).pt ⟨s.imageX, s.imageY + 1, 0⟩)) = some y := hy
  have tw := toWorld_id c.c2w hc.1 hc.2
  have ht0 (u : ℝ) : Ints.lerp u (0 : ℝ) 1 = u := by simp [Ints.lerp]
  refine ⟨(1, ⟨⟨a.1, a.2, 0, ⊤, 0, s.time⟩, true, x.1, y.1, x.2, y.2⟩), ?_, ?_, rfl, ⟨1, ⟨x.1, x.2, 0, ⊤, 0, s.time⟩, ?_, rfl, rfl⟩, ⟨1, ⟨y.1, y.2, 0, ⊤, 0, s.time⟩, ?_, rfl, rfl⟩⟩
  · simp only [Proj.perspRayD, persp_next_x c fov, persp_next_y c fov, ha, hx, hy, Option.bind_eq_bind, Option.bind_some, toWorldD, tw]
  · simp only [Proj.perspRay, ha, Option.bind_eq_bind, Option.bind_some, tw, hs.1, hs.2, ht0]
  · simp only [Proj.perspRay, hx', Option.bind_eq_bind, Option.bind_some, tw, hs.1, hs.2, ht0]
  · simp only [Proj.perspRay, hy', Option.bind_eq_bind, Option.bind_some, tw, hs.1, hs.2, ht0]

/-- **C125 (part)** the orthographic camera at the origin without a lens returns the ray of the sample and the rays of the two neighbouring pixels, for every
shutter interval.  Missing: other positions (`C125_orthographic_false`) and lenses (`C125_orthographic_lens_false`). -/
theorem C125_orthographic_partial (c : Proj) (hc : AtOrigin c) (hl : c.lensRad ≤ 0) (s : CSample) :
    ∃ res, c.orthoRayD s = some res ∧ IsDiff c.orthoRay s res := by
  have tw := toWorld_id c.c2w hc.1 hc.2
  refine ⟨(1, ⟨⟨⟨c.scrX s.imageX, c.scrY s.imageY, 0⟩, ⟨0, 0, 1⟩, 0, ⊤, 0, Ints.lerp s.time c.sOpen c.sClose⟩, true,
    ⟨c.scrX (s.imageX + 1), c.scrY s.imageY, 0⟩, ⟨c.scrX s.imageX, c.scrY (s.imageY + 1), 0⟩, ⟨0, 0, 1⟩, ⟨0, 0, 1⟩⟩), ?_, ?_, rfl, ⟨1, _, C123_ray c hl _, ?_⟩, ⟨1, _, C123_ray c hl _, ?_⟩⟩
  · simp only [Proj.orthoRayD, C123_ray c hl s, Option.bind_eq_bind, Option.bind_some, toWorldD, tw, ortho_r2c_vec]
    congr 3
    · ext <;> simp [Proj.scrX] <;> ring
    · ext <;> simp [Proj.scrY] <;> ring
  · rw [C123_ray c hl s, tw]
  · rw [tw]; exact ⟨rfl, rfl⟩
  · rw [tw]; exact ⟨rfl, rfl⟩

/-- a camera that has been moved by `(1, 0, 0)`, 2 × 2 pixels, window from -1 to 1 -/
noncomputable def movedCam : Proj := ⟨⟨0, 1, translate ⟨1, 0, 0⟩, translate ⟨1, 0, 0⟩, fun _ => translate ⟨1, 0, 0⟩⟩, 2, 2, -1, 1, -1, 1, 0, 1, 0, 1⟩

theorem movedCam_toWorld (r : CRay) : toWorld movedCam.c2w r = { r with o := r.o + ⟨1, 0, 0⟩ } := by
  have e : selT movedCam.c2w r.time = translate ⟨1, 0, 0⟩ := by
    rw [selT, if_pos (Or.inl _)]
    · rfl
    · simp [Animated.animated, Transform.eqOp, movedCam]
  simp only [toWorld, e]
  have hp : (translate (⟨1, 0, 0⟩ : V3 ℝ)).pt r.o = r.o + ⟨1, 0, 0⟩ := (C08_translate_scale _ _ 0 0 0 0).1
  have hv : (translate (⟨1, 0, 0⟩ : V3 ℝ)).vec r.d = r.d := (C08_translate_scale _ r.o _ 0 0 0).2.1
  rw [hp, hv]

/-- **C125 fails** for an orthographic camera that is not at the origin: the camera transform is applied twice, so for the moved camera the main ray of
`generate_ray_differential` is one unit away from the ray of `generate_ray` -/
theorem C125_orthographic_false (s : CSample) : ∃ r rd, movedCam.orthoRay s = some (1, r) ∧ movedCam.orthoRayD s = some (1, rd) ∧ rd.main.o = r.o + ⟨1, 0, 0⟩ ∧
    ¬ IsDiff movedCam.orthoRay s (1, rd) := by
  have h1 := C123_ray movedCam le_rfl s
  refine ⟨_, _, h1, by simp only [Proj.orthoRayD, h1, Option.bind_eq_bind, Option.bind_some]; rfl, ?_, ?_⟩
  · simp only [toWorldD, movedCam_toWorld]
  · rintro ⟨h, -⟩
    rw [h1] at h
    have := congrArg (fun q : Option (ℝ × CRay) => (q.map (fun z => z.2.o.x)).getD 0) h
    simp [toWorldD, movedCam_toWorld] at this

/-- the camera at the origin with a lens of radius 1 focused at distance 1 -/
noncomputable def lensCam : Proj := ⟨⟨0, 1, ⟨1, 1⟩, ⟨1, 1⟩, fun _ => ⟨1, 1⟩⟩, 2, 2, -1, 1, -1, 1, 0, 1, 1, 1⟩

theorem lensCam_at : AtOrigin lensCam := ⟨by simp [Animated.animated, Transform.eqOp, lensCam], rfl⟩

/-- **C125 fails** for an orthographic camera with a lens: the origin is shifted along the lens by a pixel instead of turning the direction, so the auxiliary rays are
not those of the neighbouring pixels (which start at the same lens point), for every sample -/
theorem C125_orthographic_lens_false (s : CSample) : ∃ res, lensCam.orthoRayD s = some res ∧ res.2.rxO = res.2.main.o + ⟨1, 0, 0⟩ ∧ ¬ IsDiff lensCam.orthoRay s res := by
  have tw := toWorld_id lensCam.c2w lensCam_at.1 lensCam_at.2
  have hl : 0 < lensCam.lensRad := zero_lt_one
  obtain ⟨r, θ, e, -⟩ := MC.concentricPolar_spec s.lensU s.lensV
  have hr : ∀ s' : CSample, s'.lensU = s.lensU → s'.lensV = s.lensV → ∃ d : V3 ℝ, lensCam.orthoRay s' =
      some (1, ⟨⟨r * Real.cos θ * lensCam.lensRad, r * Real.sin θ * lensCam.lensRad, 0⟩, d, 0, ⊤, 0, Ints.lerp s'.time lensCam.sOpen lensCam.sClose⟩) := by
    intro s' h1 h2
    simp only [Proj.orthoRay, Proj.dof, if_pos hl, h1, h2, MC.concentric, e, Option.map_some, Option.bind_eq_bind, Option.bind_some, tw]
    exact ⟨_, rfl⟩
  obtain ⟨d, h1⟩ := hr s rfl rfl
  obtain ⟨d2, h2⟩ := hr { s with imageX := s.imageX + 1 } rfl rfl
  have hv : (lensCam.r2c orthoC2S).vec ⟨1, 0, 0⟩ = ⟨1, 0, 0⟩ := by
    rw [ortho_r2c_vec]; ext <;> norm_num [lensCam]
  refine ⟨_, by simp only [Proj.orthoRayD, h1, Option.bind_eq_bind, Option.bind_some, toWorldD, tw]; rfl, by simp only [hv], ?_⟩
  rintro ⟨-, -, ⟨w, q, h, h3, -⟩, -⟩
  rw [h2] at h
  obtain ⟨-, rfl⟩ := Prod.mk.inj (Option.some.inj h)
  have := congrArg V3.x h3
  simp [hv] at this

/-- **C125 fails** for a perspective camera that is not at the origin: the main ray is transformed but the auxiliary rays are left in camera space; for the moved
camera they start at the origin while all its rays start at `(1, 0, 0)` -/
theorem C125_perspective_false (s : CSample) : ∃ res, movedCam.perspRayD 90 s = some res ∧ res.2.main.o = ⟨1, 0, 0⟩ ∧ res.2.rxO = 0 ∧ ¬ IsDiff (movedCam.perspRay 90) s res := by
  have ne : ¬ (0 < movedCam.lensRad) := lt_irrefl (0 : ℝ)
  refine ⟨(1, toWorldD movedCam.c2w ⟨⟨0, _, 0, ⊤, 0, s.time⟩, true, 0, 0, _, _⟩), by simp only [Proj.perspRayD, Proj.dof, if_neg ne, Option.bind_eq_bind, Option.bind_some]; rfl, ?_, rfl, ?_⟩
  · simp only [toWorldD, movedCam_toWorld]
    ext <;> simp
  · rintro ⟨-, -, ⟨w, r, h, h2, -⟩, -⟩
    simp only [Proj.perspRay, Proj.dof, if_neg ne, Option.bind_eq_bind, Option.bind_some, movedCam_toWorld] at h
    obtain ⟨-, rfl⟩ := Prod.mk.inj (Option.some.inj h)
    have := congrArg V3.x h2
    simp [toWorldD] at this

/-- **C125 fails** for the pinhole and environment cameras (the generic implementation): the auxiliary rays are those of the raster points `(1, 0)` and `(0, 1)` at
time 0 whatever the sample, because the copies of the sample are empty -/
theorem C125_generic_false (gen : CSample → ℝ × CRay) (hw : ∀ s, (gen s).1 = 1) (s : CSample) :
    (baseRayD gen s).2.rxO = (gen ⟨1, 0, 0, 0, 0⟩).2.o ∧ (baseRayD gen s).2.rxD = (gen ⟨1, 0, 0, 0, 0⟩).2.d ∧
    (baseRayD gen s).2.ryO = (gen ⟨0, 1, 0, 0, 0⟩).2.o ∧ (baseRayD gen s).2.ryD = (gen ⟨0, 1, 0, 0, 0⟩).2.d ∧ (baseRayD gen s).2.main = (gen s).2 := by
  simp only [baseRayD, hw, duplicate, zero_add]
  rw [if_neg (by norm_num)]
  exact ⟨rfl, rfl, rfl, rfl, rfl⟩

/-! ### C126: pinhole and environment cameras -/

/-- **C126** every ray of the pinhole camera starts at its film point and passes the pinhole at parameter 1, for every affine camera transform; its weight is 1 and it is not
clipped -/
theorem C126_pinhole (c2w : Animated ℝ) (h : AffineM c2w.start.m) (focal : ℝ) (s : CSample) :
    (pinholeRay c2w focal s).2.o = c2w.start.pt ⟨s.imageX, s.imageY, 0⟩ ∧
    (pinholeRay c2w focal s).2.o + (1 : ℝ) * (pinholeRay c2w focal s).2.d = c2w.start.pt ⟨0, 0, focal⟩ ∧
    (pinholeRay c2w focal s).1 = 1 ∧ (pinholeRay c2w focal s).2.mint = 0 ∧ (pinholeRay c2w focal s).2.maxt = ⊤ ∧ (pinholeRay c2w focal s).2.depth = 0 ∧
    (pinholeRay c2w focal s).2.time = 0 := by
  refine ⟨rfl, ?_, rfl, rfl, rfl, rfl, rfl⟩
  simp only [pinholeRay, pt_affine _ h]
  ext <;> simp [Transform.vec, homog] <;> ring

/-- **C126 fails** for the promise that directions are normalised: the pinhole direction of film point `(3, 0)` with focal length 4 has length 5 -/
theorem C126_pinhole_unit_false (c2w : Animated ℝ) (h : c2w.start = ⟨1, 1⟩) : Geom.length (pinholeRay c2w 4 ⟨3, 0, 0, 0, 0⟩).2.d = 5 := by
  have e : (pinholeRay c2w 4 ⟨3, 0, 0, 0, 0⟩).2.d = ⟨-3, 0, 4⟩ := by
    simp only [pinholeRay, h]
    ext <;> simp [Transform.vec]
  rw [e]
  simp only [Geom.length, sqLength]
  rw [show (-3 : ℝ) * -3 + 0 * 0 + 4 * 4 = 5 ^ 2 by norm_num, Real.sqrt_sq (by norm_num)]

/-- camera-space direction of the environment camera for raster point `(x, y)`: equirectangular, row 0 looks up the y axis -/
noncomputable def equirect (xRes yRes : ℕ) (x y : ℝ) : V3 ℝ :=
  ⟨Real.sin (Real.pi * y / yRes) * Real.cos (2 * Real.pi * x / xRes), Real.cos (Real.pi * y / yRes), Real.sin (Real.pi * y / yRes) * Real.sin (2 * Real.pi * x / xRes)⟩

/-- **C126** the environment camera looks from its position in a unit direction, the equirectangular one, and every direction is seen from exactly one raster
point apart from the poles and the seam -/
theorem C126_environment (c2w : Animated ℝ) (o cl : ℝ) (xr yr : ℕ) (hx : 0 < xr) (hy : 0 < yr) :
    (∀ s : CSample, ∃ t, (envRay c2w o cl xr yr s).2.o = t.pt ⟨0, 0, 0⟩ ∧ (envRay c2w o cl xr yr s).2.d = t.vec (equirect xr yr s.imageX s.imageY) ∧ t = selT c2w 0 ∧
      (envRay c2w o cl xr yr s).1 = 1 ∧ (envRay c2w o cl xr yr s).2.mint = 0 ∧ (envRay c2w o cl xr yr s).2.maxt = ⊤) ∧
    (∀ x y : ℝ, Geom.length (equirect xr yr x y) = 1) ∧
    (∀ v : V3 ℝ, Geom.length v = 1 → ∃ x y : ℝ, 0 ≤ x ∧ x ≤ xr ∧ 0 ≤ y ∧ y ≤ yr ∧ equirect xr yr x y = v) ∧
    (∀ x y x' y' : ℝ, 0 ≤ x → x < xr → 0 < y → y < yr → 0 ≤ x' → x' < xr → 0 < y' → y' < yr → equirect xr yr x y = equirect xr yr x' y' → x = x' ∧ y = y') := by
  have hp := Real.pi_pos
  have hxr : (0 : ℝ) < xr := by exact_mod_cast hx
  have hyr : (0 : ℝ) < yr := by exact_mod_cast hy
  refine ⟨fun s => ⟨_, rfl, rfl, rfl, rfl, rfl, rfl⟩, fun x y => ?_, fun v hv => ?_, fun x y x' y' x0 x1 y0 y1 x0' x1' y0' y1' h => ?_⟩
  · simp only [Geom.length, sqLength, equirect, Real.sqrt_eq_one]
    have a := Real.sin_sq_add_cos_sq (Real.pi * y / yr)
    have b := Real.sin_sq_add_cos_sq (2 * Real.pi * x / xr)
    linear_combination a + Real.sin (Real.pi * y / yr) ^ 2 * b
  · have hl : Geom.length (⟨v.x, v.z, v.y⟩ : V3 ℝ) = 1 := by
      rw [← hv]; simp only [Geom.length, sqLength]; congr 1; ring
    obtain ⟨a1, a2, -⟩ := Geom.C60_spherical_theta _ hl
    obtain ⟨b1, b2, -⟩ := Geom.C60_spherical_phi (⟨v.x, v.z, v.y⟩ : V3 ℝ)
    have r := Geom.C60_spherical_round_trip _ hl
    set θ := Geom.sphericalTheta (⟨v.x, v.z, v.y⟩ : V3 ℝ)
    set φ := Geom.sphericalPhi (⟨v.x, v.z, v.y⟩ : V3 ℝ)
    refine ⟨φ / (2 * Real.pi) * xr, θ / Real.pi * yr, by positivity, ?_, by positivity, ?_, ?_⟩
    · have : φ / (2 * Real.pi) ≤ 1 := (div_le_one (by positivity)).2 b2
      nlinarith
    · have : θ / Real.pi ≤ 1 := (div_le_one hp).2 a2
      nlinarith
    · have e1 : Real.pi * (θ / Real.pi * yr) / yr = θ := by field_simp
      have e2 : 2 * Real.pi * (φ / (2 * Real.pi) * xr) / xr = φ := by field_simp
      simp only [equirect, e1, e2]
      have rx := congrArg V3.x r
      have ry := congrArg V3.y r
      have rz := congrArg V3.z r
      simp only [Geom.sphericalDirection] at rx ry rz
      ext
      · exact rx
      · exact rz
      · exact ry
  · have hx := congrArg V3.x h
    have hy' := congrArg V3.y h
    have hz := congrArg V3.z h
    simp only [equirect] at hx hy' hz
    have range (y : ℝ) (h0 : 0 < y) (h1 : y < yr) : 0 < Real.pi * y / yr ∧ Real.pi * y / yr < Real.pi := by
      refine ⟨by positivity, ?_⟩
      rw [div_lt_iff₀ hyr]; nlinarith
    obtain ⟨r1, r2⟩ := range y y0 y1
    obtain ⟨r1', r2'⟩ := range y' y0' y1'
    have hθ := Real.injOn_cos ⟨r1.le, r2.le⟩ ⟨r1'.le, r2'.le⟩ hy'
    have hyy : y = y' := by
      field_simp at hθ
      exact hθ
    subst hyy
    have hs := Real.sin_pos_of_pos_of_lt_pi r1 r2
    have ec := mul_left_cancel₀ hs.ne' hx
    have es := mul_left_cancel₀ hs.ne' hz
    have hc : Real.cos (2 * Real.pi * x / xr - 2 * Real.pi * x' / xr) = 1 := by
      rw [Real.cos_sub, ec, es]
      nlinarith [Real.sin_sq_add_cos_sq (2 * Real.pi * x' / xr)]
    obtain ⟨n, hn⟩ := (Real.cos_eq_one_iff _).1 hc
    have e : (n : ℝ) * xr = x - x' := by
      field_simp at hn
      linarith
    have n0 : n = 0 := by
      have h1 : (n : ℝ) < 1 := by nlinarith
      have h2 : (-1 : ℝ) < n := by nlinarith
      have h1' : n < 1 := by exact_mod_cast h1
      have h2' : -1 < n := by exact_mod_cast h2
      omega
    rw [n0] at e
    refine ⟨?_, rfl⟩
    push_cast at e
    linarith

/-- a camera the theorems of this file apply to -/
example : lensCam.Ok ∧ AtOrigin lensCam ∧ 0 < lensCam.lensRad ∧ 0 < lensCam.focal :=
  ⟨⟨by norm_num [lensCam], by norm_num [lensCam], by norm_num [lensCam], by norm_num [lensCam]⟩, lensCam_at, by norm_num [lensCam], by norm_num [lensCam]⟩

end Verif.Camera
