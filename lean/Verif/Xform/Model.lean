import Verif.BBox.Model
import Verif.Geom.Model
import Mathlib.LinearAlgebra.Matrix.NonsingularInverse
import Mathlib.LinearAlgebra.Matrix.Notation
import Mathlib.Data.Matrix.Basic

/-!
# `Transform` and `AnimatedTransform` (`pytracer/transform/__init__.py`)
-/

namespace Verif.Xform
open V3 Matrix

abbrev M4 (K : Type*) := Matrix (Fin 4) (Fin 4) K

/-- `Transform` (`transform/__init__.py:13-39`): a matrix and the matrix stored as its inverse.
Simplification: the numpy write-protection flags are not modelled (the value is immutable here). -/
@[ext] structure Transform (K : Type*) where
  m : M4 K
  mInv : M4 K

/-- `EPS = 1e-5` (`pytracer/__init__.py`). -/
def EPS {K : Type*} [Field K] : K := 1 / 100000

section Field
variable {K : Type*} [Field K] [LinearOrder K]

/-- `util.ne_unity` (`pytracer/utility/utility.py:59-61`). -/
def neUnity (x : K) : Bool := decide (x < 1 - EPS) || decide (x > 1 + EPS)

/-- `Transform()` (`transform/__init__.py:18-20`). -/
def ident : Transform K := ⟨1, 1⟩

/-- component `i` of `m[0:4,0:3].dot(p) + m[0:4,3]` (`transform/__init__.py:56`). -/
def homog (m : M4 K) (p : V3 K) (i : Fin 4) : K := m i 0 * p.x + m i 1 * p.y + m i 2 * p.z + m i 3

/-- `__call__` on a `Point` (`transform/__init__.py:55-60`). -/
def Transform.pt (t : Transform K) (p : V3 K) : V3 K :=
  let r : V3 K := ⟨homog t.m p 0, homog t.m p 1, homog t.m p 2⟩
  let w := homog t.m p 3
  if neUnity w then ⟨r.x / w, r.y / w, r.z / w⟩ else r

/-- `__call__` on a `Vector` (`transform/__init__.py:62-64`). -/
def Transform.vec (t : Transform K) (v : V3 K) : V3 K :=
  ⟨t.m 0 0 * v.x + t.m 0 1 * v.y + t.m 0 2 * v.z,
   t.m 1 0 * v.x + t.m 1 1 * v.y + t.m 1 2 * v.z,
   t.m 2 0 * v.x + t.m 2 1 * v.y + t.m 2 2 * v.z⟩

/-- `__call__` on a `Normal` (`transform/__init__.py:66-69`): inverse transpose. -/
def Transform.nrm (t : Transform K) (n : V3 K) : V3 K :=
  ⟨t.mInv 0 0 * n.x + t.mInv 1 0 * n.y + t.mInv 2 0 * n.z,
   t.mInv 0 1 * n.x + t.mInv 1 1 * n.y + t.mInv 2 1 * n.z,
   t.mInv 0 2 * n.x + t.mInv 1 2 * n.y + t.mInv 2 2 * n.z⟩

/-- `Ray` (`geometry/__init__.py:281-324`). `maxt` may be infinite in the code; its type is left
open because transforms only copy it. -/
@[ext] structure Ray (K T : Type*) where
  o : V3 K
  d : V3 K
  mint : T
  maxt : T
  depth : ℕ
  time : K

/-- `Ray.__call__` (`geometry/__init__.py:320-324`). -/
def Ray.at {T : Type*} (r : Ray K T) (s : K) : V3 K := rayAt r.o r.d s

/-- `Ray.from_parent` (`geometry/__init__.py:305-311`). -/
def Ray.fromParent {T : Type*} (o d : V3 K) (r : Ray K T) (mint maxt : T) : Ray K T :=
  ⟨o, d, mint, maxt, r.depth + 1, r.time⟩

/-- `__call__` on a `Ray` (`transform/__init__.py:77-81`). -/
def Transform.ray {T : Type*} (t : Transform K) (r : Ray K T) : Ray K T :=
  { r with o := t.pt r.o, d := t.vec r.d }

/-- `RayDifferential` (`geometry/__init__.py:327-378`). -/
@[ext] structure RayDiff (K T : Type*) extends Ray K T where
  hasDiff : Bool
  rxO : V3 K
  ryO : V3 K
  rxD : V3 K
  ryD : V3 K

/-- `__call__` on a `RayDifferential` (`transform/__init__.py:71-75`): a copy whose `o` and `d` are
transformed; the four differential fields are copied unchanged. -/
def Transform.rayDiff {T : Type*} (t : Transform K) (r : RayDiff K T) : RayDiff K T :=
  { r with o := t.pt r.o, d := t.vec r.d }

/-- `RayDifferential.scale_differential` (`geometry/__init__.py:373-378`). -/
def RayDiff.scale {T : Type*} (r : RayDiff K T) (s : K) : RayDiff K T :=
  { r with
    rxO := r.o + s * (r.rxO - r.o)
    ryO := r.o + s * (r.ryO - r.o)
    rxD := r.d + s * (r.rxD - r.d)
    ryD := r.d + s * (r.ryD - r.d) }

/-- `__call__` on a `BBox` (`transform/__init__.py:83-93`). -/
def Transform.box (t : Transform K) (b : BBox K) : BBox K :=
  let res := b.fromBBox
  let x : V3 K := ⟨res.pMax.x - res.pMin.x, 0, 0⟩
  let y : V3 K := ⟨0, res.pMax.y - res.pMin.y, 0⟩
  let z : V3 K := ⟨0, 0, res.pMax.z - res.pMin.z⟩
  let pMin := t.pt res.pMin
  ⟨pMin, pMin + (t.vec x + t.vec y + t.vec z)⟩

/-- `__mul__` (`transform/__init__.py:98-101`). -/
def Transform.mul (a b : Transform K) : Transform K := ⟨a.m * b.m, b.mInv * a.mInv⟩

instance : Mul (Transform K) := ⟨Transform.mul⟩

/-- `inverse` (`transform/__init__.py:252-256`). -/
def Transform.inverse (t : Transform K) : Transform K := ⟨t.mInv, t.m⟩

/-- `translate` (`transform/__init__.py:103-115`). -/
def translate (d : V3 K) : Transform K :=
  ⟨!![1, 0, 0, d.x; 0, 1, 0, d.y; 0, 0, 1, d.z; 0, 0, 0, 1],
   !![1, 0, 0, -d.x; 0, 1, 0, -d.y; 0, 0, 1, -d.z; 0, 0, 0, 1]⟩

/-- `scale` (`transform/__init__.py:117-129`). A zero factor gives an infinite reciprocal in the
code; the theorems require non-zero factors. -/
def scale (x y z : K) : Transform K :=
  ⟨!![x, 0, 0, 0; 0, y, 0, 0; 0, 0, z, 0; 0, 0, 0, 1],
   !![1 / x, 0, 0, 0; 0, 1 / y, 0, 0; 0, 0, 1 / z, 0; 0, 0, 0, 1]⟩

/-- `orthographic` (`transform/__init__.py:235-237`). -/
def orthographic (znear zfar : K) : Transform K :=
  scale 1 1 (1 / (zfar - znear)) * translate ⟨0, 0, -znear⟩

/-- the 3×3 determinant of the upper left block (`np.linalg.det(self.m[0:3, 0:3])`). -/
def det3 (m : M4 K) : K :=
  m 0 0 * (m 1 1 * m 2 2 - m 1 2 * m 2 1) - m 0 1 * (m 1 0 * m 2 2 - m 1 2 * m 2 0)
    + m 0 2 * (m 1 0 * m 2 1 - m 1 1 * m 2 0)

/-- `swaps_handedness` (`transform/__init__.py:266-267`). -/
def Transform.swapsHandedness (t : Transform K) : Bool := decide (det3 t.m < 0)

/-- `is_identity` (`transform/__init__.py:258-259`). -/
def Transform.isIdentity (t : Transform K) : Bool := decide (t.m = 1)

/-- `has_scale` (`transform/__init__.py:261-264`): squared length of the first three entries of
each of the first three *rows*. -/
def Transform.hasScale (t : Transform K) : Bool :=
  neUnity (t.m 0 0 * t.m 0 0 + t.m 0 1 * t.m 0 1 + t.m 0 2 * t.m 0 2) ||
  neUnity (t.m 1 0 * t.m 1 0 + t.m 1 1 * t.m 1 1 + t.m 1 2 * t.m 1 2) ||
  neUnity (t.m 2 0 * t.m 2 0 + t.m 2 1 * t.m 2 1 + t.m 2 2 * t.m 2 2)

/-- `Transform.__eq__` (`transform/__init__.py:45-46`): only `m` is compared. -/
def Transform.eqOp (a b : Transform K) : Bool := decide (a.m = b.m)

/-- `quat.to_transform` (`pytracer/transform/quat.py:25-33`) applied to a numpy quaternion with
components `w, x, y, z`; the code binds `x, y, z, w = q.w, q.x, q.y, q.z`. -/
def toTransform (qw qx qy qz : K) : Transform K :=
  let x := qw; let y := qx; let z := qy; let w := qz
  let m : M4 K :=
    !![1 - 2 * (y * y + z * z), 2 * (x * y + z * w), 2 * (x * z - y * w), 0;
       2 * (x * y - z * w), 1 - 2 * (x * x + z * z), 2 * (y * z + x * w), 0;
       2 * (x * z + y * w), 2 * (y * z - x * w), 1 - 2 * (x * x + y * y), 0;
       0, 0, 0, 1]
  ⟨mᵀ, m⟩

end Field

/-- `np.deg2rad`. -/
noncomputable def rad (deg : ℝ) : ℝ := deg * Real.pi / 180

/-- `rotate_x` (`transform/__init__.py:132-141`). -/
noncomputable def rotateX (a : ℝ) : Transform ℝ :=
  let s := Real.sin (rad a); let c := Real.cos (rad a)
  let m : M4 ℝ := !![1, 0, 0, 0; 0, c, -s, 0; 0, s, c, 0; 0, 0, 0, 1]
  ⟨m, mᵀ⟩

/-- `rotate_y` (`transform/__init__.py:143-152`). -/
noncomputable def rotateY (a : ℝ) : Transform ℝ :=
  let s := Real.sin (rad a); let c := Real.cos (rad a)
  let m : M4 ℝ := !![c, 0, s, 0; 0, 1, 0, 0; -s, 0, c, 0; 0, 0, 0, 1]
  ⟨m, mᵀ⟩

/-- `rotate_z` (`transform/__init__.py:154-163`). -/
noncomputable def rotateZ (a : ℝ) : Transform ℝ :=
  let s := Real.sin (rad a); let c := Real.cos (rad a)
  let m : M4 ℝ := !![c, -s, 0, 0; s, c, 0, 0; 0, 0, 1, 0; 0, 0, 0, 1]
  ⟨m, mᵀ⟩

/-- the matrix of `rotate` for a normalised axis `a`, sine `s` and cosine `c`
(`transform/__init__.py:172-182`). -/
def rotM {K : Type*} [Field K] (a : V3 K) (s c : K) : M4 K :=
  !![a.x * a.x + (1 - a.x * a.x) * c, a.x * a.y * (1 - c) - a.z * s, a.x * a.z * (1 - c) + a.y * s, 0;
     a.x * a.y * (1 - c) + a.z * s, a.y * a.y + (1 - a.y * a.y) * c, a.y * a.z * (1 - c) - a.x * s, 0;
     a.x * a.z * (1 - c) - a.y * s, a.y * a.z * (1 - c) + a.x * s, a.z * a.z + (1 - a.z * a.z) * c, 0;
     0, 0, 0, 1]

/-- `rotate` (`transform/__init__.py:165-184`). -/
noncomputable def rotate (angle : ℝ) (axis : V3 ℝ) : Transform ℝ :=
  let a := Geom.normalize axis
  let m := rotM a (Real.sin (rad angle)) (Real.cos (rad angle))
  ⟨m, mᵀ⟩

/-- the two matrices of `look_at` for a given frame (`transform/__init__.py:200-232`), literally:
`xc`, `yc`, `zc` are the *rows* of the camera-to-world matrix. -/
def lookAtM {K : Type*} [Field K] (pos xc yc zc : V3 K) : Transform K :=
  ⟨!![xc.x, xc.y, xc.z, pos.x; yc.x, yc.y, yc.z, pos.y; zc.x, zc.y, zc.z, pos.z; 0, 0, 0, 1],
   !![xc.x, yc.x, zc.x, -(pos.x * xc.x + pos.y * yc.x + pos.z * zc.x);
      xc.y, yc.y, zc.y, -(pos.x * xc.y + pos.y * yc.y + pos.z * zc.y);
      xc.z, yc.z, zc.z, -(pos.x * xc.z + pos.y * yc.z + pos.z * zc.z);
      0, 0, 0, 1]⟩

/-- the camera frame computed by `look_at` (`transform/__init__.py:196-198`). -/
noncomputable def lookFrame (pos look up : V3 ℝ) : V3 ℝ × V3 ℝ × V3 ℝ :=
  let zc := Geom.normalize (look - pos)
  let xc := Geom.normalize (cross (Geom.normalize up) zc)
  (xc, cross zc xc, zc)

/-- `look_at` (`transform/__init__.py:186-233`). -/
noncomputable def lookAt (pos look up : V3 ℝ) : Transform ℝ :=
  let f := lookFrame pos look up
  lookAtM pos f.1 f.2.1 f.2.2

/-- `Transform(m)` with only a matrix (`transform/__init__.py:24-29`): the inverse comes from
`np.linalg.inv`, modelled as the exact matrix inverse (`LinAlgError` on a singular matrix is
excluded in the theorems). -/
noncomputable def ofMatrix (m : M4 ℝ) : Transform ℝ := ⟨m, m⁻¹⟩

/-- the projective matrix of `perspective` (`transform/__init__.py:242-246`). -/
def perspM {K : Type*} [Field K] (n f : K) : M4 K :=
  !![1, 0, 0, 0; 0, 1, 0, 0; 0, 0, f / (f - n), -f * n / (f - n); 0, 0, 1, 0]

/-- `perspective` (`transform/__init__.py:239-250`). -/
noncomputable def perspective (fov n f : ℝ) : Transform ℝ :=
  let ti := 1 / Real.tan (rad fov / 2)
  scale ti ti 1 * ofMatrix (perspM n f)

/-! ## `AnimatedTransform` -/

/-- `AnimatedTransform` (`transform/__init__.py:270-282`).  `inner` stands for the value computed
between the key frames (`translate * to_transform(slerp) * Transform(lerp)` from the polar
decompositions, lines 375-385); its numeric iteration is not modelled, it is an arbitrary function
of time. -/
structure Animated (K : Type*) where
  startTime : K
  endTime : K
  start : Transform K
  stop : Transform K
  inner : K → Transform K

section Anim
variable {K : Type*} [Field K] [LinearOrder K]

/-- `self.animated = (t1 != t2)` (`transform/__init__.py:276`). -/
def Animated.animated (a : Animated K) : Bool := !(a.start.eqOp a.stop)

/-- `interpolate` (`transform/__init__.py:367-385`). -/
def Animated.interpolate (a : Animated K) (time : K) : Transform K :=
  if a.animated = false ∨ time ≤ a.startTime then a.start
  else if time ≥ a.endTime then a.stop
  else a.inner time

/-- `__call__` on a ray (`transform/__init__.py:289-298`). -/
def Animated.ray {T : Type*} (a : Animated K) (r : Ray K T) : Ray K T :=
  let tr :=
    if a.animated = false ∨ r.time < a.startTime then a.start.ray r
    else if r.time ≥ a.endTime then a.stop.ray r
    else (a.interpolate r.time).ray r
  { tr with time := r.time }

/-- `__call__` on a time and a point (`transform/__init__.py:300-307`). -/
def Animated.pt (a : Animated K) (time : K) (p : V3 K) : V3 K :=
  if a.animated = false ∨ time < a.startTime then a.start.pt p
  else if time > a.endTime then a.stop.pt p
  else (a.interpolate time).pt p

/-- `__call__` on a time and a vector (`transform/__init__.py:309-316`). -/
def Animated.vec (a : Animated K) (time : K) (v : V3 K) : V3 K :=
  if a.animated = false ∨ time < a.startTime then a.start.vec v
  else if time > a.endTime then a.stop.vec v
  else (a.interpolate time).vec v

/-- the `i`-th sample time of `motion_bounds` (`transform/__init__.py:324-326`). -/
def Animated.sampleTime (a : Animated K) (i : ℕ) : K :=
  BBox.lerp1 ((i : K) * (1 / (128 - 1))) a.startTime a.endTime

/-- `motion_bounds` (`transform/__init__.py:320-331`).  `none` for the animated branch before any
union stands for the infinite default box; since 128 boxes are united the result is always
`some`.  Simplification: the fold starts from the first sample instead of the infinite box, which
is the identity of union (C01). -/
def Animated.motionBounds (a : Animated K) (b : BBox K) (useInv : Bool) : BBox K :=
  if a.animated = false then a.start.inverse.box b
  else
    let tr (i : ℕ) : BBox K :=
      let t := a.interpolate (a.sampleTime i)
      (if useInv then t.inverse else t).box b
    (List.range 127).foldl (fun acc i => acc.unionBox (tr (i + 1))) (tr 0)

end Anim
end Verif.Xform
