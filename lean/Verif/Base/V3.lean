import Mathlib.Algebra.Order.Field.Basic
import Mathlib.Tactic.Ring
import Mathlib.Tactic.Linarith

/-!
# Three-component tuples

Models the `x, y, z` payload shared by `Vector`, `Point` and `Normal`.
-/

namespace Verif

/-- The payload of `Vector`, `Point`, `Normal`
(`pytracer/geometry/__init__.py:15-68, 98-158, 198-251`): three numbers.
Simplification: the three Python classes differ only in which operators are allowed; the
model uses one type and the functions below keep the roles apart in their comments.
The constructors' `raise ValueError` on NaN is not repeated here: coordinates range over a
type without NaN, i.e. the values the constructor accepts. -/
@[ext] structure V3 (α : Type*) where
  x : α
  y : α
  z : α
deriving DecidableEq

namespace V3

variable {K : Type*}

/-- component access by axis number, `v[i]` of the numpy array; axis numbers are `0,1,2`. -/
def get {α : Type*} (v : V3 α) : Fin 3 → α
  | 0 => v.x
  | 1 => v.y
  | 2 => v.z

section Ring
variable [Field K]

/-- numpy elementwise addition of two 3-arrays. -/
def add (a b : V3 K) : V3 K := ⟨a.x + b.x, a.y + b.y, a.z + b.z⟩
/-- numpy elementwise subtraction; also `Point.__sub__` (`geometry/__init__.py:166-174`). -/
def sub (a b : V3 K) : V3 K := ⟨a.x - b.x, a.y - b.y, a.z - b.z⟩
/-- numpy negation. -/
def neg (a : V3 K) : V3 K := ⟨-a.x, -a.y, -a.z⟩
/-- numpy `array * scalar`. -/
def smul (s : K) (a : V3 K) : V3 K := ⟨s * a.x, s * a.y, s * a.z⟩

instance : Add (V3 K) := ⟨add⟩
instance : Sub (V3 K) := ⟨sub⟩
instance : Neg (V3 K) := ⟨neg⟩
instance : HMul K (V3 K) (V3 K) := ⟨smul⟩
instance : Zero (V3 K) := ⟨⟨0, 0, 0⟩⟩

@[simp] theorem add_x (a b : V3 K) : (a + b).x = a.x + b.x := rfl
@[simp] theorem add_y (a b : V3 K) : (a + b).y = a.y + b.y := rfl
@[simp] theorem add_z (a b : V3 K) : (a + b).z = a.z + b.z := rfl
@[simp] theorem sub_x (a b : V3 K) : (a - b).x = a.x - b.x := rfl
@[simp] theorem sub_y (a b : V3 K) : (a - b).y = a.y - b.y := rfl
@[simp] theorem sub_z (a b : V3 K) : (a - b).z = a.z - b.z := rfl
@[simp] theorem neg_x (a : V3 K) : (-a).x = -a.x := rfl
@[simp] theorem neg_y (a : V3 K) : (-a).y = -a.y := rfl
@[simp] theorem neg_z (a : V3 K) : (-a).z = -a.z := rfl
@[simp] theorem smul_x (s : K) (a : V3 K) : (s * a).x = s * a.x := rfl
@[simp] theorem smul_y (s : K) (a : V3 K) : (s * a).y = s * a.y := rfl
@[simp] theorem smul_z (s : K) (a : V3 K) : (s * a).z = s * a.z := rfl
@[simp] theorem zero_x : (0 : V3 K).x = 0 := rfl
@[simp] theorem zero_y : (0 : V3 K).y = 0 := rfl
@[simp] theorem zero_z : (0 : V3 K).z = 0 := rfl

/-- `np.dot` of two 3-arrays. -/
def dot (a b : V3 K) : K := a.x * b.x + a.y * b.y + a.z * b.z

/-- `Vector.cross` / `Normal.cross` (`geometry/__init__.py:79-82, 262-265`). -/
def cross (a b : V3 K) : V3 K :=
  ⟨a.y * b.z - a.z * b.y, a.z * b.x - a.x * b.z, a.x * b.y - a.y * b.x⟩

/-- `sq_length` (`geometry/__init__.py:84-85, 181-182, 267-268`). -/
def sqLength (a : V3 K) : K := a.x * a.x + a.y * a.y + a.z * a.z

/-- `Point.sq_dist` (`geometry/__init__.py:187-190`). -/
def sqDist (a b : V3 K) : K :=
  (a.x - b.x) * (a.x - b.x) + (a.y - b.y) * (a.y - b.y) + (a.z - b.z) * (a.z - b.z)

/-- `Ray.__call__`: `o + d * t` (`geometry/__init__.py:320-324`). -/
def rayAt (o d : V3 K) (t : K) : V3 K := ⟨o.x + d.x * t, o.y + d.y * t, o.z + d.z * t⟩

theorem sqLength_eq_dot (a : V3 K) : sqLength a = dot a a := rfl

end Ring

end V3
end Verif
