import Verif.Base.V3
import Mathlib.Order.BoundedOrder.Basic
import Mathlib.Order.Lattice
import Mathlib.Analysis.SpecialFunctions.Sqrt

/-!
# `BBox`: the part that only compares coordinates

The coordinate type is any linear order; where the default box is needed it has a top and a
bottom element (`np.inf`, `-np.inf`).  Non-NaN `float64` is such an order, and `min`/`max`/`<=`
never round, so nothing numeric is abstracted away here.
-/

namespace Verif

/-- `BBox` (`pytracer/geometry/__init__.py:381-409`): the pair `pMin`, `pMax`. -/
@[ext] structure BBox (α : Type*) where
  pMin : V3 α
  pMax : V3 α
deriving DecidableEq

namespace BBox

section Order
variable {α : Type*} [LinearOrder α]

/-- `BBox(p1, p2)` with both points given (`geometry/__init__.py:390-396`). -/
def ofPoints (p1 p2 : V3 α) : BBox α :=
  ⟨⟨min p1.x p2.x, min p1.y p2.y, min p1.z p2.z⟩, ⟨max p1.x p2.x, max p1.y p2.y, max p1.z p2.z⟩⟩

/-- `BBox()`: `pMin = +inf`, `pMax = -inf` (`geometry/__init__.py:399-401`). -/
def empty [BoundedOrder α] : BBox α := ⟨⟨⊤, ⊤, ⊤⟩, ⟨⊥, ⊥, ⊥⟩⟩

/-- the constructor with all its `None` cases (`geometry/__init__.py:389-409`). -/
def mk? [BoundedOrder α] : Option (V3 α) → Option (V3 α) → BBox α
  | some p1, some p2 => ofPoints p1 p2
  | none, none => empty
  | some p1, none => ⟨p1, ⟨⊤, ⊤, ⊤⟩⟩
  | none, some p2 => ⟨⟨⊥, ⊥, ⊥⟩, p2⟩

/-- `BBox.from_bbox` (`geometry/__init__.py:411-413`): the constructor on the two corners. -/
def fromBBox (b : BBox α) : BBox α := ofPoints b.pMin b.pMax

/-- `union`/`Union` with a `Point` (`geometry/__init__.py:445-451, 473-479`).
Simplification: `self.union` mutates `self`; the model returns the new value. -/
def unionPt (b : BBox α) (p : V3 α) : BBox α :=
  ⟨⟨min b.pMin.x p.x, min b.pMin.y p.y, min b.pMin.z p.z⟩,
   ⟨max b.pMax.x p.x, max b.pMax.y p.y, max b.pMax.z p.z⟩⟩

/-- `union`/`Union` with a `BBox` (`geometry/__init__.py:453-459, 481-487`). -/
def unionBox (b c : BBox α) : BBox α :=
  ⟨⟨min b.pMin.x c.pMin.x, min b.pMin.y c.pMin.y, min b.pMin.z c.pMin.z⟩,
   ⟨max b.pMax.x c.pMax.x, max b.pMax.y c.pMax.y, max b.pMax.z c.pMax.z⟩⟩

/-- an argument of `union`: the two accepted classes and anything else
(`geometry/__init__.py:473-492`). -/
inductive Arg (α : Type*) where
  | pt (p : V3 α)
  | box (b : BBox α)
  | other

/-- `BBox.union` / `BBox.Union` with the `TypeError` branch as `none`
(`geometry/__init__.py:436-492`). -/
def union (b : BBox α) : Arg α → Option (BBox α)
  | .pt p => some (unionPt b p)
  | .box c => some (unionBox b c)
  | .other => none

/-- a history of `union` calls on one box; stops at the first `TypeError`. -/
def unionAll (b : BBox α) : List (Arg α) → Option (BBox α)
  | [] => some b
  | a :: as => (union b a).bind (unionAll · as)

/-- `BBox.overlaps` (`geometry/__init__.py:494-500`). -/
def overlaps (a b : BBox α) : Bool :=
  decide (a.pMax.x ≥ b.pMin.x) && decide (a.pMin.x ≤ b.pMax.x) &&
  decide (a.pMax.y ≥ b.pMin.y) && decide (a.pMin.y ≤ b.pMax.y) &&
  decide (a.pMax.z ≥ b.pMin.z) && decide (a.pMin.z ≤ b.pMax.z)

/-- `BBox.inside` (`geometry/__init__.py:502-509`). -/
def inside (b : BBox α) (p : V3 α) : Bool :=
  decide (b.pMax.x ≥ p.x) && decide (b.pMin.x ≤ p.x) &&
  decide (b.pMax.y ≥ p.y) && decide (b.pMin.y ≤ p.y) &&
  decide (b.pMax.z ≥ p.z) && decide (b.pMin.z ≤ p.z)

/-- `BBox.__eq__` (`geometry/__init__.py:420-422`). -/
def eqOp (a b : BBox α) : Bool := decide (a.pMin = b.pMin) && decide (a.pMax = b.pMax)

/-- `BBox.__ne__` (`geometry/__init__.py:424-426`), literally: `pMin` is compared with the other
box's `pMax`, twice. -/
def neOp (a b : BBox α) : Bool := !decide (a.pMin = b.pMax) || !decide (a.pMin = b.pMax)

end Order

section Field
variable {K : Type*} [Field K] [LinearOrder K]

/-- `util.lerp` (`pytracer/utility/utility.py:89-91`). -/
def lerp1 (t a b : K) : K := (1 - t) * a + t * b

/-- `BBox.expand` (`geometry/__init__.py:511-521`). -/
def expand (b : BBox K) (d : K) : BBox K :=
  ⟨⟨b.pMin.x - d, b.pMin.y - d, b.pMin.z - d⟩, ⟨b.pMax.x + d, b.pMax.y + d, b.pMax.z + d⟩⟩

/-- `BBox.surface_area` (`geometry/__init__.py:523-528`). -/
def surfaceArea (b : BBox K) : K :=
  let d := b.pMax - b.pMin
  2 * (d.x * d.y + d.x * d.z + d.y * d.z)

/-- `BBox.volume` (`geometry/__init__.py:530-535`). -/
def volume (b : BBox K) : K :=
  let d := b.pMax - b.pMin
  d.x * d.y * d.z

/-- `BBox.maximum_extent` (`geometry/__init__.py:537-547`). -/
def maximumExtent (b : BBox K) : Fin 3 :=
  let d := b.pMax - b.pMin
  if d.x > d.y ∧ d.x > d.z then 0 else if d.y > d.z then 1 else 2

/-- `BBox.lerp` (`geometry/__init__.py:549-556`). -/
def lerp (b : BBox K) (tx ty tz : K) : V3 K :=
  ⟨lerp1 tx b.pMin.x b.pMax.x, lerp1 ty b.pMin.y b.pMax.y, lerp1 tz b.pMin.z b.pMax.z⟩

/-- `BBox.offset` (`geometry/__init__.py:558-565`). Division by a zero extent (NaN or inf in the
code, then `ValueError` for NaN) is excluded in the theorems by hypothesis. -/
def offset (b : BBox K) (p : V3 K) : V3 K :=
  ⟨(p.x - b.pMin.x) / (b.pMax.x - b.pMin.x), (p.y - b.pMin.y) / (b.pMax.y - b.pMin.y),
   (p.z - b.pMin.z) / (b.pMax.z - b.pMin.z)⟩

end Field

/-- `BBox.bounding_sphere` (`geometry/__init__.py:567-576`): centre and radius. -/
noncomputable def boundingSphere (b : BBox ℝ) : V3 ℝ × ℝ :=
  let c : V3 ℝ := ⟨0.5 * (b.pMin.x + b.pMax.x), 0.5 * (b.pMin.y + b.pMax.y),
    0.5 * (b.pMin.z + b.pMax.z)⟩
  (c, if b.inside c then √(V3.sqDist c b.pMax) else 0)

end BBox
end Verif
