import Verif.BBox.Model
import Verif.Num.F

/-!
# `BBox.intersect_p` over IEEE special values
-/

namespace Verif

/-- One component of a ray direction: its value and, when the value is zero, its sign bit
(`-0.0`).  For non-zero values the flag is irrelevant. -/
structure Dir (K : Type*) where
  val : K
  negZero : Bool := false

/-- `Ray` (`pytracer/geometry/__init__.py:281-324`), the fields the box test reads: finite origin,
finite direction with zero signs, and the parameter range (which may be infinite). -/
structure FRay (K : Type*) where
  o : V3 K
  d : V3 (Dir K)
  mint : F K
  maxt : F K

namespace BBox
variable {K : Type*} [Field K] [LinearOrder K]

/-- one pass of the loop body before the early exit (`geometry/__init__.py:589-598`): near and far
quotient, swap, `fmax`/`fmin`. -/
def slabAxis (lo hi : F K) (o : K) (d : Dir K) (t0 t1 : F K) : F K × F K :=
  let near := (lo.subFin o).divFin d.val d.negZero
  let far := (hi.subFin o).divFin d.val d.negZero
  let nf := if F.gt near far then (far, near) else (near, far)
  (F.fmax t0 nf.1, F.fmin t1 nf.2)

/-- `BBox.intersect_p` (`geometry/__init__.py:578-601`); `none` is `[False, 0., 0.]`,
`some (t0, t1)` is `[True, t0, t1]`.
Simplification: the dead `isinstance(..., RayDifferential)` block (lines 591-594) has no effect and
is left out; the three loop rounds are written out. -/
def intersectP (b : BBox (F K)) (r : FRay K) : Option (F K × F K) :=
  let a := slabAxis b.pMin.x b.pMax.x r.o.x r.d.x r.mint r.maxt
  if F.gt a.1 a.2 then none else
  let a := slabAxis b.pMin.y b.pMax.y r.o.y r.d.y a.1 a.2
  if F.gt a.1 a.2 then none else
  let a := slabAxis b.pMin.z b.pMax.z r.o.z r.d.z a.1 a.2
  if F.gt a.1 a.2 then none else
  some a

end BBox
end Verif
