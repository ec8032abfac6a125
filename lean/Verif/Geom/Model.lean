import Verif.Base.V3
import Mathlib.Analysis.SpecialFunctions.Sqrt
import Mathlib.Analysis.SpecialFunctions.Trigonometric.Basic
import Mathlib.Analysis.SpecialFunctions.Trigonometric.Inverse
import Mathlib.Analysis.SpecialFunctions.Complex.Arg

/-!
# Vector helpers (`pytracer/geometry/__init__.py`, `pytracer/geometry/utility.py`) over ℝ
-/

namespace Verif.Geom
open V3

/-- `length` (`geometry/__init__.py:87-88, 184-185, 270-271`). -/
noncomputable def length (v : V3 ℝ) : ℝ := √(sqLength v)

/-- `abs_dot` (`geometry/__init__.py:76-77, 259-260`). -/
noncomputable def absDot (a b : V3 ℝ) : ℝ := |dot a b|

open Classical in
/-- `normalize` (`geometry/utility.py:55-73`; the in-place method `geometry/__init__.py:90-95,
273-278` computes the same value). -/
noncomputable def normalize (v : V3 ℝ) : V3 ℝ :=
  let len := length v
  if ¬ len = 0 then ⟨v.x / len, v.y / len, v.z / len⟩ else v

/-- the classes of the two arguments of `face_forward` -/
inductive Kind | normal | vector | point
deriving DecidableEq

open Classical in
/-- `face_forward` (`geometry/utility.py:76-89`); `none` is the `TypeError`. -/
noncomputable def faceForward (kn kv : Kind) (n v : V3 ℝ) : Option (V3 ℝ) :=
  if kn ≠ Kind.normal ∨ kv ≠ Kind.vector then none
  else if dot n v < 0 then some (-n) else some n

open Classical in
/-- `coordinate_system` (`geometry/utility.py:25-52`). -/
noncomputable def coordinateSystem (v1 : V3 ℝ) : V3 ℝ × V3 ℝ × V3 ℝ :=
  if length v1 = 0 then (⟨1, 0, 0⟩, ⟨0, 1, 0⟩, ⟨0, 0, 1⟩)
  else
    let v2 : V3 ℝ :=
      if |v1.x| > |v1.y| then
        let inv := 1 / √(v1.x * v1.x + v1.z * v1.z)
        ⟨-v1.z * inv, 0, v1.x * inv⟩
      else
        let inv := 1 / √(v1.y * v1.y + v1.z * v1.z)
        ⟨0, -v1.z * inv, v1.y * inv⟩
    (v1, v2, cross v1 v2)

/-- `spherical_direction` without basis (`geometry/utility.py:92-101`). -/
noncomputable def sphericalDirection (st ct phi : ℝ) : V3 ℝ :=
  ⟨st * Real.cos phi, st * Real.sin phi, ct⟩

/-- `spherical_direction` with a basis (`geometry/utility.py:102-103`). -/
noncomputable def sphericalDirectionBasis (st ct phi : ℝ) (x y z : V3 ℝ) : V3 ℝ :=
  (st * Real.cos phi) * x + (st * Real.sin phi) * y + ct * z

/-- `spherical_theta` (`geometry/utility.py:106-112`). -/
noncomputable def sphericalTheta (v : V3 ℝ) : ℝ := Real.arccos (max (-1) (min v.z 1))

open Classical in
/-- `spherical_phi` (`geometry/utility.py:115-122`); `np.arctan2(y, x)` is the argument of the
complex number `x + iy`, in `(-π, π]`. -/
noncomputable def sphericalPhi (v : V3 ℝ) : ℝ :=
  let p := Complex.arg ⟨v.x, v.y⟩
  if p > 0 then p else p + 2 * Real.pi

end Verif.Geom
