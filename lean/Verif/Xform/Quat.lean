import Verif.Xform.Model
import Mathlib.Analysis.SpecialFunctions.Trigonometric.Inverse

/-!
# Quaternions (`pytracer/transform/quat.py`)
-/

namespace Verif.Xform

/-- `numpy.quaternion` (`transform/quat.py:18`): the four stored components.  The project stores
its scalar part in the *last* slot (`z`), see `toTransform`. -/
@[ext] structure Quat (K : Type*) where
  w : K
  x : K
  y : K
  z : K

namespace Quat

/-- `dot` (`transform/quat.py:21-22`). -/
def dot {K : Type*} [Field K] (a b : Quat K) : K := a.w * b.w + a.x * b.x + a.y * b.y + a.z * b.z

/-- scalar multiple, from the third-party `quaternion` package. -/
def smul {K : Type*} [Field K] (s : K) (a : Quat K) : Quat K := ⟨s * a.w, s * a.x, s * a.y, s * a.z⟩

/-- component-wise sum, from the third-party `quaternion` package. -/
def add {K : Type*} [Field K] (a b : Quat K) : Quat K := ⟨a.w + b.w, a.x + b.x, a.y + b.y, a.z + b.z⟩

/-- negation, from the third-party `quaternion` package. -/
def neg {K : Type*} [Field K] (a : Quat K) : Quat K := ⟨-a.w, -a.x, -a.y, -a.z⟩

/-- `q.normalized()`, from the third-party `quaternion` package.  The zero quaternion gives NaN
components in the code; in the model it gives zero, and the theorems exclude it. -/
noncomputable def normalized (a : Quat ℝ) : Quat ℝ := smul (1 / Real.sqrt (dot a a)) a

/-- `to_transform` (`transform/quat.py:25-33`). -/
def toT {K : Type*} [Field K] [LinearOrder K] (q : Quat K) : Transform K := toTransform q.w q.x q.y q.z

/-- the trace of the whole 4×4 matrix (`m.trace()`, `transform/quat.py:38`, `74`). -/
def trace4 (m : M4 ℝ) : ℝ := m 0 0 + m 1 1 + m 2 2 + m 3 3

/-- the axis picked by the `else` branch (`transform/quat.py:52-56`, `88-92`). -/
noncomputable def pickAxis (m : M4 ℝ) : Fin 3 :=
  let i : Fin 3 := if m 1 1 > m 0 0 then 1 else 0
  if m 2 2 < m (Fin.castSucc i) (Fin.castSucc i) then 2 else i

/-- `nxt` (`transform/quat.py:50`, `86`). -/
def nxt : Fin 3 → Fin 3 := ![1, 2, 0]

/-- `from_transform` / `from_arr` on a 4×4 matrix (`transform/quat.py:36-105`; the two bodies are
identical once `m = t.m`).  The list `q` is a function of its index. -/
noncomputable def fromMatrix (m : M4 ℝ) : Quat ℝ :=
  let tr := trace4 m
  if tr > 0 then
    let s := Real.sqrt (tr + 1)
    let w := s / 2
    let s := (1 / 2) / s
    ⟨(m 2 1 - m 1 2) * s, (m 0 2 - m 2 0) * s, (m 1 0 - m 0 1) * s, w⟩
  else
    let i := pickAxis m
    let j := nxt i
    let k := nxt j
    let e (a b : Fin 3) : ℝ := m (Fin.castSucc a) (Fin.castSucc b)
    let s := Real.sqrt ((e i i - (e j j + e k k)) + 1)
    let qi := s * (1 / 2)
    let s := if s ≠ 0 then (1 / 2) / s else s
    let w := (e k j - e j k) * s
    let qj := (e j i + e i j) * s
    let qk := (e k i + e i k) * s
    let q (a : Fin 3) : ℝ := if a = i then qi else if a = j then qj else qk
    ⟨q 0, q 1, q 2, w⟩

/-- `slerp` (`transform/quat.py:108-116`). -/
noncomputable def slerp (t : ℝ) (q1 q2 : Quat ℝ) : Quat ℝ :=
  let c := dot q1 q2
  if c > 1 - EPS then normalized (add (smul (1 - t) q1) (smul t q2))
  else
    let theta := Real.arccos (max (-1) (min 1 c))
    let thetap := theta * t
    let qperp := normalized (add q2 (neg (smul c q1)))
    add (smul (Real.cos thetap) q1) (smul (Real.sin thetap) qperp)

end Quat
end Verif.Xform
