import Verif.Xform.Model
import Verif.Geom.Props
import Mathlib.Tactic.FieldSimp
import Mathlib.Tactic.LinearCombination
import Mathlib.Tactic.FinCases

namespace Verif.Xform
open V3 Matrix
set_option linter.unusedSectionVars false
set_option linter.unusedSimpArgs false

section
variable {K : Type*} [Field K] [LinearOrder K]

theorem mul_m (a b : Transform K) : (a * b).m = a.m * b.m := rfl
theorem mul_mInv (a b : Transform K) : (a * b).mInv = b.mInv * a.mInv := rfl

end

section
variable {K : Type*} [Field K] [LinearOrder K] [IsStrictOrderedRing K]


theorem not_neUnity_one : neUnity (1 : K) = false := by
  have h : (0 : K) < 1 / 100000 := by norm_num
  simp [neUnity, EPS]

theorem entry (a b : M4 K) (i j : Fin 4) :
    (a * b) i j = a i 0 * b 0 j + a i 1 * b 1 j + a i 2 * b 2 j + a i 3 * b 3 j := by
  rw [Matrix.mul_apply, Fin.sum_univ_four]

theorem m4_ext {a b : M4 K} (h : ∀ i j, a i j = b i j) : a = b := by ext i j; exact h i j

end

section Mats
variable {K : Type*} [Field K]

/-- orthogonal 3×3 block with rows given by three orthonormal vectors -/
theorem frame_mul (pos a b c : V3 K)
    (haa : dot a a = 1) (hbb : dot b b = 1) (hcc : dot c c = 1)
    (hab : dot a b = 0) (hac : dot a c = 0) (hbc : dot b c = 0) :
    (lookAtM pos a b c).m * (lookAtM pos a b c).mInv = 1 := by
  simp only [dot] at *
  ext i j
  rw [Matrix.mul_apply, Fin.sum_univ_four]
  fin_cases i <;> fin_cases j <;> simp [lookAtM]
  · linear_combination haa
  · linear_combination hab
  · linear_combination hac
  · linear_combination (-pos.x) * haa + (-pos.y) * hab + (-pos.z) * hac
  · linear_combination hab
  · linear_combination hbb
  · linear_combination hbc
  · linear_combination (-pos.x) * hab + (-pos.y) * hbb + (-pos.z) * hbc
  · linear_combination hac
  · linear_combination hbc
  · linear_combination hcc
  · linear_combination (-pos.x) * hac + (-pos.y) * hbc + (-pos.z) * hcc

theorem rotM_mul_transpose (a : V3 K) (s c : K) (ha : sqLength a = 1) (hsc : s ^ 2 + c ^ 2 = 1) :
    rotM a s c * (rotM a s c)ᵀ = 1 := by
  simp only [sqLength] at ha
  have hx : a.x * a.x = 1 - a.y * a.y - a.z * a.z := by linear_combination ha
  obtain ⟨x, y, z⟩ := a
  simp only at ha hx
  ext i j
  rw [Matrix.mul_apply, Fin.sum_univ_four]
  fin_cases i <;> fin_cases j <;> simp [rotM]
  · linear_combination (c^2*x^2 - 2*c*x^2 + s^2 + x^2) * ha + (1 - x^2) * hsc
  · linear_combination (c^2*x*y - 2*c*x*y + x*y) * ha - x*y * hsc
  · linear_combination (c^2*x*z - 2*c*x*z + x*z) * ha - x*z * hsc
  · linear_combination (c^2*x*y - 2*c*x*y + x*y) * ha - x*y * hsc
  · linear_combination (c^2*y^2 - 2*c*y^2 + s^2 + y^2) * ha + (1 - y^2) * hsc
  · linear_combination (c^2*y*z - 2*c*y*z + y*z) * ha - y*z * hsc
  · linear_combination (c^2*x*z - 2*c*x*z + x*z) * ha - x*z * hsc
  · linear_combination (c^2*y*z - 2*c*y*z + y*z) * ha - y*z * hsc
  · linear_combination (c^2*z^2 - 2*c*z^2 + s^2 + z^2) * ha + (1 - z^2) * hsc

end Mats
end Verif.Xform
