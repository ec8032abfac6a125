import Verif.Geom.Model
import Mathlib.Tactic.FieldSimp
import Mathlib.Tactic.NormNum
import Mathlib.Tactic.Positivity
import Mathlib.Tactic.LinearCombination

/-!
# Properties C05, C06, C60
-/

namespace Verif.Geom
open V3

theorem sqLength_nonneg (v : V3 ℝ) : 0 ≤ sqLength v := by
  unfold sqLength; nlinarith [mul_self_nonneg v.x, mul_self_nonneg v.y, mul_self_nonneg v.z]

theorem sqLength_eq_zero (v : V3 ℝ) : sqLength v = 0 ↔ v = 0 := by
  constructor
  · intro h
    unfold sqLength at h
    have hx : v.x = 0 := by nlinarith [mul_self_nonneg v.x, mul_self_nonneg v.y, mul_self_nonneg v.z]
    have hy : v.y = 0 := by nlinarith [mul_self_nonneg v.x, mul_self_nonneg v.y, mul_self_nonneg v.z]
    have hz : v.z = 0 := by nlinarith [mul_self_nonneg v.x, mul_self_nonneg v.y, mul_self_nonneg v.z]
    ext <;> assumption
  · rintro rfl; simp [sqLength]

/-- **C06** `length` is zero exactly at the zero vector, is non-negative, squares to the dot
product with itself and scales by the absolute value. -/
theorem C06_length_is_norm (v : V3 ℝ) (s : ℝ) :
    (length v = 0 ↔ v = 0) ∧ 0 ≤ length v ∧ length v ^ 2 = dot v v ∧
    length (s * v) = |s| * length v := by
  refine ⟨?_, Real.sqrt_nonneg _, ?_, ?_⟩
  · rw [length, Real.sqrt_eq_zero (sqLength_nonneg v), sqLength_eq_zero]
  · rw [length, Real.sq_sqrt (sqLength_nonneg v)]; rfl
  · have : sqLength (s * v) = s ^ 2 * sqLength v := by simp [sqLength]; ring
    rw [length, length, this, Real.sqrt_mul (sq_nonneg s), Real.sqrt_sq_eq_abs]

/-- **C06** triangle inequality for `length`. -/
theorem C06_length_triangle (a b : V3 ℝ) : length (a + b) ≤ length a + length b := by
  have ha := Real.sq_sqrt (sqLength_nonneg a)
  have hb := Real.sq_sqrt (sqLength_nonneg b)
  have na := Real.sqrt_nonneg (sqLength a)
  have nb := Real.sqrt_nonneg (sqLength b)
  have hcs : dot a b ≤ √(sqLength a) * √(sqLength b) := by
    rw [← Real.sqrt_mul (sqLength_nonneg a)]
    apply Real.le_sqrt_of_sq_le
    simp only [dot, sqLength]
    nlinarith [sq_nonneg (a.x * b.y - a.y * b.x), sq_nonneg (a.x * b.z - a.z * b.x),
      sq_nonneg (a.y * b.z - a.z * b.y)]
  unfold length
  apply Real.sqrt_le_iff.2 ⟨by positivity, ?_⟩
  have e : sqLength (a + b) = sqLength a + sqLength b + 2 * dot a b := by
    simp [sqLength, dot]; ring
  nlinarith

/-- **C06** `normalize` of a non-zero vector is the unit vector in the same direction;
the zero vector is returned unchanged. -/
theorem C06_normalize (v : V3 ℝ) :
    (v ≠ 0 → length (normalize v) = 1 ∧ length v * normalize v = v ∧ 0 < length v) ∧
    (v = 0 → normalize v = 0) := by
  constructor
  · intro hv
    have hl : length v ≠ 0 := fun h => hv ((C06_length_is_norm v 0).1.1 h)
    have hpos : 0 < length v := lt_of_le_of_ne (Real.sqrt_nonneg _) (Ne.symm hl)
    have e : normalize v = (length v)⁻¹ * v := by
      simp only [normalize, hl, not_false_eq_true, if_true]
      ext <;> simp [div_eq_inv_mul]
    refine ⟨?_, ?_, hpos⟩
    · rw [e, (C06_length_is_norm v _).2.2.2, abs_of_pos (inv_pos.2 hpos), inv_mul_cancel₀ hl]
    · rw [e]; ext <;> simp [hl]
  · rintro rfl
    have : length (0 : V3 ℝ) = 0 := by simp [length, sqLength]
    simp [normalize, this]

/-- **C06** normalising twice is the same as normalising once. -/
theorem C06_normalize_idempotent (v : V3 ℝ) : normalize (normalize v) = normalize v := by
  by_cases hv : v = 0
  · rw [(C06_normalize v).2 hv, (C06_normalize 0).2 rfl]
  · have h := ((C06_normalize v).1 hv).1
    have : normalize v ≠ 0 := by
      intro h0; rw [h0] at h; simp [length, sqLength] at h
    have h2 := ((C06_normalize _).1 this).2.1
    rw [h] at h2
    have e : ∀ w : V3 ℝ, (1 : ℝ) * w = w := by intro w; ext <;> simp
    rw [e] at h2; exact h2

/-- **C06** `face_forward` returns the normal or its opposite, never pointing away from the
vector, and leaves a normal that already faces forward alone. -/
theorem C06_face_forward (n v : V3 ℝ) :
    ∃ r, faceForward .normal .vector n v = some r ∧ (r = n ∨ r = -n) ∧ 0 ≤ dot r v ∧
      (0 ≤ dot n v → r = n) := by
  unfold faceForward
  by_cases h : dot n v < 0
  · refine ⟨-n, by simp [h], Or.inr rfl, ?_, fun h' => absurd h (not_lt.2 h')⟩
    simp only [dot, neg_x, neg_y, neg_z] at *; linarith
  · exact ⟨n, by simp [h], Or.inl rfl, not_lt.1 h, fun _ => rfl⟩

/-- **C06** `face_forward` raises `TypeError` exactly on wrong argument classes. -/
theorem C06_face_forward_type_error (kn kv : Kind) (n v : V3 ℝ) :
    faceForward kn kv n v = none ↔ ¬ (kn = .normal ∧ kv = .vector) := by
  unfold faceForward
  by_cases h : kn ≠ .normal ∨ kv ≠ .vector
  · simp only [h, if_true, true_iff]; tauto
  · simp only [h, if_false]
    have : kn = .normal ∧ kv = .vector := by tauto
    simp only [this, and_self, not_true, iff_false]
    split_ifs <;> simp

/-- **C06** `cross` is orthogonal to both operands, anti-commutative and satisfies Lagrange's
identity; it has the right-handed orientation (`x × y = z`). -/
theorem C06_cross (a b : V3 ℝ) :
    dot (cross a b) a = 0 ∧ dot (cross a b) b = 0 ∧ cross b a = -cross a b ∧
    sqLength (cross a b) = sqLength a * sqLength b - dot a b ^ 2 ∧
    cross (⟨1, 0, 0⟩ : V3 ℝ) ⟨0, 1, 0⟩ = ⟨0, 0, 1⟩ := by
  refine ⟨by simp [dot, cross]; ring, by simp [dot, cross]; ring, ?_, by simp [sqLength, dot, cross]; ring, ?_⟩
  · ext <;> simp [cross] <;> ring
  · ext <;> simp [cross]

/-- **C06** `abs_dot` is the absolute dot product: symmetric, non-negative, at most the product of
the lengths. -/
theorem C06_abs_dot (a b : V3 ℝ) :
    absDot a b = absDot b a ∧ 0 ≤ absDot a b ∧ absDot a b ≤ length a * length b := by
  refine ⟨by simp [absDot, dot]; ring_nf, abs_nonneg _, ?_⟩
  rw [absDot, length, length, ← Real.sqrt_mul (sqLength_nonneg a)]
  apply Real.abs_le_sqrt
  simp only [dot, sqLength]
  nlinarith [sq_nonneg (a.x * b.y - a.y * b.x), sq_nonneg (a.x * b.z - a.z * b.x),
    sq_nonneg (a.y * b.z - a.z * b.y)]

/-! ## C05 -/

/-- three vectors of unit length, pairwise orthogonal -/
def Orthonormal3 (a b c : V3 ℝ) : Prop :=
  length a = 1 ∧ length b = 1 ∧ length c = 1 ∧ dot a b = 0 ∧ dot a c = 0 ∧ dot b c = 0

theorem coordinateSystem_v2 (v : V3 ℝ) (hv : v ≠ 0) :
    (coordinateSystem v).1 = v ∧ sqLength (coordinateSystem v).2.1 = 1 ∧
    dot v (coordinateSystem v).2.1 = 0 ∧
    (coordinateSystem v).2.2 = cross v (coordinateSystem v).2.1 := by
  have hl : length v ≠ 0 := fun h => hv ((C06_length_is_norm v 0).1.1 h)
  simp only [coordinateSystem, hl, if_false]
  refine ⟨trivial, ?_, ?_, trivial⟩
  · split_ifs with h
    · have hx : v.x ≠ 0 := by
        intro h0; rw [h0, abs_zero] at h; exact absurd h (not_lt.2 (abs_nonneg _))
      have hpos : 0 < v.x * v.x + v.z * v.z := by
        have := mul_self_pos.2 hx; nlinarith [mul_self_nonneg v.z]
      have hs := Real.sq_sqrt hpos.le
      have hs0 : √(v.x * v.x + v.z * v.z) ≠ 0 := (Real.sqrt_pos.2 hpos).ne'
      simp only [sqLength]
      generalize √(v.x * v.x + v.z * v.z) = s at hs hs0
      have hi : (1 / s) ^ 2 * s ^ 2 = 1 := by field_simp
      rw [hs] at hi
      linear_combination hi
    · have hpos : 0 < v.y * v.y + v.z * v.z := by
        by_contra hn
        have h1 : v.y = 0 := by nlinarith [mul_self_nonneg v.y, mul_self_nonneg v.z]
        have h2 : v.z = 0 := by nlinarith [mul_self_nonneg v.y, mul_self_nonneg v.z]
        have h3 : v.x = 0 := by
          rw [h1, abs_zero, gt_iff_lt, abs_pos, not_not] at h; exact h
        exact hv (by ext <;> simp [h1, h2, h3])
      have hs := Real.sq_sqrt hpos.le
      have hs0 : √(v.y * v.y + v.z * v.z) ≠ 0 := (Real.sqrt_pos.2 hpos).ne'
      simp only [sqLength]
      generalize √(v.y * v.y + v.z * v.z) = s at hs hs0
      have hi : (1 / s) ^ 2 * s ^ 2 = 1 := by field_simp
      rw [hs] at hi
      linear_combination hi
  · split_ifs <;> simp only [dot] <;> ring

/-- **C05** for a unit vector the result is an orthonormal frame starting with that vector and
with `v3 = v1 × v2`. -/
theorem C05_frame_orthonormal (v : V3 ℝ) (hv : length v = 1) :
    (coordinateSystem v).1 = v ∧
    Orthonormal3 (coordinateSystem v).1 (coordinateSystem v).2.1 (coordinateSystem v).2.2 ∧
    (coordinateSystem v).2.2 = cross (coordinateSystem v).1 (coordinateSystem v).2.1 := by
  have h0 : v ≠ 0 := by
    rintro rfl; simp [length, sqLength] at hv
  obtain ⟨h1, h2, h3, h4⟩ := coordinateSystem_v2 v h0
  have hsq : sqLength v = 1 := by
    have := Real.sq_sqrt (sqLength_nonneg v)
    rw [length] at hv; rw [hv] at this; linarith
  refine ⟨h1, ?_, by rw [h4, h1]⟩
  rw [h1, h4]
  refine ⟨hv, by simp [length, h2], ?_, h3, ?_, ?_⟩
  · rw [length, (C06_cross _ _).2.2.2.1, hsq, h2, h3]; simp
  · have := (C06_cross v (coordinateSystem v).2.1).1
    simp only [dot] at *; linarith
  · have := (C06_cross v (coordinateSystem v).2.1).2.1
    simp only [dot] at *; linarith

/-- **C05** for any non-zero vector (unit or not) `v2` is a unit vector orthogonal to it (so no
division by zero happened) and `v3` has the length of `v`; the zero vector gives the standard
basis. -/
theorem C05_frame_any_vector (v : V3 ℝ) :
    (v ≠ 0 → length (coordinateSystem v).2.1 = 1 ∧ dot v (coordinateSystem v).2.1 = 0 ∧
      length (coordinateSystem v).2.2 = length v) ∧
    (v = 0 → coordinateSystem v = (⟨1, 0, 0⟩, ⟨0, 1, 0⟩, ⟨0, 0, 1⟩)) := by
  constructor
  · intro hv
    obtain ⟨h1, h2, h3, h4⟩ := coordinateSystem_v2 v hv
    refine ⟨by simp [length, h2], h3, ?_⟩
    rw [h4, length, (C06_cross _ _).2.2.2.1, h2, h3]; simp [length]
  · rintro rfl
    have : length (0 : V3 ℝ) = 0 := by simp [length, sqLength]
    simp [coordinateSystem, this]

/-- **C05** the standard basis of the zero case is orthonormal too. -/
theorem C05_standard_basis : Orthonormal3 ⟨1, 0, 0⟩ ⟨0, 1, 0⟩ ⟨0, 0, 1⟩ := by
  simp [Orthonormal3, length, sqLength, dot]

/-- non-vacuity: a unit vector exercising each branch -/
example : length (⟨3/5, 0, 4/5⟩ : V3 ℝ) = 1 ∧ length (⟨0, 3/5, 4/5⟩ : V3 ℝ) = 1 := by
  constructor <;> norm_num [length, sqLength]

/-! ## C60 spherical coordinates -/

/-- **C60** a direction built from spherical coordinates with `sin²+cos²=1` is a unit vector, in
the standard frame and in any orthonormal basis. -/
theorem C60_spherical_direction_unit (st ct phi : ℝ) (h : st ^ 2 + ct ^ 2 = 1)
    (x y z : V3 ℝ) (hb : Orthonormal3 x y z) :
    length (sphericalDirection st ct phi) = 1 ∧
    length (sphericalDirectionBasis st ct phi x y z) = 1 := by
  have hp := Real.sin_sq_add_cos_sq phi
  constructor
  · have : sqLength (sphericalDirection st ct phi) = 1 := by
      simp only [sqLength, sphericalDirection]
      linear_combination h + st ^ 2 * hp
    simp [length, this]
  · obtain ⟨h1, h2, h3, h4, h5, h6⟩ := hb
    have hx : dot x x = 1 := by rw [← (C06_length_is_norm x 0).2.2.1, h1]; norm_num
    have hy : dot y y = 1 := by rw [← (C06_length_is_norm y 0).2.2.1, h2]; norm_num
    have hz : dot z z = 1 := by rw [← (C06_length_is_norm z 0).2.2.1, h3]; norm_num
    have : sqLength (sphericalDirectionBasis st ct phi x y z) = 1 := by
      simp only [dot] at *
      simp only [sqLength, sphericalDirectionBasis, add_x, add_y, add_z, smul_x, smul_y, smul_z]
      linear_combination (st * Real.cos phi) ^ 2 * hx + (st * Real.sin phi) ^ 2 * hy + ct ^ 2 * hz
        + 2 * (st * Real.cos phi) * (st * Real.sin phi) * h4 + 2 * (st * Real.cos phi) * ct * h5
        + 2 * (st * Real.sin phi) * ct * h6 + h + st ^ 2 * hp
    simp [length, this]

/-- **C60** `spherical_theta` is in `[0, π]` and recovers the angle: for a unit vector its cosine is
the z component. -/
theorem C60_spherical_theta (v : V3 ℝ) (hv : length v = 1) :
    0 ≤ sphericalTheta v ∧ sphericalTheta v ≤ Real.pi ∧ Real.cos (sphericalTheta v) = v.z := by
  have hsq : sqLength v = 1 := by
    have := Real.sq_sqrt (sqLength_nonneg v)
    rw [length] at hv; rw [hv] at this; linarith
  unfold sqLength at hsq
  have h1 : v.z ≤ 1 := by nlinarith [mul_self_nonneg v.x, mul_self_nonneg v.y]
  have h2 : -1 ≤ v.z := by nlinarith [mul_self_nonneg v.x, mul_self_nonneg v.y]
  refine ⟨Real.arccos_nonneg _, Real.arccos_le_pi _, ?_⟩
  rw [sphericalTheta, min_eq_left h1, max_eq_right h2, Real.cos_arccos h2 h1]

/-- **C60** `spherical_phi` is in `(0, 2π]` and recovers the azimuth of every vector not on the
z axis. -/
theorem C60_spherical_phi (v : V3 ℝ) :
    0 < sphericalPhi v ∧ sphericalPhi v ≤ 2 * Real.pi ∧
    √(v.x ^ 2 + v.y ^ 2) * Real.cos (sphericalPhi v) = v.x ∧
    √(v.x ^ 2 + v.y ^ 2) * Real.sin (sphericalPhi v) = v.y := by
  set w : ℂ := ⟨v.x, v.y⟩ with hw
  have h1 := Complex.neg_pi_lt_arg w
  have h2 := Complex.arg_le_pi w
  have hn : ‖w‖ = √(v.x ^ 2 + v.y ^ 2) := by
    rw [Complex.norm_def, Complex.normSq_apply]; congr 1; simp only [hw]; ring
  have hc : ‖w‖ * Real.cos (Complex.arg w) = v.x := Complex.norm_mul_cos_arg w
  have hs : ‖w‖ * Real.sin (Complex.arg w) = v.y := Complex.norm_mul_sin_arg w
  rw [hn] at hc hs
  have hpi := Real.pi_pos
  simp only [sphericalPhi, ← hw]
  split_ifs with h
  · exact ⟨h, by linarith, hc, hs⟩
  · refine ⟨by linarith, by linarith, ?_, ?_⟩
    · rw [Real.cos_add_two_pi]; exact hc
    · rw [Real.sin_add_two_pi]; exact hs

/-- **C60** the two angles of a direction built by `spherical_direction` recover it. -/
theorem C60_spherical_round_trip (v : V3 ℝ) (hv : length v = 1) :
    sphericalDirection (Real.sin (sphericalTheta v)) (Real.cos (sphericalTheta v))
      (sphericalPhi v) = v := by
  obtain ⟨t1, t2, t3⟩ := C60_spherical_theta v hv
  obtain ⟨p1, p2, p3, p4⟩ := C60_spherical_phi v
  have hsq : sqLength v = 1 := by
    have := Real.sq_sqrt (sqLength_nonneg v)
    rw [length] at hv; rw [hv] at this; linarith
  have hsin : Real.sin (sphericalTheta v) = √(v.x ^ 2 + v.y ^ 2) := by
    rw [Real.sin_eq_sqrt_one_sub_cos_sq t1 t2, t3]
    congr 1; unfold sqLength at hsq; linarith
  ext
  · simp only [sphericalDirection, hsin, p3]
  · simp only [sphericalDirection, hsin, p4]
  · simp only [sphericalDirection, t3]

example : (3/5 : ℝ) ^ 2 + (4/5) ^ 2 = 1 := by norm_num

end Verif.Geom
