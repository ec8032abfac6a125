import Verif.Xform.Quat
import Verif.Xform.Props

/-! # Quaternions: property C16 -/

namespace Verif.Xform.Quat
open Matrix

/-- unit quaternions -/
def IsUnit (q : Quat ℝ) : Prop := q.w ^ 2 + q.x ^ 2 + q.y ^ 2 + q.z ^ 2 = 1

/-- **C16** `to_transform` of a unit quaternion is a rotation: its inverse is its transpose, its
determinant is one and it preserves dot products; `q` and `-q` give the same transform. -/
theorem C16_to_transform_is_rotation (q : Quat ℝ) (h : IsUnit q) :
    q.toT.m * q.toT.mᵀ = 1 ∧ q.toT.mInv = q.toT.mᵀ ∧ det3 q.toT.m = 1 ∧
    (∀ v w : V3 ℝ, V3.dot (q.toT.vec v) (q.toT.vec w) = V3.dot v w) ∧
    q.neg.toT = q.toT := by
  have hi := (quat_hasInv q.w q.x q.y q.z h).1
  unfold IsUnit at h
  refine ⟨?_, ?_, ?_, ?_, ?_⟩
  · have : (toTransform q.w q.x q.y q.z).mInv = (toTransform q.w q.x q.y q.z).mᵀ := by
      simp [toTransform]
    rw [this] at hi; exact hi
  · simp [toT, toTransform]
  · simp [toT, toTransform, det3]
    obtain ⟨w, x, y, z⟩ := q
    simp only at h ⊢
    have hz : z ^ 2 = 1 - w ^ 2 - x ^ 2 - y ^ 2 := by linear_combination h
    linear_combination (4 * w ^ 2 + 4 * x ^ 2 + 4 * y ^ 2) * h
  · intro v u
    simp only [Transform.vec, toT, toTransform, V3.dot]
    simp
    obtain ⟨w, x, y, z⟩ := q
    obtain ⟨a, b, c⟩ := v
    obtain ⟨a', b', c'⟩ := u
    simp only at h ⊢
    linear_combination ((4*x^2 + 4*y^2)*a*a' + (4*w^2+4*y^2)*b*b' + (4*w^2+4*x^2)*c*c'
      - 4*w*x*(a*b'+b*a') - 4*w*y*(a*c'+c*a') - 4*x*y*(b*c'+c*b')) * h
  · simp [toT, toTransform, neg]

/-- what "recovers up to sign" means -/
def Recovered (q : Quat ℝ) : Prop := fromMatrix q.toT.m = q ∨ fromMatrix q.toT.m = q.neg

theorem trace_toT (q : Quat ℝ) (h : IsUnit q) : trace4 q.toT.m = 4 * q.z ^ 2 := by
  unfold IsUnit at h
  simp [trace4, toT, toTransform]; linear_combination (-4) * h

/-- **C16** (violation): whenever the rotation is not a half-turn the recovered quaternion is wrong:
the trace is taken over the 4×4 matrix, so the scalar part comes out as `sqrt(4 s² + 1) / 2`. -/
theorem C16_from_transform_wrong_false (q : Quat ℝ) (h : IsUnit q) (hz : q.z ≠ 0) :
    ¬ Recovered q := by
  have hpos : 0 < trace4 q.toT.m := by rw [trace_toT q h]; positivity
  have key : (fromMatrix q.toT.m).z ^ 2 = q.z ^ 2 + 1 / 4 := by
    unfold fromMatrix
    simp only [gt_iff_lt, hpos, if_true]
    rw [trace_toT q h, div_pow, Real.sq_sqrt (by positivity)]; ring
  rintro (e | e) <;> rw [e] at key
  · linarith
  · simp only [neg] at key; nlinarith

/-- for half-turns: the four products the code reads off the matrix -/
theorem halfturn_entries (q : Quat ℝ) (h : IsUnit q) (hz : q.z = 0) :
    q.toT.m 0 0 = 2 * q.w ^ 2 - 1 ∧ q.toT.m 1 1 = 2 * q.x ^ 2 - 1 ∧ q.toT.m 2 2 = 2 * q.y ^ 2 - 1 ∧
    q.toT.m 0 1 = 2 * q.w * q.x ∧ q.toT.m 1 0 = 2 * q.w * q.x ∧
    q.toT.m 0 2 = 2 * q.w * q.y ∧ q.toT.m 2 0 = 2 * q.w * q.y ∧
    q.toT.m 1 2 = 2 * q.x * q.y ∧ q.toT.m 2 1 = 2 * q.x * q.y := by
  unfold IsUnit at h
  rw [hz] at h
  refine ⟨?_, ?_, ?_, ?_, ?_, ?_, ?_, ?_, ?_⟩ <;> simp [toT, toTransform, hz] <;>
    first | linear_combination (-2) * h | ring

theorem pickAxis_eq (m : M4 ℝ) : pickAxis m =
    if m 1 1 > m 0 0 then (if m 2 2 < m 1 1 then 2 else 1) else (if m 2 2 < m 0 0 then 2 else 0) := by
  unfold pickAxis
  by_cases h : m 1 1 > m 0 0
  · simp [h]
  · simp [h]

theorem sgn_cases (a : ℝ) (ha : a ≠ 0) (n : ℝ) (hn : n = Real.sqrt (4 * a ^ 2)) :
    n ≠ 0 ∧ ((n = 2 * a) ∨ (n = -2 * a)) := by
  have : n = 2 * |a| := by
    rw [hn, show 4 * a ^ 2 = (2 * a) ^ 2 by ring, Real.sqrt_sq_eq_abs, abs_mul]; norm_num
  rcases le_or_gt 0 a with h | h
  · rw [abs_of_nonneg h] at this; exact ⟨by rw [this]; positivity, Or.inl this⟩
  · rw [abs_of_neg h] at this
    exact ⟨by rw [this]; simpa using ha, Or.inr (by linarith)⟩

/-- **C16** (what does hold): exactly the half-turns whose axis has a non-zero third component and a
non-zero first or second component are recovered up to sign; everything else is wrong (for the
remaining half-turns the wrong comparison `m[2,2] < m[i,i]` picks a zero component). -/
theorem C16_from_transform_partial (q : Quat ℝ) (h : IsUnit q) :
    Recovered q ↔ q.z = 0 ∧ q.y ≠ 0 ∧ (q.w ≠ 0 ∨ q.x ≠ 0) := by
  constructor
  · intro hr
    by_cases hz : q.z = 0
    swap
    · exact absurd hr (C16_from_transform_wrong_false q h hz)
    refine ⟨hz, ?_⟩
    by_contra hcon
    have htr : ¬ (trace4 q.toT.m > 0) := by rw [trace_toT q h, hz]; norm_num
    obtain ⟨e00, e11, e22, e01, e10, e02, e20, e12, e21⟩ := halfturn_entries q h hz
    have hzero : fromMatrix q.toT.m = ⟨0, 0, 0, 0⟩ := by
      unfold fromMatrix
      simp only [htr, if_false]
      unfold IsUnit at h
      by_cases hy : q.y = 0
      · -- third component zero, and the code picks it
        have hp : pickAxis q.toT.m = 2 := by
          rw [pickAxis_eq, e00, e11, e22]
          split_ifs with c1 c2 c2
          · rfl
          · exfalso; apply c2
            rw [hy]; rw [hy, hz] at h; nlinarith [sq_nonneg q.w, sq_nonneg q.x]
          · rfl
          · exfalso; apply c2
            rw [hy]; rw [hy, hz] at h; nlinarith [sq_nonneg q.w, sq_nonneg q.x]
        rw [hp]
        have hs : Real.sqrt (q.toT.m (Fin.castSucc 2) (Fin.castSucc 2) -
            (q.toT.m (Fin.castSucc (nxt 2)) (Fin.castSucc (nxt 2)) +
             q.toT.m (Fin.castSucc (nxt (nxt 2))) (Fin.castSucc (nxt (nxt 2)))) + 1) = 0 := by
          rw [Real.sqrt_eq_zero']
          have : (q.toT.m 2 2 - (q.toT.m 0 0 + q.toT.m 1 1) + 1) ≤ 0 := by
            rw [e00, e11, e22, hy]; rw [hy, hz] at h; nlinarith
          simpa [nxt] using this
        rw [hs]; simp
      · have hw : q.w = 0 := by by_contra hw; exact hcon ⟨hy, Or.inl hw⟩
        have hx : q.x = 0 := by by_contra hx; exact hcon ⟨hy, Or.inr hx⟩
        have hp : pickAxis q.toT.m = 0 := by
          rw [pickAxis_eq, e00, e11, e22, hw, hx]
          simp
          positivity
        rw [hp]
        have hs : Real.sqrt (q.toT.m (Fin.castSucc 0) (Fin.castSucc 0) -
            (q.toT.m (Fin.castSucc (nxt 0)) (Fin.castSucc (nxt 0)) +
             q.toT.m (Fin.castSucc (nxt (nxt 0))) (Fin.castSucc (nxt (nxt 0)))) + 1) = 0 := by
          rw [Real.sqrt_eq_zero']
          have : (q.toT.m 0 0 - (q.toT.m 1 1 + q.toT.m 2 2) + 1) ≤ 0 := by
            rw [e00, e11, e22, hw, hx]; rw [hw, hx, hz] at h; nlinarith
          simpa [nxt] using this
        rw [hs]; simp
    have hne : q ≠ ⟨0, 0, 0, 0⟩ := by
      intro e; unfold IsUnit at h; rw [e] at h; norm_num at h
    unfold Recovered at hr
    rw [hzero] at hr
    rcases hr with e | e
    · exact hne e.symm
    · apply hne
      simp only [neg, Quat.mk.injEq] at e
      ext <;> simp <;> linarith [e.1, e.2.1, e.2.2.1, e.2.2.2]
  · rintro ⟨hz, hy, hwx⟩
    have htr : ¬ (trace4 q.toT.m > 0) := by rw [trace_toT q h, hz]; norm_num
    obtain ⟨e00, e11, e22, e01, e10, e02, e20, e12, e21⟩ := halfturn_entries q h hz
    have hu := h
    unfold IsUnit at hu
    -- the picked component is non-zero
    have hpick : (pickAxis q.toT.m = 0 ∧ q.w ≠ 0) ∨ (pickAxis q.toT.m = 1 ∧ q.x ≠ 0) ∨
        (pickAxis q.toT.m = 2) := by
      rw [pickAxis_eq, e00, e11, e22]
      split_ifs with c1 c2 c2
      · simp
      · right; left; refine ⟨rfl, ?_⟩
        intro hx; rw [hx] at c1; nlinarith [sq_nonneg q.w]
      · simp
      · left; refine ⟨rfl, ?_⟩
        intro hw
        rw [hw] at c1
        have : q.x = 0 := by
          by_contra hx; apply c1
          have : 0 < q.x ^ 2 := by positivity
          nlinarith
        rcases hwx with h1 | h1 <;> contradiction
    unfold Recovered fromMatrix
    simp only [htr, if_false]
    rcases hpick with ⟨hp, hne⟩ | ⟨hp, hne⟩ | hp
    · rw [hp]
      obtain ⟨n0, hn⟩ := sgn_cases q.w hne _ rfl
      have hs : q.toT.m (Fin.castSucc 0) (Fin.castSucc 0) -
            (q.toT.m (Fin.castSucc (nxt 0)) (Fin.castSucc (nxt 0)) +
             q.toT.m (Fin.castSucc (nxt (nxt 0))) (Fin.castSucc (nxt (nxt 0)))) + 1 = 4 * q.w ^ 2 := by
        simp [nxt]; rw [e00, e11, e22]; rw [hz] at hu; linear_combination (-2) * hu
      rw [hs]
      generalize Real.sqrt (4 * q.w ^ 2) = n at *
      have h10 : q.toT.m (Fin.castSucc (nxt 0)) (Fin.castSucc 0) = 2 * q.w * q.x := by simpa [nxt] using e10
      simp [n0, nxt, e01, e10, e02, e20, e12, e21]
      rcases hn with hn | hn
      · left; rw [hn]; ext <;> simp [hz] <;> field_simp <;> ring
      · right; rw [hn]; ext <;> simp [hz, neg] <;> field_simp <;> ring
    · rw [hp]
      obtain ⟨n0, hn⟩ := sgn_cases q.x hne _ rfl
      have hs : q.toT.m (Fin.castSucc 1) (Fin.castSucc 1) -
            (q.toT.m (Fin.castSucc (nxt 1)) (Fin.castSucc (nxt 1)) +
             q.toT.m (Fin.castSucc (nxt (nxt 1))) (Fin.castSucc (nxt (nxt 1)))) + 1 = 4 * q.x ^ 2 := by
        simp [nxt]; rw [e00, e11, e22]; rw [hz] at hu; linear_combination (-2) * hu
      rw [hs]
      generalize Real.sqrt (4 * q.x ^ 2) = n at *
      simp [n0, nxt, e01, e10, e02, e20, e12, e21]
      rcases hn with hn | hn
      · left; rw [hn]; ext <;> simp [hz] <;> field_simp <;> ring
      · right; rw [hn]; ext <;> simp [hz, neg] <;> field_simp <;> ring
    · rw [hp]
      obtain ⟨n0, hn⟩ := sgn_cases q.y hy _ rfl
      have hs : q.toT.m (Fin.castSucc 2) (Fin.castSucc 2) -
            (q.toT.m (Fin.castSucc (nxt 2)) (Fin.castSucc (nxt 2)) +
             q.toT.m (Fin.castSucc (nxt (nxt 2))) (Fin.castSucc (nxt (nxt 2)))) + 1 = 4 * q.y ^ 2 := by
        simp [nxt]; rw [e00, e11, e22]; rw [hz] at hu; linear_combination (-2) * hu
      rw [hs]
      generalize Real.sqrt (4 * q.y ^ 2) = n at *
      simp [n0, nxt, e01, e10, e02, e20, e12, e21]
      rcases hn with hn | hn
      · left; rw [hn]; ext <;> simp [hz] <;> field_simp <;> ring
      · right; rw [hn]; ext <;> simp [hz, neg] <;> field_simp <;> ring

/-- non-vacuity: both sides of the equivalence are inhabited -/
example : IsUnit ⟨3/5, 0, 4/5, 0⟩ ∧ Recovered ⟨3/5, 0, 4/5, 0⟩ ∧ IsUnit ⟨0, 0, 0, 1⟩ ∧
    ¬ Recovered ⟨0, 0, 0, 1⟩ := by
  have h1 : IsUnit ⟨3/5, 0, 4/5, 0⟩ := by norm_num [IsUnit]
  have h2 : IsUnit ⟨0, 0, 0, 1⟩ := by norm_num [IsUnit]
  refine ⟨h1, (C16_from_transform_partial _ h1).2 (by norm_num), h2, ?_⟩
  rw [C16_from_transform_partial _ h2]; norm_num

/-! ### slerp -/

theorem dot_self_of_unit {q : Quat ℝ} (h : IsUnit q) : dot q q = 1 := by
  unfold IsUnit at h; simp only [dot]; linear_combination h

theorem cauchy {a b : Quat ℝ} (ha : dot a a = 1) (hb : dot b b = 1) : dot a b ^ 2 ≤ 1 := by
  have h1 : 0 ≤ dot (add a b) (add a b) := by simp only [dot, add]; nlinarith [sq_nonneg (a.w+b.w), sq_nonneg (a.x+b.x), sq_nonneg (a.y+b.y), sq_nonneg (a.z+b.z)]
  have h2 : 0 ≤ dot (add a (neg b)) (add a (neg b)) := by
    simp only [dot, add, neg]; nlinarith [sq_nonneg (a.w-b.w), sq_nonneg (a.x-b.x), sq_nonneg (a.y-b.y), sq_nonneg (a.z-b.z)]
  have e1 : dot (add a b) (add a b) = 2 + 2 * dot a b := by
    simp only [dot, add] at *; linear_combination ha + hb
  have e2 : dot (add a (neg b)) (add a (neg b)) = 2 - 2 * dot a b := by
    simp only [dot, add, neg] at *; linear_combination ha + hb
  nlinarith

theorem normalized_unit {a : Quat ℝ} (h : 0 < dot a a) : dot (normalized a) (normalized a) = 1 := by
  have hs := Real.sq_sqrt h.le
  have hp := Real.sqrt_pos.2 h
  have : dot (normalized a) (normalized a) = (1 / Real.sqrt (dot a a)) ^ 2 * dot a a := by
    simp only [normalized, smul, dot]; ring
  rw [this]
  nth_rewrite 2 [← hs]
  field_simp

theorem normalized_of_unit {a : Quat ℝ} (h : dot a a = 1) : normalized a = a := by
  simp [normalized, h, smul]

theorem slerp_facts {q1 q2 : Quat ℝ} (h1 : dot q1 q1 = 1) (h2 : dot q2 q2 = 1)
    (hne : q2 ≠ q1.neg) (hc : ¬ dot q1 q2 > 1 - EPS) :
    dot (add q2 (neg (smul (dot q1 q2) q1))) (add q2 (neg (smul (dot q1 q2) q1))) = 1 - dot q1 q2 ^ 2 ∧
    0 < 1 - dot q1 q2 ^ 2 ∧ dot q1 (add q2 (neg (smul (dot q1 q2) q1))) = 0 := by
  have hE : (0:ℝ) < EPS := by norm_num [EPS]
  have hE1 : (EPS:ℝ) < 1 := by norm_num [EPS]
  refine ⟨?_, ?_, ?_⟩
  · simp only [dot, add, neg, smul] at *
    linear_combination h2 + (q1.w * q2.w + q1.x * q2.x + q1.y * q2.y + q1.z * q2.z) ^ 2 * h1
  · have hcs := cauchy h1 h2
    have hlt : dot q1 q2 < 1 := by linarith [not_lt.1 hc]
    rcases lt_or_eq_of_le (show 0 ≤ 1 - dot q1 q2 ^ 2 by linarith) with h | h
    · exact h
    exfalso
    have hm : dot q1 q2 = -1 := by
      have : (dot q1 q2 - 1) * (dot q1 q2 + 1) = 0 := by linear_combination h
      rcases mul_eq_zero.1 this with h' | h' <;> linarith
    apply hne
    have e : (q2.w + q1.w) ^ 2 + (q2.x + q1.x) ^ 2 + (q2.y + q1.y) ^ 2 + (q2.z + q1.z) ^ 2 = 0 := by
      simp only [dot] at *; linear_combination h1 + h2 + 2 * hm
    have a1 := sq_nonneg (q2.w + q1.w); have a2 := sq_nonneg (q2.x + q1.x)
    have a3 := sq_nonneg (q2.y + q1.y); have a4 := sq_nonneg (q2.z + q1.z)
    ext <;> simp only [neg]
    · have := pow_eq_zero_iff (two_ne_zero) |>.1 (show (q2.w + q1.w) ^ 2 = 0 by linarith); linarith
    · have := pow_eq_zero_iff (two_ne_zero) |>.1 (show (q2.x + q1.x) ^ 2 = 0 by linarith); linarith
    · have := pow_eq_zero_iff (two_ne_zero) |>.1 (show (q2.y + q1.y) ^ 2 = 0 by linarith); linarith
    · have := pow_eq_zero_iff (two_ne_zero) |>.1 (show (q2.z + q1.z) ^ 2 = 0 by linarith); linarith
  · simp only [dot, add, neg, smul] at *
    linear_combination (-(q1.w * q2.w + q1.x * q2.x + q1.y * q2.y + q1.z * q2.z)) * h1

/-- **C16** `slerp` between two unit quaternions that are not opposite: the end points are hit
exactly and every intermediate value is a unit quaternion.  (For opposite quaternions the code
normalises the zero quaternion.) -/
theorem C16_slerp (q1 q2 : Quat ℝ) (h1 : IsUnit q1) (h2 : IsUnit q2) (hne : q2 ≠ q1.neg) :
    slerp 0 q1 q2 = q1 ∧ slerp 1 q1 q2 = q2 ∧
    ∀ t : ℝ, 0 ≤ t → t ≤ 1 → IsUnit (slerp t q1 q2) := by
  replace h1 := dot_self_of_unit h1
  replace h2 := dot_self_of_unit h2
  have hE : (0:ℝ) < EPS := by norm_num [EPS]
  have hE1 : (EPS:ℝ) < 1 := by norm_num [EPS]
  by_cases hc : dot q1 q2 > 1 - EPS
  · refine ⟨?_, ?_, ?_⟩
    · have : add (smul (1 - 0) q1) (smul 0 q2) = q1 := by ext <;> simp [add, smul]
      simp only [slerp, hc, if_true, this, normalized_of_unit h1]
    · have : add (smul (1 - 1) q1) (smul 1 q2) = q2 := by ext <;> simp [add, smul]
      simp only [slerp, hc, if_true, this, normalized_of_unit h2]
    · intro t t0 t1
      simp only [slerp, hc, if_true]
      have e : dot (add (smul (1 - t) q1) (smul t q2)) (add (smul (1 - t) q1) (smul t q2)) =
          (1 - t) ^ 2 + t ^ 2 + 2 * (t * (1 - t)) * dot q1 q2 := by
        simp only [dot, add, smul] at *; linear_combination (1 - t) ^ 2 * h1 + t ^ 2 * h2
      have := normalized_unit (a := add (smul (1 - t) q1) (smul t q2)) (by
        rw [e]
        have : 0 ≤ t * (1 - t) * dot q1 q2 := mul_nonneg (mul_nonneg t0 (by linarith)) (by linarith)
        nlinarith [sq_nonneg (2 * t - 1)])
      simp only [dot] at this; unfold IsUnit; linear_combination this
  · obtain ⟨hn, hpos, horth⟩ := slerp_facts h1 h2 hne hc
    have hcs := abs_le.1 (abs_le_one_iff_mul_self_le_one.2 (by nlinarith : dot q1 q2 * dot q1 q2 ≤ 1))
    have hclip : max (-1) (min 1 (dot q1 q2)) = dot q1 q2 := by
      rw [min_eq_right hcs.2, max_eq_right hcs.1]
    refine ⟨?_, ?_, ?_⟩
    · simp only [slerp, hc, if_false]
      ext <;> simp [add, smul]
    · simp only [slerp, hc, if_false, hclip, mul_one, Real.cos_arccos hcs.1 hcs.2, Real.sin_arccos]
      simp only [normalized, hn]
      have hs := (Real.sqrt_pos.2 hpos).ne'
      ext <;> simp only [add, smul, neg] <;> field_simp <;> ring
    · intro t _ _
      simp only [slerp, hc, if_false, hclip]
      generalize Real.arccos (dot q1 q2) * t = a
      have hu := normalized_unit (a := add q2 (neg (smul (dot q1 q2) q1))) (by rw [hn]; exact hpos)
      have ho : dot q1 (normalized (add q2 (neg (smul (dot q1 q2) q1)))) = 0 := by
        have : dot q1 (normalized (add q2 (neg (smul (dot q1 q2) q1)))) =
          (1 / Real.sqrt (dot (add q2 (neg (smul (dot q1 q2) q1))) (add q2 (neg (smul (dot q1 q2) q1))))) *
            dot q1 (add q2 (neg (smul (dot q1 q2) q1))) := by
          simp only [normalized, smul, dot]; ring
        rw [this, horth, mul_zero]
      generalize normalized (add q2 (neg (smul (dot q1 q2) q1))) = p at *
      have := Real.sin_sq_add_cos_sq a
      simp only [IsUnit, add, smul, dot] at *
      linear_combination (Real.cos a) ^ 2 * h1 + (Real.sin a) ^ 2 * hu + 2 * Real.cos a * Real.sin a * ho + this

/-- non-vacuity: two perpendicular unit quaternions (the arc branch) -/
example : IsUnit ⟨1, 0, 0, 0⟩ ∧ IsUnit ⟨0, 0, 3/5, 4/5⟩ ∧
    (⟨0, 0, 3/5, 4/5⟩ : Quat ℝ) ≠ neg ⟨1, 0, 0, 0⟩ := by
  refine ⟨by norm_num [IsUnit], by norm_num [IsUnit], ?_⟩
  intro h; have := congrArg Quat.w h; norm_num [neg] at this

end Verif.Xform.Quat
