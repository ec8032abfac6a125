import Verif.Xform.QuatProps
import Verif.Reflection.DiffuseRounded

/-!
# Quaternions in rounded arithmetic (C203)

`dot`, `to_transform` and `slerp` (`pytracer/transform/quat.py` 21-33 and 108-116) with every operation rounded to binary64.  The exact models are in `Verif.Xform.Model` and `Verif.Xform.Quat`.
The operations of the third-party `quaternion` package are componentwise; its `normalized` divides by the root of the sum of the squares.  Whether its C code was compiled to fused operations is not modelled.
-/

namespace Verif.QuatR
open Verif.Rnd Verif.MCR Verif.Xform Matrix
open Verif.DiffR (EPSR epsR)

/-! ### Model -/

/-- `dot`, transform/quat.py 21-22 -/
noncomputable def dotR (a b : Quat ℝ) : ℝ := double (double (double (double (a.w * b.w) + double (a.x * b.x)) + double (a.y * b.y)) + double (a.z * b.z))

/-- scalar multiple, from the `quaternion` package -/
noncomputable def smulR (s : ℝ) (a : Quat ℝ) : Quat ℝ := ⟨double (s * a.w), double (s * a.x), double (s * a.y), double (s * a.z)⟩

/-- sum, from the `quaternion` package -/
noncomputable def addR (a b : Quat ℝ) : Quat ℝ := ⟨double (a.w + b.w), double (a.x + b.x), double (a.y + b.y), double (a.z + b.z)⟩

/-- difference, from the `quaternion` package -/
noncomputable def subR (a b : Quat ℝ) : Quat ℝ := ⟨double (a.w - b.w), double (a.x - b.x), double (a.y - b.y), double (a.z - b.z)⟩

/-- `normalized`, from the `quaternion` package -/
noncomputable def normalizedR (a : Quat ℝ) : Quat ℝ :=
  let n := double (√(dotR a a))
  ⟨double (a.w / n), double (a.x / n), double (a.y / n), double (a.z / n)⟩

/-- `1. - 2. * (a * a + b * b)`, transform/quat.py 27-29 -/
noncomputable def diagR (a b : ℝ) : ℝ := double (1 - double (2 * double (double (a * a) + double (b * b))))
/-- `2. * (a * b + c * d)`, transform/quat.py 27-29 -/
noncomputable def plusR (a b c d : ℝ) : ℝ := double (2 * double (double (a * b) + double (c * d)))
/-- `2. * (a * b - c * d)`, transform/quat.py 27-29 -/
noncomputable def minusR (a b c d : ℝ) : ℝ := double (2 * double (double (a * b) - double (c * d)))

/-- `to_transform`, transform/quat.py 25-33 -/
noncomputable def toTR (q : Quat ℝ) : Transform ℝ :=
  let x := q.w; let y := q.x; let z := q.y; let w := q.z
  let m : M4 ℝ :=
    !![diagR y z, plusR x y z w, minusR x z y w, 0;
       minusR x y z w, diagR x z, plusR y z x w, 0;
       plusR x z y w, minusR y z x w, diagR x y, 0;
       0, 0, 0, 1]
  ⟨mᵀ, m⟩

open Classical in
/-- `slerp`, transform/quat.py 108-116 -/
noncomputable def slerpR (cosR sinR acosR : ℝ → ℝ) (t : ℝ) (q1 q2 : Quat ℝ) : Quat ℝ :=
  let c := dotR q1 q2
  if c > double (1 - EPSR) then normalizedR (addR (smulR (double (1 - t)) q1) (smulR t q2))
  else
    let theta := acosR (max (-1) (min 1 c))
    let thetap := double (theta * t)
    let qperp := normalizedR (subR q2 (smulR c q1))
    addR (smulR (cosR thetap) q1) (smulR (sinR thetap) qperp)

/-! ### Specification -/

/-- the squared length is 1 up to `η` -/
def Unit4 (η : ℝ) (q : Quat ℝ) : Prop := |q.w ^ 2 + q.x ^ 2 + q.y ^ 2 + q.z ^ 2 - 1| ≤ η

/-- all components within `ε` -/
def Close (ε : ℝ) (a b : Quat ℝ) : Prop := |a.w - b.w| ≤ ε ∧ |a.x - b.x| ≤ ε ∧ |a.y - b.y| ≤ ε ∧ |a.z - b.z| ≤ ε

/-- the part of `b` orthogonal to `a` -/
noncomputable def perp (a b : Quat ℝ) : Quat ℝ := ⟨b.w - a.dot b * a.w, b.x - a.dot b * a.x, b.y - a.dot b * a.y, b.z - a.dot b * a.z⟩

/-- the point at the fraction `t` of the segment -/
noncomputable def mix (t : ℝ) (a b : Quat ℝ) : Quat ℝ := ⟨(1 - t) * a.w + t * b.w, (1 - t) * a.x + t * b.x, (1 - t) * a.y + t * b.y, (1 - t) * a.z + t * b.z⟩

/-- the point at the angle `φ` of the great circle from `a` towards `p` -/
noncomputable def arc (φ : ℝ) (a p : Quat ℝ) : Quat ℝ :=
  ⟨Real.cos φ * a.w + Real.sin φ * p.w, Real.cos φ * a.x + Real.sin φ * p.x, Real.cos φ * a.y + Real.sin φ * p.y, Real.cos φ * a.z + Real.sin φ * p.z⟩

/-! ### Errors -/

theorem n8 {x b : ℝ} (h : |x| ≤ b) (hb : b ≤ 15 / 2) : |double x - x| ≤ 4 * 2 ^ (-52 : ℤ) := by
  have := near8 (h.trans hb)
  norm_num at *
  linarith

theorem comp_le {a b c d : ℝ} {η : ℝ} (h : |a ^ 2 + b ^ 2 + c ^ 2 + d ^ 2 - 1| ≤ η) (hη : η ≤ 1 / 4) : |a| ≤ 5 / 4 := by
  have := (abs_le.1 h).2
  exact abs_le_of_sq_le_sq (by nlinarith [sq_nonneg b, sq_nonneg c, sq_nonneg d]) (by norm_num)

/-- all components are at most `b` -/
def Le (b : ℝ) (q : Quat ℝ) : Prop := |q.w| ≤ b ∧ |q.x| ≤ b ∧ |q.y| ≤ b ∧ |q.z| ≤ b

theorem Unit4.le {q : Quat ℝ} {η : ℝ} (h : Unit4 η q) (hη : η ≤ 1 / 4) : Le (5 / 4) q := by
  unfold Unit4 at h
  refine ⟨comp_le h hη, comp_le (b := q.w) (c := q.y) (d := q.z) (by convert h using 2; ring) hη, comp_le (b := q.w) (c := q.x) (d := q.z) (by convert h using 2; ring) hη,
    comp_le (b := q.w) (c := q.x) (d := q.y) (by convert h using 2; ring) hη⟩

theorem prod_le {a b : ℝ} (ha : |a| ≤ 5 / 4) (hb : |b| ≤ 5 / 4) : |a * b| ≤ 25 / 16 := by
  rw [abs_mul]
  have := mul_le_mul ha hb (abs_nonneg _) (by norm_num)
  linarith

theorem dot_close {a b : Quat ℝ} (ha : Le (5 / 4) a) (hb : Le (5 / 4) b) : |dotR a b - a.dot b| ≤ 28 * 2 ^ (-52 : ℤ) := by
  obtain ⟨a1, a2, a3, a4⟩ := ha
  obtain ⟨b1, b2, b3, b4⟩ := hb
  unfold dotR Quat.dot
  have p1 := prod_le a1 b1; have p2 := prod_le a2 b2; have p3 := prod_le a3 b3; have p4 := prod_le a4 b4
  clear a1 a2 a3 a4 b1 b2 b3 b4
  generalize a.w * b.w = P1 at *; generalize a.x * b.x = P2 at *; generalize a.y * b.y = P3 at *; generalize a.z * b.z = P4 at *
  have n1 := n8 p1 (by norm_num); have n2 := n8 p2 (by norm_num); have n3 := n8 p3 (by norm_num); have n4 := n8 p4 (by norm_num)
  generalize double P1 = Q1 at *; generalize double P2 = Q2 at *; generalize double P3 = Q3 at *; generalize double P4 = Q4 at *
  have m1 := n8 (x := Q1 + Q2) (b := 15 / 2) (by rw [abs_le] at *; norm_num at *; constructor <;> linarith) le_rfl
  generalize double (Q1 + Q2) = S1 at *
  have m2 := n8 (x := S1 + Q3) (b := 15 / 2) (by rw [abs_le] at *; norm_num at *; constructor <;> linarith) le_rfl
  generalize double (S1 + Q3) = S2 at *
  have m3 := n8 (x := S2 + Q4) (b := 15 / 2) (by rw [abs_le] at *; norm_num at *; constructor <;> linarith) le_rfl
  generalize double (S2 + Q4) = S3 at *
  rw [abs_le] at *
  norm_num at *
  constructor <;> linarith

/-! #### `to_transform` -/

theorem sum_close {P Q : ℝ} (hP : |P| ≤ 25 / 16) (hQ : |Q| ≤ 25 / 16) : |double (double P + double Q) - (P + Q)| ≤ 12 * 2 ^ (-52 : ℤ) ∧ |double (double P - double Q) - (P - Q)| ≤ 12 * 2 ^ (-52 : ℤ) := by
  have n1 := n8 hP (by norm_num); have n2 := n8 hQ (by norm_num)
  generalize double P = P' at *; generalize double Q = Q' at *
  have m1 := n8 (x := P' + Q') (b := 15 / 2) (by rw [abs_le] at *; norm_num at *; constructor <;> linarith) le_rfl
  have m2 := n8 (x := P' - Q') (b := 15 / 2) (by rw [abs_le] at *; norm_num at *; constructor <;> linarith) le_rfl
  generalize double (P' + Q') = S1 at *
  generalize double (P' - Q') = S2 at *
  refine ⟨?_, ?_⟩ <;> (rw [abs_le] at *; norm_num at *; constructor <;> linarith)

theorem twice_close {S s : ℝ} (h : |S - s| ≤ 12 * 2 ^ (-52 : ℤ)) (hs : |s| ≤ 25 / 8) : |double (2 * S) - 2 * s| ≤ 28 * 2 ^ (-52 : ℤ) := by
  have m := n8 (x := 2 * S) (b := 15 / 2) (by rw [abs_le] at *; norm_num at *; constructor <;> linarith) le_rfl
  generalize double (2 * S) = D at *
  rw [abs_le] at *
  norm_num at *
  constructor <;> linarith

theorem plus_close {a b c d : ℝ} (ha : |a| ≤ 5 / 4) (hb : |b| ≤ 5 / 4) (hc : |c| ≤ 5 / 4) (hd : |d| ≤ 5 / 4) : |plusR a b c d - 2 * (a * b + c * d)| ≤ 32 * 2 ^ (-52 : ℤ) := by
  have p1 := prod_le ha hb; have p2 := prod_le hc hd
  have := twice_close (sum_close p1 p2).1 ((abs_add_le _ _).trans (by linarith))
  unfold plusR
  norm_num at *; linarith

theorem minus_close {a b c d : ℝ} (ha : |a| ≤ 5 / 4) (hb : |b| ≤ 5 / 4) (hc : |c| ≤ 5 / 4) (hd : |d| ≤ 5 / 4) : |minusR a b c d - 2 * (a * b - c * d)| ≤ 32 * 2 ^ (-52 : ℤ) := by
  have p1 := prod_le ha hb; have p2 := prod_le hc hd
  have := twice_close (sum_close p1 p2).2 ((abs_sub _ _).trans (by linarith))
  unfold minusR
  norm_num at *; linarith

theorem diag_close {a b : ℝ} (ha : |a| ≤ 5 / 4) (hb : |b| ≤ 5 / 4) : |diagR a b - (1 - 2 * (a * a + b * b))| ≤ 32 * 2 ^ (-52 : ℤ) := by
  have p1 := prod_le ha ha; have p2 := prod_le hb hb
  have s : |a * a + b * b| ≤ 25 / 8 := (abs_add_le _ _).trans (by linarith)
  have k := twice_close (sum_close p1 p2).1 s
  have s0 : 0 ≤ a * a + b * b := by nlinarith [mul_self_nonneg a, mul_self_nonneg b]
  unfold diagR
  generalize double (2 * double (double (a * a) + double (b * b))) = D at *
  generalize a * a + b * b = S at *
  have m := n8 (x := 1 - D) (b := 15 / 2) (by rw [abs_le] at *; norm_num at *; constructor <;> linarith) le_rfl
  generalize double (1 - D) = E at *
  rw [abs_le] at *
  norm_num at *
  constructor <;> linarith

theorem entries {q : Quat ℝ} (h : Le (5 / 4) q) (i j : Fin 4) : |(toTR q).m i j - q.toT.m i j| ≤ 32 * 2 ^ (-52 : ℤ) := by
  obtain ⟨a1, a2, a3, a4⟩ := h
  have d1 := diag_close a2 a3; have d2 := diag_close a1 a3; have d3 := diag_close a1 a2
  have p1 := plus_close a1 a2 a3 a4; have p2 := plus_close a2 a3 a1 a4; have p3 := plus_close a1 a3 a2 a4
  have m1 := minus_close a1 a3 a2 a4; have m2 := minus_close a1 a2 a3 a4; have m3 := minus_close a2 a3 a1 a4
  have e0 : (0 : ℝ) ≤ 32 * 2 ^ (-52 : ℤ) := by positivity
  clear a1 a2 a3 a4
  generalize (32 : ℝ) * 2 ^ (-52 : ℤ) = e at *
  fin_cases i <;> fin_cases j <;> simp [toTR, Quat.toT, toTransform] <;> with_reducible assumption

theorem ortho' (q : Quat ℝ) (i j : Fin 4) : (q.toT.m * q.toT.mᵀ) i j - (1 : M4 ℝ) i j = (1 - (q.w ^ 2 + q.x ^ 2 + q.y ^ 2 + q.z ^ 2)) * ((q.toT.m - 1) i j + (q.toT.m - 1) j i) := by
  fin_cases i <;> fin_cases j <;> simp [Quat.toT, toTransform, Matrix.mul_apply, Fin.sum_univ_four] <;> ring

theorem sym_le {q : Quat ℝ} (h : q.w ^ 2 + q.x ^ 2 + q.y ^ 2 + q.z ^ 2 ≤ 5 / 4) (i j : Fin 4) : |(q.toT.m - 1) i j + (q.toT.m - 1) j i| ≤ 5 := by
  obtain ⟨a, b, c, d⟩ := q
  simp only at h
  have k : ∀ u v : ℝ, |2 * (u * v)| ≤ u ^ 2 + v ^ 2 := fun u v => abs_le.2 ⟨by nlinarith [sq_nonneg (u + v)], by nlinarith [sq_nonneg (u - v)]⟩
  have k1 := abs_le.1 (k a b); have k2 := abs_le.1 (k a c); have k3 := abs_le.1 (k b c)
  have := sq_nonneg a; have := sq_nonneg b; have := sq_nonneg c; have := sq_nonneg d
  clear k
  fin_cases i <;> fin_cases j <;> simp [Quat.toT, toTransform] <;> rw [abs_le] <;> constructor <;> nlinarith

/-- the matrix of a quaternion of length near 1 is nearly orthogonal -/
theorem ortho {q : Quat ℝ} {η : ℝ} (h : Unit4 η q) (hη : η ≤ 1 / 4) (i j : Fin 4) : |(q.toT.m * q.toT.mᵀ) i j - (1 : M4 ℝ) i j| ≤ 5 * η := by
  unfold Unit4 at h
  rw [ortho', abs_mul, abs_sub_comm, mul_comm 5 η]
  exact mul_le_mul h (sym_le (by linarith [(abs_le.1 h).2]) i j) (abs_nonneg _) ((abs_nonneg _).trans h)

theorem entry_le {q : Quat ℝ} (h : Le (5 / 4) q) (i j : Fin 4) : |q.toT.m i j| ≤ 8 := by
  obtain ⟨a1, a2, a3, a4⟩ := h
  have p1 := abs_le.1 (prod_le a1 a1); have p2 := abs_le.1 (prod_le a2 a2); have p3 := abs_le.1 (prod_le a3 a3)
  have p4 := abs_le.1 (prod_le a1 a2); have p5 := abs_le.1 (prod_le a1 a3); have p6 := abs_le.1 (prod_le a2 a3)
  have p7 := abs_le.1 (prod_le a1 a4); have p8 := abs_le.1 (prod_le a2 a4); have p9 := abs_le.1 (prod_le a3 a4)
  clear a1 a2 a3 a4
  fin_cases i <;> fin_cases j <;> simp [Quat.toT, toTransform] <;>
    first
    | (rw [abs_le]; constructor <;> linarith)
    | exact le_trans (mul_le_mul_of_nonneg_left (show _ ≤ (4 : ℝ) from abs_le.2 ⟨by linarith, by linarith⟩) (by norm_num)) (by norm_num)

theorem mul_close {a b A B e : ℝ} (e0 : 0 ≤ e) (e1 : e ≤ 1) (hA : |A| ≤ 8) (hB : |B| ≤ 8) (h1 : |a - A| ≤ e) (h2 : |b - B| ≤ e) : |a * b - A * B| ≤ 17 * e := by
  rw [show a * b - A * B = (a - A) * (b - B) + ((a - A) * B + A * (b - B)) by ring]
  have k1 : |(a - A) * (b - B)| ≤ e := by rw [abs_mul]; exact (mul_le_mul h1 (h2.trans e1) (abs_nonneg _) e0).trans (by linarith)
  have k2 : |(a - A) * B| ≤ 8 * e := by rw [abs_mul, mul_comm 8 e]; exact mul_le_mul h1 hB (abs_nonneg _) e0
  have k3 : |A * (b - B)| ≤ 8 * e := by rw [abs_mul]; exact mul_le_mul hA h2 (abs_nonneg _) (by norm_num)
  exact (abs_add_le _ _).trans (by linarith [abs_add_le ((a - A) * B) (A * (b - B))])

/-- **C203** the computed matrix is the formula's up to `2^-47`, its stored inverse is exactly its transpose, and for a quaternion of length near 1 that is its inverse up to rounding -/
theorem C203_to_transform {q : Quat ℝ} {η : ℝ} (h : Unit4 η q) (hη : η ≤ 1 / 4) :
    (∀ i j, |(toTR q).m i j - q.toT.m i j| ≤ 2 ^ (-47 : ℤ)) ∧ (toTR q).mInv = (toTR q).mᵀ ∧
    (∀ i j, |((toTR q).m * (toTR q).mInv) i j - (1 : M4 ℝ) i j| ≤ 5 * η + 2 ^ (-40 : ℤ)) := by
  have l := h.le hη
  have e := entries l
  have inv : (toTR q).mInv = (toTR q).mᵀ := by simp [toTR]
  refine ⟨fun i j => (e i j).trans (by norm_num), inv, fun i j => ?_⟩
  have o := ortho h hη i j
  have s := entry_le l
  have k : |((toTR q).m * (toTR q).mᵀ) i j - (q.toT.m * q.toT.mᵀ) i j| ≤ 68 * (32 * 2 ^ (-52 : ℤ)) := by
    have m (r : Fin 4) := mul_close (by positivity) (by norm_num) (s i r) (s j r) (e i r) (e j r)
    have m0 := m 0; have m1 := m 1; have m2 := m 2; have m3 := m 3
    simp only [Matrix.mul_apply, Fin.sum_univ_four, Matrix.transpose_apply]
    clear * - m0 m1 m2 m3
    generalize (32 : ℝ) * 2 ^ (-52 : ℤ) = e at *
    rw [abs_le] at *
    constructor <;> linarith
  rw [inv]
  refine (abs_sub_le _ _ _).trans ((add_le_add k o).trans ?_)
  clear * -
  norm_num
  linarith

/-! #### `normalized` -/

theorem D_rel {a : Quat ℝ} (h : 2 ^ (-18 : ℤ) ≤ a.dot a) : |dotR a a - a.dot a| ≤ 2 ^ (-50 : ℤ) * a.dot a := by
  have t : (2 : ℝ) ^ (-1075 : ℤ) ≤ 2 ^ (-90 : ℤ) := zpow_le_zpow_right₀ (by norm_num) (by norm_num)
  unfold dotR Quat.dot at *
  have q1 := mul_self_nonneg a.w; have q2 := mul_self_nonneg a.x; have q3 := mul_self_nonneg a.y; have q4 := mul_self_nonneg a.z
  generalize a.w * a.w = P1 at *; generalize a.x * a.x = P2 at *; generalize a.y * a.y = P3 at *; generalize a.z * a.z = P4 at *
  have n1 := double_err P1; have n2 := double_err P2; have n3 := double_err P3; have n4 := double_err P4
  have r1 := d_nonneg q1; have r2 := d_nonneg q2; have r3 := d_nonneg q3; have r4 := d_nonneg q4
  generalize double P1 = Q1 at *; generalize double P2 = Q2 at *; generalize double P3 = Q3 at *; generalize double P4 = Q4 at *
  have m1 := double_err (Q1 + Q2); have s1 := d_nonneg (add_nonneg r1 r2)
  rw [abs_of_nonneg (add_nonneg r1 r2)] at m1
  generalize double (Q1 + Q2) = S1 at *
  have m2 := double_err (S1 + Q3); have s2 := d_nonneg (add_nonneg s1 r3)
  rw [abs_of_nonneg (add_nonneg s1 r3)] at m2
  generalize double (S1 + Q3) = S2 at *
  have m3 := double_err (S2 + Q4)
  rw [abs_of_nonneg (add_nonneg s2 r4)] at m3
  generalize double (S2 + Q4) = S3 at *
  rw [abs_of_nonneg q1] at n1; rw [abs_of_nonneg q2] at n2; rw [abs_of_nonneg q3] at n3; rw [abs_of_nonneg q4] at n4
  generalize (2 : ℝ) ^ (-1075 : ℤ) = τ at *
  rw [abs_le] at *
  norm_num at *
  constructor <;> linarith

theorem root_rel {a : Quat ℝ} (h : 2 ^ (-18 : ℤ) ≤ a.dot a) : 0 < √(a.dot a) ∧ |double (√(dotR a a)) - √(a.dot a)| ≤ 2 ^ (-49 : ℤ) * √(a.dot a) := by
  have r := D_rel h
  generalize a.dot a = N at *
  generalize dotR a a = D at *
  have Np : 0 < N := lt_of_lt_of_le (by positivity) h
  have sp := Real.sqrt_pos.2 Np
  have ss := Real.sq_sqrt Np.le
  refine ⟨sp, ?_⟩
  have hs : 2 ^ (-9 : ℤ) ≤ √N := by
    apply Real.le_sqrt_of_sq_le; exact le_trans (by norm_num) h
  obtain ⟨r1, r2⟩ := abs_le.1 r
  have u1 : √D ≤ (1 + 2 ^ (-50 : ℤ)) * √N := by
    apply Real.sqrt_le_iff.2 ⟨by positivity, ?_⟩
    rw [mul_pow, ss]; norm_num at *; linarith
  have u2 : (1 - 2 ^ (-50 : ℤ)) * √N ≤ √D := by
    apply Real.le_sqrt_of_sq_le
    rw [mul_pow, ss]; norm_num at *; linarith
  have e := double_err (√D)
  rw [abs_of_nonneg (Real.sqrt_nonneg D)] at e
  have t : (2 : ℝ) ^ (-1075 : ℤ) ≤ 2 ^ (-90 : ℤ) := zpow_le_zpow_right₀ (by norm_num) (by norm_num)
  generalize (2 : ℝ) ^ (-1075 : ℤ) = τ at *
  generalize double (√D) = m at *
  generalize √D = d at *
  generalize √N = s at *
  clear * - u1 u2 e t hs
  rw [abs_le] at *
  norm_num at *
  constructor <;> linarith

theorem comp_sqrt (a b c d : ℝ) : |a| ≤ √(a * a + b * b + c * c + d * d) := by
  apply Real.le_sqrt_of_sq_le
  rw [sq_abs]; nlinarith [mul_self_nonneg b, mul_self_nonneg c, mul_self_nonneg d]

theorem Quat_le_sqrt (a : Quat ℝ) : Le (√(a.dot a)) a := by
  unfold Quat.dot
  refine ⟨comp_sqrt _ _ _ _, ?_, ?_, ?_⟩
  · have := comp_sqrt a.x a.w a.y a.z; convert this using 2; ring
  · have := comp_sqrt a.y a.w a.x a.z; convert this using 2; ring
  · have := comp_sqrt a.z a.w a.x a.y; convert this using 2; ring

theorem div_near {x m s : ℝ} (hs : 0 < s) (hx : |x| ≤ s) (h : |m - s| ≤ 2 ^ (-49 : ℤ) * s) : |double (x / m) - 1 / s * x| ≤ 32 * 2 ^ (-52 : ℤ) := by
  obtain ⟨h1, h2⟩ := abs_le.1 h
  have ms : 1 / 2 * s ≤ m := by norm_num at *; linarith
  have mp : 0 < m := by linarith
  have k : |x / m - 1 / s * x| ≤ 16 * 2 ^ (-52 : ℤ) := by
    rw [show x / m - 1 / s * x = x * (s - m) / (s * m) by field_simp, abs_div, abs_mul, abs_of_pos (mul_pos hs mp), div_le_iff₀ (mul_pos hs mp), abs_sub_comm s m]
    have := mul_le_mul hx h (abs_nonneg _) hs.le
    have := mul_le_mul_of_nonneg_left ms hs.le
    norm_num at *
    linarith
  have one : |1 / s * x| ≤ 1 := by
    rw [abs_mul, abs_of_pos (by positivity), one_div, inv_mul_le_iff₀ hs]; linarith
  generalize x / m = y at *
  generalize 1 / s * x = z at *
  have n := near (x := y) (by rw [abs_le] at *; norm_num at *; constructor <;> linarith)
  rw [abs_le] at *
  norm_num at *
  constructor <;> linarith

theorem norm_close {a : Quat ℝ} (h : 2 ^ (-18 : ℤ) ≤ a.dot a) : Close (32 * 2 ^ (-52 : ℤ)) (normalizedR a) a.normalized := by
  obtain ⟨sp, r⟩ := root_rel h
  obtain ⟨l1, l2, l3, l4⟩ := Quat_le_sqrt a
  exact ⟨div_near sp l1 r, div_near sp l2 r, div_near sp l3 r, div_near sp l4 r⟩

theorem root_diff {a b : Quat ℝ} {d : ℝ} (ha : 0 < a.dot a) (hb : 0 < b.dot b) (h : Close d a b) : |√(a.dot a) - √(b.dot b)| ≤ 4 * d := by
  have sa := Real.sqrt_pos.2 ha; have sb := Real.sqrt_pos.2 hb
  obtain ⟨a1, a2, a3, a4⟩ := Quat_le_sqrt a
  obtain ⟨b1, b2, b3, b4⟩ := Quat_le_sqrt b
  obtain ⟨c1, c2, c3, c4⟩ := h
  have e : (√(a.dot a) - √(b.dot b)) * (√(a.dot a) + √(b.dot b)) = (a.w - b.w) * (a.w + b.w) + (a.x - b.x) * (a.x + b.x) + (a.y - b.y) * (a.y + b.y) + (a.z - b.z) * (a.z + b.z) := by
    have := Real.mul_self_sqrt ha.le; have := Real.mul_self_sqrt hb.le
    have e1 : a.dot a - b.dot b = (a.w - b.w) * (a.w + b.w) + (a.x - b.x) * (a.x + b.x) + (a.y - b.y) * (a.y + b.y) + (a.z - b.z) * (a.z + b.z) := by simp only [Quat.dot]; ring
    rw [← e1]; linarith [mul_comm (√(a.dot a)) (√(b.dot b))]
  generalize √(a.dot a) = s at *
  generalize √(b.dot b) = r at *
  have t : ∀ u v : ℝ, |u - v| ≤ d → |u| ≤ s → |v| ≤ r → |(u - v) * (u + v)| ≤ d * (s + r) := fun u v huv hu hv => by
    rw [abs_mul]; exact mul_le_mul huv ((abs_add_le _ _).trans (add_le_add hu hv)) (abs_nonneg _) ((abs_nonneg _).trans huv)
  have t1 := t _ _ c1 a1 b1; have t2 := t _ _ c2 a2 b2; have t3 := t _ _ c3 a3 b3; have t4 := t _ _ c4 a4 b4
  have k : |(s - r) * (s + r)| ≤ 4 * d * (s + r) := by
    rw [e]
    clear * - t1 t2 t3 t4
    rw [abs_le] at *
    constructor <;> linarith
  rw [abs_mul, abs_of_pos (add_pos sa sb)] at k
  exact le_of_mul_le_mul_right k (add_pos sa sb)

theorem pert1 {x y s r d : ℝ} (sp : 0 < s) (hr : 2 ^ (-9 : ℤ) ≤ r) (hx : |x| ≤ s) (h : |x - y| ≤ d) (hs : |s - r| ≤ 4 * d) : |1 / s * x - 1 / r * y| ≤ 512 * (5 * d) := by
  have rp : 0 < r := lt_of_lt_of_le (by positivity) hr
  have d0 := (abs_nonneg _).trans h
  have k : |r * (1 / s * x - 1 / r * y)| ≤ 5 * d := by
    rw [show r * (1 / s * x - 1 / r * y) = (x - y) + (r - s) * (1 / s * x) by field_simp; ring]
    have one : |1 / s * x| ≤ 1 := by rw [abs_mul, abs_of_pos (by positivity), one_div, inv_mul_le_iff₀ sp]; linarith
    have : |(r - s) * (1 / s * x)| ≤ 4 * d := by
      rw [abs_mul, abs_sub_comm]; exact (mul_le_mul hs one (abs_nonneg _) (by positivity)).trans (by linarith)
    exact (abs_add_le _ _).trans (by linarith)
  rw [abs_mul, abs_of_pos rp] at k
  have := mul_le_mul_of_nonneg_right hr (abs_nonneg (1 / s * x - 1 / r * y))
  norm_num at *
  linarith

theorem pert {a b : Quat ℝ} {d : ℝ} (ha : 0 < a.dot a) (hb : 2 ^ (-18 : ℤ) ≤ b.dot b) (h : Close d a b) : Close (512 * (5 * d)) a.normalized b.normalized := by
  have bp : 0 < b.dot b := lt_of_lt_of_le (by positivity) hb
  have hr : 2 ^ (-9 : ℤ) ≤ √(b.dot b) := by apply Real.le_sqrt_of_sq_le; exact le_trans (by norm_num) hb
  have rd := root_diff ha bp h
  obtain ⟨a1, a2, a3, a4⟩ := Quat_le_sqrt a
  obtain ⟨c1, c2, c3, c4⟩ := h
  have sp := Real.sqrt_pos.2 ha
  exact ⟨pert1 sp hr a1 c1 rd, pert1 sp hr a2 c2 rd, pert1 sp hr a3 c3 rd, pert1 sp hr a4 c4 rd⟩

theorem dot_diff {a b : Quat ℝ} {d : ℝ} (hd : d ≤ 1 / 8) (hb : Le 3 b) (h : Close d a b) : |a.dot a - b.dot b| ≤ 28 * d := by
  obtain ⟨b1, b2, b3, b4⟩ := hb
  obtain ⟨c1, c2, c3, c4⟩ := h
  have t : ∀ u v : ℝ, |u - v| ≤ d → |v| ≤ 3 → |u * u - v * v| ≤ 7 * d := fun u v huv hv => by
    rw [show u * u - v * v = (u - v) * (u + v) by ring, abs_mul, mul_comm 7 d]
    have : |u + v| ≤ 7 := by rw [abs_le] at *; constructor <;> linarith
    exact mul_le_mul huv this (abs_nonneg _) ((abs_nonneg _).trans huv)
  have t1 := t _ _ c1 b1; have t2 := t _ _ c2 b2; have t3 := t _ _ c3 b3; have t4 := t _ _ c4 b4
  simp only [Quat.dot]
  clear * - t1 t2 t3 t4
  rw [abs_le] at *
  constructor <;> linarith

theorem Close.trans {a b c : Quat ℝ} {d e : ℝ} (h : Close d a b) (h' : Close e b c) : Close (d + e) a c :=
  ⟨(abs_sub_le _ b.w _).trans (add_le_add h.1 h'.1), (abs_sub_le _ b.x _).trans (add_le_add h.2.1 h'.2.1), (abs_sub_le _ b.y _).trans (add_le_add h.2.2.1 h'.2.2.1),
    (abs_sub_le _ b.z _).trans (add_le_add h.2.2.2 h'.2.2.2)⟩
theorem Close.mono {a b : Quat ℝ} {d e : ℝ} (h : Close d a b) (h' : d ≤ e) : Close e a b := ⟨h.1.trans h', h.2.1.trans h', h.2.2.1.trans h', h.2.2.2.trans h'⟩

/-- normalising a slightly perturbed quaternion -/
theorem norm_pert {a b : Quat ℝ} (hb : 2 ^ (-17 : ℤ) ≤ b.dot b) (lb : Le 3 b) (h : Close (64 * 2 ^ (-52 : ℤ)) a b) : Close (2 ^ (-34 : ℤ)) (normalizedR a) b.normalized := by
  have k := dot_diff (by norm_num) lb h
  have ha : 2 ^ (-18 : ℤ) ≤ a.dot a := by
    have := (abs_le.1 k).1
    clear * - this hb
    norm_num at *; linarith
  have hb' : 2 ^ (-18 : ℤ) ≤ b.dot b := le_trans (by norm_num) hb
  exact ((norm_close ha).trans (pert (lt_of_lt_of_le (by positivity) ha) hb' h)).mono (by norm_num)

/-! #### `slerp` -/

theorem lin_close {s x t y S T : ℝ} (hs : |s| ≤ 1) (ht : |t| ≤ 1) (hx : |x| ≤ 5 / 4) (hy : |y| ≤ 5 / 4) (h1 : |s - S| ≤ 2 ^ (-52 : ℤ)) (h2 : |t - T| ≤ 2 ^ (-52 : ℤ)) :
    |double (double (s * x) + double (t * y)) - (S * x + T * y)| ≤ 16 * 2 ^ (-52 : ℤ) := by
  have p1 : |s * x| ≤ 5 / 4 := by rw [abs_mul]; exact (mul_le_mul hs hx (abs_nonneg _) (by norm_num)).trans (by norm_num)
  have p2 : |t * y| ≤ 5 / 4 := by rw [abs_mul]; exact (mul_le_mul ht hy (abs_nonneg _) (by norm_num)).trans (by norm_num)
  have e1 : |s * x - S * x| ≤ 5 / 4 * 2 ^ (-52 : ℤ) := by rw [← sub_mul, abs_mul, mul_comm]; exact mul_le_mul hx h1 (abs_nonneg _) (by norm_num)
  have e2 : |t * y - T * y| ≤ 5 / 4 * 2 ^ (-52 : ℤ) := by rw [← sub_mul, abs_mul, mul_comm]; exact mul_le_mul hy h2 (abs_nonneg _) (by norm_num)
  have := (sum_close (p1.trans (by norm_num)) (p2.trans (by norm_num))).1
  clear * - this e1 e2
  generalize double (double (s * x) + double (t * y)) = D at *
  generalize s * x = a at *; generalize t * y = b at *; generalize S * x = A at *; generalize T * y = B at *
  rw [abs_le] at *
  norm_num at *
  constructor <;> linarith

theorem mix_close {q1 q2 : Quat ℝ} {t : ℝ} (l1 : Le (5 / 4) q1) (l2 : Le (5 / 4) q2) (t0 : 0 ≤ t) (t1 : t ≤ 1) :
    Close (64 * 2 ^ (-52 : ℤ)) (addR (smulR (double (1 - t)) q1) (smulR t q2)) (mix t q1 q2) := by
  have T0 : 0 ≤ double (1 - t) := d_nonneg (by linarith)
  have T1 : double (1 - t) ≤ 1 := d_le_one (by linarith)
  have n := near (x := 1 - t) (by rw [abs_of_nonneg (by linarith)]; linarith)
  have hT : |double (1 - t)| ≤ 1 := by rwa [abs_of_nonneg T0]
  have ht : |t| ≤ 1 := by rwa [abs_of_nonneg t0]
  have z : |t - t| ≤ 2 ^ (-52 : ℤ) := by rw [sub_self, abs_zero]; positivity
  have m : (16 : ℝ) * 2 ^ (-52 : ℤ) ≤ 64 * 2 ^ (-52 : ℤ) := by norm_num
  exact ⟨(lin_close hT ht l1.1 l2.1 n z).trans m, (lin_close hT ht l1.2.1 l2.2.1 n z).trans m, (lin_close hT ht l1.2.2.1 l2.2.2.1 n z).trans m, (lin_close hT ht l1.2.2.2 l2.2.2.2 n z).trans m⟩

theorem mix_dot (t : ℝ) (a b : Quat ℝ) : (mix t a b).dot (mix t a b) = (1 - t) ^ 2 * a.dot a + t ^ 2 * b.dot b + 2 * (t * (1 - t)) * a.dot b := by
  simp only [mix, Quat.dot]; ring

theorem unit_dot {η : ℝ} {q : Quat ℝ} (h : Unit4 η q) : |q.dot q - 1| ≤ η := by
  unfold Unit4 at h; convert h using 2; simp only [Quat.dot]; ring

theorem mix_large {q1 q2 : Quat ℝ} {t : ℝ} (u1 : Unit4 (2 ^ (-48 : ℤ)) q1) (u2 : Unit4 (2 ^ (-48 : ℤ)) q2) (t0 : 0 ≤ t) (t1 : t ≤ 1) (hc : 1 / 2 ≤ q1.dot q2) :
    2 ^ (-17 : ℤ) ≤ (mix t q1 q2).dot (mix t q1 q2) := by
  have d1 := (abs_le.1 (unit_dot u1)).1; have d2 := (abs_le.1 (unit_dot u2)).1
  rw [mix_dot]
  have a1 : 1 / 2 ≤ q1.dot q1 := by norm_num at *; linarith
  have a2 : 1 / 2 ≤ q2.dot q2 := by norm_num at *; linarith
  have k1 := mul_le_mul_of_nonneg_left a1 (sq_nonneg (1 - t))
  have k2 := mul_le_mul_of_nonneg_left a2 (sq_nonneg t)
  have k3 := mul_le_mul_of_nonneg_left hc (show 0 ≤ 2 * (t * (1 - t)) from mul_nonneg (by norm_num) (mul_nonneg t0 (by linarith)))
  have : (1 - t) ^ 2 * (1 / 2) + t ^ 2 * (1 / 2) + 2 * (t * (1 - t)) * (1 / 2) = 1 / 2 := by ring
  norm_num at *
  linarith

theorem mix_le {q1 q2 : Quat ℝ} {t : ℝ} (l1 : Le (5 / 4) q1) (l2 : Le (5 / 4) q2) (t0 : 0 ≤ t) (t1 : t ≤ 1) : Le 3 (mix t q1 q2) := by
  have k : ∀ x y : ℝ, |x| ≤ 5 / 4 → |y| ≤ 5 / 4 → |(1 - t) * x + t * y| ≤ 3 := fun x y hx hy => by
    have a : |(1 - t) * x| ≤ 1 * (5 / 4) := by rw [abs_mul, abs_of_nonneg (by linarith)]; exact mul_le_mul (by linarith) hx (abs_nonneg _) (by norm_num)
    have b : |t * y| ≤ 1 * (5 / 4) := by rw [abs_mul, abs_of_nonneg t0]; exact mul_le_mul t1 hy (abs_nonneg _) (by norm_num)
    exact (abs_add_le _ _).trans (by linarith)
  exact ⟨k _ _ l1.1 l2.1, k _ _ l1.2.1 l2.2.1, k _ _ l1.2.2.1 l2.2.2.1, k _ _ l1.2.2.2 l2.2.2.2⟩

theorem perp1 {x y c C : ℝ} (hx : |x| ≤ 5 / 4) (hy : |y| ≤ 5 / 4) (hC : |C| ≤ 5 / 4) (h : |c - C| ≤ 28 * 2 ^ (-52 : ℤ)) : |double (y - double (c * x)) - (y - C * x)| ≤ 64 * 2 ^ (-52 : ℤ) ∧ |y - C * x| ≤ 3 := by
  have p : |C * x| ≤ 25 / 16 := prod_le hC hx
  have e : |c * x - C * x| ≤ 5 / 4 * (28 * 2 ^ (-52 : ℤ)) := by rw [← sub_mul, abs_mul, mul_comm]; exact mul_le_mul hx h (abs_nonneg _) (by norm_num)
  clear h hx hC
  generalize C * x = P at *
  generalize c * x = p' at *
  have n1 := n8 (x := p') (b := 15 / 2) (by rw [abs_le] at *; norm_num at *; constructor <;> linarith) le_rfl
  generalize double p' = p'' at *
  have n2 := n8 (x := y - p'') (b := 15 / 2) (by rw [abs_le] at *; norm_num at *; constructor <;> linarith) le_rfl
  generalize double (y - p'') = r at *
  refine ⟨?_, ?_⟩ <;> (rw [abs_le] at *; norm_num at *; constructor <;> linarith)

theorem dot_le {q1 q2 : Quat ℝ} (u1 : Unit4 (2 ^ (-48 : ℤ)) q1) (u2 : Unit4 (2 ^ (-48 : ℤ)) q2) : |q1.dot q2| ≤ 5 / 4 := by
  have d1 := (abs_le.1 (unit_dot u1)).2; have d2 := (abs_le.1 (unit_dot u2)).2
  have k1 : 2 * q1.dot q2 ≤ q1.dot q1 + q2.dot q2 := by
    simp only [Quat.dot]; nlinarith [sq_nonneg (q1.w - q2.w), sq_nonneg (q1.x - q2.x), sq_nonneg (q1.y - q2.y), sq_nonneg (q1.z - q2.z)]
  have k2 : -(2 * q1.dot q2) ≤ q1.dot q1 + q2.dot q2 := by
    simp only [Quat.dot]; nlinarith [sq_nonneg (q1.w + q2.w), sq_nonneg (q1.x + q2.x), sq_nonneg (q1.y + q2.y), sq_nonneg (q1.z + q2.z)]
  clear u1 u2
  norm_num at *
  exact abs_le.2 ⟨by linarith, by linarith⟩

theorem perp_close {q1 q2 : Quat ℝ} (l1 : Le (5 / 4) q1) (l2 : Le (5 / 4) q2) (hc : |q1.dot q2| ≤ 5 / 4) :
    Close (64 * 2 ^ (-52 : ℤ)) (subR q2 (smulR (dotR q1 q2) q1)) (perp q1 q2) ∧ Le 3 (perp q1 q2) := by
  have d := dot_close l1 l2
  have a := perp1 l1.1 l2.1 hc d; have b := perp1 l1.2.1 l2.2.1 hc d; have c := perp1 l1.2.2.1 l2.2.2.1 hc d; have e := perp1 l1.2.2.2 l2.2.2.2 hc d
  exact ⟨⟨a.1, b.1, c.1, e.1⟩, a.2, b.2, c.2, e.2⟩

theorem perp_dot (a b : Quat ℝ) : (perp a b).dot (perp a b) = b.dot b - a.dot b ^ 2 - a.dot b ^ 2 * (1 - a.dot a) ∧ a.dot (perp a b) = a.dot b * (1 - a.dot a) := by
  constructor <;> (simp only [perp, Quat.dot]; ring)

theorem perp_large {q1 q2 : Quat ℝ} (u1 : Unit4 (2 ^ (-48 : ℤ)) q1) (u2 : Unit4 (2 ^ (-48 : ℤ)) q2) (h1 : q1.dot q2 ≤ 1 - (2 ^ (-17 : ℤ) + 2 ^ (-20 : ℤ))) (h2 : -1 + 2 ^ (-16 : ℤ) ≤ q1.dot q2) :
    2 ^ (-17 : ℤ) ≤ (perp q1 q2).dot (perp q1 q2) := by
  have hc := dot_le u1 u2
  have d1 := unit_dot u1; have d2 := unit_dot u2
  rw [(perp_dot q1 q2).1]
  clear u1 u2
  generalize q1.dot q2 = c at *; generalize q1.dot q1 = n1 at *; generalize q2.dot q2 = n2 at *
  have c2 : c ^ 2 ≤ 25 / 16 := by have := sq_le_sq' (abs_le.1 hc).1 (abs_le.1 hc).2; linarith
  have k : 2 ^ (-17 : ℤ) + 2 ^ (-20 : ℤ) ≤ 1 - c ^ 2 := by
    rw [show 1 - c ^ 2 = (1 - c) * (1 + c) by ring]
    rcases le_total 0 c with h | h
    · have := mul_le_mul (show 2 ^ (-17 : ℤ) + 2 ^ (-20 : ℤ) ≤ 1 - c by linarith) (show (1 : ℝ) ≤ 1 + c by linarith) (by norm_num) (by norm_num at h1; linarith)
      linarith
    · have := mul_le_mul (show (1 : ℝ) ≤ 1 - c by linarith) (show 2 ^ (-16 : ℤ) ≤ 1 + c by linarith) (by positivity) (by linarith)
      norm_num at *
      linarith
  have m : |c ^ 2 * (1 - n1)| ≤ 2 * 2 ^ (-48 : ℤ) := by
    rw [abs_mul, abs_of_nonneg (sq_nonneg c), abs_sub_comm]; exact mul_le_mul (by linarith) d1 (abs_nonneg _) (by norm_num)
  generalize c ^ 2 * (1 - n1) = y at *
  clear hc d1 h1 h2 c2
  rw [abs_le] at *
  norm_num at *
  linarith

/-- sums with approximate cosine and sine -/
theorem arc1 {C S c s x p P : ℝ} (hC : |C| ≤ 1) (hS : |S| ≤ 1) (hc : |C - c| ≤ 2 ^ (-52 : ℤ)) (hs : |S - s| ≤ 2 ^ (-52 : ℤ)) (s1 : |s| ≤ 1) (hx : |x| ≤ 5 / 4) (hP : |P| ≤ 1) (hp : |p - P| ≤ 2 ^ (-34 : ℤ)) :
    |double (double (C * x) + double (S * p)) - (c * x + s * P)| ≤ 2 ^ (-33 : ℤ) := by
  have p1 : |p| ≤ 5 / 4 := by rw [abs_le] at *; norm_num at *; constructor <;> linarith
  have k := lin_close hC hS hx p1 hc hs
  have e : |s * p - s * P| ≤ 2 ^ (-34 : ℤ) := by
    rw [← mul_sub, abs_mul]; exact (mul_le_mul s1 hp (abs_nonneg _) (by norm_num)).trans (by rw [one_mul])
  generalize double (double (C * x) + double (S * p)) = D at *
  generalize s * p = a at *; generalize s * P = b at *; generalize c * x = g at *
  clear * - k e
  rw [abs_le] at *
  norm_num at *
  constructor <;> linarith

theorem normalized_le {a : Quat ℝ} (h : 0 < a.dot a) : Le 1 a.normalized := by
  obtain ⟨l1, l2, l3, l4⟩ := Quat_le_sqrt a
  have sp := Real.sqrt_pos.2 h
  have k : ∀ x : ℝ, |x| ≤ √(a.dot a) → |1 / √(a.dot a) * x| ≤ 1 := fun x hx => by
    rw [abs_mul, abs_of_pos (by positivity), one_div, inv_mul_le_iff₀ sp]; linarith
  exact ⟨k _ l1, k _ l2, k _ l3, k _ l4⟩

theorem arc_unit {φ : ℝ} {q1 q2 : Quat ℝ} (u1 : Unit4 (2 ^ (-48 : ℤ)) q1) (hc : |q1.dot q2| ≤ 5 / 4) (hp : 2 ^ (-17 : ℤ) ≤ (perp q1 q2).dot (perp q1 q2)) :
    |(arc φ q1 (perp q1 q2).normalized).dot (arc φ q1 (perp q1 q2).normalized) - 1| ≤ 2 ^ (-36 : ℤ) ∧ Le 3 (arc φ q1 (perp q1 q2).normalized) := by
  have pp : 0 < (perp q1 q2).dot (perp q1 q2) := lt_of_lt_of_le (by positivity) hp
  have nl := normalized_le pp
  have l1 := u1.le (by norm_num)
  refine ⟨?_, ?_⟩
  · have nu := Quat.normalized_unit pp
    have d1 := unit_dot u1
    have hr : 2 ^ (-9 : ℤ) ≤ √((perp q1 q2).dot (perp q1 q2)) := by apply Real.le_sqrt_of_sq_le; exact le_trans (by norm_num) hp
    have cross : |q1.dot (perp q1 q2).normalized| ≤ 512 * (2 * 2 ^ (-48 : ℤ)) := by
      have e : q1.dot (perp q1 q2).normalized = 1 / √((perp q1 q2).dot (perp q1 q2)) * (q1.dot (perp q1 q2)) := by simp only [Quat.normalized, Quat.smul, Quat.dot]; ring
      rw [e, (perp_dot q1 q2).2, abs_mul]
      have rp : 0 < √((perp q1 q2).dot (perp q1 q2)) := lt_of_lt_of_le (by positivity) hr
      have a : |1 / √((perp q1 q2).dot (perp q1 q2))| ≤ 512 := by
        rw [abs_of_pos (by positivity), div_le_iff₀ rp]; norm_num at hr; linarith
      have b : |q1.dot q2 * (1 - q1.dot q1)| ≤ 2 * 2 ^ (-48 : ℤ) := by
        rw [abs_mul, abs_sub_comm 1]; exact mul_le_mul (by linarith) d1 (abs_nonneg _) (by norm_num)
      exact mul_le_mul a b (abs_nonneg _) (by norm_num)
    generalize (perp q1 q2).normalized = p at *
    have e : (arc φ q1 p).dot (arc φ q1 p) - 1 = Real.cos φ ^ 2 * (q1.dot q1 - 1) + 2 * (Real.sin φ * Real.cos φ) * q1.dot p := by
      have t := Real.sin_sq_add_cos_sq φ
      have : (arc φ q1 p).dot (arc φ q1 p) = Real.cos φ ^ 2 * q1.dot q1 + Real.sin φ ^ 2 * p.dot p + 2 * (Real.sin φ * Real.cos φ) * q1.dot p := by simp only [arc, Quat.dot]; ring
      rw [this, nu]; linear_combination t
    rw [e]
    have a : |Real.cos φ ^ 2 * (q1.dot q1 - 1)| ≤ 1 * 2 ^ (-48 : ℤ) := by
      rw [abs_mul, abs_of_nonneg (sq_nonneg _)]; exact mul_le_mul (Real.cos_sq_le_one φ) d1 (abs_nonneg _) (by norm_num)
    have b : |2 * (Real.sin φ * Real.cos φ) * q1.dot p| ≤ 2 * (512 * (2 * 2 ^ (-48 : ℤ))) := by
      rw [abs_mul]
      refine mul_le_mul ?_ cross (abs_nonneg _) (by norm_num)
      rw [abs_mul, abs_of_pos (two_pos : (0 : ℝ) < 2)]
      have := mul_le_one' (Real.abs_sin_le_one φ) (Real.abs_cos_le_one φ)
      linarith
    refine (abs_add_le _ _).trans ((add_le_add a b).trans ?_)
    norm_num
  · have k : ∀ x y : ℝ, |x| ≤ 5 / 4 → |y| ≤ 1 → |Real.cos φ * x + Real.sin φ * y| ≤ 3 := fun x y hx hy => by
      have a : |Real.cos φ * x| ≤ 1 * (5 / 4) := by rw [abs_mul]; exact mul_le_mul (Real.abs_cos_le_one φ) hx (abs_nonneg _) (by norm_num)
      have b : |Real.sin φ * y| ≤ 1 * 1 := by rw [abs_mul]; exact mul_le_mul (Real.abs_sin_le_one φ) hy (abs_nonneg _) (by norm_num)
      exact (abs_add_le _ _).trans (by linarith)
    exact ⟨k _ _ l1.1 nl.1, k _ _ l1.2.1 nl.2.1, k _ _ l1.2.2.1 nl.2.2.1, k _ _ l1.2.2.2 nl.2.2.2⟩

theorem unit_of {a b : Quat ℝ} (h : Close (2 ^ (-33 : ℤ)) a b) (lb : Le 3 b) (ub : |b.dot b - 1| ≤ 2 ^ (-36 : ℤ)) : Unit4 (2 ^ (-28 : ℤ)) a := by
  have k := dot_diff (by norm_num) lb h
  have e : a.w ^ 2 + a.x ^ 2 + a.y ^ 2 + a.z ^ 2 = a.dot a := by simp only [Quat.dot]; ring
  unfold Unit4
  rw [e]
  refine (abs_sub_le _ (b.dot b) _).trans ((add_le_add k ub).trans ?_)
  norm_num

variable {cosR sinR acosR : ℝ → ℝ}

/-- **C203** the computed interpolation has length 1 up to `2^-28`, and follows the great circle: at the angle `φ`, the fraction `t` of the angle between the quaternions; for nearly parallel quaternions it is the normalised point of the segment -/
theorem C203_slerp (h : Trig cosR sinR) (ha : ∀ x, |x| ≤ 1 → |acosR x - Real.arccos x| ≤ 2 ^ (-50 : ℤ)) {q1 q2 : Quat ℝ} {t : ℝ} (u1 : Unit4 (2 ^ (-48 : ℤ)) q1) (u2 : Unit4 (2 ^ (-48 : ℤ)) q2)
    (t0 : 0 ≤ t) (t1 : t ≤ 1) (hop : -1 + 2 ^ (-16 : ℤ) ≤ q1.dot q2) :
    Unit4 (2 ^ (-28 : ℤ)) (slerpR cosR sinR acosR t q1 q2) ∧
    ((1 - 2 ^ (-16 : ℤ) ≤ q1.dot q2 ∧ Close (2 ^ (-33 : ℤ)) (slerpR cosR sinR acosR t q1 q2) (mix t q1 q2).normalized) ∨
      (q1.dot q2 ≤ 1 - 2 ^ (-17 : ℤ) ∧ ∃ c φ, |c - q1.dot q2| ≤ 2 ^ (-47 : ℤ) ∧ |φ - t * Real.arccos c| ≤ 2 ^ (-48 : ℤ) ∧
        Close (2 ^ (-33 : ℤ)) (slerpR cosR sinR acosR t q1 q2) (arc φ q1 (perp q1 q2).normalized))) := by
  have l1 := u1.le (by norm_num); have l2 := u2.le (by norm_num)
  have hc := dot_le u1 u2
  have d := dot_close l1 l2
  obtain ⟨ep1, ep2, ep3⟩ := epsR
  have th := near (x := 1 - EPSR) (by rw [abs_le]; norm_num at *; constructor <;> linarith)
  unfold slerpR
  simp only
  split_ifs with hb
  · have c1 : 1 - 2 ^ (-16 : ℤ) ≤ q1.dot q2 := by
      clear * - hb th d ep3
      rw [abs_le] at *; norm_num at *; linarith
    have big := mix_large u1 u2 t0 t1 (hc := by clear * - c1; norm_num at *; linarith)
    have cl := norm_pert big (mix_le l1 l2 t0 t1) (mix_close l1 l2 t0 t1)
    have cl' := cl.mono (e := 2 ^ (-33 : ℤ)) (by norm_num)
    have pp : 0 < (mix t q1 q2).dot (mix t q1 q2) := lt_of_lt_of_le (by positivity) big
    refine ⟨unit_of cl' ?_ ?_, Or.inl ⟨c1, cl'⟩⟩
    · obtain ⟨a, b, c, e⟩ := normalized_le pp
      exact ⟨a.trans (by norm_num), b.trans (by norm_num), c.trans (by norm_num), e.trans (by norm_num)⟩
    · rw [Quat.normalized_unit pp, sub_self, abs_zero]; positivity
  · have c1 : q1.dot q2 ≤ 1 - (2 ^ (-17 : ℤ) + 2 ^ (-20 : ℤ)) := by
      clear * - hb th d ep1
      rw [gt_iff_lt, not_lt] at hb
      rw [abs_le] at *; norm_num at *; linarith
    have big := perp_large u1 u2 c1 hop
    obtain ⟨pc, pl⟩ := perp_close l1 l2 hc
    have cl := norm_pert big pl pc
    have pp : 0 < (perp q1 q2).dot (perp q1 q2) := lt_of_lt_of_le (by positivity) big
    have nl := normalized_le pp
    generalize normalizedR (subR q2 (smulR (dotR q1 q2) q1)) = p at *
    -- the angle
    have cc : |max (-1) (min 1 (dotR q1 q2))| ≤ 1 := abs_le.2 ⟨le_max_left _ _, max_le (by norm_num) (min_le_left _ _)⟩
    have cd : max (-1) (min 1 (dotR q1 q2)) = dotR q1 q2 := by
      have : dotR q1 q2 ≤ 1 := by clear * - d c1; rw [abs_le] at *; norm_num at *; linarith
      have : -1 ≤ dotR q1 q2 := by clear * - d hop; rw [abs_le] at *; norm_num at *; linarith
      rw [min_eq_right (by assumption), max_eq_right (by assumption)]
    have ac := ha _ cc
    rw [cd] at *
    set φ := double (acosR (dotR q1 q2) * t) with hφ
    have hφ' : |φ - t * Real.arccos (dotR q1 q2)| ≤ 2 ^ (-48 : ℤ) := by
      have a0 := Real.arccos_nonneg (dotR q1 q2)
      have a1 := Real.arccos_le_pi (dotR q1 q2)
      have pi := Real.pi_lt_d2
      rw [hφ]
      generalize Real.arccos (dotR q1 q2) = A at *
      generalize acosR (dotR q1 q2) = B at *
      have m : |B * t - t * A| ≤ 2 ^ (-50 : ℤ) := by
        rw [mul_comm t A, ← sub_mul, abs_mul, abs_of_nonneg t0]; exact mul_le_of_le_one_right (abs_nonneg _) t1 |>.trans ac
      have b0 : 0 ≤ t * A := mul_nonneg t0 a0
      have b1 : t * A ≤ 4 := (mul_le_of_le_one_left a0 t1).trans (by linarith)
      generalize t * A = y at *
      generalize B * t = x at *
      have n := n8 (x := x) (b := 15 / 2) (by clear * - m b0 b1; rw [abs_le] at *; norm_num at *; constructor <;> linarith) le_rfl
      clear * - m n
      rw [abs_le] at *; norm_num at *; constructor <;> linarith
    clear_value φ
    have A : ∀ x p' P : ℝ, |x| ≤ 5 / 4 → |P| ≤ 1 → |p' - P| ≤ 2 ^ (-34 : ℤ) → |double (double (cosR φ * x) + double (sinR φ * p')) - (Real.cos φ * x + Real.sin φ * P)| ≤ 2 ^ (-33 : ℤ) :=
      fun x p' P hx hP hp => arc1 (h.cos_le φ) (h.sin_le φ) (h.cos_near φ) (h.sin_near φ) (Real.abs_sin_le_one φ) hx hP hp
    have C : Close (2 ^ (-33 : ℤ)) (addR (smulR (cosR φ) q1) (smulR (sinR φ) p)) (arc φ q1 (perp q1 q2).normalized) :=
      ⟨A _ _ _ l1.1 nl.1 cl.1, A _ _ _ l1.2.1 nl.2.1 cl.2.1, A _ _ _ l1.2.2.1 nl.2.2.1 cl.2.2.1, A _ _ _ l1.2.2.2 nl.2.2.2 cl.2.2.2⟩
    obtain ⟨au, al⟩ := arc_unit (φ := φ) u1 hc big
    refine ⟨unit_of C al au, Or.inr ⟨le_trans c1 (by norm_num), dotR q1 q2, φ, d.trans (by norm_num), hφ', C⟩⟩

/-- **C203** the matrix of an interpolated rotation is a rotation up to `2^-25` -/
theorem C203_animated (h : Trig cosR sinR) (ha : ∀ x, |x| ≤ 1 → |acosR x - Real.arccos x| ≤ 2 ^ (-50 : ℤ)) {q1 q2 : Quat ℝ} {t : ℝ} (u1 : Unit4 (2 ^ (-48 : ℤ)) q1) (u2 : Unit4 (2 ^ (-48 : ℤ)) q2)
    (t0 : 0 ≤ t) (t1 : t ≤ 1) (hop : -1 + 2 ^ (-16 : ℤ) ≤ q1.dot q2) (i j : Fin 4) :
    |((toTR (slerpR cosR sinR acosR t q1 q2)).m * (toTR (slerpR cosR sinR acosR t q1 q2)).mInv) i j - (1 : M4 ℝ) i j| ≤ 2 ^ (-25 : ℤ) := by
  have := (C203_to_transform (C203_slerp h ha u1 u2 t0 t1 hop).1 (by norm_num)).2.2 i j
  exact this.trans (by norm_num)

/-- Halfway between two rotations, at an obtuse angle. -/
example : Unit4 (2 ^ (-28 : ℤ)) (slerpR (fun x => double (Real.cos x)) (fun x => double (Real.sin x)) Real.arccos (1 / 2) ⟨3 / 5, 0, 0, 4 / 5⟩ ⟨0, 5 / 13, 0, -12 / 13⟩) :=
  (C203_slerp trig_round (fun x _ => by simp) (by norm_num [Unit4]) (by norm_num [Unit4]) (by norm_num) (by norm_num) (by norm_num [Quat.dot])).1

end Verif.QuatR
