import Verif.BVH.TriScene
import Verif.Xform.Rounded

/-!
# A ray that leaves a surface and the surface it leaves (C184)

`Triangle.intersect` returns with the distance `t` of the hit the number `1e-3 * t` (`pytracer/shape/triangle.py:243`), and every ray that starts at the point of the hit --
a shadow ray, a mirrored or refracted ray, the next segment of a path -- starts at that parameter (`integrator/utility.py:132`, `168`, `215`, `245`,
`integrator/surface/path.py:114`, `integrator/surface/whitted.py:44`), so that the ray does not hit the surface it comes from.
-/
set_option linter.unusedSectionVars false

namespace Verif.SelfHit
open V3 Verif.Rnd Verif.Shape Verif.XformR Verif.BVH
open Verif.TriScene (Tri openRay C181_scene)

variable {K : Type*} [Field K] [LinearOrder K] [IsStrictOrderedRing K] [FloorRing K]

/-! ### Model -/

/-- the offset that comes with a hit at distance `t` (`triangle.py:243`), rounded: the literal `1e-3` is the double next to it -/
def rEps (t : K) : K := double (double (1 / 1000) * t)

/-- a ray that starts at the point of a hit of `r` at distance `t`, in the direction `d` (`triangle.py:229` for the point, `geometry/__init__.py:306-312` `from_parent`, `integrator/utility.py:132`) -/
def secondary (r : Ray K) (t : K) (d : V3 K) (maxt : WithTop K) : Ray K := ⟨atR r.o r.d t, d, rEps t, maxt⟩

/-- the same without rounding -/
def secondaryX (r : Ray K) (t : K) (d : V3 K) (maxt : WithTop K) : Ray K := ⟨rayAt r.o r.d t, d, t / 1000, maxt⟩

/-! ### Specification -/

/-- the corners of the first triangle are in the plane of the second -/
def Coplanar (p1 p2 p3 q1 q2 q3 : V3 K) : Prop :=
  dot (p1 - q1) (cross (q2 - q1) (q3 - q1)) = 0 ∧ dot (p2 - q1) (cross (q2 - q1) (q3 - q1)) = 0 ∧ dot (p3 - q1) (cross (q2 - q1) (q3 - q1)) = 0

/-- how badly placed a ray and a triangle are: `G L²` over the volume spanned by the direction and the edges.  A moderate number for a ray that meets a well-shaped triangle of size `L` at a large angle. -/
def skew (p1 p2 p3 d : V3 K) (L G : K) : K := G * L ^ 2 / |dot d (cross (p2 - p1) (p3 - p1))|

/-! ### Lemmas -/

theorem tol_eq (p1 p2 p3 : V3 K) (r : Ray K) (L G : K) : tol p1 p2 p3 r L G = 2 ^ (-45 : ℤ) * skew p1 p2 p3 r.d L G := by
  rw [tol, skew, Shape.div_eq, abs_neg, mul_div_assoc]

/-- a point of the plane of the first triangle is in the plane of the second -/
theorem plane_bary {p1 p2 p3 q1 q2 q3 : V3 K} (h : Coplanar p1 p2 p3 q1 q2 q3) (b1 b2 : K) : dot (bary p1 p2 p3 b1 b2 - q1) (cross (q2 - q1) (q3 - q1)) = 0 := by
  obtain ⟨h1, h2, h3⟩ := h
  generalize cross (q2 - q1) (q3 - q1) = n at *
  obtain ⟨ax, ay, az⟩ := p1
  obtain ⟨bx, bY, bz⟩ := p2
  obtain ⟨cx, cy, cz⟩ := p3
  obtain ⟨qx, qy, qz⟩ := q1
  obtain ⟨nx, ny, nz⟩ := n
  simp only [bary, dot, V3.sub_x, V3.sub_y, V3.sub_z, V3.add_x, V3.add_y, V3.add_z, V3.smul_x, V3.smul_y, V3.smul_z] at *
  linear_combination (1 - b1 - b2) * h1 + b1 * h2 + b2 * h3

theorem plane_own (q1 q2 q3 : V3 K) (b1 b2 : K) : dot (bary q1 q2 q3 b1 b2 - q1) (cross (q2 - q1) (q3 - q1)) = 0 := by
  refine plane_bary ⟨?_, ?_, ?_⟩ b1 b2 <;> simp only [dot, cross, V3.sub_x, V3.sub_y, V3.sub_z] <;> ring

/-- **C184** In exact arithmetic a ray that leaves the point of a hit never meets the triangle it leaves, nor another one in the same plane. -/
theorem C184_exact (p1 p2 p3 q1 q2 q3 : V3 K) (hc : Coplanar p1 p2 p3 q1 q2 q3) (r : Ray K) (t b1 b2 : K) (ht : 0 < t) (hit : core p1 p2 p3 r = some (t, b1, b2)) (d : V3 K) (maxt : WithTop K) :
    core q1 q2 q3 (secondaryX r t d maxt) = none := by
  rcases hh : core q1 q2 q3 (secondaryX r t d maxt) with _ | ⟨s, c1, c2⟩
  · rfl
  obtain ⟨-, -, -, -, -, e⟩ := (core_iff _ _ _ _ _ _ _).1 hit
  obtain ⟨h0, ⟨hmin, -⟩, -, -, -, e'⟩ := (core_iff _ _ _ _ _ _ _).1 hh
  have a := plane_bary hc b1 b2
  have b := plane_own q1 q2 q3 c1 c2
  rw [← e] at a
  rw [← e'] at b
  simp only [secondaryX, Transversal] at *
  generalize cross (q2 - q1) (q3 - q1) = n at *
  have k : s * dot d n = 0 := by
    simp only [dot, rayAt, V3.sub_x, V3.sub_y, V3.sub_z] at a b ⊢
    linear_combination b - a
  rcases mul_eq_zero.1 k with k | k
  · have : 0 < t / 1000 := by positivity
    linarith
  · exact absurd k h0

theorem dot_bound {a b : V3 K} {A B : K} (ha : Within A a) (hb : Within B b) : |dot a b| ≤ 3 * (A * B) := by
  have m : ∀ {x y : K}, |x| ≤ A → |y| ≤ B → |x * y| ≤ A * B := fun {x y} h h' => by
    rw [abs_mul]; exact mul_le_mul h h' (abs_nonneg _) ((abs_nonneg _).trans h)
  have := abs_add_three (a.x * b.x) (a.y * b.y) (a.z * b.z)
  have e1 := m ha.1 hb.1
  have e2 := m ha.2.1 hb.2.1
  have e3 := m ha.2.2 hb.2.2
  simp only [dot]
  linarith

theorem cross_bound {a b : V3 K} {A B : K} (ha : Within A a) (hb : Within B b) : Within (2 * (A * B)) (cross a b) := by
  have m : ∀ {x y : K}, |x| ≤ A → |y| ≤ B → |x * y| ≤ A * B := fun {x y} h h' => by
    rw [abs_mul]; exact mul_le_mul h h' (abs_nonneg _) ((abs_nonneg _).trans h)
  have s : ∀ {x y z w : K}, |x| ≤ A → |y| ≤ B → |z| ≤ A → |w| ≤ B → |x * y - z * w| ≤ 2 * (A * B) := fun {x y z w} h1 h2 h3 h4 => by
    have := abs_sub (x * y) (z * w)
    have e1 := m h1 h2
    have e2 := m h3 h4
    linarith
  exact ⟨s ha.2.1 hb.2.2 ha.2.2 hb.2.1, s ha.2.2 hb.1 ha.1 hb.2.2, s ha.1 hb.2.1 ha.2.1 hb.1⟩

/-- a triangle of size `L` that is not degenerate is not smaller than the grid -/
theorem size_ge {p1 p2 p3 : V3 K} {r : Ray K} {L G : K} (h : Sized p1 p2 p3 r L G) (h0 : Transversal p1 p2 p3 r.d) : (2 : K) ^ (-200 : ℤ) ≤ L := by
  by_contra hL
  push Not at hL
  obtain ⟨c1, c2, -⟩ := h.coarse
  have z : ∀ {x : K}, Grid (-200) x → |x| ≤ L → x = 0 := fun {x} g b => by
    rcases g.zero_or with g | g
    · exact g
    · exact absurd (g.trans b) (not_le.2 hL)
  have x := z (c2.1.sub c1.1) h.e1.1
  have y := z (c2.2.1.sub c1.2.1) h.e1.2.1
  have w := z (c2.2.2.sub c1.2.2) h.e1.2.2
  apply h0
  simp only [dot, cross, V3.sub_x, V3.sub_y, V3.sub_z, x, y, w]
  ring

/-- the point of a rounded hit is near the exact one -/
theorem at_err {o d t t0 S G ε : K} (hS : (2 : K) ^ (-200 : ℤ) ≤ S) (ho : |o| ≤ S) (hd : |d| ≤ G) (ht : G * |t| ≤ S) (hε : G * |t - t0| ≤ 16 / 7 * ε * S) (h8 : 8 * uu ≤ ε) :
    |double (o + double (d * t)) - (o + d * t0)| ≤ 3 * ε * S := by
  have S0 : 0 < S := (two_zpow_pos _).trans_le hS
  have u0 := uu_pos (K := K)
  have u1 : (uu : K) ≤ 1 / 64 := by rw [uu_eq]; norm_num
  have s0 : (2 : K) ^ (-1075 : ℤ) ≤ uu / 8 * S := by
    have e : (2 : K) ^ (-1075 : ℤ) = 2 ^ (-819 : ℤ) * (2 ^ (-53 : ℤ) * 2 ^ (-3 : ℤ)) * 2 ^ (-200 : ℤ) := by
      rw [← zpow_add₀ two_ne_zero, ← zpow_add₀ two_ne_zero, ← zpow_add₀ two_ne_zero]; norm_num
    have l : (2 : K) ^ (-819 : ℤ) ≤ 1 := zpow_le_one_of_nonpos₀ (by norm_num) (by norm_num)
    have e' : (2 : K) ^ (-53 : ℤ) * 2 ^ (-3 : ℤ) = uu / 8 := by rw [uu]; norm_num
    rw [e, e']
    have q : (2 : K) ^ (-819 : ℤ) * (uu / 8) ≤ uu / 8 := mul_le_of_le_one_left (by positivity) l
    exact mul_le_mul q hS (two_zpow_pos _).le (by positivity)
  have e1 := double_err (d * t)
  have e2 := double_err (o + double (d * t))
  have a1 : |d * t| ≤ S := by
    rw [abs_mul]; exact (mul_le_mul_of_nonneg_right hd (abs_nonneg _)).trans ht
  have a2 : |d * (t - t0)| ≤ 16 / 7 * ε * S := by
    rw [abs_mul]; exact (mul_le_mul_of_nonneg_right hd (abs_nonneg _)).trans hε
  change _ ≤ uu * _ + _ at e1 e2
  generalize (2 : K) ^ (-1075 : ℤ) = s at *
  set x := double (d * t) with hx
  have a3 : |x - d * t| ≤ uu * S + uu / 8 * S := e1.trans (add_le_add (mul_le_mul_of_nonneg_left a1 u0.le) s0)
  have a4 : |o + x| ≤ 3 * S := by
    have k1 := abs_add_three o (d * t) (x - d * t)
    rw [show o + d * t + (x - d * t) = o + x by ring] at k1
    nlinarith
  have a5 : |double (o + x) - (o + x)| ≤ uu * (3 * S) + uu / 8 * S := e2.trans (add_le_add (mul_le_mul_of_nonneg_left a4 u0.le) s0)
  have k := abs_add_three (double (o + x) - (o + x)) (x - d * t) (d * (t - t0))
  rw [show double (o + x) - (o + x) + (x - d * t) + d * (t - t0) = double (o + x) - (o + d * t0) by ring] at k
  have h8S : 8 * uu * S ≤ ε * S := mul_le_mul_of_nonneg_right h8 S0.le
  have uS : 0 < uu * S := mul_pos u0 S0
  linarith

/-- the offset is more than `t / 1024` -/
theorem rEps_ge {t : K} (h : (2 : K) ^ (-400 : ℤ) ≤ t) : t / 1024 ≤ rEps t := by
  have t0 : 0 < t := (two_zpow_pos _).trans_le h
  have u0 := uu_pos (K := K)
  have u1 : (uu : K) ≤ 1 / 1024 := by rw [uu_eq]; norm_num
  have e1 := double_err (1 / 1000 : K)
  have e2 := double_err (double (1 / 1000) * t)
  change _ ≤ uu * _ + _ at e1 e2
  have s0 : (2 : K) ^ (-1075 : ℤ) ≤ 1 / 1048576 * t := by
    have e : (2 : K) ^ (-1075 : ℤ) = 2 ^ (-655 : ℤ) * 2 ^ (-20 : ℤ) * 2 ^ (-400 : ℤ) := by rw [← zpow_add₀ two_ne_zero, ← zpow_add₀ two_ne_zero]; norm_num
    have l : (2 : K) ^ (-655 : ℤ) ≤ 1 := zpow_le_one_of_nonpos₀ (by norm_num) (by norm_num)
    rw [e]
    refine mul_le_mul ?_ h (two_zpow_pos _).le (by norm_num)
    rw [show (2 : K) ^ (-20 : ℤ) = 1 / 1048576 by norm_num]
    exact mul_le_of_le_one_left (by norm_num) l
  have s1 : (2 : K) ^ (-1075 : ℤ) ≤ 1 / 1048576 := by
    have e : (2 : K) ^ (-1075 : ℤ) = 2 ^ (-1055 : ℤ) * 2 ^ (-20 : ℤ) := by rw [← zpow_add₀ two_ne_zero]; norm_num
    have l : (2 : K) ^ (-1055 : ℤ) ≤ 1 := zpow_le_one_of_nonpos₀ (by norm_num) (by norm_num)
    rw [e, show (2 : K) ^ (-20 : ℤ) = 1 / 1048576 by norm_num]
    exact mul_le_of_le_one_left (by norm_num) l
  generalize (2 : K) ^ (-1075 : ℤ) = s at *
  rw [abs_of_pos (show (0 : K) < 1 / 1000 by norm_num)] at e1
  have m := abs_le.1 e1
  rw [rEps]
  set c : K := double (1 / 1000) with hc
  have c1 : 1 / 1000 - 1 / 500000 ≤ c := by linarith
  have c2 : 0 < c * t := mul_pos (by linarith) t0
  rw [abs_of_pos c2] at e2
  have m2 := abs_le.1 e2
  have l1 : (1 / 1000 - 1 / 500000) * t ≤ c * t := mul_le_mul_of_nonneg_right c1 t0.le
  have l2 : uu * (c * t) ≤ 1 / 1024 * (c * t) := mul_le_mul_of_nonneg_right u1 c2.le
  linarith

/-! ### Theorems -/

/-- **C184** A ray that leaves the point of a hit is not reported to meet the triangle it leaves, nor another one in the same plane, with every operation rounded, if the distance of
the hit is more than `2^-29` of the size `S` of the scene (times the skews of the two rays). -/
theorem C184_self (p1 p2 p3 q1 q2 q3 : V3 K) (hc : Coplanar p1 p2 p3 q1 q2 q3) (r : Ray K) (L G : K) (h : Sized p1 p2 p3 r L G) (h0 : Transversal p1 p2 p3 r.d)
    (hs : 2 ^ (-45 : ℤ) * skew p1 p2 p3 r.d L G ≤ 1 / 8) (t b1 b2 : K) (hit : coreR ieee p1 p2 p3 r = some (t, b1, b2))
    (d : V3 K) (maxt : WithTop K) (L' G' : K) (h' : Sized q1 q2 q3 (secondary r t d maxt) L' G') (h0' : Transversal q1 q2 q3 d) (hs' : 2 ^ (-45 : ℤ) * skew q1 q2 q3 d L' G' ≤ 1 / 8)
    (S : K) (hL : L ≤ S) (hL' : L' ≤ S) (ho : Within S r.o) (ht : G * |t| ≤ S)
    (far : 2 ^ (-29 : ℤ) * (skew p1 p2 p3 r.d L G * skew q1 q2 q3 d L' G') * (S / G') < t) :
    coreR ieee q1 q2 q3 (secondary r t d maxt) = none := by
  rcases hh : coreR ieee q1 q2 q3 (secondary r t d maxt) with _ | ⟨s, c1, c2⟩
  · rfl
  exfalso
  obtain ⟨T, B1, B2, t0, β1, β2, -, -, hr, ε0, ε8, -, -, k3, H⟩ := coreR_spec h h0 (tol_eq p1 p2 p3 r L G).symm hs
  obtain ⟨rfl, -⟩ := (H _ _ _).1 hit
  obtain ⟨T', B1', B2', τ, γ1, γ2, -, -, hr', ε0', ε8', -, -, k3', H'⟩ := coreR_spec h' h0' (tol_eq q1 q2 q3 (secondary r t d maxt) L' G').symm hs'
  obtain ⟨rfl, -, -, -, -, hmin, -⟩ := (H' _ _ _).1 hh
  change rEps t ≤ s at hmin
  have hS := (size_ge h h0).trans hL
  have S0 : 0 < S := (two_zpow_pos _).trans_le hS
  have L0 := h.size.1
  have G0 := h.speed.1
  have L0' := h'.size.1
  have G0' := h'.speed.1
  change _ ≤ 2 ^ (-45 : ℤ) * skew q1 q2 q3 d L' G' * _ at k3'
  change 0 < 2 ^ (-45 : ℤ) * skew q1 q2 q3 d L' G' at ε0'
  change _ ≤ 2 ^ (-45 : ℤ) * skew q1 q2 q3 d L' G' at ε8'
  set κ := skew p1 p2 p3 r.d L G with hκ
  set κ' := skew q1 q2 q3 d L' G' with hκ'
  set ε : K := 2 ^ (-45 : ℤ) * κ with hε
  set ε' : K := 2 ^ (-45 : ℤ) * κ' with hε'
  have uk : (uu : K) * 2 ^ (45 : ℤ) = 1 / 256 := by rw [uu, ← zpow_add₀ two_ne_zero]; norm_num
  have p45 : (2 : K) ^ (-45 : ℤ) * 2 ^ (45 : ℤ) = 1 := by rw [← zpow_add₀ two_ne_zero]; norm_num
  have κ1 : 1 / 32 ≤ κ := by
    have := mul_le_mul_of_nonneg_right ε8 (two_zpow_pos (K := K) 45).le
    have e : 8 * (uu : K) * 2 ^ (45 : ℤ) = 1 / 32 := by rw [mul_assoc, uk]; norm_num
    rw [e, hε, mul_right_comm, p45] at this
    linarith
  have κ1' : 1 / 32 ≤ κ' := by
    have := mul_le_mul_of_nonneg_right ε8' (two_zpow_pos (K := K) 45).le
    have e : 8 * (uu : K) * 2 ^ (45 : ℤ) = 1 / 32 := by rw [mul_assoc, uk]; norm_num
    rw [e, hε', mul_right_comm, p45] at this
    linarith
  -- the exact hit
  have gt : G * |t - t0| ≤ 16 / 7 * ε * S := by
    have a := mul_le_mul_of_nonneg_left k3 G0.le
    have e : G * (ε * (L / G + |t0|)) = ε * (L + G * |t0|) := by field_simp
    rw [e] at a
    have b : G * |t0| ≤ G * |t| + G * |t - t0| := by
      rw [← mul_add]
      refine mul_le_mul_of_nonneg_left ?_ G0.le
      have := abs_sub_abs_le_abs_sub t0 t
      rw [abs_sub_comm] at this
      linarith
    have c : G * |t0| ≤ 9 / 7 * S := by
      have x0 : 0 ≤ G * |t0| := by positivity
      have : ε * (L + G * |t0|) ≤ 1 / 8 * (S + G * |t0|) := mul_le_mul hs (by linarith) (by linarith) (by norm_num)
      linarith
    refine a.trans ?_
    have : ε * (L + G * |t0|) ≤ ε * (16 / 7 * S) := mul_le_mul_of_nonneg_left (by linarith) ε0.le
    linarith
  -- the point of the hit is near the plane
  have near : Within (3 * ε * S) (atR r.o r.d t - rayAt r.o r.d t0) :=
    ⟨at_err hS ho.1 h.d.1 ht gt ε8, at_err hS ho.2.1 h.d.2.1 ht gt ε8, at_err hS ho.2.2 h.d.2.2 ht gt ε8⟩
  have a := plane_bary hc β1 β2
  have b := plane_own q1 q2 q3 γ1 γ2
  rw [← hr] at a
  rw [← hr'] at b
  have nb := cross_bound h'.e1 h'.e2
  change dot (rayAt (atR r.o r.d t) d τ - q1) _ = 0 at b
  have D0 : 0 < |dot d (cross (q2 - q1) (q3 - q1))| := abs_pos.2 h0'
  have ek : κ' * |dot d (cross (q2 - q1) (q3 - q1))| = G' * L' ^ 2 := by rw [hκ', skew]; field_simp
  generalize cross (q2 - q1) (q3 - q1) = n at *
  have k : dot (atR r.o r.d t - rayAt r.o r.d t0) n = -(τ * dot d n) := by
    simp only [dot, rayAt, V3.sub_x, V3.sub_y, V3.sub_z] at a b ⊢
    linear_combination b - a
  have k1 := dot_bound near nb
  rw [k, abs_neg, abs_mul] at k1
  set W : K := κ * κ' * (S / G') with hW
  have W0 : 0 < W := by have := κ1; have := κ1'; positivity
  have tb : |τ| ≤ 18 * (2 ^ (-45 : ℤ) * W) := by
    refine le_of_mul_le_mul_right (k1.trans (le_of_eq ?_)) D0
    rw [hW, hε]
    have : 18 * (2 ^ (-45 : ℤ) * (κ * κ' * (S / G'))) * |dot d n| = 18 * 2 ^ (-45 : ℤ) * κ * S / G' * (κ' * |dot d n|) := by ring
    rw [this, ek]
    field_simp
    ring
  -- the reported distance
  have eW : ε' * (S / G') ≤ 32 * (2 ^ (-45 : ℤ) * W) := by
    rw [hW, hε']
    have : 0 < (2 : K) ^ (-45 : ℤ) * κ' * (S / G') := by positivity
    calc (2 : K) ^ (-45 : ℤ) * κ' * (S / G') = 32 * (1 / 32) * (2 ^ (-45 : ℤ) * κ' * (S / G')) := by ring
      _ ≤ 32 * κ * (2 ^ (-45 : ℤ) * κ' * (S / G')) := mul_le_mul_of_nonneg_right (by linarith) this.le
      _ = _ := by ring
  have lb : L' / G' ≤ S / G' := div_le_div_of_nonneg_right hL' G0'.le
  have sb : s ≤ 2 ^ (-39 : ℤ) * W := by
    have x := (abs_le.1 k3').2
    have y := le_abs_self τ
    have z : ε' * (L' / G' + |τ|) ≤ ε' * (S / G') + 1 / 8 * |τ| := by
      rw [mul_add]
      exact add_le_add (mul_le_mul_of_nonneg_left lb ε0'.le) (mul_le_mul_of_nonneg_right hs' (abs_nonneg _))
    have e : (2 : K) ^ (-39 : ℤ) * W = 64 * (2 ^ (-45 : ℤ) * W) := by
      rw [show (-39 : ℤ) = 6 + -45 by norm_num, zpow_add₀ two_ne_zero]; norm_num; ring
    have q0 : 0 < (2 : K) ^ (-45 : ℤ) * W := mul_pos (two_zpow_pos _) W0
    rw [e]
    generalize (2 : K) ^ (-45 : ℤ) * W = q at *
    generalize ε' * (L' / G' + |τ|) = y1 at *
    generalize ε' * (S / G') = y2 at *
    linarith
  have far' : 2 ^ (-29 : ℤ) * W < t := by rw [hW, ← mul_assoc]; exact far
  have big : (2 : K) ^ (-400 : ℤ) ≤ t := by
    refine le_trans ?_ far'.le
    have w1 : (2 : K) ^ (-300 : ℤ) ≤ S / G' := by
      rw [le_div_iff₀ G0']
      calc (2 : K) ^ (-300 : ℤ) * G' ≤ 2 ^ (-300 : ℤ) * 2 ^ (100 : ℤ) := mul_le_mul_of_nonneg_left h'.speed.2 (two_zpow_pos _).le
        _ = 2 ^ (-200 : ℤ) := by rw [← zpow_add₀ two_ne_zero]; norm_num
        _ ≤ S := hS
    have w2 : (1 / 32 : K) * (1 / 32) ≤ κ * κ' := mul_le_mul κ1 κ1' (by norm_num) (by linarith)
    have w3 : (1 / 32 : K) * (1 / 32) * 2 ^ (-300 : ℤ) ≤ W := mul_le_mul w2 w1 (two_zpow_pos _).le (by positivity)
    refine le_trans ?_ (mul_le_mul_of_nonneg_left w3 (two_zpow_pos (-29)).le)
    rw [show (1 / 32 : K) * (1 / 32) = 2 ^ (-10 : ℤ) by norm_num, ← zpow_add₀ two_ne_zero, ← zpow_add₀ two_ne_zero]
    exact zpow_le_zpow_right₀ (by norm_num) (by norm_num)
  have g := rEps_ge big
  have e39 : (2 : K) ^ (-39 : ℤ) * W = 2 ^ (-29 : ℤ) * W / 1024 := by
    rw [show (-39 : ℤ) = -10 + -29 by norm_num, zpow_add₀ two_ne_zero]; norm_num; ring
  rw [e39] at sb
  linarith

/-- **C184** In a scene of triangles under the hierarchy, with everything rounded: whatever a ray that leaves the point of a hit is reported to meet, or to be blocked by, is not
in the plane of the triangle it leaves.  In particular a flat surface, however it is cut into triangles, does not cast a shadow on itself. -/
theorem C184_scene (cfg : Config K) (tris : List (Tri K)) (q0 : Tri K) (hq0 : q0 ∈ tris) (r : FRay K) (mint : K) (L G : K)
    (h : Sized q0.p1 q0.p2 q0.p3 (openRay r mint) L G) (h0 : Transversal q0.p1 q0.p2 q0.p3 (rayDir r)) (hs : 2 ^ (-45 : ℤ) * skew q0.p1 q0.p2 q0.p3 (rayDir r) L G ≤ 1 / 8)
    (t b1 b2 : K) (hit : coreR ieee q0.p1 q0.p2 q0.p3 (openRay r mint) = some (t, b1, b2))
    (r' : FRay K) (ho' : r'.o = atR r.o (rayDir r) t) (hm' : r'.mint = .fin (rEps t)) (hr' : NoNegZero r')
    (S : K) (hL : L ≤ S) (ho : Within S r.o) (ht : G * |t| ≤ S)
    (flat : ∀ q ∈ tris, Coplanar q0.p1 q0.p2 q0.p3 q.p1 q.p2 q.p3 → ∃ L' G' : K, Sized q.p1 q.p2 q.p3 (openRay r' (rEps t)) L' G' ∧ Transversal q.p1 q.p2 q.p3 (rayDir r') ∧
      2 ^ (-45 : ℤ) * skew q.p1 q.p2 q.p3 (rayDir r') L' G' ≤ 1 / 8 ∧ L' ≤ S ∧
      2 ^ (-29 : ℤ) * (skew q0.p1 q0.p2 q0.p3 (rayDir r) L G * skew q.p1 q.p2 q.p3 (rayDir r') L' G') * (S / G') < t)
    (node : Node K) (ordered : List (Tri K)) (total : ℕ)
    (hb : buildG (decideR ieee cfg) tris tris.length (buildData Tri.bound tris) [] 0 = .ok (node, ordered, total)) (hh : node.height ≤ 64) :
    ∃ bvh acc res, mkR ieee cfg Tri.bound tris = .ok bvh ∧
      (∀ fuel ≥ total, bvh.intersectR ieee (TriScene.dist r' (rEps t)) r' fuel = .ok acc ∧ bvh.intersectPR ieee (TriScene.dist r' (rEps t)) r' fuel = .ok res) ∧
      (acc = ⟨r'.maxt, none, false⟩ ∨ ∃ q ∈ tris, ¬ Coplanar q0.p1 q0.p2 q0.p3 q.p1 q.p2 q.p3 ∧ ∃ s, acc = ⟨.fin s, some q, true⟩) ∧
      (res = true → ∃ q ∈ tris, ¬ Coplanar q0.p1 q0.p2 q0.p3 q.p1 q.p2 q.p3 ∧ ∃ s b1 b2, coreR ieee q.p1 q.p2 q.p3 (openRay r' (rEps t)) = some (s, b1, b2) ∧ F.le (.fin s) r'.maxt = true) := by
  have none_of : ∀ q ∈ tris, Coplanar q0.p1 q0.p2 q0.p3 q.p1 q.p2 q.p3 → coreR ieee q.p1 q.p2 q.p3 (openRay r' (rEps t)) = none := by
    intro q hq hc
    obtain ⟨L', G', a1, a2, a3, a4, a5⟩ := flat q hq hc
    have e : openRay r' (rEps t) = secondary (openRay r mint) t (rayDir r') ⊤ := by simp only [openRay, secondary, ho']
    rw [e] at a1 ⊢
    exact C184_self _ _ _ _ _ _ hc _ L G h h0 hs t b1 b2 hit _ _ L' G' a1 a2 a3 S hL a4 ho ht a5
  obtain ⟨bvh, acc, res, k1, k2, k3, -, k5, -⟩ := C181_scene cfg tris (List.ne_nil_of_mem hq0) r' (rEps t) hm' hr' node ordered total hb hh
  refine ⟨bvh, acc, res, k1, k2, ?_, fun hres => ?_⟩
  · rcases k3 with k3 | ⟨q, hq, s, c1, c2, hc, e, -⟩
    · exact Or.inl k3
    · exact Or.inr ⟨q, hq, fun hcop => Option.some_ne_none _ (hc.symm.trans (none_of q hq hcop)), s, e⟩
  · obtain ⟨q, hq, s, c1, c2, hc, e⟩ := k5 hres
    exact ⟨q, hq, fun hcop => Option.some_ne_none _ (hc.symm.trans (none_of q hq hcop)), s, c1, c2, hc, e⟩

/-- the triangle and the ray of `C184_acne_false` -/
def acneRay : Ray ℚ := ⟨⟨1004, 9 / 4, 2 + 2 ^ (-28 : ℤ)⟩, ⟨1, 0, -1⟩, 0, ⊤⟩

/-- **C184** The offset is not enough when the hit is close: a ray from a point `10^-9` above a triangle hits it and the mirrored ray, back to the side it came from, is reported to hit
the same triangle again. -/
theorem C184_acne_false : ∃ (p1 p2 p3 d : V3 ℚ) (r : Ray ℚ) (t b1 b2 : ℚ), 0 < t ∧ coreR ieee p1 p2 p3 r = some (t, b1, b2) ∧
    dot r.d (cross (p2 - p1) (p3 - p1)) * dot d (cross (p2 - p1) (p3 - p1)) < 0 ∧ coreR ieee p1 p2 p3 (secondary r t d ⊤) ≠ none := by
  have H : (coreR ieee ⟨1003, 1, 1⟩ ⟨1006, 5, 1⟩ ⟨1004, 2, 5⟩ acneRay).any
      (fun h => decide (0 < h.1) && (coreR ieee ⟨1003, 1, 1⟩ ⟨1006, 5, 1⟩ ⟨1004, 2, 5⟩ (secondary acneRay h.1 ⟨0, 0, 1⟩ ⊤)).isSome) = true := by decide +kernel
  obtain ⟨a, H⟩ := (Option.any_eq_true_iff_get _ _).1 H
  have e := (Option.some_get a).symm
  generalize Option.get _ a = x at *
  obtain ⟨t, b1, b2⟩ := x
  simp only [Bool.and_eq_true, decide_eq_true_eq] at H
  refine ⟨_, _, _, ⟨0, 0, 1⟩, acneRay, t, b1, b2, H.1, e, by decide +kernel, fun hn => ?_⟩
  rw [hn] at H
  simp at H

/-- **C184** The offset is too much when the hit is far: a triangle that is closer to the point than a thousandth of the distance of the hit is passed by (here a sheet half a unit above a
floor seen from a height of 1000: the floor is lit through the sheet). -/
theorem C184_leak_false : ∃ (p1 p2 p3 q1 q2 q3 d : V3 ℚ) (r : Ray ℚ) (t b1 b2 : ℚ), coreR ieee p1 p2 p3 r = some (t, b1, b2) ∧
    core q1 q2 q3 ⟨rayAt r.o r.d t, d, 0, ⊤⟩ = some (1 / 2, 1 / 3, 1 / 3) ∧ coreR ieee q1 q2 q3 (secondary r t d ⊤) = none ∧ core q1 q2 q3 (secondaryX r t d ⊤) = none := by
  refine ⟨⟨-4, -4, 0⟩, ⟨12, -4, 0⟩, ⟨-4, 12, 0⟩, ⟨-1, -1, 1 / 2⟩, ⟨2, -1, 1 / 2⟩, ⟨-1, 2, 1 / 2⟩, ⟨0, 0, 1⟩, ⟨⟨0, 0, 1000⟩, ⟨0, 0, -1⟩, 0, ⊤⟩, 1000, 1 / 4, 1 / 4, by decide +kernel, by decide +kernel, by decide +kernel, by decide +kernel⟩

/-! ### Concrete case -/

/-- a ray from height 5 on a slanted triangle and a shadow ray to the side: all hypotheses of `C184_self` hold, for the triangle itself and for a neighbour in its plane -/
example : ∃ (p1 p2 p3 q1 q2 q3 d : V3 ℚ) (r : Ray ℚ) (L G L' G' S : ℚ), Coplanar p1 p2 p3 q1 q2 q3 ∧ Sized p1 p2 p3 r L G ∧ Transversal p1 p2 p3 r.d ∧
    2 ^ (-45 : ℤ) * skew p1 p2 p3 r.d L G ≤ 1 / 8 ∧ (q1 ≠ p1 ∧ Transversal q1 q2 q3 d ∧ 2 ^ (-45 : ℤ) * skew q1 q2 q3 d L' G' ≤ 1 / 8 ∧ L ≤ S ∧ L' ≤ S ∧ Within S r.o) ∧
    ∃ t b1 b2, coreR ieee p1 p2 p3 r = some (t, b1, b2) ∧ Sized q1 q2 q3 (secondary r t d ⊤) L' G' ∧ G * |t| ≤ S ∧
      2 ^ (-29 : ℤ) * (skew p1 p2 p3 r.d L G * skew q1 q2 q3 d L' G') * (S / G') < t := by
  refine ⟨⟨1, 1, 0⟩, ⟨5, 1, 4⟩, ⟨1, 5, 4⟩, ⟨5, 5, 8⟩, ⟨5, 1, 4⟩, ⟨1, 5, 4⟩, ⟨1 / 2, 0, 1⟩, ⟨⟨2, 2, 8⟩, ⟨0, 0, -1⟩, 0, ⊤⟩, 8, 1, 8, 1, 8, ?_, ?_, ?_, ?_, ?_, 6, 1 / 4, 1 / 4, ?_, ?_, ?_, ?_⟩
  · simp only [Coplanar]; decide +kernel
  · refine ⟨⟨by norm_num, by norm_num⟩, ⟨by norm_num, by norm_num⟩, ⟨?_, ?_, ?_, ?_, ?_⟩, ?_, ?_, ?_, ?_⟩
    all_goals first | (simp only [Within]; decide +kernel) | skip
    all_goals refine ⟨Grid.mono (show (-200 : ℤ) ≤ 0 by norm_num) ?_, Grid.mono (show (-200 : ℤ) ≤ 0 by norm_num) ?_, Grid.mono (show (-200 : ℤ) ≤ 0 by norm_num) ?_⟩
    all_goals first | exact ⟨0, by decide +kernel⟩ | exact ⟨1, by decide +kernel⟩ | exact ⟨-1, by decide +kernel⟩ | exact ⟨2, by decide +kernel⟩ | exact ⟨4, by decide +kernel⟩ | exact ⟨5, by decide +kernel⟩ | exact ⟨8, by decide +kernel⟩
  · simp only [Transversal]; decide +kernel
  · decide +kernel
  · refine ⟨by decide +kernel, by simp only [Transversal]; decide +kernel, by decide +kernel, by decide +kernel, by decide +kernel, by simp only [Within]; decide +kernel⟩
  · decide +kernel
  · refine ⟨⟨by norm_num, by norm_num⟩, ⟨by norm_num, by norm_num⟩, ⟨?_, ?_, ?_, ?_, ?_⟩, ?_, ?_, ?_, ?_⟩
    all_goals first | (simp only [Within]; decide +kernel) | skip
    all_goals refine ⟨Grid.mono (show (-200 : ℤ) ≤ -1 by norm_num) ?_, Grid.mono (show (-200 : ℤ) ≤ -1 by norm_num) ?_, Grid.mono (show (-200 : ℤ) ≤ -1 by norm_num) ?_⟩
    all_goals first | exact ⟨0, by decide +kernel⟩ | exact ⟨1, by decide +kernel⟩ | exact ⟨2, by decide +kernel⟩ | exact ⟨4, by decide +kernel⟩ | exact ⟨8, by decide +kernel⟩ | exact ⟨10, by decide +kernel⟩ | exact ⟨16, by decide +kernel⟩
  · decide +kernel
  · decide +kernel

end Verif.SelfHit
