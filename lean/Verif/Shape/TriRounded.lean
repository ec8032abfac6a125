import Verif.Num.Grid
import Verif.Shape.Triangle

/-!
# The triangle test in rounded arithmetic (C180)

`Triangle.intersect` and `intersect_p` (`pytracer/shape/triangle.py:173-207`, `245-279`, the same statements in both) with the result of every operation rounded.
`np.dot` of two 3-arrays is taken as `(x x' + y y') + z z'` with each operation rounded.  Overflow is not modelled.
-/
set_option linter.unusedSectionVars false

namespace Verif.Shape
open V3 Verif.Rnd

variable {K : Type*} [Field K] [LinearOrder K] [IsStrictOrderedRing K] [FloorRing K]

/-! ### Model -/

/-- difference of two points (`geometry/__init__.py:166-174`), rounded -/
def subR (R : Rounding K) (a b : V3 K) : V3 K := ⟨R.sub' a.x b.x, R.sub' a.y b.y, R.sub' a.z b.z⟩

/-- `Vector.cross` (`geometry/__init__.py:79-82`), rounded -/
def crossR (R : Rounding K) (a b : V3 K) : V3 K :=
  ⟨R.sub' (R.mul a.y b.z) (R.mul a.z b.y), R.sub' (R.mul a.z b.x) (R.mul a.x b.z), R.sub' (R.mul a.x b.y) (R.mul a.y b.x)⟩

/-- `np.dot`, rounded -/
def dotR (R : Rounding K) (a b : V3 K) : K := R.add (R.add (R.mul a.x b.x) (R.mul a.y b.y)) (R.mul a.z b.z)

/-- the test (`triangle.py:183-207`, `255-279`): `t` and the barycentric coordinates `b1`, `b2` -/
def coreR (R : Rounding K) (p1 p2 p3 : V3 K) (r : Ray K) : Option (K × K × K) :=
  let e1 := subR R p2 p1
  let e2 := subR R p3 p1
  let s1 := crossR R r.d e2
  let div := dotR R s1 e1
  if div = 0 then none else
  let divInv := R.div 1 div
  let d := subR R r.o p1
  let b1 := R.mul (dotR R d s1) divInv
  if b1 < 0 ∨ b1 > 1 then none else
  let s2 := crossR R d e1
  let b2 := R.mul (dotR R r.d s2) divInv
  if b2 < 0 ∨ R.add b1 b2 > 1 then none else
  let t := R.mul (dotR R e2 s2) divInv
  if t < r.mint ∨ (t : WithTop K) > r.maxt then none else some (t, b1, b2)

/-! ### Specification -/

/-- no component is larger than `B` -/
def Within (B : K) (v : V3 K) : Prop := |v.x| ≤ B ∧ |v.y| ≤ B ∧ |v.z| ≤ B

/-- every component is a multiple of `2^-200` (so zero or at least that: no underflow) -/
def Coarse (v : V3 K) : Prop := Grid (-200) v.x ∧ Grid (-200) v.y ∧ Grid (-200) v.z

/-- sizes: the other two corners and the origin of the ray are within `L` of the first corner in each coordinate, the direction has components up to `G`; no number so small
or so large that it underflows or overflows -/
structure Sized (p1 p2 p3 : V3 K) (r : Ray K) (L G : K) : Prop where
  size : 0 < L ∧ L ≤ 2 ^ (100 : ℤ)
  speed : 0 < G ∧ G ≤ 2 ^ (100 : ℤ)
  coarse : Coarse p1 ∧ Coarse p2 ∧ Coarse p3 ∧ Coarse r.o ∧ Coarse r.d
  e1 : Within L (p2 - p1)
  e2 : Within L (p3 - p1)
  o : Within L (r.o - p1)
  d : Within G r.d

/-- the tolerance: `2^-45` times `G L²` over the volume spanned by direction and edges; it is about `2^-45` for a ray that meets a well-shaped triangle of size `L` at a large
angle, and grows when the triangle is thin or far away or the ray nearly parallel -/
def tol (p1 p2 p3 : V3 K) (r : Ray K) (L G : K) : K := 2 ^ (-45 : ℤ) * (G * L ^ 2) / |dot (cross r.d (p3 - p1)) (p2 - p1)|

/-! ### Lemmas -/

/-- componentwise approximation of vectors -/
structure VFlt (k : ℕ) (g : ℤ) (vc v : V3 K) (A : K) : Prop where
  x : Flt k g vc.x v.x A
  y : Flt k g vc.y v.y A
  z : Flt k g vc.z v.z A

theorem VFlt.given {g : ℤ} {v : V3 K} {B : K} (hg : Grid g v.x ∧ Grid g v.y ∧ Grid g v.z) (h : Within B v) : VFlt 0 g v v B :=
  ⟨(Flt.refl hg.1).mono le_rfl h.1, (Flt.refl hg.2.1).mono le_rfl h.2.1, (Flt.refl hg.2.2).mono le_rfl h.2.2⟩

theorem VFlt.diff {g : ℤ} (hg : -1074 ≤ g) {a b : V3 K} {B : K} (ha : Grid g a.x ∧ Grid g a.y ∧ Grid g a.z) (hb : Grid g b.x ∧ Grid g b.y ∧ Grid g b.z)
    (h : Within B (a - b)) : VFlt 1 g (subR ieee a b) (a - b) B :=
  ⟨(Flt.diff hg ha.1 hb.1).mono le_rfl h.1, (Flt.diff hg ha.2.1 hb.2.1).mono le_rfl h.2.1, (Flt.diff hg ha.2.2 hb.2.2).mono le_rfl h.2.2⟩

theorem VFlt.cross {k l : ℕ} {g f : ℤ} (hg : -1074 ≤ g + f) {ac a bc b : V3 K} {A B : K} (ha : VFlt k g ac a A) (hb : VFlt l f bc b B) :
    VFlt (k + l + 2) (g + f) (crossR ieee ac bc) (cross a b) (2 * (A * B)) := by
  have e : 2 * (A * B) = A * B + A * B := by ring
  rw [e]
  exact ⟨(ha.y.rmul hg hb.z).rsub hg (ha.z.rmul hg hb.y), (ha.z.rmul hg hb.x).rsub hg (ha.x.rmul hg hb.z), (ha.x.rmul hg hb.y).rsub hg (ha.y.rmul hg hb.x)⟩

theorem VFlt.dot {k l : ℕ} {g f : ℤ} (hg : -1074 ≤ g + f) {ac a bc b : V3 K} {A B : K} (ha : VFlt k g ac a A) (hb : VFlt l f bc b B) :
    Flt (k + l + 3) (g + f) (dotR ieee ac bc) (dot a b) (3 * (A * B)) := by
  have e : 3 * (A * B) = A * B + A * B + A * B := by ring
  rw [e]
  exact ((ha.x.rmul hg hb.x).radd hg (ha.y.rmul hg hb.y)).radd hg ((ha.z.rmul hg hb.z).mono (by omega) le_rfl)

/-- a quotient computed as the product with the rounded reciprocal -/
theorem quot_err {Nc N Dc D η s : K} (hD : D ≠ 0) (hη : 0 < η) (hκ : η ≤ |D| / 16) (hu : |D| ≤ 2 ^ (49 : ℤ) * η) (hs : 0 < s) (hd : |Dc - D| ≤ η) (hn : |Nc - N| ≤ η * s)
    (gN : Grid (-600) Nc) (hbig : |D| ≤ 2 ^ (400 : ℤ)) :
    Dc ≠ 0 ∧ |double (Nc * double (1 / Dc)) - N / D| ≤ 2 * η / |D| * (s + |N / D|) := by
  have D0 : 0 < |D| := abs_pos.2 hD
  have h1 : |D| ≤ |Dc| + η := by
    have := abs_add_le Dc (D - Dc)
    rw [add_sub_cancel, abs_sub_comm D Dc] at this
    linarith
  have h1' : |Dc| ≤ |D| + η := by
    have := abs_add_le D (Dc - D)
    rw [add_sub_cancel] at this
    linarith
  have hDc : 15 / 16 * |D| ≤ |Dc| := by linarith
  have Dc0 : 0 < |Dc| := by linarith
  have Dcne : Dc ≠ 0 := abs_pos.1 Dc0
  refine ⟨Dcne, ?_⟩
  -- the exact quotient of the computed numbers
  have q1 : |Nc / Dc - N / D| ≤ 16 / 15 * (η / |D|) * (s + |N / D|) := by
    have e : Nc / Dc - N / D = ((Nc - N) - N / D * (Dc - D)) / Dc := by field_simp; ring
    rw [e, abs_div, div_le_iff₀ Dc0]
    have a1 : |Nc - N - N / D * (Dc - D)| ≤ η * s + |N / D| * η := by
      refine (abs_sub _ _).trans ?_
      rw [abs_mul]
      exact add_le_add hn (mul_le_mul_of_nonneg_left hd (abs_nonneg _))
    refine a1.trans ?_
    have a2 : 16 / 15 * (η / |D|) * (s + |N / D|) * (15 / 16 * |D|) = η * s + |N / D| * η := by field_simp
    rw [← a2]
    exact mul_le_mul_of_nonneg_left hDc (by positivity)
  have u0 := uu_pos (K := K)
  -- the reciprocal
  have p400 : (2 : K) ^ (-402 : ℤ) * (2 ^ (400 : ℤ) * 2) ≤ 1 := by
    rw [← zpow_add_one₀ two_ne_zero, ← zpow_add₀ two_ne_zero]
    exact zpow_le_one_of_nonpos₀ (by norm_num) (by norm_num)
  have hinv : (2 : K) ^ (-402 : ℤ) ≤ |1 / Dc| := by
    rw [abs_div, abs_one, le_div_iff₀ Dc0]
    have : |Dc| ≤ 2 ^ (400 : ℤ) * 2 := by generalize (2 : K) ^ (400 : ℤ) = b at *; linarith
    exact (mul_le_mul_of_nonneg_left this (two_zpow_pos _).le).trans p400
  have r1 : |double (1 / Dc) - 1 / Dc| ≤ uu * |1 / Dc| := double_err_rel (le_trans (zpow_le_zpow_right₀ (by norm_num) (by norm_num)) hinv)
  have ub : (uu : K) ≤ 1 / 16 := by rw [uu_eq]; norm_num
  have hinv2 : (2 : K) ^ (-403 : ℤ) ≤ |double (1 / Dc)| := by
    have := abs_sub_abs_le_abs_sub (1 / Dc) (double (1 / Dc))
    rw [abs_sub_comm] at this
    have e : (2 : K) ^ (-402 : ℤ) = 2 * 2 ^ (-403 : ℤ) := by rw [show (-402 : ℤ) = 1 + -403 by norm_num, zpow_add₀ two_ne_zero]; norm_num
    rw [e] at hinv
    have hp := two_zpow_pos (K := K) (-403)
    generalize (2 : K) ^ (-403 : ℤ) = p at *
    nlinarith
  have r2 : |double (Nc * double (1 / Dc)) - Nc * double (1 / Dc)| ≤ uu * |Nc * double (1 / Dc)| := by
    rcases gN.zero_or with h | h
    · rw [h, zero_mul, double_zero]; simp
    · refine double_err_rel ?_
      rw [abs_mul]
      calc (2 : K) ^ (-1022 : ℤ) ≤ 2 ^ (-600 : ℤ) * 2 ^ (-403 : ℤ) := by rw [← zpow_add₀ two_ne_zero]; exact zpow_le_zpow_right₀ (by norm_num) (by norm_num)
        _ ≤ |Nc| * |double (1 / Dc)| := mul_le_mul h hinv2 (two_zpow_pos _).le (abs_nonneg _)
  set Q := |Nc / Dc| with hQ
  have r3 : |Nc * double (1 / Dc) - Nc / Dc| ≤ uu * Q := by
    have e : Nc * double (1 / Dc) - Nc / Dc = Nc * (double (1 / Dc) - 1 / Dc) := by ring
    rw [e, abs_mul, hQ, show Nc / Dc = Nc * (1 / Dc) by ring, abs_mul]
    have := mul_le_mul_of_nonneg_left r1 (abs_nonneg Nc)
    linarith
  have r4 : |Nc * double (1 / Dc)| ≤ (1 + uu) * Q := by
    have := abs_add_le (Nc * double (1 / Dc) - Nc / Dc) (Nc / Dc)
    rw [sub_add_cancel] at this
    linarith
  have Q0 : 0 ≤ Q := abs_nonneg _
  have r5 : |double (Nc * double (1 / Dc)) - Nc / Dc| ≤ 3 * uu * Q := by
    have := abs_add_le (double (Nc * double (1 / Dc)) - Nc * double (1 / Dc)) (Nc * double (1 / Dc) - Nc / Dc)
    rw [sub_add_sub_cancel] at this
    have k := mul_le_mul_of_nonneg_left r4 u0.le
    have k' : uu * ((1 + uu) * Q) ≤ uu * (2 * Q) := mul_le_mul_of_nonneg_left (mul_le_mul_of_nonneg_right (by linarith) Q0) u0.le
    linarith
  -- all together
  set κ := η / |D| with hκe
  have κ0 : 0 < κ := div_pos hη D0
  have κ1 : κ ≤ 1 / 16 := by rw [hκe, div_le_iff₀ D0]; linarith
  have κ2 : 16 * uu ≤ κ := by
    rw [hκe, le_div_iff₀ D0]
    calc 16 * uu * |D| ≤ 16 * uu * (2 ^ (49 : ℤ) * η) := mul_le_mul_of_nonneg_left hu (by positivity)
      _ = η := by rw [uu_eq]; norm_num; ring
  set T := s + |N / D| with hT
  have T0 : 0 < T := by positivity
  have hQT : Q ≤ 2 * T := by
    have := abs_add_le (Nc / Dc - N / D) (N / D)
    rw [sub_add_cancel] at this
    have hb : |N / D| ≤ T := by rw [hT]; linarith
    nlinarith
  have fin := abs_add_le (double (Nc * double (1 / Dc)) - Nc / Dc) (Nc / Dc - N / D)
  rw [sub_add_sub_cancel] at fin
  have e2 : 2 * η / |D| * T = 2 * κ * T := by rw [hκe]; ring
  rw [e2]
  have k1 : 3 * uu * Q ≤ 3 * uu * (2 * T) := mul_le_mul_of_nonneg_left hQT (by positivity)
  have k2 : 16 * uu * T ≤ κ * T := mul_le_mul_of_nonneg_right κ2 T0.le
  nlinarith

/-- what is computed for one ray and triangle, without the tests -/
structure Computed (p1 p2 p3 : V3 K) (r : Ray K) (Dc N1 N2 Nt : K) : Prop where
  D : Dc = dotR ieee (crossR ieee r.d (subR ieee p3 p1)) (subR ieee p2 p1)
  b1 : N1 = dotR ieee (subR ieee r.o p1) (crossR ieee r.d (subR ieee p3 p1))
  b2 : N2 = dotR ieee r.d (crossR ieee (subR ieee r.o p1) (subR ieee p2 p1))
  t : Nt = dotR ieee (subR ieee p3 p1) (crossR ieee (subR ieee r.o p1) (subR ieee p2 p1))

theorem computed_err {p1 p2 p3 : V3 K} {r : Ray K} {L G : K} (h : Sized p1 p2 p3 r L G) (h0 : Transversal p1 p2 p3 r.d) (ht : tol p1 p2 p3 r L G ≤ 1 / 8)
    {Dc N1 N2 Nt : K} (hc : Computed p1 p2 p3 r Dc N1 N2 Nt) :
    Dc ≠ 0 ∧ ∃ t b1 b2 : K, rayAt r.o r.d t = bary p1 p2 p3 b1 b2 ∧ 0 < tol p1 p2 p3 r L G ∧ 8 * uu ≤ tol p1 p2 p3 r L G ∧
      |double (N1 * double (1 / Dc)) - b1| ≤ tol p1 p2 p3 r L G * (1 + |b1|) ∧
      |double (N2 * double (1 / Dc)) - b2| ≤ tol p1 p2 p3 r L G * (1 + |b2|) ∧
      |double (Nt * double (1 / Dc)) - t| ≤ tol p1 p2 p3 r L G * (L / G + |t|) := by
  obtain ⟨c1, c2, c3, co, cd⟩ := h.coarse
  have L0 := h.size.1
  have G0 := h.speed.1
  have fe1 := VFlt.diff (by norm_num) c2 c1 h.e1
  have fe2 := VFlt.diff (by norm_num) c3 c1 h.e2
  have fo := VFlt.diff (by norm_num) co c1 h.o
  have fd := VFlt.given cd h.d
  have fs1 := fd.cross (by norm_num) fe2
  have fD := fs1.dot (by norm_num) fe1
  have fN1 := fo.dot (by norm_num) fs1
  have fs2 := fo.cross (by norm_num) fe1
  have fN2 := fd.dot (by norm_num) fs2
  have fNt := fe2.dot (by norm_num) fs2
  norm_num at fD fN1 fN2 fNt
  rw [← hc.D] at fD
  rw [← hc.b1] at fN1
  rw [← hc.b2] at fN2
  rw [← hc.t] at fNt
  set D := dot (cross r.d (p3 - p1)) (p2 - p1) with hD
  have hD0 : D ≠ 0 := by
    rw [hD, div_eq, neg_ne_zero]; exact h0
  have D0 : 0 < |D| := abs_pos.2 hD0
  set η : K := 2 ^ (-46 : ℤ) * (G * L ^ 2) with hη
  have M0 : 0 < G * L ^ 2 := by positivity
  have η0 : 0 < η := mul_pos (two_zpow_pos _) M0
  have etol : tol p1 p2 p3 r L G = 2 * η / |D| := by
    rw [tol, ← hD, hη, show (2 : K) ^ (-45 : ℤ) = 2 * 2 ^ (-46 : ℤ) by norm_num]; ring
  have bound : ∀ {k : ℕ} {xc x A s : K}, Err k xc x A → k ≤ 8 → 0 < s → A = 6 * (G * L ^ 2) * s → |xc - x| ≤ η * s := by
    intro k xc x A s he hk hs hA
    have := he.rel (by omega)
    refine this.trans ?_
    rw [hA, hη]
    have k8 : (k : K) ≤ 8 := by exact_mod_cast hk
    have : (k : K) * 2 ^ (-52 : ℤ) ≤ 8 * 2 ^ (-52 : ℤ) := mul_le_mul_of_nonneg_right k8 (two_zpow_pos _).le
    calc (k : K) * 2 ^ (-52 : ℤ) * (6 * (G * L ^ 2) * s) ≤ 8 * 2 ^ (-52 : ℤ) * (6 * (G * L ^ 2) * s) := mul_le_mul_of_nonneg_right this (by positivity)
      _ ≤ 2 ^ (-46 : ℤ) * (G * L ^ 2) * s := by
        rw [show (2 : K) ^ (-46 : ℤ) = 64 * 2 ^ (-52 : ℤ) by norm_num]
        have := mul_pos (mul_pos (two_zpow_pos (K := K) (-52)) M0) hs
        nlinarith
  have hκ : η ≤ |D| / 16 := by
    rw [etol, div_le_iff₀ D0] at ht; linarith
  have hu : |D| ≤ 2 ^ (49 : ℤ) * η := by
    have := fD.err.2
    rw [hη, ← mul_assoc, ← zpow_add₀ two_ne_zero]
    norm_num
    nlinarith
  have hbig : |D| ≤ 2 ^ (400 : ℤ) := by
    have a := fD.err.2
    have l2 : L * L ≤ 2 ^ (100 : ℤ) * 2 ^ (100 : ℤ) := mul_le_mul h.size.2 h.size.2 L0.le (two_zpow_pos _).le
    have l3 : G * (L * L) ≤ 2 ^ (100 : ℤ) * (2 ^ (100 : ℤ) * 2 ^ (100 : ℤ)) := mul_le_mul h.speed.2 l2 (by positivity) (two_zpow_pos _).le
    rw [← zpow_add₀ two_ne_zero, ← zpow_add₀ two_ne_zero] at l3
    have e : (2 : K) ^ (400 : ℤ) = 2 ^ (97 : ℤ) * (2 ^ (3 : ℤ) * 2 ^ (100 + (100 + 100) : ℤ)) := by rw [← zpow_add₀ two_ne_zero, ← zpow_add₀ two_ne_zero]; norm_num
    have e1 : (1 : K) ≤ 2 ^ (97 : ℤ) := one_le_zpow₀ (by norm_num) (by norm_num)
    rw [e]
    have p := two_zpow_pos (K := K) (100 + (100 + 100))
    generalize (2 : K) ^ (100 + (100 + 100) : ℤ) = q at *
    generalize (2 : K) ^ (97 : ℤ) = w at *
    norm_num
    have e3 : 8 * q ≤ w * (8 * q) := le_mul_of_one_le_left (by positivity) e1
    have e4 : 3 * (2 * (G * L) * L) = 6 * (G * (L * L)) := by ring
    rw [e4] at a
    linarith
  have dd : |Dc - D| ≤ η := by
    have := bound fD.err (by norm_num) one_pos (by ring)
    rwa [mul_one] at this
  have sLG : 0 < L / G := div_pos L0 G0
  have k1 := quot_err hD0 η0 hκ hu one_pos dd (bound fN1.err (by norm_num) one_pos (by ring)) fN1.grid hbig
  have k2 := quot_err hD0 η0 hκ hu one_pos dd (bound fN2.err (by norm_num) one_pos (by ring)) fN2.grid hbig
  have k3 := quot_err hD0 η0 hκ hu sLG dd (bound fNt.err (by norm_num) sLG (by field_simp; ring)) fNt.grid hbig
  rw [← etol] at k1 k2 k3
  refine ⟨k1.1, _, _, _, ?_, ?_, ?_, k1.2, k2.2, k3.2⟩
  · rw [cramer p1 p2 p3 r.o r.d hD0]
    exact ⟨by rw [← hD]; ring, by rw [← hD]; ring, by rw [← hD]; ring⟩
  · rw [etol]; positivity
  · rw [etol, le_div_iff₀ D0]
    calc 8 * uu * |D| ≤ 8 * uu * (2 ^ (49 : ℤ) * η) := mul_le_mul_of_nonneg_left hu (by have := uu_pos (K := K); positivity)
      _ ≤ 2 * η := by rw [uu_eq]; norm_num; linarith

/-- with no rounding this is the test of `Shape/Triangle.lean` -/
theorem coreR_exact (p1 p2 p3 : V3 K) (r : Ray K) : coreR Rounding.exact p1 p2 p3 r = core p1 p2 p3 r := rfl

theorem coreR_iff (p1 p2 p3 : V3 K) (r : Ray K) {Dc N1 N2 Nt : K} (hc : Computed p1 p2 p3 r Dc N1 N2 Nt) (hD : Dc ≠ 0) (t b1 b2 : K) :
    coreR ieee p1 p2 p3 r = some (t, b1, b2) ↔ t = double (Nt * double (1 / Dc)) ∧ b1 = double (N1 * double (1 / Dc)) ∧ b2 = double (N2 * double (1 / Dc)) ∧
      (0 ≤ b1 ∧ b1 ≤ 1) ∧ (0 ≤ b2 ∧ double (b1 + b2) ≤ 1) ∧ r.mint ≤ t ∧ (t : WithTop K) ≤ r.maxt := by
  obtain ⟨rfl, rfl, rfl, rfl⟩ := hc
  have e : ∀ a b : K, Rounding.mul ieee a b = double (a * b) := fun _ _ => rfl
  have e' : ∀ a b : K, Rounding.div ieee a b = double (a / b) := fun _ _ => rfl
  have e'' : ∀ a b : K, Rounding.add ieee a b = double (a + b) := fun _ _ => rfl
  simp only [coreR, if_neg hD, e, e', e'']
  split
  · rename_i g
    refine ⟨fun h => by simp at h, fun ⟨_, h1, _, h2, _⟩ => ?_⟩
    rw [← h1] at g
    rcases g with g | g
    · exact absurd h2.1 (not_le.2 g)
    · exact absurd h2.2 (not_le.2 g)
  · rename_i g1
    split
    · rename_i g
      refine ⟨fun h => by simp at h, fun ⟨_, h1, h2, _, h3, _⟩ => ?_⟩
      rw [← h1, ← h2] at g
      rcases g with g | g
      · exact absurd h3.1 (not_le.2 g)
      · exact absurd h3.2 (not_le.2 g)
    · rename_i g2
      split
      · rename_i g
        refine ⟨fun h => by simp at h, fun ⟨h0, _, _, _, _, h3⟩ => ?_⟩
        rw [← h0] at g
        rcases g with g | g
        · exact absurd h3.1 (not_le.2 g)
        · exact absurd h3.2 (not_le.2 g)
      · rename_i g3
        push Not at g1 g2 g3
        constructor
        · intro h
          simp only [Option.some.injEq, Prod.mk.injEq] at h
          obtain ⟨rfl, rfl, rfl⟩ := h
          exact ⟨rfl, rfl, rfl, g1, g2, g3⟩
        · rintro ⟨rfl, rfl, rfl, _⟩
          rfl

theorem coreR_spec {p1 p2 p3 : V3 K} {r : Ray K} {L G : K} (h : Sized p1 p2 p3 r L G) (h0 : Transversal p1 p2 p3 r.d) {ε : K} (hε : ε = tol p1 p2 p3 r L G) (hs : ε ≤ 1 / 8) :
    ∃ T B1 B2 t b1 b2 : K, IsDouble B1 ∧ IsDouble B2 ∧ rayAt r.o r.d t = bary p1 p2 p3 b1 b2 ∧ 0 < ε ∧ 8 * uu ≤ ε ∧
      |B1 - b1| ≤ ε * (1 + |b1|) ∧ |B2 - b2| ≤ ε * (1 + |b2|) ∧ |T - t| ≤ ε * (L / G + |t|) ∧
      ∀ t' b1' b2' : K, coreR ieee p1 p2 p3 r = some (t', b1', b2') ↔ t' = T ∧ b1' = B1 ∧ b2' = B2 ∧
        (0 ≤ b1' ∧ b1' ≤ 1) ∧ (0 ≤ b2' ∧ double (b1' + b2') ≤ 1) ∧ r.mint ≤ t' ∧ (t' : WithTop K) ≤ r.maxt := by
  have hc : Computed p1 p2 p3 r _ _ _ _ := ⟨rfl, rfl, rfl, rfl⟩
  obtain ⟨hDc, t, b1, b2, hr, e0, e8, k1, k2, k3⟩ := computed_err h h0 (hε ▸ hs) hc
  rw [← hε] at k1 k2 k3 e0 e8
  exact ⟨_, _, _, t, b1, b2, isDouble_double _, isDouble_double _, hr, e0, e8, k1, k2, k3, coreR_iff p1 p2 p3 r hc hDc⟩

/-! ### Theorems -/

/-- **C180** A hit that is clear of the three edges and of both ends of the ray, by a few times the tolerance, is found, and the reported distance and coordinates are those of
the exact intersection up to the tolerance. -/
theorem C180_found (p1 p2 p3 : V3 K) (r : Ray K) (L G : K) (h : Sized p1 p2 p3 r L G) (h0 : Transversal p1 p2 p3 r.d) (ε : K) (hε : ε = tol p1 p2 p3 r L G) (hs : ε ≤ 1 / 8)
    (t b1 b2 : K) (hit : rayAt r.o r.d t = bary p1 p2 p3 b1 b2) (hb1 : 2 * ε ≤ b1) (hb2 : 2 * ε ≤ b2) (hb : b1 + b2 ≤ 1 - 3 * ε)
    (hmin : r.mint ≤ t - ε * (L / G + |t|)) (hmax : ((t + ε * (L / G + |t|) : K) : WithTop K) ≤ r.maxt) :
    ∃ t' b1' b2', coreR ieee p1 p2 p3 r = some (t', b1', b2') ∧ |t' - t| ≤ ε * (L / G + |t|) ∧ |b1' - b1| ≤ 2 * ε ∧ |b2' - b2| ≤ 2 * ε := by
  obtain ⟨T, B1, B2, t₀, β1, β2, -, -, hr, e0, e8, k1, k2, k3, H⟩ := coreR_spec h h0 hε hs
  have hD0 : dot (cross r.d (p3 - p1)) (p2 - p1) ≠ 0 := by rw [div_eq, neg_ne_zero]; exact h0
  have u := (cramer p1 p2 p3 r.o r.d hD0 t b1 b2).1 hit
  have v := (cramer p1 p2 p3 r.o r.d hD0 t₀ β1 β2).1 hr
  obtain rfl : t₀ = t := by rw [u.1, v.1]
  obtain rfl : β1 = b1 := by rw [u.2.1, v.2.1]
  obtain rfl : β2 = b2 := by rw [u.2.2, v.2.2]
  rw [abs_of_nonneg (show 0 ≤ β1 by linarith)] at k1
  rw [abs_of_nonneg (show 0 ≤ β2 by linarith)] at k2
  have m1 : ε * β1 ≤ ε * 1 := mul_le_mul_of_nonneg_left (by linarith) e0.le
  have m2 : ε * β2 ≤ ε * 1 := mul_le_mul_of_nonneg_left (by linarith) e0.le
  have m3 : ε * (β1 + β2) ≤ ε * 1 := mul_le_mul_of_nonneg_left (by linarith) e0.le
  have a1 := abs_le.1 k1
  have a2 := abs_le.1 k2
  have a3 := abs_le.1 k3
  refine ⟨T, B1, B2, (H _ _ _).2 ⟨rfl, rfl, rfl, ⟨by linarith, by linarith⟩, ⟨by linarith, ?_⟩, by linarith, le_trans ?_ hmax⟩, k3, by linarith, by linarith⟩
  · exact Rounding.rnd_le ieee (Rounding.rep_one _) (by linarith)
  · exact_mod_cast (by linarith : T ≤ t₀ + ε * (L / G + |t₀|))

/-- **C180** Whatever is reported as a hit is the intersection of the ray with the plane of the triangle up to the tolerance, and that point is outside the triangle by no more
than a few times the tolerance. -/
theorem C180_reported (p1 p2 p3 : V3 K) (r : Ray K) (L G : K) (h : Sized p1 p2 p3 r L G) (h0 : Transversal p1 p2 p3 r.d) (ε : K) (hε : ε = tol p1 p2 p3 r L G) (hs : ε ≤ 1 / 8)
    (t' b1' b2' : K) (hit : coreR ieee p1 p2 p3 r = some (t', b1', b2')) :
    ∃ t b1 b2, rayAt r.o r.d t = bary p1 p2 p3 b1 b2 ∧ -(2 * ε) ≤ b1 ∧ -(2 * ε) ≤ b2 ∧ b1 + b2 ≤ 1 + 5 * ε ∧
      |t' - t| ≤ ε * (L / G + |t|) ∧ |b1' - b1| ≤ 3 * ε ∧ |b2' - b2| ≤ 3 * ε ∧ InRange r t' := by
  obtain ⟨T, B1, B2, t, b1, b2, i1, i2, hr, e0, e8, k1, k2, k3, H⟩ := coreR_spec h h0 hε hs
  obtain ⟨rfl, rfl, rfl, c1, c2, c3⟩ := (H _ _ _).1 hit
  have s := add_err i1 i2
  have s2 : b1' + b2' ≤ 1 + ε / 4 := by
    rw [abs_of_nonneg (show 0 ≤ b1' + b2' by linarith)] at s
    have := (abs_le.1 s).1
    have hu : (2 : K) ^ (-53 : ℤ) = uu := rfl
    rw [hu] at this
    have u1 : (uu : K) ≤ 1 / 16 := by rw [uu_eq]; norm_num
    have u0 := uu_pos (K := K)
    nlinarith
  have lo : ∀ {b b' : K}, |b' - b| ≤ ε * (1 + |b|) → 0 ≤ b' → b' ≤ 1 + ε → -(8 / 7 * ε) ≤ b ∧ |b| ≤ b + 16 / 7 * ε ∧ |b| ≤ 2 := by
    intro b b' k hb hb1
    have a := abs_le.1 k
    rcases le_total 0 b with h | h
    · rw [abs_of_nonneg h] at *
      refine ⟨by linarith, by linarith, ?_⟩
      nlinarith
    · rw [abs_of_nonpos h] at *
      have : -(8 / 7 * ε) ≤ b := by nlinarith
      exact ⟨this, by linarith, by linarith⟩
  obtain ⟨l1, l2, l3⟩ := lo k1 c1.1 (by linarith)
  obtain ⟨m1, m2, m3⟩ := lo k2 c2.1 (by linarith)
  refine ⟨t, b1, b2, hr, by linarith, by linarith, ?_, k3, k1.trans ?_, k2.trans ?_, c3⟩
  · have a1 := abs_le.1 k1
    have a2 := abs_le.1 k2
    have k : ε * (|b1| + |b2|) ≤ ε * (b1 + b2 + 32 / 7 * ε) := mul_le_mul_of_nonneg_left (by linarith) e0.le
    have k' : ε * ε ≤ ε * (1 / 8) := mul_le_mul_of_nonneg_left hs e0.le
    by_contra hh
    push Not at hh
    nlinarith
  · nlinarith
  · nlinarith

/-- a ray through the interior of the edge shared by the triangles `(0,0,0) (93,1,0) (0,1,0)` and `(0,2,0) (93,1,0) (0,1,0)` -/
def crackRay : Ray ℚ := ⟨⟨1, 1, 1⟩, ⟨0, 0, -1⟩, 0, ⊤⟩

/-- **C180** A closed surface of triangles is not watertight: a ray through the inside of an edge that two triangles share meets both in exact arithmetic and is reported by
neither, although all coordinates are small whole numbers (`1/93 + 92/93` rounds to more than 1). -/
theorem C180_not_watertight : ∃ (p q a b : V3 ℚ) (r : Ray ℚ) (t c : ℚ), 0 < c ∧ c < 1 ∧ rayAt r.o r.d t = c * a + (1 - c) * b ∧ InRange r t ∧
    Transversal p a b r.d ∧ Transversal q a b r.d ∧ core p a b r = some (t, c, 1 - c) ∧ core q a b r = some (t, c, 1 - c) ∧ coreR ieee p a b r = none ∧ coreR ieee q a b r = none := by
  refine ⟨⟨0, 0, 0⟩, ⟨0, 2, 0⟩, ⟨93, 1, 0⟩, ⟨0, 1, 0⟩, crackRay, 1, 1 / 93, by norm_num, by norm_num, ?_, ?_, ?_, ?_, ?_, ?_, ?_, ?_⟩
  · decide +kernel
  · exact ⟨by norm_num [crackRay], le_top⟩
  · simp only [Transversal]; decide +kernel
  · simp only [Transversal]; decide +kernel
  · decide +kernel
  · decide +kernel
  · decide +kernel
  · decide +kernel

/-! ### Concrete cases -/

/-- a ray at a slant on a triangle with corners not on the axes: all hypotheses of `C180_found` hold, with a tolerance below `10^-12` -/
example : ∃ (p1 p2 p3 : V3 ℚ) (r : Ray ℚ) (L G t b1 b2 ε : ℚ), Sized p1 p2 p3 r L G ∧ Transversal p1 p2 p3 r.d ∧ ε = tol p1 p2 p3 r L G ∧ ε ≤ 1 / 1000000000000 ∧
    rayAt r.o r.d t = bary p1 p2 p3 b1 b2 ∧ 2 * ε ≤ b1 ∧ 2 * ε ≤ b2 ∧ b1 + b2 ≤ 1 - 3 * ε ∧ r.mint ≤ t - ε * (L / G + |t|) ∧
    ((t + ε * (L / G + |t|) : ℚ) : WithTop ℚ) ≤ r.maxt ∧ (coreR ieee p1 p2 p3 r).isSome ∧ coreR ieee p1 p2 p3 r ≠ core p1 p2 p3 r := by
  refine ⟨⟨1, 1, 0⟩, ⟨4, 1, 1⟩, ⟨1, 4, 1⟩, ⟨⟨2, 2, 5⟩, ⟨1 / 8, 0, -1⟩, 0, ⊤⟩, 5, 1, 104 / 25, 38 / 75, 1 / 3, _, ?_, ?_, rfl, ?_⟩
  · refine ⟨⟨by norm_num, by norm_num⟩, ⟨by norm_num, by norm_num⟩, ⟨?_, ?_, ?_, ?_, ?_⟩, ?_, ?_, ?_, ?_⟩
    all_goals first | (simp only [Within]; decide +kernel) | skip
    all_goals refine ⟨Grid.mono (show (-200 : ℤ) ≤ -3 by norm_num) ?_, Grid.mono (show (-200 : ℤ) ≤ -3 by norm_num) ?_, Grid.mono (show (-200 : ℤ) ≤ -3 by norm_num) ?_⟩
    all_goals first | exact ⟨0, by decide +kernel⟩ | exact ⟨1, by decide +kernel⟩ | exact ⟨-8, by decide +kernel⟩ | exact ⟨8, by decide +kernel⟩ | exact ⟨16, by decide +kernel⟩ | exact ⟨32, by decide +kernel⟩ | exact ⟨40, by decide +kernel⟩
  · simp only [Transversal]; decide +kernel
  · refine ⟨by decide +kernel, by decide +kernel, by decide +kernel, by decide +kernel, by decide +kernel, by decide +kernel, le_top, by decide +kernel, by decide +kernel⟩

end Verif.Shape
