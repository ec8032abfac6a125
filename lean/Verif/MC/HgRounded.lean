import Verif.MC.Rounded
import Verif.MC.Phase
import Verif.Geom.Rounded
import Verif.Reflection.DiffuseRounded

/-!
# Henyey-Greenstein sampling in rounded arithmetic (C201)

`sample_hg` (`pytracer/montecarlo/utility.py` 236-255) with every operation rounded to binary64; `np.cos` and `np.sin` as in `Verif.MC.Rounded`.  The exact model is `Verif.MC.sampleHg`.
-/

namespace Verif.HgR
open V3 Verif.Rnd Verif.MCR Verif.Geom
open Verif.DiffR (EPSR epsR)
open Verif.GeomR (coordinateSystemR Nearly BigV)

/-! ### Model -/

open Classical in
/-- the cosine, montecarlo/utility.py 246-250 -/
noncomputable def hgCosR (g u1 : ℝ) : ℝ :=
  if |g| < EPSR then double (1 - double (2 * u1))
  else
    let sqr := double (double (1 - double (g * g)) / double (double (1 - g) + double (double (2 * g) * u1)))
    double (double (double (1 + double (g * g)) - double (sqr * sqr)) / double (2 * g))

/-- one coordinate of `spherical_direction` with a basis, geometry/utility.py 103 (operations on vectors are made coordinate by coordinate) -/
noncomputable def spherR (st ct cosphi sinphi x y z : ℝ) : ℝ :=
  double (double (double (double (x * st) * cosphi) + double (double (y * st) * sinphi)) + double (z * ct))

/-- `sample_hg`, montecarlo/utility.py 236-255 -/
noncomputable def sampleHgR (cosR sinR : ℝ → ℝ) (w : V3 ℝ) (g u1 u2 : ℝ) : V3 ℝ :=
  let ct := hgCosR g u1
  let st := double (√(max 0 (double (1 - double (ct * ct)))))
  let phi := turnR u2
  let v1 := (coordinateSystemR w).2.1
  let v2 := (coordinateSystemR w).2.2
  ⟨spherR st ct (cosR phi) (sinR phi) v1.x v2.x w.x, spherR st ct (cosR phi) (sinR phi) v1.y v2.y w.y, spherR st ct (cosR phi) (sinR phi) v1.z v2.z w.z⟩

/-! ### Specification -/

/-- the cosine whose distribution is the Henyey-Greenstein phase function (`C67_hg_follows`) -/
noncomputable def hgFormula (g u : ℝ) : ℝ := (1 + g ^ 2 - ((1 - g ^ 2) / (1 - g + 2 * g * u)) ^ 2) / (2 * g)

/-! ### The cosine -/

theorem lin_range {g u : ℝ} (hg : |g| ≤ 1) (h0 : 0 ≤ u) (h1 : u ≤ 1) : 1 - |g| ≤ 1 - g + 2 * g * u ∧ 1 - g + 2 * g * u ≤ 2 := by
  have e : 1 - g + 2 * g * u = 1 + g * (2 * u - 1) := by ring
  have k : |g * (2 * u - 1)| ≤ |g| := by
    rw [abs_mul]; exact mul_le_of_le_one_right (abs_nonneg _) (abs_le.2 ⟨by linarith, by linarith⟩)
  have := abs_le.1 k
  rw [e]
  constructor <;> linarith

theorem formula_range {g u : ℝ} (hg : |g| < 1) (hg0 : g ≠ 0) (h0 : 0 ≤ u) (h1 : u ≤ 1) : |hgFormula g u| ≤ 1 := by
  obtain ⟨g0, g1⟩ := abs_lt.1 hg
  have hd : 0 < 1 - g + 2 * g * u := MC.hg_lin g u g0 g1 h0 h1
  have hs1 : 0 < 1 - g ^ 2 := by nlinarith
  unfold hgFormula
  set s := (1 - g ^ 2) / (1 - g + 2 * g * u) with hs
  -- 1 - |g| ≤ s ≤ 1 + |g|
  obtain ⟨l1, l2⟩ := lin_range hg.le h0 h1
  have ga : 0 < |g| := abs_pos.2 hg0
  have fac : 1 - g ^ 2 = (1 - |g|) * (1 + |g|) := by rw [← sq_abs]; ring
  have su : s ≤ 1 + |g| := by
    rw [hs, div_le_iff₀ hd, fac]
    nlinarith
  have l3 : 1 - g + 2 * g * u ≤ 1 + |g| := by
    have k : |g * (2 * u - 1)| ≤ |g| := by
      rw [abs_mul]; exact mul_le_of_le_one_right (abs_nonneg _) (abs_le.2 ⟨by linarith, by linarith⟩)
    have := (abs_le.1 k).2
    linarith
  have sl : 1 - |g| ≤ s := by
    rw [hs, le_div_iff₀ hd, fac]
    exact mul_le_mul_of_nonneg_left l3 (by linarith)
  have s0 : 0 ≤ s := by linarith
  have q1 : s ^ 2 ≤ (1 + |g|) ^ 2 := pow_le_pow_left₀ s0 su 2
  have q2 : (1 - |g|) ^ 2 ≤ s ^ 2 := pow_le_pow_left₀ (by linarith) sl 2
  have sa := sq_abs g
  rw [abs_div, div_le_one (abs_pos.2 (by simpa using hg0)), abs_mul, abs_of_pos (two_pos : (0 : ℝ) < 2)]
  exact abs_le.2 ⟨by nlinarith, by nlinarith⟩

theorem near8' {x b : ℝ} (h : |x| ≤ b) (hb : b ≤ 15 / 2) : |double x - x| ≤ 4 * 2 ^ (-52 : ℤ) := by
  have := near8 (h.trans hb)
  norm_num at *
  linarith

/-- the quotient of perturbed numbers -/
theorem quot_close {N N' D D' γ e : ℝ} (e0 : 0 ≤ e) (γp : 0 < γ) (Dp : 0 < D) (D'h : γ / 2 ≤ D') (s0 : 0 ≤ N / D) (s2 : N / D ≤ 2) (nn : |N' - N| ≤ 2 * e) (dD : |D' - D| ≤ 12 * e) :
    |N' / D' - N / D| ≤ 54 * (e / γ) := by
  have D'p : 0 < D' := by linarith
  have e1 : N' / D' - N / D = ((N' - N) - N / D * (D' - D)) / D' := by field_simp; ring
  rw [e1, abs_div, abs_of_pos D'p, ← mul_div_assoc, div_le_div_iff₀ D'p γp]
  have k1 : |N' - N - N / D * (D' - D)| ≤ 26 * e := by
    refine (abs_sub _ _).trans ?_
    rw [abs_mul, abs_of_nonneg s0]
    generalize N / D = s at *
    have := mul_le_mul s2 dD (abs_nonneg _) (by norm_num)
    linarith
  have k2 := mul_le_mul_of_nonneg_right k1 γp.le
  have k3 := mul_le_mul_of_nonneg_left D'h (show (0 : ℝ) ≤ 54 * e by positivity)
  have := mul_nonneg e0 γp.le
  linarith

/-- the rest of the computation, for the quotient `s` and its approximation `q` -/
theorem rest_close {g s q K t : ℝ} (g17 : 2 ^ (-17 : ℤ) ≤ |g|) (g1 : |g| ≤ 1) (s0 : 0 ≤ s) (s2 : s ≤ 2) (q0 : 0 ≤ q) (dq : |q - s| ≤ 54 * t) (small : t ≤ 2 ^ (-32 : ℤ)) (one : 2 ^ (-52 : ℤ) ≤ t)
    (dK : |K - (1 + g ^ 2)| ≤ 5 * t) (F : |(1 + g ^ 2 - s ^ 2) / (2 * g)| ≤ 1) :
    |double (double (K - double (double q * double q)) / (2 * g)) - (1 + g ^ 2 - s ^ 2) / (2 * g)| ≤ 2 ^ (25 : ℤ) * t := by
  have gp : 0 < |g| := lt_of_lt_of_le (by positivity) g17
  have gne : g ≠ 0 := abs_pos.1 gp
  have t0 : 0 ≤ t := le_trans (by positivity) one
  have q1 : q ≤ 9 / 4 := by have := (abs_le.1 dq).2; clear * - this small s2; norm_num at *; linarith
  have a4 := near8' (x := q) (b := 9 / 4) (by rwa [abs_of_nonneg q0]) (by norm_num)
  have S0 := d_nonneg q0
  generalize double q = S at *
  have dS : |S - s| ≤ 58 * t := (abs_sub_le _ q _).trans (by linarith)
  have S1 : S ≤ 9 / 4 := by have := (abs_le.1 dS).2; clear * - this small s2; norm_num at *; linarith
  have dSS : |S * S - s ^ 2| ≤ 290 * t := by
    rw [show S * S - s ^ 2 = (S - s) * (S + s) by ring, abs_mul, abs_of_nonneg (show 0 ≤ S + s by linarith)]
    have := mul_le_mul dS (show S + s ≤ 5 by linarith) (by linarith) ((abs_nonneg _).trans dS)
    linarith
  have SS0 : 0 ≤ S * S := mul_self_nonneg S
  have SS1 : S * S ≤ 21 / 4 := by
    have := mul_le_mul S1 S1 S0 (by norm_num); linarith
  have a5 := near8' (x := S * S) (b := 21 / 4) (by rwa [abs_of_nonneg SS0]) (by norm_num)
  generalize double (S * S) = T at *
  have dT : |T - s ^ 2| ≤ 294 * t := (abs_sub_le _ (S * S) _).trans (by linarith)
  have dM : |K - T - (1 + g ^ 2 - s ^ 2)| ≤ 299 * t := by
    rw [show K - T - (1 + g ^ 2 - s ^ 2) = (K - (1 + g ^ 2)) - (T - s ^ 2) by ring]
    exact (abs_sub _ _).trans (by linarith)
  have M4 : |1 + g ^ 2 - s ^ 2| ≤ 2 * |g| := by
    rw [abs_div, div_le_one (abs_pos.2 (by simpa using gne)), abs_mul, abs_of_pos (two_pos : (0 : ℝ) < 2)] at F
    exact F
  generalize 1 + g ^ 2 - s ^ 2 = m at *
  have a6 := near8' (x := K - T) (b := 3) (by
    have k := abs_sub_abs_le_abs_sub (K - T) m
    clear * - k dM M4 g1 small
    norm_num at *
    linarith) (by norm_num)
  generalize double (K - T) = M at *
  have dM' : |M - m| ≤ 303 * t := (abs_sub_le _ (K - T) _).trans (by linarith)
  have dR : |M / (2 * g) - m / (2 * g)| ≤ 303 * 2 ^ (16 : ℤ) * t := by
    rw [← sub_div, abs_div, abs_mul, abs_of_pos (two_pos : (0 : ℝ) < 2), div_le_iff₀ (by linarith)]
    refine dM'.trans ?_
    have := mul_le_mul_of_nonneg_left g17 (show 0 ≤ 303 * 2 ^ (16 : ℤ) * t by positivity)
    clear * - this
    norm_num at *
    linarith
  generalize m / (2 * g) = c at *
  have fin : |M / (2 * g)| ≤ 5 / 4 := by
    have k := abs_sub_abs_le_abs_sub (M / (2 * g)) c
    clear * - k F dR small
    norm_num at *
    linarith
  have a7 := near8' fin (by norm_num)
  have r := abs_sub_le (double (M / (2 * g))) (M / (2 * g)) c
  clear * - r a7 dR one t0
  norm_num at *
  linarith

theorem cos_close {g u : ℝ} (hgd : IsDouble g) (hg : EPSR ≤ |g|) (hg1 : |g| ≤ 1 - 2 ^ (-20 : ℤ)) (h0 : 0 ≤ u) (h1 : u ≤ 1) :
    |hgCosR g u - hgFormula g u| ≤ 2 ^ (-27 : ℤ) / (1 - |g|) := by
  obtain ⟨-, e17, -⟩ := epsR
  have g17 : 2 ^ (-17 : ℤ) ≤ |g| := e17.trans hg
  have gp : 0 < |g| := lt_of_lt_of_le (by positivity) g17
  have gne : g ≠ 0 := abs_pos.1 gp
  have c20 : (0 : ℝ) < 2 ^ (-20 : ℤ) := by positivity
  have g1 : |g| ≤ 1 := by linarith
  set γ := 1 - |g| with hγ
  have γ0 : 2 ^ (-20 : ℤ) ≤ γ := by rw [hγ]; linarith
  have γp : 0 < γ := lt_of_lt_of_le c20 γ0
  have γ1 : γ ≤ 1 := by rw [hγ]; linarith
  have F := formula_range (by linarith : |g| < 1) gne h0 h1
  obtain ⟨D1, D2⟩ := lin_range g1 h0 h1
  have tw : double (2 * g) = 2 * g := by
    obtain ⟨m, e, hm, he, rfl⟩ := hgd
    exact double_of_isDouble ⟨m, e + 1, hm, by omega, by rw [zpow_add₀ (by norm_num)]; ring⟩
  unfold hgCosR
  rw [if_neg (not_lt.2 hg)]
  simp only []
  rw [tw]
  unfold hgFormula at F ⊢
  obtain ⟨n0, n1, nn⟩ := ring_near g1
  have gg := near (x := g * g) ((mul_le_one' g1 g1).trans (by norm_num))
  have gg0 : 0 ≤ g * g := mul_self_nonneg g
  have gg1 : g * g ≤ 1 := by have := mul_le_one' g1 g1; rwa [abs_of_nonneg gg0] at this
  have hg' := abs_le.1 g1
  have a1 := near8' (x := 1 - g) (b := 2) (abs_le.2 ⟨by linarith, by linarith⟩) (by norm_num)
  have gu : |2 * g * u| ≤ 2 := by
    rw [abs_mul, abs_mul, abs_of_pos (two_pos : (0 : ℝ) < 2), abs_of_nonneg h0]; nlinarith
  have a2 := near8' gu (by norm_num)
  have p0 : 0 ≤ double (g * g) := d_nonneg gg0
  have p1 : double (g * g) ≤ 1 := d_le_one gg1
  have b1 := near8' (x := 1 + double (g * g)) (b := 2) (abs_le.2 ⟨by linarith, by linarith⟩) (by norm_num)
  generalize double (1 + double (g * g)) = K at *
  generalize double (1 - double (g * g)) = N' at *
  generalize double (g * g) = G at *
  generalize double (1 - g) = X at *
  generalize double (2 * g * u) = Y at *
  set D := 1 - g + 2 * g * u with hD
  have XY : |X + Y - D| ≤ 8 * 2 ^ (-52 : ℤ) := by
    rw [show X + Y - D = (X - (1 - g)) + (Y - 2 * g * u) by rw [hD]; ring]
    exact (abs_add_le _ _).trans (by linarith)
  have a3 := near8' (x := X + Y) (b := 3) (by
    have t := abs_sub_abs_le_abs_sub (X + Y) D
    have : |D| ≤ 2 := abs_le.2 ⟨by linarith, D2⟩
    norm_num at *
    linarith) (by norm_num)
  generalize double (X + Y) = D' at *
  have dD : |D' - D| ≤ 12 * 2 ^ (-52 : ℤ) := (abs_sub_le _ (X + Y) _).trans (by linarith)
  have Dp : 0 < D := lt_of_lt_of_le γp D1
  have D'h : γ / 2 ≤ D' := by
    have := (abs_le.1 dD).1
    norm_num at *
    linarith
  have D'p : 0 < D' := by linarith
  rw [← sq g] at gg
  -- the quotient
  set N := 1 - g ^ 2 with hN
  have N0 : 0 ≤ N := by rw [hN]; nlinarith
  have s2 : N / D ≤ 2 := by
    have fac : N = γ * (1 + |g|) := by rw [hN, hγ, ← sq_abs]; ring
    rw [div_le_iff₀ Dp, fac]
    have := mul_le_mul D1 (show 1 + |g| ≤ 2 by linarith) (by linarith) Dp.le
    linarith
  have s0 : 0 ≤ N / D := div_nonneg N0 Dp.le
  have dq := quot_close (show (0 : ℝ) ≤ 2 ^ (-52 : ℤ) by positivity) γp Dp D'h s0 s2 nn dD
  have small : 2 ^ (-52 : ℤ) / γ ≤ 2 ^ (-32 : ℤ) := by
    rw [div_le_iff₀ γp]
    have := mul_le_mul_of_nonneg_left γ0 (show (0 : ℝ) ≤ 2 ^ (-32 : ℤ) by positivity)
    clear * - this
    norm_num at *
    linarith
  have one : 2 ^ (-52 : ℤ) ≤ 2 ^ (-52 : ℤ) / γ := by
    rw [le_div_iff₀ γp]; exact mul_le_of_le_one_right (by positivity) γ1
  have dK : |K - (1 + g ^ 2)| ≤ 5 * (2 ^ (-52 : ℤ) / γ) := by
    have k := abs_sub_le K (1 + G) (1 + g ^ 2)
    rw [show 1 + G - (1 + g ^ 2) = G - g ^ 2 by ring] at k
    generalize (2 : ℝ) ^ (-52 : ℤ) / γ = t at *
    clear * - k b1 gg one
    linarith
  have r := rest_close g17 g1 s0 s2 (div_nonneg n0 D'p.le) dq small one dK F
  refine r.trans (le_of_eq ?_)
  rw [← mul_div_assoc, ← zpow_add₀ (by norm_num)]; norm_num

/-- **C201** The cosine that is sampled: for asymmetries below `EPS` within `2^-49` of the uniform one, otherwise within `2^-27 / (1 - |g|)` of the one that follows the Henyey-Greenstein phase function exactly. -/
theorem C201_cosine (g u1 : ℝ) (hg : IsDouble g) (hg1 : |g| ≤ 1 - 2 ^ (-20 : ℤ)) (h0 : 0 ≤ u1) (h1 : u1 ≤ 1) :
    (|g| < EPSR → |hgCosR g u1 - (1 - 2 * u1)| ≤ 2 ^ (-49 : ℤ) ∧ |hgCosR g u1| ≤ 1) ∧ (EPSR ≤ |g| → |hgCosR g u1 - hgFormula g u1| ≤ 2 ^ (-27 : ℤ) / (1 - |g|)) := by
  refine ⟨fun h => ?_, fun h => cos_close hg h hg1 h0 h1⟩
  obtain ⟨a, b⟩ := sphere_z h0 h1
  unfold hgCosR
  rw [if_pos h]
  exact ⟨b.trans (by norm_num), a⟩

/-! ### The direction -/

theorem spher_close {st ct c s x y z : ℝ} (t0 : 0 ≤ st) (t1 : st ≤ 1) (hct : |ct| ≤ 5 / 4) (hc : |c| ≤ 1) (hs : |s| ≤ 1) (hx : |x| ≤ 3 / 2) (hy : |y| ≤ 3 / 2) (hz : |z| ≤ 3 / 2) :
    |spherR st ct c s x y z - (x * (st * c) + y * (st * s) + z * ct)| ≤ 2 ^ (-47 : ℤ) := by
  have key : ∀ a b : ℝ, |a| ≤ 3 / 2 → |b| ≤ 1 → |double (double (a * st) * b) - a * (st * b)| ≤ 5 * 2 ^ (-52 : ℤ) ∧ |a * (st * b)| ≤ 3 / 2 := fun a b ha hb => by
    have k0 : |a * st| ≤ 3 / 2 := by rw [abs_mul, abs_of_nonneg t0]; exact (mul_le_of_le_one_right (abs_nonneg _) t1).trans ha
    have n1 := near k0
    have k1 : |a * (st * b)| ≤ 3 / 2 := by rw [← mul_assoc, abs_mul]; exact (mul_le_of_le_one_right (abs_nonneg _) hb).trans k0
    have k2 : |double (a * st) * b - a * (st * b)| ≤ 2 ^ (-52 : ℤ) := by
      rw [← mul_assoc, ← sub_mul, abs_mul]; exact (mul_le_of_le_one_right (abs_nonneg _) hb).trans n1
    have k3 : |double (a * st) * b| ≤ 2 := by
      have := abs_sub_abs_le_abs_sub (double (a * st) * b) (a * (st * b))
      norm_num at *
      linarith
    have n2 := near8' k3 (by norm_num)
    refine ⟨(abs_sub_le _ (double (a * st) * b) _).trans (by linarith), k1⟩
  obtain ⟨p1, p2⟩ := key x c hx hc
  obtain ⟨q1, q2⟩ := key y s hy hs
  have r2 : |z * ct| ≤ 15 / 8 := by
    rw [abs_mul]
    have := mul_le_mul hz hct (abs_nonneg _) (by norm_num)
    linarith
  have r1 := near8' r2 (by norm_num)
  unfold spherR
  generalize double (double (x * st) * c) = P at *
  generalize double (double (y * st) * s) = Q at *
  generalize double (z * ct) = R at *
  generalize x * (st * c) = p at *
  generalize y * (st * s) = q at *
  generalize z * ct = r at *
  have m1 : |P + Q| ≤ 4 := by
    rw [abs_le] at *
    norm_num at *
    constructor <;> linarith
  have n1 := near8' m1 (by norm_num)
  generalize double (P + Q) = W at *
  have m2 : |W + R| ≤ 7 := by
    rw [abs_le] at *
    norm_num at *
    constructor <;> linarith
  have n2 := near8' m2 (by norm_num)
  generalize double (W + R) = Z at *
  rw [abs_le] at *
  norm_num at *
  constructor <;> linarith

theorem comp_le {v : V3 ℝ} (h : |sqLength v - 1| ≤ 2 ^ (-41 : ℤ)) : |v.x| ≤ 3 / 2 ∧ |v.y| ≤ 3 / 2 ∧ |v.z| ≤ 3 / 2 := by
  have h2 := (abs_le.1 h).2
  simp only [sqLength] at h2
  have : v.x * v.x + v.y * v.y + v.z * v.z ≤ 2 := by norm_num at *; linarith
  refine ⟨?_, ?_, ?_⟩ <;>
    exact abs_le_of_sq_le_sq (by nlinarith [mul_self_nonneg v.x, mul_self_nonneg v.y, mul_self_nonneg v.z]) (by norm_num)

theorem mul_le_of {a b A B : ℝ} (ha : |a| ≤ A) (hb : |b| ≤ B) : |a * b| ≤ A * B := by
  rw [abs_mul]; exact mul_le_mul ha hb (abs_nonneg _) ((abs_nonneg _).trans ha)

/-- a vector with given coordinates in a nearly orthonormal frame, up to `2^-47` in every component -/
theorem frame_coords {a b c v : V3 ℝ} {p q ct : ℝ} (hF : Nearly (2 ^ (-41 : ℤ)) a b c) (hp : |p| ≤ 1) (hq : |q| ≤ 1) (hct : |ct| ≤ 5 / 4)
    (hx : |v.x - (b.x * p + c.x * q + a.x * ct)| ≤ 2 ^ (-47 : ℤ)) (hy : |v.y - (b.y * p + c.y * q + a.y * ct)| ≤ 2 ^ (-47 : ℤ)) (hz : |v.z - (b.z * p + c.z * q + a.z * ct)| ≤ 2 ^ (-47 : ℤ)) :
    |dot a v - ct| ≤ 2 ^ (-39 : ℤ) ∧ |dot b v - p| ≤ 2 ^ (-39 : ℤ) ∧ |dot c v - q| ≤ 2 ^ (-39 : ℤ) ∧ |sqLength v - (p ^ 2 + q ^ 2 + ct ^ 2)| ≤ 2 ^ (-36 : ℤ) := by
  obtain ⟨ax, ay, az⟩ := comp_le hF.a1
  obtain ⟨bx, by', bz⟩ := comp_le hF.b1
  obtain ⟨cx, cy, cz⟩ := comp_le hF.c1
  obtain ⟨a1, b1, c1, ab, ac, bc, -⟩ := hF
  have H : ∀ d : V3 ℝ, |d.x| ≤ 3 / 2 → |d.y| ≤ 3 / 2 → |d.z| ≤ 3 / 2 →
      |dot d v - (dot d b * p + dot d c * q + dot d a * ct)| ≤ 9 / 2 * 2 ^ (-47 : ℤ) := fun d dx dy dz => by
    have e : dot d v - (dot d b * p + dot d c * q + dot d a * ct) = d.x * (v.x - (b.x * p + c.x * q + a.x * ct)) + d.y * (v.y - (b.y * p + c.y * q + a.y * ct)) + d.z * (v.z - (b.z * p + c.z * q + a.z * ct)) := by
      simp only [dot]; ring
    rw [e]
    have k1 := mul_le_of dx hx
    have k2 := mul_le_of dy hy
    have k3 := mul_le_of dz hz
    refine (abs_add_le _ _).trans ((add_le_add (abs_add_le _ _) le_rfl).trans ?_)
    linarith
  have sd : ∀ w : V3 ℝ, dot w w = sqLength w := fun w => by simp only [dot, sqLength]
  have Ha := H a ax ay az
  have Hb := H b bx by' bz
  have Hc := H c cx cy cz
  have eba : dot b a = dot a b := by simp only [dot]; ring
  have eca : dot c a = dot a c := by simp only [dot]; ring
  have ecb : dot c b = dot b c := by simp only [dot]; ring
  rw [sd] at Ha Hb Hc
  rw [eba] at Hb
  rw [eca, ecb] at Hc
  -- the vector itself
  have E : sqLength v = (dot b v) * p + (dot c v) * q + (dot a v) * ct + (v.x * (v.x - (b.x * p + c.x * q + a.x * ct)) + v.y * (v.y - (b.y * p + c.y * q + a.y * ct)) + v.z * (v.z - (b.z * p + c.z * q + a.z * ct))) := by
    simp only [dot, sqLength]; ring
  have vb : ∀ x y z v : ℝ, |x| ≤ 3 / 2 → |y| ≤ 3 / 2 → |z| ≤ 3 / 2 → |v - (x * p + y * q + z * ct)| ≤ 2 ^ (-47 : ℤ) → |v| ≤ 5 := fun x y z v h1 h2 h3 h => by
    have k1 := mul_le_of h1 hp
    have k2 := mul_le_of h2 hq
    have k3 := mul_le_of h3 hct
    generalize x * p = X at *
    generalize y * q = Y at *
    generalize z * ct = Z at *
    rw [abs_le] at *
    norm_num at *
    constructor <;> linarith
  have vx := mul_le_of (vb _ _ _ _ bx cx ax hx) hx
  have vy := mul_le_of (vb _ _ _ _ by' cy ay hy) hy
  have vz := mul_le_of (vb _ _ _ _ bz cz az hz) hz
  have A : |dot a v - ct| ≤ 2 ^ (-39 : ℤ) := by
    have m1 := mul_le_of ab hp
    have m2 := mul_le_of ac hq
    have m3 := mul_le_of a1 hct
    rw [sub_mul, one_mul] at m3
    generalize dot a b * p = X at *
    generalize dot a c * q = Y at *
    generalize sqLength a * ct = Z at *
    generalize dot a v = V at *
    clear * - m1 m2 m3 Ha
    rw [abs_le] at *
    norm_num at *
    constructor <;> linarith
  have B : |dot b v - p| ≤ 2 ^ (-39 : ℤ) := by
    have m1 := mul_le_of b1 hp
    have m2 := mul_le_of bc hq
    have m3 := mul_le_of ab hct
    rw [sub_mul, one_mul] at m1
    generalize sqLength b * p = X at *
    generalize dot b c * q = Y at *
    generalize dot a b * ct = Z at *
    generalize dot b v = V at *
    clear * - m1 m2 m3 Hb
    rw [abs_le] at *
    norm_num at *
    constructor <;> linarith
  have C : |dot c v - q| ≤ 2 ^ (-39 : ℤ) := by
    have m1 := mul_le_of bc hp
    have m2 := mul_le_of c1 hq
    have m3 := mul_le_of ac hct
    rw [sub_mul, one_mul] at m2
    generalize dot b c * p = X at *
    generalize sqLength c * q = Y at *
    generalize dot a c * ct = Z at *
    generalize dot c v = V at *
    clear * - m1 m2 m3 Hc
    rw [abs_le] at *
    norm_num at *
    constructor <;> linarith
  refine ⟨A, B, C, ?_⟩
  rw [E]
  have m1 := mul_le_of B hp
  have m2 := mul_le_of C hq
  have m3 := mul_le_of A hct
  rw [sub_mul, ← sq] at m1 m2 m3
  generalize v.x * (v.x - (b.x * p + c.x * q + a.x * ct)) = X at *
  generalize v.y * (v.y - (b.y * p + c.y * q + a.y * ct)) = Y at *
  generalize v.z * (v.z - (b.z * p + c.z * q + a.z * ct)) = Z at *
  generalize dot b v * p = U at *
  generalize dot c v * q = V at *
  generalize dot a v * ct = W at *
  clear * - m1 m2 m3 vx vy vz
  rw [abs_le] at *
  norm_num at *
  constructor <;> linarith

theorem ct_range {g u1 : ℝ} (hg : IsDouble g) (hg1 : |g| ≤ 1 - 2 ^ (-20 : ℤ)) (h0 : 0 ≤ u1) (h1 : u1 ≤ 1) : |hgCosR g u1| ≤ 1 + 2 ^ (-27 : ℤ) / (1 - |g|) ∧ 2 ^ (-27 : ℤ) / (1 - |g|) ≤ 2 ^ (-7 : ℤ) := by
  have γ0 : 2 ^ (-20 : ℤ) ≤ 1 - |g| := by linarith
  have γp : 0 < 1 - |g| := lt_of_lt_of_le (by positivity) γ0
  have small : 2 ^ (-27 : ℤ) / (1 - |g|) ≤ 2 ^ (-7 : ℤ) := by
    rw [div_le_iff₀ γp]
    have := mul_le_mul_of_nonneg_left γ0 (show (0 : ℝ) ≤ 2 ^ (-7 : ℤ) by positivity)
    clear * - this
    norm_num at *
    linarith
  refine ⟨?_, small⟩
  obtain ⟨a, b⟩ := C201_cosine g u1 hg hg1 h0 h1
  have pos : 0 ≤ 2 ^ (-27 : ℤ) / (1 - |g|) := by positivity
  rcases lt_or_ge |g| EPSR with h | h
  · linarith [(a h).2]
  · have k := b h
    obtain ⟨-, e17, -⟩ := epsR
    have gne : g ≠ 0 := by
      rintro rfl
      rw [abs_zero] at h
      have : (0 : ℝ) < 2 ^ (-17 : ℤ) := by positivity
      linarith
    have F := formula_range (by linarith : |g| < 1) gne h0 h1
    have := abs_sub_abs_le_abs_sub (hgCosR g u1) (hgFormula g u1)
    linarith

section
variable {cosR sinR : ℝ → ℝ}

/-- **C201** The direction.  `w` is a unit vector up to `2^-42`, `v` the direction that is returned, `ct` the cosine of `C201_cosine`.  The cosine between `w` and `v` is `ct` up to `2^-39`; across `w`, along the axes of its coordinate system,
`v` has the components `r cos 2πu2` and `r sin 2πu2` up to `2^-38` with `r² = max(0, 1 - ct²)` up to `2^-50`; and `v` has length one: its square is at least `1 - 2^-35` and at most `1 + 2^-25/(1 - |g|) + 2^-35`, at most
`1 + 2^-35` unless `|ct|` exceeds one by rounding. -/
theorem C201_direction (h : Trig cosR sinR) (w : V3 ℝ) (hw : BigV (-400) w) (hu : |sqLength w - 1| ≤ 2 ^ (-42 : ℤ)) (g u1 u2 : ℝ) (hg : IsDouble g) (hg1 : |g| ≤ 1 - 2 ^ (-20 : ℤ))
    (a0 : 0 ≤ u1) (a1 : u1 ≤ 1) (b0 : 0 ≤ u2) (b1 : u2 ≤ 1) :
    let v := sampleHgR cosR sinR w g u1 u2
    let ct := hgCosR g u1
    |dot w v - ct| ≤ 2 ^ (-39 : ℤ) ∧
    (∃ r, 0 ≤ r ∧ |r ^ 2 - max 0 (1 - ct ^ 2)| ≤ 2 ^ (-50 : ℤ) ∧ |dot (coordinateSystemR w).2.1 v - r * Real.cos (2 * Real.pi * u2)| ≤ 2 ^ (-38 : ℤ) ∧ |dot (coordinateSystemR w).2.2 v - r * Real.sin (2 * Real.pi * u2)| ≤ 2 ^ (-38 : ℤ)) ∧
    1 - 2 ^ (-35 : ℤ) ≤ sqLength v ∧ sqLength v ≤ 1 + 2 ^ (-25 : ℤ) / (1 - |g|) + 2 ^ (-35 : ℤ) ∧ (|ct| ≤ 1 → sqLength v ≤ 1 + 2 ^ (-35 : ℤ)) := by
  intro v ct
  obtain ⟨e1, hF⟩ := GeomR.C183_frame w hw (2 ^ (-42 : ℤ)) (by norm_num) hu
  rw [e1, show (2 : ℝ) ^ (-42 : ℤ) + 2 ^ (-42 : ℤ) = 2 ^ (-41 : ℤ) by norm_num] at hF
  obtain ⟨cr, small⟩ := ct_range hg hg1 a0 a1
  have hct : |ct| ≤ 5 / 4 := cr.trans (by clear * - small; norm_num at *; linarith)
  obtain ⟨s0, s1, -, -, sq', -⟩ := DiffR.sin_close ⟨0, 0, ct⟩
  have es : Refl.sinTheta ⟨0, 0, ct⟩ ^ 2 = max 0 (1 - ct ^ 2) := by
    unfold Refl.sinTheta
    rw [Real.sq_sqrt (le_max_left _ _)]; simp only []; rw [← sq]
  rw [es] at sq'
  set st := DiffR.sinThetaR ⟨0, 0, ct⟩ with hst
  have hst' : double (√(max 0 (double (1 - double (ct * ct))))) = st := rfl
  set b := (coordinateSystemR w).2.1 with hb
  set c := (coordinateSystemR w).2.2 with hc
  obtain ⟨wx, wy, wz⟩ := comp_le hF.a1
  obtain ⟨bx, by', bz⟩ := comp_le hF.b1
  obtain ⟨cx, cy, cz⟩ := comp_le hF.c1
  have C1 := h.cos_le (turnR u2)
  have S1 := h.sin_le (turnR u2)
  have hst1 : |st| ≤ 1 := by rwa [abs_of_nonneg s0]
  have P1 := mul_le_one' hst1 C1
  have Q1 := mul_le_one' hst1 S1
  have vx : v.x = spherR st ct (cosR (turnR u2)) (sinR (turnR u2)) b.x c.x w.x := rfl
  have vy : v.y = spherR st ct (cosR (turnR u2)) (sinR (turnR u2)) b.y c.y w.y := rfl
  have vz : v.z = spherR st ct (cosR (turnR u2)) (sinR (turnR u2)) b.z c.z w.z := rfl
  obtain ⟨A, B, C, L⟩ := frame_coords (v := v) hF P1 Q1 hct (by rw [vx]; exact spher_close s0 s1 hct C1 S1 bx cx wx) (by rw [vy]; exact spher_close s0 s1 hct C1 S1 by' cy wy)
    (by rw [vz]; exact spher_close s0 s1 hct C1 S1 bz cz wz)
  have tn := turn_near b0 b1
  have kc := cos_at h (turnR u2) (2 * Real.pi * u2)
  have ks := sin_at h (turnR u2) (2 * Real.pi * u2)
  have near1 : ∀ x y : ℝ, |x - y| ≤ 2 ^ (-52 : ℤ) + |turnR u2 - 2 * Real.pi * u2| → |st * x - st * y| ≤ 2 ^ (-46 : ℤ) := fun x y hxy => by
    rw [← mul_sub, abs_mul]
    refine (mul_le_of_le_one_left (abs_nonneg _) hst1).trans (hxy.trans ?_)
    clear * - tn
    norm_num at *
    linarith
  -- the length
  have qc := sq_sub C1 (Real.abs_cos_le_one _) (h.cos_near (turnR u2))
  have qs := sq_sub S1 (Real.abs_sin_le_one _) (h.sin_near (turnR u2))
  have pq : |(st * cosR (turnR u2)) ^ 2 + (st * sinR (turnR u2)) ^ 2 - st ^ 2| ≤ 4 * 2 ^ (-52 : ℤ) := by
    have e : (st * cosR (turnR u2)) ^ 2 + (st * sinR (turnR u2)) ^ 2 - st ^ 2 = st ^ 2 * ((cosR (turnR u2) ^ 2 - Real.cos (turnR u2) ^ 2) + (sinR (turnR u2) ^ 2 - Real.sin (turnR u2) ^ 2)) := by
      have := Real.cos_sq_add_sin_sq (turnR u2)
      linear_combination (st ^ 2) * this
    rw [e, abs_mul, abs_of_nonneg (sq_nonneg st)]
    refine (mul_le_of_le_one_left (abs_nonneg _) (pow_le_one₀ s0 s1)).trans ((abs_add_le _ _).trans ?_)
    linarith
  have mx : |sqLength v - max (ct ^ 2) 1| ≤ 2 ^ (-35 : ℤ) := by
    have e : max 0 (1 - ct ^ 2) + ct ^ 2 = max (ct ^ 2) 1 := by rw [← max_add_add_right, zero_add, sub_add_cancel]
    rw [← e]
    generalize max 0 (1 - ct ^ 2) = m at *
    generalize (st * cosR (turnR u2)) ^ 2 = X at *
    generalize (st * sinR (turnR u2)) ^ 2 = Y at *
    generalize st ^ 2 = Z at *
    generalize ct ^ 2 = W at *
    clear * - L pq sq'
    rw [abs_le] at *
    norm_num at *
    constructor <;> linarith
  have mx' := abs_le.1 mx
  refine ⟨A, ⟨st, s0, sq'.trans (by norm_num), ?_, ?_⟩, ?_, ?_, fun hc1 => ?_⟩
  · have := near1 _ _ kc
    refine (abs_sub_le _ (st * cosR (turnR u2)) _).trans ((add_le_add B this).trans (by norm_num))
  · have := near1 _ _ ks
    refine (abs_sub_le _ (st * sinR (turnR u2)) _).trans ((add_le_add C this).trans (by norm_num))
  · have := le_max_right (ct ^ 2) 1
    clear * - mx' this
    linarith [mx'.1]
  · have k : max (ct ^ 2) 1 ≤ 1 + 4 * (2 ^ (-27 : ℤ) / (1 - |g|)) := by
      have pos : 0 ≤ 2 ^ (-27 : ℤ) / (1 - |g|) := by
        have : (0 : ℝ) < 2 ^ (-20 : ℤ) := by positivity
        have : 0 < 1 - |g| := by linarith
        positivity
      refine max_le ?_ (by linarith)
      rw [← sq_abs]
      generalize 2 ^ (-27 : ℤ) / (1 - |g|) = ρ at *
      have := pow_le_pow_left₀ (abs_nonneg _) cr 2
      refine this.trans ?_
      have r1 : ρ ≤ 1 := small.trans (by norm_num)
      have := mul_le_mul_of_nonneg_left r1 pos
      clear * - this pos
      linarith [show (1 + ρ) ^ 2 = 1 + 2 * ρ + ρ * ρ by ring]
    rw [show (2 : ℝ) ^ (-25 : ℤ) = 4 * 2 ^ (-27 : ℤ) by norm_num, mul_div_assoc]
    have m2 := mx'.2
    generalize 2 ^ (-27 : ℤ) / (1 - |g|) = ρ at *
    generalize max (ct ^ 2) 1 = m at *
    clear * - m2 k
    linarith
  · have : max (ct ^ 2) 1 = 1 := max_eq_right ((sq_le_one_iff_abs_le_one _).2 hc1)
    rw [this] at mx'
    clear * - mx'
    linarith [mx'.2]

end

/-- Forward scattering with `g = 3/4` about the third axis, with correctly rounded sine and cosine. -/
example : |dot (⟨0, 0, 1⟩ : V3 ℝ) (sampleHgR (fun x => double (Real.cos x)) (fun x => double (Real.sin x)) ⟨0, 0, 1⟩ (3 / 4) (1 / 4) (1 / 8)) - hgFormula (3 / 4) (1 / 4)| ≤ 2 ^ (-24 : ℤ) := by
  have hg : IsDouble (3 / 4 : ℝ) := ⟨3, -2, by norm_num, by norm_num, by norm_num⟩
  have d0 : IsDouble (0 : ℝ) := ⟨0, 0, by norm_num, by norm_num, by simp⟩
  have d1 : IsDouble (1 : ℝ) := ⟨1, 0, by norm_num, by norm_num, by simp⟩
  have a34 : |(3 / 4 : ℝ)| = 3 / 4 := abs_of_pos (by norm_num)
  have c := (C201_cosine (3 / 4) (1 / 4) hg (by rw [a34]; norm_num) (by norm_num) (by norm_num)).2 (by rw [a34]; exact (epsR.2.2).trans (by norm_num))
  have k := (C201_direction trig_round ⟨0, 0, 1⟩ ⟨⟨d0, Or.inl rfl⟩, ⟨d0, Or.inl rfl⟩, ⟨d1, Or.inr (by rw [abs_one]; exact zpow_le_one_of_nonpos₀ (by norm_num) (by norm_num))⟩⟩ (by simp [sqLength])
    (3 / 4) (1 / 4) (1 / 8) hg (by rw [a34]; norm_num) (by norm_num) (by norm_num) (by norm_num) (by norm_num)).1
  refine (abs_sub_le _ (hgCosR (3 / 4) (1 / 4)) _).trans ((add_le_add k c).trans ?_)
  rw [a34]; norm_num

end Verif.HgR
