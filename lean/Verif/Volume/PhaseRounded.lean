import Verif.MC.Phase
import Verif.Reflection.BlinnRounded

/-!
# The Henyey-Greenstein phase function in rounded arithmetic (C208)

`phase_hg` (`pytracer/volume/utility.py` 40-46) with every operation rounded to binary64, in terms of the cosine `s` that line 45 computes.
-/

namespace Verif.PhaseR
open Verif.Rnd Verif.MCR

/-! ### Model -/

/-- what `np.power` is applied to: `1. + g * g - 2. * g * ct`, utility.py 46 -/
noncomputable def baseR (g s : ℝ) : ℝ := double (double (1 + double (g * g)) - double (double (2 * g) * s))

/-- `4. * PI`, utility.py 46 -/
noncomputable def fourPiR : ℝ := double (4 * double Real.pi)

open Classical in
/-- `phase_hg`, utility.py 45-46; `powR` is `np.power`; `none` is a NaN (the power of a negative number) or an infinity (the division by zero) -/
noncomputable def hgR (powR : ℝ → ℝ → ℝ) (g s : ℝ) : Option ℝ :=
  if baseR g s ≤ 0 then none
  else some (double (double (double (1 - double (g * g)) / powR (baseR g s) (3 / 2)) / fourPiR))

/-! ### Specification -/

/-- an accurate `np.power(x, 1.5)` for the positive numbers that occur -/
def Power15 (powR : ℝ → ℝ → ℝ) : Prop := ∀ x, 0 < x → x ≤ 8 → |powR x (3 / 2) - x ^ (3 / 2 : ℝ)| ≤ 2 ^ (-50 : ℤ) * x ^ (3 / 2 : ℝ)

/-- the phase function for the cosine `D` -/
noncomputable def hgExact (g D : ℝ) : ℝ := (1 - g ^ 2) / (1 + g ^ 2 - 2 * g * D) ^ (3 / 2 : ℝ) / (4 * Real.pi)

/-! ### Lemmas -/

theorem base_ge {g D : ℝ} (hg : |g| ≤ 1) (hD : |D| ≤ 1) : (1 - |g|) ^ 2 ≤ 1 + g ^ 2 - 2 * g * D ∧ 1 + g ^ 2 - 2 * g * D ≤ 4 := by
  have h : |g * D| ≤ |g| := by rw [abs_mul]; exact mul_le_of_le_one_right (abs_nonneg _) hD
  have h2 := abs_le.1 h
  have h3 := sq_abs g
  have h0 := abs_nonneg g
  constructor <;> nlinarith

theorem abs_close {a b e B C : ℝ} (h : |a - b| ≤ e) (hb : |b| ≤ B) (he : e ≤ 1 / 8) (hC : B + 1 / 8 ≤ C) : |a| ≤ C := by
  rw [abs_le] at *; constructor <;> linarith

theorem base_err {g D s : ℝ} (hg : |g| ≤ 1) (hD : |D| ≤ 1) (hs : |s - D| ≤ 2 ^ (-48 : ℤ)) : |baseR g s - (1 + g ^ 2 - 2 * g * D)| ≤ 2 ^ (-46 : ℤ) := by
  have g2 : |g * g| ≤ 1 := by rw [abs_mul]; exact mul_le_one₀ hg (abs_nonneg _) hg
  have sm : |s| ≤ 9 / 8 := abs_close hs hD (by norm_num) (by norm_num)
  have e1 := near (x := g * g) (by linarith)
  have e1' : |double (g * g)| ≤ 9 / 8 := abs_close e1 g2 (by norm_num) (by norm_num)
  have e2 := near8 (x := 1 + double (g * g)) (by
    rw [abs_le] at *; constructor <;> linarith)
  have tg : |2 * g| ≤ 2 := by rw [abs_mul, abs_two]; linarith
  have e3 := near8 (x := 2 * g) (by linarith)
  have e3' : |double (2 * g)| ≤ 17 / 8 := abs_close e3 tg (by norm_num) (by norm_num)
  have e4m : |double (2 * g) * s| ≤ 17 / 8 * (9 / 8) := by
    rw [abs_mul]; exact mul_le_mul e3' sm (abs_nonneg _) (by norm_num)
  have e4 := near8 (x := double (2 * g) * s) (by linarith)
  have d1 : |(double (2 * g) - 2 * g) * s| ≤ 2 ^ (-50 : ℤ) * (9 / 8) := by
    rw [abs_mul]; exact mul_le_mul e3 sm (abs_nonneg _) (by positivity)
  have d2 : |2 * g * (s - D)| ≤ 2 * 2 ^ (-48 : ℤ) := by
    rw [abs_mul]; exact mul_le_mul tg hs (abs_nonneg _) (by norm_num)
  have e5 := near8 (x := double (1 + double (g * g)) - double (double (2 * g) * s)) (by
    clear * - e2 e4 e4m e1'
    have z : (2 : ℝ) ^ (-50 : ℤ) ≤ 1 / 8 := by norm_num
    generalize (2 : ℝ) ^ (-50 : ℤ) = y at *
    rw [abs_le] at *; constructor <;> linarith)
  unfold baseR
  clear * - e1 e2 e4 d1 d2 e5
  have i : double (2 * g) * s - 2 * g * D = (double (2 * g) - 2 * g) * s + 2 * g * (s - D) := by ring
  have j : g ^ 2 = g * g := by ring
  rw [j]
  generalize double (double (1 + double (g * g)) - double (double (2 * g) * s)) = A at *
  generalize double (1 + double (g * g)) = B at *
  generalize double (g * g) = C at *
  generalize double (double (2 * g) * s) = E at *
  generalize (double (2 * g) - 2 * g) * s = p at *
  generalize 2 * g * (s - D) = q at *
  generalize double (2 * g) * s = F at *
  generalize 2 * g * D = H at *
  norm_num at *
  rw [abs_le] at *
  constructor <;> linarith

/-- powers of close bases -/
theorem pow_close {b X d : ℝ} (X0 : 0 < X) (d0 : 0 ≤ d) (d1 : d ≤ 1 / 4) (h : |b - X| ≤ d * X) : 0 < b ∧ |b ^ (3 / 2 : ℝ) - X ^ (3 / 2 : ℝ)| ≤ 3 * d * X ^ (3 / 2 : ℝ) := by
  obtain ⟨h1, h2⟩ := abs_le.1 h
  have lo : (1 - d) * X ≤ b := by linarith
  have hi : b ≤ (1 + d) * X := by linarith
  have l0 : 0 < (1 - d) * X := mul_pos (by linarith) X0
  have b0 : 0 < b := by linarith
  refine ⟨b0, ?_⟩
  have p0 : 0 < X ^ (3 / 2 : ℝ) := Real.rpow_pos_of_pos X0 _
  have r1 : ((1 - d) * X) ^ (3 / 2 : ℝ) ≤ b ^ (3 / 2 : ℝ) := Real.rpow_le_rpow l0.le lo (by norm_num)
  have r2 : b ^ (3 / 2 : ℝ) ≤ ((1 + d) * X) ^ (3 / 2 : ℝ) := Real.rpow_le_rpow b0.le hi (by norm_num)
  rw [Real.mul_rpow (by linarith) X0.le] at r1 r2
  have s1 : (1 - d) ^ 2 ≤ (1 - d) ^ (3 / 2 : ℝ) := by
    rw [← Real.rpow_natCast]; exact Real.rpow_le_rpow_of_exponent_ge (by linarith) (by linarith) (by norm_num)
  have s2 : (1 + d) ^ (3 / 2 : ℝ) ≤ (1 + d) ^ 2 := by
    rw [← Real.rpow_natCast]; exact Real.rpow_le_rpow_of_exponent_le (by linarith) (by norm_num)
  generalize X ^ (3 / 2 : ℝ) = P at *
  generalize b ^ (3 / 2 : ℝ) = B at *
  have t1 : (1 - 3 * d) * P ≤ (1 - d) ^ (3 / 2 : ℝ) * P := mul_le_mul_of_nonneg_right (by nlinarith) p0.le
  have t2 : (1 + d) ^ (3 / 2 : ℝ) * P ≤ (1 + 3 * d) * P := mul_le_mul_of_nonneg_right (by nlinarith) p0.le
  rw [abs_le]; constructor <;> linarith

theorem fourPi_err : |fourPiR - 4 * Real.pi| ≤ 2 ^ (-50 : ℤ) * (4 * Real.pi) := by
  have p3 := Real.pi_gt_three
  have p4 := Real.pi_le_four
  have big : ∀ x : ℝ, 1 ≤ x → |double x - x| ≤ 2 ^ (-53 : ℤ) * x := by
    intro x hx
    have := double_err_rel (x := x) (by rw [abs_of_pos (by linarith)]; exact le_trans (zpow_le_one_of_nonpos₀ (by norm_num) (by norm_num)) hx)
    rwa [abs_of_pos (show 0 < x by linarith)] at this
  have a := big Real.pi (by linarith)
  have a1 : 1 ≤ double Real.pi := by
    have := (abs_le.1 a).1; norm_num at this; linarith
  have b := big (4 * double Real.pi) (by linarith)
  unfold fourPiR
  generalize double (4 * double Real.pi) = F at *
  generalize double Real.pi = Q at *
  generalize Real.pi = P at *
  norm_num at *
  rw [abs_le] at *; constructor <;> linarith

/-- rounding a non-negative number that is close to `S` -/
theorem round_rel {S S' k ε z : ℝ} (hz : (2 : ℝ) ^ (-1075 : ℤ) ≤ z) (S0 : 0 < S) (S0' : 0 ≤ S') (ε0 : 2 ^ (-46 : ℤ) ≤ ε) (kε : k * ε ≤ 1) {c : ℝ} (c0 : 0 ≤ c) (h : |S' - S| ≤ k * ε * S + c) :
    |double S' - S| ≤ (k + 1) * ε * S + (2 * c + z) := by
  have r := double_err S'
  rw [abs_of_nonneg S0'] at r
  have t : |double S' - S| ≤ |double S' - S'| + |S' - S| := by rw [show double S' - S = (double S' - S') + (S' - S) by ring]; exact abs_add_le _ _
  have hu : S' ≤ 2 * S + c := by
    have h1 := (abs_le.1 h).2
    have h2 : k * ε * S ≤ 1 * S := mul_le_mul_of_nonneg_right kε S0.le
    linarith
  have h3 : (2 : ℝ) ^ (-53 : ℤ) * S' ≤ 2 ^ (-53 : ℤ) * (2 * S + c) := mul_le_mul_of_nonneg_left hu (by positivity)
  have h4 : (2 : ℝ) ^ (-53 : ℤ) * c ≤ c := mul_le_of_le_one_left c0 (by norm_num)
  have h5 : (2 : ℝ) ^ (-53 : ℤ) * 2 ≤ ε := le_trans (by norm_num) ε0
  have h6 := mul_le_mul_of_nonneg_right h5 S0.le
  generalize (2 : ℝ) ^ (-53 : ℤ) = y at *
  generalize (2 : ℝ) ^ (-1075 : ℤ) = z' at *
  have e1 : (k + 1) * ε * S = k * ε * S + ε * S := by ring
  have e2 : y * (2 * S + c) = y * 2 * S + y * c := by ring
  rw [e1]
  linarith

/-- the two roundings after the quotient, and the division by `4 π` between them -/
theorem tail {R R' ε : ℝ} (R0 : 0 < R) (R0' : 0 ≤ R') (εp : 0 < ε) (ε0 : 2 ^ (-46 : ℤ) ≤ ε) (ε64 : ε ≤ 1 / 64) (h : |R' - R| ≤ 10 * ε * R) :
    0 ≤ double (double R' / fourPiR) ∧ |double (double R' / fourPiR) - R / (4 * Real.pi)| ≤ 64 * ε * (R / (4 * Real.pi)) + 2 ^ (-1000 : ℤ) := by
  have z0 : (0 : ℝ) < 2 ^ (-1075 : ℤ) := by positivity
  have z1 : 16 * (2 : ℝ) ^ (-1075 : ℤ) ≤ 2 ^ (-1000 : ℤ) := by
    rw [show (-1000 : ℤ) = 75 + -1075 by norm_num, zpow_add₀ (by norm_num)]
    exact mul_le_mul_of_nonneg_right (by norm_num) z0.le
  have r2 := round_rel le_rfl R0 R0' ε0 (by linarith) le_rfl (k := 10) (by linarith)
  have fp : |fourPiR - 4 * Real.pi| ≤ ε * (4 * Real.pi) :=
    fourPi_err.trans (mul_le_mul_of_nonneg_right (le_trans (by norm_num) ε0) (by positivity))
  obtain ⟨F0, q2⟩ := BlinnR.quot_rel R0.le (by positivity : (0 : ℝ) < 4 * Real.pi) r2 fp (by linarith)
  have pi12 : (12 : ℝ) ≤ 4 * Real.pi := by linarith [Real.pi_gt_three]
  have DF0 : 0 ≤ double R' / fourPiR := div_nonneg (d_nonneg R0') F0.le
  refine ⟨d_nonneg DF0, ?_⟩
  have S0 : 0 < R / (4 * Real.pi) := div_pos R0 (by linarith)
  have zW : 2 * (2 * 0 + (2 : ℝ) ^ (-1075 : ℤ)) / (4 * Real.pi) ≤ 2 ^ (-1075 : ℤ) := by
    rw [div_le_iff₀ (by linarith)]; nlinarith
  have r3 := round_rel le_rfl S0 DF0 ε0 (by linarith) z0.le (k := 24) (q2.trans (by
    have e : 2 * ((10 + 1) * ε + ε) * (R / (4 * Real.pi)) = 24 * ε * (R / (4 * Real.pi)) := by ring
    rw [e]; linarith))
  refine r3.trans ?_
  have h10 : 0 < ε * (R / (4 * Real.pi)) := mul_pos εp S0
  generalize (2 : ℝ) ^ (-1000 : ℤ) = Z at *
  generalize (2 : ℝ) ^ (-1075 : ℤ) = z at *
  have e1 : (24 + 1) * ε * (R / (4 * Real.pi)) = 25 * (ε * (R / (4 * Real.pi))) := by ring
  have e2 : 64 * ε * (R / (4 * Real.pi)) = 64 * (ε * (R / (4 * Real.pi))) := by ring
  rw [e1, e2]
  linarith

/-! ### Theorems -/

variable {powR : ℝ → ℝ → ℝ}

/-- **C208** for asymmetries of absolute value at most `1 - 2^-20` and directions whose computed cosine `s` is within `2^-48` of the exact one, the phase function
is a number, not negative, and within a relative `2^-40 / (1 - |g|)^2` of the exact one -/
theorem C208_accurate (hp : Power15 powR) (g D s : ℝ) (hg : |g| ≤ 1 - 2 ^ (-20 : ℤ)) (hD : |D| ≤ 1) (hs : |s - D| ≤ 2 ^ (-48 : ℤ)) :
    ∃ res, hgR powR g s = some res ∧ 0 ≤ res ∧ |res - hgExact g D| ≤ 2 ^ (-40 : ℤ) / (1 - |g|) ^ 2 * hgExact g D + 2 ^ (-1000 : ℤ) := by
  have z20 : (0 : ℝ) < 2 ^ (-20 : ℤ) := by positivity
  have hg1 : |g| ≤ 1 := by linarith
  obtain ⟨X1, X2⟩ := base_ge hg1 hD
  have be := base_err hg1 hD hs
  have γ0 : 2 ^ (-20 : ℤ) ≤ 1 - |g| := by linarith
  have γ1 : 1 - |g| ≤ 1 := by have := abs_nonneg g; linarith
  have hN0 : 1 - |g| ≤ 1 - g ^ 2 := by have := sq_abs g; nlinarith [abs_nonneg g]
  have hgg : g * g ≤ 1 := by have := sq_abs g; nlinarith [abs_nonneg g]
  have gg0 := mul_self_nonneg g
  have n1 := near (x := g * g) (by rw [abs_of_nonneg gg0]; linarith)
  have dgg : double (g * g) ≤ 1 := d_le_one hgg
  have dgg0 : 0 ≤ double (g * g) := d_nonneg gg0
  have n2 := near (x := 1 - double (g * g)) (by rw [abs_of_nonneg (by linarith)]; linarith)
  have Nn : 0 ≤ double (1 - double (g * g)) := d_nonneg (by linarith)
  have hNe : |double (1 - double (g * g)) - (1 - g ^ 2)| ≤ 2 ^ (-51 : ℤ) := by
    have j : g ^ 2 = g * g := by ring
    rw [j]
    clear * - n1 n2
    generalize double (1 - double (g * g)) = A at *
    generalize double (g * g) = B at *
    norm_num at *
    rw [abs_le] at *; constructor <;> linarith
  unfold hgR hgExact
  generalize 1 + g ^ 2 - 2 * g * D = X at *
  generalize 1 - g ^ 2 = N at *
  generalize double (1 - double (g * g)) = N' at *
  generalize baseR g s = b at *
  generalize 1 - |g| = γ at *
  clear n1 n2 hgg gg0 dgg dgg0 hD hs hg hg1
  have γp : 0 < γ := by linarith
  have γ2 : 0 < γ ^ 2 := by positivity
  have γ2l : (2 : ℝ) ^ (-40 : ℤ) ≤ γ ^ 2 := by
    have : (2 : ℝ) ^ (-40 : ℤ) = (2 ^ (-20 : ℤ)) ^ 2 := by norm_num
    rw [this]; exact pow_le_pow_left₀ z20.le γ0 2
  have γ21 : γ ^ 2 ≤ 1 := pow_le_one₀ γp.le γ1
  have γ2γ : γ ^ 2 ≤ γ := by nlinarith
  -- the relative error
  obtain ⟨ε, hε⟩ : ∃ ε : ℝ, ε = 2 ^ (-46 : ℤ) / γ ^ 2 := ⟨_, rfl⟩
  have εγ : ε * γ ^ 2 = 2 ^ (-46 : ℤ) := by rw [hε]; field_simp
  have ε0 : (2 : ℝ) ^ (-46 : ℤ) ≤ ε := by rw [hε, le_div_iff₀ γ2]; exact mul_le_of_le_one_right (by positivity) γ21
  have ε1 : ε ≤ 2 ^ (-6 : ℤ) := by
    rw [hε, div_le_iff₀ γ2]
    have : (2 : ℝ) ^ (-46 : ℤ) = 2 ^ (-6 : ℤ) * 2 ^ (-40 : ℤ) := by norm_num
    rw [this]; exact mul_le_mul_of_nonneg_left γ2l (by positivity)
  have ε64 : ε ≤ 1 / 64 := ε1.trans (by norm_num)
  have εp : 0 < ε := lt_of_lt_of_le (by positivity) ε0
  have goalε : (2 : ℝ) ^ (-40 : ℤ) / γ ^ 2 = 64 * ε := by rw [hε]; rw [show (2 : ℝ) ^ (-40 : ℤ) = 64 * 2 ^ (-46 : ℤ) by norm_num]; ring
  rw [goalε]
  have X0 : 0 < X := by linarith
  have hbX : |b - X| ≤ ε * X := be.trans (by rw [← εγ]; exact mul_le_mul_of_nonneg_left X1 εp.le)
  have ε4 : ε ≤ 1 / 4 := ε1.trans (by norm_num)
  obtain ⟨b0, hpc⟩ := pow_close X0 εp.le ε4 hbX
  rw [if_neg (not_le.2 b0)]
  refine ⟨_, rfl, ?_⟩
  have hpw := hp b b0 (by have := (abs_le.1 be).2; have : (2 : ℝ) ^ (-46 : ℤ) ≤ 1 := by norm_num
                          linarith)
  have P0 : 0 < X ^ (3 / 2 : ℝ) := Real.rpow_pos_of_pos X0 _
  generalize X ^ (3 / 2 : ℝ) = P at *
  have hpw' : |powR b (3 / 2) - P| ≤ 4 * ε * P := by
    generalize b ^ (3 / 2 : ℝ) = B at *
    generalize powR b (3 / 2) = Q at *
    have hB : B ≤ 2 * P := by have := (abs_le.1 hpc).2; nlinarith
    have : |Q - P| ≤ |Q - B| + |B - P| := by rw [show Q - P = (Q - B) + (B - P) by ring]; exact abs_add_le _ _
    have h3 : (2 : ℝ) ^ (-50 : ℤ) * B ≤ ε * P := by
      have h4 : (2 : ℝ) ^ (-50 : ℤ) * 2 ≤ ε := le_trans (by norm_num) ε0
      have : (2 : ℝ) ^ (-50 : ℤ) * B ≤ 2 ^ (-50 : ℤ) * (2 * P) := mul_le_mul_of_nonneg_left hB (by positivity)
      nlinarith
    linarith
  generalize powR b (3 / 2) = Q at *
  have N0 : 0 < N := by linarith
  have hN' : |N' - N| ≤ ε * N + 0 := by
    have h5 : ε * γ ^ 2 ≤ ε * N := mul_le_mul_of_nonneg_left (γ2γ.trans hN0) εp.le
    rw [εγ] at h5
    have : (2 : ℝ) ^ (-51 : ℤ) ≤ 2 ^ (-46 : ℤ) := by norm_num
    linarith
  obtain ⟨Q0, q1⟩ := BlinnR.quot_rel N0.le P0 hN' hpw' (by linarith)
  have R0 : 0 < N / P := div_pos N0 P0
  have q1' : |N' / Q - N / P| ≤ 10 * ε * (N / P) := by
    refine q1.trans (le_of_eq ?_); ring
  exact tail R0 (div_nonneg Nn Q0.le) εp ε0 ε64 q1'

/-- the phase function of the specification is the one of the model in exact arithmetic -/
theorem C208_exact (w wp : V3 ℝ) (g : ℝ) : hgExact g (V3.dot w wp) = MC.phaseHg w wp g := by
  simp only [hgExact, MC.phaseHg, pow_two]

/-- **C208** closer to one it fails: for `g = 1 - 2^-30` straight ahead the denominator is zero although the exact phase function is finite -/
theorem C208_forward_false (powR : ℝ → ℝ → ℝ) : hgR powR (1 - 2 ^ (-30 : ℤ)) 1 = none ∧ 0 < (1 : ℝ) + (1 - 2 ^ (-30 : ℤ)) ^ 2 - 2 * (1 - 2 ^ (-30 : ℤ)) * 1 := by
  refine ⟨?_, by norm_num⟩
  have h1 : double ((1 - 2 ^ (-30 : ℤ)) * (1 - 2 ^ (-30 : ℤ)) : ℝ) = ((2 ^ 53 - 2 ^ 24 : ℤ) : ℝ) * 2 ^ (-53 : ℤ) :=
    double_eq _ (-53) (by norm_num) (Or.inl (by norm_num [abs_lt])) (by norm_num) (by norm_num)
  have h2 : double (2 * (1 - 2 ^ (-30 : ℤ)) : ℝ) = 2 * (1 - 2 ^ (-30 : ℤ)) := double_of_isDouble ⟨2 ^ 30 - 1, -29, by norm_num, by norm_num, by norm_num⟩
  have h3 : (1 : ℝ) + ((2 ^ 53 - 2 ^ 24 : ℤ) : ℝ) * 2 ^ (-53 : ℤ) = 2 * (1 - 2 ^ (-30 : ℤ)) := by norm_num
  have hb : baseR (1 - 2 ^ (-30 : ℤ)) 1 = 0 := by
    unfold baseR
    rw [h1, h3, h2, mul_one, h2, sub_self, double_zero]
  unfold hgR; rw [hb, if_pos le_rfl]

/-- an exact power will do, and an asymmetry of 3/4 -/
example : Power15 (fun x y => x ^ y) ∧ |(3 / 4 : ℝ)| ≤ 1 - 2 ^ (-20 : ℤ) ∧ |(1 / 2 : ℝ)| ≤ 1 ∧ |(1 / 2 : ℝ) - 1 / 2| ≤ 2 ^ (-48 : ℤ) := by
  refine ⟨fun x hx _ => by rw [sub_self, abs_zero]; positivity, ?_, ?_, ?_⟩ <;> norm_num [abs_of_pos]

end Verif.PhaseR
