import Verif.Volume.PhaseRounded

/-!
# The other phase functions in rounded arithmetic (C209)

`phase_isotrophic`, `phase_rayleigh`, `phase_mie_hazy` and `phase_mie_murky` (`pytracer/volume/utility.py` 21-37) with every operation rounded to binary64, in terms
of the cosine `s` that their first lines compute.
-/

namespace Verif.PhaseR
open Verif.Rnd Verif.MCR

/-! ### Model -/

/-- `phase_isotrophic`, utility.py 22 -/
noncomputable def isoR : ℝ := double (1 / fourPiR)

/-- `phase_rayleigh`, utility.py 26-27 -/
noncomputable def rayleighR (s : ℝ) : ℝ := double (double (3 / double (16 * double Real.pi)) * double (1 + double (s * s)))

/-- `(.5 + c * np.power(.5 * (1. + ct), n)) / (4. * PI)`, utility.py 31-32 and 36-37 -/
noncomputable def mieR (powR : ℝ → ℕ → ℝ) (c : ℝ) (n : ℕ) (s : ℝ) : ℝ :=
  double (double (1 / 2 + double (c * powR (double (1 / 2 * double (1 + s))) n)) / fourPiR)

/-- `phase_mie_hazy`, utility.py 30-32 -/
noncomputable def mieHazyR (powR : ℝ → ℕ → ℝ) (s : ℝ) : ℝ := mieR powR (9 / 2) 8 s

/-- `phase_mie_murky`, utility.py 35-37 -/
noncomputable def mieMurkyR (powR : ℝ → ℕ → ℝ) (s : ℝ) : ℝ := mieR powR (33 / 2) 32 s

/-! ### Specification -/

/-- an accurate `np.power` with exponents that are whole numbers -/
def PowerN (powR : ℝ → ℕ → ℝ) : Prop := ∀ (x : ℝ) (n : ℕ), |x| ≤ 2 → |powR x n - x ^ n| ≤ 2 ^ (-50 : ℤ) * |x ^ n|

/-! ### Lemmas -/

theorem fourPi_ge : 12 ≤ fourPiR := by
  have h := (abs_le.1 fourPi_err).1
  have p := Real.pi_gt_d2
  norm_num at *
  linarith

/-- dividing by the rounded `4 π` -/
theorem div_fourPi {S S' e : ℝ} (hS : |S| ≤ 18) (h : |S' - S| ≤ e) : |S' / fourPiR - S / (4 * Real.pi)| ≤ e / 12 + 2 ^ (-49 : ℤ) := by
  have F := fourPi_ge
  have p : 0 < 4 * Real.pi := by positivity
  have p12 : 12 ≤ 4 * Real.pi := by linarith [Real.pi_gt_three]
  have e0 : 0 ≤ e := (abs_nonneg _).trans h
  have fe := fourPi_err
  generalize fourPiR = F' at *
  generalize 4 * Real.pi = P at *
  have i : S' / F' - S / P = (S' - S) / F' + S / F' * ((P - F') / P) := by field_simp; ring
  rw [i]
  refine (abs_add_le _ _).trans (add_le_add ?_ ?_)
  · rw [abs_div, abs_of_pos (show 0 < F' by linarith)]
    exact div_le_div₀ e0 h (by norm_num) F
  · rw [abs_mul]
    have a : |S / F'| ≤ 3 / 2 := by
      rw [abs_div, abs_of_pos (show 0 < F' by linarith), div_le_iff₀ (by linarith)]; linarith
    have b : |(P - F') / P| ≤ 2 ^ (-50 : ℤ) := by
      rw [abs_div, abs_of_pos p, div_le_iff₀ p, abs_sub_comm]; exact fe
    refine (mul_le_mul a b (abs_nonneg _) (by norm_num)).trans (by norm_num)

/-- rounding numbers up to 20 -/
theorem near20 {x : ℝ} (h : |x| ≤ 20) : |double x - x| ≤ 2 ^ (-48 : ℤ) := by
  have := double_err x
  have t : (2 : ℝ) ^ (-1075 : ℤ) ≤ 2 ^ (-53 : ℤ) := zpow_le_zpow_right₀ (by norm_num) (by norm_num)
  have m : (2 : ℝ) ^ (-53 : ℤ) * |x| ≤ 2 ^ (-53 : ℤ) * 20 := mul_le_mul_of_nonneg_left h (by positivity)
  have z : (2 : ℝ) ^ (-53 : ℤ) * 20 + 2 ^ (-53 : ℤ) ≤ 2 ^ (-48 : ℤ) := by norm_num
  generalize (2 : ℝ) ^ (-1075 : ℤ) = a at *
  generalize (2 : ℝ) ^ (-53 : ℤ) * 20 = b at *
  linarith

/-- the argument of the power -/
theorem half_err {D s : ℝ} (hD : |D| ≤ 1) (hs : |s - D| ≤ 2 ^ (-48 : ℤ)) : |double (1 / 2 * double (1 + s)) - (1 + D) / 2| ≤ 2 ^ (-48 : ℤ) := by
  have sm : |s| ≤ 9 / 8 := abs_close hs hD (by norm_num) (by norm_num)
  have a := near8 (x := 1 + s) (by rw [abs_le] at *; constructor <;> linarith)
  have b := near (x := 1 / 2 * double (1 + s)) (by
    have z : (2 : ℝ) ^ (-50 : ℤ) ≤ 1 / 8 := by norm_num
    generalize (2 : ℝ) ^ (-50 : ℤ) = y at *
    rw [abs_le] at *; constructor <;> linarith)
  generalize double (1 / 2 * double (1 + s)) = A at *
  generalize double (1 + s) = B at *
  norm_num at *
  rw [abs_le] at *; constructor <;> linarith

theorem pown_err {x y : ℝ} (hy0 : 0 ≤ y) (hy1 : y ≤ 1) (h : |x - y| ≤ 2 ^ (-48 : ℤ)) {n : ℕ} (hn : n ≤ 32) : |x ^ n - y ^ n| ≤ n * 2 ^ (-47 : ℤ) := by
  have hm := abs_pow_sub_pow_le x y n
  have mx : max |x| |y| ≤ 1 + 2 ^ (-48 : ℤ) := by
    refine max_le ?_ ?_
    · have : |x| ≤ |x - y| + |y| := by have := abs_add_le (x - y) y; simpa using this
      rw [abs_of_nonneg hy0] at this; linarith
    · rw [abs_of_nonneg hy0]; have : (0 : ℝ) < 2 ^ (-48 : ℤ) := by positivity
      linarith
  have p : max |x| |y| ^ (n - 1) ≤ 2 := by
    refine (pow_le_pow_left₀ (le_max_of_le_left (abs_nonneg _)) mx _).trans ?_
    refine (pow_le_pow_right₀ (by have : (0 : ℝ) < 2 ^ (-48 : ℤ) := by positivity
                                  linarith) (show n - 1 ≤ 32 by omega)).trans ?_
    norm_num
  refine hm.trans ?_
  have n0 : (0 : ℝ) ≤ n := Nat.cast_nonneg n
  have q : |x - y| * n ≤ 2 ^ (-48 : ℤ) * n := mul_le_mul_of_nonneg_right h n0
  refine (mul_le_mul q p (by positivity) (by positivity)).trans (le_of_eq ?_)
  have : (2 : ℝ) ^ (-47 : ℤ) = 2 ^ (-48 : ℤ) * 2 := by norm_num
  rw [this]; ring

theorem mie_err {powR : ℝ → ℕ → ℝ} (hp : PowerN powR) {c D s : ℝ} (c0 : 0 ≤ c) (c1 : c ≤ 33 / 2) {n : ℕ} (hn : n ≤ 32) (hD : |D| ≤ 1) (hs : |s - D| ≤ 2 ^ (-48 : ℤ)) :
    |mieR powR c n s - (1 / 2 + c * ((1 + D) / 2) ^ n) / (4 * Real.pi)| ≤ c * n * 2 ^ (-50 : ℤ) + 2 ^ (-47 : ℤ) := by
  have he := half_err hD hs
  have y0 : 0 ≤ (1 + D) / 2 := by linarith [(abs_le.1 hD).1]
  have y1 : (1 + D) / 2 ≤ 1 := by linarith [(abs_le.1 hD).2]
  have xm : |double (1 / 2 * double (1 + s))| ≤ 2 := abs_close (B := 1) he (by rw [abs_of_nonneg y0]; exact y1) (by norm_num) (by norm_num)
  unfold mieR
  generalize double (1 / 2 * double (1 + s)) = x at *
  generalize (1 + D) / 2 = y at *
  have pe := pown_err y0 y1 he hn
  have ph := hp x n xm
  have yn0 : 0 ≤ y ^ n := pow_nonneg y0 n
  have yn1 : y ^ n ≤ 1 := pow_le_one₀ y0 y1
  generalize powR x n = Q at *
  generalize x ^ n = X at *
  generalize y ^ n = Y at *
  have n0 : (0 : ℝ) ≤ n := Nat.cast_nonneg n
  have n32 : (n : ℝ) ≤ 32 := by exact_mod_cast hn
  generalize (n : ℝ) = m at *
  have Xm : |X| ≤ 2 := by
    have z : m * (2 : ℝ) ^ (-47 : ℤ) ≤ 1 / 8 := (mul_le_mul_of_nonneg_right n32 (by positivity)).trans (by norm_num)
    exact abs_close (B := 1) pe (by rw [abs_of_nonneg yn0]; exact yn1) z (by norm_num)
  have QY : |Q - Y| ≤ 2 ^ (-49 : ℤ) + m * 2 ^ (-47 : ℤ) := by
    have t : |Q - Y| ≤ |Q - X| + |X - Y| := by rw [show Q - Y = (Q - X) + (X - Y) by ring]; exact abs_add_le _ _
    have t2 : (2 : ℝ) ^ (-50 : ℤ) * |X| ≤ 2 ^ (-50 : ℤ) * 2 := mul_le_mul_of_nonneg_left Xm (by positivity)
    have t3 : (2 : ℝ) ^ (-50 : ℤ) * 2 = 2 ^ (-49 : ℤ) := by norm_num
    linarith
  have cQ : |c * Q - c * Y| ≤ c * (2 ^ (-49 : ℤ) + m * 2 ^ (-47 : ℤ)) := by
    rw [← mul_sub, abs_mul, abs_of_nonneg c0]; exact mul_le_mul_of_nonneg_left QY c0
  have cY0 : 0 ≤ c * Y := mul_nonneg c0 yn0
  have cY1 : c * Y ≤ 33 / 2 := (mul_le_of_le_one_right c0 yn1).trans c1
  have cm : c * m ≤ 33 / 2 * 32 := mul_le_mul c1 n32 n0 (by norm_num)
  have cm0 : 0 ≤ c * m := mul_nonneg c0 n0
  have cQ' : |c * Q - c * Y| ≤ 33 / 2 * 2 ^ (-49 : ℤ) + c * m * 2 ^ (-47 : ℤ) := by
    refine cQ.trans ?_
    have : c * (2 : ℝ) ^ (-49 : ℤ) ≤ 33 / 2 * 2 ^ (-49 : ℤ) := mul_le_mul_of_nonneg_right c1 (by positivity)
    have e : c * (2 ^ (-49 : ℤ) + m * 2 ^ (-47 : ℤ)) = c * 2 ^ (-49 : ℤ) + c * m * 2 ^ (-47 : ℤ) := by ring
    rw [e]; linarith
  have d1 := near20 (x := c * Q) (by
    clear * - cQ' cY0 cY1 cm
    generalize c * Q = U at *
    generalize c * Y = V at *
    generalize c * m = k at *
    norm_num at *
    rw [abs_le] at *; constructor <;> linarith)
  generalize c * Q = U at *
  generalize c * Y = V at *
  generalize c * m = k at *
  have d2 := near20 (x := 1 / 2 + double U) (by
    clear * - d1 cQ' cY0 cY1 cm
    generalize double U = U' at *
    norm_num at *
    rw [abs_le] at *; constructor <;> linarith)
  have d3 : |double (1 / 2 + double U) - (1 / 2 + V)| ≤ k * 2 ^ (-47 : ℤ) + 11 * 2 ^ (-48 : ℤ) := by
    clear * - d1 d2 cQ'
    generalize double (1 / 2 + double U) = A at *
    generalize double U = U' at *
    norm_num at *
    rw [abs_le] at *; constructor <;> linarith
  have d4 := div_fourPi (S := 1 / 2 + V) (by rw [abs_of_nonneg (by linarith)]; linarith) d3
  have p12 : 12 ≤ 4 * Real.pi := by linarith [Real.pi_gt_three]
  have v2 : (1 / 2 + V) / (4 * Real.pi) ≤ 17 / 12 := by rw [div_le_div_iff₀ (by linarith) (by norm_num)]; nlinarith
  have v0 : 0 ≤ (1 / 2 + V) / (4 * Real.pi) := div_nonneg (by linarith) (by linarith)
  generalize (1 / 2 + V) / (4 * Real.pi) = W at *
  generalize double (1 / 2 + double U) / fourPiR = W' at *
  have d5 := near (x := W') (by
    clear * - d4 v0 v2 cm cm0
    norm_num at *
    rw [abs_le] at *; constructor <;> linarith)
  clear * - d4 d5 cm0
  generalize double W' = W2 at *
  norm_num at *
  rw [abs_le] at *; constructor <;> linarith

/-! ### Theorems -/

/-- **C209** the two Mie phase functions are within `2^-43` and `2^-40` of the exact ones, and positive -/
theorem C209_mie {powR : ℝ → ℕ → ℝ} (hp : PowerN powR) (w wp : V3 ℝ) (s : ℝ) (hD : |V3.dot w wp| ≤ 1) (hs : |s - V3.dot w wp| ≤ 2 ^ (-48 : ℤ)) :
    |mieHazyR powR s - MC.phaseMieHazy w wp| ≤ 2 ^ (-43 : ℤ) ∧ |mieMurkyR powR s - MC.phaseMieMurky w wp| ≤ 2 ^ (-40 : ℤ) ∧ 0 < mieHazyR powR s ∧ 0 < mieMurkyR powR s := by
  have a := mie_err hp (c := 9 / 2) (n := 8) (by norm_num) (by norm_num) (by norm_num) hD hs
  have b := mie_err hp (c := 33 / 2) (n := 32) (by norm_num) (by norm_num) (by norm_num) hD hs
  have a' : |mieHazyR powR s - MC.phaseMieHazy w wp| ≤ 2 ^ (-43 : ℤ) := by
    refine le_trans (le_of_eq ?_) (a.trans (by norm_num))
    unfold mieHazyR MC.phaseMieHazy
    congr 2; simp only []; norm_num; ring
  have b' : |mieMurkyR powR s - MC.phaseMieMurky w wp| ≤ 2 ^ (-40 : ℤ) := by
    refine le_trans (le_of_eq ?_) (b.trans (by norm_num))
    unfold mieMurkyR MC.phaseMieMurky
    congr 2; simp only []; norm_num; ring
  have low : ∀ V : ℝ, 0 ≤ V → 1 / 32 ≤ (1 / 2 + V) / (4 * Real.pi) := by
    intro V hV
    rw [div_le_div_iff₀ (by norm_num) (by positivity)]
    linarith [Real.pi_le_four]
  have y0 : 0 ≤ (1 + V3.dot w wp) / 2 := by linarith [(abs_le.1 hD).1]
  have la := low (9 / 2 * ((1 + V3.dot w wp) / 2) ^ 8) (by positivity)
  have lb := low (33 / 2 * ((1 + V3.dot w wp) / 2) ^ 32) (by positivity)
  refine ⟨a', b', ?_, ?_⟩
  · have := (abs_le.1 a).1
    unfold mieHazyR
    norm_num at this la ⊢
    linarith
  · have := (abs_le.1 b).1
    unfold mieMurkyR
    norm_num at this lb ⊢
    linarith

/-- **C209** the isotropic phase function is within `2^-48` of the exact one, and positive -/
theorem C209_isotropic : (∀ w wp, |isoR - MC.phaseIsotropic w wp| ≤ 2 ^ (-48 : ℤ)) ∧ 0 < isoR := by
  simp only [MC.phaseIsotropic, forall_const]
  have d := div_fourPi (S := 1) (S' := 1) (e := 0) (by norm_num) (by simp)
  have p12 : 12 ≤ 4 * Real.pi := by linarith [Real.pi_gt_three]
  have p16 : 4 * Real.pi ≤ 16 := by linarith [Real.pi_le_four]
  have v2 : 1 / (4 * Real.pi) ≤ 1 / 12 := one_div_le_one_div_of_le (by norm_num) p12
  have v0 : 1 / 16 ≤ 1 / (4 * Real.pi) := one_div_le_one_div_of_le (by linarith) p16
  unfold isoR
  generalize 1 / (4 * Real.pi) = W at *
  generalize 1 / fourPiR = W' at *
  have d5 := near (x := W') (by
    clear * - d v0 v2
    norm_num at *
    rw [abs_le] at *; constructor <;> linarith)
  clear * - d d5 v0
  generalize double W' = W2 at *
  norm_num at *
  rw [abs_le] at *
  refine ⟨⟨?_, ?_⟩, ?_⟩ <;> linarith

/-- **C209** Rayleigh's phase function is within `2^-47` of the exact one, and positive -/
theorem C209_rayleigh (w wp : V3 ℝ) (s : ℝ) (hD : |V3.dot w wp| ≤ 1) (hs : |s - V3.dot w wp| ≤ 2 ^ (-48 : ℤ)) :
    |rayleighR s - MC.phaseRayleigh w wp| ≤ 2 ^ (-47 : ℤ) ∧ 0 < rayleighR s := by
  have p3 := Real.pi_gt_three
  have p4 := Real.pi_le_four
  -- the constant
  have big : ∀ x : ℝ, 1 ≤ x → |double x - x| ≤ 2 ^ (-53 : ℤ) * x := by
    intro x hx
    have := double_err_rel (x := x) (by rw [abs_of_pos (by linarith)]; exact le_trans (zpow_le_one_of_nonpos₀ (by norm_num) (by norm_num)) hx)
    rwa [abs_of_pos (show 0 < x by linarith)] at this
  have a := big Real.pi (by linarith)
  have a1 : 1 ≤ double Real.pi := by
    have := (abs_le.1 a).1; norm_num at this; linarith
  have b := big (16 * double Real.pi) (by linarith)
  have ab : |double (16 * double Real.pi) - 16 * Real.pi| ≤ 2 ^ (-51 : ℤ) * (16 * Real.pi) := by
    generalize double (16 * double Real.pi) = F at *
    generalize double Real.pi = Q at *
    generalize Real.pi = P at *
    norm_num at *
    rw [abs_le] at *; constructor <;> linarith
  obtain ⟨F0, q⟩ := BlinnR.quot_rel (N := 3) (Q := 3) (a := 0) (c := 0) (by norm_num) (show (0 : ℝ) < 16 * Real.pi by linarith) (by simp) ab (by norm_num)
  have v2 : 3 / (16 * Real.pi) ≤ 1 / 16 := by rw [div_le_div_iff₀ (by linarith) (by norm_num)]; linarith
  have v0 : 3 / 64 ≤ 3 / (16 * Real.pi) := by rw [div_le_div_iff₀ (by norm_num) (by linarith)]; linarith
  have k1 : |3 / double (16 * double Real.pi) - 3 / (16 * Real.pi)| ≤ 2 ^ (-53 : ℤ) := by
    clear * - q v2
    generalize 3 / (16 * Real.pi) = K at *
    have e : 2 * (0 + (2 : ℝ) ^ (-51 : ℤ)) * K + 2 * 0 / (16 * Real.pi) = 2 ^ (-50 : ℤ) * K := by norm_num
    rw [e] at q
    refine q.trans ?_
    norm_num; linarith
  have k2 := double_err (3 / double (16 * double Real.pi))
  have tz : (2 : ℝ) ^ (-1075 : ℤ) ≤ 2 ^ (-60 : ℤ) := zpow_le_zpow_right₀ (by norm_num) (by norm_num)
  have e1 : MC.phaseRayleigh w wp = 3 / (16 * Real.pi) * (1 + V3.dot w wp * V3.dot w wp) := rfl
  rw [e1]
  unfold rayleighR
  generalize V3.dot w wp = D at *
  generalize 3 / double (16 * double Real.pi) = K1 at *
  generalize 3 / (16 * Real.pi) = K at *
  have k3 : |double K1 - K| ≤ 2 ^ (-52 : ℤ) := by
    clear * - k1 k2 tz v0 v2
    generalize (2 : ℝ) ^ (-1075 : ℤ) = z at *
    have hK1 : |K1| ≤ 1 / 4 := abs_close (B := 1 / 16) k1 (by rw [abs_of_nonneg (by linarith)]; exact v2) (by norm_num) (by norm_num)
    generalize |K1| = y at *
    norm_num at *
    rw [abs_le] at *; constructor <;> linarith
  generalize double K1 = K2 at *
  -- the square
  have sm : |s| ≤ 1 + 2 ^ (-48 : ℤ) := by
    have := abs_add_le (s - D) D
    rw [sub_add_cancel] at this
    linarith
  have ss : |s * s - D * D| ≤ 3 * 2 ^ (-48 : ℤ) := by
    have e : s * s - D * D = (s - D) * (s + D) := by ring
    rw [e, abs_mul, mul_comm]
    refine mul_le_mul ((abs_add_le _ _).trans ?_) hs (abs_nonneg _) (by norm_num)
    have : (2 : ℝ) ^ (-48 : ℤ) ≤ 1 := by norm_num
    linarith
  have D1 : D * D ≤ 1 := by have := abs_le.1 hD; nlinarith
  have D0 := mul_self_nonneg D
  have s1 := near (x := s * s) (by
    clear * - ss D0 D1
    generalize s * s = q at *
    generalize D * D = r at *
    norm_num at *
    rw [abs_le] at *; constructor <;> linarith)
  have s2 := near8 (x := 1 + double (s * s)) (by
    clear * - s1 ss D0 D1
    generalize double (s * s) = A at *
    norm_num at *
    rw [abs_le] at *; constructor <;> linarith)
  have s3 : |double (1 + double (s * s)) - (1 + D * D)| ≤ 2 ^ (-46 : ℤ) := by
    clear * - s1 s2 ss
    generalize double (1 + double (s * s)) = B at *
    generalize double (s * s) = A at *
    norm_num at *
    rw [abs_le] at *; constructor <;> linarith
  generalize double (1 + double (s * s)) = B at *
  generalize D * D = E at *
  clear * - k3 v0 v2 s3 D0 D1
  have m : |K2 * B - K * (1 + E)| ≤ 2 ^ (-49 : ℤ) := by
    have e : K2 * B - K * (1 + E) = (K2 - K) * B + K * (B - (1 + E)) := by ring
    rw [e]
    refine (abs_add_le _ _).trans ?_
    rw [abs_mul, abs_mul]
    have B3 : |B| ≤ 3 := by
      norm_num at *
      rw [abs_le] at *; constructor <;> linarith
    have m1 := mul_le_mul k3 B3 (abs_nonneg _) (by positivity)
    have m2 : |K| * |B - (1 + E)| ≤ 1 / 16 * 2 ^ (-46 : ℤ) := mul_le_mul (by rw [abs_of_nonneg (by linarith)]; exact v2) s3 (abs_nonneg _) (by norm_num)
    norm_num at *
    linarith
  have l : 3 / 64 ≤ K * (1 + E) := by nlinarith
  have u : K * (1 + E) ≤ 1 / 8 := by nlinarith
  generalize K * (1 + E) = Z at *
  generalize K2 * B = Y at *
  have f := near (x := Y) (by
    norm_num at *
    rw [abs_le] at *; constructor <;> linarith)
  generalize double Y = Y2 at *
  norm_num at *
  rw [abs_le] at *
  refine ⟨⟨?_, ?_⟩, ?_⟩ <;> linarith

/-- an exact power will do; two unit directions -/
example : PowerN (fun x n => x ^ n) ∧ |V3.dot (⟨1, 0, 0⟩ : V3 ℝ) ⟨3 / 5, 4 / 5, 0⟩| ≤ 1 ∧ |(3 / 5 : ℝ) - V3.dot (⟨1, 0, 0⟩ : V3 ℝ) ⟨3 / 5, 4 / 5, 0⟩| ≤ 2 ^ (-48 : ℤ) := by
  refine ⟨fun x n _ => by rw [sub_self, abs_zero]; positivity, by norm_num [V3.dot, abs_of_pos], by norm_num [V3.dot]⟩

end Verif.PhaseR
