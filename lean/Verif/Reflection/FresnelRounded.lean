import Verif.Reflection.Fresnel
import Verif.Geom.Rounded

/-!
# The reflectance of conductors in rounded arithmetic (C192)

`fr_cond` (`pytracer/reflection/utility.py:60-73`) with every operation rounded to binary64.
-/

namespace Verif.FresnelR
open Verif.Rnd Verif.GeomR

/-! ### Model -/

section
variable {K : Type*} [Field K] [LinearOrder K] [IsStrictOrderedRing K] [FloorRing K]

/-- `fr_cond` (`reflection/utility.py:60-73`), one sample of the spectrum -/
def frCondR (c eta k : K) : K :=
  let tmp := double (double (double (double (eta * eta) + double (k * k)) * c) * c)
  let tec := double (double (2 * eta) * c)
  let para := double (double (double (tmp - tec) + 1) / double (double (tmp + tec) + 1))
  let tmp2 := double (double (eta * eta) + double (k * k))
  let perp := double (double (double (tmp2 - tec) + double (c * c)) / double (double (tmp2 + tec) + double (c * c)))
  double (1 / 2 * double (para + perp))

end

/-- `FresnelConductor.__call__` (`reflection/fresnel.py:40-41`) -/
noncomputable def conductorR (eta k cosi : ℝ) : ℝ := frCondR |cosi| eta k

/-! ### Quotients -/

theorem half_flt : Flt 0 (-1) (1 / 2 : ℝ) (1 / 2) (1 / 2) := ⟨by simpa [abs_of_pos] using Err.refl (1 / 2 : ℝ), 1, by norm_num⟩
theorem two_flt : Flt 0 0 (2 : ℝ) 2 2 := ⟨by simpa using Err.refl (2 : ℝ), 2, by norm_num⟩

/-- a quotient `N / M` with `|N| ≤ M`, both known up to 16 roundings -/
theorem quot_close {g : ℤ} {n m N M : ℝ} (hn : Flt 16 g n N M) (hm : Flt 16 g m M M) (M0 : 0 < M) : |double (n / m) - N / M| ≤ 2 ^ (-46 : ℤ) := by
  have M' : |M| = M := abs_of_pos M0
  have i := err_inv (x := M) (by rw [M']; exact hm.err) M0.ne' (by
    have := g_le (K := ℝ) 16 (by norm_num)
    have u1 : (uu : ℝ) ≤ 1 / 1024 := by rw [uu_eq]; norm_num
    norm_num at this ⊢
    linarith)
  have q := (hn.err.mul i).rel (by norm_num)
  rw [abs_of_pos (by positivity : 0 < 1 / M), mul_one_div_cancel M0.ne', mul_one_div, mul_one_div, mul_one] at q
  have q' : |n / m - N / M| ≤ 48 * 2 ^ (-52 : ℤ) := by push_cast at q; linarith
  have e := double_err (n / m)
  have b : |N / M| ≤ 1 := by
    rw [abs_div, M', div_le_one M0]; exact hn.err.2
  have η : (2 : ℝ) ^ (-1075 : ℤ) ≤ 2 ^ (-52 : ℤ) := zpow_le_zpow_right₀ (by norm_num) (by norm_num)
  have e1 : |n / m| ≤ 2 := by
    have := abs_sub_abs_le_abs_sub (n / m) (N / M)
    norm_num at q'
    linarith
  calc |double (n / m) - N / M| = |(double (n / m) - n / m) + (n / m - N / M)| := by congr 1; ring
    _ ≤ |double (n / m) - n / m| + |n / m - N / M| := abs_add_le _ _
    _ ≤ (2 ^ (-53 : ℤ) * 2 + 2 ^ (-52 : ℤ)) + 48 * 2 ^ (-52 : ℤ) := by
      refine add_le_add (e.trans (add_le_add ?_ η)) q'
      exact mul_le_mul_of_nonneg_left e1 (by positivity)
    _ ≤ _ := by norm_num

theorem one_flt : Flt 0 0 (1 : ℝ) 1 1 := ⟨by simpa using Err.refl (1 : ℝ), 1, by norm_num⟩

theorem up {k l : ℕ} {g f : ℤ} {xc x A : ℝ} (h : Flt k g xc x A) (hk : k ≤ l) (hg : f ≤ g) : Flt l f xc x A := ⟨h.err.mono hk le_rfl, h.grid.mono hg⟩

/-! ### The reflectance -/

/-- **C192** The reflectance of a conductor computed in binary64 is that of the formula up to `2^-45` … -/
theorem C192_accurate (eta k cosi : ℝ) (he : Grid (-160) eta) (hk : Grid (-160) k) (hc : Grid (-160) cosi) (e0 : 0 < eta) (k0 : 0 ≤ k) :
    |conductorR eta k cosi - Refl.conductor eta k cosi| ≤ 2 ^ (-45 : ℤ) := by
  have c0 : 0 ≤ |cosi| := abs_nonneg _
  have hc' : Grid (-160) |cosi| := by
    rcases abs_choice cosi with h | h <;> rw [h]
    · exact hc
    · exact hc.neg
  rw [conductorR, Refl.conductor]
  generalize |cosi| = c at *
  have fe : Flt 0 (-160) eta eta eta := by simpa [abs_of_pos e0] using Flt.refl he
  have fk : Flt 0 (-160) k k k := by simpa [abs_of_nonneg k0] using Flt.refl hk
  have fc : Flt 0 (-160) c c c := by simpa [abs_of_nonneg c0] using Flt.refl hc'
  -- `tmp2 = eta² + k²`, `tmp = tmp2 c²`, `2 eta c`, `c²`
  have t2 := Flt.radd (by norm_num) (Flt.rmul (by norm_num) fe fe) (Flt.rmul (by norm_num) fk fk)
  have t1 := Flt.rmul (by norm_num) (Flt.rmul (by norm_num) t2 fc) fc
  have tc := Flt.rmul (by norm_num) (Flt.rmul (by norm_num) two_flt fe) fc
  have cc := Flt.rmul (by norm_num) fc fc
  have u1 := up t1 (l := 8) (f := -640) (by norm_num) (by norm_num)
  have uc := up tc (l := 8) (f := -640) (by norm_num) (by norm_num)
  have u2 := up t2 (l := 8) (f := -640) (by norm_num) (by norm_num)
  have ucc := up cc (l := 9) (f := -640) (by norm_num) (by norm_num)
  have uo := up one_flt (l := 9) (f := -640) (by norm_num) (by norm_num)
  have n1 := up (Flt.radd (by norm_num) (Flt.rsub (by norm_num) u1 uc) uo) (l := 16) (f := -640) (by norm_num) le_rfl
  have d1 := up (Flt.radd (by norm_num) (Flt.radd (by norm_num) u1 uc) uo) (l := 16) (f := -640) (by norm_num) le_rfl
  have n2 := up (Flt.radd (by norm_num) (Flt.rsub (by norm_num) u2 uc) ucc) (l := 16) (f := -640) (by norm_num) le_rfl
  have d2 := up (Flt.radd (by norm_num) (Flt.radd (by norm_num) u2 uc) ucc) (l := 16) (f := -640) (by norm_num) le_rfl
  have q1 := quot_close n1 d1 (by positivity)
  have q2 := quot_close n2 d2 (by positivity)
  simp only [frCondR, Refl.frCond]
  set para := double (double (double (double (double (double (double (eta * eta) + double (k * k)) * c) * c) - double (double (2 * eta) * c)) + 1) / double (double (double (double (double (double (eta * eta) + double (k * k)) * c) * c) + double (double (2 * eta) * c)) + 1))
  set perp := double (double (double (double (double (eta * eta) + double (k * k)) - double (double (2 * eta) * c)) + double (c * c)) / double (double (double (double (eta * eta) + double (k * k)) + double (double (2 * eta) * c)) + double (c * c)))
  set P := ((eta * eta + k * k) * c * c - 2 * eta * c + 1) / ((eta * eta + k * k) * c * c + 2 * eta * c + 1)
  set Q := (eta * eta + k * k - 2 * eta * c + c * c) / (eta * eta + k * k + 2 * eta * c + c * c)
  have bound : ∀ N M : ℝ, 0 < M → |N| ≤ M → |N / M| ≤ 1 := fun N M M0 h => by rw [abs_div, abs_of_pos M0, div_le_one M0]; exact h
  have P1 : |P| ≤ 1 := bound _ _ (by positivity) n1.err.2
  have Q1 : |Q| ≤ 1 := bound _ _ (by positivity) n2.err.2
  have e1 := double_err (para + perp)
  have e2 := double_err (1 / 2 * double (para + perp))
  have η : (2 : ℝ) ^ (-1075 : ℤ) ≤ 2 ^ (-53 : ℤ) := zpow_le_zpow_right₀ (by norm_num) (by norm_num)
  have z46 : (2 : ℝ) ^ (-46 : ℤ) = 128 * 2 ^ (-53 : ℤ) := by norm_num
  have z45 : (2 : ℝ) ^ (-45 : ℤ) = 256 * 2 ^ (-53 : ℤ) := by norm_num
  rw [z46] at q1 q2
  rw [z45]
  have u0 : (0 : ℝ) < 2 ^ (-53 : ℤ) := by positivity
  have u1 : (2 : ℝ) ^ (-53 : ℤ) ≤ 1 / 1024 := by norm_num
  generalize (2 : ℝ) ^ (-53 : ℤ) = u at *
  generalize (2 : ℝ) ^ (-1075 : ℤ) = e at *
  have s1 : |para + perp - (P + Q)| ≤ 256 * u := by
    calc |para + perp - (P + Q)| = |(para - P) + (perp - Q)| := by congr 1; ring
      _ ≤ |para - P| + |perp - Q| := abs_add_le _ _
      _ ≤ _ := by linarith
  have PQ : |P + Q| ≤ 2 := (abs_add_le _ _).trans (by linarith)
  have s2 : |para + perp| ≤ 3 := by
    have := abs_sub_abs_le_abs_sub (para + perp) (P + Q)
    linarith
  have s3 : |double (para + perp) - (para + perp)| ≤ 4 * u := by
    have := mul_le_mul_of_nonneg_left s2 u0.le
    linarith
  set S := double (para + perp)
  have s4 : |1 / 2 * S| ≤ 2 := by
    have := abs_sub_abs_le_abs_sub S (para + perp)
    rw [abs_mul, abs_of_pos (by norm_num : (0 : ℝ) < 1 / 2)]
    linarith
  have s5 : |double (1 / 2 * S) - 1 / 2 * S| ≤ 3 * u := by
    have := mul_le_mul_of_nonneg_left s4 u0.le
    linarith
  calc |double (1 / 2 * S) - 1 / 2 * (P + Q)| = |(double (1 / 2 * S) - 1 / 2 * S) + (1 / 2 * (S - (para + perp)) + 1 / 2 * (para + perp - (P + Q)))| := by congr 1; ring
    _ ≤ |double (1 / 2 * S) - 1 / 2 * S| + |1 / 2 * (S - (para + perp)) + 1 / 2 * (para + perp - (P + Q))| := abs_add_le _ _
    _ ≤ |double (1 / 2 * S) - 1 / 2 * S| + (|1 / 2 * (S - (para + perp))| + |1 / 2 * (para + perp - (P + Q))|) := by gcongr; exact abs_add_le _ _
    _ ≤ _ := by
      rw [abs_mul, abs_mul, abs_of_pos (by norm_num : (0 : ℝ) < 1 / 2)]
      linarith

section
variable {K : Type*} [Field K] [LinearOrder K] [IsStrictOrderedRing K] [FloorRing K]

theorem d_nonneg {x : K} (h : 0 ≤ x) : 0 ≤ double x := by have := double_mono h; rwa [double_zero] at this
theorem d_le_one {x : K} (h : x ≤ 1) : double x ≤ 1 := by
  have := double_mono h
  rwa [show double (1 : K) = 1 from double_of_isDouble ⟨1, 0, by norm_num, by norm_num, by simp⟩] at this

/-- … never more than 1, exactly … -/
theorem C192_le_one (c eta k : K) (c0 : 0 ≤ c) (e0 : 0 ≤ eta) : frCondR c eta k ≤ 1 := by
  simp only [frCondR]
  set tmp := double (double (double (double (eta * eta) + double (k * k)) * c) * c)
  set tec := double (double (2 * eta) * c)
  set tmp2 := double (double (eta * eta) + double (k * k))
  have p1 : 0 ≤ tec := d_nonneg (mul_nonneg (d_nonneg (by positivity)) c0)
  have p2 : 0 ≤ tmp2 := d_nonneg (add_nonneg (d_nonneg (mul_self_nonneg _)) (d_nonneg (mul_self_nonneg _)))
  have p3 : 0 ≤ tmp := d_nonneg (mul_nonneg (d_nonneg (mul_nonneg p2 c0)) c0)
  have p4 : 0 ≤ double (c * c) := d_nonneg (mul_self_nonneg _)
  have quot : ∀ t x : K, 0 ≤ t → 0 ≤ x → double (double (double (t - tec) + x) / double (double (t + tec) + x)) ≤ 1 := fun t x t0 x0 => by
    refine d_le_one (div_le_one_of_le₀ ?_ (d_nonneg (add_nonneg (d_nonneg (add_nonneg t0 p1)) x0)))
    exact double_mono (add_le_add (double_mono (by linarith)) le_rfl)
  have q1 := quot tmp 1 p3 zero_le_one
  have q2 := quot tmp2 (double (c * c)) p2 p4
  set para := double (double (double (tmp - tec) + 1) / double (double (tmp + tec) + 1))
  set perp := double (double (double (tmp2 - tec) + double (c * c)) / double (double (tmp2 + tec) + double (c * c)))
  have s : double (para + perp) ≤ 2 := by
    have := double_mono (show para + perp ≤ 2 by linarith)
    rwa [show double (2 : K) = 2 from double_of_isDouble ⟨2, 0, by norm_num, by norm_num, by simp⟩] at this
  exact d_le_one (by linarith)

end

/-- … but it can be negative, by rounding: a conductor with an index just above 1, no absorption and nearly perpendicular light. -/
theorem C192_negative : ∃ c eta : ℚ, IsDouble c ∧ IsDouble eta ∧ 0 ≤ c ∧ c ≤ 1 ∧ 1 ≤ eta ∧ frCondR c eta 0 < 0 := by
  refine ⟨0x1ffffffc59e8cc * 2 ^ (-53 : ℤ), 0x100000023d4adc * 2 ^ (-52 : ℤ), ⟨0x1ffffffc59e8cc, -53, by norm_num, by norm_num, by norm_num⟩, ⟨0x100000023d4adc, -52, by norm_num, by norm_num, by norm_num⟩, by norm_num, by norm_num, by norm_num, ?_⟩
  decide +kernel

/-! ### Concrete cases -/

/-- gold-like numbers meet the hypotheses -/
example : Grid (-160) (1 / 4 : ℝ) ∧ Grid (-160) (7 / 2 : ℝ) ∧ Grid (-160) (-1 / 2 : ℝ) ∧ (0 : ℝ) < 1 / 4 ∧ (0 : ℝ) ≤ 7 / 2 :=
  ⟨⟨2 ^ 158, by norm_num⟩, ⟨7 * 2 ^ 159, by norm_num⟩, ⟨-2 ^ 159, by norm_num⟩, by norm_num, by norm_num⟩

/-- and the value there is not a trivial one -/
example : 9 / 10 < Refl.conductor (1 / 4 : ℝ) (7 / 2) (-1 / 2) ∧ Refl.conductor (1 / 4 : ℝ) (7 / 2) (-1 / 2) < 1 := by
  norm_num [Refl.conductor, Refl.frCond, abs_of_neg]

end Verif.FresnelR
