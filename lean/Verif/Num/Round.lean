import Mathlib.Data.Int.Log
import Mathlib.Algebra.Order.Round
import Mathlib.Algebra.Ring.Int.Parity
import Mathlib.Tactic.Linarith
import Mathlib.Tactic.NormNum
import Mathlib.Tactic.Positivity
import Mathlib.Tactic.FieldSimp
import Mathlib.Tactic.Ring

/-!
# Rounded arithmetic

The other models compute with exact numbers.  Here the result of every operation is rounded, as in numpy's `float64`.  `Rounding` lists what the theorems about rounded
arithmetic use; `double` is IEEE 754 binary64 with rounding to nearest, ties to even, and gradual underflow, and has these properties (`ieee`).
Not modelled: overflow (the exponent is not bounded above), the sign of zero.
-/

namespace Verif.Rnd

/-- what the theorems use about the rounding of results -/
structure Rounding (K : Type*) [Field K] [LinearOrder K] where
  rnd : K → K
  /-- a larger number is not rounded to a smaller one -/
  mono : Monotone rnd
  /-- a float is rounded to itself -/
  idem : ∀ x, rnd (rnd x) = rnd x
  neg : ∀ x, rnd (-x) = -rnd x
  /-- integers of up to 53 bits are floats -/
  int : ∀ n : ℤ, |n| ≤ 2 ^ 53 → rnd n = n
  /-- so is one half -/
  half : rnd (1 / 2) = 1 / 2
  /-- the difference of two different floats is not rounded to zero -/
  sub : ∀ x y, rnd (rnd x - rnd y) = 0 → rnd x = rnd y

namespace Rounding
variable {K : Type*} [Field K] [LinearOrder K] (R : Rounding K)

/-- `x` is a float -/
def Rep (x : K) : Prop := R.rnd x = x

/-- the rounded operations -/
def add (x y : K) : K := R.rnd (x + y)
def sub' (x y : K) : K := R.rnd (x - y)
def mul (x y : K) : K := R.rnd (x * y)
def div (x y : K) : K := R.rnd (x / y)

theorem rep_rnd (x : K) : R.Rep (R.rnd x) := R.idem x
theorem rep_nat (n : ℕ) (h : n ≤ 2 ^ 53) : R.Rep (n : K) := by
  have := R.int n (by rw [Nat.abs_cast]; exact_mod_cast h)
  simpa [Rep] using this
theorem rep_zero : R.Rep (0 : K) := by simpa using R.rep_nat 0 (by norm_num)
theorem rep_one : R.Rep (1 : K) := by simpa using R.rep_nat 1 (by norm_num)
theorem rnd_le {x y : K} (hy : R.Rep y) (h : x ≤ y) : R.rnd x ≤ y := hy ▸ R.mono h
theorem le_rnd {x y : K} (hx : R.Rep x) (h : x ≤ y) : x ≤ R.rnd y := hx ▸ R.mono h
theorem rnd_nonneg {x : K} (h : 0 ≤ x) : 0 ≤ R.rnd x := R.le_rnd R.rep_zero h
theorem rnd_nonpos {x : K} (h : x ≤ 0) : R.rnd x ≤ 0 := R.rnd_le R.rep_zero h
/-- the difference of two floats is zero only if they are equal -/
theorem sub_eq_zero {x y : K} (hx : R.Rep x) (hy : R.Rep y) (h : R.sub' x y = 0) : x = y := by
  have := R.sub x y (by rw [hx, hy]; exact h)
  rwa [hx, hy] at this
theorem sub_pos [IsStrictOrderedRing K] {x y : K} (hx : R.Rep x) (hy : R.Rep y) (h : x < y) : 0 < R.sub' y x := by
  rcases lt_or_eq_of_le (R.rnd_nonneg (sub_nonneg.2 h.le)) with h1 | h1
  · exact h1
  · exact absurd (R.sub_eq_zero hy hx h1.symm) h.ne'
theorem div_nonneg [IsStrictOrderedRing K] {x y : K} (hx : 0 ≤ x) (hy : 0 ≤ y) : 0 ≤ R.div x y := R.rnd_nonneg (_root_.div_nonneg hx hy)
theorem div_le_one [IsStrictOrderedRing K] {x y : K} (hx : 0 ≤ x) (h : x ≤ y) : R.div x y ≤ 1 := by
  refine R.rnd_le R.rep_one ?_
  rcases lt_or_eq_of_le (hx.trans h) with h0 | h0
  · exact (_root_.div_le_one h0).2 h
  · rw [← h0]; simp
theorem le_add [IsStrictOrderedRing K] {x y : K} (hx : R.Rep x) (hy : 0 ≤ y) : x ≤ R.add x y := R.le_rnd hx (by linarith)
theorem div_self [IsStrictOrderedRing K] {x : K} (h : x ≠ 0) : R.div x x = 1 := by rw [div, _root_.div_self h]; exact R.rep_one

/-- exact arithmetic -/
def exact [IsStrictOrderedRing K] : Rounding K := ⟨id, monotone_id, fun _ => rfl, fun _ => rfl, fun _ _ => rfl, rfl, fun _ _ h => _root_.sub_eq_zero.1 h⟩

end Rounding

/-! ### IEEE 754 binary64 -/

section
variable {K : Type*} [Field K] [LinearOrder K] [IsStrictOrderedRing K] [FloorRing K]

/-- the nearest integer, the even one of two -/
def rne (y : K) : ℤ := if 2 * (y - ⌊y⌋) < 1 then ⌊y⌋ else if 1 < 2 * (y - ⌊y⌋) then ⌊y⌋ + 1 else if Even ⌊y⌋ then ⌊y⌋ else ⌊y⌋ + 1

/-- the exponent of the unit in the last place: 53 significant bits, but no finer than the smallest subnormal number -/
def ulpExp (x : K) : ℤ := max (Int.log 2 |x| - 52) (-1074)

/-- rounding to binary64 (to nearest, ties to even, gradual underflow, no overflow) -/
def double (x : K) : K := rne (x / 2 ^ ulpExp x) * 2 ^ ulpExp x

/-- `n` is the nearest integer of `y` (the even one of two) -/
def Nearest (y : K) (n : ℤ) : Prop := |y - n| < 1 / 2 ∨ (|y - n| = 1 / 2 ∧ Even n)

theorem rne_nearest (y : K) : Nearest y (rne y) := by
  have h0 := Int.floor_le y
  have h1 := Int.lt_floor_add_one y
  have e0 : |y - (⌊y⌋ : K)| = y - ⌊y⌋ := abs_of_nonneg (by linarith)
  have e1 : |y - ((⌊y⌋ + 1 : ℤ) : K)| = 1 - (y - ⌊y⌋) := by push_cast; rw [abs_of_nonpos (by linarith)]; ring
  unfold rne
  split_ifs with a b c
  · left; rw [e0]; linarith
  · left; rw [e1]; linarith
  · right; rw [e0]; exact ⟨by linarith, c⟩
  · right; rw [e1]; exact ⟨by linarith, (Int.not_even_iff_odd.1 c).add_one⟩

theorem nearest_abs {y : K} {n : ℤ} (h : Nearest y n) : |y - n| ≤ 1 / 2 := by
  rcases h with h | h
  · exact h.le
  · exact h.1.le

theorem nearest_unique {y : K} {n m : ℤ} (hn : Nearest y n) (hm : Nearest y m) : n = m := by
  by_contra hne
  wlog hlt : n < m generalizing n m
  · exact this hm hn (Ne.symm hne) (lt_of_le_of_ne (not_lt.1 hlt) (Ne.symm hne))
  have a := nearest_abs hn
  have b := nearest_abs hm
  rw [abs_le] at a b
  have hz : (n : K) + 1 ≤ m := by exact_mod_cast hlt
  have c : y - n = 1 / 2 := by linarith
  have d : y - m = -(1 / 2) := by linarith
  have hm1 : (m : K) = n + 1 := by linarith
  have hm2 : m = n + 1 := by exact_mod_cast hm1
  have en : Even n := by
    rcases hn with h | h
    · rw [c, abs_of_nonneg (by norm_num)] at h; exact absurd h (lt_irrefl _)
    · exact h.2
  have em : Even m := by
    rcases hm with h | h
    · rw [d, abs_neg, abs_of_nonneg (by norm_num)] at h; exact absurd h (lt_irrefl _)
    · exact h.2
  rw [hm2] at em
  exact (Int.not_even_iff_odd.2 en.add_one) em

theorem rne_eq {y : K} {n : ℤ} (h : Nearest y n) : rne y = n := nearest_unique (rne_nearest y) h

theorem rne_mono : Monotone (rne : K → ℤ) := by
  intro x y h
  rcases h.lt_or_eq with h | rfl
  · by_contra hlt
    push Not at hlt
    have a := nearest_abs (rne_nearest x)
    have b := nearest_abs (rne_nearest y)
    rw [abs_le] at a b
    have hz : ((rne y : ℤ) : K) + 1 ≤ rne x := by exact_mod_cast hlt
    linarith
  · exact le_rfl

theorem rne_int (n : ℤ) : rne (n : K) = n := rne_eq (Or.inl (by simp))

theorem rne_neg (y : K) : rne (-y) = -rne y := by
  apply rne_eq
  have e : |(-y) - ((-rne y : ℤ) : K)| = |y - rne y| := by push_cast; rw [← abs_neg]; congr 1; ring
  unfold Nearest
  rw [e]
  rcases rne_nearest y with h | h
  · exact Or.inl h
  · exact Or.inr ⟨h.1, h.2.neg⟩

theorem two_zpow_pos (e : ℤ) : (0 : K) < 2 ^ e := zpow_pos two_pos e

/-- a float: an integer of 53 bits times a power of two not below the smallest subnormal -/
def IsDouble (x : K) : Prop := ∃ (m e : ℤ), |m| ≤ 2 ^ 53 ∧ -1074 ≤ e ∧ x = m * 2 ^ e

theorem abs_lt_ulp (x : K) : |x| < 2 ^ 53 * 2 ^ ulpExp x := by
  have h := Int.lt_zpow_succ_log_self (b := 2) (by norm_num) |x|
  refine lt_of_lt_of_le h ?_
  rw [show (2 : K) ^ 53 * 2 ^ ulpExp x = 2 ^ (53 + ulpExp x) by rw [zpow_add₀ two_ne_zero]; norm_cast]
  push_cast
  apply zpow_le_zpow_right₀ one_le_two
  have : Int.log 2 |x| - 52 ≤ ulpExp x := le_max_left _ _
  omega

theorem isDouble_double (x : K) : IsDouble (double x) := by
  refine ⟨rne (x / 2 ^ ulpExp x), ulpExp x, ?_, le_max_right _ _, rfl⟩
  have h := abs_lt_ulp x
  have hp := two_zpow_pos (K := K) (ulpExp x)
  have h1 : |x / 2 ^ ulpExp x| ≤ 2 ^ 53 := by
    rw [abs_div, abs_of_pos hp, div_le_iff₀ hp]; exact h.le
  rw [abs_le] at h1
  have u := rne_mono h1.2
  have l := rne_mono h1.1
  rw [show ((2 : K) ^ 53) = ((2 ^ 53 : ℤ) : K) by norm_num, rne_int] at u
  rw [show (-(2 : K) ^ 53) = ((-2 ^ 53 : ℤ) : K) by norm_num, rne_int] at l
  rw [abs_le]; exact ⟨l, u⟩

/-- numbers with at most 53 bits are left alone -/
theorem double_of_fits {x : K} {m e : ℤ} (hm : |m| < 2 ^ 53) (he : -1074 ≤ e) (hx : x = m * 2 ^ e) : double x = x := by
  rcases eq_or_ne m 0 with rfl | hm0
  · have : x = 0 := by simpa using hx
    subst this
    have h0 := rne_int (K := K) 0
    simp only [Int.cast_zero] at h0
    simp [double, h0]
  have hxa : |x| = |m| * 2 ^ e := by rw [hx, abs_mul, abs_of_pos (two_zpow_pos (K := K) e), Int.cast_abs]
  have hpos : 0 < |x| := by
    rw [hxa]; exact mul_pos (by exact_mod_cast abs_pos.2 hm0) (two_zpow_pos e)
  have hle : ulpExp x ≤ e := by
    refine max_le ?_ he
    have : Int.log 2 |x| < 53 + e := by
      rw [← Int.lt_zpow_iff_log_lt (by norm_num) hpos, hxa]
      push_cast
      rw [zpow_add₀ two_ne_zero]
      refine mul_lt_mul_of_pos_right ?_ (two_zpow_pos e)
      have h3 : ((|m| : ℤ) : K) < ((2 ^ 53 : ℤ) : K) := Int.cast_lt.2 hm
      refine lt_of_lt_of_eq (by simpa using h3) (by norm_num)
    omega
  have hq : x / 2 ^ ulpExp x = ((m * 2 ^ (e - ulpExp x).toNat : ℤ) : K) := by
    have h2 : (2 : K) ^ e = 2 ^ (e - ulpExp x).toNat * 2 ^ ulpExp x := by
      rw [← zpow_natCast, ← zpow_add₀ two_ne_zero]; congr 1; omega
    rw [div_eq_iff (two_zpow_pos _).ne']
    generalize ulpExp x = u at *
    rw [hx, h2]; push_cast; ring
  rw [double, hq, rne_int, ← hq, div_mul_cancel₀ _ (two_zpow_pos _).ne']

theorem double_of_isDouble {x : K} (h : IsDouble x) : double x = x := by
  obtain ⟨m, e, hm, he, rfl⟩ := h
  rcases hm.lt_or_eq with h | h
  · exact double_of_fits h he rfl
  · rcases (abs_eq (by norm_num)).1 h with rfl | rfl
    · refine double_of_fits (m := 2 ^ 52) (e := e + 1) (by norm_num) (by omega) ?_
      rw [zpow_add₀ two_ne_zero]; push_cast; ring
    · refine double_of_fits (m := -2 ^ 52) (e := e + 1) (by norm_num) (by omega) ?_
      rw [zpow_add₀ two_ne_zero]; push_cast; ring

theorem double_neg (x : K) : double (-x) = -double x := by
  have : ulpExp (-x) = ulpExp x := by simp [ulpExp]
  rw [double, double, this, neg_div, rne_neg]; push_cast; ring

theorem double_mono_nonneg {x y : K} (hx : 0 ≤ x) (h : x ≤ y) : double x ≤ double y := by
  rcases hx.lt_or_eq with hx | hx
  swap
  · subst hx
    have e0 : double (0 : K) = 0 := double_of_isDouble ⟨0, 0, by norm_num, by norm_num, by simp⟩
    rw [e0, double]
    refine mul_nonneg ?_ (two_zpow_pos _).le
    have := rne_mono (div_nonneg h (two_zpow_pos (K := K) (ulpExp y)).le)
    rw [show (0 : K) = ((0 : ℤ) : K) by simp, rne_int] at this
    exact_mod_cast this
  have hy := hx.trans_le h
  have hlog : Int.log 2 |x| ≤ Int.log 2 |y| := Int.log_mono_right (abs_pos.2 hx.ne') (by rw [abs_of_pos hx, abs_of_pos hy]; exact h)
  have hexp : ulpExp x ≤ ulpExp y := max_le_max (by omega) le_rfl
  rcases hexp.lt_or_eq with hlt | heq
  · have h1 : double x ≤ 2 ^ 53 * 2 ^ ulpExp x := by
      rw [double]
      refine mul_le_mul_of_nonneg_right ?_ (two_zpow_pos _).le
      have h2 : x / 2 ^ ulpExp x ≤ ((2 ^ 53 : ℤ) : K) := by
        rw [div_le_iff₀ (two_zpow_pos _)]
        have := (abs_lt_ulp x).le
        rw [abs_of_pos hx] at this
        exact le_of_le_of_eq this (by norm_num)
      have := rne_mono h2
      rw [rne_int] at this
      exact_mod_cast this
    have hge : -1074 < ulpExp y := lt_of_le_of_lt (le_max_right _ _) hlt
    have hu : ulpExp y = Int.log 2 |y| - 52 := by
      unfold ulpExp at hge ⊢
      rcases max_choice (Int.log 2 |y| - 52) (-1074) with h | h
      · exact h
      · rw [h] at hge; exact absurd hge (lt_irrefl _)
    have h3 : (2 : K) ^ 52 * 2 ^ ulpExp y ≤ double y := by
      rw [double]
      refine mul_le_mul_of_nonneg_right ?_ (two_zpow_pos _).le
      have h2 : ((2 ^ 52 : ℤ) : K) ≤ y / 2 ^ ulpExp y := by
        rw [le_div_iff₀ (two_zpow_pos _)]
        have := Int.zpow_log_le_self (b := 2) (by norm_num) (abs_pos.2 hy.ne')
        rw [abs_of_pos hy] at this
        refine le_trans (le_of_eq ?_) this
        rw [hu, abs_of_pos hy]
        rw [show ((2 ^ 52 : ℤ) : K) = 2 ^ (52 : ℤ) by norm_num, Nat.cast_ofNat, ← zpow_add₀ two_ne_zero]
        congr 1; omega
      have := rne_mono h2
      rw [rne_int] at this
      exact_mod_cast this
    refine h1.trans (le_trans ?_ h3)
    have : (2 : K) ^ 53 * 2 ^ ulpExp x = 2 ^ 52 * 2 ^ (ulpExp x + 1) := by rw [zpow_add₀ two_ne_zero]; norm_num; ring
    rw [this]
    exact mul_le_mul_of_nonneg_left (zpow_le_zpow_right₀ one_le_two (by omega)) (by positivity)
  · rw [double, double, heq]
    refine mul_le_mul_of_nonneg_right ?_ (two_zpow_pos _).le
    exact_mod_cast rne_mono (div_le_div_of_nonneg_right h (two_zpow_pos _).le)

theorem double_zero : double (0 : K) = 0 := double_of_isDouble ⟨0, 0, by norm_num, by norm_num, by simp⟩

theorem double_mono : Monotone (double : K → K) := by
  intro x y h
  rcases le_total 0 x with hx | hx
  · exact double_mono_nonneg hx h
  · have hx0 : double x ≤ 0 := by
      have := double_mono_nonneg le_rfl (neg_nonneg.2 hx)
      rw [double_zero, double_neg] at this; linarith
    rcases le_total 0 y with hy | hy
    · refine hx0.trans ?_
      have := double_mono_nonneg le_rfl hy
      rwa [double_zero] at this
    · have := double_mono_nonneg (neg_nonneg.2 hy) (neg_le_neg h)
      rw [double_neg, double_neg] at this; linarith

/-- **C174** IEEE binary64 has the properties that the theorems about rounded arithmetic use -/
def ieee : Rounding K where
  rnd := double
  mono := double_mono
  idem x := double_of_isDouble (isDouble_double x)
  neg := double_neg
  int n h := double_of_isDouble ⟨n, 0, h, by norm_num, by simp⟩
  half := double_of_isDouble ⟨1, -1, by norm_num, by norm_num, by norm_num⟩
  sub x y h := by
    by_contra hne
    -- both are whole multiples of the smallest subnormal number
    have key : ∀ z : K, ∃ k : ℤ, double z = k * 2 ^ (-1074 : ℤ) := fun z => by
      obtain ⟨m, e, -, he, hz⟩ := isDouble_double z
      refine ⟨m * 2 ^ (e + 1074).toNat, ?_⟩
      rw [hz]; push_cast
      rw [mul_assoc, ← zpow_natCast, ← zpow_add₀ two_ne_zero]; congr 2; omega
    obtain ⟨a, ha⟩ := key x
    obtain ⟨b, hb⟩ := key y
    rw [ha, hb] at hne h
    rw [← sub_mul, ← Int.cast_sub] at h
    have hab : a - b ≠ 0 := fun h0 => hne (by rw [sub_eq_zero.1 h0])
    have one : double ((2 : K) ^ (-1074 : ℤ)) = 2 ^ (-1074 : ℤ) := double_of_isDouble ⟨1, -1074, by norm_num, le_rfl, by simp⟩
    have hp := two_zpow_pos (K := K) (-1074)
    rcases lt_or_gt_of_ne hab with h1 | h1
    · have h2 : ((a - b : ℤ) : K) * 2 ^ (-1074 : ℤ) ≤ -2 ^ (-1074 : ℤ) := by
        have : ((a - b : ℤ) : K) ≤ -1 := by exact_mod_cast Int.le_sub_one_of_lt h1
        nlinarith
      have := double_mono h2
      rw [h, double_neg, one] at this; linarith
    · have h2 : (2 : K) ^ (-1074 : ℤ) ≤ ((a - b : ℤ) : K) * 2 ^ (-1074 : ℤ) := by
        have : (1 : K) ≤ ((a - b : ℤ) : K) := by exact_mod_cast h1
        nlinarith
      have := double_mono h2
      rw [h, one] at this; linarith

/-- the error is at most half a unit in the last place -/
theorem double_err (x : K) : |double x - x| ≤ 2 ^ (-53 : ℤ) * |x| + 2 ^ (-1075 : ℤ) := by
  rcases eq_or_ne x 0 with rfl | h0
  · rw [double_zero]; simp only [sub_zero, abs_zero, mul_zero, zero_add]; exact (two_zpow_pos _).le
  have h1 : |double x - x| ≤ 1 / 2 * 2 ^ ulpExp x := by
    have := nearest_abs (rne_nearest (x / 2 ^ ulpExp x))
    have e : double x - x = -((x / 2 ^ ulpExp x - rne (x / 2 ^ ulpExp x)) * 2 ^ ulpExp x) := by
      rw [double, sub_mul, div_mul_cancel₀ _ (two_zpow_pos _).ne']; ring
    rw [e, abs_neg, abs_mul, abs_of_pos (two_zpow_pos (K := K) (ulpExp x))]
    exact mul_le_mul_of_nonneg_right this (two_zpow_pos _).le
  refine h1.trans ?_
  have hp := two_zpow_pos (K := K) (-1075)
  have hq := two_zpow_pos (K := K) (-53)
  rcases max_choice (Int.log 2 |x| - 52) (-1074) with h | h
  · rw [show ulpExp x = Int.log 2 |x| - 52 from h]
    have := Int.zpow_log_le_self (b := 2) (by norm_num) (abs_pos.2 h0)
    have e : (1 : K) / 2 * 2 ^ (Int.log 2 |x| - 52) = 2 ^ (-53 : ℤ) * 2 ^ (Int.log 2 |x|) := by
      rw [show (1 : K) / 2 = 2 ^ (-1 : ℤ) by norm_num, ← zpow_add₀ two_ne_zero, ← zpow_add₀ two_ne_zero]; congr 1; ring
    rw [e]
    push_cast at this
    have := mul_le_mul_of_nonneg_left this hq.le
    linarith
  · rw [show ulpExp x = -1074 from h]
    have e : (1 : K) / 2 * 2 ^ (-1074 : ℤ) = 2 ^ (-1075 : ℤ) := by
      rw [show (1 : K) / 2 = 2 ^ (-1 : ℤ) by norm_num, ← zpow_add₀ two_ne_zero]; norm_num
    rw [e]
    have := mul_nonneg hq.le (abs_nonneg x)
    linarith

/-- numbers below half the smallest subnormal number vanish -/
theorem double_tiny {x : K} (h : |x| < 2 ^ (-1075 : ℤ)) : double x = 0 := by
  rcases eq_or_ne x 0 with rfl | h0
  · exact double_zero
  have hu : ulpExp x = -1074 := by
    have : Int.log 2 |x| < -1075 := by
      rw [← Int.lt_zpow_iff_log_lt (by norm_num) (abs_pos.2 h0)]; exact_mod_cast h
    rw [ulpExp]; exact max_eq_right (by omega)
  have hn : Nearest (x / 2 ^ (-1074 : ℤ)) 0 := by
    left
    rw [Int.cast_zero, sub_zero, abs_div, abs_of_pos (two_zpow_pos (K := K) (-1074)), div_lt_iff₀ (two_zpow_pos _)]
    refine h.trans_eq ?_
    rw [show (1 : K) / 2 = 2 ^ (-1 : ℤ) by norm_num, ← zpow_add₀ two_ne_zero]; norm_num
  rw [double, hu, rne_eq hn]; simp

/-- how to compute a rounded number: `x` is `m` units of the last place, up to half a unit -/
theorem double_eq {x : K} (m e : ℤ) (he : -1074 ≤ e) (hn : Nearest (x / 2 ^ e) m) (hx : (2 : K) ^ 52 * 2 ^ e ≤ x) (hx' : x < 2 ^ 53 * 2 ^ e) : double x = m * 2 ^ e := by
  have hpos : 0 < x := lt_of_lt_of_le (by have := two_zpow_pos (K := K) e; positivity) hx
  have hlog : Int.log 2 |x| = e + 52 := by
    rw [abs_of_pos hpos]
    apply le_antisymm
    · have : Int.log 2 x < e + 53 := by
        rw [← Int.lt_zpow_iff_log_lt (by norm_num) hpos]
        push_cast
        rw [show (2 : K) ^ (e + 53) = 2 ^ 53 * 2 ^ e by rw [zpow_add₀ two_ne_zero]; norm_cast; ring]; exact hx'
      omega
    · rw [← Int.zpow_le_iff_le_log (by norm_num) hpos]
      push_cast
      rw [show (2 : K) ^ (e + 52) = 2 ^ 52 * 2 ^ e by rw [zpow_add₀ two_ne_zero]; norm_cast; ring]; exact hx
  have hu : ulpExp x = e := by rw [ulpExp, hlog]; simp; omega
  rw [double, hu, rne_eq hn]

/-- away from underflow the relative error is at most `2^-53` -/
theorem double_err_rel {x : K} (h : (2 : K) ^ (-1022 : ℤ) ≤ |x|) : |double x - x| ≤ 2 ^ (-53 : ℤ) * |x| := by
  have hx : 0 < |x| := (two_zpow_pos _).trans_le h
  have hu : ulpExp x = Int.log 2 |x| - 52 := by
    have : -1022 ≤ Int.log 2 |x| := by
      rw [← Int.zpow_le_iff_le_log (by norm_num) hx]; exact_mod_cast h
    rw [ulpExp]; exact max_eq_left (by omega)
  have h1 : |double x - x| ≤ 1 / 2 * 2 ^ ulpExp x := by
    have := nearest_abs (rne_nearest (x / 2 ^ ulpExp x))
    have e : double x - x = -((x / 2 ^ ulpExp x - rne (x / 2 ^ ulpExp x)) * 2 ^ ulpExp x) := by
      rw [double, sub_mul, div_mul_cancel₀ _ (two_zpow_pos _).ne']; ring
    rw [e, abs_neg, abs_mul, abs_of_pos (two_zpow_pos (K := K) (ulpExp x))]
    exact mul_le_mul_of_nonneg_right this (two_zpow_pos _).le
  refine h1.trans ?_
  rw [hu]
  have := Int.zpow_log_le_self (b := 2) (by norm_num) hx
  have e : (1 : K) / 2 * 2 ^ (Int.log 2 |x| - 52) = 2 ^ (-53 : ℤ) * 2 ^ (Int.log 2 |x|) := by
    rw [show (1 : K) / 2 = 2 ^ (-1 : ℤ) by norm_num, ← zpow_add₀ two_ne_zero, ← zpow_add₀ two_ne_zero]; congr 1; ring
  rw [e]
  push_cast at this
  exact mul_le_mul_of_nonneg_left this (two_zpow_pos _).le

theorem isDouble_grid {x : K} (h : IsDouble x) : ∃ k : ℤ, x = k * 2 ^ (-1074 : ℤ) := by
  obtain ⟨m, e, -, he, hz⟩ := h
  refine ⟨m * 2 ^ (e + 1074).toNat, ?_⟩
  rw [hz]; push_cast
  rw [mul_assoc, ← zpow_natCast, ← zpow_add₀ two_ne_zero]; congr 2; omega

/-- sums and differences of numbers on the grid never underflow -/
theorem double_err_grid {x : K} (h : ∃ k : ℤ, x = k * 2 ^ (-1074 : ℤ)) : |double x - x| ≤ 2 ^ (-53 : ℤ) * |x| := by
  rcases le_or_gt ((2 : K) ^ (-1022 : ℤ)) |x| with hx | hx
  · exact double_err_rel hx
  · obtain ⟨k, hk⟩ := h
    have hd : IsDouble x := by
      refine ⟨k, -1074, ?_, le_rfl, hk⟩
      have hp := two_zpow_pos (K := K) (-1074)
      rw [hk, abs_mul, abs_of_pos hp] at hx
      have : (|k| : K) < 2 ^ 52 := by
        by_contra hc
        have hc := mul_le_mul_of_nonneg_right (not_lt.1 hc) hp.le
        have e : (2 : K) ^ 52 * 2 ^ (-1074 : ℤ) = 2 ^ (-1022 : ℤ) := by
          rw [← zpow_natCast, ← zpow_add₀ two_ne_zero]; norm_num
        rw [e] at hc; exact absurd hx (not_lt.2 hc)
      have h2 : |k| < 2 ^ 52 := by exact_mod_cast this
      have h3 : (2 : ℤ) ^ 52 ≤ 2 ^ 53 := by norm_num
      omega
    rw [double_of_isDouble hd, sub_self, abs_zero]
    exact mul_nonneg (two_zpow_pos _).le (abs_nonneg _)

theorem sub_err {x y : K} (hx : IsDouble x) (hy : IsDouble y) : |double (x - y) - (x - y)| ≤ 2 ^ (-53 : ℤ) * |x - y| := by
  obtain ⟨a, ha⟩ := isDouble_grid hx
  obtain ⟨b, hb⟩ := isDouble_grid hy
  exact double_err_grid ⟨a - b, by rw [ha, hb]; push_cast; ring⟩

theorem add_err {x y : K} (hx : IsDouble x) (hy : IsDouble y) : |double (x + y) - (x + y)| ≤ 2 ^ (-53 : ℤ) * |x + y| := by
  obtain ⟨a, ha⟩ := isDouble_grid hx
  obtain ⟨b, hb⟩ := isDouble_grid hy
  exact double_err_grid ⟨a + b, by rw [ha, hb]; push_cast; ring⟩

end
end Verif.Rnd
