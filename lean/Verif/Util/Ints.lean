import Mathlib.Analysis.SpecialFunctions.Log.Base
import Mathlib.Algebra.Order.Floor.Ring
import Mathlib.Data.Int.Bitwise
import Mathlib.Data.Nat.Bitwise
import Mathlib.Tactic.Linarith
import Mathlib.Tactic.IntervalCases
/-!
# Integer helpers (C53)

Models `pytracer/utility/utility.py` 74-106.  `np.log2` is the real logarithm and `2 ** k` the real power; rounding of floats
(which could move `log2` of an integer above 2^48 or so across a boundary) is not modelled.
-/
set_option linter.unusedSectionVars false
namespace Verif.Ints

/-- `INT(x)` on a non-integral float truncates towards zero -/
noncomputable def trunc (x : ℝ) : ℤ := if 0 ≤ x then ⌊x⌋ else ⌈x⌉

/-- `np.round`: to the nearest integer, ties to the even one -/
noncomputable def npRound (x : ℝ) : ℤ :=
  if x - ⌊x⌋ < 1 / 2 then ⌊x⌋ else if 1 / 2 < x - ⌊x⌋ then ⌊x⌋ + 1 else if ⌊x⌋ % 2 = 0 then ⌊x⌋ else ⌊x⌋ + 1

/-- `ftoi`, utility.py 74-76 -/
noncomputable def ftoi (x : ℝ) : ℤ := trunc (⌊x⌋ : ℝ)
/-- `ctoi`, utility.py 79-81 -/
noncomputable def ctoi (x : ℝ) : ℤ := trunc (⌈x⌉ : ℝ)
/-- `rtoi`, utility.py 84-86 -/
noncomputable def rtoi (x : ℝ) : ℤ := trunc (npRound x : ℝ)
/-- `round_pow_2`, utility.py 94-96 -/
noncomputable def roundPow2 (x : ℤ) : ℤ := trunc ((2 : ℝ) ^ npRound (Real.logb 2 x))
/-- `next_pow_2`, utility.py 99-101 -/
noncomputable def nextPow2 (x : ℤ) : ℤ := trunc ((2 : ℝ) ^ ⌈Real.logb 2 x⌉)
/-- `is_pow_2`, utility.py 104-106 -/
def isPow2 (x : ℤ) : Bool := decide (Int.land x (x - 1) = 0)
/-- `lerp`, utility.py 89-91 -/
def lerp {K : Type*} [Field K] (t a b : K) : K := (1 - t) * a + t * b

theorem trunc_int (n : ℤ) : trunc (n : ℝ) = n := by
  unfold trunc; split <;> simp

/-- **C53** the three conversions are floor, ceiling and a nearest integer. -/
theorem C53_conversions (x : ℝ) :
    ((ftoi x : ℝ) ≤ x ∧ x < ftoi x + 1) ∧ ((ctoi x : ℝ) - 1 < x ∧ x ≤ ctoi x) ∧ |x - rtoi x| ≤ 1 / 2 := by
  simp only [ftoi, ctoi, rtoi, trunc_int]
  refine ⟨⟨Int.floor_le x, Int.lt_floor_add_one x⟩, ⟨?_, Int.le_ceil x⟩, ?_⟩
  · linarith [Int.ceil_lt_add_one x]
  · have h1 := Int.floor_le x
    have h2 := Int.lt_floor_add_one x
    unfold npRound
    rw [abs_le]
    split_ifs <;> push_cast <;> constructor <;> linarith

/-- **C53** `rtoi` of a number half way between two integers is the even one of them. -/
theorem C53_rtoi_ties (n : ℤ) : Even (rtoi (n + 1 / 2)) ∧ (rtoi (n + 1 / 2) = n ∨ rtoi (n + 1 / 2) = n + 1) := by
  have hf : ⌊(n : ℝ) + 1 / 2⌋ = n := by
    rw [Int.floor_eq_iff]; constructor <;> linarith
  have e : rtoi (n + 1 / 2) = if n % 2 = 0 then n else n + 1 := by
    simp only [rtoi, trunc_int, npRound, hf]
    rw [if_neg (by norm_num), if_neg (by norm_num)]
  rw [e]
  split_ifs with h
  · exact ⟨Int.even_iff.2 h, .inl rfl⟩
  · exact ⟨Int.even_iff.2 (by omega), .inr rfl⟩

theorem npRound_near (x : ℝ) : |x - npRound x| ≤ 1 / 2 := by
  have h1 := Int.floor_le x
  have h2 := Int.lt_floor_add_one x
  unfold npRound
  rw [abs_le]
  split_ifs <;> push_cast <;> constructor <;> linarith

theorem trunc_zpow {k : ℤ} (hk : 0 ≤ k) : trunc ((2 : ℝ) ^ k) = 2 ^ k.toNat := by
  obtain ⟨n, rfl⟩ := Int.eq_ofNat_of_zero_le hk
  have : ((2 : ℝ) ^ (n : ℤ)) = (((2 : ℤ) ^ n : ℤ) : ℝ) := by push_cast; exact zpow_natCast 2 n
  simp only [Int.ofNat_eq_natCast, Int.toNat_natCast, this, trunc_int]

/-- **C53** for every positive integer `next_pow_2` is a power of two, not below the argument, and below or equal to every
power of two that is not below the argument. -/
theorem C53_next_pow_2 (n : ℤ) (hn : 1 ≤ n) :
    (∃ k : ℕ, nextPow2 n = 2 ^ k) ∧ n ≤ nextPow2 n ∧ ∀ j : ℕ, n ≤ 2 ^ j → nextPow2 n ≤ 2 ^ j := by
  have hn' : (1 : ℝ) ≤ n := by exact_mod_cast hn
  have hl : 0 ≤ Real.logb 2 n := Real.logb_nonneg (by norm_num) hn'
  have hk : 0 ≤ ⌈Real.logb 2 n⌉ := Int.ceil_nonneg hl
  have e : nextPow2 n = 2 ^ (⌈Real.logb 2 n⌉).toNat := trunc_zpow hk
  have ek : (((⌈Real.logb 2 n⌉).toNat : ℕ) : ℤ) = ⌈Real.logb 2 n⌉ := Int.toNat_of_nonneg hk
  refine ⟨⟨_, e⟩, ?_, ?_⟩
  · rw [e]
    have h : Real.logb 2 n ≤ ((⌈Real.logb 2 n⌉).toNat : ℕ) := by
      have := Int.le_ceil (Real.logb 2 n)
      rw [← ek] at this
      exact_mod_cast this
    have := (Real.logb_le_iff_le_rpow (b := 2) (by norm_num) (by linarith)).1 h
    rw [Real.rpow_natCast] at this
    exact_mod_cast this
  · intro j hj
    rw [e]
    apply pow_le_pow_right₀ (by norm_num)
    have hj' : (n : ℝ) ≤ (2 : ℝ) ^ (j : ℝ) := by rw [Real.rpow_natCast]; exact_mod_cast hj
    have := (Real.logb_le_iff_le_rpow (b := 2) (by norm_num) (by linarith)).2 hj'
    have : ⌈Real.logb 2 n⌉ ≤ (j : ℤ) := Int.ceil_le.2 (by exact_mod_cast this)
    omega

/-- **C53** for every positive integer `round_pow_2` is a power of two `2^k` and no other power of two is nearer on the
logarithmic scale. -/
theorem C53_round_pow_2 (n : ℤ) (hn : 1 ≤ n) :
    ∃ k : ℕ, roundPow2 n = 2 ^ k ∧ ∀ j : ℕ, |Real.logb 2 n - k| ≤ |Real.logb 2 n - j| := by
  have hn' : (1 : ℝ) ≤ n := by exact_mod_cast hn
  have hl : 0 ≤ Real.logb 2 n := Real.logb_nonneg (by norm_num) hn'
  have hf : 0 ≤ ⌊Real.logb 2 n⌋ := Int.floor_nonneg.2 hl
  have hk : 0 ≤ npRound (Real.logb 2 n) := by unfold npRound; split_ifs <;> omega
  refine ⟨(npRound (Real.logb 2 n)).toNat, trunc_zpow hk, ?_⟩
  intro j
  have ek : (((npRound (Real.logb 2 n)).toNat : ℕ) : ℤ) = npRound (Real.logb 2 n) := Int.toNat_of_nonneg hk
  have ek' : (((npRound (Real.logb 2 n)).toNat : ℕ) : ℝ) = (npRound (Real.logb 2 n) : ℝ) := by exact_mod_cast congrArg (Int.cast (R := ℝ)) ek
  have near := npRound_near (Real.logb 2 n)
  rw [← ek'] at near
  generalize (npRound (Real.logb 2 n)).toNat = k at near
  rcases eq_or_ne j k with rfl | hjk
  · exact le_rfl
  · have h1 : (1 : ℝ) ≤ |(k : ℝ) - j| := by
      rcases lt_or_gt_of_ne hjk with h | h
      · have : (j : ℝ) + 1 ≤ k := by exact_mod_cast h
        exact (by linarith : (1 : ℝ) ≤ k - j).trans (le_abs_self _)
      · have : (k : ℝ) + 1 ≤ j := by exact_mod_cast h
        rw [abs_sub_comm]
        exact (by linarith : (1 : ℝ) ≤ j - k).trans (le_abs_self _)
    have h2 : |(k : ℝ) - j| ≤ |Real.logb 2 n - k| + |Real.logb 2 n - j| := by
      have := abs_sub (Real.logb 2 n - j) (Real.logb 2 n - k)
      have e : Real.logb 2 n - j - (Real.logb 2 n - k) = k - j := by ring
      rw [e] at this
      linarith
    linarith

theorem pow2_nat (n : ℕ) : 0 < n → n &&& (n - 1) = 0 → ∃ k, n = 2 ^ k := by
  induction n using Nat.strong_induction_on with
  | _ n ih =>
    intro hn h
    rcases Nat.even_or_odd' n with ⟨m, rfl | rfl⟩
    · have hm : 0 < m := by omega
      have e1 : 2 * m = Nat.bit false m := by simp [Nat.bit_val]
      have e2 : 2 * m - 1 = Nat.bit true (m - 1) := by simp only [Nat.bit_val, Bool.toNat_true]; omega
      rw [e2, e1, Nat.land_bit] at h
      have : m &&& (m - 1) = 0 := by simpa [Nat.bit_val] using h
      obtain ⟨k, hk⟩ := ih m (by omega) hm this
      exact ⟨k + 1, by rw [pow_succ, ← hk]; omega⟩
    · have e1 : 2 * m + 1 = Nat.bit true m := by simp [Nat.bit_val]
      have e2 : 2 * m + 1 - 1 = Nat.bit false m := by simp [Nat.bit_val]
      rw [e2, e1, Nat.land_bit] at h
      have : m = 0 := by simpa [Nat.bit_val] using h
      exact ⟨0, by omega⟩

theorem nat_pow2 (k : ℕ) : 2 ^ k &&& (2 ^ k - 1) = 0 := by
  rw [Nat.and_two_pow_sub_one_eq_mod]
  exact Nat.mod_self _

/-- **C53** `is_pow_2` answers True exactly on zero and the powers of two, for every integer (negative ones included); so
on positive integers it is the test for a power of two. -/
theorem C53_is_pow_2 (n : ℤ) : isPow2 n = true ↔ n = 0 ∨ ∃ k : ℕ, n = 2 ^ k := by
  simp only [isPow2, decide_eq_true_eq]
  match n with
  | Int.ofNat 0 =>
    simp only [Int.ofNat_eq_natCast, Int.natCast_zero, true_or, iff_true]
    have h : (0 : ℤ) - 1 = Int.negSucc 0 := rfl
    rw [h]
    show ((Nat.ldiff 0 0 : ℕ) : ℤ) = 0
    simp [Nat.ldiff]
  | Int.ofNat (m + 1) =>
    have e : Int.land (Int.ofNat (m + 1)) (Int.ofNat (m + 1) - 1) = ((m + 1 &&& m : ℕ) : ℤ) := by
      have : Int.ofNat (m + 1) - 1 = Int.ofNat m := by simp
      rw [this]; rfl
    rw [e]
    constructor
    · intro h
      right
      obtain ⟨k, hk⟩ := pow2_nat (m + 1) (by omega) (by simpa using h)
      exact ⟨k, by rw [hk]; simp⟩
    · rintro (h | ⟨k, hk⟩)
      · simp at h; omega
      · have hk' : m + 1 = 2 ^ k := by
          have : ((m + 1 : ℕ) : ℤ) = ((2 ^ k : ℕ) : ℤ) := by push_cast; simpa using hk
          exact_mod_cast this
        have := nat_pow2 k
        rw [← hk'] at this
        simpa using this
  | Int.negSucc m =>
    have e : Int.land (Int.negSucc m) (Int.negSucc m - 1) = Int.negSucc (m ||| (m + 1)) := by
      have : Int.negSucc m - 1 = Int.negSucc (m + 1) := by rfl
      rw [this]; rfl
    rw [e]
    constructor
    · intro h; cases h
    · rintro (h | ⟨k, hk⟩)
      · cases h
      · have : (0 : ℤ) < 2 ^ k := by positivity
        have h2 : Int.negSucc m < 0 := Int.negSucc_lt_zero m
        omega

/-- **C53** `lerp` interpolates: it gives the end values at 0 and 1, is affine in `t`, and stays between the ends. -/
theorem C53_lerp {K : Type*} [Field K] [LinearOrder K] [IsStrictOrderedRing K] (a b t : K) :
    lerp 0 a b = a ∧ lerp 1 a b = b ∧ lerp t a b = a + t * (b - a) ∧ (0 ≤ t → t ≤ 1 → min a b ≤ lerp t a b ∧ lerp t a b ≤ max a b) := by
  refine ⟨by simp [lerp], by simp [lerp], by simp only [lerp]; ring, fun h0 h1 => ?_⟩
  have hs : 0 ≤ 1 - t := by linarith
  have m1 := mul_le_mul_of_nonneg_left (min_le_left a b) hs
  have m2 := mul_le_mul_of_nonneg_left (min_le_right a b) h0
  have m3 := mul_le_mul_of_nonneg_left (le_max_left a b) hs
  have m4 := mul_le_mul_of_nonneg_left (le_max_right a b) h0
  constructor
  · have : min a b = (1 - t) * min a b + t * min a b := by ring
    rw [this, lerp]; linarith
  · have : max a b = (1 - t) * max a b + t * max a b := by ring
    rw [this, lerp]; linarith

/-- the hypotheses hold for 5: the next power is 8, and 5 is no power of two -/
example : nextPow2 5 = 8 ∧ isPow2 5 = false ∧ isPow2 8 = true := by
  obtain ⟨⟨k, hk⟩, h1, h2⟩ := C53_next_pow_2 5 (by norm_num)
  have h8 := h2 3 (by norm_num)
  rw [hk] at h1 h8 ⊢
  have hlt : k ≤ 3 := (pow_le_pow_iff_right₀ (a := (2 : ℤ)) (by norm_num)).1 h8
  refine ⟨?_, by decide, by decide⟩
  interval_cases k <;> simp_all

end Verif.Ints
