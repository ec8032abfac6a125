import Verif.Texture.MipMap
import Verif.MC.Rounded
import Mathlib.Tactic.NormNum
import Mathlib.Tactic.Linarith

/-!
# Mip-maps in floating point (C199)

`MIPMap` of `pytracer/texture/utility.py` (lines 283-346 and 401-435) with every operation on one channel of the spectra rounded to binary64
(`double`, `Num/Round`).  Simplified: no overflow (channels below `2 ^ 1021`); `np.log2` is any function `log2R`.
-/
namespace Verif.MipR
open Verif.Rnd Verif.Texture Verif.MCR

/-! ### Model -/

/-- `.25 * (a + b + c + d)` (utility.py 297-301) on one channel -/
noncomputable def avgR (a b c d : ℝ) : ℝ := double (1 / 4 * double (double (double (a + b) + c) + d))

/-- the entry computed in lines 297-301 -/
noncomputable def boxR (w : Wrap) (l : Level ℝ) (s t : ℕ) : Option ℝ := do
  let a ← texel w l (2 * s) (2 * t)
  let b ← texel w l (2 * s + 1) (2 * t)
  let c ← texel w l (2 * s) (2 * t + 1)
  let d ← texel w l (2 * s + 1) (2 * t + 1)
  pure (avgR a b c d)

open Classical in
/-- one round of the pyramid loop (utility.py 289-301) -/
noncomputable def downR (w : Wrap) (l : Level ℝ) : Option (Level ℝ) :=
  let sr := max 1 (l.u / 2)
  let tr := max 1 (l.v / 2)
  if ∀ t < tr, ∀ s < sr, (boxR w l s t).isSome then some ⟨tr, sr, fun t s => (boxR w l s t).getD 0⟩ else none

/-- `n` rounds of the pyramid loop (utility.py 289-301) -/
noncomputable def levelsR (w : Wrap) (l : Level ℝ) : ℕ → Option (List (Level ℝ))
  | 0 => some [l]
  | n + 1 => do
      let l' ← downR w l
      let r ← levelsR w l' n
      pure (l :: r)

/-- the pyramid of the constructor (utility.py 283-301) -/
noncomputable def pyramidR (w : Wrap) (l : Level ℝ) : Option (List (Level ℝ)) := levelsR w l (Nat.log 2 (max l.u l.v))

/-- `s * u - .5` (utility.py 339) -/
noncomputable def coordR (s : ℝ) (u : ℕ) : ℝ := double (double (s * u) - 1 / 2)

/-- `__triangle` (utility.py 337-346) -/
noncomputable def triangleR (m : MipMap ℝ) (level : ℤ) (s t : ℝ) : Option ℝ := do
  let l ← m.lev[(clipZ level 0 (m.lev.length - 1)).toNat]?
  let s := coordR s l.u
  let t := coordR t l.v
  let s0 := ⌊s⌋
  let t0 := ⌊t⌋
  let ds := double (s - s0)
  let dt := double (t - t0)
  let a ← texel m.wrap l s0 t0
  let b ← texel m.wrap l s0 (t0 + 1)
  let c ← texel m.wrap l (s0 + 1) t0
  let d ← texel m.wrap l (s0 + 1) (t0 + 1)
  pure (double (double (double (double (double (double (1 - ds) * double (1 - dt)) * a) + double (double (double (1 - ds) * dt) * b)) +
    double (double (ds * double (1 - dt)) * c)) + double (double (ds * dt) * d)))

/-- `EPS` (pytracer/__init__.py 23) as a double -/
noncomputable def epsR : ℝ := double (1 / 100000)

variable (log2R : ℝ → ℝ)

/-- the level of line 424 -/
noncomputable def levelR (m : MipMap ℝ) (width : ℝ) : ℝ := double (((m.lev.length : ℝ) - 1) + log2R (max width epsR))

/-- `look_up` with `[s, t, width]` (utility.py 411-435) -/
noncomputable def lookUp3R (m : MipMap ℝ) (s t width : ℝ) : Option ℝ :=
  let level := levelR log2R m width
  if level < 0 then triangleR m 0 s t
  else if level ≥ (m.lev.length : ℝ) - 1 then triangleR m m.lev.length 0 0
  else do
    let delta := double (level - ⌊level⌋)
    let a ← triangleR m ⌊level⌋ s t
    let b ← triangleR m (⌊level⌋ + 1) s t
    pure (double (double (double (1 - delta) * a) + double (delta * b)))

/-- `look_up` with `[s, t]` (utility.py 415-417) -/
noncomputable def lookUp2R (m : MipMap ℝ) (s t : ℝ) : Option ℝ := lookUp3R log2R m s t 0

/-! ### Four equal numbers have exactly their mean -/

/-- a double in units of its last place -/
theorem units {x : ℝ} (hx : IsDouble x) (h0 : 0 ≤ x) : ∃ m e : ℤ, 0 ≤ m ∧ m < 2 ^ 53 ∧ -1074 ≤ e ∧ x = m * 2 ^ e := by
  have h := double_of_isDouble hx
  have hp : (0 : ℝ) < 2 ^ ulpExp x := two_zpow_pos _
  refine ⟨rne (x / 2 ^ ulpExp x), ulpExp x, ?_, ?_, le_max_right _ _, h.symm⟩
  · have : (0 : ℤ) ≤ rne (x / 2 ^ ulpExp x) := by
      have := rne_mono (K := ℝ) (show (0 : ℝ) ≤ x / 2 ^ ulpExp x by positivity)
      have e := rne_int (K := ℝ) 0
      simp only [Int.cast_zero] at e
      rwa [e] at this
    exact this
  · have h1 := abs_lt_ulp x
    rw [abs_of_nonneg h0] at h1
    rw [← h] at h1
    have h2 : ((rne (x / 2 ^ ulpExp x) : ℤ) : ℝ) < 2 ^ 53 := by
      have e : double x = rne (x / 2 ^ ulpExp x) * 2 ^ ulpExp x := rfl
      have e' : ulpExp (double x) = ulpExp x := by rw [h]
      rw [e', e] at h1
      exact lt_of_mul_lt_mul_right h1 hp.le
    exact_mod_cast h2

theorem double_int (n e f : ℤ) (k : ℤ) (j : ℕ) (hj : f = e + j) (hf : -1074 ≤ f) (hn : Nearest ((n : ℝ) / 2 ^ j) k) (h1 : 2 ^ 52 * 2 ^ j ≤ n) (h2 : n < 2 ^ 53 * 2 ^ j) :
    double ((n : ℝ) * 2 ^ e) = k * 2 ^ f := by
  have hp : (0 : ℝ) < 2 ^ e := two_zpow_pos _
  have hs : (2 : ℝ) ^ f = 2 ^ e * 2 ^ j := by rw [hj, zpow_add₀ (by norm_num), zpow_natCast]
  have hr1 : ((2 : ℝ) ^ 52 * 2 ^ j) ≤ n := by exact_mod_cast h1
  have hr2 : (n : ℝ) < (2 : ℝ) ^ 53 * 2 ^ j := by exact_mod_cast h2
  refine double_eq k f hf ?_ ?_ ?_
  · rw [hs]
    have : (n : ℝ) * 2 ^ e / (2 ^ e * 2 ^ j) = n / 2 ^ j := by field_simp
    rwa [this]
  · rw [hs]
    calc (2 : ℝ) ^ 52 * (2 ^ e * 2 ^ j) = ((2 : ℝ) ^ 52 * 2 ^ j) * 2 ^ e := by ring
      _ ≤ (n : ℝ) * 2 ^ e := by exact mul_le_mul_of_nonneg_right hr1 hp.le
  · rw [hs]
    calc (n : ℝ) * 2 ^ e < ((2 : ℝ) ^ 53 * 2 ^ j) * 2 ^ e := mul_lt_mul_of_pos_right hr2 hp
      _ = (2 : ℝ) ^ 53 * (2 ^ e * 2 ^ j) := by ring

theorem near_of (n k : ℤ) (j : ℕ) (h : 2 * |n - k * 2 ^ j| < 2 ^ j ∨ (2 * |n - k * 2 ^ j| = 2 ^ j ∧ Even k)) : Nearest ((n : ℝ) / 2 ^ j) k := by
  have hp : (0 : ℝ) < 2 ^ j := by positivity
  have e : |(n : ℝ) / 2 ^ j - k| = |(n : ℝ) - k * 2 ^ j| / 2 ^ j := by
    rw [show (n : ℝ) / 2 ^ j - k = (n - k * 2 ^ j) / 2 ^ j by field_simp, abs_div, abs_of_pos hp]
  rcases h with h | ⟨h, hk⟩
  · refine Or.inl ?_
    rw [e, div_lt_div_iff₀ hp (by norm_num)]
    have : (2 : ℝ) * |(n : ℝ) - k * 2 ^ j| < 2 ^ j := by exact_mod_cast h
    linarith
  · refine Or.inr ⟨?_, hk⟩
    rw [e, div_eq_div_iff hp.ne' (by norm_num)]
    have : (2 : ℝ) * |(n : ℝ) - k * 2 ^ j| = 2 ^ j := by exact_mod_cast h
    linarith

theorem four_nonneg {x : ℝ} (hx : IsDouble x) (h0 : 0 ≤ x) : double (double (3 * x) + x) = 4 * x := by
  obtain ⟨m, e, m0, m1, he, rfl⟩ := units hx h0
  have fin (r : ℤ) (h3 : double (3 * ((m : ℝ) * 2 ^ e)) = r * 2 ^ e) (h4 : double (((r + m : ℤ) : ℝ) * 2 ^ e) = 4 * (m * 2 ^ e)) :
      double (double (3 * ((m : ℝ) * 2 ^ e)) + m * 2 ^ e) = 4 * (m * 2 ^ e) := by
    rw [h3, ← h4]; congr 1; push_cast; ring
  have e3 : 3 * ((m : ℝ) * 2 ^ e) = ((3 * m : ℤ) : ℝ) * 2 ^ e := by push_cast; ring
  have e4 : ((4 * m : ℤ) : ℝ) * 2 ^ e = 4 * (m * 2 ^ e) := by push_cast; ring
  have d4 : IsDouble (4 * ((m : ℝ) * 2 ^ e)) := ⟨m, e + 2, by rw [abs_of_nonneg m0]; omega, by omega, by rw [zpow_add₀ (by norm_num)]; norm_num; ring⟩
  have exact4 : double (((3 * m + m : ℤ) : ℝ) * 2 ^ e) = 4 * (m * 2 ^ e) := by
    rw [show 3 * m + m = 4 * m by ring, e4]; exact double_of_isDouble d4
  have up (j : ℕ) (r : ℤ) : (r : ℝ) * 2 ^ (e + j) = ((r * 2 ^ j : ℤ) : ℝ) * 2 ^ e := by
    rw [zpow_add₀ (by norm_num), zpow_natCast]; push_cast; ring
  by_cases b1 : 3 * m ≤ 2 ^ 53
  · refine fin (3 * m) ?_ exact4
    rw [e3]
    exact double_of_isDouble ⟨3 * m, e, by rw [abs_of_nonneg (by omega)]; exact b1, he, rfl⟩
  have close2 (r : ℤ) (hr : r = 4 * m + 1 ∨ r = 4 * m - 1) (hlo : 2 ^ 53 ≤ r) (hodd : ¬ 4 * m = 2 ^ 54) (hhi : r < 2 ^ 55) : double ((r : ℝ) * 2 ^ e) = 4 * (m * 2 ^ e) := by
    by_cases h : r < 2 ^ 54
    · rw [double_int r e (e + 1) (2 * m) 1 rfl (by omega) (near_of _ _ _ (Or.inr ⟨?_, even_two_mul m⟩)) (by omega) (by omega)]
      · have := up 1 (2 * m)
        push_cast at this
        rw [← e4]
        push_cast
        rw [this]; ring
      · rcases hr with h | h <;> rw [h]
        · rw [show 4 * m + 1 - 2 * m * 2 ^ 1 = 1 by ring]; norm_num
        · rw [show 4 * m - 1 - 2 * m * 2 ^ 1 = -1 by ring]; norm_num
    · rw [double_int r e (e + 2) m 2 rfl (by omega) (near_of _ _ _ (Or.inl ?_)) (by omega) (by omega)]
      · have := up 2 m
        push_cast at this
        rw [← e4]
        push_cast
        rw [this]; ring
      · rcases hr with h | h <;> rw [h]
        · rw [show 4 * m + 1 - m * 2 ^ 2 = 1 by ring]; norm_num
        · rw [show 4 * m - 1 - m * 2 ^ 2 = -1 by ring]; norm_num
  by_cases b2 : 3 * m < 2 ^ 54
  · rcases Int.even_or_odd' (3 * m) with ⟨k, hk | hk⟩
    · refine fin (3 * m) ?_ exact4
      rw [e3]
      refine double_of_isDouble ⟨k, e + 1, by rw [abs_of_nonneg (by omega)]; omega, by omega, ?_⟩
      rw [hk, zpow_add₀ (by norm_num)]; push_cast; ring
    · rcases Int.even_or_odd k with hk' | hk'
      · refine fin (k * 2 ^ 1) ?_ (close2 _ (Or.inr (by omega)) (by omega) (by omega) (by omega))
        rw [e3, double_int (3 * m) e (e + 1) k 1 rfl (by omega) (near_of _ _ _ (Or.inr ⟨?_, hk'⟩)) (by omega) (by omega)]
        · exact up 1 k
        · rw [hk, show 2 * k + 1 - k * 2 ^ 1 = 1 by ring]; norm_num
      · refine fin ((k + 1) * 2 ^ 1) ?_ (close2 _ (Or.inl (by omega)) (by omega) (by omega) (by omega))
        rw [e3, double_int (3 * m) e (e + 1) (k + 1) 1 rfl (by omega) (near_of _ _ _ (Or.inr ⟨?_, hk'.add_one⟩)) (by omega) (by omega)]
        · exact up 1 (k + 1)
        · rw [hk, show 2 * k + 1 - (k + 1) * 2 ^ 1 = -1 by ring]; norm_num
  · obtain ⟨k, hk⟩ : ∃ k, 3 * m = 4 * k ∨ 3 * m = 4 * k + 1 ∨ 3 * m = 4 * k - 1 ∨ 3 * m = 4 * k + 2 := ⟨(3 * m + 1) / 4, by omega⟩
    have first (k : ℤ) (h : 2 * |3 * m - k * 2 ^ 2| < 2 ^ 2 ∨ (2 * |3 * m - k * 2 ^ 2| = 2 ^ 2 ∧ Even k)) : double (3 * ((m : ℝ) * 2 ^ e)) = ((k * 2 ^ 2 : ℤ) : ℝ) * 2 ^ e := by
      rw [e3, double_int (3 * m) e (e + 2) k 2 rfl (by omega) (near_of _ _ _ h) (by omega) (by omega)]
      exact up 2 k
    have second (r : ℤ) (h : 2 * |r - m * 2 ^ 2| < 2 ^ 2 ∨ (2 * |r - m * 2 ^ 2| = 2 ^ 2 ∧ Even m)) (hr : |r - 4 * m| ≤ 2) : double ((r : ℝ) * 2 ^ e) = 4 * (m * 2 ^ e) := by
      rw [abs_le] at hr
      rw [double_int r e (e + 2) m 2 rfl (by omega) (near_of _ _ _ h) (by omega) (by omega), ← e4]
      have := up 2 m
      push_cast at this ⊢
      rw [this]; ring
    rcases hk with hk | hk | hk | hk
    · refine fin (k * 2 ^ 2) (first k (Or.inl ?_)) (second _ (Or.inl ?_) ?_)
      · rw [hk, show 4 * k - k * 2 ^ 2 = 0 by ring]; norm_num
      · rw [show k * 2 ^ 2 + m - m * 2 ^ 2 = 0 by omega]; norm_num
      · rw [show k * 2 ^ 2 + m - 4 * m = 0 by omega]; norm_num
    · refine fin (k * 2 ^ 2) (first k (Or.inl ?_)) (second _ (Or.inl ?_) ?_)
      · rw [hk, show 4 * k + 1 - k * 2 ^ 2 = 1 by ring]; norm_num
      · rw [show k * 2 ^ 2 + m - m * 2 ^ 2 = -1 by omega]; norm_num
      · rw [show k * 2 ^ 2 + m - 4 * m = -1 by omega]; norm_num
    · refine fin (k * 2 ^ 2) (first k (Or.inl ?_)) (second _ (Or.inl ?_) ?_)
      · rw [hk, show 4 * k - 1 - k * 2 ^ 2 = -1 by ring]; norm_num
      · rw [show k * 2 ^ 2 + m - m * 2 ^ 2 = 1 by omega]; norm_num
      · rw [show k * 2 ^ 2 + m - 4 * m = 1 by omega]; norm_num
    · have hm : Even m := ⟨m / 2, by omega⟩
      rcases Int.even_or_odd k with hk' | hk'
      · refine fin (k * 2 ^ 2) (first k (Or.inr ⟨?_, hk'⟩)) (second _ (Or.inr ⟨?_, hm⟩) ?_)
        · rw [hk, show 4 * k + 2 - k * 2 ^ 2 = 2 by ring]; norm_num
        · rw [show k * 2 ^ 2 + m - m * 2 ^ 2 = -2 by omega]; norm_num
        · rw [show k * 2 ^ 2 + m - 4 * m = -2 by omega]; norm_num
      · refine fin ((k + 1) * 2 ^ 2) (first (k + 1) (Or.inr ⟨?_, hk'.add_one⟩)) (second _ (Or.inr ⟨?_, hm⟩) ?_)
        · rw [hk, show 4 * k + 2 - (k + 1) * 2 ^ 2 = -2 by ring]; norm_num
        · rw [show (k + 1) * 2 ^ 2 + m - m * 2 ^ 2 = 2 by omega]; norm_num
        · rw [show (k + 1) * 2 ^ 2 + m - 4 * m = 2 by omega]; norm_num

theorem IsDouble.neg' {x : ℝ} (hx : IsDouble x) : IsDouble (-x) := by
  obtain ⟨m, e, h1, h2, rfl⟩ := hx
  exact ⟨-m, e, by rwa [abs_neg], h2, by push_cast; ring⟩

theorem four_times {x : ℝ} (hx : IsDouble x) : double (double (3 * x) + x) = 4 * x := by
  rcases le_total 0 x with h | h
  · exact four_nonneg hx h
  · have := four_nonneg (IsDouble.neg' hx) (by linarith)
    rw [show 3 * -x = -(3 * x) by ring, double_neg, show -double (3 * x) + -x = -(double (3 * x) + x) by ring, double_neg] at this
    linarith

theorem twice {x : ℝ} (hx : IsDouble x) : double (x + x) = 2 * x := by
  obtain ⟨m, e, h1, h2, rfl⟩ := hx
  rw [show (m : ℝ) * 2 ^ e + m * 2 ^ e = m * 2 ^ (e + 1) by rw [zpow_add₀ (by norm_num)]; norm_num; ring, double_of_isDouble ⟨m, e + 1, h1, by omega, rfl⟩,
    zpow_add₀ (by norm_num)]
  norm_num; ring

theorem avg_same {x : ℝ} (hx : IsDouble x) : avgR x x x x = x := by
  rw [avgR, twice hx, show 2 * x + x = 3 * x by ring, four_times hx, show 1 / 4 * (4 * x) = x by ring, double_of_isDouble hx]

/-! ### Averages -/

theorem dm {x y : ℝ} (h : x ≤ y) : double x ≤ double y := double_mono h

/-- **C199** the computed mean of four channels lies between the smallest and the largest of them, exactly -/
theorem C199_mean (lo hi a b c d : ℝ) (hlo : IsDouble lo) (hhi : IsDouble hi) (ha : lo ≤ a ∧ a ≤ hi) (hb : lo ≤ b ∧ b ≤ hi) (hc : lo ≤ c ∧ c ≤ hi)
    (hd : lo ≤ d ∧ d ≤ hi) : lo ≤ avgR a b c d ∧ avgR a b c d ≤ hi := by
  have mono {a b c d a' b' c' d' : ℝ} (h1 : a ≤ a') (h2 : b ≤ b') (h3 : c ≤ c') (h4 : d ≤ d') : avgR a b c d ≤ avgR a' b' c' d' := by
    refine dm (mul_le_mul_of_nonneg_left (dm (add_le_add (dm (add_le_add (dm (add_le_add h1 h2)) h3)) h4)) (by norm_num))
  refine ⟨?_, ?_⟩
  · have := mono ha.1 hb.1 hc.1 hd.1
    rwa [avg_same hlo] at this
  · have := mono ha.2 hb.2 hc.2 hd.2
    rwa [avg_same hhi] at this

theorem abs_double_le {x M : ℝ} (hM : IsDouble M) (h : |x| ≤ M) : |double x| ≤ M := by
  rw [abs_le] at h ⊢
  have h1 := dm h.1
  have h2 := dm h.2
  rw [double_neg, double_of_isDouble hM] at h1
  rw [double_of_isDouble hM] at h2
  exact ⟨h1, h2⟩

theorem isDouble_pow2 {M : ℝ} (hM : IsDouble M) (k : ℕ) : IsDouble (2 ^ k * M) := by
  obtain ⟨m, e, h1, h2, rfl⟩ := hM
  exact ⟨m, e + k, h1, by omega, by rw [zpow_add₀ (by norm_num), zpow_natCast]; ring⟩

/-- three rounded additions -/
theorem sum4 {M a b c d : ℝ} (hM : IsDouble M) (da : IsDouble a) (db : IsDouble b) (dc : IsDouble c) (dd : IsDouble d) (ha : |a| ≤ M) (hb : |b| ≤ M) (hc : |c| ≤ M) (hd : |d| ≤ M) :
    |double (double (double (a + b) + c) + d)| ≤ 4 * M ∧ |double (double (double (a + b) + c) + d) - (a + b + c + d)| ≤ 5 * 2 ^ (-52 : ℤ) * M := by
  have M0 : 0 ≤ M := (abs_nonneg _).trans ha
  have tri (x y : ℝ) : |x + y| ≤ |x| + |y| := abs_add_le x y
  have s1 : |double (a + b)| ≤ 2 * M := by
    have h := abs_double_le (x := a + b) (isDouble_pow2 hM 1) (by linarith [tri a b])
    linarith
  have s2 : |double (double (a + b) + c)| ≤ 4 * M := by
    have h := abs_double_le (x := double (a + b) + c) (isDouble_pow2 hM 2) (by linarith [tri (double (a + b)) c])
    linarith
  refine ⟨?_, ?_⟩
  · have up : double (double (double (a + b) + c) + d) ≤ 4 * M := by
      have h : double (double (double (a + b) + c) + d) ≤ double (double (3 * M) + M) :=
        dm (add_le_add (dm (by linarith [(abs_le.1 s1).2, (abs_le.1 hc).2])) (abs_le.1 hd).2)
      rwa [four_times hM] at h
    have lo : -(4 * M) ≤ double (double (double (a + b) + c) + d) := by
      have h : double (double (3 * -M) + -M) ≤ double (double (double (a + b) + c) + d) :=
        dm (add_le_add (dm (by linarith [(abs_le.1 s1).1, (abs_le.1 hc).1])) (abs_le.1 hd).1)
      rw [four_times (IsDouble.neg' hM)] at h
      linarith
    exact abs_le.2 ⟨lo, up⟩
  · have e1 := add_err da db
    have e2 := add_err (isDouble_double (a + b)) dc
    have e3 := add_err (isDouble_double (double (a + b) + c)) dd
    have q : (2 : ℝ) ^ (-53 : ℤ) = 2 ^ (-52 : ℤ) / 2 := by norm_num
    have hq : (0 : ℝ) < 2 ^ (-52 : ℤ) := two_zpow_pos _
    rw [q] at e1 e2 e3
    generalize (2 : ℝ) ^ (-52 : ℤ) = u at *
    have f1 : |double (a + b) - (a + b)| ≤ u / 2 * (2 * M) := e1.trans (mul_le_mul_of_nonneg_left (by linarith [tri a b]) (by linarith))
    have f2 : |double (double (a + b) + c) - (double (a + b) + c)| ≤ u / 2 * (3 * M) := e2.trans (mul_le_mul_of_nonneg_left (by linarith [tri (double (a + b)) c]) (by linarith))
    have f3 : |double (double (double (a + b) + c) + d) - (double (double (a + b) + c) + d)| ≤ u / 2 * (5 * M) :=
      e3.trans (mul_le_mul_of_nonneg_left (by linarith [tri (double (double (a + b) + c)) d]) (by linarith))
    rw [abs_le] at f1 f2 f3 ⊢
    constructor <;> linarith [f1.1, f2.1, f3.1, f1.2, f2.2, f3.2]

theorem avg_err {M a b c d : ℝ} (hM : IsDouble M) (da : IsDouble a) (db : IsDouble b) (dc : IsDouble c) (dd : IsDouble d) (ha : |a| ≤ M) (hb : |b| ≤ M) (hc : |c| ≤ M) (hd : |d| ≤ M) :
    |avgR a b c d - 1 / 4 * (a + b + c + d)| ≤ 2 ^ (-51 : ℤ) * M + 2 ^ (-1075 : ℤ) := by
  obtain ⟨h1, h2⟩ := sum4 hM da db dc dd ha hb hc hd
  have M0 : 0 ≤ M := (abs_nonneg _).trans ha
  rw [avgR]
  generalize double (double (double (a + b) + c) + d) = y at *
  have e := double_err (1 / 4 * y)
  have hy : |1 / 4 * y| ≤ M := by rw [abs_mul, abs_of_pos (by norm_num : (0 : ℝ) < 1 / 4)]; linarith
  have q : (2 : ℝ) ^ (-53 : ℤ) = 2 ^ (-52 : ℤ) / 2 := by norm_num
  have q' : (2 : ℝ) ^ (-51 : ℤ) = 2 ^ (-52 : ℤ) * 2 := by norm_num
  have hq : (0 : ℝ) < 2 ^ (-52 : ℤ) := two_zpow_pos _
  rw [q] at e
  rw [q']
  generalize (2 : ℝ) ^ (-52 : ℤ) = u at *
  generalize (2 : ℝ) ^ (-1075 : ℤ) = τ at *
  have e' : |double (1 / 4 * y) - 1 / 4 * y| ≤ u / 2 * M + τ := by
    have := mul_le_mul_of_nonneg_left hy (show 0 ≤ u / 2 by linarith)
    linarith
  have m0 : 0 ≤ u * M := mul_nonneg hq.le M0
  rw [abs_le] at e' h2 ⊢
  constructor <;> nlinarith [e'.1, e'.2, h2.1, h2.2]

/-! ### The pyramid -/

/-- specification of a computed entry -/
noncomputable def meanR (w : Wrap) (l : Level ℝ) (s t : ℕ) : ℝ :=
  avgR (ext w l (2 * s) (2 * t)) (ext w l (2 * s + 1) (2 * t)) (ext w l (2 * s) (2 * t + 1)) (ext w l (2 * s + 1) (2 * t + 1))

theorem boxR_eq (w : Wrap) (l : Level ℝ) (hu : 0 < l.u) (hv : 0 < l.v) (s t : ℕ) : boxR w l s t = some (meanR w l s t) := by
  simp only [boxR, C57_texel w l hu hv, Option.bind_eq_bind, Option.bind_some, meanR]
  rfl

theorem downR_eq (w : Wrap) (l : Level ℝ) (hu : 0 < l.u) (hv : 0 < l.v) :
    ∃ l', downR w l = some l' ∧ l'.u = max 1 (l.v / 2) ∧ l'.v = max 1 (l.u / 2) ∧ ∀ t s, l'.a t s = meanR w l s t := by
  simp only [downR, boxR_eq w l hu hv, Option.isSome_some, implies_true, if_true, Option.getD_some]
  exact ⟨_, rfl, rfl, rfl, fun _ _ => rfl⟩

/-- a level whose texels are doubles between `lo` and `hi` -/
structure Ok (lo hi : ℝ) (l : Level ℝ) : Prop where
  u : 0 < l.u
  v : 0 < l.v
  dbl : ∀ s < l.u, ∀ t < l.v, IsDouble (l.a s t)
  rng : ∀ s < l.u, ∀ t < l.v, lo ≤ l.a s t ∧ l.a s t ≤ hi

theorem isDouble_zero : IsDouble (0 : ℝ) := ⟨0, 0, by norm_num, by norm_num, by simp⟩

theorem Ok.ext {lo hi : ℝ} {l : Level ℝ} (h : Ok lo hi l) (w : Wrap) (h0 : w = .black → lo ≤ 0 ∧ 0 ≤ hi) (s t : ℤ) :
    IsDouble (ext w l s t) ∧ lo ≤ ext w l s t ∧ ext w l s t ≤ hi :=
  ext_mem w l h.u h.v {x | IsDouble x ∧ lo ≤ x ∧ x ≤ hi} (fun s hs t ht => ⟨h.dbl s hs t ht, h.rng s hs t ht⟩) (fun e => ⟨isDouble_zero, h0 e⟩) s t

theorem Ok.down {lo hi : ℝ} (hlo : IsDouble lo) (hhi : IsDouble hi) {l : Level ℝ} (h : Ok lo hi l) (w : Wrap) (h0 : w = .black → lo ≤ 0 ∧ 0 ≤ hi) :
    ∃ l', downR w l = some l' ∧ l'.u = max 1 (l.v / 2) ∧ l'.v = max 1 (l.u / 2) ∧ (∀ t s, l'.a t s = meanR w l s t) ∧ Ok lo hi l' := by
  obtain ⟨l', e, e1, e2, e3⟩ := downR_eq w l h.u h.v
  refine ⟨l', e, e1, e2, e3, by rw [e1]; omega, by rw [e2]; omega, fun s _ t _ => ?_, fun s _ t _ => ?_⟩
  · rw [e3]; exact isDouble_double _
  · rw [e3]
    exact C199_mean lo hi _ _ _ _ hlo hhi (h.ext w h0 _ _).2 (h.ext w h0 _ _).2 (h.ext w h0 _ _).2 (h.ext w h0 _ _).2

/-- the two arrays have the same shape and their texels differ by at most `ε` -/
def Near (ε : ℝ) (x y : Level ℝ) : Prop := x.u = y.u ∧ x.v = y.v ∧ ∀ s < x.u, ∀ t < x.v, |x.a s t - y.a s t| ≤ ε

theorem Near.ext {ε : ℝ} (hε : 0 ≤ ε) {x y : Level ℝ} (h : Near ε x y) (hu : 0 < x.u) (hv : 0 < x.v) (w : Wrap) (s t : ℤ) : |ext w x s t - ext w y s t| ≤ ε := by
  obtain ⟨h1, h2, h3⟩ := h
  cases w with
  | rep =>
    simp only [Texture.ext, ← h1, ← h2]
    have a1 := Int.emod_lt_of_pos s (show (0 : ℤ) < x.u by omega)
    have a2 := Int.emod_lt_of_pos t (show (0 : ℤ) < x.v by omega)
    have a3 := Int.emod_nonneg s (show (x.u : ℤ) ≠ 0 by omega)
    have a4 := Int.emod_nonneg t (show (x.v : ℤ) ≠ 0 by omega)
    exact h3 _ (by omega) _ (by omega)
  | clamp =>
    simp only [Texture.ext, ← h1, ← h2]
    exact h3 _ (by omega) _ (by omega)
  | black =>
    simp only [Texture.ext, ← h1, ← h2]
    split
    · exact h3 _ (by omega) _ (by omega)
    · simpa using hε

/-- the error one level adds -/
noncomputable def step (M : ℝ) : ℝ := 2 ^ (-51 : ℤ) * M + 2 ^ (-1075 : ℤ)

theorem step_nonneg {M : ℝ} (h : 0 ≤ M) : 0 ≤ step M := by
  have h1 : (0 : ℝ) < 2 ^ (-51 : ℤ) := two_zpow_pos _
  have h2 : (0 : ℝ) < 2 ^ (-1075 : ℤ) := two_zpow_pos _
  have := mul_nonneg h1.le h
  rw [step]; linarith

theorem levelsR_spec {lo hi M : ℝ} (hlo : IsDouble lo) (hhi : IsDouble hi) (hM : IsDouble M) (hM1 : -M ≤ lo) (hM2 : hi ≤ M) (w : Wrap)
    (h0 : w = .black → lo ≤ 0 ∧ 0 ≤ hi) (n : ℕ) (ε : ℝ) (hε : 0 ≤ ε) (l x : Level ℝ) (h : Ok lo hi l) (hn : Near ε l x) :
    ∃ r q, levelsR w l n = some r ∧ levels w x n = some q ∧ r.length = n + 1 ∧ q.length = n + 1 ∧ r[0]? = some l ∧
      ∀ i < n + 1, ∃ y z, r[i]? = some y ∧ q[i]? = some z ∧ Ok lo hi y ∧ Near (ε + i * step M) y z := by
  have M0 : 0 ≤ M := by
    have := h.rng 0 h.u 0 h.v
    linarith
  induction n generalizing l x ε with
  | zero => exact ⟨[l], [x], rfl, rfl, rfl, rfl, rfl, fun i hi => ⟨l, x, by rw [show i = 0 by omega]; rfl, by rw [show i = 0 by omega]; rfl, h, by rw [show i = 0 by omega]; simpa using hn⟩⟩
  | succ n ih =>
    obtain ⟨l', d1, u1, v1, a1, ok⟩ := h.down hlo hhi w h0
    obtain ⟨x', d2, u2, v2, a2⟩ := down_eq w x (by rw [← hn.1]; exact h.u) (by rw [← hn.2.1]; exact h.v)
    have hn' : Near (ε + step M) l' x' := by
      refine ⟨by rw [u1, u2, hn.2.1], by rw [v1, v2, hn.1], fun s _ t _ => ?_⟩
      rw [a1, a2, meanR, boxMean]
      have b (i j : ℤ) : |Texture.ext w l i j| ≤ M := by
        have := (h.ext w h0 i j).2
        rw [abs_le]; constructor <;> linarith
      have e := avg_err hM (h.ext w h0 (2 * (t : ℤ)) (2 * s)).1 (h.ext w h0 (2 * (t : ℤ) + 1) (2 * s)).1 (h.ext w h0 (2 * (t : ℤ)) (2 * s + 1)).1
        (h.ext w h0 (2 * (t : ℤ) + 1) (2 * s + 1)).1 (b _ _) (b _ _) (b _ _) (b _ _)
      have n1 := hn.ext hε h.u h.v w (2 * (t : ℤ)) (2 * s)
      have n2 := hn.ext hε h.u h.v w (2 * (t : ℤ) + 1) (2 * s)
      have n3 := hn.ext hε h.u h.v w (2 * (t : ℤ)) (2 * s + 1)
      have n4 := hn.ext hε h.u h.v w (2 * (t : ℤ) + 1) (2 * s + 1)
      rw [← step] at e
      rw [smul_eq_mul]
      generalize Texture.ext w l (2 * (t : ℤ)) (2 * s) = A at *
      generalize Texture.ext w l (2 * (t : ℤ) + 1) (2 * s) = B at *
      generalize Texture.ext w l (2 * (t : ℤ)) (2 * s + 1) = C at *
      generalize Texture.ext w l (2 * (t : ℤ) + 1) (2 * s + 1) = D at *
      rw [abs_le] at e n1 n2 n3 n4 ⊢
      constructor <;> linarith [e.1, e.2, n1.1, n1.2, n2.1, n2.2, n3.1, n3.2, n4.1, n4.2]
    obtain ⟨r, q, e1, e2, e3, e4, e5, e6⟩ := ih (ε + step M) (add_nonneg hε (step_nonneg M0)) l' x' ok hn'
    refine ⟨l :: r, x :: q, by simp [levelsR, d1, e1], by simp [levels, d2, e2], by simp [e3], by simp [e4], rfl, fun i hi => ?_⟩
    cases i with
    | zero => exact ⟨l, x, rfl, rfl, h, by simpa using hn⟩
    | succ i =>
      obtain ⟨y, z, f1, f2, f3, f4⟩ := e6 i (by omega)
      refine ⟨y, z, by simpa using f1, by simpa using f2, f3, ?_⟩
      have : ε + step M + i * step M = ε + ((i + 1 : ℕ) : ℝ) * step M := by push_cast; ring
      rwa [this] at f4

/-- an image: doubles between `lo` and `hi`; black wrapping adds the value 0 -/
structure Image (w : Wrap) (lo hi : ℝ) (img : Level ℝ) : Prop where
  u : 0 < img.u
  v : 0 < img.v
  dlo : IsDouble lo
  dhi : IsDouble hi
  dbl : ∀ s < img.u, ∀ t < img.v, IsDouble (img.a s t)
  rng : ∀ s < img.u, ∀ t < img.v, lo ≤ img.a s t ∧ img.a s t ≤ hi
  black : w = .black → lo ≤ 0 ∧ 0 ≤ hi

theorem Image.ok {w : Wrap} {lo hi : ℝ} {img : Level ℝ} (h : Image w lo hi img) : Ok lo hi img := ⟨h.u, h.v, h.dbl, h.rng⟩

theorem isDouble_max_abs {lo hi : ℝ} (h1 : IsDouble lo) (h2 : IsDouble hi) : IsDouble (max |lo| |hi|) := by
  have a {x : ℝ} (h : IsDouble x) : IsDouble |x| := by
    rcases abs_choice x with e | e <;> rw [e]
    · exact h
    · exact IsDouble.neg' h
  rcases max_choice |lo| |hi| with e | e <;> rw [e]
  · exact a h1
  · exact a h2

theorem Image.pyramid {w : Wrap} {lo hi : ℝ} {img : Level ℝ} (h : Image w lo hi img) :
    ∃ r q, pyramidR w img = some r ∧ Texture.pyramid w img = some q ∧ r.length = 1 + Nat.log 2 (max img.u img.v) ∧ q.length = r.length ∧ r[0]? = some img ∧
      ∀ i < r.length, ∃ y z, r[i]? = some y ∧ q[i]? = some z ∧ Ok lo hi y ∧ Near (i * step (max |lo| |hi|)) y z := by
  obtain ⟨r, q, e1, e2, e3, e4, e5, e6⟩ := levelsR_spec h.dlo h.dhi (isDouble_max_abs h.dlo h.dhi) (by have := neg_abs_le lo; have := le_max_left |lo| |hi|; linarith)
    ((le_abs_self hi).trans (le_max_right _ _)) w h.black (Nat.log 2 (max img.u img.v)) 0 le_rfl img img h.ok ⟨rfl, rfl, fun s _ t _ => by simp⟩
  refine ⟨r, q, e1, e2, by omega, by omega, e5, fun i hi => ?_⟩
  obtain ⟨y, z, f1, f2, f3, f4⟩ := e6 i (by omega)
  exact ⟨y, z, f1, f2, f3, by simpa using f4⟩

/-- **C199** the pyramid is always built; its level 0 is the image, and every texel of every level is a double between the smallest and the largest
texel of the image: averaging never leaves the range, not even by a rounding error -/
theorem C199_pyramid (w : Wrap) (lo hi : ℝ) (img : Level ℝ) (h : Image w lo hi img) :
    ∃ r, pyramidR w img = some r ∧ r.length = 1 + Nat.log 2 (max img.u img.v) ∧ r[0]? = some img ∧
      ∀ (i : ℕ) (l : Level ℝ), r[i]? = some l → 0 < l.u ∧ 0 < l.v ∧ ∀ s < l.u, ∀ t < l.v, IsDouble (l.a s t) ∧ lo ≤ l.a s t ∧ l.a s t ≤ hi := by
  obtain ⟨r, q, e1, -, e3, -, e5, e6⟩ := h.pyramid
  refine ⟨r, e1, e3, e5, fun i l hl => ?_⟩
  obtain ⟨y, z, f1, -, f3, -⟩ := e6 i (List.getElem?_eq_some_iff.1 hl).1
  rw [hl] at f1
  cases f1
  exact ⟨f3.u, f3.v, fun s hs t ht => ⟨f3.dbl s hs t ht, f3.rng s hs t ht⟩⟩

/-- **C199** every texel of level `i` is within `i (2 ^ -51 M + 2 ^ -1075)` of the exact pyramid's, where `M` is the largest magnitude in the image -/
theorem C199_levels (w : Wrap) (lo hi : ℝ) (img : Level ℝ) (h : Image w lo hi img) :
    ∃ r q, pyramidR w img = some r ∧ Texture.pyramid w img = some q ∧ r.length = q.length ∧
      ∀ (i : ℕ) (y z : Level ℝ), r[i]? = some y → q[i]? = some z → y.u = z.u ∧ y.v = z.v ∧
        ∀ s < y.u, ∀ t < y.v, |y.a s t - z.a s t| ≤ i * (2 ^ (-51 : ℤ) * max |lo| |hi| + 2 ^ (-1075 : ℤ)) := by
  obtain ⟨r, q, e1, e2, e3, e4, e5, e6⟩ := h.pyramid
  refine ⟨r, q, e1, e2, e4.symm, fun i y z hy hz => ?_⟩
  obtain ⟨y', z', f1, f2, f3, f4⟩ := e6 i (List.getElem?_eq_some_iff.1 hy).1
  rw [hy] at f1; rw [hz] at f2
  cases f1; cases f2
  exact f4

/-- **C199** every level of the pyramid of a constant image is that constant, exactly (periodic and clamped wrapping) -/
theorem C199_constant (w : Wrap) (hw : w ≠ .black) (c : ℝ) (hc : IsDouble c) (img : Level ℝ) (hu : 0 < img.u) (hv : 0 < img.v)
    (hi : ∀ s < img.u, ∀ t < img.v, img.a s t = c) :
    ∃ r, pyramidR w img = some r ∧ ∀ (i : ℕ) (l : Level ℝ), r[i]? = some l → ∀ s < l.u, ∀ t < l.v, l.a s t = c := by
  obtain ⟨r, h1, -, -, h2⟩ := C199_pyramid w c c img ⟨hu, hv, hc, hc, fun s hs t ht => by rw [hi s hs t ht]; exact hc, fun s hs t ht => by rw [hi s hs t ht]; simp,
    fun e => absurd e hw⟩
  exact ⟨r, h1, fun i l hl s hs t ht => by have := (h2 i l hl).2.2 s hs t ht; linarith [this.2.1, this.2.2]⟩

/-! ### Bilinear reconstruction -/

/-- piecewise linear interpolation of values at the integers -/
noncomputable def lin (f : ℤ → ℝ) (x : ℝ) : ℝ := (1 - (x - ⌊x⌋)) * f ⌊x⌋ + (x - ⌊x⌋) * f (⌊x⌋ + 1)

theorem steps (f : ℤ → ℝ) (D : ℝ) (h : ∀ k, |f (k + 1) - f k| ≤ D) (k : ℤ) (n : ℕ) : |f (k + n) - f k| ≤ D * n := by
  induction n with
  | zero => simp
  | succ n ih =>
    have h1 := h (k + n)
    have e : k + ((n + 1 : ℕ) : ℤ) = k + n + 1 := by push_cast; ring
    rw [e]
    push_cast
    rw [abs_le] at ih h1 ⊢
    constructor <;> linarith [ih.1, ih.2, h1.1, h1.2]

theorem lin_lip_le (f : ℤ → ℝ) (D : ℝ) (h : ∀ k, |f (k + 1) - f k| ≤ D) (x y : ℝ) (hxy : x ≤ y) : |lin f y - lin f x| ≤ D * (y - x) := by
  have D0 : 0 ≤ D := (abs_nonneg _).trans (h 0)
  have fx := Int.floor_le x
  have fx' := Int.lt_floor_add_one x
  have fy := Int.floor_le y
  have fy' := Int.lt_floor_add_one y
  have e1 : lin f x = f (⌊x⌋ + 1) - (⌊x⌋ + 1 - x) * (f (⌊x⌋ + 1) - f ⌊x⌋) := by rw [lin]; ring
  have e2 : lin f y = f ⌊y⌋ + (y - ⌊y⌋) * (f (⌊y⌋ + 1) - f ⌊y⌋) := by rw [lin]; ring
  rcases (Int.floor_mono hxy).eq_or_lt with he | hl
  · have : lin f y - lin f x = (y - x) * (f (⌊x⌋ + 1) - f ⌊x⌋) := by rw [lin, lin, ← he]; ring
    rw [this, abs_mul, abs_of_nonneg (by linarith), mul_comm]
    exact mul_le_mul_of_nonneg_right (h _) (by linarith)
  · obtain ⟨n, hn⟩ := Int.le.dest (show ⌊x⌋ + 1 ≤ ⌊y⌋ by omega)
    have s := steps f D h (⌊x⌋ + 1) n
    rw [hn] at s
    have hn' : (n : ℝ) = ⌊y⌋ - (⌊x⌋ + 1) := by
      have : (n : ℤ) = ⌊y⌋ - (⌊x⌋ + 1) := by omega
      exact_mod_cast this
    have a : |(⌊x⌋ + 1 - x) * (f (⌊x⌋ + 1) - f ⌊x⌋)| ≤ (⌊x⌋ + 1 - x) * D := by
      rw [abs_mul, abs_of_nonneg (by linarith)]
      exact mul_le_mul_of_nonneg_left (h _) (by linarith)
    have b : |(y - ⌊y⌋) * (f (⌊y⌋ + 1) - f ⌊y⌋)| ≤ (y - ⌊y⌋) * D := by
      rw [abs_mul, abs_of_nonneg (by linarith)]
      exact mul_le_mul_of_nonneg_left (h _) (by linarith)
    rw [hn'] at s
    rw [e1, e2]
    rw [abs_le] at a b s ⊢
    constructor <;> linarith [a.1, a.2, b.1, b.2, s.1, s.2]

theorem lin_lip (f : ℤ → ℝ) (D : ℝ) (h : ∀ k, |f (k + 1) - f k| ≤ D) (x y : ℝ) : |lin f y - lin f x| ≤ D * |y - x| := by
  rcases le_total x y with hxy | hxy
  · rw [abs_of_nonneg (a := y - x) (by linarith)]; exact lin_lip_le f D h x y hxy
  · rw [abs_sub_comm, abs_sub_comm y x, abs_of_nonneg (a := x - y) (by linarith)]; exact lin_lip_le f D h y x hxy

theorem lin_abs (f : ℤ → ℝ) (M : ℝ) (h : ∀ k, |f k| ≤ M) (x : ℝ) : |lin f x| ≤ M := by
  have fx := Int.floor_le x
  have fx' := Int.lt_floor_add_one x
  have h1 := abs_le.1 (h ⌊x⌋)
  have h2 := abs_le.1 (h (⌊x⌋ + 1))
  rw [lin, abs_le]
  constructor <;> nlinarith [h1.1, h1.2, h2.1, h2.2]

theorem lin_near (f g : ℤ → ℝ) (ε : ℝ) (h : ∀ k, |f k - g k| ≤ ε) (x : ℝ) : |lin f x - lin g x| ≤ ε := by
  have e : lin f x - lin g x = lin (fun k => f k - g k) x := by simp only [lin]; ring
  rw [e]
  exact lin_abs _ _ h x

/-- bilinear interpolation of values at the integer points -/
noncomputable def bil (f : ℤ → ℤ → ℝ) (x y : ℝ) : ℝ := lin (fun k => lin (f k) y) x

theorem bil_lip (f : ℤ → ℤ → ℝ) (M : ℝ) (h : ∀ i j, |f i j| ≤ M) (x y x' y' : ℝ) : |bil f x y - bil f x' y'| ≤ 2 * M * (|x - x'| + |y - y'|) := by
  have d {p q : ℝ} (hp : |p| ≤ M) (hq : |q| ≤ M) : |p - q| ≤ 2 * M := by
    rw [abs_le] at *
    constructor <;> linarith [hp.1, hp.2, hq.1, hq.2]
  have h1 : |bil f x y - bil f x' y| ≤ 2 * M * |x - x'| :=
    lin_lip _ _ (fun k => d (lin_abs _ M (h _) y) (lin_abs _ M (h _) y)) x' x
  have h2 : |bil f x' y - bil f x' y'| ≤ 2 * M * |y - y'| := by
    refine lin_near _ _ _ (fun k => ?_) x'
    exact lin_lip _ _ (fun j => d (h _ _) (h _ _)) y' y
  have e : bil f x y - bil f x' y' = (bil f x y - bil f x' y) + (bil f x' y - bil f x' y') := by ring
  rw [e]
  refine (abs_add_le _ _).trans ?_
  linarith

/-- the exact bilinear filter is bilinear interpolation of the texel centres -/
theorem triangle_bil (m : MipMap ℝ) (level : ℤ) (s t : ℝ) (l : Level ℝ) (hl : m.lev[(clipZ level 0 (m.lev.length - 1)).toNat]? = some l) (hu : 0 < l.u) (hv : 0 < l.v) :
    m.triangle level s t = some (bil (ext m.wrap l) (s * l.u - 1 / 2) (t * l.v - 1 / 2)) := by
  simp only [MipMap.triangle, hl, Option.bind_eq_bind, Option.bind_some, C57_texel m.wrap l hu hv, bil, lin]
  have : (0.5 : ℝ) = 1 / 2 := by norm_num
  rw [this]
  simp only [smul_eq_mul]
  show some _ = some _
  congr 1
  ring

/-- the computed combination of four texels -/
noncomputable def mixR (ds dt a b c d : ℝ) : ℝ :=
  double (double (double (double (double (double (1 - ds) * double (1 - dt)) * a) + double (double (double (1 - ds) * dt) * b)) +
    double (double (ds * double (1 - dt)) * c)) + double (double (ds * dt) * d))

theorem triangleR_eq (m : MipMap ℝ) (level : ℤ) (s t : ℝ) (l : Level ℝ) (hl : m.lev[(clipZ level 0 (m.lev.length - 1)).toNat]? = some l) (hu : 0 < l.u) (hv : 0 < l.v) :
    triangleR m level s t = some (mixR (double (coordR s l.u - ⌊coordR s l.u⌋)) (double (coordR t l.v - ⌊coordR t l.v⌋))
      (ext m.wrap l ⌊coordR s l.u⌋ ⌊coordR t l.v⌋) (ext m.wrap l ⌊coordR s l.u⌋ (⌊coordR t l.v⌋ + 1)) (ext m.wrap l (⌊coordR s l.u⌋ + 1) ⌊coordR t l.v⌋)
      (ext m.wrap l (⌊coordR s l.u⌋ + 1) (⌊coordR t l.v⌋ + 1))) := by
  simp only [triangleR, hl, Option.bind_eq_bind, Option.bind_some, C57_texel m.wrap l hu hv, mixR]
  rfl

theorem unit_double {x : ℝ} (h0 : 0 ≤ x) (h1 : x ≤ 1) : 0 ≤ double x ∧ double x ≤ 1 := ⟨d_nonneg h0, d_le_one h1⟩

/-- a computed fraction and its complement -/
theorem frac_near (x : ℝ) : (0 ≤ double (x - ⌊x⌋) ∧ double (x - ⌊x⌋) ≤ 1) ∧ |double (x - ⌊x⌋) - (x - ⌊x⌋)| ≤ 2 ^ (-52 : ℤ) ∧
    (0 ≤ double (1 - double (x - ⌊x⌋)) ∧ double (1 - double (x - ⌊x⌋)) ≤ 1) ∧ |double (1 - double (x - ⌊x⌋)) - (1 - (x - ⌊x⌋))| ≤ 2 * 2 ^ (-52 : ℤ) := by
  obtain ⟨f0, f1⟩ := fract_mem x
  have h1 := unit_double f0 f1
  have h2 : |double (x - ⌊x⌋) - (x - ⌊x⌋)| ≤ 2 ^ (-52 : ℤ) := near (by rw [abs_le]; constructor <;> linarith)
  have h3 := unit_double (x := 1 - double (x - ⌊x⌋)) (by linarith [h1.2]) (by linarith [h1.1])
  have h4 : |double (1 - double (x - ⌊x⌋)) - (1 - double (x - ⌊x⌋))| ≤ 2 ^ (-52 : ℤ) := near (by rw [abs_le]; constructor <;> linarith [h1.1, h1.2])
  refine ⟨h1, h2, h3, ?_⟩
  generalize (2 : ℝ) ^ (-52 : ℤ) = u at *
  rw [abs_le] at h2 h4 ⊢
  constructor <;> linarith [h2.1, h2.2, h4.1, h4.2]

/-- one weighted texel -/
theorem term_near {p q P Q a M : ℝ} (hM : IsDouble M) (p0 : 0 ≤ p ∧ p ≤ 1) (q0 : 0 ≤ q ∧ q ≤ 1) (P0 : 0 ≤ P ∧ P ≤ 1) (hp : |p - P| ≤ 2 * 2 ^ (-52 : ℤ)) (hq : |q - Q| ≤ 2 * 2 ^ (-52 : ℤ))
    (ha : |a| ≤ M) : |double (double (p * q) * a)| ≤ M ∧ |double (double (p * q) * a) - P * Q * a| ≤ 6 * 2 ^ (-52 : ℤ) * M + 2 ^ (-1075 : ℤ) := by
  have M0 : 0 ≤ M := (abs_nonneg _).trans ha
  have w0 := unit_double (mul_nonneg p0.1 q0.1) (mul_le_one₀ p0.2 q0.1 q0.2)
  have e1 : |double (p * q) - p * q| ≤ 2 ^ (-52 : ℤ) := near (by rw [abs_of_nonneg (mul_nonneg p0.1 q0.1)]; linarith [mul_le_one₀ p0.2 q0.1 q0.2])
  have e2 : |p * q - P * Q| ≤ 2 * 2 ^ (-52 : ℤ) + 2 * 2 ^ (-52 : ℤ) :=
    mul_near (by rw [abs_of_nonneg q0.1]; exact q0.2) (by rw [abs_of_nonneg P0.1]; exact P0.2) hp hq
  have hw : |double (p * q) - P * Q| ≤ 5 * 2 ^ (-52 : ℤ) := by
    generalize (2 : ℝ) ^ (-52 : ℤ) = u at *
    rw [abs_le] at e1 e2 ⊢
    constructor <;> linarith [e1.1, e1.2, e2.1, e2.2]
  generalize double (p * q) = w at *
  have hwa : |w * a| ≤ M := by
    rw [abs_mul, abs_of_nonneg w0.1]
    calc w * |a| ≤ 1 * M := mul_le_mul w0.2 ha (abs_nonneg _) (by norm_num)
      _ = M := one_mul M
  refine ⟨abs_double_le hM hwa, ?_⟩
  have e3 := double_err (w * a)
  have q : (2 : ℝ) ^ (-53 : ℤ) = 2 ^ (-52 : ℤ) / 2 := by norm_num
  have hq : (0 : ℝ) < 2 ^ (-52 : ℤ) := two_zpow_pos _
  rw [q] at e3
  generalize (2 : ℝ) ^ (-52 : ℤ) = u at *
  generalize (2 : ℝ) ^ (-1075 : ℤ) = τ at *
  have e4 : |w * a - P * Q * a| ≤ 5 * u * M := by
    rw [← sub_mul, abs_mul]
    exact mul_le_mul hw ha (abs_nonneg _) (by linarith)
  have e5 := mul_le_mul_of_nonneg_left hwa (show 0 ≤ u / 2 by linarith)
  have m0 : 0 ≤ u * M := mul_nonneg hq.le M0
  have e6 : |double (w * a) - w * a| ≤ u * M + τ := by linarith
  rw [abs_le] at e4 e6 ⊢
  constructor <;> linarith [e4.1, e4.2, e6.1, e6.2]

theorem mix_near {M x y a b c d : ℝ} (hM : IsDouble M) (ha : |a| ≤ M) (hb : |b| ≤ M) (hc : |c| ≤ M) (hd : |d| ≤ M) :
    |mixR (double (x - ⌊x⌋)) (double (y - ⌊y⌋)) a b c d -
      ((1 - (x - ⌊x⌋)) * (1 - (y - ⌊y⌋)) * a + (1 - (x - ⌊x⌋)) * (y - ⌊y⌋) * b + (x - ⌊x⌋) * (1 - (y - ⌊y⌋)) * c + (x - ⌊x⌋) * (y - ⌊y⌋) * d)| ≤
      29 * 2 ^ (-52 : ℤ) * M + 4 * 2 ^ (-1075 : ℤ) := by
  obtain ⟨x1, x2, x3, x4⟩ := frac_near x
  obtain ⟨y1, y2, y3, y4⟩ := frac_near y
  have hq : (0 : ℝ) < 2 ^ (-52 : ℤ) := two_zpow_pos _
  have x2' : |double (x - ⌊x⌋) - (x - ⌊x⌋)| ≤ 2 * 2 ^ (-52 : ℤ) := by linarith
  have y2' : |double (y - ⌊y⌋) - (y - ⌊y⌋)| ≤ 2 * 2 ^ (-52 : ℤ) := by linarith
  have fx := fract_mem x
  have fx' : 0 ≤ 1 - (x - ⌊x⌋) ∧ 1 - (x - ⌊x⌋) ≤ 1 := ⟨by linarith [fx.2], by linarith [fx.1]⟩
  obtain ⟨t1, r1⟩ := term_near hM x3 y3 fx' x4 y4 ha
  obtain ⟨t2, r2⟩ := term_near hM x3 y1 fx' x4 y2' hb
  obtain ⟨t3, r3⟩ := term_near hM x1 y3 fx x2' y4 hc
  obtain ⟨t4, r4⟩ := term_near hM x1 y1 fx x2' y2' hd
  have s := (sum4 hM (isDouble_double _) (isDouble_double _) (isDouble_double _) (isDouble_double _) t1 t2 t3 t4).2
  rw [mixR]
  generalize (2 : ℝ) ^ (-52 : ℤ) = u at *
  generalize (2 : ℝ) ^ (-1075 : ℤ) = τ at *
  rw [abs_le] at s r1 r2 r3 r4 ⊢
  constructor <;> linarith [s.1, s.2, r1.1, r1.2, r2.1, r2.2, r3.1, r3.2, r4.1, r4.2]

theorem coord_near (s : ℝ) (u : ℕ) : |coordR s u - (s * u - 1 / 2)| ≤ 2 ^ (-51 : ℤ) * (|s| * u + 1) := by
  have e1 := double_err (s * u)
  have e2 := double_err (double (s * u) - 1 / 2)
  rw [show |s * (u : ℝ)| = |s| * u by rw [abs_mul, abs_of_nonneg (Nat.cast_nonneg u : (0 : ℝ) ≤ u)]] at e1
  have X0 : 0 ≤ |s| * (u : ℝ) := mul_nonneg (abs_nonneg _) (Nat.cast_nonneg _)
  have hx : |s * (u : ℝ)| = |s| * u := by rw [abs_mul, abs_of_nonneg (Nat.cast_nonneg u : (0 : ℝ) ≤ u)]
  have t : (2 : ℝ) ^ (-1075 : ℤ) ≤ 2 ^ (-60 : ℤ) := tiny
  rw [coordR]
  generalize |s| * (u : ℝ) = X at *
  generalize s * (u : ℝ) = x at *
  generalize double x = y at *
  generalize double (y - 1 / 2) = z at *
  generalize (2 : ℝ) ^ (-1075 : ℤ) = τ at *
  have hy : |y - 1 / 2| ≤ 2 * X + 1 := by
    have : |y - 1 / 2| ≤ |y - x| + |x| + 1 / 2 := by
      have h1 := abs_add_le (y - x) (x - 1 / 2)
      have h2 := abs_sub x (1 / 2)
      rw [show y - x + (x - 1 / 2) = y - 1 / 2 by ring] at h1
      rw [abs_of_pos (by norm_num : (0 : ℝ) < 1 / 2)] at h2
      linarith
    norm_num at e1 t ⊢
    linarith
  have e3 : |z - (y - 1 / 2)| ≤ 2 ^ (-53 : ℤ) * (2 * X + 1) + τ :=
    e2.trans (by have := mul_le_mul_of_nonneg_left hy (show (0 : ℝ) ≤ 2 ^ (-53 : ℤ) from (two_zpow_pos _).le); linarith)
  rw [abs_le] at e1 e3 ⊢
  norm_num at e1 e3 t ⊢
  constructor <;> linarith [e1.1, e1.2, e3.1, e3.2]

/-- what lookups need of a mip-map: levels with double texels between `lo` and `hi` -/
structure Good (m : MipMap ℝ) (lo hi : ℝ) : Prop where
  ne : 0 < m.lev.length
  dlo : IsDouble lo
  dhi : IsDouble hi
  ok : ∀ (i : ℕ) (l : Level ℝ), m.lev[i]? = some l → Ok lo hi l
  black : m.wrap = .black → lo ≤ 0 ∧ 0 ≤ hi

theorem Image.good {lo hi : ℝ} {img : Level ℝ} {m : MipMap ℝ} (h : Image m.wrap lo hi img) (hm : pyramidR m.wrap img = some m.lev) : Good m lo hi := by
  obtain ⟨r, q, e1, -, e3, -, e5, e6⟩ := h.pyramid
  rw [hm] at e1
  cases e1
  refine ⟨by omega, h.dlo, h.dhi, fun i l hl => ?_, h.black⟩
  obtain ⟨y, z, f1, -, f3, -⟩ := e6 i (List.getElem?_eq_some_iff.1 hl).1
  rw [hl] at f1
  cases f1
  exact f3

theorem Good.level {m : MipMap ℝ} {lo hi : ℝ} (h : Good m lo hi) (level : ℤ) : ∃ l, m.lev[(clipZ level 0 (m.lev.length - 1)).toNat]? = some l ∧ Ok lo hi l := by
  have hk : (clipZ level 0 (m.lev.length - 1)).toNat < m.lev.length := by have := h.ne; simp only [clipZ]; omega
  exact ⟨_, List.getElem?_eq_getElem hk, h.ok _ _ (List.getElem?_eq_getElem hk)⟩

theorem Good.bound {m : MipMap ℝ} {lo hi : ℝ} (h : Good m lo hi) {l : Level ℝ} (ok : Ok lo hi l) (i j : ℤ) : |ext m.wrap l i j| ≤ max |lo| |hi| := by
  have := (ok.ext m.wrap h.black i j).2
  have h1 := neg_abs_le lo
  have h2 := le_abs_self hi
  have h3 := le_max_left |lo| |hi|
  have h4 := le_max_right |lo| |hi|
  rw [abs_le]
  constructor <;> linarith

theorem c29 {M τ : ℝ} (M0 : 0 ≤ M) : 29 * 2 ^ (-52 : ℤ) * M + τ ≤ 2 ^ (-47 : ℤ) * M + τ := by
  have : (29 : ℝ) * 2 ^ (-52 : ℤ) ≤ 2 ^ (-47 : ℤ) := by norm_num
  have := mul_le_mul_of_nonneg_right this M0
  linarith

theorem four_tiny : (4 : ℝ) * 2 ^ (-1075 : ℤ) = 2 ^ (-1073 : ℤ) := by
  rw [show (-1073 : ℤ) = 2 + -1075 by norm_num, zpow_add₀ (by norm_num)]; norm_num

theorem Good.filter {m : MipMap ℝ} {lo hi : ℝ} (h : Good m lo hi) (level : ℤ) (s t : ℝ) :
    ∃ l r e, m.lev[(clipZ level 0 (m.lev.length - 1)).toNat]? = some l ∧ triangleR m level s t = some r ∧
      e = bil (ext m.wrap l) (coordR s l.u) (coordR t l.v) ∧ (lo ≤ e ∧ e ≤ hi) ∧
      |r - e| ≤ 2 ^ (-47 : ℤ) * max |lo| |hi| + 2 ^ (-1073 : ℤ) ∧ (0 ≤ lo → 0 ≤ r) := by
  obtain ⟨l, hl, ok⟩ := h.level level
  refine ⟨l, _, _, hl, triangleR_eq m level s t l hl ok.u ok.v, rfl, ?_, ?_, fun l0 => ?_⟩
  · have key : bil (ext m.wrap l) (coordR s l.u) (coordR t l.v) ∈ Set.Icc lo hi := by
      have := convex4 (Set.Icc lo hi) (convex_Icc lo hi) _ _ _ _ (ok.ext m.wrap h.black ⌊coordR s l.u⌋ ⌊coordR t l.v⌋).2 (ok.ext m.wrap h.black ⌊coordR s l.u⌋ (⌊coordR t l.v⌋ + 1)).2
        (ok.ext m.wrap h.black (⌊coordR s l.u⌋ + 1) ⌊coordR t l.v⌋).2 (ok.ext m.wrap h.black (⌊coordR s l.u⌋ + 1) (⌊coordR t l.v⌋ + 1)).2 _ _ (fract_mem (coordR s l.u)) (fract_mem (coordR t l.v))
      simp only [smul_eq_mul] at this
      convert this using 1
      simp only [bil, lin]; ring
    exact key
  · have M0 : 0 ≤ max |lo| |hi| := (abs_nonneg _).trans (le_max_left _ _)
    have := mix_near (x := coordR s l.u) (y := coordR t l.v) (isDouble_max_abs h.dlo h.dhi) (h.bound ok ⌊coordR s l.u⌋ ⌊coordR t l.v⌋) (h.bound ok ⌊coordR s l.u⌋ (⌊coordR t l.v⌋ + 1))
      (h.bound ok (⌊coordR s l.u⌋ + 1) ⌊coordR t l.v⌋) (h.bound ok (⌊coordR s l.u⌋ + 1) (⌊coordR t l.v⌋ + 1))
    rw [four_tiny] at this
    refine le_trans (le_of_eq ?_) (this.trans (c29 M0))
    congr 2
    simp only [bil, lin]; ring
  · have x := frac_near (coordR s l.u)
    have y := frac_near (coordR t l.v)
    have p (i j : ℤ) : 0 ≤ ext m.wrap l i j := l0.trans (ok.ext m.wrap h.black i j).2.1
    rw [mixR]
    have tm {a b c : ℝ} (ha : 0 ≤ a) (hb : 0 ≤ b) (hc : 0 ≤ c) : 0 ≤ double (double (a * b) * c) := d_nonneg (mul_nonneg (d_nonneg (mul_nonneg ha hb)) hc)
    exact d_nonneg (add_nonneg (d_nonneg (add_nonneg (d_nonneg (add_nonneg (tm x.2.2.1.1 y.2.2.1.1 (p _ _)) (tm x.2.2.1.1 y.1.1 (p _ _)))) (tm x.1.1 y.2.2.1.1 (p _ _)))) (tm x.1.1 y.1.1 (p _ _)))

/-- **C199** a bilinear lookup never fails and differs from the exact bilinear filter of the same levels by at most
`2 ^ -47 M + 2 ^ -1073 + 2 ^ -50 M (|s| u + |t| v + 2)`, where `u, v` is the shape of the level read (also across texel borders) -/
theorem C199_bilinear (m : MipMap ℝ) (lo hi : ℝ) (img : Level ℝ) (h : Image m.wrap lo hi img) (hm : pyramidR m.wrap img = some m.lev) (level : ℤ) (s t : ℝ) :
    ∃ l r e, m.lev[(clipZ level 0 (m.lev.length - 1)).toNat]? = some l ∧ triangleR m level s t = some r ∧ m.triangle level s t = some e ∧
      |r - e| ≤ 2 ^ (-47 : ℤ) * max |lo| |hi| + 2 ^ (-1073 : ℤ) + 2 ^ (-50 : ℤ) * max |lo| |hi| * ((|s| * l.u + 1) + (|t| * l.v + 1)) := by
  have g := h.good hm
  obtain ⟨l, r, e, h1, h2, h3, -, h5, -⟩ := g.filter level s t
  have ok : Ok lo hi l := g.ok _ _ h1
  refine ⟨l, r, _, h1, h2, triangle_bil m level s t l h1 ok.u ok.v, ?_⟩
  have b := bil_lip (ext m.wrap l) (max |lo| |hi|) (g.bound ok) (coordR s l.u) (coordR t l.v) (s * l.u - 1 / 2) (t * l.v - 1 / 2)
  have c1 := coord_near s l.u
  have c2 := coord_near t l.v
  have M0 : 0 ≤ max |lo| |hi| := (abs_nonneg _).trans (le_max_left _ _)
  rw [← h3] at b
  have q : (2 : ℝ) ^ (-50 : ℤ) = 2 * 2 ^ (-51 : ℤ) := by norm_num
  rw [q]
  generalize (2 : ℝ) ^ (-51 : ℤ) = u51 at *
  have b' : 2 * max |lo| |hi| * (|coordR s l.u - (s * l.u - 1 / 2)| + |coordR t l.v - (t * l.v - 1 / 2)|) ≤
      2 * max |lo| |hi| * (u51 * (|s| * l.u + 1) + u51 * (|t| * l.v + 1)) := mul_le_mul_of_nonneg_left (add_le_add c1 c2) (by linarith)
  have e' := abs_add_le (r - e) (e - bil (ext m.wrap l) (s * l.u - 1 / 2) (t * l.v - 1 / 2))
  rw [show r - e + (e - bil (ext m.wrap l) (s * l.u - 1 / 2) (t * l.v - 1 / 2)) = r - bil (ext m.wrap l) (s * l.u - 1 / 2) (t * l.v - 1 / 2) by ring] at e'
  have ring1 : 2 * max |lo| |hi| * (u51 * (|s| * l.u + 1) + u51 * (|t| * l.v + 1)) = 2 * u51 * max |lo| |hi| * ((|s| * l.u + 1) + (|t| * l.v + 1)) := by ring
  exact e'.trans (by rw [← ring1]; exact add_le_add h5 (b.trans b'))

/-! ### Lookups -/

/-- the computed blend of two lookups -/
noncomputable def blendR (x a b : ℝ) : ℝ := double (double (double (1 - double (x - ⌊x⌋)) * a) + double (double (x - ⌊x⌋) * b))

theorem blend_err {M x a b : ℝ} (na : |a| ≤ 2 * M + 4 * 2 ^ (-1075 : ℤ)) (nb : |b| ≤ 2 * M + 4 * 2 ^ (-1075 : ℤ)) (M0 : 0 ≤ M) :
    |blendR x a b - ((1 - (x - ⌊x⌋)) * a + (x - ⌊x⌋) * b)| ≤ 2 ^ (-48 : ℤ) * M + 4 * 2 ^ (-1075 : ℤ) := by
  rw [blendR]
  obtain ⟨x1, x2, x3, x4⟩ := frac_near x
  obtain ⟨f0, f1⟩ := fract_mem x
  have e1 := double_err (double (1 - double (x - ⌊x⌋)) * a)
  have e2 := double_err (double (x - ⌊x⌋) * b)
  have e3 := add_err (isDouble_double (double (1 - double (x - ⌊x⌋)) * a)) (isDouble_double (double (x - ⌊x⌋) * b))
  generalize double (1 - double (x - ⌊x⌋)) = p at *
  generalize double (x - ⌊x⌋) = d at *
  generalize x - ⌊x⌋ = f at *
  have τ0 : (0 : ℝ) < 2 ^ (-1075 : ℤ) := two_zpow_pos _
  generalize (2 : ℝ) ^ (-1075 : ℤ) = τ at *
  have N0 : 0 ≤ 2 * M + 4 * τ := by linarith
  have pa : |p * a| ≤ 2 * M + 4 * τ := by
    rw [abs_mul, abs_of_nonneg x3.1]
    calc p * |a| ≤ 1 * (2 * M + 4 * τ) := mul_le_mul x3.2 na (abs_nonneg _) (by norm_num)
      _ = _ := one_mul _
  have pb : |d * b| ≤ 2 * M + 4 * τ := by
    rw [abs_mul, abs_of_nonneg x1.1]
    calc d * |b| ≤ 1 * (2 * M + 4 * τ) := mul_le_mul x1.2 nb (abs_nonneg _) (by norm_num)
      _ = _ := one_mul _
  have g1 : |p * a - (1 - f) * a| ≤ 2 * 2 ^ (-52 : ℤ) * (2 * M + 4 * τ) := by
    rw [← sub_mul, abs_mul]
    exact mul_le_mul x4 na (abs_nonneg _) (by norm_num)
  have g2 : |d * b - f * b| ≤ 2 ^ (-52 : ℤ) * (2 * M + 4 * τ) := by
    rw [← sub_mul, abs_mul]
    exact mul_le_mul x2 nb (abs_nonneg _) (by norm_num)
  have u53 : (0 : ℝ) ≤ 2 ^ (-53 : ℤ) := (two_zpow_pos _).le
  have k1 := e1.trans (add_le_add_left (mul_le_mul_of_nonneg_left pa u53) τ)
  have k2 := e2.trans (add_le_add_left (mul_le_mul_of_nonneg_left pb u53) τ)
  generalize double (p * a) = P at *
  generalize double (d * b) = Q at *
  have hP : |P| ≤ 3 * M + 6 * τ := by
    have t := abs_add_le (P - p * a) (p * a)
    rw [show P - p * a + p * a = P by ring] at t
    norm_num at k1
    linarith
  have hQ : |Q| ≤ 3 * M + 6 * τ := by
    have t := abs_add_le (Q - d * b) (d * b)
    rw [show Q - d * b + d * b = Q by ring] at t
    norm_num at k2
    linarith
  have hPQ : |P + Q| ≤ 6 * M + 12 * τ := by linarith [abs_add_le P Q]
  have k3 := e3.trans (mul_le_mul_of_nonneg_left hPQ u53)
  generalize double (P + Q) = R at *
  generalize p * a = pa' at *
  generalize d * b = db' at *
  generalize (1 - f) * a = fa at *
  generalize f * b = fb at *
  rw [abs_le] at k1 k2 k3 g1 g2 ⊢
  norm_num at k1 k2 k3 g1 g2 ⊢
  constructor <;> linarith [k1.1, k1.2, k2.1, k2.2, k3.1, k3.2, g1.1, g1.2, g2.1, g2.2]

theorem size_of {M y Y lo hi : ℝ} (h0 : -M ≤ lo) (h1 : hi ≤ M) (hY : lo ≤ Y ∧ Y ≤ hi) (h : |y - Y| ≤ 2 ^ (-47 : ℤ) * M + 2 ^ (-1073 : ℤ)) :
    |y| ≤ 2 * M + 4 * 2 ^ (-1075 : ℤ) := by
  rw [four_tiny]
  have M0 : 0 ≤ M := by linarith [hY.1, hY.2]
  have hY' : |Y| ≤ M := by rw [abs_le]; constructor <;> linarith [hY.1, hY.2]
  have t := abs_add_le (y - Y) Y
  rw [show y - Y + Y = y by ring] at t
  generalize (2 : ℝ) ^ (-1073 : ℤ) = τ at *
  norm_num at h
  linarith

/-- errors of two lookups carry over to their exact blend -/
theorem mix_err {f a b A B η : ℝ} (f0 : 0 ≤ f) (f1 : f ≤ 1) (ha : |a - A| ≤ η) (hb : |b - B| ≤ η) : |((1 - f) * a + f * b) - ((1 - f) * A + f * B)| ≤ η := by
  rw [show ((1 - f) * a + f * b) - ((1 - f) * A + f * B) = (1 - f) * (a - A) + f * (b - B) by ring]
  refine (abs_add_le _ _).trans ?_
  rw [abs_mul, abs_mul, abs_of_nonneg f0, abs_of_nonneg (show 0 ≤ 1 - f by linarith)]
  have m1 := mul_le_mul_of_nonneg_left ha (show 0 ≤ 1 - f by linarith)
  have m2 := mul_le_mul_of_nonneg_left hb f0
  linarith

theorem blend_near {M x a b A B lo hi : ℝ} (h0 : -M ≤ lo) (h1 : hi ≤ M) (hA : lo ≤ A ∧ A ≤ hi) (hB : lo ≤ B ∧ B ≤ hi)
    (ha : |a - A| ≤ 2 ^ (-47 : ℤ) * M + 2 ^ (-1073 : ℤ)) (hb : |b - B| ≤ 2 ^ (-47 : ℤ) * M + 2 ^ (-1073 : ℤ)) :
    lo - (2 ^ (-46 : ℤ) * M + 2 ^ (-1072 : ℤ)) ≤ blendR x a b ∧ blendR x a b ≤ hi + (2 ^ (-46 : ℤ) * M + 2 ^ (-1072 : ℤ)) := by
  have M0 : 0 ≤ M := by linarith [hA.1, hA.2]
  obtain ⟨f0, f1⟩ := fract_mem x
  have e := blend_err (x := x) (size_of h0 h1 hA ha) (size_of h0 h1 hB hb) M0
  have c3 := mix_err f0 f1 ha hb
  have t73 : (2 : ℝ) ^ (-1073 : ℤ) = 4 * 2 ^ (-1075 : ℤ) := four_tiny.symm
  have t72 : (2 : ℝ) ^ (-1072 : ℤ) = 8 * 2 ^ (-1075 : ℤ) := by rw [show (-1072 : ℤ) = 3 + -1075 by norm_num, zpow_add₀ (by norm_num)]; norm_num
  rw [t73] at c3
  rw [t72]
  generalize (2 : ℝ) ^ (-1075 : ℤ) = τ at *
  generalize x - ⌊x⌋ = f at *
  generalize blendR x a b = R at *
  have c1 : lo ≤ (1 - f) * A + f * B := by
    have m1 := mul_le_mul_of_nonneg_left hA.1 (show 0 ≤ 1 - f by linarith)
    have m2 := mul_le_mul_of_nonneg_left hB.1 f0
    linarith
  have c2 : (1 - f) * A + f * B ≤ hi := by
    have m1 := mul_le_mul_of_nonneg_left hA.2 (show 0 ≤ 1 - f by linarith)
    have m2 := mul_le_mul_of_nonneg_left hB.2 f0
    linarith
  generalize (1 - f) * A + f * B = E at *
  generalize (1 - f) * a + f * b = D at *
  rw [abs_le] at e c3
  norm_num at e c3 ⊢
  constructor <;> linarith [e.1, e.2, c3.1, c3.2]

theorem eta_le {M : ℝ} (M0 : 0 ≤ M) : 2 ^ (-47 : ℤ) * M + 2 ^ (-1073 : ℤ) ≤ 2 ^ (-46 : ℤ) * M + 2 ^ (-1072 : ℤ) := by
  have h1 : (2 : ℝ) ^ (-1073 : ℤ) ≤ 2 ^ (-1072 : ℤ) := zpow_le_zpow_right₀ (by norm_num) (by norm_num)
  have h2 : (2 : ℝ) ^ (-47 : ℤ) ≤ 2 ^ (-46 : ℤ) := zpow_le_zpow_right₀ (by norm_num) (by norm_num)
  exact add_le_add (mul_le_mul_of_nonneg_right h2 M0) h1

/-- **C199** for every filter width and position a lookup succeeds, and its result lies between the smallest and the largest texel of the image up
to `2 ^ -46 M + 2 ^ -1072`; if no texel is negative, neither is the result.  Whatever `np.log2` computes. -/
theorem C199_range (m : MipMap ℝ) (lo hi : ℝ) (img : Level ℝ) (h : Image m.wrap lo hi img) (hm : pyramidR m.wrap img = some m.lev) (s t width : ℝ) :
    ∃ r, lookUp3R log2R m s t width = some r ∧ lo - (2 ^ (-46 : ℤ) * max |lo| |hi| + 2 ^ (-1072 : ℤ)) ≤ r ∧
      r ≤ hi + (2 ^ (-46 : ℤ) * max |lo| |hi| + 2 ^ (-1072 : ℤ)) ∧ (0 ≤ lo → 0 ≤ r) := by
  have g := h.good hm
  have M0 : 0 ≤ max |lo| |hi| := (abs_nonneg _).trans (le_max_left _ _)
  have one (level : ℤ) (s t : ℝ) : ∃ r, triangleR m level s t = some r ∧ lo - (2 ^ (-46 : ℤ) * max |lo| |hi| + 2 ^ (-1072 : ℤ)) ≤ r ∧
      r ≤ hi + (2 ^ (-46 : ℤ) * max |lo| |hi| + 2 ^ (-1072 : ℤ)) ∧ (0 ≤ lo → 0 ≤ r) := by
    obtain ⟨l, r, e, -, h2, -, h4, h5, h6⟩ := g.filter level s t
    have h7 := abs_le.1 (h5.trans (eta_le M0))
    exact ⟨r, h2, by linarith [h7.1, h4.1], by linarith [h7.2, h4.2], h6⟩
  rw [lookUp3R]
  split_ifs with c1 c2
  · exact one 0 s t
  · exact one m.lev.length 0 0
  · obtain ⟨-, r, e, -, h2, -, h4, h5, h6⟩ := g.filter ⌊levelR log2R m width⌋ s t
    obtain ⟨-, r', e', -, h2', -, h4', h5', h6'⟩ := g.filter (⌊levelR log2R m width⌋ + 1) s t
    refine ⟨_, by simp only [h2, h2', Option.bind_eq_bind, Option.bind_some]; rfl, ?_⟩
    obtain ⟨b1, b2⟩ := blend_near (x := levelR log2R m width) (by have := neg_abs_le lo; have := le_max_left |lo| |hi|; linarith) ((le_abs_self hi).trans (le_max_right _ _)) h4 h4' h5 h5'
    refine ⟨b1, b2, fun l0 => ?_⟩
    have x := frac_near (levelR log2R m width)
    exact d_nonneg (add_nonneg (d_nonneg (mul_nonneg x.2.2.1.1 (h6 l0))) (d_nonneg (mul_nonneg x.1.1 (h6' l0))))

/-- the bound of `C199_bilinear` on an array of shape `(u, v)` -/
noncomputable def bilErr (M s t : ℝ) (u v : ℕ) : ℝ := 2 ^ (-47 : ℤ) * M + 2 ^ (-1073 : ℤ) + 2 ^ (-50 : ℤ) * M * ((|s| * u + 1) + (|t| * v + 1))

/-- **C199** the level is the computed `n - 1 + log2(max(width, EPS))`: below 0 the finest level is read; between two levels the lookup is the blend of
the exact bilinear filters of the level below and the level above, weighted by the fraction of the computed level, up to the error of a bilinear
lookup plus `2 ^ -48 M + 2 ^ -1073` -/
theorem C199_trilinear (m : MipMap ℝ) (lo hi : ℝ) (img : Level ℝ) (h : Image m.wrap lo hi img) (hm : pyramidR m.wrap img = some m.lev) (s t width x : ℝ)
    (hx : x = double ((m.lev.length : ℝ) - 1 + log2R (max width epsR))) :
    (x < 0 → lookUp3R log2R m s t width = triangleR m 0 s t) ∧
    (0 ≤ x → x < m.lev.length - 1 → ∃ l l' e e' r, m.lev[⌊x⌋.toNat]? = some l ∧ m.lev[⌊x⌋.toNat + 1]? = some l' ∧
      m.triangle ⌊x⌋ s t = some e ∧ m.triangle (⌊x⌋ + 1) s t = some e' ∧ lookUp3R log2R m s t width = some r ∧
      |r - ((1 - Int.fract x) * e + Int.fract x * e')| ≤
        max (bilErr (max |lo| |hi|) s t l.u l.v) (bilErr (max |lo| |hi|) s t l'.u l'.v) + (2 ^ (-48 : ℤ) * max |lo| |hi| + 2 ^ (-1073 : ℤ))) := by
  have g := h.good hm
  have hxl : levelR log2R m width = x := by rw [levelR, hx]
  refine ⟨fun c => by rw [lookUp3R]; simp only [hxl, c, if_true], fun c1 c2 => ?_⟩
  have fl0 : 0 ≤ ⌊x⌋ := Int.floor_nonneg.2 c1
  have fl1 : ⌊x⌋ < (m.lev.length : ℤ) - 1 := by
    rw [Int.floor_lt]; push_cast; exact c2
  obtain ⟨l, r, e, a1, a2, a3, a4⟩ := C199_bilinear m lo hi img h hm ⌊x⌋ s t
  obtain ⟨l', r', e', b1, b2, b3, b4⟩ := C199_bilinear m lo hi img h hm (⌊x⌋ + 1) s t
  have k1 : (clipZ ⌊x⌋ 0 ((m.lev.length : ℤ) - 1)).toNat = ⌊x⌋.toNat := by simp only [clipZ]; omega
  have k2 : (clipZ (⌊x⌋ + 1) 0 ((m.lev.length : ℤ) - 1)).toNat = ⌊x⌋.toNat + 1 := by simp only [clipZ]; omega
  rw [k1] at a1
  rw [k2] at b1
  refine ⟨l, l', e, e', blendR x r r', a1, b1, a3, b3, ?_, ?_⟩
  · rw [lookUp3R]
    simp only [hxl, if_neg (not_lt.2 c1), if_neg (not_le.2 c2), ge_iff_le, a2, b2, Option.bind_eq_bind, Option.bind_some, blendR]
    rfl
  · have M0 : 0 ≤ max |lo| |hi| := (abs_nonneg _).trans (le_max_left _ _)
    have hl : -max |lo| |hi| ≤ lo := by have := neg_abs_le lo; have := le_max_left |lo| |hi|; linarith
    have hh : hi ≤ max |lo| |hi| := (le_abs_self hi).trans (le_max_right _ _)
    obtain ⟨-, r1, E1, -, q1, -, q2, q3, -⟩ := g.filter ⌊x⌋ s t
    obtain ⟨-, r2, E2, -, p1, -, p2, p3, -⟩ := g.filter (⌊x⌋ + 1) s t
    rw [a2] at q1; cases q1
    rw [b2] at p1; cases p1
    have be := blend_err (x := x) (size_of hl hh q2 q3) (size_of hl hh p2 p3) M0
    rw [← bilErr] at a4 b4
    have me := mix_err (fract_mem x).1 (fract_mem x).2 (a4.trans (le_max_left _ _)) (b4.trans (le_max_right (bilErr (max |lo| |hi|) s t l.u l.v) _))
    rw [four_tiny] at be
    have e1 : Int.fract x = x - ⌊x⌋ := rfl
    rw [e1]
    have t := abs_add_le (blendR x r r' - ((1 - (x - ⌊x⌋)) * r + (x - ⌊x⌋) * r')) (((1 - (x - ⌊x⌋)) * r + (x - ⌊x⌋) * r') - ((1 - (x - ⌊x⌋)) * e + (x - ⌊x⌋) * e'))
    rw [sub_add_sub_cancel] at t
    exact t.trans (by rw [add_comm]; exact add_le_add me be)

/-- **C199** at the centre of a texel the lookup without a width returns that texel exactly (images of `2^a × 2^b` texels, at most `2^16` a side;
`np.log2(1e-5)` is about -16.6) -/
theorem C199_centers (hlog : log2R epsR ≤ -33 / 2) (m : MipMap ℝ) (lo hi : ℝ) (img : Level ℝ) (h : Image m.wrap lo hi img) (hm : pyramidR m.wrap img = some m.lev)
    (a b : ℕ) (hu : img.u = 2 ^ a) (hv : img.v = 2 ^ b) (ha : a ≤ 16) (hb : b ≤ 16) (i j : ℕ) (hi' : i < img.u) (hj : j < img.v) :
    lookUp2R log2R m ((i + 1 / 2) / img.u) ((j + 1 / 2) / img.v) = some (img.a i j) := by
  have g := h.good hm
  obtain ⟨r, e1, e2, e3, -⟩ := C199_pyramid m.wrap lo hi img h
  rw [hm] at e1
  cases e1
  have h17 : m.lev.length ≤ 17 := by
    rw [e2, hu, hv, log_max_pow]; omega
  have eps0 : 0 ≤ epsR := d_nonneg (by norm_num)
  have neg : levelR log2R m 0 < 0 := by
    rw [levelR, max_eq_right eps0]
    have hl : ((m.lev.length : ℝ)) ≤ 17 := by exact_mod_cast h17
    have : double ((m.lev.length : ℝ) - 1 + log2R epsR) ≤ double (-(1 / 2)) := dm (by linarith)
    have hd : double (-(1 / 2) : ℝ) = -(1 / 2) := double_of_isDouble ⟨-1, -1, by norm_num, by norm_num, by norm_num⟩
    rw [hd] at this
    linarith
  have hl : m.lev[(clipZ 0 0 (m.lev.length - 1)).toNat]? = some img := by
    have : (clipZ 0 0 ((m.lev.length : ℤ) - 1)).toNat = 0 := by have := g.ne; simp only [clipZ]; omega
    rw [this, e3]
  have cen (n k c : ℕ) (hn : n = 2 ^ c) (hc : c ≤ 16) (hk : k < n) : coordR ((k + 1 / 2) / n) n = k := by
    have n0 : (n : ℝ) ≠ 0 := by have : 0 < n := by omega
                                positivity
    have k16 : k < 2 ^ 16 := hk.trans_le (by rw [hn]; exact Nat.pow_le_pow_right (by norm_num) hc)
    rw [coordR, div_mul_cancel₀ _ n0]
    have d1 : double ((k : ℝ) + 1 / 2) = k + 1 / 2 := double_of_isDouble ⟨2 * k + 1, -1, by rw [abs_of_nonneg (by positivity)]; omega, by norm_num, by push_cast; norm_num; ring⟩
    rw [d1, add_sub_cancel_right]
    exact double_of_isDouble ⟨k, 0, by rw [abs_of_nonneg (by positivity)]; omega, by norm_num, by simp⟩
  rw [lookUp2R, lookUp3R]
  simp only [neg, if_true]
  rw [triangleR_eq m 0 _ _ img hl h.u h.v, cen img.u i a hu ha hi', cen img.v j b hv hb hj]
  have ex : ext m.wrap img (i : ℤ) (j : ℤ) = img.a i j := by
    cases m.wrap with
    | rep =>
      simp only [Texture.ext]
      rw [Int.emod_eq_of_lt (by omega) (by omega), Int.emod_eq_of_lt (by omega) (by omega)]
      simp
    | clamp => simp only [Texture.ext, Int.toNat_natCast]; congr 1 <;> omega
    | black => simp only [Texture.ext]; rw [if_pos (by omega)]; simp
  simp only [Int.floor_natCast, Int.cast_natCast, sub_self, double_zero, sub_zero, mixR, d_one, mul_one, one_mul, zero_mul, mul_zero, add_zero, ex]
  have dx := double_of_isDouble (h.dbl i hi' j hj)
  simp only [dx]

/-- **C199** a lookup over the whole extent (a width whose computed logarithm is not negative) returns the mean of the image up to
`(max a b + 1) (2 ^ -51 M + 2 ^ -1073)`, wherever it is made (images of `2^a × 2^b` texels, periodic or clamped) -/
theorem C199_coarse (m : MipMap ℝ) (lo hi : ℝ) (img : Level ℝ) (h : Image m.wrap lo hi img) (hm : pyramidR m.wrap img = some m.lev) (hw : m.wrap ≠ .black)
    (a b : ℕ) (hu : img.u = 2 ^ a) (hv : img.v = 2 ^ b) (hab : max a b ≤ 2 ^ 53) (s t width : ℝ) (hwd : 0 ≤ log2R (max width epsR)) :
    ∃ r, lookUp3R log2R m s t width = some r ∧ |r - img.mean| ≤ (max a b + 1 : ℕ) * (2 ^ (-51 : ℤ) * max |lo| |hi| + 2 ^ (-1073 : ℤ)) := by
  have g := h.good hm
  obtain ⟨r, q, e1, e2, e3, e4, e5, e6⟩ := h.pyramid
  rw [hm] at e1
  cases e1
  rw [hu, hv, log_max_pow] at e3
  obtain ⟨q', f1, f2, f3, lq, f4, f5, f6⟩ := C114_sizes m.wrap img a b hu hv
  rw [e2] at f1
  cases f1
  obtain ⟨q', k1, -, lq', k3, k4⟩ := C114_mean_partial m.wrap img a b hu hv (Or.inl hw)
  rw [e2] at k1
  cases k1
  rw [f4] at k3
  cases k3
  have hq : q[max a b]? = some lq := by
    rw [List.getLast?_eq_getElem?, e4, e3] at f4
    simpa using f4
  obtain ⟨y, z, g1, g2, g3, g4⟩ := e6 (max a b) (by omega)
  rw [hq] at g2
  cases g2
  have lev : levelR log2R m width ≥ (m.lev.length : ℝ) - 1 := by
    have hn : ((m.lev.length : ℝ) - 1) = ((max a b : ℕ) : ℝ) := by rw [e3]; push_cast; ring
    have : double ((max a b : ℕ) : ℝ) ≤ levelR log2R m width := by
      rw [levelR, hn]
      exact dm (by linarith)
    rw [double_of_isDouble ⟨(max a b : ℕ), 0, by rw [abs_of_nonneg (by positivity)]; exact_mod_cast hab, by norm_num, by simp⟩] at this
    rw [hn]; exact this
  have nn : ¬ levelR log2R m width < 0 := by
    have : (1 : ℝ) ≤ m.lev.length := by exact_mod_cast g.ne
    intro hlt
    linarith
  have hl : m.lev[(clipZ m.lev.length 0 (m.lev.length - 1)).toNat]? = some y := by
    have : (clipZ m.lev.length 0 ((m.lev.length : ℤ) - 1)).toNat = max a b := by simp only [clipZ]; omega
    rw [this, g1]
  have yu : y.u = 1 := by rw [g4.1, f5]
  have yv : y.v = 1 := by rw [g4.2.1, f6]
  have ex (i j : ℤ) : ext m.wrap y i j = y.a 0 0 := by
    cases hw' : m.wrap with
    | rep => simp only [Texture.ext, yu, yv]; simp
    | clamp => simp only [Texture.ext, yu, yv]; simp
    | black => exact absurd hw' hw
  have cz (n : ℕ) : coordR 0 n = -(1 / 2) := by
    rw [coordR, zero_mul, double_zero, zero_sub]
    exact double_of_isDouble ⟨-1, -1, by norm_num, by norm_num, by norm_num⟩
  have fl : ⌊(-(1 / 2) : ℝ)⌋ = -1 := by rw [Int.floor_eq_iff]; norm_num
  have dh : double (1 / 2 : ℝ) = 1 / 2 := double_of_isDouble ⟨1, -1, by norm_num, by norm_num, by norm_num⟩
  have dq : double (1 / 4 : ℝ) = 1 / 4 := double_of_isDouble ⟨1, -2, by norm_num, by norm_num, by norm_num⟩
  have res : lookUp3R log2R m s t width = some (4 * double (1 / 4 * y.a 0 0)) := by
    rw [lookUp3R]
    simp only [nn, lev, if_true, if_false]
    rw [triangleR_eq m _ 0 0 y hl g3.u g3.v]
    simp only [ex, cz, fl]
    congr 1
    have hf : (-(1 / 2) : ℝ) - ((-1 : ℤ) : ℝ) = 1 / 2 := by norm_num
    rw [hf, dh, mixR, show (1 : ℝ) - 1 / 2 = 1 / 2 by norm_num, dh, show (1 / 2 : ℝ) * (1 / 2) = 1 / 4 by norm_num, dq]
    generalize hX : double (1 / 4 * y.a 0 0) = X
    have dX : IsDouble X := hX ▸ isDouble_double _
    rw [twice dX, show 2 * X + X = 3 * X by ring, four_times dX]
  refine ⟨_, res, ?_⟩
  have n0 := g4.2.2 0 (by omega) 0 (by omega)
  rw [k4] at n0
  have e := double_err (1 / 4 * y.a 0 0)
  have yM : |y.a 0 0| ≤ max |lo| |hi| := by
    have := g.bound g3 0 0
    rwa [ex] at this
  have M0 : 0 ≤ max |lo| |hi| := (abs_nonneg _).trans (le_max_left _ _)
  rw [abs_mul, abs_of_pos (by norm_num : (0 : ℝ) < 1 / 4)] at e
  generalize max |lo| |hi| = M at *
  generalize y.a 0 0 = Y at *
  generalize double (1 / 4 * Y) = Z at *
  have t73 : (2 : ℝ) ^ (-1073 : ℤ) = 4 * 2 ^ (-1075 : ℤ) := four_tiny.symm
  have τ0 : (0 : ℝ) < 2 ^ (-1075 : ℤ) := two_zpow_pos _
  have q1 : (2 : ℝ) ^ (-51 : ℤ) = 4 * 2 ^ (-53 : ℤ) := by norm_num
  have u0 : (0 : ℝ) < 2 ^ (-53 : ℤ) := two_zpow_pos _
  rw [step, q1] at n0
  rw [t73, q1]
  generalize (2 : ℝ) ^ (-1075 : ℤ) = τ at *
  generalize (2 : ℝ) ^ (-53 : ℤ) = v at *
  have N0 : (0 : ℝ) ≤ (max a b : ℕ) := Nat.cast_nonneg _
  push_cast at n0 N0 ⊢
  generalize max (a : ℝ) b = N at *
  have a1 : v * (1 / 4 * |Y|) ≤ v * M := mul_le_mul_of_nonneg_left (by linarith [abs_nonneg Y]) u0.le
  have a2 : 0 ≤ N * τ := mul_nonneg N0 τ0.le
  have a3 : 0 ≤ v * M := mul_nonneg u0.le M0
  have e' : |Z - 1 / 4 * Y| ≤ v * M + τ := by linarith
  rw [abs_le] at e' n0 ⊢
  constructor <;> nlinarith [e'.1, e'.2, n0.1, n0.2]

/-! ### An instance -/

/-- a 2 × 2 picture -/
noncomputable def tiny2 : Level ℝ := ⟨2, 2, fun s t => s + 2 * t⟩

theorem tiny2_image (w : Wrap) : Image w 0 3 tiny2 where
  u := by simp [tiny2]
  v := by simp [tiny2]
  dlo := isDouble_zero
  dhi := ⟨3, 0, by norm_num, by norm_num, by norm_num⟩
  dbl := fun s hs t ht => ⟨s + 2 * t, 0, by simp only [tiny2] at hs ht; rw [abs_of_nonneg (by positivity)]; omega, by norm_num, by simp [tiny2]⟩
  rng := fun s hs t ht => by
    simp only [tiny2] at *
    have h1 : (s : ℝ) ≤ 1 := by exact_mod_cast (by omega : s ≤ 1)
    have h2 : (t : ℝ) ≤ 1 := by exact_mod_cast (by omega : t ≤ 1)
    exact ⟨by positivity, by linarith⟩
  black := fun _ => ⟨le_rfl, by norm_num⟩

/-- the hypotheses are met: a mip-map of a 2 × 2 picture, looked up at the centre of a texel and over its whole extent -/
example : ∃ m : MipMap ℝ, m.wrap = .rep ∧ pyramidR m.wrap tiny2 = some m.lev ∧
    lookUp2R (Real.logb 2) m (3 / 4) (1 / 4) = some 1 ∧ ∃ r, lookUp3R (Real.logb 2) m (1 / 3) (1 / 7) 1 = some r ∧ |r - tiny2.mean| ≤ 1 / 2 ^ 40 := by
  obtain ⟨r, h1, -⟩ := C199_pyramid .rep 0 3 tiny2 (tiny2_image .rep)
  have heps : epsR ≤ 2 ^ (-33 / 2 : ℝ) ∧ 0 < epsR := by
    have e := double_err_rel (x := (1 / 100000 : ℝ)) (by
      rw [abs_of_pos (by norm_num)]
      exact (zpow_le_zpow_right₀ (by norm_num) (by norm_num : (-1022 : ℤ) ≤ -17)).trans (by norm_num))
    rw [abs_of_pos (a := (1 / 100000 : ℝ)) (by norm_num), abs_le] at e
    norm_num at e
    have p : (0 : ℝ) < 2 ^ (-33 / 2 : ℝ) := Real.rpow_pos_of_pos (by norm_num) _
    have p2 : ((2 : ℝ) ^ (-33 / 2 : ℝ)) ^ 2 = 2 ^ (-33 : ℝ) := by rw [← Real.rpow_natCast, ← Real.rpow_mul (by norm_num)]; norm_num
    have p3 : (2 : ℝ) ^ (-33 : ℝ) = 1 / 2 ^ 33 := by rw [show (-33 : ℝ) = ((-33 : ℤ) : ℝ) by norm_num, Real.rpow_intCast]; norm_num
    have e1 : epsR ≤ 1 / 99999 := by rw [epsR]; norm_num; linarith [e.2]
    have e2 : 1 / 200000 ≤ epsR := by rw [epsR]; norm_num; linarith [e.1]
    refine ⟨?_, by linarith⟩
    by_contra hc
    push Not at hc
    rw [p3] at p2
    nlinarith
  refine ⟨⟨.rep, false, 8, r⟩, rfl, h1, ?_, ?_⟩
  · have := C199_centers (Real.logb 2) (by
      have := Real.logb_le_logb_of_le (b := 2) (by norm_num) heps.2 heps.1
      rwa [Real.logb_rpow (by norm_num) (by norm_num)] at this) ⟨.rep, false, 8, r⟩ 0 3 tiny2 (tiny2_image .rep) h1 1 1 rfl rfl (by norm_num) (by norm_num) 1 0 (by simp [tiny2]) (by simp [tiny2])
    simp only [tiny2] at this
    norm_num at this
    convert this using 2
  · obtain ⟨x, hx, hb⟩ := C199_coarse (Real.logb 2) ⟨.rep, false, 8, r⟩ 0 3 tiny2 (tiny2_image .rep) h1 (by simp) 1 1 rfl rfl (by norm_num) (1 / 3) (1 / 7) 1
      (Real.logb_nonneg (by norm_num) (le_max_left _ _))
    refine ⟨x, hx, hb.trans ?_⟩
    have t : (2 : ℝ) ^ (-1073 : ℤ) ≤ 2 ^ (-60 : ℤ) := zpow_le_zpow_right₀ (by norm_num) (by norm_num)
    generalize (2 : ℝ) ^ (-1073 : ℤ) = τ at *
    norm_num at t ⊢
    linarith

end Verif.MipR
