import Verif.Sampler.Rounded
import Verif.Film.Rounded
import Mathlib.Data.Rat.Floor

/-! # Task windows and sample times in rounded arithmetic: property C177 (continued; model in `Sampler/Rounded.lean`) -/

namespace Verif.Sampler
open Verif.Rnd
set_option linter.unusedSectionVars false

section
variable {K : Type*} [Field K] [LinearOrder K] [IsStrictOrderedRing K]

/-! ### Windows -/

theorem lerpR_zero (R : Rounding K) {a : K} (b : K) (ha : R.Rep a) : lerpR R 0 a b = a := by
  have h0 : R.rnd (0 : K) = 0 := R.rep_zero
  have h1 : R.rnd (1 : K) = 1 := R.rep_one
  have ha' : R.rnd a = a := ha
  simp [lerpR, Rounding.add, Rounding.mul, Rounding.sub', h0, h1, ha']

theorem lerpR_one (R : Rounding K) (a : K) {b : K} (hb : R.Rep b) : lerpR R 1 a b = b := by
  have h0 : R.rnd (0 : K) = 0 := R.rep_zero
  have hb' : R.rnd b = b := hb
  simp [lerpR, Rounding.add, Rounding.mul, Rounding.sub', h0, hb']

/-- between a nonpositive and a nonnegative number rounded interpolation is monotone -/
theorem lerpR_mono (R : Rounding K) {t t' a b : K} (ha : a ≤ 0) (hb : 0 ≤ b) (h : t ≤ t') : lerpR R t a b ≤ lerpR R t' a b := by
  have h1 : R.sub' 1 t' ≤ R.sub' 1 t := R.mono (by linarith)
  have h2 : R.mul (R.sub' 1 t) a ≤ R.mul (R.sub' 1 t') a := R.mono (mul_le_mul_of_nonpos_right h1 ha)
  have h3 : R.mul t b ≤ R.mul t' b := R.mono (mul_le_mul_of_nonneg_right h hb)
  exact R.mono (by linarith)

/-- the border before tile `k` of `n` -/
def borderR (R : Rounding K) (a b : ℤ) (n k : ℕ) : K := lerpR R (R.div (k : K) n) a b

theorem borderR_zero (R : Rounding K) (a b : ℤ) (n : ℕ) (ha : |a| ≤ 2 ^ 53) : borderR R a b n 0 = a := by
  have : R.div ((0 : ℕ) : K) n = 0 := by rw [Rounding.div]; simp; exact R.rep_zero
  rw [borderR, this]; exact lerpR_zero R _ (rep_int R a ha)

theorem borderR_last (R : Rounding K) (a b : ℤ) (n : ℕ) (hn : 0 < n) (hb : |b| ≤ 2 ^ 53) : borderR R a b n n = b := by
  rw [borderR, R.div_self (by exact_mod_cast hn.ne')]; exact lerpR_one R _ (rep_int R b hb)

theorem borderR_mono (R : Rounding K) (a b : ℤ) (n : ℕ) (ha : a ≤ 0) (hb : 0 ≤ b) {j k : ℕ} (h : j ≤ k) : borderR (K := K) R a b n j ≤ borderR R a b n k := by
  refine lerpR_mono R (by exact_mod_cast ha) (by exact_mod_cast hb) (R.mono ?_)
  exact div_le_div_of_nonneg_right (by exact_mod_cast h) (Nat.cast_nonneg n)

/-- the rounded windows in closed form when the image window contains `[0, 1]²` -/
theorem subwindowR_eq (R : Rounding K) (xs xe ys ye : ℤ) (hx : xs ≤ 0 ∧ 1 ≤ xe) (hy : ys ≤ 0 ∧ 1 ≤ ye) (num cnt : ℕ) (hn : num < cnt) :
    (subwindowR R xs xe ys ye num cnt : K × K × K × K) =
      (let t := tileLoop (xe - xs).toNat (ye - ys).toNat cnt 1
       (borderR R xs xe t.1 (num % t.1), borderR R xs xe t.1 (num % t.1 + 1), borderR R ys ye t.2 (num / t.1), borderR R ys ye t.2 (num / t.1 + 1))) := by
  obtain ⟨h1, h2, h3⟩ := tileLoop_spec (xe - xs).toNat (ye - ys).toNat cnt 1 (by omega) (by omega)
  simp only [subwindowR]
  set t := tileLoop (xe - xs).toNat (ye - ys).toNat cnt 1 with ht
  have hmod : num % t.1 < t.1 := Nat.mod_lt _ h2
  have hdiv : num / t.1 < t.2 := Nat.div_lt_of_lt_mul (by omega)
  have c : ∀ (a b : ℤ) (n k : ℕ), a ≤ 0 → 1 ≤ b → 0 < n → k ≤ n → clip (R.div (k : K) n) (a : K) (b : K) = R.div (k : K) n := fun a b n k ha hb hn hk => by
    refine clip_id _ _ _ (le_trans (by exact_mod_cast ha) (R.div_nonneg (Nat.cast_nonneg k) (Nat.cast_nonneg n))) (le_trans (R.div_le_one (Nat.cast_nonneg k) ?_) (by exact_mod_cast hb))
    exact_mod_cast hk
  rw [c _ _ _ _ hx.1 hx.2 h2 (by omega), c _ _ _ _ hx.1 hx.2 h2 (by omega), c _ _ _ _ hy.1 hy.2 h3 (by omega), c _ _ _ _ hy.1 hy.2 h3 (by omega)]
  rfl

/-- a monotone sequence of borders cuts its range: each point is in exactly one piece -/
theorem mono_cut (b : ℕ → K) (hb : ∀ j k : ℕ, j ≤ k → b j ≤ b k) (n : ℕ) (p : K) (h0 : b 0 ≤ p) (h1 : p < b n) :
    ∃ k < n, (b k ≤ p ∧ p < b (k + 1)) ∧ ∀ j, (b j ≤ p ∧ p < b (j + 1)) → j = k := by
  have ex : ∃ k < n, b k ≤ p ∧ p < b (k + 1) := by
    induction n with
    | zero => exact absurd h1 (not_lt.2 h0)
    | succ n ih =>
      by_cases h : p < b n
      · obtain ⟨k, hk, hh⟩ := ih h; exact ⟨k, by omega, hh⟩
      · exact ⟨n, by omega, not_lt.1 h, h1⟩
  obtain ⟨k, hk, h2, h3⟩ := ex
  refine ⟨k, hk, ⟨h2, h3⟩, fun j hj => ?_⟩
  rcases Nat.lt_trichotomy j k with h | h | h
  · exact absurd (hb (j + 1) k h) (not_le.2 (lt_of_le_of_lt h2 hj.2))
  · exact h
  · exact absurd (hb (k + 1) j h) (not_le.2 (lt_of_le_of_lt hj.1 h3))

/-- **C177** the task windows computed in rounded arithmetic (binary64, or any rounding with the properties of `Rounding`), for every number of tasks and an image window
that contains `[0, 1]²`: they lie in the image and each point of the image is in the half-open window of exactly one task: rounding opens no gap and makes no overlap. -/
theorem C177_tiling (R : Rounding K) (xs xe ys ye : ℤ) (hx : xs ≤ 0 ∧ 1 ≤ xe) (hy : ys ≤ 0 ∧ 1 ≤ ye)
    (bx : -2 ^ 53 ≤ xs ∧ xe ≤ 2 ^ 53) (bY : -2 ^ 53 ≤ ys ∧ ye ≤ 2 ^ 53) (cnt : ℕ) (hc : 0 < cnt) :
    (∀ num < cnt, ∀ p q : K, InWin (subwindowR R xs xe ys ye num cnt) p q → InWin ((xs : K), (xe : K), (ys : K), (ye : K)) p q) ∧
    (∀ p q : K, InWin ((xs : K), (xe : K), (ys : K), (ye : K)) p q →
      ∃! num, num < cnt ∧ InWin (subwindowR R xs xe ys ye num cnt) p q) := by
  obtain ⟨h1, h2, h3⟩ := tileLoop_spec (xe - xs).toNat (ye - ys).toNat cnt 1 (by omega) (by omega)
  have axs : |xs| ≤ 2 ^ 53 := abs_le.2 ⟨by omega, by omega⟩
  have axe : |xe| ≤ 2 ^ 53 := abs_le.2 ⟨by omega, by omega⟩
  have ays : |ys| ≤ 2 ^ 53 := abs_le.2 ⟨by omega, by omega⟩
  have aye : |ye| ≤ 2 ^ 53 := abs_le.2 ⟨by omega, by omega⟩
  have mx : ∀ n j k : ℕ, j ≤ k → borderR (K := K) R xs xe n j ≤ borderR R xs xe n k := fun n j k h => borderR_mono R xs xe n hx.1 (by omega) h
  have my : ∀ n j k : ℕ, j ≤ k → borderR (K := K) R ys ye n j ≤ borderR R ys ye n k := fun n j k h => borderR_mono R ys ye n hy.1 (by omega) h
  constructor
  · intro num hn p q hw
    rw [subwindowR_eq R xs xe ys ye hx hy num cnt hn] at hw
    set t := tileLoop (xe - xs).toNat (ye - ys).toNat cnt 1 with ht
    have hmod : num % t.1 < t.1 := Nat.mod_lt _ h2
    have hdiv : num / t.1 < t.2 := Nat.div_lt_of_lt_mul (by omega)
    obtain ⟨w1, w2, w3, w4⟩ := hw
    simp only at w1 w2 w3 w4
    have a1 := mx t.1 0 (num % t.1) (by omega)
    have a2 := mx t.1 (num % t.1 + 1) t.1 (by omega)
    have a3 := my t.2 0 (num / t.1) (Nat.zero_le _)
    have a4 := my t.2 (num / t.1 + 1) t.2 (by omega)
    rw [borderR_zero R _ _ _ axs] at a1
    rw [borderR_last R _ _ _ h2 axe] at a2
    rw [borderR_zero R _ _ _ ays] at a3
    rw [borderR_last R _ _ _ h3 aye] at a4
    exact ⟨a1.trans w1, lt_of_lt_of_le w2 a2, a3.trans w3, lt_of_lt_of_le w4 a4⟩
  · rintro p q ⟨p1, p2, q1, q2⟩
    simp only at p1 p2 q1 q2
    set t := tileLoop (xe - xs).toNat (ye - ys).toNat cnt 1 with ht
    obtain ⟨i, hi, hI, uI⟩ := mono_cut (borderR (K := K) R xs xe t.1) (mx t.1) t.1 p (by rw [borderR_zero R _ _ _ axs]; exact p1)
      (by rw [borderR_last R _ _ _ h2 axe]; exact p2)
    obtain ⟨j, hj, hJ, uJ⟩ := mono_cut (borderR (K := K) R ys ye t.2) (my t.2) t.2 q (by rw [borderR_zero R _ _ _ ays]; exact q1)
      (by rw [borderR_last R _ _ _ h3 aye]; exact q2)
    have hnum : j * t.1 + i < cnt := by
      rw [show cnt = t.1 * t.2 by omega]
      calc j * t.1 + i < j * t.1 + t.1 := by omega
        _ = t.1 * (j + 1) := by ring
        _ ≤ t.1 * t.2 := Nat.mul_le_mul_left _ hj
    have e1 : (j * t.1 + i) % t.1 = i := by rw [Nat.add_comm, Nat.add_mul_mod_self_right, Nat.mod_eq_of_lt hi]
    have e2 : (j * t.1 + i) / t.1 = j := by
      rw [Nat.add_comm, Nat.add_mul_div_right _ _ h2, Nat.div_eq_of_lt hi, Nat.zero_add]
    refine ⟨j * t.1 + i, ⟨hnum, ?_⟩, ?_⟩
    · rw [subwindowR_eq R xs xe ys ye hx hy _ cnt hnum]
      simp only [← ht, e1, e2]
      exact ⟨hI.1, hI.2, hJ.1, hJ.2⟩
    · rintro num ⟨hn, hw⟩
      rw [subwindowR_eq R xs xe ys ye hx hy num cnt hn] at hw
      obtain ⟨w1, w2, w3, w4⟩ := hw
      have f1 := uI _ ⟨w1, w2⟩
      have f2 := uJ _ ⟨w3, w4⟩
      have := Nat.div_add_mod num t.1
      rw [f1, f2] at this
      rw [← this, Nat.mul_comm]

/-- **C177** also in rounded arithmetic no task gets a sampler when the window starts at 1 or later (C25) -/
theorem C177_offset_window_false (R : Rounding K) (xs xe ys ye : ℤ) (hx : 1 ≤ xs ∧ xs < xe) (cnt num : ℕ) (hn : num < cnt) (s : Strat K) :
    s.subR R xs xe ys ye num cnt = none := by
  obtain ⟨h1, h2, h3⟩ := tileLoop_spec (xe - xs).toNat (ye - ys).toNat cnt 1 (by omega) (by omega)
  have hmod : num % (tileLoop (xe - xs).toNat (ye - ys).toNat cnt 1).1 <
    (tileLoop (xe - xs).toNat (ye - ys).toNat cnt 1).1 := Nat.mod_lt _ h2
  unfold Strat.subR
  apply if_pos
  left
  simp only [subwindowR]
  set t := tileLoop (xe - xs).toNat (ye - ys).toNat cnt 1 with ht
  have c : ∀ k ≤ t.1, clip (R.div (k : K) t.1) (xs : K) (xe : K) = xs := fun k hk => by
    have b : R.div (k : K) t.1 ≤ 1 := R.div_le_one (Nat.cast_nonneg k) (by exact_mod_cast hk)
    have : (1 : K) ≤ xs := by exact_mod_cast hx.1
    have h' : (xs : K) ≤ xe := by exact_mod_cast hx.2.le
    rw [clip, max_eq_right (by linarith), min_eq_left h']
  rw [c _ (by omega), c _ (by omega)]

/-! ### Powers of two -/

theorem tileLoop_pow (dx dy m b : ℕ) : ∃ a c : ℕ, tileLoop dx dy (2 ^ m) (2 ^ b) = (2 ^ a, 2 ^ c) ∧ a + c = m + b := by
  induction m generalizing b with
  | zero => rw [tileLoop, dif_neg (by simp)]; exact ⟨0, b, rfl, rfl⟩
  | succ m ih =>
    rw [tileLoop]
    split_ifs with h
    · rw [pow_succ, Nat.mul_div_cancel _ (by norm_num), ← pow_succ]
      obtain ⟨a, c, h1, h2⟩ := ih (b + 1)
      exact ⟨a, c, h1, by omega⟩
    · exact ⟨m + 1, b, rfl, rfl⟩

variable [FloorRing K]

theorem double_frac (n : ℤ) (a : ℕ) (hn : |n| ≤ 2 ^ 53) (ha : a ≤ 1074) : double ((n : K) / 2 ^ a) = n / 2 ^ a := by
  refine double_of_isDouble ⟨n, -(a : ℤ), hn, by omega, ?_⟩
  rw [zpow_neg, zpow_natCast, div_eq_mul_inv]

theorem borderR_pow (x y : ℤ) (hx : |x| ≤ 2 ^ 26) (hy : |y| ≤ 2 ^ 26) (a : ℕ) (ha : a ≤ 26) (k : ℕ) (hk : k ≤ 2 ^ a) :
    borderR (ieee : Rounding K) x y (2 ^ a) k = lerp ((k : K) / 2 ^ a) x y := by
  have p0 : (0 : K) < 2 ^ a := by positivity
  have pz : (2 : ℤ) ^ a ≤ 2 ^ 26 := pow_le_pow_right₀ (by norm_num) ha
  have kz : (k : ℤ) ≤ 2 ^ a := by exact_mod_cast hk
  have k0 : (0 : ℤ) ≤ k := Int.natCast_nonneg k
  have big : ∀ m z : ℤ, 0 ≤ m → m ≤ 2 ^ a → |z| ≤ 2 ^ 26 → |m * z| ≤ 2 ^ 52 := fun m z h1 h2 h3 => by
    rw [abs_mul, abs_of_nonneg h1]
    calc m * |z| ≤ 2 ^ 26 * 2 ^ 26 := mul_le_mul (h2.trans pz) h3 (abs_nonneg _) (by norm_num)
      _ = 2 ^ 52 := by norm_num
  have d1 : (ieee : Rounding K).div (k : K) ((2 ^ a : ℕ) : K) = k / 2 ^ a := by
    have := double_frac (K := K) k a (abs_le.2 ⟨by omega, by omega⟩) (by omega)
    push_cast at this ⊢
    exact this
  have d2 : (ieee : Rounding K).sub' 1 ((k : K) / 2 ^ a) = ((2 ^ a - k : ℤ) : K) / 2 ^ a := by
    have := double_frac (K := K) (2 ^ a - k) a (abs_le.2 ⟨by omega, by omega⟩) (by omega)
    rw [← this]
    change double (1 - (k : K) / 2 ^ a) = _
    congr 1
    push_cast; field_simp
  have d3 : (ieee : Rounding K).mul (((2 ^ a - k : ℤ) : K) / 2 ^ a) x = (((2 ^ a - k) * x : ℤ) : K) / 2 ^ a := by
    have := double_frac (K := K) ((2 ^ a - k) * x) a ((big _ _ (by omega) (by omega) hx).trans (by norm_num)) (by omega)
    rw [← this]
    change double _ = _
    congr 1
    push_cast; ring
  have d4 : (ieee : Rounding K).mul ((k : K) / 2 ^ a) y = ((k * y : ℤ) : K) / 2 ^ a := by
    have := double_frac (K := K) (k * y) a ((big _ _ k0 kz hy).trans (by norm_num)) (by omega)
    rw [← this]
    change double _ = _
    congr 1
    push_cast; ring
  have d5 : (ieee : Rounding K).add ((((2 ^ a - k) * x : ℤ) : K) / 2 ^ a) (((k * y : ℤ) : K) / 2 ^ a) = ((((2 ^ a - k) * x + k * y : ℤ)) : K) / 2 ^ a := by
    have := double_frac (K := K) ((2 ^ a - k) * x + k * y) a (by
      have h1 := big (2 ^ a - k) x (by omega) (by omega) hx
      have h2 := big k y k0 kz hy
      have := abs_add_le ((2 ^ a - k) * x) (k * y)
      norm_num at h1 h2 this ⊢
      linarith) (by omega)
    rw [← this]
    change double _ = _
    congr 1
    push_cast; ring
  rw [borderR, lerpR, d1, d2, d3, d4, d5, lerp]
  push_cast
  field_simp

/-- **C177** for a number of tasks that is a power of two (up to `2^26`, coordinates up to `2^26`) the task samplers are computed without any rounding error, so everything
that C25 says of exact windows holds for the windows computed in binary64. -/
theorem C177_power_of_two_tasks (xs xe ys ye : ℤ) (hx : xs ≤ 0 ∧ 1 ≤ xe) (hy : ys ≤ 0 ∧ 1 ≤ ye) (bx : |xs| ≤ 2 ^ 26 ∧ |xe| ≤ 2 ^ 26) (bY : |ys| ≤ 2 ^ 26 ∧ |ye| ≤ 2 ^ 26)
    (m : ℕ) (hm : m ≤ 26) (num : ℕ) (hn : num < 2 ^ m) (s : Strat K) :
    subwindowR (ieee : Rounding K) xs xe ys ye num (2 ^ m) = subwindow xs xe ys ye num (2 ^ m) ∧
    s.subR ieee xs xe ys ye num (2 ^ m) = s.sub xs xe ys ye num (2 ^ m) := by
  have e : subwindowR (ieee : Rounding K) xs xe ys ye num (2 ^ m) = subwindow xs xe ys ye num (2 ^ m) := by
    rw [subwindowR_eq _ xs xe ys ye hx hy num _ hn, subwindow_eq xs xe ys ye hx hy num _ hn]
    obtain ⟨h1, h2, h3⟩ := tileLoop_spec (xe - xs).toNat (ye - ys).toNat (2 ^ m) 1 (by positivity) (by omega)
    obtain ⟨a, c, ht, hac⟩ := tileLoop_pow (xe - xs).toNat (ye - ys).toNat m 0
    rw [pow_zero] at ht
    simp only
    rw [ht] at h1 h2 h3 ⊢
    simp only at h1 h2 h3 ⊢
    have hmod : num % 2 ^ a < 2 ^ a := Nat.mod_lt _ h2
    have hdiv : num / 2 ^ a < 2 ^ c := Nat.div_lt_of_lt_mul (by omega)
    rw [borderR_pow xs xe bx.1 bx.2 a (by omega) _ (by omega), borderR_pow xs xe bx.1 bx.2 a (by omega) _ (by omega),
      borderR_pow ys ye bY.1 bY.2 c (by omega) _ (by omega), borderR_pow ys ye bY.1 bY.2 c (by omega) _ (by omega)]
    simp only [lerp]
    refine Prod.ext ?_ (Prod.ext ?_ (Prod.ext ?_ ?_)) <;> simp only <;> push_cast <;> ring
  refine ⟨e, ?_⟩
  simp only [Strat.subR, Strat.sub, e]

/-- **C177** end to end: with `2^m` tasks whose tile counts divide the image size, the sampler of task `num`, computed in binary64, has a window of whole pixels, and its scan,
also in binary64, fills a complete batch for each pixel of this window in turn and then stops. -/
theorem C177_task_scan (xs xe ys ye : ℤ) (hx : xs ≤ 0 ∧ 1 ≤ xe) (hy : ys ≤ 0 ∧ 1 ≤ ye) (bx : |xs| ≤ 2 ^ 26 ∧ |xe| ≤ 2 ^ 26) (bY : |ys| ≤ 2 ^ 26 ∧ |ye| ≤ 2 ^ 26)
    (m : ℕ) (hm : m ≤ 26) (num : ℕ) (hn : num < 2 ^ m)
    (hdiv : ((tileLoop (xe - xs).toNat (ye - ys).toNat (2 ^ m) 1).1 : ℤ) ∣ xe - xs ∧ ((tileLoop (xe - xs).toNat (ye - ys).toNat (2 ^ m) 1).2 : ℤ) ∣ ye - ys)
    (s : Strat K) (hcnt : max s.xSamples 1 * max s.ySamples 1 ≤ 2 ^ 53) (r : Rand K) (hr : UnitDraws r) (hs : Shuffles r) (inp : ℕ → List (Sample K)) (st : RS)
    (hin : ∀ k, (inp k).length = max s.xSamples 1 * max s.ySamples 1 ∧
      ∀ p ∈ inp k, (p.oneD.length = p.n1D.length ∧ ∀ n ∈ p.n1D, n ≤ 2 ^ 53) ∧ (p.twoD.length = p.n2D.length ∧ ∀ n ∈ p.n2D, n ≤ 2 ^ 53)) :
    ∃ (x0 y0 : ℤ) (w h : ℕ) (s0 : Strat K), 0 < w ∧ 0 < h ∧ s.subR ieee xs xe ys ye num (2 ^ m) = some s0 ∧
      (subwindowR (ieee : Rounding K) xs xe ys ye num (2 ^ m)) = ((x0 : K), ((x0 + w : ℤ) : K), (y0 : K), ((y0 + h : ℤ) : K)) ∧
      ∃ (bs : List (List (Sample K))) (s' : Strat K) (st' : RS), scanR ieee r inp (w * h) s0 st = some (bs, s', st') ∧ bs.length = w * h ∧
        (∀ k < w * h, ∃ out : List (Sample K), bs[k]? = some out ∧ out.length = max s.xSamples 1 * max s.ySamples 1 ∧
          NearBatch ieee s0 ((x0 + (k % w : ℕ) : ℤ) : K) ((y0 + (k / w : ℕ) : ℤ) : K) (inp k) out) ∧
        (∀ l st'', s'.generateR ieee r l st'' = .stop) := by
  obtain ⟨e1, e2⟩ := C177_power_of_two_tasks (K := K) xs xe ys ye hx hy bx bY m hm num hn s
  obtain ⟨x0, y0, w, h, hw, hh, f1, f2⟩ := C25_whole_pixels_partial (K := K) xs xe ys ye hx hy (2 ^ m) num hn hdiv s
  have tl := (C177_tiling (ieee : Rounding K) xs xe ys ye hx hy ⟨by have := (abs_le.1 bx.1).1; omega, by have := (abs_le.1 bx.2).2; omega⟩
    ⟨by have := (abs_le.1 bY.1).1; omega, by have := (abs_le.1 bY.2).2; omega⟩ (2 ^ m) (by positivity)).1 num hn
  rw [e1, f1] at tl
  have c1 := tl ((x0 : ℤ) : K) ((y0 : ℤ) : K) ⟨le_rfl, by simp; exact_mod_cast hw, le_rfl, by simp; exact_mod_cast hh⟩
  have c2 := tl ((x0 + w - 1 : ℤ) : K) ((y0 + h - 1 : ℤ) : K) ⟨by simp only; exact_mod_cast (by omega), by simp only; exact_mod_cast (by omega), by simp only; exact_mod_cast (by omega), by simp only; exact_mod_cast (by omega)⟩
  obtain ⟨c11, -, c13, -⟩ := c1
  obtain ⟨-, c22, -, c24⟩ := c2
  simp only at c11 c13 c22 c24
  have g1 : xs ≤ x0 := by exact_mod_cast c11
  have g2 : ys ≤ y0 := by exact_mod_cast c13
  have g3 : x0 + w - 1 < xe := by exact_mod_cast c22
  have g4 : y0 + h - 1 < ye := by exact_mod_cast c24
  have b1 := abs_le.1 bx.1; have b2 := abs_le.1 bx.2; have b3 := abs_le.1 bY.1; have b4 := abs_le.1 bY.2
  refine ⟨x0, y0, w, h, _, hw, hh, by rw [e2, f2], by rw [e1, f1], ?_⟩
  exact C177_scan ieee r hr hs x0 y0 w h hw hh ⟨by omega, by omega⟩ ⟨by omega, by omega⟩ s.xSamples s.ySamples hcnt s.jitter s.sOpen s.sClose inp st hin

/-! ### Pixels -/

/-- **C177** a sample generated for a pixel of the film reaches this pixel, if the filter is at least a pixel wide (half-widths of `1/2` or more): sampler and film agree on
where pixels are, in spite of the rounding on both sides -/
theorem C177_own_pixel (f : Film.Film K) (hf : Film.Fits f) (hw : 1 / 2 ≤ f.filt.xw ∧ 1 / 2 ≤ f.filt.yw) (i j : ℕ) (hi : i < f.xCnt) (hj : j < f.yCnt)
    (bx : f.xStart + f.xCnt ≤ 2 ^ 52) (bY : f.yStart + f.yCnt ≤ 2 ^ 52)
    (s : Strat K) (k : ℕ) (inp out : Sample K)
    (h : NearFilled ieee s ((f.xStart + i : ℤ) : K) ((f.yStart + j : ℤ) : K) k inp out) :
    Film.Covers ieee f out.imageX out.imageY i j := by
  obtain ⟨⟨h1, h2⟩, h3, h4⟩ := h.pixel
  have hX : IsDouble out.imageX := by rw [← h.rep.1]; exact isDouble_double _
  have hY : IsDouble out.imageY := by rw [← h.rep.2]; exact isDouble_double _
  push_cast at h1 h2 h3 h4
  have a1 : ((f.xStart + i + 1 : ℤ) : K) ≤ ((2 ^ 52 : ℤ) : K) := by exact_mod_cast (show f.xStart + i + 1 ≤ 2 ^ 52 by omega)
  have a2 : ((f.yStart + j + 1 : ℤ) : K) ≤ ((2 ^ 52 : ℤ) : K) := by exact_mod_cast (show f.yStart + j + 1 ≤ 2 ^ 52 by omega)
  push_cast at a1 a2
  refine ((Film.C176_footprint f hf out.imageX out.imageY hX hY (h2.trans (by norm_num at a1 ⊢; exact a1)) (h4.trans (by norm_num at a2 ⊢; exact a2)) i j hi hj).1 ⟨?_, ?_⟩).1
  · have : |Film.off f.xStart i out.imageX| ≤ 1 / 2 := by rw [Film.off, abs_le]; constructor <;> linarith
    linarith [hw.1]
  · have : |Film.off f.yStart j out.imageY| ≤ 1 / 2 := by rw [Film.off, abs_le]; constructor <;> linarith
    linarith [hw.2]

/-! ### Times -/

/-- **C177** sample times in binary64: within `2^-51` of the larger shutter time (plus `2^-1073`) of the exact interpolation, which is in the shutter interval -/
theorem C177_time (t a b : K) (ht : IsDouble t) (h0 : 0 ≤ t) (h1 : t ≤ 1) (hab : a ≤ b) :
    abs (lerpR ieee t a b - ((1 - t) * a + t * b)) ≤ 2 ^ (-51 : ℤ) * max (abs a) (abs b) + 2 ^ (-1073 : ℤ) ∧
    a ≤ (1 - t) * a + t * b ∧ (1 - t) * a + t * b ≤ b := by
  refine ⟨?_, by nlinarith, by nlinarith⟩
  have one : IsDouble (1 : K) := ⟨1, 0, by norm_num, by norm_num, by simp⟩
  change |double (double (double (1 - t) * a) + double (t * b)) - _| ≤ _
  have e1 : |double (1 - t) - (1 - t)| ≤ 2 ^ (-53 : ℤ) * (1 - t) := by
    have := sub_err one ht; rwa [abs_of_nonneg (show (0 : K) ≤ 1 - t by linarith)] at this
  have d0 : 0 ≤ double (1 - t) := (ieee : Rounding K).rnd_nonneg (show (0 : K) ≤ 1 - t by linarith)
  have d1 : double (1 - t) ≤ 1 := (ieee : Rounding K).rnd_le (ieee : Rounding K).rep_one (show (1 : K) - t ≤ 1 by linarith)
  have e2 := double_err (double (1 - t) * a)
  have e3 := double_err (t * b)
  have e4 := add_err (isDouble_double (double (1 - t) * a)) (isDouble_double (t * b))
  have p2 : (2 : K) ^ (-1073 : ℤ) = 4 * 2 ^ (-1075 : ℤ) := by
    rw [show (-1073 : ℤ) = -1075 + 2 by norm_num, zpow_add₀ (by norm_num)]
    generalize (2 : K) ^ (-1075 : ℤ) = e
    norm_num; ring
  have pe : (0 : K) < 2 ^ (-1075 : ℤ) := two_zpow_pos _
  rw [p2]
  generalize (2 : K) ^ (-1075 : ℤ) = η at *
  generalize double (double (double (1 - t) * a) + double (t * b)) = s at *
  generalize double (double (1 - t) * a) = p at *
  generalize double (t * b) = q at *
  generalize double (1 - t) = d at *
  set M := max (abs a) (abs b) with hM
  have hMa : |a| ≤ M := le_max_left _ _
  have hMb : |b| ≤ M := le_max_right _ _
  have M0 : 0 ≤ M := (abs_nonneg a).trans hMa
  norm_num at e1 e2 e3 e4 ⊢
  rw [abs_of_nonneg d0] at e2
  rw [abs_of_nonneg h0] at e3
  have k1 : d * abs (a) ≤ d * M := mul_le_mul_of_nonneg_left hMa d0
  have k2 : t * abs (b) ≤ t * M := mul_le_mul_of_nonneg_left hMb h0
  have k3 : d * M ≤ (1 - t) * M + 1 / 9007199254740992 * M := by
    have : d ≤ (1 - t) + 1 / 9007199254740992 := by have := (abs_le.1 e1).2; linarith
    nlinarith
  have k4 : d * M ≤ M := by nlinarith
  have a1 : abs (d * a - (1 - t) * a) ≤ 1 / 9007199254740992 * M := by
    rw [← sub_mul, abs_mul]
    exact mul_le_mul (by linarith) hMa (abs_nonneg _) (by norm_num)
  have q1 : abs (p) ≤ abs (p - d * a) + d * abs (a) := by
    have := abs_add_le (p - d * a) (d * a); rwa [sub_add_cancel, abs_mul, abs_of_nonneg d0] at this
  have q2 : abs (q) ≤ abs (q - t * b) + t * abs (b) := by
    have := abs_add_le (q - t * b) (t * b); rwa [sub_add_cancel, abs_mul, abs_of_nonneg h0] at this
  have q3 : abs (p + q) ≤ abs (p) + abs (q) := abs_add_le _ _
  have fin : abs (s - ((1 - t) * a + t * b)) ≤ abs (s - (p + q)) + abs (p - d * a) + abs (q - t * b) + abs (d * a - (1 - t) * a) := by
    have h1 := abs_add_le (s - (p + q)) ((p - d * a) + (q - t * b) + (d * a - (1 - t) * a))
    have h2 := abs_add_le ((p - d * a) + (q - t * b)) (d * a - (1 - t) * a)
    have h3 := abs_add_le (p - d * a) (q - t * b)
    rw [show s - (p + q) + ((p - d * a) + (q - t * b) + (d * a - (1 - t) * a)) = s - ((1 - t) * a + t * b) by ring] at h1
    linarith
  have k5 : t * M ≤ M := by nlinarith
  have k6 : (1 - t) * M + t * M = M := by ring
  linarith

/-- **C177** a shutter that opens at time 0 (the default): the rounded times are exactly in the shutter interval, with every rounding -/
theorem C177_time_from_zero (R : Rounding K) (t b : K) (hb : R.Rep b) (hb0 : 0 ≤ b) (h0 : 0 ≤ t) (h1 : t ≤ 1) :
    0 ≤ lerpR R t 0 b ∧ lerpR R t 0 b ≤ b := by
  have z : R.mul (R.sub' 1 t) 0 = 0 := by rw [Rounding.mul, mul_zero]; exact R.rep_zero
  have i : lerpR R t 0 b = R.mul t b := by rw [lerpR, z, Rounding.add, zero_add, Rounding.mul, R.idem]
  rw [i]
  exact ⟨R.rnd_nonneg (mul_nonneg h0 hb0), R.rnd_le hb (by nlinarith)⟩

end

/-! ### Violations -/

/-- **C177 is violated** by 49 tasks on an image of 49 × 1 pixels: task 0 should get pixel 0, but its right border, computed in binary64, is `1 - 2^-53`; the scan steps over it
and never ends: after any number of calls of `generate` the next one still does not return `False`. -/
theorem C177_task_border_false (s : Strat ℚ) (r : Rand ℚ) (hr : UnitDraws r) (hs : Shuffles r) (hcnt : max s.xSamples 1 * max s.ySamples 1 ≤ 2 ^ 53)
    (inp : ℕ → List (Sample ℚ)) (st : RS) (hin : ∀ k, (inp k).length = max s.xSamples 1 * max s.ySamples 1 ∧
      ∀ p ∈ inp k, (p.oneD.length = p.n1D.length ∧ ∀ n ∈ p.n1D, n ≤ 2 ^ 53) ∧ (p.twoD.length = p.n2D.length ∧ ∀ n ∈ p.n2D, n ≤ 2 ^ 53)) :
    subwindow 0 49 0 1 0 49 = ((0 : ℚ), 1, 0, 1) ∧ subwindowR (ieee : Rounding ℚ) 0 49 0 1 0 49 = (0, 1 - 2 ^ (-53 : ℤ), 0, 1) ∧
    ∃ s0, s.subR (ieee : Rounding ℚ) 0 49 0 1 0 49 = some s0 ∧ ∀ n : ℕ, ∃ (bs : List (List (Sample ℚ))) (s' : Strat ℚ) (st' : RS),
      scanR ieee r inp n s0 st = some (bs, s', st') ∧ bs.length = n ∧ ∀ l st'', s'.generateR ieee r l st'' ≠ .stop := by
  have ht : tileLoop (49 - 0 : ℤ).toNat (1 - 0 : ℤ).toNat 49 1 = (49, 1) := by rw [tileLoop]; decide
  have i1 : IsDouble (1 : ℚ) := ⟨1, 0, by norm_num, by norm_num, by simp⟩
  have z : double (0 : ℚ) = 0 := double_zero
  have d1 : double (1 / 49 : ℚ) = 5882252574524729 * 2 ^ (-58 : ℤ) :=
    double_eq 5882252574524729 (-58) (by norm_num) (Or.inl (by norm_num [abs_lt])) (by norm_num) (by norm_num)
  have d2 : double (49 * (5882252574524729 * 2 ^ (-58 : ℤ)) : ℚ) = 1 - 2 ^ (-53 : ℤ) := by
    rw [double_eq (2 ^ 53 - 1) (-53) (by norm_num) (Or.inl (by norm_num [abs_lt])) (by norm_num) (by norm_num)]; norm_num
  have d3 : double (1 - 2 ^ (-53 : ℤ) : ℚ) = 1 - 2 ^ (-53 : ℤ) := double_of_isDouble ⟨2 ^ 53 - 1, -53, by norm_num, by norm_num, by norm_num⟩
  have e0 : subwindow 0 49 0 1 0 49 = ((0 : ℚ), 1, 0, 1) := by
    rw [subwindow_eq 0 49 0 1 (by norm_num) (by norm_num) 0 49 (by norm_num)]
    simp only [ht]; norm_num
  have e : subwindowR (ieee : Rounding ℚ) 0 49 0 1 0 49 = (0, 1 - 2 ^ (-53 : ℤ), 0, 1) := by
    rw [subwindowR_eq _ 0 49 0 1 (by norm_num) (by norm_num) 0 49 (by norm_num)]
    simp only [ht]
    have b1 : borderR (ieee : Rounding ℚ) 0 49 49 1 = 1 - 2 ^ (-53 : ℤ) := by
      have q1 : (ieee : Rounding ℚ).div ((1 : ℕ) : ℚ) ((49 : ℕ) : ℚ) = 5882252574524729 * 2 ^ (-58 : ℤ) := by
        rw [← d1]; change double _ = _; norm_num
      have q2 : ∀ x : ℚ, (ieee : Rounding ℚ).mul x ((0 : ℤ) : ℚ) = 0 := fun x => by
        change double _ = _; rw [Int.cast_zero, mul_zero, z]
      have q3 : (ieee : Rounding ℚ).mul (5882252574524729 * 2 ^ (-58 : ℤ)) ((49 : ℤ) : ℚ) = 1 - 2 ^ (-53 : ℤ) := by
        rw [← d2]; change double _ = _; rw [mul_comm]; norm_num
      rw [borderR, lerpR, q1, q2, q3]
      change double _ = _
      rw [zero_add, d3]
    have b0 := borderR_zero (ieee : Rounding ℚ) 0 49 49 (by norm_num)
    have c0 := borderR_zero (ieee : Rounding ℚ) 0 1 1 (by norm_num)
    have c1 := borderR_last (ieee : Rounding ℚ) 0 1 1 (by norm_num) (by norm_num)
    simp only [Int.cast_zero, Int.cast_one] at b0 c0 c1
    exact Prod.ext b0 (Prod.ext b1 (Prod.ext c0 c1))
  refine ⟨e0, e, _, by simp only [Strat.subR, e]; rw [if_neg (by norm_num)], fun n => ?_⟩
  obtain ⟨bs, s', st', h1, h2, -, h4⟩ := never_stopsR ieee r hr hs (Strat.mk' 0 (1 - 2 ^ (-53 : ℤ)) 0 1 s.xSamples s.ySamples s.jitter s.sOpen s.sClose) (by
    change (1 - 2 ^ (-53 : ℤ) : ℚ) < double (0 + 1)
    rw [zero_add, double_of_isDouble i1]; norm_num) ⟨rfl, rfl⟩ (by change (0 : ℚ) ≠ 1; norm_num) hcnt inp st hin n
  exact ⟨bs, s', st', h1, h2, h4⟩

/-- **C177 is violated** in the strict sense of C24: at pixel 1 the largest draw below 1 gives the position 2, in the next pixel -/
theorem C177_pixel_end_false : IsDouble (1 - 2 ^ (-53 : ℤ) : ℚ) ∧
    ((stratified2dR (ieee : Rounding ℚ) ⟨fun _ => 1 - 2 ^ (-53 : ℤ), fun _ l => l⟩ ⟨0, 0⟩ 1 1 true).1.map (fun p => ((ieee : Rounding ℚ).add p.1 1, (ieee : Rounding ℚ).add p.2 1)))
      = [(2, 2)] := by
  have i : IsDouble (1 - 2 ^ (-53 : ℤ) : ℚ) := ⟨2 ^ 53 - 1, -53, by norm_num, by norm_num, by norm_num⟩
  have d3 : (ieee : Rounding ℚ).rnd (1 - 2 ^ (-53 : ℤ) : ℚ) = 1 - 2 ^ (-53 : ℤ) := double_of_isDouble i
  have d4 : (ieee : Rounding ℚ).rnd (1 - 2 ^ (-53 : ℤ) + 1 : ℚ) = 2 := by
    change double _ = _
    rw [double_eq (2 ^ 53) (-52) (by norm_num) (Or.inr ⟨by norm_num, by decide⟩) (by norm_num) (by norm_num)]; norm_num
  refine ⟨i, ?_⟩
  generalize (1 - 2 ^ (-53 : ℤ) : ℚ) = v at *
  simp [stratified2dR, rng, strataR, tile, repeatEach, arange, List.range_succ, Rounding.add, Rounding.div, d3, d4]

/-- **C177 is violated** in the strict sense of C24: five samples without jitter and a shutter interval of length zero at time 3: one sample gets a time before the shutter opens -/
theorem C177_time_false : (ieee : Rounding ℚ).div ((ieee : Rounding ℚ).add 1 (1 / 2)) 5 = 5404319552844595 * 2 ^ (-54 : ℤ) ∧
    lerpR (ieee : Rounding ℚ) (5404319552844595 * 2 ^ (-54 : ℤ)) 3 3 = 3 - 2 ^ (-51 : ℤ) := by
  constructor
  · have : (ieee : Rounding ℚ).add 1 (1 / 2) = 3 / 2 := by
      change double _ = _
      rw [double_of_isDouble ⟨3, -1, by norm_num, by norm_num, by norm_num⟩]; norm_num
    rw [this]
    change double _ = _
    rw [double_eq 5404319552844595 (-54) (by norm_num) (Or.inl (by norm_num [abs_lt])) (by norm_num) (by norm_num)]; norm_num
  · have d1 : (ieee : Rounding ℚ).sub' 1 (5404319552844595 * 2 ^ (-54 : ℤ)) = 6305039478318694 * 2 ^ (-53 : ℤ) := by
      change double _ = _
      rw [double_eq 6305039478318694 (-53) (by norm_num) (Or.inr ⟨by norm_num, by decide⟩) (by norm_num) (by norm_num)]; norm_num
    have d2 : (ieee : Rounding ℚ).mul (6305039478318694 * 2 ^ (-53 : ℤ)) 3 = 4728779608739020 * 2 ^ (-51 : ℤ) := by
      change double _ = _
      rw [double_eq 4728779608739020 (-51) (by norm_num) (Or.inr ⟨by norm_num, by decide⟩) (by norm_num) (by norm_num)]; norm_num
    have d3 : (ieee : Rounding ℚ).mul (5404319552844595 * 2 ^ (-54 : ℤ)) 3 = 8106479329266892 * 2 ^ (-53 : ℤ) := by
      change double _ = _
      rw [double_eq 8106479329266892 (-53) (by norm_num) (Or.inr ⟨by norm_num, by decide⟩) (by norm_num) (by norm_num)]; norm_num
    rw [lerpR, d1, d2, d3]
    change double _ = _
    rw [double_of_isDouble ⟨6755399441055743, -51, by norm_num, by norm_num, by norm_num⟩]; norm_num

/-- a 4 × 2 image in two tasks meets the hypotheses of `C177_task_scan`, with one sample per pixel and two requested arrays -/
example : ((tileLoop (4 - 0 : ℤ).toNat (2 - 0 : ℤ).toNat (2 ^ 1) 1).1 : ℤ) ∣ 4 - 0 ∧ ((tileLoop (4 - 0 : ℤ).toNat (2 - 0 : ℤ).toNat (2 ^ 1) 1).2 : ℤ) ∣ 2 - 0 ∧
    SmallInput (Strat.mk' (0 : ℚ) 2 0 2 1 1 true 0 1) [⟨0, 0, 0, 0, 0, [4], [2, 3], [none], [none, none]⟩] := by
  have : tileLoop (4 - 0 : ℤ).toNat (2 - 0 : ℤ).toNat (2 ^ 1) 1 = (2, 1) := by rw [tileLoop]; decide
  rw [this]
  exact ⟨by decide, by decide, by simp [SmallInput, Strat.mk']⟩

end Verif.Sampler
