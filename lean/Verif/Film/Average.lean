import Verif.Film.Rounded
import Verif.Film.Image

/-! # The written picture in rounded arithmetic (C176) -/

namespace Verif.Film
open Verif.Rnd
set_option linter.unusedSectionVars false

section
variable {K : Type*} [Field K] [LinearOrder K] [IsStrictOrderedRing K] [FloorRing K]

/-! ### Histories -/

theorem reach_congr (R : Rounding K) (f g : Film K) (h : SameFrame f g) (i j : ℕ) (es : List (K × K × Vec K)) : reach R g i j es = reach R f i j es := by
  obtain ⟨a, b, c, d, e, t⟩ := h
  induction es with
  | nil => rfl
  | cons s es ih =>
    obtain ⟨X, Y, L⟩ := s
    have hc : Covers R g X Y i j = Covers R f X Y i j := by simp only [Covers, a, b, c, d, e]
    have hw : wtAt R g X Y i j = wtAt R f X Y i j := by simp only [wtAt, a, b, d, t]
    simp only [reach, ih, hw]
    by_cases h : Covers R f X Y i j
    · rw [if_pos h, if_pos (hc ▸ h)]
    · rw [if_neg h, if_neg (hc ▸ h)]

/-- a history never fails, and each pixel accumulates the samples that reach it, in order -/
theorem runR_spec (R : Rounding K) (es : List (K × K × Vec K)) (f : Film K) :
    ∃ f', runR R f es = some f' ∧ SameFrame f f' ∧ ∀ i j, f'.pix i j = (reach R f i j es).foldl (bump R) (f.pix i j) := by
  induction es generalizing f with
  | nil => exact ⟨f, rfl, ⟨rfl, rfl, rfl, rfl, rfl, rfl⟩, fun i j => rfl⟩
  | cons s es ih =>
    obtain ⟨X, Y, L⟩ := s
    obtain ⟨g, g1, g2, g3, -⟩ := C176_add_sample R f X Y L
    obtain ⟨h, h1, h2, h3⟩ := ih g
    refine ⟨h, by rw [runR, g1]; exact h1, ?_, fun i j => ?_⟩
    · obtain ⟨a, b, c, d, e, t⟩ := g2
      obtain ⟨a', b', c', d', e', t'⟩ := h2
      exact ⟨a'.trans a, b'.trans b, c'.trans c, d'.trans d, e'.trans e, t'.trans t⟩
    · rw [h3, reach_congr R f g g2, g3]
      simp only [reach]
      split_ifs <;> rfl

theorem bump_fold (R : Rounding K) (l : List (K × Vec K)) (p : Pixel K) :
    l.foldl (bump R) p = ⟨fun k => l.foldl (fun a s => R.add a (R.mul s.1 (rgb2xyzR R s.2 k))) (p.Lxyz k), p.splatXYZ, l.foldl (fun a s => R.add a s.1) p.w⟩ := by
  induction l generalizing p with
  | nil => rfl
  | cons s l ih => rw [List.foldl_cons, ih]; rfl

/-! ### No underflow -/

/-- zero, or at least `2^e` -/
def Low (e : ℤ) (x : K) : Prop := x = 0 ∨ 2 ^ e ≤ x

theorem Low.nonneg {e : ℤ} {x : K} (h : Low e x) : 0 ≤ x := by
  rcases h with rfl | h
  · exact le_rfl
  · exact (two_zpow_pos e).le.trans h

theorem double_pow (e : ℤ) (he : -1074 ≤ e) : double ((2 : K) ^ e) = 2 ^ e := double_of_isDouble ⟨1, e, by norm_num, he, by simp⟩

theorem Low.round {e : ℤ} (he : -1074 ≤ e) {x : K} (h : Low e x) : Low e (double x) := by
  rcases h with rfl | h
  · left; exact double_zero
  · right; rw [← double_pow e he]; exact double_mono h

theorem Low.add {e : ℤ} {x y : K} (h : Low e x) (h' : Low e y) : Low e (x + y) := by
  rcases h with rfl | h
  · rwa [zero_add]
  · right; linarith [h'.nonneg]

theorem Low.mul {e f : ℤ} {x y : K} (h : Low e x) (h' : Low f y) : Low (e + f) (x * y) := by
  rcases h with rfl | h
  · left; simp
  rcases h' with rfl | h'
  · left; simp
  · right; rw [zpow_add₀ two_ne_zero]; exact mul_le_mul h h' (two_zpow_pos _).le ((two_zpow_pos _).le.trans h)

theorem Low.mono {e f : ℤ} (hf : f ≤ e) {x : K} (h : Low e x) : Low f x := by
  rcases h with h | h
  · exact Or.inl h
  · exact Or.inr ((zpow_le_zpow_right₀ (by norm_num) hf).trans h)

theorem Low.normal {e : ℤ} (he : -1022 ≤ e) {x : K} (h : Low e x) : Normal x := by
  rcases h with h | h
  · exact Or.inl h
  · refine Or.inr (le_trans (zpow_le_zpow_right₀ (by norm_num) he) (h.trans (le_abs_self x)))

theorem Normal.neg {x : K} (h : Normal x) : Normal (-x) := by
  rcases h with h | h
  · left; rw [h, neg_zero]
  · right; rwa [abs_neg]

theorem dec_low (n : ℤ) (hn : 15625 ≤ n) : Low (-6) (dec (ieee (K := K)) n) := by
  refine Low.round (by norm_num) (Or.inr ?_)
  have : (15625 : K) ≤ n := by exact_mod_cast hn
  rw [le_div_iff₀ (by norm_num)]; norm_num; linarith

theorem dec_err (n : ℤ) (hn : 15625 ≤ n) : Err 1 (dec (ieee (K := K)) n) ((n : K) / 1000000) ((n : K) / 1000000) := by
  have h1 : (15625 : K) ≤ n := by exact_mod_cast hn
  have h := Err.refl ((n : K) / 1000000)
  rw [abs_of_nonneg (by positivity)] at h
  refine h.round (Low.normal (e := -6) (by norm_num) (Or.inr ?_))
  rw [le_div_iff₀ (by norm_num)]; norm_num; linarith

theorem dec_double (n : ℤ) : IsDouble (dec (ieee (K := K)) n) := isDouble_double _

/-! ### Colour conversion -/

/-- a row of `rgb2xyz` -/
theorem row_err (a b c : ℤ) (ha : 15625 ≤ a) (hb : 15625 ≤ b) (hc : 15625 ≤ c) (L : Vec K) (hL : ∀ k, Low (-500) (L k)) :
    let v := (ieee (K := K)).add (ieee.add (ieee.mul (dec ieee a) (L 0)) (ieee.mul (dec ieee b) (L 1))) (ieee.mul (dec ieee c) (L 2))
    let x := (a : K) / 1000000 * L 0 + (b : K) / 1000000 * L 1 + (c : K) / 1000000 * L 2
    Err 4 v x x ∧ Low (-506) v := by
  have t : ∀ (n : ℤ) (k : Fin 3), 15625 ≤ n → Err 2 (double (dec ieee n * L k)) ((n : K) / 1000000 * L k) ((n : K) / 1000000 * L k) ∧
      Low (-506) (double (dec ieee n * L k)) := by
    intro n k hn
    have hl : Low (-506) (dec ieee n * L k) := (dec_low n hn).mul (hL k)
    have h := (dec_err n hn).mul (Err.refl (L k))
    rw [abs_of_nonneg (hL k).nonneg] at h
    exact ⟨h.round (hl.normal (by norm_num)), hl.round (by norm_num)⟩
  obtain ⟨a1, a2⟩ := t a 0 ha
  obtain ⟨b1, b2⟩ := t b 1 hb
  obtain ⟨c1, c2⟩ := t c 2 hc
  have s1 := a1.radd b1 (isDouble_double _) (isDouble_double _)
  have s2 := s1.radd (c1.mono (l := 3) (by norm_num) le_rfl) (isDouble_double _) (isDouble_double _)
  exact ⟨s2, (((a2.add b2).round (by norm_num)).add c2).round (by norm_num)⟩

theorem xyz_err (L : Vec K) (hL : ∀ k, Low (-500) (L k)) (k : Fin 3) :
    Err 4 (rgb2xyzR ieee L k) (rgb2xyz L k) (rgb2xyz L k) ∧ Low (-506) (rgb2xyzR ieee L k) := by
  have h0 := row_err 412453 357580 180423 (by norm_num) (by norm_num) (by norm_num) L hL
  have h1 := row_err 212671 715160 72169 (by norm_num) (by norm_num) (by norm_num) L hL
  have h2 := row_err 19334 119193 950227 (by norm_num) (by norm_num) (by norm_num) L hL
  fin_cases k
  · simpa [rgb2xyzR, rgb2xyz] using h0
  · simpa [rgb2xyzR, rgb2xyz] using h1
  · simpa [rgb2xyzR, rgb2xyz] using h2

/-- the magnitudes of the terms of `xyz2rgb` -/
def absRgb (c : Vec K) : Vec K :=
  ![3240479 / 1000000 * c 0 + 1537150 / 1000000 * c 1 + 498535 / 1000000 * c 2,
    969256 / 1000000 * c 0 + 1875991 / 1000000 * c 1 + 41556 / 1000000 * c 2,
    55648 / 1000000 * c 0 + 204043 / 1000000 * c 1 + 1057311 / 1000000 * c 2]

theorem rgb_err (n : ℕ) (T E : Vec K) (hT : ∀ k, Err n (T k) (E k) (E k)) (hl : ∀ k, Low (-1006) (T k)) (k : Fin 3) :
    Err (n + 4) (xyz2rgbR ieee T k) (xyz2rgb E k) (absRgb E k) := by
  have t : ∀ (m : ℤ) (k : Fin 3), 15625 ≤ m → Err (n + 2) (double (dec ieee m * T k)) ((m : K) / 1000000 * E k) ((m : K) / 1000000 * E k) := by
    intro m k hm
    have hn : Low (-1012) (dec ieee m * T k) := (dec_low m hm).mul (hl k)
    have h := ((dec_err m hm).mul (hT k)).round (hn.normal (by norm_num))
    rwa [show 1 + n + 1 = n + 2 by ring] at h
  have m1 : ∀ {xc x A : K}, Err (n + 2) xc x A → Err (n + 3) xc x A := fun h => h.mono (by omega) le_rfl
  fin_cases k
  · have := ((t 3240479 0 (by norm_num)).rsub (t 1537150 1 (by norm_num)) (isDouble_double _) (isDouble_double _)).rsub
      (m1 (t 498535 2 (by norm_num))) (isDouble_double _) (isDouble_double _)
    push_cast at this
    exact this
  · have hneg : double (-dec ieee 969256 * T 0) = -double (dec ieee 969256 * T 0) := by rw [neg_mul, double_neg]
    have h0 := (t 969256 0 (by norm_num)).neg
    rw [← hneg] at h0
    have := (h0.radd (t 1875991 1 (by norm_num)) (isDouble_double _) (isDouble_double _)).radd
      (m1 (t 41556 2 (by norm_num))) (isDouble_double _) (isDouble_double _)
    push_cast at this
    rw [← neg_mul] at this
    exact this
  · have := ((t 55648 0 (by norm_num)).rsub (t 204043 1 (by norm_num)) (isDouble_double _) (isDouble_double _)).radd
      (m1 (t 1057311 2 (by norm_num))) (isDouble_double _) (isDouble_double _)
    push_cast at this
    exact this


/-! ### Sums -/

/-- the exact sums of weights and of weighted XYZ colours -/
def sumW (l : List (K × Vec K)) : K := (l.map Prod.fst).sum
def sumXYZ (l : List (K × Vec K)) (k : Fin 3) : K := (l.map (fun s => s.1 * rgb2xyz s.2 k)).sum

theorem fold_low (l : List (K × Vec K)) (t : K × Vec K → K) (e : ℤ) (he : -1074 ≤ e) (h : ∀ s ∈ l, Low e (t s)) (a : K) (ha : Low e a) :
    Low e (l.foldl (fun a s => double (a + t s)) a) := by
  induction l generalizing a with
  | nil => exact ha
  | cons s l ih => exact ih (fun x hx => h x (by simp [hx])) _ ((ha.add (h s (by simp))).round he)

theorem sums_err (l : List (K × Vec K)) (hw : ∀ s ∈ l, IsDouble s.1 ∧ Low (-500) s.1) (hL : ∀ s ∈ l, ∀ k, Low (-500) (s.2 k))
    (p : Pixel K) (hp : p = l.foldl (bump ieee) ⟨0, 0, 0⟩) :
    (Err l.length p.w (sumW l) (sumW l) ∧ Low (-500) p.w) ∧
    ∀ k, Err (5 + l.length) (p.Lxyz k) (sumXYZ l k) (sumXYZ l k) ∧ Low (-1006) (p.Lxyz k) := by
  have hz : IsDouble (0 : K) := ⟨0, 0, by norm_num, by norm_num, by simp⟩
  rw [bump_fold] at hp
  subst hp
  refine ⟨⟨?_, fold_low l _ _ (by norm_num) (fun s hs => (hw s hs).2) 0 (Or.inl rfl)⟩, fun k => ⟨?_, ?_⟩⟩
  · have := (Err.sum l Prod.fst Prod.fst Prod.fst 0 (fun s hs => by
      have := Err.refl s.1; rwa [abs_of_nonneg (hw s hs).2.nonneg] at this) (fun s hs => (hw s hs).1) 0 0 0 0 le_rfl (Err.zero 0) hz).1
    rw [zero_add, zero_add] at this
    exact this
  · have := (Err.sum l (fun s => double (s.1 * rgb2xyzR ieee s.2 k)) (fun s => s.1 * rgb2xyz s.2 k) (fun s => s.1 * rgb2xyz s.2 k) 5 (fun s hs => by
      have h0 := Err.refl s.1
      rw [abs_of_nonneg (hw s hs).2.nonneg] at h0
      have h1 := xyz_err s.2 (hL s hs) k
      have h2 : Low (-1006) (s.1 * rgb2xyzR ieee s.2 k) := (hw s hs).2.mul h1.2
      have := (h0.mul h1.1).round (h2.normal (by norm_num))
      exact this) (fun s hs => isDouble_double _) 5 0 0 0 le_rfl (Err.zero 5) hz).1
    rw [zero_add] at this
    exact this
  · exact fold_low l (fun s => double (s.1 * rgb2xyzR ieee s.2 k)) _ (by norm_num) (fun s hs => by
      have h1 := xyz_err s.2 (hL s hs) k
      have h2 : Low (-1006) (s.1 * rgb2xyzR ieee s.2 k) := (hw s hs).2.mul h1.2
      exact h2.round (by norm_num)) 0 (Or.inl rfl)

/-- **C176** the sums of a pixel in binary64: after `n` samples with non-negative weights and colours (floats, none of them a positive number below `2^-500`) reached a blank
pixel, its weight is the exact sum up to a factor `1 ± n · 2^-52`, and each colour sum is the exact one up to a factor `1 ± (n + 5) · 2^-52`. -/
theorem C176_sums (l : List (K × Vec K)) (hn : l.length ≤ 2 ^ 40) (hw : ∀ s ∈ l, IsDouble s.1 ∧ Low (-500) s.1) (hL : ∀ s ∈ l, ∀ k, Low (-500) (s.2 k))
    (p : Pixel K) (hp : p = l.foldl (bump ieee) ⟨0, 0, 0⟩) :
    |p.w - sumW l| ≤ l.length * 2 ^ (-52 : ℤ) * sumW l ∧
    ∀ k, |p.Lxyz k - sumXYZ l k| ≤ (l.length + 5) * 2 ^ (-52 : ℤ) * sumXYZ l k := by
  obtain ⟨h1, h2⟩ := sums_err l hw hL p hp
  refine ⟨h1.1.rel (by omega), fun k => ?_⟩
  have := (h2 k).1.rel (by omega)
  push_cast at this
  rwa [add_comm (l.length : K)]


/-! ### The picture -/

theorem sumXYZ_le (l : List (K × Vec K)) (M : K) (hw : ∀ s ∈ l, 0 ≤ s.1) (hL : ∀ s ∈ l, ∀ k, 0 ≤ s.2 k ∧ s.2 k ≤ M) (k : Fin 3) :
    absRgb (sumXYZ l) k ≤ 6 * M * sumW l := by
  have key : sumXYZ l 0 ≤ 950456 / 1000000 * M * sumW l ∧ sumXYZ l 1 ≤ M * sumW l ∧ sumXYZ l 2 ≤ 1088754 / 1000000 * M * sumW l ∧ 0 ≤ M * sumW l := by
    induction l with
    | nil => simp [sumXYZ, sumW]
    | cons s l ih =>
      obtain ⟨a, b, c, d⟩ := ih (fun x hx => hw x (by simp [hx])) (fun x hx => hL x (by simp [hx]))
      have w0 := hw s (by simp)
      have l0 := hL s (by simp) 0
      have l1 := hL s (by simp) 1
      have l2 := hL s (by simp) 2
      have hM : 0 ≤ M := l0.1.trans l0.2
      simp only [sumXYZ, sumW, List.map_cons, List.sum_cons] at *
      have q0 : s.1 * rgb2xyz s.2 0 ≤ s.1 * (950456 / 1000000 * M) := mul_le_mul_of_nonneg_left (by simp [rgb2xyz]; linarith) w0
      have q1 : s.1 * rgb2xyz s.2 1 ≤ s.1 * M := mul_le_mul_of_nonneg_left (by simp [rgb2xyz]; linarith) w0
      have q2 : s.1 * rgb2xyz s.2 2 ≤ s.1 * (1088754 / 1000000 * M) := mul_le_mul_of_nonneg_left (by simp [rgb2xyz]; linarith) w0
      have := mul_nonneg hM w0
      exact ⟨by linarith, by linarith, by linarith, by linarith⟩
  obtain ⟨a, b, c, d⟩ := key
  fin_cases k <;> simp [absRgb] <;> linarith

/-- a rounded quotient of two approximations -/
theorem quot_err (N : ℕ) (hN : 9 ≤ N) (hN2 : N ≤ 2 ^ 41) (xc x A wc w : K) (h : Err N xc x A) (hw : Err N wc w w) (hw0 : 0 < w) :
    |double (xc / wc) - x / w| ≤ 6 * N * uu * (A / w) + 2 ^ (-1075 : ℤ) := by
  have u0 := uu_pos (K := K)
  have hA := h.nonneg
  set ε : K := 2 * N * uu with hε
  have hN' : (9 : K) ≤ N := by exact_mod_cast hN
  have e0 : 0 ≤ ε := by positivity
  have e1 : ε ≤ 1 / 4 := by
    have : (N : K) ≤ 2 ^ 41 := by exact_mod_cast hN2
    rw [hε, uu_eq]
    calc 2 * (N : K) * (1 / 2 ^ 53) ≤ 2 * 2 ^ 41 * (1 / 2 ^ 53) := by
          apply mul_le_mul_of_nonneg_right _ (by positivity); linarith
      _ ≤ 1 / 4 := by norm_num
  have g := g_le (K := K) N (by omega)
  have h1 : |xc - x| ≤ ε * A := h.1.trans (mul_le_mul_of_nonneg_right g hA)
  have h2 : |wc - w| ≤ ε * w := hw.1.trans (mul_le_mul_of_nonneg_right g hw0.le)
  have hwc : 3 / 4 * w ≤ wc := by rw [abs_le] at h2; nlinarith
  have hwc0 : 0 < wc := by linarith
  have q : |xc / wc - x / w| ≤ 8 / 3 * ε * (A / w) := by
    rw [div_sub_div _ _ hwc0.ne' hw0.ne', abs_div, abs_of_pos (mul_pos hwc0 hw0), div_le_iff₀ (mul_pos hwc0 hw0)]
    have e : xc * w - wc * x = (xc - x) * w - x * (wc - w) := by ring
    have b : |xc * w - wc * x| ≤ 2 * ε * A * w := by
      rw [e]
      refine (abs_sub _ _).trans ?_
      rw [abs_mul, abs_mul, abs_of_pos hw0]
      have b1 := mul_le_mul_of_nonneg_right h1 hw0.le
      have b2 := mul_le_mul h.2 h2 (abs_nonneg _) hA
      linarith
    refine b.trans ?_
    have : 8 / 3 * ε * (A / w) * (wc * w) = 8 / 3 * ε * A * wc := by field_simp
    rw [this]
    have := mul_le_mul_of_nonneg_left hwc (mul_nonneg e0 hA)
    linarith
  have hq0 : |x / w| ≤ A / w := by
    rw [abs_div, abs_of_pos hw0]; exact div_le_div_of_nonneg_right h.2 hw0.le
  have hAw : 0 ≤ A / w := div_nonneg hA hw0.le
  have q2 : |xc / wc| ≤ 5 / 3 * (A / w) := by
    have := abs_add_le (xc / wc - x / w) (x / w)
    rw [sub_add_cancel] at this
    nlinarith [mul_le_mul_of_nonneg_right e1 hAw]
  have d := double_err (xc / wc)
  have tr : |double (xc / wc) - x / w| ≤ |double (xc / wc) - xc / wc| + |xc / wc - x / w| := by
    have := abs_add_le (double (xc / wc) - xc / wc) (xc / wc - x / w); rwa [sub_add_sub_cancel] at this
  change _ ≤ uu * _ + _ at d
  have d2 := mul_le_mul_of_nonneg_left q2 u0.le
  have f1 : 5 / 3 * uu * (A / w) + 8 / 3 * ε * (A / w) ≤ 6 * N * uu * (A / w) := by
    rw [hε, ← add_mul]
    refine mul_le_mul_of_nonneg_right ?_ hAw
    nlinarith [mul_le_mul_of_nonneg_right hN' u0.le]
  linarith

theorem xyz2rgbR_zero : xyz2rgbR (ieee (K := K)) 0 = 0 := by
  have h : ∀ x : K, (ieee (K := K)).mul x 0 = 0 := fun x => by
    show double (x * 0) = 0
    rw [mul_zero, double_zero]
  have h2 : (ieee (K := K)).add 0 0 = 0 := by show double ((0 : K) + 0) = 0; rw [add_zero, double_zero]
  have h3 : (ieee (K := K)).sub' 0 0 = 0 := by show double ((0 : K) - 0) = 0; rw [sub_zero, double_zero]
  funext k
  fin_cases k <;> simp [xyz2rgbR, h, h2, h3]

theorem rt_sum (l : List (K × Vec K)) (k : Fin 3) : xyz2rgb (sumXYZ l) k = (l.map (fun s => s.1 * rt s.2 k)).sum := by
  induction l with
  | nil =>
    have : sumXYZ ([] : List (K × Vec K)) = 0 := by funext k; rfl
    rw [this, xyz2rgb_zero]; rfl
  | cons s l ih =>
    have : sumXYZ (s :: l) = s.1 • rgb2xyz s.2 + sumXYZ l := by funext k; simp [sumXYZ]
    rw [this, xyz2rgb_add, xyz2rgb_smul, Pi.add_apply, ih]
    simp [rt]

/-- the written value of a pixel that accumulated the samples `l` -/
theorem pixel_err (f : Film K) (i j : ℕ) (l : List (K × Vec K)) (hf : f.pix i j = l.foldl (bump ieee) ⟨0, 0, 0⟩)
    (hn : l.length ≤ 2 ^ 40) (M : K) (hw : ∀ s ∈ l, IsDouble s.1 ∧ Low (-500) s.1) (hL : ∀ s ∈ l, ∀ k, Low (-500) (s.2 k) ∧ s.2 k ≤ M)
    (h0 : sumW l ≠ 0) (scale : K) (k : Fin 3) :
    |imageRgbR ieee f scale j i k - max 0 ((l.map (fun s => s.1 * rt s.2 k)).sum / sumW l)| ≤ (l.length + 9) * 2 ^ (-47 : ℤ) * M + 2 ^ (-1075 : ℤ) := by
  have hL1 : ∀ s ∈ l, ∀ k, Low (-500) (s.2 k) := fun s hs k => (hL s hs k).1
  obtain ⟨⟨w1, w2⟩, c⟩ := sums_err l hw hL1 _ hf
  have hW : 0 < sumW l := by
    refine lt_of_le_of_ne (List.sum_nonneg ?_) (Ne.symm h0)
    intro x hx
    obtain ⟨s, hs, rfl⟩ := List.mem_map.1 hx
    exact (hw s hs).2.nonneg
  set N := l.length + 9 with hN
  have r := (rgb_err (5 + l.length) _ _ (fun k => (c k).1) (fun k => (c k).2) k).mono (l := N) (by omega) le_rfl
  have ww := w1.mono (l := N) (by omega) le_rfl
  have q := quot_err N (by omega) (by omega) _ _ _ _ _ r ww hW
  have hM : 0 ≤ M := by
    rcases l with _ | ⟨s, l⟩
    · exact absurd rfl h0
    · have := hL s (by simp) 0; exact this.1.nonneg.trans this.2
  have a := sumXYZ_le l M (fun s hs => (hw s hs).2.nonneg) (fun s hs k => ⟨(hL s hs k).1.nonneg, (hL s hs k).2⟩) k
  have a' : absRgb (sumXYZ l) k / sumW l ≤ 6 * M := by rw [div_le_iff₀ hW]; exact a
  have hws : (f.pix i j).w ≠ 0 := by
    intro hz
    have h1 := w1.rel (by omega)
    rw [hz, zero_sub, abs_neg, abs_of_pos hW] at h1
    have h2 : (l.length : K) * 2 ^ (-52 : ℤ) ≤ 1 / 2 := by
      have : (l.length : K) ≤ 2 ^ 40 := by exact_mod_cast hn
      calc (l.length : K) * 2 ^ (-52 : ℤ) ≤ 2 ^ 40 * 2 ^ (-52 : ℤ) := mul_le_mul_of_nonneg_right this (two_zpow_pos _).le
        _ ≤ 1 / 2 := by norm_num
    have h3 := h1.trans (mul_le_mul_of_nonneg_right h2 hW.le)
    linarith
  have img : imageRgbR ieee f scale j i k = max 0 (double (xyz2rgbR ieee (f.pix i j).Lxyz k / (f.pix i j).w)) := by
    have hs : (f.pix i j).splatXYZ = 0 := by rw [hf, bump_fold]
    simp only [imageRgbR, hs, if_neg hws, xyz2rgbR_zero]
    show double (max 0 (double _) + double (scale * 0)) = _
    rw [mul_zero, double_zero, add_zero]
    rcases max_choice 0 (double (xyz2rgbR ieee (f.pix i j).Lxyz k / (f.pix i j).w)) with h | h
    · rw [h, double_zero]
    · rw [h]; exact double_of_isDouble (isDouble_double _)
  rw [img, ← rt_sum]
  have lip : ∀ x y : K, |max 0 x - max 0 y| ≤ |x - y| := fun x y => by
    have h1 := neg_le_abs (x - y)
    have h2 := le_abs_self (x - y)
    have h3 := abs_nonneg (x - y)
    rw [abs_le]
    rcases le_total 0 x with hx | hx <;> rcases le_total 0 y with hy | hy <;> simp only [max_eq_left, max_eq_right, hx, hy] <;> constructor <;> linarith
  refine (lip _ _).trans (q.trans ?_)
  have u0 := uu_pos (K := K)
  have e : 6 * (N : K) * uu * (absRgb (sumXYZ l) k / sumW l) ≤ 6 * (N : K) * uu * (6 * M) := mul_le_mul_of_nonneg_left a' (by positivity)
  have e2 : 6 * (N : K) * uu * (6 * M) ≤ (l.length + 9) * 2 ^ (-47 : ℤ) * M := by
    have : (2 : K) ^ (-47 : ℤ) = 64 * uu := by rw [uu, show (64 : K) = 2 ^ (6 : ℤ) by norm_num, ← zpow_add₀ two_ne_zero]; norm_num
    rw [this, hN]; push_cast
    have : 0 ≤ ((l.length : K) + 9) * uu * M := by positivity
    nlinarith
  exact add_le_add (e.trans e2) le_rfl

/-- what the theorems about the picture assume about film and samples: a blank film; table entries and colours that are floats, not negative, and not positive numbers
below `2^-500`; no channel above `M` -/
structure Fair (f : Film K) (es : List (K × K × Vec K)) (M : K) : Prop where
  blank : ∀ i j, f.pix i j = ⟨0, 0, 0⟩
  table : ∀ r c, IsDouble (f.table r c) ∧ Low (-500) (f.table r c)
  colour : ∀ s ∈ es, ∀ k, Low (-500) (s.2.2 k) ∧ s.2.2 k ≤ M

theorem reach_mem (R : Rounding K) (f : Film K) (i j : ℕ) (es : List (K × K × Vec K)) (s : K × Vec K) (hs : s ∈ reach R f i j es) :
    (∃ r c, s.1 = f.table r c) ∧ ∃ e ∈ es, s.2 = e.2.2 := by
  induction es with
  | nil => simp [reach] at hs
  | cons e es ih =>
    obtain ⟨X, Y, L⟩ := e
    have tl : s ∈ reach R f i j es → (∃ r c, s.1 = f.table r c) ∧ ∃ e ∈ (X, Y, L) :: es, s.2 = e.2.2 := fun h => by
      obtain ⟨a, e, b, c⟩ := ih h
      exact ⟨a, e, by simp [b], c⟩
    simp only [reach] at hs
    by_cases h : Covers R f X Y i j
    · rw [if_pos h] at hs
      rcases List.mem_cons.1 hs with rfl | hs
      · exact ⟨⟨_, _, rfl⟩, _, List.mem_cons_self, rfl⟩
      · exact tl hs
    · rw [if_neg h] at hs; exact tl hs

/-- **C176** the written picture in binary64 is the weighted average of the samples' colours: if `n` samples reach a pixel, with weights that are not all zero, each channel
of the written value is within `(n + 9) · 2^-47 · M` (and half the smallest float) of the average, computed exactly, of the colours converted to XYZ and back, and so within
`3·10⁻⁶ · M` more of the average of the colours; `M` bounds the colours. -/
theorem C176_picture (f0 f : Film K) (es : List (K × K × Vec K)) (M : K) (hf : Fair f0 es M) (hr : runR ieee f0 es = some f) (i j : ℕ)
    (hn : (reach ieee f0 i j es).length ≤ 2 ^ 40) (h0 : sumW (reach ieee f0 i j es) ≠ 0) (scale : K) (k : Fin 3) :
    let l := reach ieee f0 i j es
    |imageRgbR ieee f scale j i k - max 0 ((l.map (fun s => s.1 * rt s.2 k)).sum / sumW l)| ≤ (l.length + 9) * 2 ^ (-47 : ℤ) * M + 2 ^ (-1075 : ℤ) ∧
    |imageRgbR ieee f scale j i k - (l.map (fun s => s.1 * s.2 k)).sum / sumW l| ≤
      3 / 1000000 * M + ((l.length + 9) * 2 ^ (-47 : ℤ) * M + 2 ^ (-1075 : ℤ)) := by
  intro l
  obtain ⟨f', h1, -, h3⟩ := runR_spec ieee es f0
  obtain rfl : f' = f := by rw [h1] at hr; exact Option.some.inj hr
  have hp : f'.pix i j = l.foldl (bump ieee) ⟨0, 0, 0⟩ := by rw [h3, hf.blank]
  have hw : ∀ s ∈ l, IsDouble s.1 ∧ Low (-500) s.1 := fun s hs => by
    obtain ⟨⟨r, c, e⟩, -⟩ := reach_mem ieee f0 i j es s hs
    rw [e]; exact hf.table r c
  have hL : ∀ s ∈ l, ∀ k, Low (-500) (s.2 k) ∧ s.2 k ≤ M := fun s hs => by
    obtain ⟨-, e, he, h⟩ := reach_mem ieee f0 i j es s hs
    rw [h]; exact hf.colour e he
  have p := pixel_err f' i j l hp hn M hw hL h0 scale k
  refine ⟨p, ?_⟩
  have hW : 0 < sumW l := by
    refine lt_of_le_of_ne (List.sum_nonneg ?_) (Ne.symm h0)
    intro x hx
    obtain ⟨s, hs, rfl⟩ := List.mem_map.1 hx
    exact (hw s hs).2.nonneg
  have d : ∀ l' : List (K × Vec K), (∀ s ∈ l', s ∈ l) → |(l'.map (fun s => s.1 * rt s.2 k)).sum - (l'.map (fun s => s.1 * s.2 k)).sum| ≤ 3 / 1000000 * M * sumW l' ∧
      0 ≤ (l'.map (fun s => s.1 * s.2 k)).sum := by
    intro l' hl'
    induction l' with
    | nil => simp [sumW]
    | cons s l' ih =>
      obtain ⟨a, b⟩ := ih (fun x hx => hl' x (by simp [hx]))
      have hs := hl' s (by simp)
      have w0 := (hw s hs).2.nonneg
      have c := C30_colour_roundtrip s.2 k
      rw [abs_of_nonneg (hL s hs 0).1.nonneg, abs_of_nonneg (hL s hs 1).1.nonneg, abs_of_nonneg (hL s hs 2).1.nonneg] at c
      have c' : |rt s.2 k - s.2 k| ≤ 3 / 1000000 * M := by
        have := (hL s hs 0).2; have := (hL s hs 1).2; have := (hL s hs 2).2
        linarith
      simp only [sumW, List.map_cons, List.sum_cons] at *
      refine ⟨?_, add_nonneg (mul_nonneg w0 (hL s hs k).1.nonneg) b⟩
      have e : s.1 * rt s.2 k + (l'.map (fun s => s.1 * rt s.2 k)).sum - (s.1 * s.2 k + (l'.map (fun s => s.1 * s.2 k)).sum)
          = s.1 * (rt s.2 k - s.2 k) + ((l'.map (fun s => s.1 * rt s.2 k)).sum - (l'.map (fun s => s.1 * s.2 k)).sum) := by ring
      rw [e]
      refine (abs_add_le _ _).trans ?_
      rw [abs_mul, abs_of_nonneg w0]
      have := mul_le_mul_of_nonneg_left c' w0
      linarith
  obtain ⟨d1, d2⟩ := d l (fun s hs => hs)
  have hq : 0 ≤ (l.map (fun s => s.1 * s.2 k)).sum / sumW l := div_nonneg d2 hW.le
  have d3 : |(l.map (fun s => s.1 * rt s.2 k)).sum / sumW l - (l.map (fun s => s.1 * s.2 k)).sum / sumW l| ≤ 3 / 1000000 * M := by
    rw [← sub_div, abs_div, abs_of_pos hW, div_le_iff₀ hW]; exact d1
  have d4 : |max 0 ((l.map (fun s => s.1 * rt s.2 k)).sum / sumW l) - (l.map (fun s => s.1 * s.2 k)).sum / sumW l| ≤ 3 / 1000000 * M := by
    generalize (l.map (fun s => s.1 * rt s.2 k)).sum / sumW l = x at *
    generalize (l.map (fun s => s.1 * s.2 k)).sum / sumW l = y at *
    rw [abs_le] at d3 ⊢
    obtain ⟨d3, d3'⟩ := d3
    rcases le_total 0 x with hx | hx
    · rw [max_eq_right hx]; exact ⟨d3, d3'⟩
    · rw [max_eq_left hx]; constructor <;> linarith
  have tr := abs_add_le (imageRgbR ieee f' scale j i k - max 0 ((l.map (fun s => s.1 * rt s.2 k)).sum / sumW l))
    (max 0 ((l.map (fun s => s.1 * rt s.2 k)).sum / sumW l) - (l.map (fun s => s.1 * s.2 k)).sum / sumW l)
  rw [sub_add_sub_cancel] at tr
  refine tr.trans ?_
  rw [add_comm (3 / 1000000 * M)]
  exact add_le_add p d4

theorem reach_perm (R : Rounding K) (f : Film K) (i j : ℕ) {es es' : List (K × K × Vec K)} (h : es'.Perm es) : (reach R f i j es').Perm (reach R f i j es) := by
  induction h with
  | nil => exact .nil
  | cons s _ ih =>
    obtain ⟨X, Y, L⟩ := s
    simp only [reach]
    split_ifs
    · exact ih.cons _
    · exact ih
  | swap s t l =>
    obtain ⟨X, Y, L⟩ := s
    obtain ⟨X', Y', L'⟩ := t
    simp only [reach]
    split_ifs
    · exact .swap _ _ _
    all_goals exact .refl _
  | trans _ _ h1 h2 => exact h1.trans h2

/-- **C176** the order of the samples, or their division among tasks, changes the written picture only by rounding: pictures made from rearrangements of the same samples
differ by at most twice `(n + 9) · 2^-47 · M`. -/
theorem C176_order (f0 f f' : Film K) (es es' : List (K × K × Vec K)) (M : K) (hf : Fair f0 es M) (hp : es'.Perm es) (hr : runR ieee f0 es = some f)
    (hr' : runR ieee f0 es' = some f') (i j : ℕ) (hn : (reach ieee f0 i j es).length ≤ 2 ^ 40) (h0 : sumW (reach ieee f0 i j es) ≠ 0) (scale : K) (k : Fin 3) :
    |imageRgbR ieee f' scale j i k - imageRgbR ieee f scale j i k| ≤
      2 * (((reach ieee f0 i j es).length + 9) * 2 ^ (-47 : ℤ) * M + 2 ^ (-1075 : ℤ)) := by
  have hq := reach_perm ieee f0 i j hp
  have hf' : Fair f0 es' M := ⟨hf.blank, hf.table, fun s hs => hf.colour s (hp.mem_iff.1 hs)⟩
  have e1 : sumW (reach ieee f0 i j es') = sumW (reach ieee f0 i j es) := (hq.map _).sum_eq
  have e2 : ((reach ieee f0 i j es').map (fun s => s.1 * rt s.2 k)).sum = ((reach ieee f0 i j es).map (fun s => s.1 * rt s.2 k)).sum := (hq.map _).sum_eq
  have a := (C176_picture f0 f es M hf hr i j hn h0 scale k).1
  have b := (C176_picture f0 f' es' M hf' hr' i j (by rw [hq.length_eq]; exact hn) (by rw [e1]; exact h0) scale k).1
  simp only [e1, e2, hq.length_eq] at b
  rw [abs_sub_comm] at a
  have := abs_add_le _ _ |>.trans (add_le_add b a)
  rw [sub_add_sub_cancel] at this
  linarith

/-- **C176** with any rounding: a sample is never lost from the weight of a pixel.  With non-negative table entries, the weight of a pixel is at least the weight of every
sample that reached it; it is zero only if all of these are. -/
theorem C176_weight (R : Rounding K) (f0 f : Film K) (hb : ∀ i j, f0.pix i j = ⟨0, 0, 0⟩) (ht : ∀ r c, 0 ≤ f0.table r c ∧ R.Rep (f0.table r c))
    (es : List (K × K × Vec K)) (hr : runR R f0 es = some f) (i j : ℕ) :
    0 ≤ (f.pix i j).w ∧ ∀ s ∈ reach R f0 i j es, s.1 ≤ (f.pix i j).w := by
  obtain ⟨f', h1, -, h3⟩ := runR_spec R es f0
  obtain rfl : f' = f := by rw [h1] at hr; exact Option.some.inj hr
  have key : ∀ (l : List (K × Vec K)), (∀ s ∈ l, 0 ≤ s.1 ∧ R.Rep s.1) → ∀ a : K, R.Rep a → 0 ≤ a →
      a ≤ l.foldl (fun a s => R.add a s.1) a ∧ ∀ s ∈ l, s.1 ≤ l.foldl (fun a s => R.add a s.1) a := by
    intro l
    induction l with
    | nil => intro _ a _ _; exact ⟨le_rfl, fun s hs => by simp at hs⟩
    | cons s l ih =>
      intro hl a ha a0
      obtain ⟨s0, s1⟩ := hl s (by simp)
      have le1 : a ≤ R.add a s.1 := R.le_add ha s0
      have le2 : s.1 ≤ R.add a s.1 := R.le_rnd s1 (by linarith)
      obtain ⟨i1, i2⟩ := ih (fun x hx => hl x (by simp [hx])) (R.add a s.1) (R.rep_rnd _) (a0.trans le1)
      refine ⟨le1.trans i1, fun x hx => ?_⟩
      rcases List.mem_cons.1 hx with rfl | hx
      · exact le2.trans i1
      · exact i2 x hx
  have := key (reach R f0 i j es) (fun s hs => by
    obtain ⟨⟨r, c, e⟩, -⟩ := reach_mem R f0 i j es s hs
    rw [e]; exact ht r c) 0 R.rep_zero le_rfl
  rw [h3, hb, bump_fold]
  exact this

end
section
variable {K : Type*} [Field K] [LinearOrder K] [IsStrictOrderedRing K] [FloorRing K]

/-! ### Construction -/

/-- **C176** the window of a film, with any rounding: the full frame has exactly the resolution's pixels, and two windows that share a crop coordinate share it as a pixel
coordinate, so that adjacent windows neither overlap nor leave a gap (unless the first is so narrow that it is given one pixel regardless). -/
theorem C176_window (R : Rounding K) (xr yr : ℕ) (flt : Filt K) :
    (1 ≤ xr → 1 ≤ yr → xr ≤ 2 ^ 53 → yr ≤ 2 ^ 53 →
      (initR R xr yr flt 0 1 0 1).xStart = 0 ∧ (initR R xr yr flt 0 1 0 1).xCnt = xr ∧ (initR R xr yr flt 0 1 0 1).yStart = 0 ∧ (initR R xr yr flt 0 1 0 1).yCnt = yr) ∧
    ∀ c0 c1 c1' c2 c3, (initR R xr yr flt c0 c1 c2 c3).xStart < (initR R xr yr flt c1 c1' c2 c3).xStart →
      (initR R xr yr flt c0 c1 c2 c3).xStart + (initR R xr yr flt c0 c1 c2 c3).xCnt = (initR R xr yr flt c1 c1' c2 c3).xStart := by
  refine ⟨fun h1 h2 h3 h4 => ?_, fun c0 c1 c1' c2 c3 h => ?_⟩
  · have z : ∀ n : ℕ, R.mul (n : K) 0 = 0 := fun n => by rw [Rounding.mul, mul_zero]; exact R.rep_zero
    have o : ∀ n : ℕ, n ≤ 2 ^ 53 → R.mul (n : K) 1 = n := fun n hn => by rw [Rounding.mul, mul_one]; exact R.rep_nat n hn
    simp only [initR, z, o xr h3, o yr h4]
    simp only [Int.ceil_zero, Int.ceil_natCast]
    refine ⟨trivial, ?_, trivial, ?_⟩ <;> omega
  · simp only [initR] at *
    omega

/-- **C176** the filter table in binary64: the entry of a cell is the filter's value at the middle of the cell, up to a relative error of `3 · 2^-52` in the coordinates. -/
theorem C176_table (xr yr : ℕ) (flt : Filt K) (c0 c1 c2 c3 : K) (hx : (2 : K) ^ (-1000 : ℤ) ≤ flt.xw) (hy : (2 : K) ^ (-1000 : ℤ) ≤ flt.yw) (r c : ℕ) (hr : r < 16) (hc : c < 16) :
    ∃ a b : K, (initR ieee xr yr flt c0 c1 c2 c3).table r c = flt.eval a b ∧
      |a - ((c : K) + 1 / 2) * (flt.xw / 16)| ≤ 3 * 2 ^ (-52 : ℤ) * (((c : K) + 1 / 2) * (flt.xw / 16)) ∧
      |b - ((r : K) + 1 / 2) * (flt.yw / 16)| ≤ 3 * 2 ^ (-52 : ℤ) * (((r : K) + 1 / 2) * (flt.yw / 16)) := by
  have key : ∀ (n : ℕ) (w : K), n < 16 → (2 : K) ^ (-1000 : ℤ) ≤ w →
      |double (double ((n : K) + 1 / 2) * double (w / 16)) - ((n : K) + 1 / 2) * (w / 16)| ≤ 3 * 2 ^ (-52 : ℤ) * (((n : K) + 1 / 2) * (w / 16)) := by
    intro n w hn hw
    have w0 : 0 < w := (two_zpow_pos _).trans_le hw
    have lw : Low (-1004) (w / 16) := by
      right
      rw [le_div_iff₀ (by norm_num), show (16 : K) = 2 ^ (4 : ℤ) by norm_num, ← zpow_add₀ two_ne_zero]
      exact hw
    have ln : Low (-1) ((n : K) + 1 / 2) := by
      right; have : (0 : K) ≤ n := Nat.cast_nonneg n
      norm_num
    have e1 := (Err.refl ((n : K) + 1 / 2)).round (ln.normal (by norm_num))
    have e2 := (Err.refl (w / 16)).round (lw.normal (by norm_num))
    have l3 : Low (-1005) (double ((n : K) + 1 / 2) * double (w / 16)) := (ln.round (by norm_num)).mul (lw.round (by norm_num))
    have e3 := (e1.mul e2).round (l3.normal (by norm_num))
    rw [abs_of_nonneg ln.nonneg, abs_of_nonneg lw.nonneg] at e3
    have := e3.rel (by norm_num)
    push_cast at this
    norm_num at this ⊢
    exact this
  exact ⟨_, _, rfl, key c _ hc hx, key r _ hr hy⟩

end

/-! ### An example, and why the order matters -/

/-- one pixel; the filter is 1 in the first column of cells and `2^-53` in the others -/
def tinyFilm : Film ℚ where
  filt := ⟨1 / 2, 1 / 2, 2, 2, fun x _ => if x < 1 / 32 then 1 else 2 ^ (-53 : ℤ)⟩
  xStart := 0
  xCnt := 1
  yStart := 0
  yCnt := 1
  table := fun _ c => if c = 0 then 1 else 2 ^ (-53 : ℤ)
  pix := fun _ _ => ⟨0, 0, 0⟩

/-- a white sample in the middle of the pixel and one half-way to its edge -/
def mid : ℚ × ℚ × Vec ℚ := (1 / 2, 1 / 2, fun _ => 1)
def side : ℚ × ℚ × Vec ℚ := (3 / 4, 1 / 2, fun _ => 1)

theorem d_fix (x : ℚ) (m e : ℤ) (hm : |m| ≤ 2 ^ 53) (he : -1074 ≤ e) (h : x = m * 2 ^ e) : double x = x := double_of_isDouble ⟨m, e, hm, he, h⟩

theorem tiny_covers : Covers ieee tinyFilm (1 / 2) (1 / 2) 0 0 ∧ Covers ieee tinyFilm (3 / 4) (1 / 2) 0 0 := by
  have r : ∀ X : ℚ, IsDouble X → X ≤ 2 ^ 52 → |off 0 0 X| ≤ 1 / 2 → Reaches ieee 0 0 X (1 / 2) := fun X a b c =>
    reaches_of 0 0 X (1 / 2) a b ⟨1, -1, by norm_num, by norm_num, by norm_num⟩ (by norm_num) (by norm_num) (by norm_num) (by norm_num) c
  have h1 := r (1 / 2) ⟨1, -1, by norm_num, by norm_num, by norm_num⟩ (by norm_num) (by rw [off]; norm_num)
  have h2 := r (3 / 4) ⟨3, -2, by norm_num, by norm_num, by norm_num⟩ (by norm_num) (by rw [off]; norm_num)
  exact ⟨⟨by decide, by decide, h1, h1⟩, ⟨by decide, by decide, h2, h1⟩⟩

theorem tiny_cells : cellOf (ieee (K := ℚ)) 0 0 (1 / 2) 2 = 0 ∧ cellOf (ieee (K := ℚ)) 0 0 (3 / 4) 2 = 8 := by
  constructor
  · have : cellIxR (ieee (K := ℚ)) (0 + (0 : ℕ)) (double (1 / 2 - 1 / 2)) 2 = 0 := by
      show min (16 - 1 : ℤ) ⌊|double (double (double (((0 + (0 : ℕ) : ℤ) : ℚ) - double (1 / 2 - 1 / 2)) * 16) * 2)|⌋ = 0
      norm_num [double_zero]
    show (cellIxR (ieee (K := ℚ)) (0 + (0 : ℕ)) (double (1 / 2 - 1 / 2)) 2).toNat = 0
    rw [this]; rfl
  · have : cellIxR (ieee (K := ℚ)) (0 + (0 : ℕ)) (double (3 / 4 - 1 / 2)) 2 = 8 := by
      show min (16 - 1 : ℤ) ⌊|double (double (double (((0 + (0 : ℕ) : ℤ) : ℚ) - double (3 / 4 - 1 / 2)) * 16) * 2)|⌋ = 8
      have e1 : double (3 / 4 - 1 / 2 : ℚ) = 1 / 4 := by rw [d_fix _ 1 (-2) (by norm_num) (by norm_num) (by norm_num)]; norm_num
      have e2 : double (((0 + (0 : ℕ) : ℤ) : ℚ) - 1 / 4) = -1 / 4 := by rw [d_fix _ (-1) (-2) (by norm_num) (by norm_num) (by norm_num)]; norm_num
      have e3 : double (-1 / 4 * 16 : ℚ) = -4 := by rw [d_fix _ (-4) 0 (by norm_num) (by norm_num) (by norm_num)]; norm_num
      have e4 : double (-4 * 2 : ℚ) = -8 := by rw [d_fix _ (-8) 0 (by norm_num) (by norm_num) (by norm_num)]; norm_num
      rw [e1, e2, e3, e4]
      norm_num
    show (cellIxR (ieee (K := ℚ)) (0 + (0 : ℕ)) (double (3 / 4 - 1 / 2)) 2).toNat = 8
    rw [this]; rfl

theorem tiny_weights : wtAt ieee tinyFilm (1 / 2) (1 / 2) 0 0 = 1 ∧ wtAt ieee tinyFilm (3 / 4) (1 / 2) 0 0 = 2 ^ (-53 : ℤ) := by
  constructor
  · show (if cellOf (ieee (K := ℚ)) 0 0 (1 / 2) 2 = 0 then (1 : ℚ) else 2 ^ (-53 : ℤ)) = 1
    rw [tiny_cells.1]; rfl
  · show (if cellOf (ieee (K := ℚ)) 0 0 (3 / 4) 2 = 0 then (1 : ℚ) else 2 ^ (-53 : ℤ)) = 2 ^ (-53 : ℤ)
    rw [tiny_cells.2]; rfl

theorem tiny_reach : reach ieee tinyFilm 0 0 [mid, side, side] = [(1, fun _ => 1), (2 ^ (-53 : ℤ), fun _ => 1), (2 ^ (-53 : ℤ), fun _ => 1)] ∧
    reach ieee tinyFilm 0 0 [side, side, mid] = [(2 ^ (-53 : ℤ), fun _ => 1), (2 ^ (-53 : ℤ), fun _ => 1), (1, fun _ => 1)] := by
  have st : ∀ (X Y : ℚ) (L : Vec ℚ) es, Covers ieee tinyFilm X Y 0 0 →
      reach ieee tinyFilm 0 0 ((X, Y, L) :: es) = (wtAt ieee tinyFilm X Y 0 0, L) :: reach ieee tinyFilm 0 0 es := fun X Y L es h => by
    simp only [reach]; rw [if_pos h]
  have m : ∀ es, reach ieee tinyFilm 0 0 (mid :: es) = (1, fun _ => 1) :: reach ieee tinyFilm 0 0 es := fun es => by
    have := st (1 / 2) (1 / 2) (fun _ => 1) es tiny_covers.1
    rw [tiny_weights.1] at this; exact this
  have d : ∀ es, reach ieee tinyFilm 0 0 (side :: es) = (2 ^ (-53 : ℤ), fun _ => 1) :: reach ieee tinyFilm 0 0 es := fun es => by
    have := st (3 / 4) (1 / 2) (fun _ => 1) es tiny_covers.2
    rw [tiny_weights.2] at this; exact this
  constructor
  · rw [m, d, d]; rfl
  · rw [d, d, m]; rfl

/-- **C176, the order matters**: the same three samples, in two orders, leave different weights in a pixel (and so `C28`, proved for exact numbers, holds of the real program
only up to rounding, as `C176_order` says). -/
theorem C176_order_matters : ∃ f f' : Film ℚ, [side, side, mid].Perm [mid, side, side] ∧ runR ieee tinyFilm [mid, side, side] = some f ∧
    runR ieee tinyFilm [side, side, mid] = some f' ∧ (f.pix 0 0).w = 1 ∧ (f'.pix 0 0).w = 1 + 2 ^ (-52 : ℤ) := by
  obtain ⟨f, a1, -, a3⟩ := runR_spec ieee [mid, side, side] tinyFilm
  obtain ⟨f', b1, -, b3⟩ := runR_spec ieee [side, side, mid] tinyFilm
  have half : double (1 + 2 ^ (-53 : ℤ) : ℚ) = 1 := by
    rw [double_eq (2 ^ 52) (-52) (by norm_num) (Or.inr ⟨by norm_num, ⟨2 ^ 51, by norm_num⟩⟩) (by norm_num) (by norm_num)]; norm_num
  refine ⟨f, f', ?_, a1, b1, ?_, ?_⟩
  · exact List.perm_append_comm (l₁ := [side, side]) (l₂ := [mid])
  · rw [a3, tiny_reach.1, bump_fold]
    show double (double (double ((0 : ℚ) + 1) + 2 ^ (-53 : ℤ)) + 2 ^ (-53 : ℤ)) = 1
    have : double ((0 : ℚ) + 1) = 1 := by rw [d_fix _ 1 0 (by norm_num) (by norm_num) (by norm_num)]; norm_num
    rw [this, half, half]
  · rw [b3, tiny_reach.2, bump_fold]
    show double (double (double ((0 : ℚ) + 2 ^ (-53 : ℤ)) + 2 ^ (-53 : ℤ)) + 1) = 1 + 2 ^ (-52 : ℤ)
    have h1 : double ((0 : ℚ) + 2 ^ (-53 : ℤ)) = 2 ^ (-53 : ℤ) := by rw [d_fix _ 1 (-53) (by norm_num) (by norm_num) (by norm_num)]; norm_num
    have h2 : double ((2 : ℚ) ^ (-53 : ℤ) + 2 ^ (-53 : ℤ)) = 2 ^ (-52 : ℤ) := by rw [d_fix _ 1 (-52) (by norm_num) (by norm_num) (by norm_num)]; norm_num
    have h3 : double ((2 : ℚ) ^ (-52 : ℤ) + 1) = 1 + 2 ^ (-52 : ℤ) := by rw [d_fix _ (2 ^ 52 + 1) (-52) (by norm_num) (by norm_num) (by norm_num)]; norm_num
    rw [h1, h2, h3]

/-- the hypotheses of `C176_footprint`, `C176_picture`, `C176_order` and `C176_weight` are met by this film and these samples -/
example : Fits tinyFilm ∧ Fair tinyFilm [mid, side, side] 1 ∧ sumW (reach ieee tinyFilm 0 0 [mid, side, side]) ≠ 0 ∧
    (reach ieee tinyFilm 0 0 [mid, side, side]).length = 3 ∧ Under tinyFilm (3 / 4) (1 / 2) 0 0 := by
  have hh : double (1 / (1 / 2) : ℚ) = 2 := by rw [d_fix _ 2 0 (by norm_num) (by norm_num) (by norm_num)]; norm_num
  refine ⟨⟨le_rfl, le_rfl, by norm_num [tinyFilm], by norm_num [tinyFilm], ⟨⟨1, -1, by norm_num, by norm_num, by norm_num [tinyFilm]⟩, by norm_num [tinyFilm], by norm_num [tinyFilm]⟩,
    ⟨⟨1, -1, by norm_num, by norm_num, by norm_num [tinyFilm]⟩, by norm_num [tinyFilm], by norm_num [tinyFilm]⟩, hh.symm, hh.symm⟩,
    ⟨fun _ _ => rfl, fun r c => ?_, fun s hs k => ?_⟩, ?_, ?_, ?_⟩
  · show IsDouble (if c = 0 then (1 : ℚ) else 2 ^ (-53 : ℤ)) ∧ Low (-500) (if c = 0 then (1 : ℚ) else 2 ^ (-53 : ℤ))
    split_ifs
    · exact ⟨⟨1, 0, by norm_num, by norm_num, by norm_num⟩, Or.inr (zpow_le_one_of_nonpos₀ (by norm_num) (by norm_num))⟩
    · exact ⟨⟨1, -53, by norm_num, by norm_num, by norm_num⟩, Or.inr (zpow_le_zpow_right₀ (by norm_num) (by norm_num))⟩
  · have : s.2.2 k = 1 := by
      simp only [List.mem_cons, List.not_mem_nil, or_false] at hs
      rcases hs with rfl | rfl | rfl <;> rfl
    rw [this]; exact ⟨Or.inr (zpow_le_one_of_nonpos₀ (by norm_num) (by norm_num)), le_rfl⟩
  · rw [tiny_reach.1]; simp only [sumW]; norm_num
  · rw [tiny_reach.1]; rfl
  · constructor <;> simp only [off, tinyFilm] <;> norm_num

end Verif.Film
