import Verif.Xform.Rounded
import Verif.Geom.Props

/-!
# Normalisation and coordinate systems in rounded arithmetic (C183)

`length`, `normalize`, `coordinate_system` and `face_forward` (`pytracer/geometry/__init__.py:84-95`, `pytracer/geometry/utility.py:25-89`) with the result of every operation, the square root included,
rounded to binary64.  Overflow is not modelled.
-/
set_option linter.unusedSectionVars false

namespace Verif.GeomR
open V3 Verif.Rnd Verif.Geom Verif.XformR

/-! ### Model -/

/-- `sq_length` (`geometry/__init__.py:84-85`) -/
noncomputable def sqLengthR (v : V3 ℝ) : ℝ := double (double (double (v.x * v.x) + double (v.y * v.y)) + double (v.z * v.z))

/-- `length` (`geometry/__init__.py:87-88`) -/
noncomputable def lengthR (v : V3 ℝ) : ℝ := double (√(sqLengthR v))

open Classical in
/-- `normalize` (`geometry/utility.py:55-73`, `geometry/__init__.py:90-95, 273-278`) -/
noncomputable def normalizeR (v : V3 ℝ) : V3 ℝ :=
  let len := lengthR v
  if ¬ len = 0 then ⟨double (v.x / len), double (v.y / len), double (v.z / len)⟩ else v

/-- `Vector.cross` (`geometry/__init__.py:79-82`) -/
noncomputable def crossR (a b : V3 ℝ) : V3 ℝ :=
  ⟨double (double (a.y * b.z) - double (a.z * b.y)), double (double (a.z * b.x) - double (a.x * b.z)), double (double (a.x * b.y) - double (a.y * b.x))⟩

open Classical in
/-- `coordinate_system` (`geometry/utility.py:25-52`) -/
noncomputable def coordinateSystemR (v1 : V3 ℝ) : V3 ℝ × V3 ℝ × V3 ℝ :=
  if lengthR v1 = 0 then (⟨1, 0, 0⟩, ⟨0, 1, 0⟩, ⟨0, 0, 1⟩)
  else
    let v2 : V3 ℝ :=
      if |v1.x| > |v1.y| then
        let inv := double (1 / double (√(double (double (v1.x * v1.x) + double (v1.z * v1.z)))))
        ⟨double (-v1.z * inv), 0, double (v1.x * inv)⟩
      else
        let inv := double (1 / double (√(double (double (v1.y * v1.y) + double (v1.z * v1.z)))))
        ⟨0, double (-v1.z * inv), double (v1.y * inv)⟩
    (v1, v2, crossR v1 v2)

/-- `face_forward` (`geometry/utility.py:76-89`) of a normal and a vector may return `q` -/
def FaceForwardR (n v q : V3 ℝ) : Prop := ∃ s, DotR n.get v.get [0, 1, 2] s ∧ ((s < 0 ∧ q = -n) ∨ (¬ s < 0 ∧ q = n))

/-! ### Specification -/

/-- a float that is zero or at least `2^l` in size -/
def Big (l : ℤ) (x : ℝ) : Prop := IsDouble x ∧ (x = 0 ∨ 2 ^ l ≤ |x|)
def BigV (l : ℤ) (v : V3 ℝ) : Prop := Big l v.x ∧ Big l v.y ∧ Big l v.z

/-! ### Error calculus: reciprocals and square roots -/

theorem err_inv {k : ℕ} {xc x : ℝ} (h : Err k xc x |x|) (hx : x ≠ 0) (hk : (1 + uu : ℝ) ^ k ≤ 3 / 2) : Err (2 * k) (1 / xc) (1 / x) |1 / x| := by
  refine ⟨?_, le_rfl⟩
  have hx' : 0 < |x| := abs_pos.2 hx
  set a : ℝ := (1 + uu) ^ k with ha
  have ha1 : 1 ≤ a := one_le_g k
  have h1 : (2 - a) * |x| ≤ |xc| := by
    have := abs_sub_abs_le_abs_sub x xc
    rw [abs_sub_comm] at this
    have := h.1
    linarith
  have hxc : 0 < |xc| := lt_of_lt_of_le (mul_pos (by linarith) hx') h1
  have hxc0 : xc ≠ 0 := abs_pos.1 hxc
  rw [show 1 / xc - 1 / x = (x - xc) * (1 / xc) * (1 / x) by field_simp, abs_mul, abs_mul, abs_div, abs_one, abs_sub_comm]
  refine mul_le_mul_of_nonneg_right ?_ (abs_nonneg _)
  rw [mul_one_div, div_le_iff₀ hxc]
  have e : (1 + uu : ℝ) ^ (2 * k) = a * a := by rw [two_mul, pow_add]
  rw [e]
  have h2 : |xc - x| ≤ (a - 1) * |x| := h.1
  have h3 : (a * a - 1) * ((2 - a) * |x|) ≤ (a * a - 1) * |xc| := mul_le_mul_of_nonneg_left h1 (by nlinarith)
  have h4 : (a - 1) * |x| ≤ (a * a - 1) * ((2 - a) * |x|) := by
    have : 1 ≤ (a + 1) * (2 - a) := by nlinarith
    have : (a - 1) * 1 ≤ (a - 1) * ((a + 1) * (2 - a)) := mul_le_mul_of_nonneg_left this (by linarith)
    nlinarith
  linarith

theorem err_sqrt {k : ℕ} {xc x : ℝ} (h : Err k xc x x) : Err k (√xc) (√x) (√x) := by
  refine ⟨?_, by rw [abs_of_nonneg (Real.sqrt_nonneg _)]⟩
  have hx := h.nonneg
  rcases eq_or_lt_of_le hx with rfl | hx
  · have := h.1
    rw [mul_zero, sub_zero] at this
    have := abs_nonpos_iff.1 this
    rw [this]; simp
  have hs : 0 < √x := Real.sqrt_pos.2 hx
  rw [← mul_le_mul_iff_left₀ hs]
  have e1 : ((1 + uu) ^ k - 1) * √x * √x = ((1 + uu) ^ k - 1) * x := by rw [mul_assoc, Real.mul_self_sqrt hx.le]
  rw [e1]
  refine le_trans ?_ h.1
  rcases le_or_gt 0 xc with hc | hc
  · have : xc - x = (√xc - √x) * (√xc + √x) := by
      have a := Real.mul_self_sqrt hc
      have b := Real.mul_self_sqrt hx.le
      linear_combination b - a
    rw [this, abs_mul]
    refine mul_le_mul_of_nonneg_left ?_ (abs_nonneg _)
    rw [abs_of_nonneg (by positivity)]
    linarith [Real.sqrt_nonneg xc]
  · rw [Real.sqrt_eq_zero_of_nonpos hc.le, zero_sub, abs_neg, abs_of_pos hs, Real.mul_self_sqrt hx.le, abs_of_neg (by linarith)]
    linarith

theorem Big.grid {l : ℤ} {x : ℝ} (h : Big l x) : Grid (l - 53) x := by
  obtain ⟨hd, rfl | h⟩ := h
  · exact ⟨0, by simp⟩
  have e := double_of_isDouble hd
  have hu : l - 53 ≤ ulpExp x := by
    have h0 : (2 : ℝ) ^ l ≤ |x| := h
    have hx : 0 < |x| := lt_of_lt_of_le (two_zpow_pos _) h0
    have : l ≤ Int.log 2 |x| := by
      rw [← Int.zpow_le_iff_le_log (by norm_num) hx]
      exact_mod_cast h0
    have := le_max_left (Int.log 2 |x| - 52) (-1074)
    simp only [ulpExp]
    omega
  rw [← e]
  exact Grid.mono hu ⟨rne (x / 2 ^ ulpExp x), rfl⟩

theorem pow_small (k : ℕ) (hk : k ≤ 100) : (1 + uu : ℝ) ^ k ≤ 1 + 2 ^ (-45 : ℤ) := by
  have h1 := g_le (K := ℝ) k (by omega)
  have h2 : 2 * (k : ℝ) * uu ≤ 2 ^ (-45 : ℤ) := by
    have : (k : ℝ) ≤ 100 := by exact_mod_cast hk
    rw [uu, show (-45 : ℤ) = 8 + -53 by norm_num, zpow_add₀ two_ne_zero]
    have := two_zpow_pos (K := ℝ) (-53)
    norm_num; linarith
  linarith

theorem pow_half (k : ℕ) (hk : k ≤ 100) : (1 + uu : ℝ) ^ k ≤ 3 / 2 := (pow_small k hk).trans (by norm_num)

theorem Big.mono {l l' : ℤ} (h : l' ≤ l) {x : ℝ} (hx : Big l x) : Big l' x := ⟨hx.1, hx.2.imp_right fun h' => (zpow_le_zpow_right₀ one_le_two h).trans h'⟩

theorem root {k : ℕ} (hk : k ≤ 50) {s S : ℝ} (h : Flt k (-906) s S S) (hS : 0 < S) : Err (k + 1) (double (√s)) (√S) (√S) := by
  have e := err_sqrt h.err
  refine e.round (Or.inr ?_)
  have hp := pow_half k (by omega)
  have hs : 0 < s := by
    have h1 := h.err.1
    have h2 := neg_abs_le (s - S)
    have h3 : ((1 + uu) ^ k - 1) * S ≤ 1 / 2 * S := mul_le_mul_of_nonneg_right (by linarith) hS.le
    linarith
  have hg := h.grid.zero_or.resolve_left hs.ne'
  rw [abs_of_pos hs] at hg
  rw [abs_of_nonneg (Real.sqrt_nonneg _)]
  refine le_trans (zpow_le_zpow_right₀ one_le_two (show (-1022 : ℤ) ≤ -453 by norm_num)) ?_
  apply Real.le_sqrt_of_sq_le
  rw [← zpow_natCast, ← zpow_mul]
  exact hg

theorem sq_flt {x : ℝ} (h : Big (-400) x) : Flt 1 (-906) (double (x * x)) (x * x) (x * x) := by
  have hg := h.grid
  have := (Flt.refl hg).rmul (by norm_num) (Flt.refl hg)
  rw [abs_mul_abs_self] at this
  exact this

theorem length_err {v : V3 ℝ} (hv : BigV (-400) v) (h0 : v ≠ 0) : Err 4 (lengthR v) (Geom.length v) (Geom.length v) ∧ 0 < Geom.length v := by
  have f := ((sq_flt hv.1).radd (by norm_num) (sq_flt hv.2.1)).radd (by norm_num) ((sq_flt hv.2.2).mono (show 1 ≤ 2 by norm_num) le_rfl)
  have hS : 0 < v.x * v.x + v.y * v.y + v.z * v.z := by
    by_contra h
    have h1 : v.x * v.x + v.y * v.y + v.z * v.z ≤ 0 := not_lt.1 h
    apply h0
    have a := mul_self_nonneg v.x; have b := mul_self_nonneg v.y; have c := mul_self_nonneg v.z
    have a1 : v.x = 0 := mul_self_eq_zero.1 (by linarith)
    have b1 : v.y = 0 := mul_self_eq_zero.1 (by linarith)
    have c1 : v.z = 0 := mul_self_eq_zero.1 (by linarith)
    exact V3.ext a1 b1 c1
  exact ⟨root (by norm_num) f hS, Real.sqrt_pos.2 hS⟩

theorem err_pos {k : ℕ} (hk : k ≤ 100) {xc x : ℝ} (h : Err k xc x x) (hx : 0 < x) : x / 2 ≤ xc ∧ xc ≤ 2 * x := by
  have hp := pow_half k hk
  have h3 : ((1 + uu) ^ k - 1) * x ≤ 1 / 2 * x := mul_le_mul_of_nonneg_right (by linarith) hx.le
  have h1 := abs_le.1 (h.1.trans h3)
  constructor <;> linarith

theorem div_big {x len : ℝ} (hx : Big (-200) x) (h1 : 0 < len) (h2 : len ≤ 2 ^ (152 : ℤ)) : Normal (x / len) ∧ Big (-400) (double (x / len)) := by
  obtain ⟨-, rfl | hx⟩ := hx
  · rw [zero_div, double_zero]; exact ⟨Or.inl rfl, isDouble_zero, Or.inl rfl⟩
  have h3 : (2 : ℝ) ^ (-352 : ℤ) ≤ |x / len| := by
    rw [abs_div, abs_of_pos h1, le_div_iff₀ h1]
    calc (2 : ℝ) ^ (-352 : ℤ) * len ≤ 2 ^ (-352 : ℤ) * 2 ^ (152 : ℤ) := mul_le_mul_of_nonneg_left h2 (two_zpow_pos _).le
      _ = 2 ^ (-200 : ℤ) := by rw [← zpow_add₀ two_ne_zero]; norm_num
      _ ≤ |x| := hx
  refine ⟨Or.inr ((zpow_le_zpow_right₀ one_le_two (by norm_num)).trans h3), isDouble_double _, Or.inr ?_⟩
  have h4 : (2 : ℝ) ^ (-400 : ℤ) ≤ 2 ^ (-352 : ℤ) := zpow_le_zpow_right₀ one_le_two (by norm_num)
  have hd : IsDouble ((2 : ℝ) ^ (-352 : ℤ)) := ⟨1, -352, by norm_num, by norm_num, by simp⟩
  refine h4.trans ?_
  rcases le_abs.1 h3 with h | h
  · have := double_mono h
    rw [double_of_isDouble hd] at this
    exact this.trans (le_abs_self _)
  · have := double_mono h
    rw [double_of_isDouble hd, double_neg] at this
    exact this.trans (neg_le_abs _)

/-- sizes up to `2^150` -/
def SmallV (v : V3 ℝ) : Prop := |v.x| ≤ 2 ^ (150 : ℤ) ∧ |v.y| ≤ 2 ^ (150 : ℤ) ∧ |v.z| ≤ 2 ^ (150 : ℤ)

theorem length_le {v : V3 ℝ} (hv : SmallV v) : Geom.length v ≤ 2 ^ (151 : ℤ) := by
  rw [Geom.length, Real.sqrt_le_left (two_zpow_pos _).le]
  have h : ∀ x : ℝ, |x| ≤ 2 ^ (150 : ℤ) → x * x ≤ 2 ^ (150 : ℤ) * 2 ^ (150 : ℤ) := fun x hx => by
    rw [← abs_mul_abs_self]; exact mul_le_mul hx hx (abs_nonneg _) (two_zpow_pos _).le
  have a := h _ hv.1; have b := h _ hv.2.1; have c := h _ hv.2.2
  rw [show (151 : ℤ) = 1 + 150 by norm_num, zpow_add₀ two_ne_zero, zpow_one, mul_pow]
  simp only [sqLength]
  generalize (2 : ℝ) ^ (150 : ℤ) = B at *
  nlinarith

theorem normalize_err {v : V3 ℝ} (hv : BigV (-200) v) (hs : SmallV v) (h0 : v ≠ 0) (i : Fin 3) :
    Err 9 ((normalizeR v).get i) (v.get i / Geom.length v) |v.get i / Geom.length v| ∧ Big (-400) ((normalizeR v).get i) := by
  have hv' : BigV (-400) v := ⟨hv.1.mono (by norm_num), hv.2.1.mono (by norm_num), hv.2.2.mono (by norm_num)⟩
  obtain ⟨hl, hp⟩ := length_err hv' h0
  obtain ⟨b1, b2⟩ := err_pos (by norm_num) hl hp
  have hlp : 0 < lengthR v := by linarith
  have hle : lengthR v ≤ 2 ^ (152 : ℤ) := by
    have := length_le hs
    rw [show (152 : ℤ) = 1 + 151 by norm_num, zpow_add₀ two_ne_zero, zpow_one]
    linarith
  have hn : (normalizeR v).get i = double (v.get i / lengthR v) := by
    simp only [normalizeR, if_pos hlp.ne']
    fin_cases i <;> rfl
  have hvi : Big (-200) (v.get i) := by fin_cases i; exacts [hv.1, hv.2.1, hv.2.2]
  obtain ⟨n1, n2⟩ := div_big hvi hlp hle
  rw [hn]
  refine ⟨?_, n2⟩
  have hi := err_inv (by rw [abs_of_pos hp]; exact hl) hp.ne' ((pow_small 4 (by norm_num)).trans (by norm_num))
  have := ((Err.refl (v.get i)).mul hi).round (by rw [mul_one_div]; exact n1)
  rw [mul_one_div, mul_one_div, ← abs_mul, mul_one_div] at this
  exact this

/-- **C183** Normalising: every component of the answer is within `2^-48` of the exact one, relative to itself. -/
theorem C183_normalize (v : V3 ℝ) (hv : BigV (-200) v) (hs : SmallV v) (h0 : v ≠ 0) (i : Fin 3) :
    |(normalizeR v).get i - (Geom.normalize v).get i| ≤ 2 ^ (-48 : ℤ) * |(Geom.normalize v).get i| := by
  have hl := (length_err ⟨hv.1.mono (by norm_num), hv.2.1.mono (by norm_num), hv.2.2.mono (by norm_num)⟩ h0).2
  have e : (Geom.normalize v).get i = v.get i / Geom.length v := by
    simp only [Geom.normalize, if_pos hl.ne']
    fin_cases i <;> rfl
  rw [e]
  refine (normalize_err hv hs h0 i).1.1.trans (mul_le_mul_of_nonneg_right ?_ (abs_nonneg _))
  refine (g_le 9 (by norm_num)).trans ?_
  rw [uu, show (-48 : ℤ) = 5 + -53 by norm_num, zpow_add₀ two_ne_zero]
  norm_num

theorem normalize_unit {v : V3 ℝ} (hl : 0 < Geom.length v) : sqLength (Geom.normalize v) = 1 := by
  have h2 : Geom.length v * Geom.length v = sqLength v := by
    rw [Geom.length]; exact Real.mul_self_sqrt (by simp only [sqLength]; nlinarith [mul_self_nonneg v.x, mul_self_nonneg v.y, mul_self_nonneg v.z])
  simp only [Geom.normalize, if_pos hl.ne']
  simp only [sqLength] at h2 ⊢
  rw [div_mul_div_comm, div_mul_div_comm, div_mul_div_comm, ← add_div, ← add_div, ← h2]
  exact div_self (mul_pos hl hl).ne'

theorem sq_close {n e d : ℝ} (h : |n - e| ≤ d * |e|) (h0 : 0 ≤ d) (h1 : d ≤ 1) : |n * n - e * e| ≤ 3 * d * (e * e) := by
  have a := abs_nonneg e
  rw [show n * n - e * e = (n - e) * (n - e) + 2 * (e * (n - e)) by ring]
  refine (abs_add_le _ _).trans ?_
  rw [abs_mul, abs_mul, abs_mul, abs_two, ← abs_mul_abs_self e]
  have h2 : |n - e| * |n - e| ≤ d * |e| * |e| := mul_le_mul h (h.trans (by nlinarith)) (abs_nonneg _) (by positivity)
  have h3 : |e| * |n - e| ≤ |e| * (d * |e|) := mul_le_mul_of_nonneg_left h a
  nlinarith

/-- **C183** The answer has length one, up to `2^-46` in its square. -/
theorem C183_unit (v : V3 ℝ) (hv : BigV (-200) v) (hs : SmallV v) (h0 : v ≠ 0) : |sqLength (normalizeR v) - 1| ≤ 2 ^ (-46 : ℤ) := by
  have hl := (length_err ⟨hv.1.mono (by norm_num), hv.2.1.mono (by norm_num), hv.2.2.mono (by norm_num)⟩ h0).2
  have hu := normalize_unit hl
  have h := fun i => sq_close (C183_normalize v hv hs h0 i) (by positivity) (zpow_le_one_of_nonpos₀ one_le_two (by norm_num))
  have a := h 0; have b := h 1; have c := h 2
  simp only [V3.get] at a b c
  simp only [sqLength] at hu ⊢
  rw [show (-46 : ℤ) = 2 + -48 by norm_num, zpow_add₀ two_ne_zero]
  generalize (2 : ℝ) ^ (-48 : ℤ) = d at *
  have hd : 0 ≤ d := by
    by_contra hd
    have hd := not_le.1 hd
    have a' := (abs_nonneg _).trans a; have b' := (abs_nonneg _).trans b; have c' := (abs_nonneg _).trans c
    nlinarith
  have := abs_le.1 a; have := abs_le.1 b; have := abs_le.1 c
  rw [abs_le]
  norm_num
  constructor <;> nlinarith

/-! ### Coordinate systems -/

theorem perp {a c : ℝ} (ha : Big (-400) a) (hc : Big (-400) c) (h1 : 1 / 4 ≤ a * a + c * c) (h2 : a * a + c * c ≤ 4) (x : ℝ) (hx : Big (-400) x) :
    Flt 8 (-455) (double (x * double (1 / double (√(double (double (a * a) + double (c * c))))))) (x * (1 / √(a * a + c * c))) |x * (1 / √(a * a + c * c))| := by
  have f := (sq_flt ha).radd (by norm_num) (sq_flt hc)
  have e1 := root (by norm_num) f (by linarith)
  have hS1 : 1 / 2 ≤ √(a * a + c * c) := Real.le_sqrt_of_sq_le (by norm_num; linarith)
  have hS2 : √(a * a + c * c) ≤ 2 := by rw [Real.sqrt_le_left (by norm_num)]; norm_num; linarith
  obtain ⟨b1, b2⟩ := err_pos (by norm_num) e1 (by linarith)
  have e2 := err_inv (k := 3) (x := √(a * a + c * c)) (by rw [abs_of_pos (by linarith)]; exact e1) (by linarith) (pow_half _ (by norm_num))
  set W := √(a * a + c * c) with hW
  set L := double (√(double (double (a * a) + double (c * c)))) with hL
  have hLp : 0 < L := by linarith
  have hi : 1 / 4 ≤ 1 / L := by rw [div_le_div_iff₀ (by norm_num) hLp]; linarith
  have tiny : (2 : ℝ) ^ (-1022 : ℤ) ≤ 1 / 4 := by
    rw [show (1 / 4 : ℝ) = 2 ^ (-2 : ℤ) by norm_num]
    exact zpow_le_zpow_right₀ one_le_two (by norm_num)
  have e3 := e2.round (Or.inr (by rw [abs_of_pos (by linarith)]; exact tiny.trans hi))
  have hq : IsDouble (1 / 4 : ℝ) := ⟨1, -2, by norm_num, by norm_num, by norm_num⟩
  have hr : 1 / 4 ≤ double (1 / L) := by have := double_mono hi; rwa [double_of_isDouble hq] at this
  rcases hx with ⟨-, rfl | hx⟩
  · simp only [zero_mul, abs_zero, double_zero]; exact ⟨Err.zero _, 0, by simp⟩
  have hb : (2 : ℝ) ^ (-402 : ℤ) ≤ |x * double (1 / L)| := by
    rw [abs_mul, abs_of_pos (show 0 < double (1 / L) by linarith)]
    calc (2 : ℝ) ^ (-402 : ℤ) = 2 ^ (-400 : ℤ) * (1 / 4) := by rw [show (1 / 4 : ℝ) = 2 ^ (-2 : ℤ) by norm_num, ← zpow_add₀ two_ne_zero]; norm_num
      _ ≤ |x| * double (1 / L) := mul_le_mul hx hr (by norm_num) (abs_nonneg _)
  have e4 := ((Err.refl x).mul e3).round (Or.inr ((zpow_le_zpow_right₀ one_le_two (by norm_num)).trans hb))
  rw [← abs_mul] at e4
  refine ⟨e4, ?_⟩
  have hd : IsDouble ((2 : ℝ) ^ (-402 : ℤ)) := ⟨1, -402, by norm_num, by norm_num, by simp⟩
  have : Big (-402) (double (x * double (1 / L))) := by
    refine ⟨isDouble_double _, Or.inr ?_⟩
    rcases le_abs.1 hb with h | h
    · have := double_mono h
      rw [double_of_isDouble hd] at this
      exact this.trans (le_abs_self _)
    · have := double_mono h
      rw [double_of_isDouble hd, double_neg] at this
      exact this.trans (neg_le_abs _)
  exact this.grid

theorem cross_flt {a b B : V3 ℝ} (ha : BigV (-400) a) (hb : ∀ i, Flt 8 (-455) (b.get i) (B.get i) |B.get i|) (hA : ∀ i, |a.get i| ≤ 2) (hB : ∀ i, |B.get i| ≤ 1) (i : Fin 3) :
    Err 10 ((crossR a b).get i) ((cross a B).get i) 4 := by
  have p : ∀ i j, Flt 9 (-908) (double (a.get i * b.get j)) (a.get i * B.get j) 2 := fun i j => by
    have hai : Big (-400) (a.get i) := by fin_cases i; exacts [ha.1, ha.2.1, ha.2.2]
    have := (Flt.refl hai.grid).rmul (by norm_num) (hb j)
    refine this.mono (by norm_num) ?_
    calc |a.get i| * |B.get j| ≤ 2 * 1 := mul_le_mul (hA i) (hB j) (abs_nonneg _) (by norm_num)
      _ = 2 := by norm_num
  have q : ∀ i j i' j', Err 10 (double (double (a.get i * b.get j) - double (a.get i' * b.get j'))) (a.get i * B.get j - a.get i' * B.get j') 4 := fun i j i' j' => by
    have := ((p i j).rsub (by norm_num) (p i' j')).err
    norm_num only at this
    exact this
  fin_cases i
  · exact q 1 2 2 1
  · exact q 2 0 0 2
  · exact q 0 1 1 0

theorem dot_close {p q P Q : V3 ℝ} {ε : ℝ} (hp : ∀ i, |p.get i - P.get i| ≤ ε) (hq : ∀ i, |q.get i - Q.get i| ≤ ε) (hP : ∀ i, |P.get i| ≤ 2) (hQ : ∀ i, |Q.get i| ≤ 2) (h1 : ε ≤ 1) :
    |dot p q - dot P Q| ≤ 15 * ε := by
  have t : ∀ i, |p.get i * q.get i - P.get i * Q.get i| ≤ 5 * ε := fun i => by
    have h0 := (abs_nonneg _).trans (hp i)
    rw [show p.get i * q.get i - P.get i * Q.get i = (p.get i - P.get i) * (q.get i - Q.get i) + (p.get i - P.get i) * Q.get i + P.get i * (q.get i - Q.get i) by ring]
    refine (abs_add_three _ _ _).trans ?_
    rw [abs_mul, abs_mul, abs_mul]
    have a := mul_le_mul (hp i) ((hq i).trans h1) (abs_nonneg _) h0
    have b := mul_le_mul (hp i) (hQ i) (abs_nonneg _) h0
    have c := mul_le_mul (hP i) (hq i) (abs_nonneg _) (by norm_num)
    linarith
  have a := abs_le.1 (t 0); have b := abs_le.1 (t 1); have c := abs_le.1 (t 2)
  simp only [V3.get] at a b c
  simp only [dot]
  rw [abs_le]
  constructor <;> linarith

theorem big_neg {l : ℤ} {x : ℝ} (h : Big l x) : Big l (-x) := ⟨isDouble_neg h.1, by rw [neg_eq_zero, abs_neg]; exact h.2⟩

/-- the exact second vector, and the computed one -/
theorem frame_flt {v : V3 ℝ} (hv : BigV (-400) v) (hu : |sqLength v - 1| ≤ 1 / 8) :
    (coordinateSystemR v).1 = v ∧ (coordinateSystemR v).2.2 = crossR v (coordinateSystemR v).2.1 ∧
    ∃ B : V3 ℝ, sqLength B = 1 ∧ dot v B = 0 ∧ ∀ i, Flt 8 (-455) ((coordinateSystemR v).2.1.get i) (B.get i) |B.get i| := by
  have hu := abs_le.1 hu
  have h0 : v ≠ 0 := by
    rintro rfl
    have := hu.1
    simp [sqLength] at this
    norm_num at this
  obtain ⟨hl, hp⟩ := length_err hv h0
  have hlp : lengthR v ≠ 0 := by have := (err_pos (by norm_num) hl hp).1; intro h; linarith
  have zf : ∀ k, Flt k (-455) (0 : ℝ) 0 |0| := fun k => by rw [abs_zero]; exact ⟨Err.zero _, 0, by simp⟩
  simp only [sqLength] at hu
  by_cases hxy : |v.x| > |v.y|
  · simp only [coordinateSystemR, if_neg hlp, if_pos hxy]
    have hsq : v.y * v.y ≤ v.x * v.x := by
      rw [← abs_mul_abs_self v.y, ← abs_mul_abs_self v.x]; exact mul_le_mul hxy.le hxy.le (abs_nonneg _) (abs_nonneg _)
    have h1 : 1 / 4 ≤ v.x * v.x + v.z * v.z := by nlinarith [mul_self_nonneg v.z]
    have h2 : v.x * v.x + v.z * v.z ≤ 4 := by nlinarith [mul_self_nonneg v.y]
    have f := perp hv.1 hv.2.2 h1 h2
    have hW : √(v.x * v.x + v.z * v.z) * √(v.x * v.x + v.z * v.z) = v.x * v.x + v.z * v.z := Real.mul_self_sqrt (by linarith)
    have hW0 : √(v.x * v.x + v.z * v.z) ≠ 0 := (Real.sqrt_pos.2 (by linarith)).ne'
    refine ⟨trivial, trivial, ⟨-v.z * (1 / √(v.x * v.x + v.z * v.z)), 0, v.x * (1 / √(v.x * v.x + v.z * v.z))⟩, ?_, ?_, ?_⟩
    · generalize √(v.x * v.x + v.z * v.z) = W at *
      simp only [sqLength]
      field_simp
      linear_combination -hW
    · simp only [dot]; ring
    · intro i
      fin_cases i
      · exact f (-v.z) (big_neg hv.2.2)
      · exact zf 8
      · exact f v.x hv.1
  · simp only [coordinateSystemR, if_neg hlp, if_neg hxy]
    have hxy' := not_lt.1 hxy
    have hsq : v.x * v.x ≤ v.y * v.y := by
      rw [← abs_mul_abs_self v.y, ← abs_mul_abs_self v.x]; exact mul_le_mul hxy' hxy' (abs_nonneg _) (abs_nonneg _)
    have h1 : 1 / 4 ≤ v.y * v.y + v.z * v.z := by nlinarith [mul_self_nonneg v.z]
    have h2 : v.y * v.y + v.z * v.z ≤ 4 := by nlinarith [mul_self_nonneg v.x]
    have f := perp hv.2.1 hv.2.2 h1 h2
    have hW : √(v.y * v.y + v.z * v.z) * √(v.y * v.y + v.z * v.z) = v.y * v.y + v.z * v.z := Real.mul_self_sqrt (by linarith)
    have hW0 : √(v.y * v.y + v.z * v.z) ≠ 0 := (Real.sqrt_pos.2 (by linarith)).ne'
    refine ⟨trivial, trivial, ⟨0, -v.z * (1 / √(v.y * v.y + v.z * v.z)), v.y * (1 / √(v.y * v.y + v.z * v.z))⟩, ?_, ?_, ?_⟩
    · generalize √(v.y * v.y + v.z * v.z) = W at *
      simp only [sqLength]
      field_simp
      linear_combination -hW
    · simp only [dot]; ring
    · intro i
      fin_cases i
      · exact zf 8
      · exact f (-v.z) (big_neg hv.2.2)
      · exact f v.y hv.2.1

theorem comp_le {v : V3 ℝ} {b : ℝ} (h : sqLength v ≤ b * b) (hb : 0 ≤ b) (i : Fin 3) : |v.get i| ≤ b := by
  apply abs_le_of_sq_le_sq _ hb
  simp only [sqLength] at h
  fin_cases i <;> simp only [V3.get] <;> nlinarith [mul_self_nonneg v.x, mul_self_nonneg v.y, mul_self_nonneg v.z]

/-- orthonormal up to `ε`, the third the vector product of the first two -/
structure Nearly (ε : ℝ) (a b c : V3 ℝ) : Prop where
  a1 : |sqLength a - 1| ≤ ε
  b1 : |sqLength b - 1| ≤ ε
  c1 : |sqLength c - 1| ≤ ε
  ab : |dot a b| ≤ ε
  ac : |dot a c| ≤ ε
  bc : |dot b c| ≤ ε
  hand : ∀ i, |c.get i - (cross a b).get i| ≤ ε

/-- **C183** The coordinate system built on a vector of about unit length is orthonormal up to rounding and up to how far that vector is from unit length. -/
theorem C183_frame (v : V3 ℝ) (hv : BigV (-400) v) (τ : ℝ) (hτ : τ ≤ 1 / 8) (hu : |sqLength v - 1| ≤ τ) :
    (coordinateSystemR v).1 = v ∧ Nearly (2 ^ (-42 : ℤ) + τ) (coordinateSystemR v).1 (coordinateSystemR v).2.1 (coordinateSystemR v).2.2 := by
  obtain ⟨e1, e3, B, hB1, hB0, f⟩ := frame_flt hv (hu.trans hτ)
  set b := (coordinateSystemR v).2.1 with hb
  have hu' := abs_le.1 hu
  have hτ0 : 0 ≤ τ := (abs_nonneg _).trans hu
  have hv2 : ∀ i, |v.get i| ≤ 2 := comp_le (by linarith) (by norm_num)
  have hBc : ∀ i, |B.get i| ≤ 1 := comp_le (by linarith) (by norm_num)
  have fc := cross_flt hv f hv2 hBc
  have hC1 : sqLength (cross v B) = sqLength v := by
    have : sqLength (cross v B) = sqLength v * sqLength B - dot v B * dot v B := by simp only [sqLength, cross, dot]; ring
    rw [this, hB1, hB0]; ring
  have hC2 : ∀ i, |(cross v B).get i| ≤ 2 := comp_le (by linarith) (by norm_num)
  have g10 : (1 + uu : ℝ) ^ 10 - 1 ≤ 2 ^ (-48 : ℤ) := by
    refine (g_le 10 (by norm_num)).trans ?_
    rw [uu, show (-48 : ℤ) = 5 + -53 by norm_num, zpow_add₀ two_ne_zero]
    norm_num
  have eb : ∀ i, |b.get i - B.get i| ≤ 2 ^ (-46 : ℤ) := fun i => by
    refine ((f i).err.mono (show 8 ≤ 10 by norm_num) (hBc i)).1.trans ?_
    rw [mul_one]
    exact g10.trans (zpow_le_zpow_right₀ one_le_two (by norm_num))
  have ec : ∀ i, |(crossR v b).get i - (cross v B).get i| ≤ 2 ^ (-46 : ℤ) := fun i => by
    refine (fc i).1.trans ((mul_le_mul_of_nonneg_right g10 (by norm_num)).trans (le_of_eq ?_))
    rw [show (-46 : ℤ) = -48 + 2 by norm_num, zpow_add₀ two_ne_zero]; norm_num
  have ev : ∀ i, |v.get i - v.get i| ≤ 2 ^ (-46 : ℤ) := fun i => by rw [sub_self, abs_zero]; exact (two_zpow_pos _).le
  have hB2 : ∀ i, |B.get i| ≤ 2 := fun i => (hBc i).trans (by norm_num)
  have h46 : (2 : ℝ) ^ (-46 : ℤ) ≤ 1 := zpow_le_one_of_nonpos₀ one_le_two (by norm_num)
  have kh : ∀ i, |(crossR v b).get i - (cross v b).get i| ≤ 5 * 2 ^ (-46 : ℤ) := by
    have t : ∀ i j, |v.get i * (b.get j - B.get j)| ≤ 2 * 2 ^ (-46 : ℤ) := fun i j => by
      rw [abs_mul]; exact mul_le_mul (hv2 i) (eb j) (abs_nonneg _) (by norm_num)
    have u : ∀ i j i' j' (c : ℝ), |c - (v.get i * B.get j - v.get i' * B.get j')| ≤ 2 ^ (-46 : ℤ) → |c - (v.get i * b.get j - v.get i' * b.get j')| ≤ 5 * 2 ^ (-46 : ℤ) := fun i j i' j' c hc => by
      have a := abs_le.1 (t i j); have a' := abs_le.1 (t i' j'); have hc := abs_le.1 hc
      generalize (2 : ℝ) ^ (-46 : ℤ) = ε at *
      rw [abs_le]
      constructor <;> linarith
    intro i
    fin_cases i
    · exact u 1 2 2 1 _ (ec 0)
    · exact u 2 0 0 2 _ (ec 1)
    · exact u 0 1 1 0 _ (ec 2)
  have k1 := dot_close eb eb hB2 hB2 h46
  have k2 := dot_close ec ec hC2 hC2 h46
  have k3 := dot_close ev eb hv2 hB2 h46
  have k4 := dot_close ev ec hv2 hC2 h46
  have k5 := dot_close eb ec hB2 hC2 h46
  have z1 : dot v (cross v B) = 0 := by simp only [dot, cross]; ring
  have z2 : dot B (cross v B) = 0 := by simp only [dot, cross]; ring
  have s : ∀ p : V3 ℝ, dot p p = sqLength p := fun p => rfl
  rw [s, s, hB1] at k1
  rw [s, s, hC1] at k2
  rw [hB0, sub_zero] at k3
  rw [z1, sub_zero] at k4
  rw [z2, sub_zero] at k5
  have h42 : (2 : ℝ) ^ (-42 : ℤ) = 16 * 2 ^ (-46 : ℤ) := by
    rw [show (-42 : ℤ) = 4 + -46 by norm_num, zpow_add₀ two_ne_zero]; norm_num
  have hp : (0 : ℝ) < 2 ^ (-46 : ℤ) := two_zpow_pos _
  refine ⟨e1, ?_⟩
  rw [e1, e3]
  rw [h42]
  generalize (2 : ℝ) ^ (-46 : ℤ) = ε at *
  refine ⟨hu.trans (by linarith), k1.trans (by linarith), ?_, k3.trans (by linarith), k4.trans (by linarith), k5.trans (by linarith), fun i => (kh i).trans (by linarith)⟩
  have k2 := abs_le.1 k2
  rw [abs_le]
  constructor <;> linarith

/-- **C183** Normalise any vector of moderate size and build a coordinate system on it: the three vectors are orthonormal up to `2^-41`. -/
theorem C183_normalized_frame (v : V3 ℝ) (hv : BigV (-200) v) (hs : SmallV v) (h0 : v ≠ 0) :
    Nearly (2 ^ (-41 : ℤ)) (coordinateSystemR (normalizeR v)).1 (coordinateSystemR (normalizeR v)).2.1 (coordinateSystemR (normalizeR v)).2.2 := by
  have hn := fun i => (normalize_err hv hs h0 i).2
  have h := (C183_frame (normalizeR v) ⟨hn 0, hn 1, hn 2⟩ (2 ^ (-46 : ℤ)) (by norm_num) (C183_unit v hv hs h0)).2
  have hle : (2 : ℝ) ^ (-42 : ℤ) + 2 ^ (-46 : ℤ) ≤ 2 ^ (-41 : ℤ) := by norm_num
  exact ⟨h.a1.trans hle, h.b1.trans hle, h.c1.trans hle, h.ab.trans hle, h.ac.trans hle, h.bc.trans hle, fun i => (h.hand i).trans hle⟩

/-- **C183** `face_forward` returns the normal or its opposite, and what it returns is on the side of the vector, up to rounding of the dot product. -/
theorem C183_face_forward (n v q : V3 ℝ) (hn : CoarseV n) (hv : CoarseV v) (h : FaceForwardR n v q) :
    (q = n ∨ q = -n) ∧ -(2 ^ (-50 : ℤ) * (|n.x| * |v.x| + |n.y| * |v.y| + |n.z| * |v.z|)) ≤ dot q v := by
  obtain ⟨s, hs, h⟩ := h
  have f := (dot_flt hn hv hs).err
  have e := abs_le.1 (f.1.trans (mul_le_mul_of_nonneg_right g3 f.nonneg))
  have e0 : n.get 0 * v.x + n.get 1 * v.y + n.get 2 * v.z = dot n v := rfl
  rw [e0] at e
  have e1 : |n.get 0| * |v.x| + |n.get 1| * |v.y| + |n.get 2| * |v.z| = |n.x| * |v.x| + |n.y| * |v.y| + |n.z| * |v.z| := rfl
  rw [e1] at e
  rcases h with ⟨h, rfl⟩ | ⟨h, rfl⟩
  · refine ⟨Or.inr rfl, ?_⟩
    have : dot (-n) v = -dot n v := by simp [dot]; ring
    rw [this]; linarith
  · exact ⟨Or.inl rfl, by have := not_lt.1 h; linarith⟩

/-- **C183** A vector that is not zero need not get unit length: for `(2^-600, 0, 0)` the squared length underflows and the vector is returned as it is. -/
theorem C183_tiny_false : normalizeR ⟨2 ^ (-600 : ℤ), 0, 0⟩ = ⟨2 ^ (-600 : ℤ), 0, 0⟩ := by
  have e : (2 : ℝ) ^ (-600 : ℤ) * 2 ^ (-600 : ℤ) = 2 ^ (-1200 : ℤ) := by rw [← zpow_add₀ two_ne_zero]; norm_num
  have h : double ((2 : ℝ) ^ (-600 : ℤ) * 2 ^ (-600 : ℤ)) = 0 := by
    apply double_tiny
    rw [e, abs_of_pos (two_zpow_pos _)]
    exact zpow_lt_zpow_right₀ one_lt_two (by norm_num)
  have hl : lengthR ⟨2 ^ (-600 : ℤ), 0, 0⟩ = 0 := by
    simp only [lengthR, sqLengthR]
    rw [h]
    simp [double_zero]
  simp only [normalizeR, hl, not_true_eq_false, if_false]

/-- a concrete case: the hypotheses hold for `(3, -4, 1/2)` -/
example : BigV (-200) ⟨3, -4, 1 / 2⟩ ∧ SmallV ⟨3, -4, 1 / 2⟩ ∧ (⟨3, -4, 1 / 2⟩ : V3 ℝ) ≠ 0 := by
  have h : (2 : ℝ) ^ (-200 : ℤ) ≤ 1 / 2 := by
    rw [show (1 / 2 : ℝ) = 2 ^ (-1 : ℤ) by norm_num]; exact zpow_le_zpow_right₀ one_le_two (by norm_num)
  have h' : (4 : ℝ) ≤ 2 ^ (150 : ℤ) := by
    rw [show (4 : ℝ) = 2 ^ (2 : ℤ) by norm_num]; exact zpow_le_zpow_right₀ one_le_two (by norm_num)
  refine ⟨⟨⟨⟨3, 0, by norm_num, by norm_num, by norm_num⟩, Or.inr ?_⟩, ⟨⟨-4, 0, by norm_num, by norm_num, by norm_num⟩, Or.inr ?_⟩, ⟨⟨1, -1, by norm_num, by norm_num, by norm_num⟩, Or.inr ?_⟩⟩, ⟨?_, ?_, ?_⟩, ?_⟩
  · rw [abs_of_pos (by norm_num)]; linarith
  · rw [abs_of_neg (by norm_num)]; linarith
  · rw [abs_of_pos (by norm_num)]; exact h
  · rw [abs_of_pos (by norm_num)]; linarith
  · rw [abs_of_neg (by norm_num)]; linarith
  · rw [abs_of_pos (by norm_num)]; linarith
  · intro h
    have := congrArg V3.x h
    simp at this

end Verif.GeomR
