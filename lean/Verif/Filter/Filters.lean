import Mathlib.Analysis.SpecialFunctions.Trigonometric.Basic
import Mathlib.Analysis.SpecialFunctions.Trigonometric.Bounds
import Mathlib.Analysis.SpecialFunctions.Exp
import Mathlib.Topology.Order.OrderClosed
import Mathlib.Topology.Piecewise
import Mathlib.Analysis.Calculus.Deriv.Pow
import Mathlib.Analysis.Calculus.Deriv.Mul
import Mathlib.Tactic.Linarith
import Mathlib.Tactic.Ring
import Mathlib.Tactic.FieldSimp

/-!
# Reconstruction filters (C32)

Models `filter/filter.py`.  Scalars are real numbers.  The array branches of `mitchell` (lines 72-81) and `sinc` (lines 104-112) apply the scalar rule
to each entry, so only the scalar rule is written here; `np.fmax` on numbers is `max` (no NaN occurs here), `1. / xw` with `xw = 0` raises and is excluded by
`xw ≠ 0` or `0 < xw`.
-/

namespace Verif.Filter

/-- the tolerance `EPS`, `__init__.py` 23 -/
noncomputable def EPS : ℝ := 1 / 100000

/-- `Filter.__init__`, filter.py 21-25, and the parameters of the subclasses (47-51, 61-64, 93-95) -/
inductive Flt
  | box (xw yw : ℝ)
  | triangle (xw yw : ℝ)
  | gaussian (xw yw alpha : ℝ)
  | mitchell (b c xw yw : ℝ)
  | lanczos (xw yw tau : ℝ)

namespace Flt

/-- the half-width in x (`self.xw`, filter.py 22) -/
def xw : Flt → ℝ
  | box a _ => a
  | triangle a _ => a
  | gaussian a _ _ => a
  | mitchell _ _ a _ => a
  | lanczos a _ _ => a

/-- the half-width in y (`self.yw`, filter.py 23) -/
def yw : Flt → ℝ
  | box _ a => a
  | triangle _ a => a
  | gaussian _ a _ => a
  | mitchell _ _ _ a => a
  | lanczos _ a _ => a

end Flt

/-- `GaussianFilter.gaussian`, filter.py 56-57 -/
noncomputable def gauss (alpha d expv : ℝ) : ℝ := max 0 (Real.exp (-alpha * d * d) - expv)

/-- `MitchellFilter.mitchell`, filter.py 69-70, 83-89 -/
noncomputable def mitch (B C x0 : ℝ) : ℝ :=
  let x := |2 * x0|
  if x > 1 then
    ((-B - 6 * C) * x * x * x + (6 * B + 30 * C) * x * x + (-12 * B - 48 * C) * x + (8 * B + 24 * C)) * (1 / 6)
  else
    ((12 - 9 * B - 6 * C) * x * x * x + (-18 + 12 * B + 6 * C) * x * x + (6 - 2 * B)) * (1 / 6)

/-- numpy's `sinc`: `sin(pi x) / (pi x)`, and 1 at 0 (numpy documentation) -/
noncomputable def npSinc (x : ℝ) : ℝ := if x = 0 then 1 else Real.sin (Real.pi * x) / (Real.pi * x)

/-- `LanczosSincFilter.sinc`, filter.py 100-101, 114-118 -/
noncomputable def sinc (tau x0 : ℝ) : ℝ :=
  let x := |x0|
  if x < EPS then 1 else if x > 1 then 0 else npSinc (x * tau) * npSinc x

/-- `__call__` of the filters, filter.py 37-38, 42-43, 53-54, 66-67, 97-98 -/
noncomputable def Flt.eval : Flt → ℝ → ℝ → ℝ
  | .box _ _, _, _ => 1
  | .triangle xw yw, x, y => max 0 (xw - |x|) * max 0 (yw - |y|)
  | .gaussian xw yw a, x, y => gauss a x (Real.exp (-a * xw * xw)) * gauss a y (Real.exp (-a * yw * yw))
  | .mitchell b c xw yw, x, y => mitch b c (x * (1 / xw)) * mitch b c (y * (1 / yw))
  | .lanczos xw yw tau, x, y => sinc tau (x * (1 / xw)) * sinc tau (y * (1 / yw))

theorem mitch_neg (B C x : ℝ) : mitch B C (-x) = mitch B C x := by
  simp only [mitch, mul_neg, abs_neg]

theorem sinc_neg (t x : ℝ) : sinc t (-x) = sinc t x := by
  simp only [sinc, abs_neg]

theorem gauss_neg (a x e : ℝ) : gauss a (-x) e = gauss a x e := by
  simp only [gauss]; congr 3; ring

/-- **C32** every filter is symmetric in x and in y. -/
theorem C32_symmetric (f : Flt) (x y : ℝ) : f.eval (-x) y = f.eval x y ∧ f.eval x (-y) = f.eval x y := by
  cases f <;> simp only [Flt.eval, abs_neg, gauss_neg, neg_mul, mitch_neg, sinc_neg, and_self]

/-- **C32** every filter is a product of a function of x and a function of y. -/
theorem C32_separable (f : Flt) : ∃ g h : ℝ → ℝ, ∀ x y, f.eval x y = g x * h y := by
  cases f with
  | box a b => exact ⟨fun _ => 1, fun _ => 1, fun _ _ => by simp [Flt.eval]⟩
  | triangle a b => exact ⟨fun x => max 0 (a - |x|), fun y => max 0 (b - |y|), fun _ _ => rfl⟩
  | gaussian a b c => exact ⟨fun x => gauss c x (Real.exp (-c * a * a)), fun y => gauss c y (Real.exp (-c * b * b)), fun _ _ => rfl⟩
  | mitchell b c xw yw => exact ⟨fun x => mitch b c (x * (1 / xw)), fun y => mitch b c (y * (1 / yw)), fun _ _ => rfl⟩
  | lanczos a b t => exact ⟨fun x => sinc t (x * (1 / a)), fun y => sinc t (y * (1 / b)), fun _ _ => rfl⟩

theorem mitch_edge (B C x : ℝ) (h : |x| = 1) : mitch B C x = 0 := by
  have h2 : |2 * x| = 2 := by rw [abs_mul, h]; norm_num
  simp only [mitch, h2]
  norm_num
  ring

theorem npSinc_one : npSinc 1 = 0 := by simp [npSinc]

theorem sinc_edge (t x : ℝ) (h : 1 ≤ |x|) : sinc t x = 0 := by
  have h1 : ¬ |x| < EPS := by unfold EPS; push Not; linarith
  simp only [sinc, if_neg h1]
  split
  · rfl
  · rename_i h2
    have : |x| = 1 := le_antisymm (not_lt.1 h2) h
    rw [this, npSinc_one, mul_zero]

theorem gauss_edge (a x w : ℝ) (ha : 0 ≤ a) (hw : 0 ≤ w) (h : w ≤ |x|) : gauss a x (Real.exp (-a * w * w)) = 0 := by
  simp only [gauss]
  apply max_eq_left
  have : w * w ≤ x * x := by rw [← abs_mul_abs_self x]; exact mul_self_le_mul_self hw h
  have : Real.exp (-a * x * x) ≤ Real.exp (-a * w * w) := Real.exp_le_exp.2 (by nlinarith)
  linarith

/-- the filters other than the box, with parameters a user may give: positive half-widths and, for the Gaussian, `alpha ≥ 0` -/
def Flt.Proper : Flt → Prop
  | .box _ _ => False
  | .triangle xw yw => 0 < xw ∧ 0 < yw
  | .gaussian xw yw a => 0 < xw ∧ 0 < yw ∧ 0 ≤ a
  | .mitchell _ _ xw yw => 0 < xw ∧ 0 < yw
  | .lanczos xw yw _ => 0 < xw ∧ 0 < yw

theorem div_edge {w x : ℝ} (hw : 0 < w) (h : |x| = w) : |x * (1 / w)| = 1 := by
  rw [abs_mul, h, abs_of_pos (by positivity)]; field_simp

/-- **C32** every filter but the box is zero on the edge of its support rectangle. -/
theorem C32_edge (f : Flt) (hf : f.Proper) (x y : ℝ) (h : |x| = f.xw ∨ |y| = f.yw) : f.eval x y = 0 := by
  cases f with
  | box a b => exact hf.elim
  | triangle a b => rcases h with h | h <;> simp only [Flt.xw, Flt.yw] at h <;> simp [Flt.eval, h]
  | gaussian a b c =>
    obtain ⟨h1, h2, h3⟩ := hf
    rcases h with h | h <;> simp only [Flt.xw, Flt.yw] at h
    · rw [Flt.eval, gauss_edge c x a h3 h1.le h.ge, zero_mul]
    · rw [Flt.eval, gauss_edge c y b h3 h2.le h.ge, mul_zero]
  | mitchell b c a d =>
    obtain ⟨h1, h2⟩ := hf
    rcases h with h | h <;> simp only [Flt.xw, Flt.yw] at h
    · rw [Flt.eval, mitch_edge b c _ (div_edge h1 h), zero_mul]
    · rw [Flt.eval, mitch_edge b c _ (div_edge h2 h), mul_zero]
  | lanczos a b t =>
    obtain ⟨h1, h2⟩ := hf
    rcases h with h | h <;> simp only [Flt.xw, Flt.yw] at h
    · rw [Flt.eval, sinc_edge t _ (div_edge h1 h).ge, zero_mul]
    · rw [Flt.eval, sinc_edge t _ (div_edge h2 h).ge, mul_zero]

/-- **C32** the triangle, Gaussian and Lanczos filters are zero outside their support rectangle too. -/
theorem C32_outside (f : Flt) (hf : f.Proper) (hm : ∀ b c xw yw, f ≠ .mitchell b c xw yw) (x y : ℝ) (h : f.xw ≤ |x| ∨ f.yw ≤ |y|) : f.eval x y = 0 := by
  have hd : ∀ {w x : ℝ}, 0 < w → w ≤ |x| → 1 ≤ |x * (1 / w)| := by
    intro w x hw hx
    rw [abs_mul, abs_of_pos (show 0 < 1 / w by positivity), mul_one_div, le_div_iff₀ hw]; linarith
  cases f with
  | box a b => exact hf.elim
  | triangle a b =>
    rcases h with h | h <;> simp only [Flt.xw, Flt.yw] at h
    · rw [Flt.eval, max_eq_left (sub_nonpos.2 h), zero_mul]
    · rw [Flt.eval, max_eq_left (b := b - |y|) (sub_nonpos.2 h), mul_zero]
  | gaussian a b c =>
    obtain ⟨h1, h2, h3⟩ := hf
    rcases h with h | h <;> simp only [Flt.xw, Flt.yw] at h
    · rw [Flt.eval, gauss_edge c x a h3 h1.le h, zero_mul]
    · rw [Flt.eval, gauss_edge c y b h3 h2.le h, mul_zero]
  | mitchell b c a d => exact absurd rfl (hm b c a d)
  | lanczos a b t =>
    obtain ⟨h1, h2⟩ := hf
    rcases h with h | h <;> simp only [Flt.xw, Flt.yw] at h
    · rw [Flt.eval, sinc_edge t _ (hd h1 h), zero_mul]
    · rw [Flt.eval, sinc_edge t _ (hd h2 h), mul_zero]

/-- **C32** box, triangle and Gaussian filters are non-negative everywhere and positive inside the support (the Gaussian for `alpha > 0`), and never larger than at the centre. -/
theorem C32_nonneg (f : Flt) (hf : (∃ a b, f = .box a b) ∨ (∃ a b, f = .triangle a b) ∨ (∃ a b c, f = .gaussian a b c ∧ 0 < c)) (x y : ℝ) :
    0 ≤ f.eval x y ∧ f.eval x y ≤ f.eval 0 0 ∧ (|x| < f.xw → |y| < f.yw → 0 < f.eval x y) := by
  rcases hf with ⟨a, b, rfl⟩ | ⟨a, b, rfl⟩ | ⟨a, b, c, rfl, hc⟩
  · simp [Flt.eval]
  · simp only [Flt.eval, Flt.xw, Flt.yw, abs_zero, sub_zero]
    refine ⟨by positivity, ?_, fun h1 h2 => ?_⟩
    · apply mul_le_mul
      · exact max_le_max le_rfl (by linarith [abs_nonneg x])
      · exact max_le_max le_rfl (by linarith [abs_nonneg y])
      · exact le_max_left _ _
      · exact le_max_left _ _
    · exact mul_pos (lt_max_of_lt_right (by linarith)) (lt_max_of_lt_right (by linarith))
  · have hle : ∀ d e, gauss c d e ≤ gauss c 0 e := by
      intro d e
      refine max_le_max le_rfl (sub_le_sub_right (Real.exp_le_exp.2 ?_) _)
      nlinarith [mul_nonneg hc.le (mul_self_nonneg d)]
    have hpos : ∀ d w, |d| < w → 0 < gauss c d (Real.exp (-c * w * w)) := by
      intro d w h
      refine lt_max_of_lt_right (sub_pos.2 (Real.exp_lt_exp.2 ?_))
      have : d * d < w * w := by rw [← abs_mul_abs_self d]; exact mul_self_lt_mul_self (abs_nonneg d) h
      nlinarith [mul_pos hc (sub_pos.2 this)]
    exact ⟨mul_nonneg (le_max_left _ _) (le_max_left _ _),
      mul_le_mul (hle _ _) (hle _ _) (le_max_left _ _) (le_max_left _ _), fun h1 h2 => mul_pos (hpos _ _ h1) (hpos _ _ h2)⟩

/-! ### Mitchell -/

/-- **C32** the Mitchell kernel is continuous, for all B and C. -/
theorem C32_mitchell_continuous (B C : ℝ) : Continuous (mitch B C) := by
  have h : mitch B C = fun x0 => if |2 * x0| ≤ 1 then
      ((12 - 9 * B - 6 * C) * |2 * x0| * |2 * x0| * |2 * x0| + (-18 + 12 * B + 6 * C) * |2 * x0| * |2 * x0| + (6 - 2 * B)) * (1 / 6)
      else ((-B - 6 * C) * |2 * x0| * |2 * x0| * |2 * x0| + (6 * B + 30 * C) * |2 * x0| * |2 * x0| + (-12 * B - 48 * C) * |2 * x0| + (8 * B + 24 * C)) * (1 / 6) := by
    funext x0
    simp only [mitch]
    by_cases h : |2 * x0| ≤ 1
    · rw [if_pos h, if_neg (not_lt.2 h)]
    · rw [if_neg h, if_pos (not_le.1 h)]
  rw [h]
  refine Continuous.if_le (by fun_prop) (by fun_prop) (by fun_prop) continuous_const ?_
  intro x hx
  rw [hx]
  ring

/-- **C32** the Mitchell kernel, spread over `[-xw, xw]` and shifted by multiples of `xw / 2`, sums to one at every point, for all B and C: a constant image is reproduced.
(The four shifts are those whose support contains the point.) -/
theorem C32_mitchell_partition (B C xw t : ℝ) (hxw : 0 < xw) (h0 : 0 ≤ t) (h1 : t ≤ xw / 2) :
    mitch B C ((t - xw) * (1 / xw)) + mitch B C ((t - xw / 2) * (1 / xw)) + mitch B C (t * (1 / xw)) + mitch B C ((t + xw / 2) * (1 / xw)) = 1 := by
  obtain ⟨s, rfl⟩ : ∃ s, t = s * xw / 2 := ⟨2 * t / xw, by field_simp⟩
  have hs0 : 0 ≤ s := by
    by_contra hs
    nlinarith [mul_neg_of_neg_of_pos (not_le.1 hs) hxw]
  have hs1 : s ≤ 1 := by
    by_contra hs
    nlinarith [mul_lt_mul_of_pos_right (not_le.1 hs) hxw]
  have e1 : |2 * ((s * xw / 2 - xw) * (1 / xw))| = 2 - s := by
    rw [show 2 * ((s * xw / 2 - xw) * (1 / xw)) = -(2 - s) by field_simp; ring, abs_neg, abs_of_nonneg (by linarith)]
  have e2 : |2 * ((s * xw / 2 - xw / 2) * (1 / xw))| = 1 - s := by
    rw [show 2 * ((s * xw / 2 - xw / 2) * (1 / xw)) = -(1 - s) by field_simp; ring, abs_neg, abs_of_nonneg (by linarith)]
  have e3 : |2 * (s * xw / 2 * (1 / xw))| = s := by
    rw [show 2 * (s * xw / 2 * (1 / xw)) = s by field_simp, abs_of_nonneg hs0]
  have e4 : |2 * ((s * xw / 2 + xw / 2) * (1 / xw))| = 1 + s := by
    rw [show 2 * ((s * xw / 2 + xw / 2) * (1 / xw)) = 1 + s by field_simp; ring, abs_of_nonneg (by linarith)]
  simp only [mitch, e1, e2, e3, e4]
  rw [if_neg (show ¬ (1 - s > 1) by linarith), if_neg (show ¬ (s > 1) by linarith)]
  rcases hs0.eq_or_lt with rfl | hs0'
  · norm_num; ring
  rcases hs1.eq_or_lt with rfl | hs1'
  · norm_num; ring
  rw [if_pos (show 2 - s > 1 by linarith), if_pos (show 1 + s > 1 by linarith)]
  ring

/-- The Mitchell filter, unlike the others, is *not* zero outside its support: the outer cubic is used for every larger argument.  The film never asks
for such a value (C27), but a direct caller gets it. -/
theorem C32_mitchell_beyond_support : ¬ ∀ x : ℝ, 2 < |x| → (Flt.mitchell (1 / 3) (1 / 3) 2 2).eval x 0 = 0 := by
  intro h
  have := h 4 (by norm_num)
  simp only [Flt.eval, mitch] at this
  norm_num at this

theorem npSinc_abs (x : ℝ) : |npSinc x| ≤ 1 := by
  unfold npSinc
  split
  · simp
  · rw [abs_div]
    exact div_le_one_of_le₀ Real.abs_sin_le_abs (abs_nonneg _)

/-- **C32** the Lanczos filter has its largest magnitude, 1, at the centre. -/
theorem C32_lanczos_bounded (xw yw tau x y : ℝ) :
    |(Flt.lanczos xw yw tau).eval x y| ≤ 1 ∧ (Flt.lanczos xw yw tau).eval 0 0 = 1 := by
  have h : ∀ x, |sinc tau x| ≤ 1 := by
    intro x
    simp only [sinc]
    split
    · simp
    · split
      · simp
      · rw [abs_mul]
        exact mul_le_one₀ (npSinc_abs _) (abs_nonneg _) (npSinc_abs _)
  constructor
  · simp only [Flt.eval]
    rw [abs_mul]
    exact mul_le_one₀ (h _) (abs_nonneg _) (h _)
  · simp only [Flt.eval, sinc, zero_mul, abs_zero]
    rw [if_pos (by unfold EPS; norm_num)]; norm_num

/-! ### Concrete cases -/

example : (Flt.triangle 2 2).Proper ∧ (Flt.gaussian 2 2 (1 / 2)).Proper ∧ (Flt.mitchell (1 / 3) (1 / 3) 2 2).Proper ∧ (Flt.lanczos 4 4 3).Proper := by
  simp only [Flt.Proper]; norm_num

/-- values inside the support -/
example : (Flt.triangle 2 2).eval 1 (-1) = 1 ∧ (Flt.mitchell (1 / 3) (1 / 3) 2 2).eval 0 0 = (8 / 9) ^ 2 := by
  constructor
  · simp only [Flt.eval]; norm_num
  · simp only [Flt.eval, mitch]; norm_num

end Verif.Filter
