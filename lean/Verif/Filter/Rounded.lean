import Verif.Filter.Filters
import Verif.MC.Rounded

/-!
# Triangle and Gaussian filters in rounded arithmetic (C210)

`TriangleFilter` and `GaussianFilter` (`pytracer/filter/filter.py` 40-57) with every operation rounded to binary64.
-/

namespace Verif.FilterR
open Verif.Rnd Verif.MCR

/-! ### Model -/

/-- one factor `np.fmax(0., self.xw - np.fabs(x))` of `TriangleFilter.__call__`, filter.py 42-43 -/
noncomputable def tentR (w x : ℝ) : ℝ := max 0 (double (w - |x|))

/-- `TriangleFilter.__call__`, filter.py 42-43 -/
noncomputable def triangleR (xw yw x y : ℝ) : ℝ := double (tentR xw x * tentR yw y)

/-- `np.exp(-self.alpha * d * d)`, filter.py 50-51 and 57; `expR` is `np.exp` -/
noncomputable def bellR (expR : ℝ → ℝ) (alpha d : ℝ) : ℝ := expR (double (double (-alpha * d) * d))

/-- `GaussianFilter.gaussian`, filter.py 56-57 -/
noncomputable def gaussR (expR : ℝ → ℝ) (alpha d expv : ℝ) : ℝ := max 0 (double (bellR expR alpha d - expv))

/-- `GaussianFilter.__init__` and `__call__`, filter.py 47-54 -/
noncomputable def gaussianR (expR : ℝ → ℝ) (xw yw alpha x y : ℝ) : ℝ :=
  double (gaussR expR alpha x (bellR expR alpha xw) * gaussR expR alpha y (bellR expR alpha yw))

/-! ### Specification -/

/-- what a reconstruction filter of half-widths `xw`, `yw` should satisfy: symmetric, never negative, zero from its edge on, and not increasing away from the centre -/
structure Proper (f : ℝ → ℝ → ℝ) (xw yw : ℝ) : Prop where
  symm : ∀ x y, f (-x) y = f x y ∧ f x (-y) = f x y
  nonneg : ∀ x y, 0 ≤ f x y
  support : ∀ x y, xw ≤ |x| ∨ yw ≤ |y| → f x y = 0
  falls : ∀ x y x' y', |x| ≤ |x'| → |y| ≤ |y'| → f x' y' ≤ f x y

/-- an accurate `np.exp` of numbers that are not positive -/
def Exp (expR : ℝ → ℝ) : Prop := ∀ x ≤ 0, |expR x - Real.exp x| ≤ 2 ^ (-52 : ℤ)

/-! ### Lemmas -/

/-- a product of two proper factors -/
theorem proper_mul {g h : ℝ → ℝ} {xw yw : ℝ} (g1 : ∀ x, g (-x) = g x) (g2 : ∀ x, 0 ≤ g x) (g3 : ∀ x, xw ≤ |x| → g x = 0) (g4 : ∀ x x', |x| ≤ |x'| → g x' ≤ g x)
    (h1 : ∀ x, h (-x) = h x) (h2 : ∀ x, 0 ≤ h x) (h3 : ∀ x, yw ≤ |x| → h x = 0) (h4 : ∀ x x', |x| ≤ |x'| → h x' ≤ h x) : Proper (fun x y => double (g x * h y)) xw yw where
  symm x y := by simp only [g1, h1, and_self]
  nonneg x y := d_nonneg (mul_nonneg (g2 x) (h2 y))
  support x y hh := by
    rcases hh with hh | hh
    · simp only [g3 x hh, zero_mul, double_zero]
    · simp only [h3 y hh, mul_zero, double_zero]
  falls x y x' y' a b := double_mono (mul_le_mul (g4 x x' a) (h4 y y' b) (h2 y') (g2 x))

theorem double_nonpos {x : ℝ} (h : x ≤ 0) : double x ≤ 0 := by have := double_mono h; rwa [double_zero] at this

theorem tent_zero {w x : ℝ} (h : w ≤ |x|) : tentR w x = 0 := max_eq_left (double_nonpos (by linarith))

theorem tent_falls {w x x' : ℝ} (h : |x| ≤ |x'|) : tentR w x' ≤ tentR w x := max_le_max le_rfl (double_mono (by linarith))

theorem tent_err {w x : ℝ} (hw : IsDouble w) (hx : IsDouble x) : |tentR w x - max 0 (w - |x|)| ≤ 2 ^ (-53 : ℤ) * max 0 (w - |x|) := by
  have ha : IsDouble |x| := by
    rcases abs_choice x with h | h <;> rw [h]
    · exact hx
    · have := isDouble_double (-x); rwa [double_neg, double_of_isDouble hx] at this
  unfold tentR
  rcases le_total (w - |x|) 0 with h | h
  · rw [max_eq_left h, max_eq_left (double_nonpos h)]; simp
  · rw [max_eq_right h, max_eq_right (d_nonneg h)]
    have := sub_err hw ha
    rwa [abs_of_nonneg h] at this

/-- the argument of the exponential does not increase away from the centre -/
theorem arg_falls {a d d' : ℝ} (a0 : 0 ≤ a) (h : |d| ≤ |d'|) : double (double (-a * d') * d') ≤ double (double (-a * d) * d) := by
  have key : ∀ x, double (double (-a * x) * x) = -double (double (a * |x|) * |x|) := by
    intro x
    rcases abs_choice x with e | e <;> rw [e]
    · rw [neg_mul, double_neg, neg_mul, double_neg]
    · rw [← double_neg]; congr 1
      have : a * -x = -a * x := by ring
      rw [this]; ring
  rw [key, key]
  refine neg_le_neg (double_mono (mul_le_mul (double_mono (mul_le_mul_of_nonneg_left h a0)) h (abs_nonneg _) (d_nonneg (mul_nonneg a0 (abs_nonneg _)))))

theorem arg_neg (a d : ℝ) : double (double (-a * -d) * -d) = double (double (-a * d) * d) := by
  simp only [mul_neg, neg_mul, double_neg, neg_neg]

theorem exp_lip {a b : ℝ} (ha : a ≤ 0) (hb : b ≤ 0) : |Real.exp a - Real.exp b| ≤ |a - b| := by
  have key : ∀ a b : ℝ, a ≤ b → b ≤ 0 → Real.exp b - Real.exp a ≤ b - a := by
    intro a b h hb
    have h1 := Real.add_one_le_exp (a - b)
    have h2 : Real.exp a = Real.exp b * Real.exp (a - b) := by rw [← Real.exp_add]; congr 1; ring
    have h3 : Real.exp b ≤ 1 := Real.exp_le_one_iff.2 hb
    have h4 := Real.exp_pos b
    nlinarith
  rcases le_total a b with h | h
  · rw [abs_sub_comm, abs_sub_comm a, abs_of_nonneg (sub_nonneg.2 (Real.exp_le_exp.2 h)), abs_of_nonneg (sub_nonneg.2 h)]; exact key a b h hb
  · rw [abs_of_nonneg (sub_nonneg.2 (Real.exp_le_exp.2 h)), abs_of_nonneg (sub_nonneg.2 h)]; exact key b a h ha

/-- the exponential, for arguments that are not extreme -/
theorem bell_err {expR : ℝ → ℝ} (h : Exp expR) {a d : ℝ} (a0 : 0 ≤ a) (ht : a * d * d ≤ 64) (hd : |d| ≤ 2 ^ 20) : |bellR expR a d - Real.exp (-a * d * d)| ≤ 2 ^ (-44 : ℤ) := by
  have n0 : double (double (-a * d) * d) ≤ 0 := by
    have := arg_falls a0 (show |(0 : ℝ)| ≤ |d| by simp)
    simpa [double_zero] using this
  have t0 : 0 ≤ a * d * d := by rw [mul_assoc]; exact mul_nonneg a0 (mul_self_nonneg d)
  have m0 : -a * d * d ≤ 0 := by linarith
  have e1 := double_err (-a * d)
  have e2 := double_err (double (-a * d) * d)
  have z : (2 : ℝ) ^ (-1075 : ℤ) ≤ 2 ^ (-100 : ℤ) := zpow_le_zpow_right₀ (by norm_num) (by norm_num)
  have g1 : |double (-a * d) * d - -a * d * d| ≤ 2 ^ (-46 : ℤ) := by
    rw [← sub_mul, abs_mul]
    refine (mul_le_mul_of_nonneg_right e1 (abs_nonneg d)).trans ?_
    have i : (2 ^ (-53 : ℤ) * |-a * d| + 2 ^ (-1075 : ℤ)) * |d| = 2 ^ (-53 : ℤ) * (a * d * d) + 2 ^ (-1075 : ℤ) * |d| := by
      rw [abs_mul, abs_neg, abs_of_nonneg a0]
      have := abs_mul_abs_self d
      rw [mul_assoc a d d, ← this]; ring
    rw [i]
    have j : (2 : ℝ) ^ (-1075 : ℤ) * |d| ≤ 2 ^ (-100 : ℤ) * 2 ^ 20 := mul_le_mul z hd (abs_nonneg _) (by positivity)
    generalize (2 : ℝ) ^ (-1075 : ℤ) * |d| = k at *
    norm_num at *
    linarith
  have g2 : |double (double (-a * d) * d) - -a * d * d| ≤ 2 ^ (-45 : ℤ) := by
    have b : |double (-a * d) * d| ≤ 65 := by
      have := abs_le.1 g1
      rw [abs_le]; norm_num at *; constructor <;> linarith
    have e3 : (2 : ℝ) ^ (-53 : ℤ) * |double (-a * d) * d| ≤ 2 ^ (-53 : ℤ) * 65 := mul_le_mul_of_nonneg_left b (by positivity)
    have t : |double (double (-a * d) * d) - -a * d * d| ≤ |double (double (-a * d) * d) - double (-a * d) * d| + |double (-a * d) * d - -a * d * d| := by
      have := abs_add_le (double (double (-a * d) * d) - double (-a * d) * d) (double (-a * d) * d - -a * d * d)
      rwa [sub_add_sub_cancel] at this
    clear * - e2 e3 z t g1
    generalize (2 : ℝ) ^ (-1075 : ℤ) = y at *
    generalize |double (double (-a * d) * d) - -a * d * d| = A at *
    generalize |double (double (-a * d) * d) - double (-a * d) * d| = B at *
    generalize |double (-a * d) * d - -a * d * d| = C at *
    generalize |double (-a * d) * d| = D at *
    norm_num at *
    linarith
  have l := exp_lip n0 m0
  have x := h _ n0
  have t := abs_add_le (expR (double (double (-a * d) * d)) - Real.exp (double (double (-a * d) * d))) (Real.exp (double (double (-a * d) * d)) - Real.exp (-a * d * d))
  rw [sub_add_sub_cancel] at t
  unfold bellR
  have w : (2 : ℝ) ^ (-52 : ℤ) + 2 ^ (-45 : ℤ) ≤ 2 ^ (-44 : ℤ) := by norm_num
  linarith

theorem gauss_err {expR : ℝ → ℝ} (h : Exp expR) {a d w : ℝ} (a0 : 0 ≤ a) (ht : a * d * d ≤ 64) (hd : |d| ≤ 2 ^ 20) (ht' : a * w * w ≤ 64) (hd' : |w| ≤ 2 ^ 20) :
    |gaussR expR a d (bellR expR a w) - Filter.gauss a d (Real.exp (-a * w * w))| ≤ 2 ^ (-42 : ℤ) ∧ gaussR expR a d (bellR expR a w) ≤ 3 / 2 ∧ Filter.gauss a d (Real.exp (-a * w * w)) ≤ 1 := by
  have e1 := bell_err h a0 ht hd
  have e2 := bell_err h a0 ht' hd'
  have t0 : ∀ x, -a * x * x ≤ 0 := fun x => by
    have : 0 ≤ a * x * x := by rw [mul_assoc]; exact mul_nonneg a0 (mul_self_nonneg x)
    linarith
  have u1 : Real.exp (-a * d * d) ≤ 1 := Real.exp_le_one_iff.2 (t0 d)
  have u2 : Real.exp (-a * w * w) ≤ 1 := Real.exp_le_one_iff.2 (t0 w)
  have v1 := Real.exp_pos (-a * d * d)
  have v2 := Real.exp_pos (-a * w * w)
  unfold gaussR Filter.gauss
  generalize bellR expR a d = X at *
  generalize bellR expR a w = Y at *
  generalize Real.exp (-a * d * d) = x at *
  generalize Real.exp (-a * w * w) = y at *
  have r := near (x := X - Y) (by
    norm_num at *
    rw [abs_le] at *; constructor <;> linarith)
  have f : |double (X - Y) - (x - y)| ≤ 2 ^ (-42 : ℤ) := by
    clear * - e1 e2 r
    generalize double (X - Y) = Z at *
    norm_num at *
    rw [abs_le] at *; constructor <;> linarith
  refine ⟨(abs_max_sub_max_le_max 0 _ 0 _).trans (max_le (by rw [sub_self, abs_zero]; positivity) f), max_le (by norm_num) ?_, max_le (by norm_num) (by linarith)⟩
  have := (abs_le.1 f).2
  norm_num at this
  linarith

/-! ### Theorems -/

/-- **C210** the triangle filter computed in binary64 is a proper filter, exactly … -/
theorem C210_triangle (xw yw : ℝ) : Proper (triangleR xw yw) xw yw :=
  proper_mul (fun x => by simp only [tentR, abs_neg]) (fun _ => le_max_left _ _) (fun _ => tent_zero) (fun _ _ => tent_falls)
    (fun x => by simp only [tentR, abs_neg]) (fun _ => le_max_left _ _) (fun _ => tent_zero) (fun _ _ => tent_falls)

/-- **C210** … and within a relative `2^-51` of the exact one, up to the edge (and an underflow) … -/
theorem C210_triangle_accurate (xw yw x y : ℝ) (h1 : IsDouble xw) (h2 : IsDouble yw) (h3 : IsDouble x) (h4 : IsDouble y) :
    |triangleR xw yw x y - (Filter.Flt.triangle xw yw).eval x y| ≤ 2 ^ (-51 : ℤ) * (Filter.Flt.triangle xw yw).eval x y + 2 ^ (-1075 : ℤ) := by
  have a := tent_err h1 h3
  have b := tent_err h2 h4
  simp only [Filter.Flt.eval, triangleR]
  have p0 : 0 ≤ max 0 (xw - |x|) := le_max_left _ _
  have q0 : 0 ≤ max 0 (yw - |y|) := le_max_left _ _
  have P0 : 0 ≤ tentR xw x := le_max_left _ _
  have Q0 : 0 ≤ tentR yw y := le_max_left _ _
  generalize max 0 (xw - |x|) = p at *
  generalize max 0 (yw - |y|) = q at *
  generalize tentR xw x = P at *
  generalize tentR yw y = Q at *
  have r := double_err (P * Q)
  rw [abs_of_nonneg (mul_nonneg P0 Q0)] at r
  have pq : 0 ≤ p * q := mul_nonneg p0 q0
  have m1' : |(P - p) * Q| ≤ 2 ^ (-53 : ℤ) * p * (1 + 2 ^ (-53 : ℤ)) * q := by
    rw [abs_mul, abs_of_nonneg Q0, mul_assoc _ _ q]
    refine mul_le_mul a ?_ Q0 (by positivity)
    have := (abs_le.1 b).2; linarith
  have m2 : |p * (Q - q)| ≤ p * (2 ^ (-53 : ℤ) * q) := by
    rw [abs_mul, abs_of_nonneg p0]; exact mul_le_mul_of_nonneg_left b p0
  have e : P * Q - p * q = (P - p) * Q + p * (Q - q) := by ring
  have m3 : |P * Q - p * q| ≤ 2 ^ (-53 : ℤ) * (2 + 2 ^ (-53 : ℤ)) * (p * q) := by
    rw [e]; refine (abs_add_le _ _).trans ?_
    refine (add_le_add m1' m2).trans (le_of_eq ?_); ring
  have m4 := (abs_le.1 m3).2
  have t : |double (P * Q) - p * q| ≤ |double (P * Q) - P * Q| + |P * Q - p * q| := by
    rw [show double (P * Q) - p * q = (double (P * Q) - P * Q) + (P * Q - p * q) by ring]; exact abs_add_le _ _
  clear * - r m3 m4 t pq
  generalize (2 : ℝ) ^ (-1075 : ℤ) = z at *
  generalize P * Q = U at *
  generalize p * q = u at *
  generalize double U = U' at *
  norm_num at *
  linarith

/-- **C210** … the Gaussian filter is a proper filter for every `np.exp` that is monotone -/
theorem C210_gaussian (expR : ℝ → ℝ) (mono : Monotone expR) (xw yw alpha : ℝ) (a0 : 0 ≤ alpha) (x0 : 0 ≤ xw) (y0 : 0 ≤ yw) : Proper (gaussianR expR xw yw alpha) xw yw := by
  have n : ∀ v x, gaussR expR alpha (-x) v = gaussR expR alpha x v := fun v x => by simp only [gaussR, bellR, arg_neg]
  have s : ∀ w, 0 ≤ w → ∀ x, w ≤ |x| → gaussR expR alpha x (bellR expR alpha w) = 0 := fun w hw x hx =>
    max_eq_left (double_nonpos (sub_nonpos.2 (mono (arg_falls a0 (by rwa [abs_of_nonneg hw])))))
  have f : ∀ v x x', |x| ≤ |x'| → gaussR expR alpha x' v ≤ gaussR expR alpha x v := fun v x x' h =>
    max_le_max le_rfl (double_mono (sub_le_sub_right (mono (arg_falls a0 h)) v))
  exact proper_mul (n _) (fun _ => le_max_left _ _) (s xw x0) (f _) (n _) (fun _ => le_max_left _ _) (s yw y0) (f _)

/-- **C210** … and is within `2^-40` of the exact one for every accurate `np.exp`, as long as none of the arguments is extreme -/
theorem C210_gaussian_accurate {expR : ℝ → ℝ} (h : Exp expR) (xw yw alpha x y : ℝ) (a0 : 0 ≤ alpha) (hb : ∀ d ∈ [xw, yw, x, y], alpha * d * d ≤ 64 ∧ |d| ≤ 2 ^ 20) :
    |gaussianR expR xw yw alpha x y - (Filter.Flt.gaussian xw yw alpha).eval x y| ≤ 2 ^ (-40 : ℤ) := by
  have b1 := hb xw (by simp)
  have b2 := hb yw (by simp)
  have b3 := hb x (by simp)
  have b4 := hb y (by simp)
  obtain ⟨p1, p2, p3⟩ := gauss_err h a0 b3.1 b3.2 b1.1 b1.2
  obtain ⟨q1, q2, q3⟩ := gauss_err h a0 b4.1 b4.2 b2.1 b2.2
  simp only [gaussianR, Filter.Flt.eval]
  have P0 : 0 ≤ gaussR expR alpha x (bellR expR alpha xw) := le_max_left _ _
  have Q0 : 0 ≤ gaussR expR alpha y (bellR expR alpha yw) := le_max_left _ _
  have p0 : 0 ≤ Filter.gauss alpha x (Real.exp (-alpha * xw * xw)) := le_max_left _ _
  generalize gaussR expR alpha x (bellR expR alpha xw) = P at *
  generalize gaussR expR alpha y (bellR expR alpha yw) = Q at *
  generalize Filter.gauss alpha x (Real.exp (-alpha * xw * xw)) = p at *
  generalize Filter.gauss alpha y (Real.exp (-alpha * yw * yw)) = q at *
  have r := near8 (x := P * Q) (by
    rw [abs_of_nonneg (mul_nonneg P0 Q0)]
    exact (mul_le_mul p2 q2 Q0 (by norm_num)).trans (by norm_num))
  have m1 : |(P - p) * Q| ≤ 2 ^ (-42 : ℤ) * (3 / 2) := by
    rw [abs_mul, abs_of_nonneg Q0]; exact mul_le_mul p1 q2 Q0 (by positivity)
  have m2 : |p * (Q - q)| ≤ 1 * 2 ^ (-42 : ℤ) := by
    rw [abs_mul, abs_of_nonneg p0]; exact mul_le_mul p3 q1 (abs_nonneg _) (by norm_num)
  have e : double (P * Q) - p * q = (double (P * Q) - P * Q) + ((P - p) * Q + p * (Q - q)) := by ring
  rw [e]
  refine (abs_add_le _ _).trans ((add_le_add r ((abs_add_le _ _).trans (add_le_add m1 m2))).trans ?_)
  norm_num

/-- the two filters are not zero: the triangle at its centre -/
example : triangleR 2 2 0 0 = 4 := by
  have h2 : double (2 : ℝ) = 2 := double_of_isDouble ⟨2, 0, by norm_num, by norm_num, by norm_num⟩
  have h4 : double (4 : ℝ) = 4 := double_of_isDouble ⟨4, 0, by norm_num, by norm_num, by norm_num⟩
  norm_num [triangleR, tentR, h2, h4]

/-- the exact exponential is monotone and accurate -/
example : Exp Real.exp ∧ ∀ d ∈ [(2 : ℝ), 2, 1, 0], (2 : ℝ) * d * d ≤ 64 ∧ |d| ≤ 2 ^ 20 :=
  ⟨fun x _ => by rw [sub_self, abs_zero]; positivity, by norm_num⟩

/-- … -/
example : Proper (gaussianR Real.exp 2 2 2) 2 2 := C210_gaussian Real.exp Real.exp_monotone 2 2 2 (by norm_num) (by norm_num) (by norm_num)

end Verif.FilterR
