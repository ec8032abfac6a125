import Verif.Light.Light
import Verif.Reflection.BlinnRounded

/-!
# The falloff of spot lights in rounded arithmetic (C206)

`SpotLight.__falloff` (`pytracer/light/light.py` 173-188) with every operation rounded to binary64, in terms of the cosine `ct` that lines 180-181 compute.
-/

namespace Verif.SpotR
open Verif.Rnd Verif.MCR

/-! ### Model -/

open Classical in
/-- `SpotLight.__falloff`, light.py 181-188; `none` is the division by zero, which gives a NaN or an infinity -/
noncomputable def falloffR (cosWidth cosFalloff ct : ℝ) : Option ℝ :=
  if ct < cosWidth then some 0
  else if ct > cosFalloff then some 1
  else if double (cosFalloff - cosWidth) = 0 then none
  else
    let d := double (double (ct - cosWidth) / double (cosFalloff - cosWidth))
    some (double (double (double (d * d) * d) * d))

/-! ### Specification -/

/-- the smooth step from the edge of the cone to where the falloff starts: the fourth power of the fraction of the way -/
noncomputable def spot (cosWidth cosFalloff c : ℝ) : ℝ := (max 0 (min 1 ((c - cosWidth) / (cosFalloff - cosWidth)))) ^ 4

/-! ### Lemmas -/

/-- the product `d * d * d * d` -/
noncomputable def fourth (d : ℝ) : ℝ := double (double (double (d * d) * d) * d)

theorem unit_mul {a b : ℝ} (a0 : 0 ≤ a) (a1 : a ≤ 1) (b0 : 0 ≤ b) (b1 : b ≤ 1) : 0 ≤ double (a * b) ∧ double (a * b) ≤ 1 :=
  ⟨d_nonneg (mul_nonneg a0 b0), d_le_one (mul_le_one₀ a1 b0 b1)⟩

theorem fourth_unit {d : ℝ} (d0 : 0 ≤ d) (d1 : d ≤ 1) : 0 ≤ fourth d ∧ fourth d ≤ 1 := by
  obtain ⟨a0, a1⟩ := unit_mul d0 d1 d0 d1
  obtain ⟨b0, b1⟩ := unit_mul a0 a1 d0 d1
  exact unit_mul b0 b1 d0 d1

theorem fourth_mono {c d : ℝ} (c0 : 0 ≤ c) (h : c ≤ d) : fourth c ≤ fourth d := by
  have d0 := c0.trans h
  have a := double_mono (mul_le_mul h h c0 d0)
  have a0 : 0 ≤ double (c * c) := d_nonneg (mul_nonneg c0 c0)
  have b := double_mono (mul_le_mul a h c0 (a0.trans a))
  have b0 : 0 ≤ double (double (c * c) * c) := d_nonneg (mul_nonneg a0 c0)
  exact double_mono (mul_le_mul b h c0 (b0.trans b))

theorem fourth_one : fourth 1 = 1 := by simp [fourth, d_one]

theorem den_pos {cw cf : ℝ} (hw : IsDouble cw) (hf : IsDouble cf) (h : cw < cf) : 0 < double (cf - cw) :=
  (ieee (K := ℝ)).sub_pos (double_of_isDouble hw) (double_of_isDouble hf) h

/-- the fraction -/
noncomputable def frac (cw cf ct : ℝ) : ℝ := double (double (ct - cw) / double (cf - cw))

theorem frac_unit {cw cf ct : ℝ} (hw : IsDouble cw) (hf : IsDouble cf) (h : cw < cf) (h1 : cw ≤ ct) (h2 : ct ≤ cf) : 0 ≤ frac cw cf ct ∧ frac cw cf ct ≤ 1 := by
  have b := den_pos hw hf h
  refine ⟨d_nonneg (div_nonneg (d_nonneg (by linarith)) b.le), d_le_one ((div_le_one b).2 (double_mono (by linarith)))⟩

theorem mid {cw cf ct : ℝ} (hw : IsDouble cw) (hf : IsDouble cf) (h : cw < cf) (h1 : cw ≤ ct) (h2 : ct ≤ cf) : falloffR cw cf ct = some (fourth (frac cw cf ct)) := by
  unfold falloffR
  rw [if_neg (not_lt.2 h1), if_neg (not_lt.2 h2), if_neg (den_pos hw hf h).ne']
  rfl

/-! ### Theorems -/

/-- **C206** the falloff of a light whose falloff starts inside its cone: a number from 0 to 1 for every direction, zero outside the cone and one where the falloff has not started -/
theorem C206_range (cw cf : ℝ) (hw : IsDouble cw) (hf : IsDouble cf) (h : cw < cf) (ct : ℝ) :
    ∃ f, falloffR cw cf ct = some f ∧ 0 ≤ f ∧ f ≤ 1 ∧ (ct ≤ cw → f = 0) ∧ (cf ≤ ct → f = 1) := by
  rcases lt_or_ge ct cw with c | c
  · exact ⟨0, by simp [falloffR, c], le_rfl, zero_le_one, fun _ => rfl, fun c' => by linarith⟩
  rcases lt_or_ge cf ct with c' | c'
  · exact ⟨1, by simp [falloffR, not_lt.2 c, c'], zero_le_one, le_rfl, fun _ => by linarith, fun _ => rfl⟩
  obtain ⟨d0, d1⟩ := frac_unit hw hf h c c'
  obtain ⟨f0, f1⟩ := fourth_unit d0 d1
  refine ⟨_, mid hw hf h c c', f0, f1, fun e => ?_, fun e => ?_⟩
  · rw [le_antisymm e c]; simp [frac, fourth, double_zero]
  · rw [le_antisymm c' e, frac, div_self (den_pos hw hf h).ne', d_one, fourth_one]

/-- **C206** the light does not get darker towards the axis -/
theorem C206_monotone (cw cf : ℝ) (hw : IsDouble cw) (hf : IsDouble cf) (h : cw < cf) (c c' f f' : ℝ) (hc : c ≤ c') (e : falloffR cw cf c = some f) (e' : falloffR cw cf c' = some f') : f ≤ f' := by
  obtain ⟨g, eg, g0, g1, gw, gf⟩ := C206_range cw cf hw hf h c
  obtain ⟨g', eg', g0', g1', gw', gf'⟩ := C206_range cw cf hw hf h c'
  rw [e] at eg; rw [e'] at eg'
  cases eg; cases eg'
  rcases le_or_gt c cw with k | k
  · rw [gw k]; exact g0'
  rcases le_or_gt cf c' with k' | k'
  · rw [gf' k']; exact g1
  rw [mid hw hf h k.le (by linarith)] at e
  rw [mid hw hf h (by linarith) k'.le] at e'
  cases e; cases e'
  exact fourth_mono (frac_unit hw hf h k.le (by linarith)).1 (double_mono (div_le_div_of_nonneg_right (double_mono (by linarith)) (den_pos hw hf h).le))

theorem spot_mid {cw cf c : ℝ} (h : cw < cf) (h1 : cw ≤ c) (h2 : c ≤ cf) : spot cw cf c = ((c - cw) / (cf - cw)) ^ 4 := by
  unfold spot
  rw [min_eq_right ((div_le_one (by linarith)).2 (by linarith)), max_eq_right (div_nonneg (by linarith) (by linarith))]

theorem clamp_lip (x y : ℝ) : |max 0 (min 1 x) - max 0 (min 1 y)| ≤ |x - y| := by
  refine (abs_max_sub_max_le_max 0 _ 0 _).trans ?_
  rw [sub_self, abs_zero, max_eq_right (abs_nonneg _)]
  refine (abs_min_sub_min_le_max 1 _ 1 _).trans ?_
  rw [sub_self, abs_zero, max_eq_right (abs_nonneg _)]

theorem pow4_lip {x y : ℝ} (x0 : 0 ≤ x) (x1 : x ≤ 1) (y0 : 0 ≤ y) (y1 : y ≤ 1) : |x ^ 4 - y ^ 4| ≤ 4 * |x - y| := by
  rw [show x ^ 4 - y ^ 4 = (x ^ 3 + x ^ 2 * y + x * y ^ 2 + y ^ 3) * (x - y) by ring, abs_mul]
  refine mul_le_mul_of_nonneg_right ?_ (abs_nonneg _)
  have a := pow_le_one₀ x0 x1 (n := 3)
  have b := pow_le_one₀ x0 x1 (n := 2)
  have c := pow_le_one₀ y0 y1 (n := 3)
  have d := pow_le_one₀ y0 y1 (n := 2)
  rw [abs_of_nonneg (by positivity)]
  have e : x ^ 2 * y ≤ 1 := mul_le_one₀ b y0 y1
  have g : x * y ^ 2 ≤ 1 := mul_le_one₀ x1 (by positivity) d
  linarith

/-- the fraction in rounded arithmetic -/
theorem frac_near {cw cf ct : ℝ} (hw : IsDouble cw) (hf : IsDouble cf) (hc : IsDouble ct) (h : cw < cf) (h1 : cw ≤ ct) (h2 : ct ≤ cf) : |frac cw cf ct - (ct - cw) / (cf - cw)| ≤ 6 * 2 ^ (-53 : ℤ) := by
  have a := sub_err hc hw
  have b := sub_err hf hw
  have A0 : 0 ≤ ct - cw := by linarith
  have B0 : 0 < cf - cw := by linarith
  rw [abs_of_nonneg A0] at a
  rw [abs_of_pos B0] at b
  obtain ⟨dp, q⟩ := BlinnR.quot_rel (c := 0) A0 B0 (by simpa using a) b (by norm_num)
  have y0 : 0 ≤ double (ct - cw) / double (cf - cw) := div_nonneg (d_nonneg A0) dp.le
  have y1 : double (ct - cw) / double (cf - cw) ≤ 1 := (div_le_one dp).2 (double_mono (by linarith))
  have x1 : (ct - cw) / (cf - cw) ≤ 1 := (div_le_one B0).2 (by linarith)
  have x0 : 0 ≤ (ct - cw) / (cf - cw) := div_nonneg A0 B0.le
  have r := double_err (double (ct - cw) / double (cf - cw))
  rw [abs_of_nonneg y0] at r
  have t := tiny
  unfold frac
  generalize double (ct - cw) / double (cf - cw) = y at *
  generalize (ct - cw) / (cf - cw) = x at *
  generalize (2 : ℝ) ^ (-1075 : ℤ) = η at *
  have tt := abs_sub_le (double y) y x
  generalize double y = z at *
  clear * - tt r t q y0 y1 x0 x1
  norm_num at *
  linarith

theorem fourth_near {d x e : ℝ} (d0 : 0 ≤ d) (d1 : d ≤ 1) (x0 : 0 ≤ x) (x1 : x ≤ 1) (h : |d - x| ≤ e) : |fourth d - x ^ 4| ≤ 4 * e + 3 * 2 ^ (-52 : ℤ) := by
  have dd := hemi_z d0 d1
  have st : ∀ {p X t : ℝ}, |X| ≤ 1 → |p - X| ≤ t → 0 ≤ p → p ≤ 1 → |double (p * d) - X * x| ≤ t + e + 2 ^ (-52 : ℤ) := fun {p X t} hX hp p0 p1 => by
    have n : |double (p * d) - p * d| ≤ 2 ^ (-52 : ℤ) := near ((mul_le_one' (hemi_z p0 p1) dd).trans (by norm_num))
    have m := mul_near dd hX hp h
    have := abs_sub_le (double (p * d)) (p * d) (X * x)
    linarith
  have X1 := hemi_z x0 x1
  obtain ⟨a0, a1⟩ := unit_mul d0 d1 d0 d1
  obtain ⟨b0, b1⟩ := unit_mul a0 a1 d0 d1
  have s1 := st X1 h d0 d1
  have s2 := st (mul_le_one' X1 X1) s1 a0 a1
  have s3 := st (mul_le_one' (mul_le_one' X1 X1) X1) s2 b0 b1
  have e4 : x * x * x * x = x ^ 4 := by ring
  rw [e4] at s3
  refine s3.trans ?_
  linarith

/-- **C206** the falloff is the smooth step of the cosine that the light has computed … -/
theorem C206_accurate (cw cf : ℝ) (hw : IsDouble cw) (hf : IsDouble cf) (h : cw < cf) (ct : ℝ) (hc : IsDouble ct) (f : ℝ) (e : falloffR cw cf ct = some f) : |f - spot cw cf ct| ≤ 2 ^ (-48 : ℤ) := by
  obtain ⟨g, eg, g0, g1, gw, gf⟩ := C206_range cw cf hw hf h ct
  rw [e] at eg; cases eg
  have B0 : 0 < cf - cw := by linarith
  rcases le_or_gt ct cw with k | k
  · rw [gw k, spot, max_eq_left ((min_le_right _ _).trans (div_nonpos_of_nonpos_of_nonneg (by linarith) B0.le))]; norm_num
  rcases le_or_gt cf ct with k' | k'
  · rw [gf k', spot, min_eq_left ((one_le_div B0).2 (by linarith))]; norm_num
  rw [mid hw hf h k.le k'.le] at e
  cases e
  rw [spot_mid h k.le k'.le]
  obtain ⟨d0, d1⟩ := frac_unit hw hf h k.le k'.le
  refine (fourth_near d0 d1 (div_nonneg (by linarith) B0.le) ((div_le_one B0).2 (by linarith)) (frac_near hw hf hc h k.le k'.le)).trans ?_
  norm_num

/-- **C206** … and so that of the exact cosine, up to what its error makes -/
theorem C206_direction (cw cf : ℝ) (hw : IsDouble cw) (hf : IsDouble cf) (h : cw < cf) (ct c ε : ℝ) (hc : IsDouble ct) (hε : |ct - c| ≤ ε) (f : ℝ) (e : falloffR cw cf ct = some f) :
    |f - spot cw cf c| ≤ 2 ^ (-48 : ℤ) + 4 * ε / (cf - cw) := by
  have B0 : 0 < cf - cw := by linarith
  have k : |spot cw cf ct - spot cw cf c| ≤ 4 * ε / (cf - cw) := by
    unfold spot
    refine (pow4_lip (le_max_left _ _) (max_le zero_le_one (min_le_left _ _)) (le_max_left _ _) (max_le zero_le_one (min_le_left _ _))).trans ?_
    have := clamp_lip ((ct - cw) / (cf - cw)) ((c - cw) / (cf - cw))
    rw [← sub_div, abs_div, abs_of_pos B0, show ct - cw - (c - cw) = ct - c by ring] at this
    have e2 : |ct - c| / (cf - cw) ≤ ε / (cf - cw) := div_le_div_of_nonneg_right hε B0.le
    rw [mul_div_assoc]
    linarith
  exact (abs_sub_le _ (spot cw cf ct) _).trans (add_le_add (C206_accurate cw cf hw hf h ct hc f e) k)

/-- **C206** if the falloff starts at the edge of the cone, the fraction on the edge is 0 / 0 -/
theorem C206_edge (c : ℝ) : falloffR c c c = none := by simp [falloffR, double_zero]

/-! ### Concrete case -/

/-- half way, the falloff is a sixteenth -/
example : IsDouble (1 / 2 : ℝ) ∧ IsDouble (1 : ℝ) ∧ spot (1 / 2) 1 (3 / 4) = 1 / 16 ∧ ∀ f, falloffR (1 / 2) 1 (3 / 4) = some f → |f - 1 / 16| ≤ 2 ^ (-48 : ℤ) := by
  have h2 : IsDouble (1 / 2 : ℝ) := ⟨1, -1, by norm_num, by norm_num, by norm_num⟩
  have h1 : IsDouble (1 : ℝ) := ⟨1, 0, by norm_num, by norm_num, by norm_num⟩
  have h3 : IsDouble (3 / 4 : ℝ) := ⟨3, -2, by norm_num, by norm_num, by norm_num⟩
  have e : spot (1 / 2) 1 (3 / 4) = 1 / 16 := by rw [spot_mid (by norm_num) (by norm_num) (by norm_num)]; norm_num
  exact ⟨h2, h1, e, fun f hf => by have := C206_accurate _ _ h2 h1 (by norm_num) _ h3 f hf; rwa [e] at this⟩

end Verif.SpotR
