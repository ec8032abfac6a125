import Verif.Reflection.Bsdf
import Mathlib.Tactic.NormNum
import Mathlib.Tactic.Linarith
import Mathlib.Tactic.FieldSimp
import Mathlib.Tactic.Positivity

/-!
# Fresnel reflectances and specular components
(`pytracer/reflection/utility.py:18-73`, `pytracer/reflection/fresnel.py`, `pytracer/reflection/bdf/bdf.py:229-307`)

Real arithmetic; a spectrum is represented by one of its samples (all operators used act sample by sample).
-/

namespace Verif.Refl
open Verif V3 Verif.Geom Verif.Bsdf

/-- `fr_diel` (`reflection/utility.py:46-57`), as written (the denominator of `r_para` has `eta_t` twice). -/
noncomputable def frDiel (ci ct ei et : ℝ) : ℝ :=
  let rPara := (et * ci - ei * ct) / (et * ci + et * ct)
  let rPerp := (ei * ci - et * ct) / (ei * ci + et * ct)
  1 / 2 * (rPara * rPara + rPerp * rPerp)

/-- `fr_cond` (`reflection/utility.py:60-73`). -/
noncomputable def frCond (ci eta k : ℝ) : ℝ :=
  let tmp := (eta * eta + k * k) * ci * ci
  let rParaSq := (tmp - 2 * eta * ci + 1) / (tmp + 2 * eta * ci + 1)
  let tmp2 := eta * eta + k * k
  let rPerpSq := (tmp2 - 2 * eta * ci + ci * ci) / (tmp2 + 2 * eta * ci + ci * ci)
  1 / 2 * (rParaSq + rPerpSq)

/-- `FresnelConductor.__call__` (`fresnel.py:30-41`). -/
noncomputable def conductor (eta k cosi : ℝ) : ℝ := frCond |cosi| eta k

/-- `np.clip(x, -1., 1.)` -/
noncomputable def clip1 (x : ℝ) : ℝ := min (max x (-1)) 1

/-- `FresnelDielectric.__call__` (`fresnel.py:44-72`). -/
noncomputable def dielectric (etaI etaT cosi : ℝ) : ℝ :=
  let ci := clip1 cosi
  let ei := if cosi < 0 then etaT else etaI
  let et := if cosi < 0 then etaI else etaT
  let st := ei / et * √(max 0 (1 - ci * ci))
  if st ≥ 1 then 1
  else
    let ct := √(max 0 (1 - st * st))
    frDiel |ci| ct ei et

/-- `FresnelFullReflect.__call__` (`fresnel.py:75-83`). -/
def fullReflect (_cosi : ℝ) : ℝ := 1

/-! ## Specification: Snell's and Fresnel's laws -/

/-- index on the side of the interface a direction with this cosine comes from: outside (`etaI`) unless the cosine
is negative (`fresnel.py:59-61`), and index of the other side -/
noncomputable def indexSame (etaI etaT c : ℝ) : ℝ := if c < 0 then etaT else etaI
noncomputable def indexOther (etaI etaT c : ℝ) : ℝ := if c < 0 then etaI else etaT

/-- sine of the angle to the normal -/
noncomputable def sine (c : ℝ) : ℝ := √(1 - c * c)

/-- Light arriving with cosine `c` cannot leave: Snell's law would need a sine of at least one. -/
def TotalReflection (etaI etaT c : ℝ) : Prop := indexOther etaI etaT c ≤ indexSame etaI etaT c * sine c

/-- Fresnel's equations for unpolarised light: cosines `ci`, `ct` of the angles in media of index `ni`, `nt` -/
noncomputable def fresnelEq (ci ct ni nt : ℝ) : ℝ :=
  1 / 2 * (((nt * ci - ni * ct) / (nt * ci + ni * ct)) ^ 2 + ((ni * ci - nt * ct) / (ni * ci + nt * ct)) ^ 2)

theorem clip1_of_mem {c : ℝ} (h0 : -1 ≤ c) (h1 : c ≤ 1) : clip1 c = c := by
  unfold clip1; rw [max_eq_left h0, min_eq_left h1]

theorem one_sub_sq_nonneg {c : ℝ} (h0 : -1 ≤ c) (h1 : c ≤ 1) : 0 ≤ 1 - c * c := by nlinarith

/-- unfolding of the dielectric on its domain -/
theorem dielectric_eq (etaI etaT c : ℝ) (h0 : -1 ≤ c) (h1 : c ≤ 1) :
    dielectric etaI etaT c =
      if indexSame etaI etaT c / indexOther etaI etaT c * sine c ≥ 1 then 1
      else frDiel |c| (√(max 0 (1 - (indexSame etaI etaT c / indexOther etaI etaT c * sine c) * (indexSame etaI etaT c / indexOther etaI etaT c * sine c))))
        (indexSame etaI etaT c) (indexOther etaI etaT c) := by
  unfold dielectric sine indexSame indexOther
  simp only [clip1_of_mem h0 h1, max_eq_right (one_sub_sq_nonneg h0 h1)]

/-- Total internal reflection gives exactly one. -/
theorem C46_total_reflection (etaI etaT c : ℝ) (hi : 0 < etaI) (ht : 0 < etaT) (h0 : -1 ≤ c) (h1 : c ≤ 1)
    (h : TotalReflection etaI etaT c) : dielectric etaI etaT c = 1 := by
  rw [dielectric_eq etaI etaT c h0 h1, if_pos]
  have ho : 0 < indexOther etaI etaT c := by unfold indexOther; split_ifs <;> assumption
  unfold TotalReflection at h
  rw [ge_iff_le, div_mul_eq_mul_div, le_div_iff₀ ho, one_mul]
  exact h

/-- from inside glass (index 3/2) at cosine -1/2: total reflection -/
example : TotalReflection 1 (3/2) (-1/2) := by
  unfold TotalReflection indexSame indexOther sine
  rw [if_pos (by norm_num), if_pos (by norm_num)]
  rw [show (1 : ℝ) - -1/2 * (-1/2) = 3/4 by norm_num]
  have : (2/3 : ℝ) ≤ √(3/4) := Real.le_sqrt_of_sq_le (by norm_num)
  linarith

theorem frDiel_nonneg (ci ct ei et : ℝ) : 0 ≤ frDiel ci ct ei et := by
  unfold frDiel
  have h1 := mul_self_nonneg ((et * ci - ei * ct) / (et * ci + et * ct))
  have h2 := mul_self_nonneg ((ei * ci - et * ct) / (ei * ci + et * ct))
  simp only []
  linarith

theorem sq_le_one_of {a b : ℝ} (hb : 0 < b) (h1 : a ≤ b) (h2 : -b ≤ a) : a / b * (a / b) ≤ 1 := by
  have e1 : a / b ≤ 1 := (div_le_one hb).mpr h1
  have e2 : -1 ≤ a / b := by rw [le_div_iff₀ hb]; linarith
  nlinarith

/-- Reflectances are never negative, and on the lighter side of the interface they are at most one; no division by
zero occurs there.  Missing: the denser side, where the claim is false (next theorem). -/
theorem C46_dielectric_partial (etaI etaT c : ℝ) (hi : 0 < etaI) (ht : 0 < etaT) (h0 : -1 ≤ c) (h1 : c ≤ 1) :
    0 ≤ dielectric etaI etaT c ∧ (indexSame etaI etaT c ≤ indexOther etaI etaT c → dielectric etaI etaT c ≤ 1) := by
  rw [dielectric_eq etaI etaT c h0 h1]
  have ho : 0 < indexOther etaI etaT c := by unfold indexOther; split_ifs <;> assumption
  have hs : 0 < indexSame etaI etaT c := by unfold indexSame; split_ifs <;> assumption
  generalize indexOther etaI etaT c = et at *
  generalize indexSame etaI etaT c = ei at *
  split_ifs with h
  · exact ⟨zero_le_one, fun _ => le_rfl⟩
  · refine ⟨frDiel_nonneg _ _ _ _, fun hle => ?_⟩
    have hsn : 0 ≤ sine c := Real.sqrt_nonneg _
    have hst0 : 0 ≤ ei / et * sine c := by positivity
    have hst1 : ei / et * sine c < 1 := not_le.mp h
    generalize ei / et * sine c = st at *
    have hct : 0 < √(max 0 (1 - st * st)) := Real.sqrt_pos.mpr (lt_max_of_lt_right (by nlinarith))
    generalize √(max 0 (1 - st * st)) = ct at *
    have hc : 0 ≤ |c| := abs_nonneg c
    generalize |c| = ci at *
    unfold frDiel
    simp only []
    have hA := mul_nonneg ho.le hc
    have hB := mul_pos ho hct
    have hC := mul_pos hs hct
    have hD := mul_nonneg hs.le hc
    have hE : ei * ct ≤ et * ct := mul_le_mul_of_nonneg_right hle hct.le
    have e1 := sq_le_one_of (a := et * ci - ei * ct) (b := et * ci + et * ct) (by linarith) (by linarith) (by linarith)
    have e2 := sq_le_one_of (a := ei * ci - et * ct) (b := ei * ci + et * ct) (by linarith) (by linarith) (by linarith)
    linarith

/-- air to glass at cosine 1/2 -/
example : indexSame 1 (3/2) (1/2) ≤ indexOther 1 (3/2) (1/2) := by
  unfold indexSame indexOther; norm_num

/-- The full range claim is false of the code: leaving a medium of index 4 straight on, the "reflectance" exceeds
one. -/
theorem C46_dielectric_range_false : ¬ ∀ etaI etaT c : ℝ, 0 < etaI → 0 < etaT → -1 ≤ c → c ≤ 1 → dielectric etaI etaT c ≤ 1 := by
  intro H
  have := H 1 4 (-1) one_pos (by norm_num) le_rfl (by norm_num)
  rw [dielectric_eq _ _ _ le_rfl (by norm_num)] at this
  have hs : sine (-1) = 0 := by unfold sine; norm_num
  rw [hs] at this
  norm_num [indexSame, indexOther, frDiel] at this

/-- Conductors: always a fraction, no division by zero. -/
theorem C46_conductor (eta k c : ℝ) (he : 0 < eta) : 0 ≤ conductor eta k c ∧ conductor eta k c ≤ 1 := by
  unfold conductor frCond
  have hc : 0 ≤ |c| := abs_nonneg c
  generalize |c| = ci at *
  simp only []
  have hp : 0 ≤ 2 * eta * ci := by positivity
  have n1 : 0 ≤ (eta * eta + k * k) * ci * ci - 2 * eta * ci + 1 := by nlinarith [mul_self_nonneg (eta * ci - 1), mul_self_nonneg (k * ci)]
  have d1 : 0 < (eta * eta + k * k) * ci * ci + 2 * eta * ci + 1 := by
    have : 0 ≤ (eta * eta + k * k) * ci * ci := by nlinarith [mul_self_nonneg (eta * ci), mul_self_nonneg (k * ci)]
    linarith
  have n2 : 0 ≤ eta * eta + k * k - 2 * eta * ci + ci * ci := by nlinarith [mul_self_nonneg (eta - ci), mul_self_nonneg k]
  have d2 : 0 < eta * eta + k * k + 2 * eta * ci + ci * ci := by nlinarith [mul_pos he he, mul_self_nonneg k, mul_self_nonneg ci]
  have a1 : 0 ≤ ((eta * eta + k * k) * ci * ci - 2 * eta * ci + 1) / ((eta * eta + k * k) * ci * ci + 2 * eta * ci + 1) := div_nonneg n1 d1.le
  have a2 : ((eta * eta + k * k) * ci * ci - 2 * eta * ci + 1) / ((eta * eta + k * k) * ci * ci + 2 * eta * ci + 1) ≤ 1 := by
    rw [div_le_one d1]; linarith
  have b1 : 0 ≤ (eta * eta + k * k - 2 * eta * ci + ci * ci) / (eta * eta + k * k + 2 * eta * ci + ci * ci) := div_nonneg n2 d2.le
  have b2 : (eta * eta + k * k - 2 * eta * ci + ci * ci) / (eta * eta + k * k + 2 * eta * ci + ci * ci) ≤ 1 := by
    rw [div_le_one d2]; linarith
  constructor <;> linarith

/-- gold-like constants at cosine -3/10 -/
example : (0 : ℝ) < 1/5 ∧ conductor (1/5) (39/10) (-3/10) < 1 := by
  refine ⟨by norm_num, ?_⟩
  unfold conductor frCond
  rw [show |(-3/10 : ℝ)| = 3/10 by rw [abs_of_neg (by norm_num)]; norm_num]
  norm_num

/-- A mirror coating reflects everything. -/
theorem C46_full (c : ℝ) : fullReflect c = 1 := rfl

/-! ## C76: agreement with Fresnel's equations -/

/-- What holds: with the refracted cosine of Snell's law, the code's value agrees with Fresnel's equations exactly
when the indices are equal or the light arrives at Brewster's angle (no parallel reflection).  Missing: all other
angles, because the denominator of the parallel term is wrong. -/
theorem C76_fresnel_iff_partial (etaI etaT c ct : ℝ) (hi : 0 < etaI) (ht : 0 < etaT) (h0 : -1 ≤ c) (h1 : c ≤ 1)
    (hct : 0 < ct) (hct1 : ct ≤ 1) (hsnell : indexSame etaI etaT c * sine c = indexOther etaI etaT c * √(1 - ct * ct)) :
    dielectric etaI etaT c = fresnelEq |c| ct (indexSame etaI etaT c) (indexOther etaI etaT c) ↔
      (etaI = etaT ∨ indexOther etaI etaT c * |c| = indexSame etaI etaT c * ct) := by
  have ho : 0 < indexOther etaI etaT c := by unfold indexOther; split_ifs <;> assumption
  have hs : 0 < indexSame etaI etaT c := by unfold indexSame; split_ifs <;> assumption
  have heq : etaI = etaT ↔ indexSame etaI etaT c = indexOther etaI etaT c := by
    unfold indexSame indexOther; split_ifs
    · exact eq_comm
    · exact Iff.rfl
  rw [dielectric_eq etaI etaT c h0 h1, heq]
  generalize indexOther etaI etaT c = et at *
  generalize indexSame etaI etaT c = ei at *
  have hst : ei / et * sine c = √(1 - ct * ct) := by
    rw [div_mul_eq_mul_div, hsnell]; field_simp
  have hle : 0 ≤ 1 - ct * ct := by nlinarith
  have hlt : √(1 - ct * ct) < 1 := by
    rw [Real.sqrt_lt' one_pos]; nlinarith
  rw [hst, if_neg (not_le.mpr hlt), Real.mul_self_sqrt hle, show 1 - (1 - ct * ct) = ct * ct by ring,
    max_eq_right (by positivity), Real.sqrt_mul_self hct.le]
  have hc : 0 ≤ |c| := abs_nonneg c
  generalize |c| = ci at *
  unfold frDiel fresnelEq
  simp only []
  have d1 : 0 < et * ci + et * ct := by positivity
  have d2 : 0 < et * ci + ei * ct := by positivity
  have key : (1 / 2 * ((et * ci - ei * ct) / (et * ci + et * ct) * ((et * ci - ei * ct) / (et * ci + et * ct)) +
      (ei * ci - et * ct) / (ei * ci + et * ct) * ((ei * ci - et * ct) / (ei * ci + et * ct))) =
      1 / 2 * (((et * ci - ei * ct) / (et * ci + ei * ct)) ^ 2 + ((ei * ci - et * ct) / (ei * ci + et * ct)) ^ 2)) ↔
      ((et * ci - ei * ct) / (et * ci + et * ct)) ^ 2 = ((et * ci - ei * ct) / (et * ci + ei * ct)) ^ 2 := by
    constructor <;> intro h <;> nlinarith
  rw [key, div_pow, div_pow, div_eq_div_iff (by positivity) (by positivity)]
  constructor
  · intro h
    by_cases hz : et * ci - ei * ct = 0
    · right; linarith
    · left
      have hz2 : (et * ci - ei * ct) ^ 2 ≠ 0 := pow_ne_zero 2 hz
      have h2 := mul_left_cancel₀ hz2 h
      have h3 : et * ci + ei * ct = et * ci + et * ct := by
        have := (sq_eq_sq₀ d2.le d1.le).mp h2; exact this
      have h4 : ei * ct = et * ct := by linarith
      exact mul_right_cancel₀ hct.ne' h4
  · rintro (rfl | h)
    · rfl
    · rw [show et * ci - ei * ct = 0 by linarith]; ring

/-- Brewster-free concrete case: straight on into glass, refracted cosine one -/
example : indexSame 1 (3/2) 1 * sine 1 = indexOther 1 (3/2) 1 * √(1 - 1 * 1) := by
  unfold sine; norm_num

/-- The full agreement is false: straight on from air into glass the code's reflectance is not the one of Fresnel's
equations (1/25 there). -/
theorem C76_fresnel_false : ¬ ∀ etaI etaT c ct : ℝ, 0 < etaI → 0 < etaT → 0 ≤ c → c ≤ 1 → 0 < ct →
    etaI * sine c = etaT * √(1 - ct * ct) → dielectric etaI etaT c = fresnelEq c ct etaI etaT := by
  intro H
  have hs : sine 1 = 0 := by unfold sine; norm_num
  have := H 1 (3/2) 1 1 one_pos (by norm_num) zero_le_one le_rfl one_pos (by rw [hs]; norm_num)
  rw [dielectric_eq _ _ _ (by norm_num) le_rfl, hs] at this
  norm_num [indexSame, indexOther, frDiel, fresnelEq] at this

/-- and therefore so is reversibility: entering and leaving along the same path give different reflectances -/
theorem C76_reversible_false : ¬ ∀ etaI etaT : ℝ, 0 < etaI → 0 < etaT → dielectric etaI etaT 1 = dielectric etaI etaT (-1) := by
  intro H
  have := H 1 (3/2) one_pos (by norm_num)
  have hs : sine 1 = 0 := by unfold sine; norm_num
  have hs' : sine (-1) = 0 := by unfold sine; norm_num
  rw [dielectric_eq _ _ _ (by norm_num) le_rfl, dielectric_eq _ _ _ le_rfl (by norm_num), hs, hs'] at this
  norm_num [indexSame, indexOther, frDiel] at this

/-! ## Specular components -/

/-- `cos_theta`, `abs_cos_theta`, `sin_theta_sq` (`reflection/utility.py:19-28`) -/
def cosTheta (w : V3 ℝ) : ℝ := w.z
noncomputable def absCosTheta (w : V3 ℝ) : ℝ := |w.z|
noncomputable def sinThetaSq (w : V3 ℝ) : ℝ := max 0 (1 - w.z * w.z)

/-- `SpecularReflection` (`bdf.py:229-256`) for one spectral sample, as a component of the container.
`abs_cos_theta(wi) = 0` (a grazing direction) divides by zero in the code; the value is then meaningless. -/
noncomputable def specularReflection (R : ℝ) (fresnel : ℝ → ℝ) : Bdf ℝ where
  type := REFLECTION ||| SPECULAR
  f := fun _ _ => 0
  pdf := fun _ _ => 0
  sample := fun wo _ _ =>
    let wi : V3 ℝ := ⟨-wo.x, -wo.y, wo.z⟩
    ⟨1, some (wi, fresnel (cosTheta wo) * R / absCosTheta wi)⟩

/-- `SpecularTransmission` (`bdf.py:259-307`) for one spectral sample. -/
noncomputable def specularTransmission (T ei0 et0 : ℝ) : Bdf ℝ where
  type := TRANSMISSION ||| SPECULAR
  f := fun _ _ => 0
  pdf := fun _ _ => 0
  sample := fun wo _ _ =>
    let ei := if cosTheta wo > 0 then et0 else ei0
    let et := if cosTheta wo > 0 then ei0 else et0
    let siSq := sinThetaSq wo
    let eta := ei / et
    let stSq := eta * eta * siSq
    if stSq ≥ 1 then ⟨0, none⟩
    else
      let ct0 := √(max 0 (1 - stSq))
      let ct := if cosTheta wo > 0 then -ct0 else ct0
      let wi : V3 ℝ := ⟨eta * (-wo.x), eta * (-wo.y), ct⟩
      let F := dielectric ei0 et0 (cosTheta wo)
      ⟨1, some (wi, (et * et) / (ei * ei) * (1 - F) * T / absCosTheta wi)⟩

/-- the surface normal of the local frame -/
def up : V3 ℝ := ⟨0, 0, 1⟩

/-- Reflection: density one, the mirror image of `wo` about the normal, as long as `wo` and on the same side. -/
theorem C47_reflection (R : ℝ) (fr : ℝ → ℝ) (wo : V3 ℝ) (u1 u2 : ℝ) :
    ∃ wi v, (specularReflection R fr).sample wo u1 u2 = ⟨1, some (wi, v)⟩ ∧
      wi = (2 * dot wo up) * up - wo ∧ sqLength wi = sqLength wo ∧ dot wi up = dot wo up ∧
      (wo.z ≠ 0 → v * |dot wi up| = fr (dot wo up) * R) := by
  refine ⟨_, _, rfl, ?_, ?_, ?_, ?_⟩
  · ext <;> simp [up, dot]; ring
  · simp only [sqLength]; ring
  · simp [dot, up]
  · intro h
    have : |wo.z| ≠ 0 := abs_ne_zero.mpr h
    simp only [absCosTheta, cosTheta, dot, up]
    simp only [mul_zero, mul_one, zero_add]
    field_simp

example : (⟨3/5, 0, 4/5⟩ : V3 ℝ).z ≠ 0 := by norm_num

theorem sqLength_xy {w : V3 ℝ} (h : sqLength w = 1) : w.x * w.x + w.y * w.y = 1 - w.z * w.z := by
  unfold sqLength at h; linarith

theorem sinThetaSq_unit {w : V3 ℝ} (h : sqLength w = 1) : sinThetaSq w = 1 - w.z * w.z :=
  max_eq_right (by nlinarith [sqLength_xy h, mul_self_nonneg w.x, mul_self_nonneg w.y])

/-- sine of the angle between `w` and the normal -/
noncomputable def sineOf (w : V3 ℝ) : ℝ := √(w.x * w.x + w.y * w.y)

/-- Refraction, the part that holds: when a direction is returned, it is a unit vector on the other side, in the plane
of `wo` and the normal and on the far side of the normal; otherwise the container returns black.
Missing: Snell's law itself, see the next theorem. -/
theorem C47_transmission_partial (T ei0 et0 : ℝ) (hi : 0 < ei0) (ht : 0 < et0) (wo : V3 ℝ) (u1 u2 : ℝ) (hu : sqLength wo = 1) (hz : wo.z ≠ 0) :
    ((specularTransmission T ei0 et0).sample wo u1 u2 = ⟨0, none⟩) ∨
    ∃ wi v k, (specularTransmission T ei0 et0).sample wo u1 u2 = ⟨1, some (wi, v)⟩ ∧ sqLength wi = 1 ∧ wi.z * wo.z < 0 ∧
      0 < k ∧ wi.x = -k * wo.x ∧ wi.y = -k * wo.y := by
  by_cases h : (if cosTheta wo > 0 then et0 else ei0) / (if cosTheta wo > 0 then ei0 else et0) * ((if cosTheta wo > 0 then et0 else ei0) / (if cosTheta wo > 0 then ei0 else et0)) * sinThetaSq wo ≥ 1
  · left
    simp only [specularTransmission]
    rw [if_pos h]
  · right
    have hpos : 0 < (if cosTheta wo > 0 then et0 else ei0) / (if cosTheta wo > 0 then ei0 else et0) := by
      split_ifs <;> positivity
    refine ⟨⟨(if cosTheta wo > 0 then et0 else ei0) / (if cosTheta wo > 0 then ei0 else et0) * (-wo.x),
      (if cosTheta wo > 0 then et0 else ei0) / (if cosTheta wo > 0 then ei0 else et0) * (-wo.y),
      if cosTheta wo > 0 then -√(max 0 (1 - (if cosTheta wo > 0 then et0 else ei0) / (if cosTheta wo > 0 then ei0 else et0) * ((if cosTheta wo > 0 then et0 else ei0) / (if cosTheta wo > 0 then ei0 else et0)) * sinThetaSq wo))
      else √(max 0 (1 - (if cosTheta wo > 0 then et0 else ei0) / (if cosTheta wo > 0 then ei0 else et0) * ((if cosTheta wo > 0 then et0 else ei0) / (if cosTheta wo > 0 then ei0 else et0)) * sinThetaSq wo))⟩,
      _, (if cosTheta wo > 0 then et0 else ei0) / (if cosTheta wo > 0 then ei0 else et0), by simp only [specularTransmission]; rw [if_neg h], ?_, ?_, hpos, by ring, by ring⟩
    all_goals
      generalize (if cosTheta wo > 0 then et0 else ei0) / (if cosTheta wo > 0 then ei0 else et0) = eta at *
      have h1 : 0 < 1 - eta * eta * sinThetaSq wo := by linarith [not_le.mp h]
      rw [max_eq_right h1.le]
    · rw [sinThetaSq_unit hu] at *
      have key := Real.mul_self_sqrt h1.le
      have hxy := sqLength_xy hu
      unfold sqLength
      split_ifs
      · simp only []; rw [neg_mul_neg, key]; linear_combination eta * eta * hxy
      · simp only []; rw [key]; linear_combination eta * eta * hxy
    · have hp := Real.sqrt_pos.mpr h1
      split_ifs with hc
      · unfold cosTheta at hc; simp only []; nlinarith
      · unfold cosTheta at hc
        have : wo.z < 0 := lt_of_le_of_ne (not_lt.mp hc) hz
        simp only []; nlinarith

example : sqLength (⟨3/5, 0, 4/5⟩ : V3 ℝ) = 1 ∧ (⟨3/5, 0, 4/5⟩ : V3 ℝ).z ≠ 0 := by norm_num [sqLength]

/-- Refraction carries what is not reflected: the value times the cosine is the transmittance times one minus the Fresnel reflectance of the arriving direction, scaled by the
squared ratio of the indices. -/
theorem C47_transmission_value (T ei0 et0 : ℝ) (wo : V3 ℝ) (u1 u2 : ℝ) (hz : wo.z ≠ 0)
    (wi : V3 ℝ) (v : ℝ) (h : (specularTransmission T ei0 et0).sample wo u1 u2 = ⟨1, some (wi, v)⟩) (hw : wi.z ≠ 0) :
    v * |dot wi up| = (indexSame ei0 et0 wo.z / indexOther ei0 et0 wo.z) ^ 2 * (1 - dielectric ei0 et0 wo.z) * T := by
  simp only [specularTransmission] at h
  split_ifs at h with hc
  all_goals try (rw [Smp.mk.injEq] at h; exact absurd h.1 zero_ne_one)
  all_goals
    rw [Smp.mk.injEq, Option.some.injEq, Prod.mk.injEq] at h
    obtain ⟨_, h1, h2⟩ := h
    rw [h1] at h2
    rw [← h2]
    unfold cosTheta at hc
    have ha : |wi.z| ≠ 0 := abs_ne_zero.mpr hw
    have hd : dot wi up = wi.z := by simp [dot, up]
    rw [hd]
    unfold indexOther indexSame absCosTheta cosTheta
  · rw [if_neg (by linarith), if_neg (by linarith), div_mul_cancel₀ _ ha]; ring
  · have hlt : wo.z < 0 := lt_of_le_of_ne (not_lt.mp hc) hz
    rw [if_pos hlt, if_pos hlt, div_mul_cancel₀ _ ha]; ring

/-- Snell's law, with the index of the side `wo` lies on: the code satisfies it exactly at normal incidence or when
the two indices are equal, because it swaps them on the wrong side. -/
theorem C47_snell_iff_partial (T ei0 et0 : ℝ) (hi : 0 < ei0) (ht : 0 < et0) (wo : V3 ℝ) (u1 u2 : ℝ) (hz : wo.z ≠ 0)
    (wi : V3 ℝ) (v : ℝ) (h : (specularTransmission T ei0 et0).sample wo u1 u2 = ⟨1, some (wi, v)⟩) :
    indexOther ei0 et0 wo.z * sineOf wo = indexSame ei0 et0 wo.z * sineOf wi ∧
    (indexSame ei0 et0 wo.z * sineOf wo = indexOther ei0 et0 wo.z * sineOf wi ↔ ei0 = et0 ∨ sineOf wo = 0) := by
  have hS : (0 : ℝ) ≤ sineOf wo := Real.sqrt_nonneg _
  have hw : sineOf wi = indexOther ei0 et0 wo.z / indexSame ei0 et0 wo.z * sineOf wo := by
    simp only [specularTransmission] at h
    split_ifs at h with hc
    all_goals try (rw [Smp.mk.injEq] at h; exact absurd h.1 zero_ne_one)
    all_goals
      rw [Smp.mk.injEq, Option.some.injEq, Prod.mk.injEq] at h
      obtain ⟨_, h, _⟩ := h
      subst h
      unfold cosTheta at hc
      unfold sineOf indexOther indexSame
    · rw [if_neg (by linarith), if_neg (by linarith)]
      simp only []
      rw [show et0 / ei0 * -wo.x * (et0 / ei0 * -wo.x) + et0 / ei0 * -wo.y * (et0 / ei0 * -wo.y) = (et0 / ei0) ^ 2 * (wo.x * wo.x + wo.y * wo.y) by ring,
        Real.sqrt_mul (by positivity), Real.sqrt_sq (by positivity)]
    · have hlt : wo.z < 0 := lt_of_le_of_ne (not_lt.mp hc) hz
      rw [if_pos hlt, if_pos hlt]
      simp only []
      rw [show ei0 / et0 * -wo.x * (ei0 / et0 * -wo.x) + ei0 / et0 * -wo.y * (ei0 / et0 * -wo.y) = (ei0 / et0) ^ 2 * (wo.x * wo.x + wo.y * wo.y) by ring,
        Real.sqrt_mul (by positivity), Real.sqrt_sq (by positivity)]
  have ho : 0 < indexOther ei0 et0 wo.z := by unfold indexOther; split_ifs <;> assumption
  have hs : 0 < indexSame ei0 et0 wo.z := by unfold indexSame; split_ifs <;> assumption
  have hiff : ei0 = et0 ↔ indexSame ei0 et0 wo.z = indexOther ei0 et0 wo.z := by
    unfold indexSame indexOther; split_ifs
    · exact eq_comm
    · exact Iff.rfl
  rw [hw, hiff]
  generalize indexOther ei0 et0 wo.z = b at *
  generalize indexSame ei0 et0 wo.z = a at *
  refine ⟨by field_simp, ?_⟩
  constructor
  · intro h
    by_cases h0 : sineOf wo = 0
    · exact Or.inr h0
    · left
      field_simp at h
      nlinarith [sq_nonneg (a - b)]
  · rintro (rfl | h0)
    · field_simp
    · rw [h0]; ring

/-- Snell's law is false of the code: from air into glass at a slant. -/
theorem C47_snell_false : ¬ ∀ (T ei0 et0 : ℝ) (wo : V3 ℝ), 0 < ei0 → 0 < et0 → sqLength wo = 1 → 0 < wo.z → ∀ wi v,
    (specularTransmission T ei0 et0).sample wo 0 0 = ⟨1, some (wi, v)⟩ → ei0 * sineOf wo = et0 * sineOf wi := by
  intro H
  have hns : ¬ ((3/2 : ℝ) / 1 * (3/2 / 1) * sinThetaSq ⟨3/5, 0, 4/5⟩ ≥ 1) := by
    rw [sinThetaSq_unit (by norm_num [sqLength])]; norm_num
  have hc : cosTheta (⟨3/5, 0, 4/5⟩ : V3 ℝ) > 0 := by unfold cosTheta; norm_num
  have := H 1 1 (3/2) ⟨3/5, 0, 4/5⟩ one_pos (by norm_num) (by norm_num [sqLength]) (by norm_num) _ _
    (by simp only [specularTransmission, if_pos hc]; rw [if_neg hns])
  unfold sineOf at this
  simp only [mul_zero, neg_zero, add_zero] at this
  rw [Real.sqrt_mul_self (by norm_num), show (3/2 / 1 * -(3/5) * (3/2 / 1 * -(3/5)) : ℝ) = (9/10) * (9/10) by norm_num, Real.sqrt_mul_self (by norm_num)] at this
  norm_num at this

/-- Light entering a denser medium is never totally reflected, yet the code returns nothing for it at some angles. -/
theorem C47_spurious_total_reflection_false : ¬ ∀ (T ei0 et0 : ℝ) (wo : V3 ℝ), 0 < ei0 → ei0 ≤ et0 → sqLength wo = 1 → 0 < wo.z →
    (specularTransmission T ei0 et0).sample wo 0 0 ≠ ⟨0, none⟩ := by
  intro H
  have hs : ((3/2 : ℝ) / 1 * (3/2 / 1) * sinThetaSq ⟨4/5, 0, 3/5⟩ ≥ 1) := by
    rw [sinThetaSq_unit (by norm_num [sqLength])]; norm_num
  have hc : cosTheta (⟨4/5, 0, 3/5⟩ : V3 ℝ) > 0 := by unfold cosTheta; norm_num
  refine H 1 1 (3/2) ⟨4/5, 0, 3/5⟩ one_pos (by norm_num) (by norm_num [sqLength]) (by norm_num) ?_
  simp only [specularTransmission, if_pos hc]
  rw [if_pos hs]

/-- Whenever the component returns nothing, the container returns a black value, zero density, no direction. -/
theorem C47_black (b : BSDF ℝ) (T ei0 et0 : ℝ) (wo : V3 ℝ) (u1 u2 u : ℝ) (fl : Flags) (h0 : 0 ≤ u) (h1 : u < 1)
    (hm : matching b fl = [specularTransmission T ei0 et0])
    (h : (specularTransmission T ei0 et0).sample (b.w2l wo) u1 u2 = ⟨0, none⟩) :
    b.sampleF wo u1 u2 u fl = some ⟨0, none, some (TRANSMISSION ||| SPECULAR), 0⟩ := by
  have hn : b.nComponents fl = 1 := by rw [C45_count, hm]; rfl
  have hch : b.choose u fl = some (specularTransmission T ei0 et0) := by
    obtain ⟨i, hi, _, _, h⟩ := C45_choice b fl u h0 h1 (by rw [hm]; simp)
    rw [h]
    have : i = 0 := by rw [hm] at hi; simpa using hi
    subst this
    simp [hm]
  unfold BSDF.sampleF
  simp only [hn, hch, h]
  simp [specularTransmission]

end Verif.Refl
