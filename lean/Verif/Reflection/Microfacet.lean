import Verif.Reflection.Diffuse
import Verif.MC.Phase
import Mathlib.Analysis.SpecialFunctions.Pow.Deriv
import Mathlib.Analysis.SpecialFunctions.Pow.Continuity

/-!
# Microfacet reflection (`pytracer/reflection/bdf/torrance.py`, `pytracer/reflection/bdf/fresnelblend.py`)

Real arithmetic; a spectrum is represented by one of its samples; `np.power` is the real power (its value at a zero base
with a negative exponent, an infinity in the code, plays no role below).
-/

namespace Verif.Refl
open Verif V3 Verif.Geom Verif.Bsdf Real

/-- a `MicrofacetDistribution` (`torrance.py:20-47`) -/
structure MDist where
  D : V3 ℝ → ℝ
  sample : V3 ℝ → ℝ → ℝ → ℝ × V3 ℝ
  pdf : V3 ℝ → V3 ℝ → ℝ

/-- `np.clip(e, -np.inf, 10000.)` (`torrance.py:67, 107-108`) -/
noncomputable def clipExp (e : ℝ) : ℝ := min e 10000

/-- the half vector drawn by `Blinn.sample_f` before the side is fixed (`torrance.py:75-78`) -/
noncomputable def blinnHalf (e u1 u2 : ℝ) : V3 ℝ :=
  let ct := u1 ^ (1 / (e + 1))
  sphericalDirection √(max 0 (1 - ct * ct)) ct (u2 * 2 * π)

/-- `if wo.z * wh.z <= 0.: wh *= -1.` (`torrance.py:80-81, 157-158`) -/
noncomputable def toSide (wo wh : V3 ℝ) : V3 ℝ := if wo.z * wh.z ≤ 0 then -wh else wh

/-- `wi = -wo + 2. * wo.dot(wh) * wh` (`torrance.py:84, 161`) -/
noncomputable def mirror (wo wh : V3 ℝ) : V3 ℝ := -wo + (2 * dot wo wh) * wh

/-- `Blinn` (`torrance.py:52-102`).  In `sample_f` the density is divided by `wo.dot(wh)` before the test for
`wo.dot(wh) <= 0.`, which then replaces it by zero. -/
noncomputable def blinn (e0 : ℝ) : MDist :=
  let e := clipExp e0
  { D := fun wh => (e + 2) * MC.inv2Pi * absCosTheta wh ^ e
    sample := fun wo u1 u2 =>
      let ct := u1 ^ (1 / (e + 1))
      let wh := toSide wo (blinnHalf e u1 u2)
      let wi := mirror wo wh
      let pdf := (e + 1) * ct ^ e / (2 * π * 4 * dot wo wh)
      (if dot wo wh ≤ 0 then 0 else pdf, wi)
    pdf := fun wo wi =>
      let wh := Geom.normalize (wo + wi)
      let ct := absCosTheta wh
      if dot wo wh ≤ 0 then 0 else (e + 1) * ct ^ e / (2 * π * 4 * dot wo wh) }

/-- `Anisotropic.__sample_first_quad` (`torrance.py:120-135`) -/
noncomputable def firstQuad (ex ey u1 u2 : ℝ) : ℝ × ℝ :=
  let phi := if ex = ey then π * u1 * (1 / 2) else arctan (√((ex + 1) / (ey + 1)) * tan (π * u1 * (1 / 2)))
  let cp := cos phi
  let sp := sin phi
  (phi, u2 ^ (1 / (ex * cp * cp + ey * sp * sp + 1)))

/-- azimuth and polar cosine drawn by `Anisotropic.sample_f` (`torrance.py:139-153`) -/
noncomputable def anisoPolar (ex ey u1 u2 : ℝ) : ℝ × ℝ :=
  if u1 < 1 / 4 then firstQuad ex ey (4 * u1) u2
  else if u1 < 1 / 2 then let q := firstQuad ex ey (4 * (1 / 2 - u1)) u2; (π - q.1, q.2)
  else if u1 < 3 / 4 then let q := firstQuad ex ey (4 * (u1 - 1 / 2)) u2; (q.1 + π, q.2)
  else let q := firstQuad ex ey (4 * (1 - u1)) u2; (2 * π - q.1, q.2)

/-- density of a half vector shared by `Anisotropic.sample_f` and `pdf` (`torrance.py:164-172, 175-184`) -/
noncomputable def anisoPdf (ex ey : ℝ) (wo wh : V3 ℝ) : ℝ :=
  let ct := absCosTheta wh
  let ds := 1 - ct * ct
  if ds > 0 ∧ dot wo wh > 0 then
    (√((ex + 1) * (ey + 1)) * MC.inv2Pi * ct ^ ((ex * wh.x * wh.x + ey * wh.y * wh.y) / ds)) / (4 * dot wo wh)
  else 0

/-- `Anisotropic` (`torrance.py:105-184`) -/
noncomputable def anisotropic (ex0 ey0 : ℝ) : MDist :=
  let ex := clipExp ex0
  let ey := clipExp ey0
  { D := fun wh =>
      let cth := absCosTheta wh
      let d := 1 - cth * cth
      if d = 0 then 0
      else √((ex + 2) * (ey + 2)) * MC.inv2Pi * cth ^ ((ex * wh.x * wh.x + ey * wh.y * wh.y) / d)
    sample := fun wo u1 u2 =>
      let pc := anisoPolar ex ey u1 u2
      let wh := toSide wo (sphericalDirection √(max 0 (1 - pc.2 * pc.2)) pc.2 pc.1)
      (anisoPdf ex ey wo wh, mirror wo wh)
    pdf := fun wo wi => anisoPdf ex ey wo (Geom.normalize (wo + wi)) }

/-- `Microfacet.G` (`torrance.py:214-216`) -/
noncomputable def geomTerm (wo wi wh : V3 ℝ) : ℝ :=
  min 1 (min (2 * absCosTheta wh * absCosTheta wo / absDot wo wh) (2 * absCosTheta wh * absCosTheta wi / absDot wo wh))

/-- `Microfacet.f` (`torrance.py:200-212`) -/
noncomputable def microF (R : ℝ) (fresnel : ℝ → ℝ) (d : MDist) (wo wi : V3 ℝ) : ℝ :=
  let cti := cosTheta wi
  let cto := cosTheta wo
  if cti = 0 ∨ cto = 0 then 0
  else
    let wh := Geom.normalize (wi + wo)
    let cth := dot wi wh
    R * d.D wh * geomTerm wo wi wh * fresnel cth / (4 * cti * cto)

/-- `Microfacet` (`torrance.py:187-228`) -/
noncomputable def microfacet (R : ℝ) (fresnel : ℝ → ℝ) (d : MDist) : Bdf ℝ where
  type := REFLECTION ||| GLOSSY
  f := microF R fresnel d
  pdf := fun wo wi => if wi.z * wo.z ≤ 0 then 0 else d.pdf wo wi
  sample := fun wo u1 u2 =>
    let s := d.sample wo u1 u2
    if s.2.z * wo.z ≤ 0 then ⟨s.1, some (s.2, 0)⟩ else ⟨s.1, some (s.2, microF R fresnel d wo s.2)⟩

/-- `FresnelBlend.schlick` (`fresnelblend.py:35-40`) -/
noncomputable def schlick (Rs ct : ℝ) : ℝ := Rs + (1 - ct) ^ (5 : ℝ) * (1 - Rs)

/-- `FresnelBlend.f` (`fresnelblend.py:63-75`) -/
noncomputable def blendF (Rd Rs : ℝ) (d : MDist) (wo wi : V3 ℝ) : ℝ :=
  let diffuse := (28 / (23 * π)) * Rd * (1 - Rs) * (1 - (1 - 1 / 2 * absCosTheta wi) ^ 5) * (1 - (1 - 1 / 2 * absCosTheta wo) ^ 5)
  let wh := Geom.normalize (wi + wo)
  let specular := d.D wh / (4 * absDot wi wh * max (absCosTheta wi) (absCosTheta wo)) * schlick Rs (dot wi wh)
  diffuse + specular

/-- `FresnelBlend.pdf` (`fresnelblend.py:58-61`) -/
noncomputable def blendPdf (d : MDist) (wo wi : V3 ℝ) : ℝ :=
  if wo.z * wi.z ≤ 0 then 0 else 1 / 2 * (absCosTheta wi * MC.invPi + d.pdf wo wi)

/-- `FresnelBlend` (`fresnelblend.py:21-75`) -/
noncomputable def fresnelBlend (Rd Rs : ℝ) (d : MDist) : Bdf ℝ where
  type := REFLECTION ||| GLOSSY
  f := blendF Rd Rs d
  pdf := blendPdf d
  sample := fun wo u1 u2 =>
    if u1 < 1 / 2 then
      let wi := baseDir wo (2 * u1) u2
      ⟨blendPdf d wo wi, some (wi, blendF Rd Rs d wo wi)⟩
    else
      let s := d.sample wo (2 * (u1 - 1 / 2)) u2
      if wo.z * s.2.z ≤ 0 then ⟨s.1, some (s.2, 0)⟩
      else ⟨blendPdf d wo s.2, some (s.2, blendF Rd Rs d wo s.2)⟩

/-! ## Half vectors -/

theorem sqLength_pos_of_ne {v : V3 ℝ} (h : v ≠ 0) : 0 < sqLength v := by
  by_contra hc
  apply h
  unfold sqLength at hc
  have hx := mul_self_nonneg v.x
  have hy := mul_self_nonneg v.y
  have hz := mul_self_nonneg v.z
  have h1 : v.x * v.x = 0 := by linarith
  have h2 : v.y * v.y = 0 := by linarith
  have h3 : v.z * v.z = 0 := by linarith
  ext
  · exact mul_self_eq_zero.mp h1
  · exact mul_self_eq_zero.mp h2
  · exact mul_self_eq_zero.mp h3

theorem normalize_eq {v : V3 ℝ} (h : v ≠ 0) : ∃ L : ℝ, 0 < L ∧ L * L = sqLength v ∧ Geom.normalize v = ⟨v.x / L, v.y / L, v.z / L⟩ := by
  have hp := sqLength_pos_of_ne h
  refine ⟨√(sqLength v), Real.sqrt_pos.mpr hp, Real.mul_self_sqrt hp.le, ?_⟩
  have hl : Geom.length v ≠ 0 := (Real.sqrt_pos.mpr hp).ne'
  unfold Geom.normalize
  simp only [hl, not_false_iff, if_true]
  rfl

/-- For unit directions that are not opposite, the half vector is a unit vector making the same, acute, angle with
both. -/
theorem half_spec {wo wi : V3 ℝ} (ho : sqLength wo = 1) (hi : sqLength wi = 1) (hne : wo + wi ≠ 0) :
    sqLength (Geom.normalize (wo + wi)) = 1 ∧ dot wo (Geom.normalize (wo + wi)) = dot wi (Geom.normalize (wo + wi)) ∧
    0 < dot wo (Geom.normalize (wo + wi)) ∧ dot wo (Geom.normalize (wo + wi)) ≤ 1 := by
  obtain ⟨L, hL, hLL, hn⟩ := normalize_eq hne
  rw [hn]
  have hu : sqLength (⟨(wo + wi).x / L, (wo + wi).y / L, (wo + wi).z / L⟩ : V3 ℝ) = 1 := by
    unfold sqLength at *
    simp only [add_x, add_y, add_z] at *
    field_simp
    linarith
  have hd : dot wo (⟨(wo + wi).x / L, (wo + wi).y / L, (wo + wi).z / L⟩ : V3 ℝ) = L / 2 := by
    unfold sqLength at *
    simp only [dot, add_x, add_y, add_z] at *
    field_simp
    linarith
  refine ⟨hu, ?_, by rw [hd]; positivity, ?_⟩
  · unfold sqLength at *
    simp only [dot, add_x, add_y, add_z] at *
    field_simp
    linarith
  · exact (MC.abs_dot_le_one (a := wo) (by unfold Geom.length; rw [ho]; simp) (by unfold Geom.length; rw [hu]; simp)).2

theorem add_comm3 (a b : V3 ℝ) : a + b = b + a := by ext <;> simp [add_comm]

theorem mirror_spec {wo wh : V3 ℝ} (ho : sqLength wo = 1) (hh : sqLength wh = 1) (hd : 0 < dot wo wh) :
    sqLength (mirror wo wh) = 1 ∧ wo + mirror wo wh = (2 * dot wo wh) * wh ∧ Geom.normalize (wo + mirror wo wh) = wh := by
  have e : wo + mirror wo wh = (2 * dot wo wh) * wh := by
    unfold mirror
    ext <;> simp
  refine ⟨?_, e, ?_⟩
  · unfold mirror sqLength at *
    simp only [dot, add_x, add_y, add_z, neg_x, neg_y, neg_z, smul_x, smul_y, smul_z] at *
    linear_combination ho + (4 * (wo.x * wh.x + wo.y * wh.y + wo.z * wh.z) ^ 2) * hh
  · have hne : wo + mirror wo wh ≠ 0 := by
      rw [e]
      intro h
      have h2 : (2 * dot wo wh) * sqLength wh = 0 := by
        have hx := congrArg V3.x h
        have hy := congrArg V3.y h
        have hz := congrArg V3.z h
        simp only [smul_x, smul_y, smul_z, zero_x, zero_y, zero_z] at hx hy hz
        unfold sqLength
        linear_combination wh.x * hx + wh.y * hy + wh.z * hz
      rw [hh] at h2
      linarith
    obtain ⟨L, hL, hLL, hn⟩ := normalize_eq hne
    rw [hn]
    have hL2 : L = 2 * dot wo wh := by
      have : L * L = (2 * dot wo wh) * (2 * dot wo wh) := by
        rw [hLL, e]
        unfold sqLength at *
        simp only [smul_x, smul_y, smul_z]
        linear_combination (2 * dot wo wh) ^ 2 * hh
      nlinarith
    rw [e]
    have h0 : (2 * dot wo wh) ≠ 0 := by linarith
    ext <;> simp only [smul_x, smul_y, smul_z, hL2] <;> exact mul_div_cancel_left₀ _ h0

theorem sphericalDirection_unit (ct phi : ℝ) (h0 : 0 ≤ ct) (h1 : ct ≤ 1) :
    sqLength (sphericalDirection √(max 0 (1 - ct * ct)) ct phi) = 1 := by
  have h : 0 ≤ 1 - ct * ct := by nlinarith
  rw [max_eq_right h]
  unfold sphericalDirection sqLength
  simp only []
  have hs := Real.mul_self_sqrt h
  have hc := Real.sin_sq_add_cos_sq phi
  linear_combination (√(1 - ct * ct) * √(1 - ct * ct)) * hc + hs

theorem toSide_spec (wo wh : V3 ℝ) : sqLength (toSide wo wh) = sqLength wh ∧ absCosTheta (toSide wo wh) = absCosTheta wh := by
  unfold toSide
  split_ifs
  · unfold sqLength absCosTheta
    simp only [neg_x, neg_y, neg_z]
    exact ⟨by ring, abs_neg _⟩
  · exact ⟨rfl, rfl⟩

/-! ## C81: Blinn distribution -/

/-- The exponent is at most 10000 and otherwise the given one. -/
theorem C81_exponent (e : ℝ) : clipExp e ≤ 10000 ∧ (e ≤ 10000 → clipExp e = e) :=
  ⟨min_le_right _ _, fun h => min_eq_left h⟩

theorem blinn_D (e : ℝ) (he : e ≤ 10000) (wh : V3 ℝ) : (blinn e).D wh = (e + 2) / (2 * π) * |wh.z| ^ e := by
  show (clipExp e + 2) * MC.inv2Pi * absCosTheta wh ^ clipExp e = _
  rw [(C81_exponent e).2 he, MC.inv2Pi, absCosTheta]; ring

/-- The distribution is not negative and its projected area over the hemisphere of normals is one. -/
theorem C81_normalised (e : ℝ) (h0 : 0 ≤ e) (h1 : e ≤ 10000) :
    (∀ wh, 0 ≤ (blinn e).D wh) ∧ ∃ g : ℝ → ℝ, (∀ wh : V3 ℝ, (blinn e).D wh = g wh.z) ∧ MC.capMass (fun c => g c * c) 0 (π / 2) = 1 := by
  have hpi := Real.pi_pos
  refine ⟨fun wh => ?_, fun c => (e + 2) / (2 * π) * |c| ^ e, fun wh => blinn_D e h1 wh, ?_⟩
  · rw [blinn_D e h1]; positivity
  · rw [MC.capMass_eq _ (fun c => c ^ (e + 2) / (2 * π))]
    · rw [Real.cos_zero, Real.cos_pi_div_two, Real.one_rpow, Real.zero_rpow (by linarith)]; field_simp; ring
    · intro θ hθ
      rw [Set.uIcc_of_le (by linarith)] at hθ
      have hc : 0 ≤ cos θ := Real.cos_nonneg_of_neg_pi_div_two_le_of_le (by linarith [hθ.1]) hθ.2
      have := (Real.hasDerivAt_rpow_const (x := cos θ) (p := e + 2) (Or.inr (by linarith))).div_const (2 * π)
      refine this.congr_deriv ?_
      simp only []
      rw [abs_of_nonneg hc, show e + 2 - 1 = e + 1 by ring]
      have : cos θ ^ (e + 1) = cos θ ^ e * cos θ := by
        rcases hc.eq_or_lt with h | h
        · rw [← h, Real.zero_rpow (by linarith)]; ring
        · rw [Real.rpow_add h, Real.rpow_one]
      rw [this]; ring
    · apply Continuous.continuousOn
      have : Continuous fun θ : ℝ => |cos θ| ^ e := (Real.continuous_cos.abs).rpow_const (fun _ => Or.inr h0)
      fun_prop

/-- The half vectors drawn follow the density `(e+1)/(2π) cos^e`, the one used in `pdf`. -/
theorem C81_half_follows (e : ℝ) (h0 : 0 ≤ e) : MC.Follows (blinnHalf e) (fun c => (e + 1) * c ^ e / (2 * π)) (π / 2) := by
  intro u2 t ht0 ht1
  have hpi := Real.pi_pos
  have hc : 0 ≤ cos t := Real.cos_nonneg_of_neg_pi_div_two_le_of_le (by linarith) ht1
  have hc1 : cos t ≤ 1 := Real.cos_le_one t
  have he : 0 < e + 1 := by linarith
  have hp : 0 ≤ cos t ^ (e + 1) := Real.rpow_nonneg hc _
  have hset : {u1 : ℝ | 0 ≤ u1 ∧ u1 ≤ 1 ∧ cos t ≤ (blinnHalf e u1 u2).z} = Set.Icc (cos t ^ (e + 1)) 1 := by
    ext u
    simp only [blinnHalf, sphericalDirection, Set.mem_ofPred_eq, Set.mem_Icc]
    constructor
    · rintro ⟨a, b, c⟩
      refine ⟨?_, b⟩
      have := Real.rpow_le_rpow hc c he.le
      rw [← Real.rpow_mul a, one_div, inv_mul_cancel₀ he.ne', Real.rpow_one] at this
      exact this
    · rintro ⟨a, b⟩
      have hu : 0 ≤ u := hp.trans a
      refine ⟨hu, b, ?_⟩
      have := Real.rpow_le_rpow hp a (show 0 ≤ 1 / (e + 1) by positivity)
      rw [← Real.rpow_mul hc, one_div, mul_inv_cancel₀ he.ne', Real.rpow_one] at this
      rw [one_div]; exact this
  rw [hset, Real.volume_Icc, MC.capMass_eq _ (fun c => c ^ (e + 1) / (2 * π))]
  · rw [Real.cos_zero, Real.one_rpow]; congr 1; field_simp
  · intro θ _
    have := (Real.hasDerivAt_rpow_const (x := cos θ) (p := e + 1) (Or.inr (by linarith))).div_const (2 * π)
    refine this.congr_deriv ?_
    rw [show e + 1 - 1 = e by ring]
  · apply Continuous.continuousOn
    have : Continuous fun θ : ℝ => cos θ ^ e := Real.continuous_cos.rpow_const (fun _ => Or.inr h0)
    fun_prop

/-- The azimuth of the half vectors is uniform, `2 π u2`, whatever the polar angle: together with `C81_half_follows` this is the distribution over the hemisphere. -/
theorem C81_half_azimuth (e u1 u2 : ℝ) (h0 : 0 ≤ e) (hu0 : 0 ≤ u1) (hu1 : u1 ≤ 1) :
    ∃ s : ℝ, 0 ≤ s ∧ s ^ 2 + (blinnHalf e u1 u2).z ^ 2 = 1 ∧ (blinnHalf e u1 u2).x = s * cos (2 * π * u2) ∧ (blinnHalf e u1 u2).y = s * sin (2 * π * u2) := by
  have hct0 : 0 ≤ u1 ^ (1 / (e + 1)) := Real.rpow_nonneg hu0 _
  have hct1 : u1 ^ (1 / (e + 1)) ≤ 1 := Real.rpow_le_one hu0 hu1 (by positivity)
  have hn : 0 ≤ 1 - u1 ^ (1 / (e + 1)) * u1 ^ (1 / (e + 1)) := by nlinarith
  refine ⟨√(max 0 (1 - u1 ^ (1 / (e + 1)) * u1 ^ (1 / (e + 1)))), Real.sqrt_nonneg _, ?_, ?_, ?_⟩
  · rw [max_eq_right hn, Real.sq_sqrt hn]
    simp only [blinnHalf, sphericalDirection]; ring
  · simp only [blinnHalf, sphericalDirection]; rw [show u2 * 2 * π = 2 * π * u2 by ring]
  · simp only [blinnHalf, sphericalDirection]; rw [show u2 * 2 * π = 2 * π * u2 by ring]

/-- Sampling agrees with the density: when the density reported is not zero, the direction is a unit vector, the mirror
image of `wo` about a unit half vector, and the density reported is `pdf` of that direction. -/
theorem C81_sample (e : ℝ) (h0 : 0 ≤ e) (h1 : e ≤ 10000) (wo : V3 ℝ) (ho : sqLength wo = 1) (u1 u2 : ℝ) (hu0 : 0 ≤ u1) (hu1 : u1 ≤ 1)
    (hp : ((blinn e).sample wo u1 u2).1 ≠ 0) :
    ∃ wh, sqLength wh = 1 ∧ 0 < dot wo wh ∧ 0 ≤ wo.z * wh.z ∧ ((blinn e).sample wo u1 u2).2 = (2 * dot wo wh) * wh - wo ∧
      sqLength ((blinn e).sample wo u1 u2).2 = 1 ∧ ((blinn e).sample wo u1 u2).1 = (blinn e).pdf wo ((blinn e).sample wo u1 u2).2 := by
  have hce := (C81_exponent e).2 h1
  have he : 0 < e + 1 := by linarith
  have hct0 : 0 ≤ u1 ^ (1 / (e + 1)) := Real.rpow_nonneg hu0 _
  have hct1 : u1 ^ (1 / (e + 1)) ≤ 1 := Real.rpow_le_one hu0 hu1 (by positivity)
  have hbu : sqLength (blinnHalf e u1 u2) = 1 := sphericalDirection_unit _ _ hct0 hct1
  have hbz : absCosTheta (blinnHalf e u1 u2) = u1 ^ (1 / (e + 1)) := abs_of_nonneg hct0
  obtain ⟨t1, t2⟩ := toSide_spec wo (blinnHalf e u1 u2)
  rw [hbu] at t1
  rw [hbz] at t2
  have hside : 0 ≤ wo.z * (toSide wo (blinnHalf e u1 u2)).z := by
    unfold toSide
    split_ifs with h
    · rw [neg_z]; linarith
    · exact (not_le.mp h).le
  have hs : (blinn e).sample wo u1 u2 = (if dot wo (toSide wo (blinnHalf e u1 u2)) ≤ 0 then 0 else
      (e + 1) * (u1 ^ (1 / (e + 1))) ^ e / (2 * π * 4 * dot wo (toSide wo (blinnHalf e u1 u2))), mirror wo (toSide wo (blinnHalf e u1 u2))) := by
    show (if _ then _ else _, _) = _
    rw [hce]
  rw [hs] at hp ⊢
  simp only [] at hp ⊢
  generalize toSide wo (blinnHalf e u1 u2) = wh at *
  by_cases hd : dot wo wh ≤ 0
  · rw [if_pos hd] at hp; exact absurd rfl hp
  · have hdp := not_le.mp hd
    obtain ⟨m1, m2, m3⟩ := mirror_spec ho t1 hdp
    refine ⟨wh, t1, hdp, hside, ?_, m1, ?_⟩
    · unfold mirror; ext <;> simp <;> ring
    · show _ = if dot wo (Geom.normalize (wo + mirror wo wh)) ≤ 0 then 0 else
        (clipExp e + 1) * absCosTheta (Geom.normalize (wo + mirror wo wh)) ^ clipExp e / (2 * π * 4 * dot wo (Geom.normalize (wo + mirror wo wh)))
      rw [m3, hce, t2]

/-- straight up, half-way sample -/
example : ((blinn 1).sample ⟨0, 0, 1⟩ 1 0).1 ≠ 0 := by
  have hce : clipExp 1 = 1 := (C81_exponent 1).2 (by norm_num)
  show (if dot ⟨0, 0, 1⟩ (toSide ⟨0, 0, 1⟩ (blinnHalf (clipExp 1) 1 0)) ≤ 0 then 0 else
    (clipExp 1 + 1) * (1 ^ (1 / (clipExp 1 + 1))) ^ clipExp 1 / (2 * π * 4 * dot ⟨0, 0, 1⟩ (toSide ⟨0, 0, 1⟩ (blinnHalf (clipExp 1) 1 0)))) ≠ 0
  have hh : blinnHalf (clipExp 1) 1 0 = ⟨0, 0, 1⟩ := by
    unfold blinnHalf sphericalDirection
    simp
  have ht : toSide ⟨0, 0, 1⟩ (blinnHalf (clipExp 1) 1 0) = ⟨0, 0, 1⟩ := by
    rw [hh]; unfold toSide; rw [if_neg (by norm_num)]
  have hd : dot (⟨0, 0, 1⟩ : V3 ℝ) ⟨0, 0, 1⟩ = 1 := by norm_num [dot]
  rw [ht, hd, if_neg (by norm_num), hce]
  simp

/-! ## C82: Anisotropic distribution -/

/-- Density and distribution are never negative; sampling agrees with the density in the sense of `C81_sample`. -/
theorem C82_anisotropic (ex ey : ℝ) (hx0 : 0 ≤ ex) (hx1 : ex ≤ 10000) (hy0 : 0 ≤ ey) (hy1 : ey ≤ 10000) (wo : V3 ℝ) (ho : sqLength wo = 1) :
    (∀ wh, 0 ≤ (anisotropic ex ey).D wh) ∧ (∀ wi, 0 ≤ (anisotropic ex ey).pdf wo wi) ∧
    ∀ u1 u2, 0 ≤ u2 → u2 ≤ 1 → ((anisotropic ex ey).sample wo u1 u2).1 ≠ 0 →
      ∃ wh, sqLength wh = 1 ∧ 0 < dot wo wh ∧ 0 ≤ wo.z * wh.z ∧ ((anisotropic ex ey).sample wo u1 u2).2 = (2 * dot wo wh) * wh - wo ∧
      sqLength ((anisotropic ex ey).sample wo u1 u2).2 = 1 ∧
      ((anisotropic ex ey).sample wo u1 u2).1 = (anisotropic ex ey).pdf wo ((anisotropic ex ey).sample wo u1 u2).2 := by
  have hpi := Real.pi_pos
  have hcx := (C81_exponent ex).2 hx1
  have hcy := (C81_exponent ey).2 hy1
  have hI : 0 ≤ MC.inv2Pi := by unfold MC.inv2Pi; positivity
  have hpdf : ∀ wh, 0 ≤ anisoPdf ex ey wo wh := by
    intro wh
    unfold anisoPdf
    simp only []
    split_ifs with h
    · have : 0 ≤ absCosTheta wh := abs_nonneg _
      have h2 := h.2
      positivity
    · exact le_rfl
  refine ⟨fun wh => ?_, fun wi => ?_, fun u1 u2 h0 h1 hp => ?_⟩
  · have : 0 ≤ absCosTheta wh := abs_nonneg _
    simp only [anisotropic]
    split_ifs
    · exact le_rfl
    · positivity
  · show 0 ≤ anisoPdf (clipExp ex) (clipExp ey) wo _
    rw [hcx, hcy]; exact hpdf _
  · have hs : (anisotropic ex ey).sample wo u1 u2 = (anisoPdf ex ey wo (toSide wo (sphericalDirection √(max 0 (1 - (anisoPolar ex ey u1 u2).2 * (anisoPolar ex ey u1 u2).2)) (anisoPolar ex ey u1 u2).2 (anisoPolar ex ey u1 u2).1)),
        mirror wo (toSide wo (sphericalDirection √(max 0 (1 - (anisoPolar ex ey u1 u2).2 * (anisoPolar ex ey u1 u2).2)) (anisoPolar ex ey u1 u2).2 (anisoPolar ex ey u1 u2).1))) := by
      show (_, _) = _
      rw [hcx, hcy]
    have hq : ∀ v, 0 ≤ (firstQuad ex ey v u2).2 ∧ (firstQuad ex ey v u2).2 ≤ 1 := by
      intro v
      unfold firstQuad
      simp only []
      generalize (if ex = ey then π * v * (1 / 2) else arctan (√((ex + 1) / (ey + 1)) * tan (π * v * (1 / 2)))) = phi
      have : 0 < ex * cos phi * cos phi + ey * sin phi * sin phi + 1 := by
        nlinarith [mul_nonneg hx0 (mul_self_nonneg (cos phi)), mul_nonneg hy0 (mul_self_nonneg (sin phi))]
      exact ⟨Real.rpow_nonneg h0 _, Real.rpow_le_one h0 h1 (by positivity)⟩
    have hc : 0 ≤ (anisoPolar ex ey u1 u2).2 ∧ (anisoPolar ex ey u1 u2).2 ≤ 1 := by
      unfold anisoPolar
      split_ifs <;> exact hq _
    rw [hs] at hp ⊢
    have hwu := sphericalDirection_unit (anisoPolar ex ey u1 u2).2 (anisoPolar ex ey u1 u2).1 hc.1 hc.2
    generalize sphericalDirection √(max 0 (1 - (anisoPolar ex ey u1 u2).2 * (anisoPolar ex ey u1 u2).2)) (anisoPolar ex ey u1 u2).2 (anisoPolar ex ey u1 u2).1 = wh0 at *
    obtain ⟨t1, _⟩ := toSide_spec wo wh0
    rw [hwu] at t1
    have hside : 0 ≤ wo.z * (toSide wo wh0).z := by
      unfold toSide
      split_ifs with h
      · rw [neg_z]; linarith
      · exact (not_le.mp h).le
    generalize toSide wo wh0 = wh at *
    simp only [] at hp ⊢
    have hd : 0 < dot wo wh := by
      by_contra hc
      apply hp
      unfold anisoPdf
      simp only []
      rw [if_neg (fun h => hc h.2)]
    obtain ⟨m1, m2, m3⟩ := mirror_spec ho t1 hd
    refine ⟨wh, t1, hd, hside, ?_, m1, ?_⟩
    · unfold mirror; ext <;> simp <;> ring
    · show _ = anisoPdf (clipExp ex) (clipExp ey) wo (Geom.normalize (wo + mirror wo wh))
      rw [hcx, hcy, m3]

/-! ## C83: Torrance-Sparrow -/

/-- the Fresnel factor of a component is never negative -/
def NonnegFresnel (fr : ℝ → ℝ) : Prop := ∀ c, 0 ≤ fr c

/-- The geometric attenuation is a fraction. -/
theorem C83_attenuation (wo wi wh : V3 ℝ) : 0 ≤ geomTerm wo wi wh ∧ geomTerm wo wi wh ≤ 1 := by
  have h1 : 0 ≤ absCosTheta wo := abs_nonneg _
  have h2 : 0 ≤ absCosTheta wi := abs_nonneg _
  have h3 : 0 ≤ absCosTheta wh := abs_nonneg _
  have h4 : 0 ≤ absDot wo wh := abs_nonneg _
  refine ⟨le_min zero_le_one (le_min ?_ ?_), min_le_left _ _⟩ <;> positivity

/-- Reciprocity for unit directions that are not opposite. -/
theorem C83_reciprocal (R : ℝ) (fr : ℝ → ℝ) (d : MDist) (wo wi : V3 ℝ) (ho : sqLength wo = 1) (hi : sqLength wi = 1) (hne : wo + wi ≠ 0) :
    (microfacet R fr d).f wo wi = (microfacet R fr d).f wi wo := by
  obtain ⟨_, h2, h3, _⟩ := half_spec ho hi hne
  show microF R fr d wo wi = microF R fr d wi wo
  unfold microF cosTheta
  simp only []
  rw [add_comm3 wi wo]
  by_cases h : wi.z = 0 ∨ wo.z = 0
  · rw [if_pos h, if_pos h.symm]
  · rw [if_neg h, if_neg (fun h' => h h'.symm)]
    unfold geomTerm absDot
    rw [← h2]
    rw [min_comm (2 * absCosTheta (Geom.normalize (wo + wi)) * absCosTheta wo / _)]
    ring

/-- Not negative when both directions are on the same side.  Missing: opposite sides, where the sign of the product of
cosines survives (next theorem). -/
theorem C83_nonneg_partial (R : ℝ) (fr : ℝ → ℝ) (d : MDist) (hR : 0 ≤ R) (hf : NonnegFresnel fr) (hD : ∀ wh, 0 ≤ d.D wh)
    (wo wi : V3 ℝ) (hs : 0 ≤ wi.z * wo.z) : 0 ≤ (microfacet R fr d).f wo wi := by
  show 0 ≤ microF R fr d wo wi
  unfold microF cosTheta
  simp only []
  split_ifs with h
  · exact le_rfl
  · have h1 := (C83_attenuation wo wi (Geom.normalize (wi + wo))).1
    have h2 := hf (dot wi (Geom.normalize (wi + wo)))
    have h3 := hD (Geom.normalize (wi + wo))
    have h4 : 0 ≤ 4 * wi.z * wo.z := by nlinarith
    positivity

/-- The value is negative for some pairs of directions on opposite sides (light reflected "through" the surface). -/
theorem C83_nonneg_false : ¬ ∀ (R : ℝ) (fr : ℝ → ℝ) (d : MDist), 0 ≤ R → NonnegFresnel fr → (∀ wh, 0 ≤ d.D wh) →
    ∀ wo wi, sqLength wo = 1 → sqLength wi = 1 → 0 ≤ (microfacet R fr d).f wo wi := by
  intro H
  have h := H 1 (fun _ => 1) ⟨fun _ => 1, fun _ _ _ => (0, 0), fun _ _ => 0⟩ zero_le_one (fun _ => zero_le_one) (fun _ => zero_le_one)
    ⟨4/5, 0, 3/5⟩ ⟨3/5, 0, -4/5⟩ (by norm_num [sqLength]) (by norm_num [sqLength])
  have hsum : (⟨3/5, 0, -4/5⟩ : V3 ℝ) + ⟨4/5, 0, 3/5⟩ = ⟨7/5, 0, -1/5⟩ := by
    ext <;> simp <;> norm_num
  have hne : (⟨7/5, 0, -1/5⟩ : V3 ℝ) ≠ 0 := by
    intro h
    have := congrArg V3.x h
    norm_num at this
  obtain ⟨L, hL, hLL, hn⟩ := normalize_eq hne
  have hg : 0 < geomTerm ⟨4/5, 0, 3/5⟩ ⟨3/5, 0, -4/5⟩ (⟨7/5 / L, 0 / L, (-1/5) / L⟩ : V3 ℝ) := by
    have h1 : 0 < absCosTheta (⟨7/5 / L, 0 / L, (-1/5) / L⟩ : V3 ℝ) := by
      unfold absCosTheta; apply abs_pos.mpr; simp only []; exact div_ne_zero (by norm_num) hL.ne'
    have h2 : 0 < absCosTheta (⟨4/5, 0, 3/5⟩ : V3 ℝ) := by unfold absCosTheta; apply abs_pos.mpr; norm_num
    have h3 : 0 < absCosTheta (⟨3/5, 0, -4/5⟩ : V3 ℝ) := by unfold absCosTheta; apply abs_pos.mpr; norm_num
    have h4 : 0 < absDot (⟨4/5, 0, 3/5⟩ : V3 ℝ) (⟨7/5 / L, 0 / L, (-1/5) / L⟩ : V3 ℝ) := by
      unfold absDot dot; apply abs_pos.mpr
      simp only []
      have : (4/5 * (7/5 / L) + 0 * (0 / L) + 3/5 * (-1/5 / L) : ℝ) = 1 / L := by field_simp; ring
      rw [this]; positivity
    unfold geomTerm
    exact lt_min one_pos (lt_min (by positivity) (by positivity))
  have hval : microF 1 (fun _ => 1) ⟨fun _ => 1, fun _ _ _ => (0, 0), fun _ _ => 0⟩ ⟨4/5, 0, 3/5⟩ ⟨3/5, 0, -4/5⟩ =
      geomTerm ⟨4/5, 0, 3/5⟩ ⟨3/5, 0, -4/5⟩ (⟨7/5 / L, 0 / L, (-1/5) / L⟩ : V3 ℝ) / (4 * (-4/5) * (3/5)) := by
    unfold microF cosTheta
    simp only []
    rw [if_neg (by norm_num), hsum, hn]
    ring
  have h' : 0 ≤ microF 1 (fun _ => 1) ⟨fun _ => 1, fun _ _ _ => (0, 0), fun _ _ => 0⟩ ⟨4/5, 0, 3/5⟩ ⟨3/5, 0, -4/5⟩ := h
  rw [hval] at h'
  have : geomTerm ⟨4/5, 0, 3/5⟩ ⟨3/5, 0, -4/5⟩ (⟨7/5 / L, 0 / L, (-1/5) / L⟩ : V3 ℝ) / (4 * (-4/5) * (3/5)) < 0 :=
    div_neg_of_pos_of_neg hg (by norm_num)
  linarith

/-- Sampling: the value reported is `f` of the direction and the density the component's `pdf`, if the direction is on
`wo`'s side; otherwise the value is black. (`d` samples according to its own density, as C81 and C82 show.) -/
theorem C83_sample (R : ℝ) (fr : ℝ → ℝ) (d : MDist) (wo : V3 ℝ) (u1 u2 : ℝ)
    (hd : (d.sample wo u1 u2).1 ≠ 0 → (d.sample wo u1 u2).1 = d.pdf wo (d.sample wo u1 u2).2) :
    ∃ wi v, ((microfacet R fr d).sample wo u1 u2).dv = some (wi, v) ∧
      (wi.z * wo.z ≤ 0 → v = 0) ∧
      (0 < wi.z * wo.z → v = (microfacet R fr d).f wo wi ∧
        (((microfacet R fr d).sample wo u1 u2).pdf ≠ 0 → ((microfacet R fr d).sample wo u1 u2).pdf = (microfacet R fr d).pdf wo wi)) := by
  by_cases h : (d.sample wo u1 u2).2.z * wo.z ≤ 0
  · have e : (microfacet R fr d).sample wo u1 u2 = ⟨(d.sample wo u1 u2).1, some ((d.sample wo u1 u2).2, 0)⟩ := by
      show (if _ then _ else _) = _
      rw [if_pos h]
    refine ⟨(d.sample wo u1 u2).2, 0, by rw [e], fun _ => rfl, fun h' => absurd h (not_le.mpr h')⟩
  · have e : (microfacet R fr d).sample wo u1 u2 = ⟨(d.sample wo u1 u2).1, some ((d.sample wo u1 u2).2, microF R fr d wo (d.sample wo u1 u2).2)⟩ := by
      show (if _ then _ else _) = _
      rw [if_neg h]
    refine ⟨(d.sample wo u1 u2).2, microF R fr d wo (d.sample wo u1 u2).2, by rw [e], fun h' => absurd h' h, fun _ => ⟨rfl, ?_⟩⟩
    rw [e]
    intro hp
    show (d.sample wo u1 u2).1 = if _ then _ else _
    rw [if_neg h]
    exact hd hp

/-! ## C84: Fresnel blend -/

/-- Reciprocity for unit directions that are not opposite. -/
theorem C84_reciprocal (Rd Rs : ℝ) (d : MDist) (wo wi : V3 ℝ) (ho : sqLength wo = 1) (hi : sqLength wi = 1) (hne : wo + wi ≠ 0) :
    (fresnelBlend Rd Rs d).f wo wi = (fresnelBlend Rd Rs d).f wi wo := by
  obtain ⟨_, h2, _, _⟩ := half_spec ho hi hne
  show blendF Rd Rs d wo wi = blendF Rd Rs d wi wo
  unfold blendF
  simp only []
  rw [add_comm3 wi wo, max_comm (absCosTheta wi)]
  unfold absDot
  rw [h2]
  ring

/-- Not negative for reflectances in `[0,1]` and unit directions that are not opposite. -/
theorem C84_nonneg (Rd Rs : ℝ) (d : MDist) (hd0 : 0 ≤ Rd) (hs0 : 0 ≤ Rs) (hs1 : Rs ≤ 1) (hD : ∀ wh, 0 ≤ d.D wh)
    (wo wi : V3 ℝ) (ho : sqLength wo = 1) (hi : sqLength wi = 1) (hne : wo + wi ≠ 0) : 0 ≤ (fresnelBlend Rd Rs d).f wo wi := by
  obtain ⟨_, h2, h3, h4⟩ := half_spec ho hi hne
  show 0 ≤ blendF Rd Rs d wo wi
  unfold blendF
  simp only []
  have hpi := Real.pi_pos
  have bound : ∀ w : V3 ℝ, sqLength w = 1 → 0 ≤ 1 - (1 - 1 / 2 * absCosTheta w) ^ 5 := by
    intro w hw
    have h0 : 0 ≤ absCosTheta w := abs_nonneg _
    have h1 : absCosTheta w ≤ 1 := by
      unfold absCosTheta sqLength at *
      rw [abs_le_one_iff_mul_self_le_one]
      nlinarith [mul_self_nonneg w.x, mul_self_nonneg w.y]
    have := pow_le_one₀ (n := 5) (show 0 ≤ 1 - 1 / 2 * absCosTheta w by linarith) (by linarith)
    linarith
  have b1 := bound wi hi
  have b2 := bound wo ho
  have h5 := hD (Geom.normalize (wi + wo))
  have h6 : 0 ≤ schlick Rs (dot wi (Geom.normalize (wi + wo))) := by
    unfold schlick
    rw [add_comm3 wi wo, ← h2]
    have : 0 ≤ (1 - dot wo (Geom.normalize (wo + wi))) ^ (5 : ℝ) := Real.rpow_nonneg (by linarith) _
    have h7 : 0 ≤ 1 - Rs := by linarith
    positivity
  have h7 : 0 ≤ 1 - Rs := by linarith
  have h8 : 0 ≤ absDot wi (Geom.normalize (wi + wo)) := abs_nonneg _
  have h9 : 0 ≤ max (absCosTheta wi) (absCosTheta wo) := le_max_of_le_left (abs_nonneg _)
  positivity

example : sqLength (⟨3/5, 0, 4/5⟩ : V3 ℝ) = 1 ∧ sqLength (⟨0, 4/5, 3/5⟩ : V3 ℝ) = 1 ∧ (⟨3/5, 0, 4/5⟩ : V3 ℝ) + ⟨0, 4/5, 3/5⟩ ≠ 0 := by
  refine ⟨by norm_num [sqLength], by norm_num [sqLength], fun h => ?_⟩
  have := congrArg V3.x h
  simp at this

/-- Sampling: whatever is sampled, the value is `f` of the direction and the density `pdf` of it, except that a
direction on the wrong side of the surface (only from the glossy half of the samples) is reported black. -/
theorem C84_sample (Rd Rs : ℝ) (d : MDist) (wo : V3 ℝ) (u1 u2 : ℝ) :
    ∃ wi v, ((fresnelBlend Rd Rs d).sample wo u1 u2).dv = some (wi, v) ∧
      (((fresnelBlend Rd Rs d).sample wo u1 u2).pdf = (fresnelBlend Rd Rs d).pdf wo wi ∧ v = (fresnelBlend Rd Rs d).f wo wi ∨
       1 / 2 ≤ u1 ∧ wo.z * wi.z ≤ 0 ∧ v = 0) := by
  by_cases hu : u1 < 1 / 2
  · have e : (fresnelBlend Rd Rs d).sample wo u1 u2 = ⟨blendPdf d wo (baseDir wo (2 * u1) u2), some (baseDir wo (2 * u1) u2, blendF Rd Rs d wo (baseDir wo (2 * u1) u2))⟩ := by
      show (if _ then _ else _) = _
      rw [if_pos hu]
    exact ⟨_, blendF Rd Rs d wo (baseDir wo (2 * u1) u2), by rw [e], Or.inl ⟨by rw [e]; rfl, rfl⟩⟩
  · by_cases h : wo.z * (d.sample wo (2 * (u1 - 1 / 2)) u2).2.z ≤ 0
    · have e : (fresnelBlend Rd Rs d).sample wo u1 u2 = ⟨(d.sample wo (2 * (u1 - 1 / 2)) u2).1, some ((d.sample wo (2 * (u1 - 1 / 2)) u2).2, 0)⟩ := by
        show (if _ then _ else _) = _
        rw [if_neg hu, if_pos h]
      exact ⟨_, _, by rw [e], Or.inr ⟨not_lt.mp hu, h, rfl⟩⟩
    · have e : (fresnelBlend Rd Rs d).sample wo u1 u2 = ⟨blendPdf d wo (d.sample wo (2 * (u1 - 1 / 2)) u2).2, some ((d.sample wo (2 * (u1 - 1 / 2)) u2).2, blendF Rd Rs d wo (d.sample wo (2 * (u1 - 1 / 2)) u2).2)⟩ := by
        show (if _ then _ else _) = _
        rw [if_neg hu, if_neg h]
      exact ⟨_, blendF Rd Rs d wo (d.sample wo (2 * (u1 - 1 / 2)) u2).2, by rw [e], Or.inl ⟨by rw [e]; rfl, rfl⟩⟩

/-- Schlick's approximation runs from the normal reflectance to one. -/
theorem C84_schlick (Rs ct : ℝ) (hs1 : Rs ≤ 1) (h0 : 0 ≤ ct) (h1 : ct ≤ 1) :
    Rs ≤ schlick Rs ct ∧ schlick Rs ct ≤ 1 ∧ schlick Rs 1 = Rs ∧ schlick Rs 0 = 1 := by
  unfold schlick
  have a : 0 ≤ (1 - ct) ^ (5 : ℝ) := Real.rpow_nonneg (by linarith) _
  have b : (1 - ct) ^ (5 : ℝ) ≤ 1 := Real.rpow_le_one (by linarith) (by linarith) (by norm_num)
  have c : 0 ≤ 1 - Rs := by linarith
  refine ⟨by nlinarith, by nlinarith, ?_, ?_⟩
  · rw [sub_self, Real.zero_rpow (by norm_num)]; ring
  · rw [sub_zero, Real.one_rpow]; ring

end Verif.Refl
