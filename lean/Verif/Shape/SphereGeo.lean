import Verif.Shape.Disk
/-!
# Sphere: surface parameters, normals, sampling, area (C73, C74)

Models `pytracer/shape/sphere.py` `intersect` 187-220 (differential geometry in object space), `sample` 43-60, `area` 281-282.  Real arithmetic.
-/
namespace Verif.Shape
open V3 Xform

/-- `self.thetaMin`, sphere.py 32 -/
noncomputable def Sphere.thetaMin (s : Sphere) : ℝ := Real.arccos (npClip (s.zmin / s.radius) (-1) 1)
/-- `self.thetaMax`, sphere.py 33 -/
noncomputable def Sphere.thetaMax (s : Sphere) : ℝ := Real.arccos (npClip (s.zmax / s.radius) (-1) 1)

/-- what `intersect` hands to `DifferentialGeometry`, in object space -/
structure SGeo where
  u : ℝ
  v : ℝ
  dpdu : V3 ℝ
  dpdv : V3 ℝ
  dndu : V3 ℝ
  dndv : V3 ℝ

/-- sphere.py 187-220 -/
noncomputable def Sphere.geo (s : Sphere) (phit : V3 ℝ) (phi : ℝ) : SGeo :=
  let u := phi / s.phiMax
  let theta := Real.arccos (npClip (phit.z / s.radius) (-1) 1)
  let dt := s.thetaMax - s.thetaMin
  let v := (theta - s.thetaMin) * dt
  let dpdu : V3 ℝ := ⟨-s.phiMax * phit.y, s.phiMax * phit.x, 0⟩
  let zrad := Real.sqrt (phit.x * phit.x + phit.y * phit.y)
  let inv := 1 / zrad
  let cphi := phit.x * inv
  let sphi := phit.y * inv
  let dpdv := dt * (⟨phit.z * cphi, phit.z * sphi, -s.radius * Real.sin theta⟩ : V3 ℝ)
  let d2pduu := (-s.phiMax * s.phiMax) * (⟨phit.x, phit.y, 0⟩ : V3 ℝ)
  let d2pduv := (dt * phit.z * s.phiMax) * (⟨-sphi, cphi, 0⟩ : V3 ℝ)
  let d2pdvv := (-dt * dt) * (⟨phit.x, phit.y, phit.z⟩ : V3 ℝ)
  let E := dot dpdu dpdu
  let F := dot dpdu dpdv
  let G := dot dpdv dpdv
  let N := Geom.normalize (cross dpdu dpdv)
  let e := dot N d2pduu
  let f := dot N d2pduv
  let g := dot N d2pdvv
  let i := 1 / (E * G - F * F)
  ⟨u, v, dpdu, dpdv, ((f * F - e * G) * i) * dpdu + ((e * F - f * E) * i) * dpdv, ((g * F - f * G) * i) * dpdu + ((f * F - g * E) * i) * dpdv⟩

/-- the sphere's parametrisation: angle `u · phiMax`, polar angle from `thetaMin` at `v = 0` to `thetaMax` at `v = 1` -/
noncomputable def Sphere.param (s : Sphere) (u v : ℝ) : V3 ℝ :=
  let theta := s.thetaMin + v * (s.thetaMax - s.thetaMin)
  ⟨s.radius * Real.sin theta * Real.cos (u * s.phiMax), s.radius * Real.sin theta * Real.sin (u * s.phiMax), s.radius * Real.cos theta⟩

/-- **C73 (part)** for a hit point off the axis of a sphere with `zmin < zmax` and `phiMax > 0`: `u` is in `[0, 1]`; there is a `w` in `[0, 1]` with the parametrisation at
`(u, w)` the hit point, `dpdu` and `dpdv` the derivatives there; `dpdu × dpdv` points outwards; and `dndu`, `dndv` are the derivatives of the outward unit normal `p / radius`.
Missing: the reported `v` is not `w` (`C73_sphere_v_false`). -/
theorem C73_sphere_partial (s : Sphere) (hs : s.Ok) (hz : s.zmin < s.zmax) (hphi : 0 < s.phiMax) (p : V3 ℝ) (hp : OnSphere s p) (hp0 : ¬(p.x = 0 ∧ p.y = 0)) :
    0 ≤ (s.geo p (azimuth p)).u ∧ (s.geo p (azimuth p)).u ≤ 1 ∧
    (∃ w, 0 ≤ w ∧ w ≤ 1 ∧ s.param (s.geo p (azimuth p)).u w = p ∧
      HasDerivAt3 (fun u' => s.param u' w) (s.geo p (azimuth p)).dpdu (s.geo p (azimuth p)).u ∧
      HasDerivAt3 (fun v' => s.param (s.geo p (azimuth p)).u v') (s.geo p (azimuth p)).dpdv w) ∧
    (∃ c : ℝ, 0 < c ∧ cross (s.geo p (azimuth p)).dpdu (s.geo p (azimuth p)).dpdv = c * p) ∧
    (s.geo p (azimuth p)).dndu = (1 / s.radius) * (s.geo p (azimuth p)).dpdu ∧
    (s.geo p (azimuth p)).dndv = (1 / s.radius) * (s.geo p (azimuth p)).dpdv := by
  obtain ⟨h1, h2, h3, h4⟩ := hp
  have hr := hs.radius
  obtain ⟨a0, a1, ac, as⟩ := azimuth_spec p
  have hle : azimuth p ≤ s.phiMax := (angle_iff hs.phi0 hs.phi1 p).1 h4
  have hsum : 0 < p.x ^ 2 + p.y ^ 2 := by
    rcases not_and_or.1 hp0 with h | h
    · have := sq_pos_of_ne_zero h; positivity
    · have := sq_pos_of_ne_zero h; positivity
  have h1' : p.x ^ 2 + p.y ^ 2 + p.z ^ 2 = s.radius ^ 2 := by rw [← h1]; simp only [sqLength]; ring
  set rho := Real.sqrt (p.x ^ 2 + p.y ^ 2) with hrho
  have hrpos : 0 < rho := Real.sqrt_pos.2 hsum
  have hrsq : rho ^ 2 = p.x ^ 2 + p.y ^ 2 := Real.sq_sqrt hsum.le
  have hzr : Real.sqrt (p.x * p.x + p.y * p.y) = rho := by rw [hrho]; congr 1; ring
  have hclip : ∀ z, -s.radius ≤ z → z ≤ s.radius → npClip (z / s.radius) (-1) 1 = z / s.radius := by
    intro z g1 g2
    rw [npClip, max_eq_left (by rw [le_div_iff₀ hr]; linarith), min_eq_left (by rw [div_le_iff₀ hr]; linarith)]
  have hzb := abs_le_of_sq_le_sq' (a := p.z) (b := s.radius) (by nlinarith) hr.le
  set theta := Real.arccos (npClip (p.z / s.radius) (-1) 1) with htheta
  have hct : Real.cos theta = p.z / s.radius := by
    rw [htheta, hclip _ hzb.1 hzb.2, Real.cos_arccos (by rw [le_div_iff₀ hr]; linarith) (by rw [div_le_iff₀ hr]; linarith)]
  have hst : Real.sin theta = rho / s.radius := by
    rw [htheta, hclip _ hzb.1 hzb.2, Real.sin_arccos, hrho, eq_comm]
    rw [div_eq_iff hr.ne', ← Real.sqrt_sq hr.le, ← Real.sqrt_mul (by
      rw [sub_nonneg, Real.sqrt_sq hr.le, div_pow, div_le_one (by positivity)]; nlinarith)]
    congr 1
    rw [Real.sqrt_sq hr.le]
    field_simp
    linarith
  have hmono : ∀ a b, -s.radius ≤ a → a ≤ b → b ≤ s.radius → Real.arccos (npClip (b / s.radius) (-1) 1) ≤ Real.arccos (npClip (a / s.radius) (-1) 1) := by
    intro a b g1 g2 g3
    rw [hclip a g1 (g2.trans g3), hclip b (g1.trans g2) g3]
    exact Real.antitone_arccos (div_le_div_of_nonneg_right g2 hr.le)
  have ht1 : theta ≤ s.thetaMin := hmono _ _ hs.low h2 hzb.2
  have ht2 : s.thetaMax ≤ theta := hmono _ _ hzb.1 h3 hs.high
  have hdt : s.thetaMax - s.thetaMin < 0 := by
    rw [sub_neg, Sphere.thetaMax, Sphere.thetaMin, hclip _ hs.low (hz.le.trans hs.high), hclip _ (hs.low.trans hz.le) hs.high]
    refine Real.arccos_lt_arccos ?_ ?_ ?_
    · rw [le_div_iff₀ hr]; linarith [hs.low]
    · exact div_lt_div_of_pos_right hz hr
    · rw [div_le_one hr]; exact hs.high
  set dt := s.thetaMax - s.thetaMin with hdtd
  have hw : s.thetaMin + (theta - s.thetaMin) / dt * dt = theta := by rw [div_mul_cancel₀ _ hdt.ne]; ring
  have hu : azimuth p / s.phiMax * s.phiMax = azimuth p := div_mul_cancel₀ _ hphi.ne'
  have hdpdu : (s.geo p (azimuth p)).dpdu = ⟨-s.phiMax * p.y, s.phiMax * p.x, 0⟩ := rfl
  have hdpdv : (s.geo p (azimuth p)).dpdv = dt * (⟨p.z * (p.x * (1 / rho)), p.z * (p.y * (1 / rho)), -s.radius * Real.sin theta⟩ : V3 ℝ) := by
    simp only [Sphere.geo, hzr]; rfl
  have hcross : cross (⟨-s.phiMax * p.y, s.phiMax * p.x, 0⟩ : V3 ℝ) (dt * (⟨p.z * (p.x * (1 / rho)), p.z * (p.y * (1 / rho)), -s.radius * Real.sin theta⟩ : V3 ℝ)) = (s.phiMax * -dt * rho) * p := by
    rw [hst]
    apply V3.ext
    · simp only [cross, smul_x, smul_y, smul_z]; field_simp; ring
    · simp only [cross, smul_x, smul_y, smul_z]; field_simp; ring
    · simp only [cross, smul_x, smul_y, smul_z]
      have e1 : -s.phiMax * p.y * (dt * (p.z * (p.y * (1 / rho)))) - s.phiMax * p.x * (dt * (p.z * (p.x * (1 / rho)))) = s.phiMax * -dt * p.z * ((p.x ^ 2 + p.y ^ 2) / rho) := by field_simp; ring
      have e2 : rho ^ 2 / rho = rho := by field_simp
      rw [e1, ← hrsq, e2]; ring
  have hc : 0 < s.phiMax * -dt * rho := mul_pos (mul_pos hphi (by linarith)) hrpos
  -- the unit normal
  have hlen : Geom.length ((s.phiMax * -dt * rho) * p) = s.phiMax * -dt * rho * s.radius := by
    rw [Geom.length]
    have : sqLength ((s.phiMax * -dt * rho) * p) = (s.phiMax * -dt * rho * s.radius) ^ 2 := by
      have : sqLength ((s.phiMax * -dt * rho) * p) = (s.phiMax * -dt * rho) ^ 2 * sqLength p := by simp only [sqLength, smul_x, smul_y, smul_z]; ring
      rw [this, h1]; ring
    rw [this, Real.sqrt_sq (mul_pos hc hr).le]
  have hN : Geom.normalize ((s.phiMax * -dt * rho) * p) = (1 / s.radius) * p := by
    have hne : ¬ s.phiMax * -dt * rho * s.radius = 0 := (mul_pos hc hr).ne'
    simp only [Geom.normalize, hlen, if_pos hne]
    have hc' := hc.ne'
    apply V3.ext <;> simp only [smul_x, smul_y, smul_z] <;> rw [mul_div_mul_left _ _ hc', one_div_mul_eq_div]
  have hE : dot (⟨-s.phiMax * p.y, s.phiMax * p.x, 0⟩ : V3 ℝ) ⟨-s.phiMax * p.y, s.phiMax * p.x, 0⟩ = s.phiMax ^ 2 * rho ^ 2 := by
    rw [hrsq]; simp only [dot]; ring
  have hF : dot (⟨-s.phiMax * p.y, s.phiMax * p.x, 0⟩ : V3 ℝ) (dt * (⟨p.z * (p.x * (1 / rho)), p.z * (p.y * (1 / rho)), -s.radius * Real.sin theta⟩ : V3 ℝ)) = 0 := by
    simp only [dot, smul_x, smul_y, smul_z]; ring
  have hG : dot (dt * (⟨p.z * (p.x * (1 / rho)), p.z * (p.y * (1 / rho)), -s.radius * Real.sin theta⟩ : V3 ℝ)) (dt * (⟨p.z * (p.x * (1 / rho)), p.z * (p.y * (1 / rho)), -s.radius * Real.sin theta⟩ : V3 ℝ)) = dt ^ 2 * s.radius ^ 2 := by
    rw [hst]
    simp only [dot, smul_x, smul_y, smul_z]
    have e1 : rho * rho = p.x ^ 2 + p.y ^ 2 := by rw [← hrsq]; ring
    have : dt * (p.z * (p.x * (1 / rho))) * (dt * (p.z * (p.x * (1 / rho)))) + dt * (p.z * (p.y * (1 / rho))) * (dt * (p.z * (p.y * (1 / rho)))) + dt * (-s.radius * (rho / s.radius)) * (dt * (-s.radius * (rho / s.radius)))
        = dt ^ 2 * (p.z ^ 2 * ((p.x ^ 2 + p.y ^ 2) / (rho * rho)) + rho * rho) := by field_simp
    rw [this, e1, div_self hsum.ne', ← h1']; ring
  have he : dot ((1 / s.radius) * p) ((-s.phiMax * s.phiMax) * (⟨p.x, p.y, 0⟩ : V3 ℝ)) = -(s.phiMax ^ 2 * rho ^ 2) / s.radius := by
    rw [hrsq]; simp only [dot, smul_x, smul_y, smul_z]; field_simp; ring
  have hf : dot ((1 / s.radius) * p) ((dt * p.z * s.phiMax) * (⟨-(p.y * (1 / rho)), p.x * (1 / rho), 0⟩ : V3 ℝ)) = 0 := by
    simp only [dot, smul_x, smul_y, smul_z]; ring
  have hg : dot ((1 / s.radius) * p) ((-dt * dt) * (⟨p.x, p.y, p.z⟩ : V3 ℝ)) = -(dt ^ 2 * s.radius ^ 2) / s.radius := by
    rw [← h1']; simp only [dot, smul_x, smul_y, smul_z]; field_simp; ring
  have hEp : s.phiMax ^ 2 * rho ^ 2 ≠ 0 := by positivity
  have hGp : dt ^ 2 * s.radius ^ 2 ≠ 0 := mul_ne_zero (pow_ne_zero _ hdt.ne) (by positivity)
  refine ⟨div_nonneg a0 hphi.le, (div_le_one hphi).2 hle, ⟨(theta - s.thetaMin) / dt, div_nonneg_of_nonpos (by linarith) hdt.le, ?_, ?_, ?_, ?_⟩, ⟨s.phiMax * -dt * rho, hc, ?_⟩, ?_, ?_⟩
  · rw [div_le_one_of_neg hdt]; linarith
  · show s.param (azimuth p / s.phiMax) _ = p
    simp only [Sphere.param, hu, ← hdtd, hw, hst, hct]
    apply V3.ext <;> simp only
    · rw [mul_div_cancel₀ _ hr.ne']; exact ac.symm
    · rw [mul_div_cancel₀ _ hr.ne']; exact as.symm
    · rw [mul_div_cancel₀ _ hr.ne']
  · rw [hdpdu]
    show HasDerivAt3 _ _ (azimuth p / s.phiMax)
    simp only [Sphere.param, ← hdtd, hw, hst, hct]
    have hl : HasDerivAt (fun t : ℝ => t * s.phiMax) s.phiMax (azimuth p / s.phiMax) := by
      simpa using (hasDerivAt_id (azimuth p / s.phiMax)).mul_const s.phiMax
    refine ⟨?_, ?_, ?_⟩
    · have := ((Real.hasDerivAt_cos _).comp _ hl).const_mul (s.radius * (rho / s.radius))
      rw [hu] at this
      refine this.congr_deriv ?_
      show _ = -s.phiMax * p.y
      rw [as, mul_div_cancel₀ _ hr.ne']; ring
    · have := ((Real.hasDerivAt_sin _).comp _ hl).const_mul (s.radius * (rho / s.radius))
      rw [hu] at this
      refine this.congr_deriv ?_
      show _ = s.phiMax * p.x
      rw [ac, mul_div_cancel₀ _ hr.ne']; ring
    · exact hasDerivAt_const _ _
  · rw [hdpdv]
    show HasDerivAt3 (fun v' => s.param (azimuth p / s.phiMax) v') _ _
    simp only [Sphere.param, ← hdtd, hu]
    have hl : HasDerivAt (fun t : ℝ => s.thetaMin + t * dt) dt ((theta - s.thetaMin) / dt) := by
      simpa using ((hasDerivAt_id ((theta - s.thetaMin) / dt)).mul_const dt).const_add s.thetaMin
    refine ⟨?_, ?_, ?_⟩
    · have := (((Real.hasDerivAt_sin _).comp _ hl).const_mul s.radius).mul_const (Real.cos (azimuth p))
      rw [hw, hct] at this
      refine this.congr_deriv ?_
      simp only [smul_x]
      rw [ac]; field_simp
    · have := (((Real.hasDerivAt_sin _).comp _ hl).const_mul s.radius).mul_const (Real.sin (azimuth p))
      rw [hw, hct] at this
      refine this.congr_deriv ?_
      simp only [smul_y]
      rw [as]; field_simp
    · have := ((Real.hasDerivAt_cos _).comp _ hl).const_mul s.radius
      rw [hw] at this
      refine this.congr_deriv ?_
      simp only [smul_z]
      ring
  · rw [hdpdu, hdpdv, hcross]
  · simp only [Sphere.geo, hzr]
    rw [← htheta, ← hdtd, hcross, hN, hE, hF, hG, he, hf]
    have : (0 * 0 - -(s.phiMax ^ 2 * rho ^ 2) / s.radius * (dt ^ 2 * s.radius ^ 2)) * (1 / (s.phiMax ^ 2 * rho ^ 2 * (dt ^ 2 * s.radius ^ 2) - 0 * 0)) = 1 / s.radius := by
      have hd0 := hdt.ne
      rw [mul_zero, sub_zero, zero_sub]; field_simp
    rw [this]
    apply V3.ext <;> simp only [add_x, add_y, add_z, smul_x, smul_y, smul_z] <;> ring
  · simp only [Sphere.geo, hzr]
    rw [← htheta, ← hdtd, hcross, hN, hE, hF, hG, hf, hg]
    have : (0 * 0 - -(dt ^ 2 * s.radius ^ 2) / s.radius * (s.phiMax ^ 2 * rho ^ 2)) * (1 / (s.phiMax ^ 2 * rho ^ 2 * (dt ^ 2 * s.radius ^ 2) - 0 * 0)) = 1 / s.radius := by
      have hd0 := hdt.ne
      rw [mul_zero, sub_zero, zero_sub]; field_simp
    rw [this]
    apply V3.ext <;> simp only [add_x, add_y, add_z, smul_x, smul_y, smul_z] <;> ring

/-- the complete unit sphere -/
noncomputable def unitSphere : Sphere := ⟨1, -1, 1, 2 * Real.pi⟩

theorem unitSphere_eq : Sphere.init 1 (-1) 1 360 = unitSphere := by
  simp [Sphere.init, unitSphere, npClip, Xform.rad]; ring

theorem unitSphere_theta : unitSphere.thetaMin = Real.pi ∧ unitSphere.thetaMax = 0 := by
  simp [Sphere.thetaMin, Sphere.thetaMax, unitSphere, npClip]

/-- **C73 is false for `v`**: on the complete unit sphere the point (1, 0, 0), half way between the poles, is reported with `v = π²/2 ≈ 4.9`
(the offset is multiplied by the range instead of divided). -/
theorem C73_sphere_v_false : OnSphere unitSphere ⟨1, 0, 0⟩ ∧ (unitSphere.geo ⟨1, 0, 0⟩ (azimuth ⟨1, 0, 0⟩)).v = Real.pi ^ 2 / 2 ∧ 1 < Real.pi ^ 2 / 2 := by
  obtain ⟨t1, t2⟩ := unitSphere_theta
  refine ⟨⟨by norm_num [sqLength, unitSphere], by norm_num [unitSphere], by norm_num [unitSphere], 0, le_rfl, by simp only [unitSphere]; positivity, by simp, by simp⟩, ?_, ?_⟩
  · simp only [Sphere.geo, t1, t2]
    have : npClip (0 / unitSphere.radius) (-1) 1 = 0 := by simp [npClip]
    rw [this, Real.arccos_zero]; ring
  · nlinarith [Real.two_le_pi]

/-! ### Sampling and area (C74) -/

/-- `Sphere.sample`, sphere.py 43-56: the sampled point in object space -/
noncomputable def Sphere.sampleObj (s : Sphere) (u1 u2 : ℝ) : V3 ℝ :=
  let v := MC.sphere u1 u2
  let phi := Geom.sphericalTheta v * s.phiMax * MC.inv2Pi
  let theta := s.thetaMin + Geom.sphericalTheta v * (s.thetaMax - s.thetaMin)
  let w := s.radius * Geom.sphericalDirection (Real.sin theta) (Real.cos theta) phi
  ⟨w.x, w.y, s.zmin + w.z * (s.zmax - s.zmin)⟩

/-- **C74 is false for spheres**: the canonical sample (0, 0) of the complete unit sphere is the point (0, 0, -3). -/
theorem C74_sphere_false : (Sphere.init 1 (-1) 1 360).sampleObj 0 0 = ⟨0, 0, -3⟩ ∧ ¬ OnSphere (Sphere.init 1 (-1) 1 360) ⟨0, 0, -3⟩ := by
  obtain ⟨t1, t2⟩ := unitSphere_theta
  have h0 : Geom.sphericalTheta (MC.sphere 0 0) = 0 := by simp [MC.sphere, Geom.sphericalTheta]
  rw [unitSphere_eq]
  constructor
  · simp only [Sphere.sampleObj, h0, t1, t2]
    simp [Geom.sphericalDirection, unitSphere]
    norm_num
  · rintro ⟨-, h, -⟩
    simp only [unitSphere] at h
    norm_num at h

/-- `Sphere.area`, sphere.py 281-282 -/
noncomputable def Sphere.area (s : Sphere) : ℝ := s.phiMax * s.radius * (s.zmax - s.zmin)

/-- **C74** the area is the integral over the partial sphere of the area element `radius² sin θ dθ dφ`. -/
theorem C74_sphere_area (s : Sphere) (hs : s.Ok) (hz : s.zmin ≤ s.zmax) :
    s.area = ∫ _phi in (0 : ℝ)..s.phiMax, ∫ theta in (Real.arccos (s.zmax / s.radius))..(Real.arccos (s.zmin / s.radius)), s.radius ^ 2 * Real.sin theta := by
  have hr := hs.radius
  simp only [intervalIntegral.integral_const_mul, integral_sin, intervalIntegral.integral_const, smul_eq_mul, sub_zero, Sphere.area]
  rw [Real.cos_arccos (by rw [le_div_iff₀ hr]; linarith [hs.low]) (by rw [div_le_one hr]; exact hs.high),
    Real.cos_arccos (by rw [le_div_iff₀ hr]; linarith [hs.low]) (by rw [div_le_one hr]; linarith [hs.high])]
  field_simp

/-- a sphere and a point meeting the hypotheses of `C73_sphere_partial` -/
example : unitSphere.Ok ∧ unitSphere.zmin < unitSphere.zmax ∧ 0 < unitSphere.phiMax ∧ OnSphere unitSphere ⟨1, 0, 0⟩ :=
  ⟨unitSphere_eq ▸ (Sphere.init_ok 1 (-1) 1 360 one_pos).1, by norm_num [unitSphere], Real.two_pi_pos, C73_sphere_v_false.1⟩

end Verif.Shape
