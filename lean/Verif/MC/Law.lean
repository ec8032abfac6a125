import Verif.MC.Phase
import Mathlib.MeasureTheory.Function.Jacobian
import Mathlib.Analysis.SpecialFunctions.PolarCoord

/-!
# The law of the direction samplers (C66, C67)

A sampler turns a pair of canonical numbers into a direction.  Its law is the area of the set of pairs that it sends into a given set of directions; here it is compared with the integral of the reported density over
that set, for every set of directions.
-/
namespace Verif.MC
open Verif V3 Verif.Geom Real MeasureTheory Set

/-- the unit direction of polar angle `θ` and azimuth `φ` about the z axis -/
noncomputable def polarDir (θ φ : ℝ) : V3 ℝ := ⟨sin θ * cos φ, sin θ * sin φ, cos θ⟩

/-- the unit direction of polar angle `θ` and azimuth `φ` in a frame -/
noncomputable def frameDir (x y z : V3 ℝ) (θ φ : ℝ) : V3 ℝ := (sin θ * cos φ) * x + (sin θ * sin φ) * y + cos θ * z

/-- the sampler sends into every set `A` of directions a mass equal to the integral over `A` of the density `pdf` (per solid angle `sin θ dθ dφ`, a function of the cosine of the polar angle) over polar angles up to `tmax`;
`dir` are the spherical coordinates used for directions -/
def HasLaw (smp dir : ℝ → ℝ → V3 ℝ) (pdf : ℝ → ℝ) (tmax : ℝ) : Prop :=
  ∀ A : Set (V3 ℝ), MeasurableSet {q : ℝ × ℝ | dir q.1 q.2 ∈ A} →
    volume {u : ℝ × ℝ | u ∈ Icc (0 : ℝ) 1 ×ˢ Icc (0 : ℝ) 1 ∧ smp u.1 u.2 ∈ A} =
      ∫⁻ q in {q : ℝ × ℝ | q ∈ Icc (0 : ℝ) tmax ×ˢ Icc (0 : ℝ) (2 * π) ∧ dir q.1 q.2 ∈ A}, ENNReal.ofReal (pdf (cos q.1) * sin q.1)

/-- the area of the image of a set under a map that acts on the two coordinates separately -/
theorem area_image (F F' : ℝ → ℝ) (c T P : ℝ) (hc : c ≠ 0) (hF : ∀ θ ∈ Icc 0 T, HasDerivAt F (F' θ) θ) (inj : InjOn F (Icc 0 T)) (B : Set (ℝ × ℝ)) (hB : MeasurableSet B)
    (hsub : B ⊆ Icc 0 T ×ˢ Icc 0 P) : volume ((fun q : ℝ × ℝ => (F q.1, q.2 * c)) '' B) = ∫⁻ q in B, ENNReal.ofReal (|F' q.1| * |c|) := by
  have hd : ∀ q ∈ B, HasFDerivWithinAt (fun q : ℝ × ℝ => (F q.1, q.2 * c))
      ((ContinuousLinearMap.toSpanSingleton ℝ (F' q.1)).prodMap (ContinuousLinearMap.toSpanSingleton ℝ c)) B q := by
    intro q hq
    have h1 := (hF q.1 (hsub hq).1).hasFDerivAt
    have h2 := ((hasDerivAt_id q.2).mul_const c).hasFDerivAt
    rw [one_mul] at h2
    exact (HasFDerivAt.prodMap (p := q) h1 h2).hasFDerivWithinAt
  have hi : InjOn (fun q : ℝ × ℝ => (F q.1, q.2 * c)) B := by
    intro p hp q hq h
    simp only [Prod.mk.injEq] at h
    exact Prod.ext (inj (hsub hp).1 (hsub hq).1 h.1) (mul_right_cancel₀ hc h.2)
  rw [← lintegral_abs_det_fderiv_eq_addHaar_image volume hB hd hi]
  apply lintegral_congr
  intro q
  congr 1
  rw [← abs_mul]
  congr 1
  rw [ContinuousLinearMap.det]
  have : (((ContinuousLinearMap.toSpanSingleton ℝ (F' q.1)).prodMap (ContinuousLinearMap.toSpanSingleton ℝ c) : ℝ × ℝ →L[ℝ] ℝ × ℝ) : ℝ × ℝ →ₗ[ℝ] ℝ × ℝ) =
      (F' q.1 • LinearMap.id).prodMap (c • LinearMap.id) := by
    ext <;> simp
  rw [this, LinearMap.det_prodMap, LinearMap.det_smul, LinearMap.det_smul]
  simp

/-- a sampler that inverts a distribution function in the polar angle and spreads the azimuth evenly has the density that is the derivative -/
theorem hasLaw_of (smp dir : ℝ → ℝ → V3 ℝ) (pdf : ℝ → ℝ) (T : ℝ) (F F' : ℝ → ℝ) (hF : ∀ θ ∈ Icc 0 T, HasDerivAt F (F' θ) θ) (inj : InjOn F (Icc 0 T)) (surj : F '' Icc 0 T = Icc 0 1)
    (hs : ∀ θ ∈ Icc 0 T, ∀ φ, smp (F θ) (φ * (1 / (2 * π))) = dir θ φ) (hd : ∀ θ ∈ Icc 0 T, |F' θ| = 2 * π * (pdf (cos θ) * sin θ)) : HasLaw smp dir pdf T := by
  intro A hA
  have hpi := Real.pi_pos
  set B := {q : ℝ × ℝ | q ∈ Icc (0 : ℝ) T ×ˢ Icc (0 : ℝ) (2 * π) ∧ dir q.1 q.2 ∈ A} with hB
  have hBm : MeasurableSet B := (measurableSet_Icc.prod measurableSet_Icc).inter hA
  have hset : {u : ℝ × ℝ | u ∈ Icc (0 : ℝ) 1 ×ˢ Icc (0 : ℝ) 1 ∧ smp u.1 u.2 ∈ A} = (fun q : ℝ × ℝ => (F q.1, q.2 * (1 / (2 * π)))) '' B := by
    ext ⟨u, v⟩
    simp only [mem_ofPred_eq, mem_image, hB, mem_prod, Prod.exists, Prod.mk.injEq]
    constructor
    · rintro ⟨⟨hu, hv⟩, hA⟩
      rw [← surj] at hu
      obtain ⟨θ, hθ, rfl⟩ := hu
      have e : v = v * (2 * π) * (1 / (2 * π)) := by field_simp
      refine ⟨θ, v * (2 * π), ⟨⟨hθ, ?_⟩, ?_⟩, rfl, e.symm⟩
      · exact ⟨mul_nonneg hv.1 (by positivity), by nlinarith [hv.2]⟩
      · rw [← hs θ hθ, ← e]; exact hA
    · rintro ⟨θ, φ, ⟨⟨hθ, hφ⟩, hA⟩, rfl, rfl⟩
      refine ⟨⟨surj ▸ mem_image_of_mem F hθ, mul_nonneg hφ.1 (by positivity), ?_⟩, by rw [hs θ hθ]; exact hA⟩
      rw [mul_one_div, div_le_one (by positivity)]; exact hφ.2
  rw [hset, area_image F F' _ T (2 * π) (by positivity) hF inj B hBm (fun q hq => hq.1)]
  apply setLIntegral_congr_fun hBm
  intro q hq
  simp only
  rw [hd q.1 hq.1.1, abs_of_pos (by positivity : (0 : ℝ) < 1 / (2 * π))]
  congr 1
  field_simp

theorem image_Icc_of_mono (F : ℝ → ℝ) (T a b : ℝ) (hT : 0 ≤ T) (hc : ContinuousOn F (Icc 0 T)) (h : StrictMonoOn F (Icc 0 T) ∧ F 0 = a ∧ F T = b ∨ StrictAntiOn F (Icc 0 T) ∧ F 0 = b ∧ F T = a) :
    InjOn F (Icc 0 T) ∧ F '' Icc 0 T = Icc a b := by
  rcases h with ⟨hm, rfl, rfl⟩ | ⟨hm, rfl, rfl⟩
  · exact ⟨hm.injOn, Subset.antisymm (hm.monotoneOn.image_Icc_subset) (intermediate_value_Icc hT hc)⟩
  · exact ⟨hm.injOn, Subset.antisymm (hm.antitoneOn.image_Icc_subset) (intermediate_value_Icc' hT hc)⟩

/-- **C66** for every set of directions the mass sent there by `uniform_sample_hemisphere` is the integral of `uniform_hemisphere_pdf` over its part above the horizon -/
theorem C66_hemisphere_law : HasLaw hemisphere polarDir (fun _ => hemispherePdf) (π / 2) := by
  have hpi := Real.pi_pos
  have hm : StrictAntiOn cos (Icc 0 (π / 2)) := Real.strictAntiOn_cos.mono (Icc_subset_Icc le_rfl (by linarith))
  obtain ⟨h1, h2⟩ := image_Icc_of_mono cos (π / 2) 0 1 (by positivity) Real.continuous_cos.continuousOn (Or.inr ⟨hm, Real.cos_zero, Real.cos_pi_div_two⟩)
  refine hasLaw_of _ _ _ _ cos (fun θ => -sin θ) (fun θ _ => Real.hasDerivAt_cos θ) h1 h2 ?_ ?_
  · intro θ hθ φ
    have hs : 0 ≤ sin θ := Real.sin_nonneg_of_nonneg_of_le_pi hθ.1 (by linarith [hθ.2])
    have e : √(max 0 (1 - cos θ * cos θ)) = sin θ := by
      rw [show 1 - cos θ * cos θ = sin θ ^ 2 by linear_combination -Real.sin_sq_add_cos_sq θ, max_eq_right (sq_nonneg _), Real.sqrt_sq hs]
    have e2 : 2 * π * (φ * (1 / (2 * π))) = φ := by field_simp
    simp only [hemisphere, polarDir, e, e2]
  · intro θ hθ
    have hs : 0 ≤ sin θ := Real.sin_nonneg_of_nonneg_of_le_pi hθ.1 (by linarith [hθ.2])
    rw [abs_neg, abs_of_nonneg hs, hemispherePdf, inv2Pi]; field_simp

/-- **C66** for every set of directions the mass sent there by `uniform_sample_sphere` is the integral of `uniform_sphere_pdf` over it -/
theorem C66_sphere_law : HasLaw sphere polarDir (fun _ => spherePdf) π := by
  have hpi := Real.pi_pos
  have hd (θ : ℝ) : HasDerivAt (fun θ => (1 - cos θ) / 2) (sin θ / 2) θ := by
    have := ((Real.hasDerivAt_cos θ).const_sub 1).div_const 2
    simpa using this
  have hm : StrictMonoOn (fun θ => (1 - cos θ) / 2) (Icc 0 π) := by
    intro a ha b hb h
    have := Real.strictAntiOn_cos ha hb h
    simp only; linarith
  obtain ⟨h1, h2⟩ := image_Icc_of_mono (fun θ => (1 - cos θ) / 2) π 0 1 hpi.le (by fun_prop) (Or.inl ⟨hm, by simp, by rw [Real.cos_pi]; norm_num⟩)
  refine hasLaw_of _ _ _ _ (fun θ => (1 - cos θ) / 2) (fun θ => sin θ / 2) (fun θ _ => hd θ) h1 h2 ?_ ?_
  · intro θ hθ φ
    have hs : 0 ≤ sin θ := Real.sin_nonneg_of_nonneg_of_le_pi hθ.1 hθ.2
    have ez : 1 - 2 * ((1 - cos θ) / 2) = cos θ := by ring
    have e : √(max 0 (1 - cos θ * cos θ)) = sin θ := by
      rw [show 1 - cos θ * cos θ = sin θ ^ 2 by linear_combination -Real.sin_sq_add_cos_sq θ, max_eq_right (sq_nonneg _), Real.sqrt_sq hs]
    have e2 : 2 * π * (φ * (1 / (2 * π))) = φ := by field_simp
    simp only [sphere, polarDir, ez, e, e2]
  · intro θ hθ
    have hs : 0 ≤ sin θ := Real.sin_nonneg_of_nonneg_of_le_pi hθ.1 hθ.2
    rw [abs_of_nonneg (by positivity), spherePdf]; field_simp; ring

/-- **C67** for every set of directions the mass sent there by `uniform_sample_cone` (with a frame) is the integral of `uniform_cone_pdf` over its part inside the cone -/
theorem C67_cone_law (cm : ℝ) (hc0 : -1 ≤ cm) (hc1 : cm < 1) (x y z : V3 ℝ) :
    HasLaw (fun u1 u2 => (cone u1 u2 cm (some (x, y, z))).getD 0) (frameDir x y z) (fun _ => conePdf cm) (arccos cm) := by
  have hpi := Real.pi_pos
  have h1c : 0 < 1 - cm := by linarith
  have hle := Real.arccos_le_pi cm
  have hsub : Icc 0 (arccos cm) ⊆ Icc 0 π := Icc_subset_Icc le_rfl hle
  have hd (θ : ℝ) : HasDerivAt (fun θ => (cos θ - cm) / (1 - cm)) (-sin θ / (1 - cm)) θ := ((Real.hasDerivAt_cos θ).sub_const cm).div_const _
  have hm : StrictAntiOn (fun θ => (cos θ - cm) / (1 - cm)) (Icc 0 (arccos cm)) := by
    intro a ha b hb h
    have := Real.strictAntiOn_cos (hsub ha) (hsub hb) h
    exact div_lt_div_of_pos_right (by linarith) h1c
  obtain ⟨h1, h2⟩ := image_Icc_of_mono (fun θ => (cos θ - cm) / (1 - cm)) (arccos cm) 0 1 (Real.arccos_nonneg _) (by fun_prop)
    (Or.inr ⟨hm, by simp only [Real.cos_zero]; exact div_self h1c.ne', by rw [Real.cos_arccos hc0 hc1.le]; simp⟩)
  refine hasLaw_of _ _ _ _ (fun θ => (cos θ - cm) / (1 - cm)) (fun θ => -sin θ / (1 - cm)) (fun θ _ => hd θ) h1 h2 ?_ ?_
  · intro θ hθ φ
    have hs : 0 ≤ sin θ := Real.sin_nonneg_of_nonneg_of_le_pi hθ.1 (hsub hθ).2
    have ez : (1 - (cos θ - cm) / (1 - cm)) * cm + (cos θ - cm) / (1 - cm) * 1 = cos θ := by field_simp; ring
    have e : √(1 - cos θ * cos θ) = sin θ := by
      rw [show 1 - cos θ * cos θ = sin θ ^ 2 by linear_combination -Real.sin_sq_add_cos_sq θ, Real.sqrt_sq hs]
    have e2 : φ * (1 / (2 * π)) * 2 * π = φ := by field_simp
    simp only [cone, Option.getD_some, frameDir, ez, e, e2, mul_comm (sin θ)]
  · intro θ hθ
    have hs : 0 ≤ sin θ := Real.sin_nonneg_of_nonneg_of_le_pi hθ.1 (hsub hθ).2
    rw [neg_div, abs_neg, abs_of_nonneg (by positivity), conePdf]; field_simp

/-- **C67** for every set of directions the mass sent there by `sample_hg` is the integral of the Henyey-Greenstein phase function over it, for the asymmetries the formula is used for -/
theorem C67_hg_law (w : V3 ℝ) (g : ℝ) (hg : |g| < 1) (hg0 : EPS ≤ |g|) : ∃ f : ℝ → ℝ, (∀ wp, phaseHg w wp g = f (dot w wp)) ∧
    HasLaw (fun u1 u2 => sampleHg w g u1 u2) (frameDir (coordinateSystem w).2.1 (coordinateSystem w).2.2 w) f π := by
  refine ⟨hgf g, fun _ => rfl, ?_⟩
  have hpi := Real.pi_pos
  obtain ⟨g0, g1⟩ := abs_lt.1 hg
  have hgne : g ≠ 0 := by rintro rfl; rw [abs_zero] at hg0; unfold EPS at hg0; norm_num at hg0
  have hs1 : 0 < 1 - g * g := by nlinarith
  have hpos (θ : ℝ) : 0 < 1 + g * g - 2 * g * cos θ := by
    rcases le_total 0 g with h | h
    · nlinarith [Real.cos_le_one θ, mul_le_mul_of_nonneg_left (Real.cos_le_one θ) h, sq_nonneg (1 - g), mul_self_pos.2 (sub_pos.2 g1).ne']
    · nlinarith [mul_le_mul_of_nonpos_left (Real.neg_one_le_cos θ) h, mul_self_pos.2 (by linarith : (1 + g) ≠ 0)]
  set q : ℝ → ℝ := fun θ => √(1 + g * g - 2 * g * cos θ) with hq
  have qpos (θ : ℝ) : 0 < q θ := Real.sqrt_pos.2 (hpos θ)
  have qsq (θ : ℝ) : q θ ^ 2 = 1 + g * g - 2 * g * cos θ := Real.sq_sqrt (hpos θ).le
  have q0 : q 0 = 1 - g := by
    simp only [hq, Real.cos_zero]; rw [show 1 + g * g - 2 * g * 1 = (1 - g) ^ 2 by ring, Real.sqrt_sq (by linarith)]
  have qpi : q π = 1 + g := by
    simp only [hq, Real.cos_pi]; rw [show 1 + g * g - 2 * g * -1 = (1 + g) ^ 2 by ring, Real.sqrt_sq (by linarith)]
  set F : ℝ → ℝ := fun θ => ((1 - g * g) / q θ - (1 - g)) / (2 * g) with hF
  have hqd (θ : ℝ) : HasDerivAt q (g * sin θ / q θ) θ := by
    have h1 : HasDerivAt (fun θ => 1 + g * g - 2 * g * cos θ) (2 * g * sin θ) θ := by
      have := ((Real.hasDerivAt_cos θ).const_mul (2 * g)).const_sub (1 + g * g)
      simpa using this
    refine (h1.sqrt (hpos θ).ne').congr_deriv ?_
    show 2 * g * sin θ / (2 * q θ) = _
    rw [mul_assoc, mul_div_mul_left _ _ two_ne_zero]
  have hFd (θ : ℝ) : HasDerivAt F (-((1 - g * g) * sin θ / (2 * q θ ^ 3))) θ := by
    have h := (((hasDerivAt_const θ (1 - g * g)).div (hqd θ) (qpos θ).ne').sub_const (1 - g)).div_const (2 * g)
    refine h.congr_deriv ?_
    have := (qpos θ).ne'
    field_simp
    ring
  have hm : StrictAntiOn F (Icc 0 π) := by
    apply strictAntiOn_of_deriv_neg (convex_Icc 0 π) (fun θ _ => (hFd θ).continuousAt.continuousWithinAt)
    intro θ hθ
    rw [interior_Icc] at hθ
    rw [(hFd θ).deriv]
    have := Real.sin_pos_of_pos_of_lt_pi hθ.1 hθ.2
    have := qpos θ
    have : 0 < (1 - g * g) * sin θ / (2 * q θ ^ 3) := by positivity
    linarith
  have e1g : (1 - g) ≠ 0 := by linarith
  have e2g : (1 + g) ≠ 0 := by linarith
  obtain ⟨h1, h2⟩ := image_Icc_of_mono F π 0 1 hpi.le (fun θ _ => (hFd θ).continuousAt.continuousWithinAt)
    (Or.inr ⟨hm, by simp only [hF, q0]; rw [show 1 - g * g = (1 - g) * (1 + g) by ring, mul_div_cancel_left₀ _ e1g]; field_simp; ring,
      by simp only [hF, qpi]; rw [show 1 - g * g = (1 - g) * (1 + g) by ring, mul_div_cancel_right₀ _ e2g]; simp⟩)
  refine hasLaw_of _ _ _ _ F _ (fun θ _ => hFd θ) h1 h2 ?_ ?_
  · intro θ hθ φ
    have hs : 0 ≤ sin θ := Real.sin_nonneg_of_nonneg_of_le_pi hθ.1 hθ.2
    have ec : hgCos g (F θ) = cos θ := by
      have a : 1 - g + 2 * g * F θ = (1 - g * g) / q θ := by simp only [hF]; field_simp; ring
      simp only [hgCos, if_neg (not_lt.2 hg0), a]
      have := qpos θ
      rw [div_div_cancel₀ hs1.ne', show q θ * q θ = 1 + g * g - 2 * g * cos θ by rw [← sq, qsq], sub_sub_cancel, mul_div_cancel_left₀ _ (by simpa using hgne)]
    have e : √(max 0 (1 - cos θ * cos θ)) = sin θ := by
      rw [show 1 - cos θ * cos θ = sin θ ^ 2 by linear_combination -Real.sin_sq_add_cos_sq θ, max_eq_right (sq_nonneg _), Real.sqrt_sq hs]
    have e2 : 2 * π * (φ * (1 / (2 * π))) = φ := by field_simp
    simp only [sampleHg, ec, e, e2, sphericalDirectionBasis, frameDir]
  · intro θ hθ
    have hs : 0 ≤ sin θ := Real.sin_nonneg_of_nonneg_of_le_pi hθ.1 hθ.2
    have := qpos θ
    have e : (1 + g * g - 2 * g * cos θ) ^ (3 / 2 : ℝ) = q θ ^ 3 := by
      rw [← qsq, ← Real.rpow_natCast (q θ) 2, ← Real.rpow_mul this.le, ← Real.rpow_natCast (q θ) 3]; norm_num
    rw [abs_neg, abs_of_nonneg (by positivity)]
    simp only [hgf, e]
    field_simp
    ring

/-- **C67** for asymmetries that the code treats as none the directions are spread evenly over the sphere -/
theorem C67_hg_small_law (w : V3 ℝ) (g : ℝ) (hg0 : |g| < EPS) :
    HasLaw (fun u1 u2 => sampleHg w g u1 u2) (frameDir (coordinateSystem w).2.1 (coordinateSystem w).2.2 w) (fun _ => 1 / (4 * π)) π := by
  have hpi := Real.pi_pos
  have hd (θ : ℝ) : HasDerivAt (fun θ => (1 - cos θ) / 2) (sin θ / 2) θ := by
    have := ((Real.hasDerivAt_cos θ).const_sub 1).div_const 2
    simpa using this
  have hm : StrictMonoOn (fun θ => (1 - cos θ) / 2) (Icc 0 π) := by
    intro a ha b hb h
    have := Real.strictAntiOn_cos ha hb h
    simp only; linarith
  obtain ⟨h1, h2⟩ := image_Icc_of_mono (fun θ => (1 - cos θ) / 2) π 0 1 hpi.le (by fun_prop) (Or.inl ⟨hm, by simp, by rw [Real.cos_pi]; norm_num⟩)
  refine hasLaw_of _ _ _ _ (fun θ => (1 - cos θ) / 2) (fun θ => sin θ / 2) (fun θ _ => hd θ) h1 h2 ?_ ?_
  · intro θ hθ φ
    have hs : 0 ≤ sin θ := Real.sin_nonneg_of_nonneg_of_le_pi hθ.1 hθ.2
    have ez : hgCos g ((1 - cos θ) / 2) = cos θ := by simp only [hgCos, if_pos hg0]; ring
    have e : √(max 0 (1 - cos θ * cos θ)) = sin θ := by
      rw [show 1 - cos θ * cos θ = sin θ ^ 2 by linear_combination -Real.sin_sq_add_cos_sq θ, max_eq_right (sq_nonneg _), Real.sqrt_sq hs]
    have e2 : 2 * π * (φ * (1 / (2 * π))) = φ := by field_simp
    simp only [sampleHg, ez, e, e2, sphericalDirectionBasis, frameDir]
  · intro θ hθ
    have hs : 0 ≤ sin θ := Real.sin_nonneg_of_nonneg_of_le_pi hθ.1 hθ.2
    rw [abs_of_nonneg (by positivity)]; field_simp; ring

/-! ### Samplers of points of the plane -/

/-- a map of canonical pairs whose area factor is the constant `c` and which reaches almost all of `D` once, sends into every set a mass that is the area of its part in `D` divided by `c` -/
theorem law_const (f : ℝ × ℝ → ℝ × ℝ) (f' : ℝ × ℝ → ℝ × ℝ →L[ℝ] ℝ × ℝ) (c : ℝ) (hc : 0 < c) (hfm : Measurable f) (hf : ∀ u ∈ Ioc (0 : ℝ) 1 ×ˢ Ico (0 : ℝ) 1, HasFDerivAt f (f' u) u)
    (inj : InjOn f (Ioc (0 : ℝ) 1 ×ˢ Ico (0 : ℝ) 1)) (hdet : ∀ u ∈ Ioc (0 : ℝ) 1 ×ˢ Ico (0 : ℝ) 1, |(f' u).det| = c) (D N : Set (ℝ × ℝ)) (hN : volume N = 0)
    (h1 : f '' (Ioc (0 : ℝ) 1 ×ˢ Ico (0 : ℝ) 1) ⊆ D) (h2 : D ⊆ f '' (Ioc (0 : ℝ) 1 ×ˢ Ico (0 : ℝ) 1) ∪ N) :
    (∀ A : Set (ℝ × ℝ), MeasurableSet A → volume {u : ℝ × ℝ | u ∈ Icc (0 : ℝ) 1 ×ˢ Icc (0 : ℝ) 1 ∧ f u ∈ A} = volume (A ∩ D) / ENNReal.ofReal c) ∧
    ∀ g : ℝ × ℝ → ℝ, ∫ u in Icc (0 : ℝ) 1 ×ˢ Icc (0 : ℝ) 1, g (f u) = (∫ x in D, g x) / c := by
  set S := Ioc (0 : ℝ) 1 ×ˢ Ico (0 : ℝ) 1 with hS
  have hSm : MeasurableSet S := measurableSet_Ioc.prod measurableSet_Ico
  refine ⟨fun A hA => ?_, fun g => ?_⟩
  swap
  · have e1 := integral_image_eq_integral_abs_det_fderiv_smul volume hSm (fun u hu => (hf u hu).hasFDerivWithinAt) inj g
    rw [setIntegral_congr_fun (g := fun u => c * g (f u)) hSm (fun u hu => by simp only [hdet u hu, smul_eq_mul]), integral_const_mul] at e1
    have e2 : ∫ x in D, g x = ∫ x in f '' S, g x := by
      apply setIntegral_congr_set
      rw [Filter.eventuallyEq_set]
      have : ∀ᵐ x ∂(volume : Measure (ℝ × ℝ)), x ∉ N := by rw [ae_iff]; simpa using hN
      filter_upwards [this] with x hx
      exact ⟨fun h => (h2 h).resolve_right hx, fun h => h1 h⟩
    have e3 : ∫ u in Icc (0 : ℝ) 1 ×ˢ Icc (0 : ℝ) 1, g (f u) = ∫ u in S, g (f u) := by
      apply setIntegral_congr_set
      rw [Measure.volume_eq_prod]
      exact Measure.set_prod_ae_eq Ioc_ae_eq_Icc.symm Ico_ae_eq_Icc.symm
    rw [e3, e2, e1]; field_simp
  set B := S ∩ f ⁻¹' A with hB
  have hBm : MeasurableSet B := (measurableSet_Ioc.prod measurableSet_Ico).inter (hfm hA)
  have e1 : volume (f '' B) = ENNReal.ofReal c * volume B := by
    rw [← lintegral_abs_det_fderiv_eq_addHaar_image volume hBm (fun u hu => (hf u hu.1).hasFDerivWithinAt) (inj.mono inter_subset_left)]
    rw [setLIntegral_congr_fun (g := fun _ => ENNReal.ofReal c) hBm (fun u hu => by simp only [hdet u hu.1]), setLIntegral_const]
  have e2 : volume (A ∩ D) = volume (f '' B) := by
    apply le_antisymm
    · calc volume (A ∩ D) ≤ volume (f '' B ∪ N) := by
            apply measure_mono
            rintro x ⟨hx, hd⟩
            rcases h2 hd with ⟨u, hu, rfl⟩ | hn
            · exact Or.inl ⟨u, ⟨hu, hx⟩, rfl⟩
            · exact Or.inr hn
        _ ≤ volume (f '' B) + volume N := measure_union_le _ _
        _ = volume (f '' B) := by rw [hN, add_zero]
    · apply measure_mono
      rintro x ⟨u, ⟨hu, hx⟩, rfl⟩
      exact ⟨hx, h1 ⟨u, hu, rfl⟩⟩
  have hz : volume (({0} ×ˢ Icc 0 1 ∪ Icc 0 1 ×ˢ {1}) : Set (ℝ × ℝ)) = 0 := by
    rw [measure_union_null_iff, Measure.volume_eq_prod, Measure.prod_prod, Measure.prod_prod]
    simp
  have e3 : volume {u : ℝ × ℝ | u ∈ Icc (0 : ℝ) 1 ×ˢ Icc (0 : ℝ) 1 ∧ f u ∈ A} = volume B := by
    apply le_antisymm
    · calc volume {u : ℝ × ℝ | u ∈ Icc (0 : ℝ) 1 ×ˢ Icc (0 : ℝ) 1 ∧ f u ∈ A} ≤ volume (B ∪ ({0} ×ˢ Icc 0 1 ∪ Icc 0 1 ×ˢ {1})) := by
            apply measure_mono
            rintro ⟨u, v⟩ ⟨⟨hu, hv⟩, hx⟩
            by_cases a : u = 0
            · exact Or.inr (Or.inl ⟨a, hv⟩)
            · by_cases b : v = 1
              · exact Or.inr (Or.inr ⟨hu, b⟩)
              · exact Or.inl ⟨⟨⟨lt_of_le_of_ne hu.1 (Ne.symm a), hu.2⟩, hv.1, lt_of_le_of_ne hv.2 b⟩, hx⟩
        _ ≤ volume B + volume (({0} ×ˢ Icc 0 1 ∪ Icc 0 1 ×ˢ {1}) : Set (ℝ × ℝ)) := measure_union_le _ _
        _ = volume B := by rw [hz, add_zero]
    · apply measure_mono
      rintro ⟨u, v⟩ ⟨⟨hu, hv⟩, hx⟩
      exact ⟨⟨⟨hu.1.le, hu.2⟩, hv.1, hv.2.le⟩, hx⟩
  rw [e3, e2, e1, mul_comm, ENNReal.mul_div_cancel_right (by simpa using hc) ENNReal.ofReal_ne_top]

theorem angle_inj (a b : ℝ) (ha : 0 ≤ a) (ha' : a < 2 * π) (hb : 0 ≤ b) (hb' : b < 2 * π) (h1 : cos a = cos b) (h2 : sin a = sin b) : a = b := by
  have h : cos (a - b) = 1 := by
    rw [Real.cos_sub, h1, h2]; linear_combination Real.sin_sq_add_cos_sq b
  have := (Real.cos_eq_one_iff_of_lt_of_lt (by linarith) (by linarith)).1 h
  linarith

/-- **C66** for every set of points the mass sent there by `uniform_sample_disk` is the share of the unit disk's area that the set covers -/
theorem C66_disk_law (A : Set (ℝ × ℝ)) (hA : MeasurableSet A) :
    volume {u : ℝ × ℝ | u ∈ Icc (0 : ℝ) 1 ×ˢ Icc (0 : ℝ) 1 ∧ disk u.1 u.2 ∈ A} = volume (A ∩ {p | p.1 ^ 2 + p.2 ^ 2 ≤ 1}) / ENNReal.ofReal π := by
  have hpi := Real.pi_pos
  refine (law_const (fun u => disk u.1 u.2)
    (fun u => (fderivPolarCoordSymm (√u.1, u.2 * (2 * π))).comp ((ContinuousLinearMap.toSpanSingleton ℝ (1 / (2 * √u.1))).prodMap (ContinuousLinearMap.toSpanSingleton ℝ (2 * π))))
    π hpi ?_ ?_ ?_ ?_ _ {0} (by simp) ?_ ?_).1 A hA
  · unfold disk; fun_prop
  · intro u hu
    have h1 := (Real.hasDerivAt_sqrt hu.1.1.ne').hasFDerivAt
    have h2 := ((hasDerivAt_id u.2).mul_const (2 * π)).hasFDerivAt
    rw [one_mul] at h2
    have h3 := HasFDerivAt.comp u (hasFDerivAt_polarCoord_symm (√u.1, u.2 * (2 * π))) (HasFDerivAt.prodMap (p := u) h1 h2)
    refine h3.congr_of_eventuallyEq (Filter.Eventually.of_forall fun v => ?_)
    simp [disk, polarCoord, mul_comm]
  · rintro ⟨a, b⟩ ⟨ha, hb⟩ ⟨a', b'⟩ ⟨ha', hb'⟩ h
    simp only [disk, Prod.mk.injEq] at h ha hb ha' hb'
    have e (x y : ℝ) (hx : 0 ≤ x) : (√x * cos (2 * π * y)) ^ 2 + (√x * sin (2 * π * y)) ^ 2 = x := by
      linear_combination (√x) ^ 2 * Real.sin_sq_add_cos_sq (2 * π * y) + Real.sq_sqrt hx
    have haa : a = a' := by rw [← e a b ha.1.le, ← e a' b' ha'.1.le, h.1, h.2]
    subst haa
    have hs : √a ≠ 0 := (Real.sqrt_pos.2 ha.1).ne'
    have := angle_inj (2 * π * b) (2 * π * b') (by nlinarith [hb.1]) (by nlinarith [hb.2]) (by nlinarith [hb'.1]) (by nlinarith [hb'.2]) (mul_left_cancel₀ hs h.1) (mul_left_cancel₀ hs h.2)
    rw [mul_left_cancel₀ (by positivity) this]
  · intro u hu
    have hs := Real.sqrt_pos.2 hu.1.1
    have hdet : ((fderivPolarCoordSymm (√u.1, u.2 * (2 * π))).comp ((ContinuousLinearMap.toSpanSingleton ℝ (1 / (2 * √u.1))).prodMap (ContinuousLinearMap.toSpanSingleton ℝ (2 * π)))).det = π := by
      have e : (((ContinuousLinearMap.toSpanSingleton ℝ (1 / (2 * √u.1))).prodMap (ContinuousLinearMap.toSpanSingleton ℝ (2 * π)) : ℝ × ℝ →L[ℝ] ℝ × ℝ) : ℝ × ℝ →ₗ[ℝ] ℝ × ℝ) =
          ((1 / (2 * √u.1)) • LinearMap.id).prodMap ((2 * π) • LinearMap.id) := by
        ext <;> simp
      have h1 := det_fderivPolarCoordSymm (√u.1, u.2 * (2 * π))
      rw [ContinuousLinearMap.det] at h1 ⊢
      rw [show ((fderivPolarCoordSymm (√u.1, u.2 * (2 * π))).comp ((ContinuousLinearMap.toSpanSingleton ℝ (1 / (2 * √u.1))).prodMap (ContinuousLinearMap.toSpanSingleton ℝ (2 * π)))).toLinearMap =
        (fderivPolarCoordSymm (√u.1, u.2 * (2 * π))).toLinearMap ∘ₗ ((ContinuousLinearMap.toSpanSingleton ℝ (1 / (2 * √u.1))).prodMap (ContinuousLinearMap.toSpanSingleton ℝ (2 * π))).toLinearMap from rfl, LinearMap.det_comp, h1, e, LinearMap.det_prodMap, LinearMap.det_smul, LinearMap.det_smul]
      simp
      field_simp
    rw [hdet, abs_of_pos hpi]
  · rintro p ⟨u, hu, rfl⟩
    exact (C21_disk u.1 u.2 hu.1.1.le hu.1.2).2
  · rintro ⟨x, y⟩ h
    simp only [mem_ofPred_eq] at h
    by_cases h0 : x ^ 2 + y ^ 2 = 0
    · right
      have hx : x = 0 := by nlinarith [sq_nonneg x, sq_nonneg y]
      have hy : y = 0 := by nlinarith [sq_nonneg x, sq_nonneg y]
      simp [hx, hy]
    · left
      have hp : 0 < x ^ 2 + y ^ 2 := lt_of_le_of_ne (by positivity) (Ne.symm h0)
      set z : ℂ := ⟨x, y⟩ with hz
      have hn : ‖z‖ = √(x ^ 2 + y ^ 2) := by rw [Complex.norm_eq_sqrt_sq_add_sq]
      have hn0 : ‖z‖ ≠ 0 := by rw [hn]; exact (Real.sqrt_pos.2 hp).ne'
      have hz0 : z ≠ 0 := by simpa using hn0
      have hc := Complex.cos_arg hz0
      have hs := Complex.sin_arg z
      have key (a : ℝ) (h1 : 0 ≤ a) (h2 : a < 2 * π) (h3 : cos a = x / ‖z‖) (h4 : sin a = y / ‖z‖) : ((x, y) : ℝ × ℝ) ∈ (fun u : ℝ × ℝ => disk u.1 u.2) '' (Ioc (0 : ℝ) 1 ×ˢ Ico (0 : ℝ) 1) := by
        refine ⟨(x ^ 2 + y ^ 2, a / (2 * π)), ⟨⟨hp, h⟩, div_nonneg h1 (by positivity), (div_lt_one (by positivity)).2 h2⟩, ?_⟩
        simp only [disk]
        rw [mul_div_cancel₀ _ (by positivity : (2 * π) ≠ 0), h3, h4, ← hn, mul_div_cancel₀ _ hn0, mul_div_cancel₀ _ hn0]
      by_cases ha : 0 ≤ Complex.arg z
      · exact key _ ha (by linarith [Complex.arg_le_pi z]) hc hs
      · push Not at ha
        refine key (Complex.arg z + 2 * π) (by linarith [Complex.neg_pi_lt_arg z]) (by linarith) ?_ ?_
        · rw [Real.cos_add_two_pi]; exact hc
        · rw [Real.sin_add_two_pi]; exact hs

theorem triangle_laws : (∀ A : Set (ℝ × ℝ), MeasurableSet A →
    volume {u : ℝ × ℝ | u ∈ Icc (0 : ℝ) 1 ×ˢ Icc (0 : ℝ) 1 ∧ triangle u.1 u.2 ∈ A} = volume (A ∩ {b | 0 ≤ b.1 ∧ 0 ≤ b.2 ∧ b.1 + b.2 ≤ 1}) / ENNReal.ofReal (1 / 2)) ∧
    ∀ g : ℝ × ℝ → ℝ, ∫ u in Icc (0 : ℝ) 1 ×ˢ Icc (0 : ℝ) 1, g (triangle u.1 u.2) = (∫ b in {b : ℝ × ℝ | 0 ≤ b.1 ∧ 0 ≤ b.2 ∧ b.1 + b.2 ≤ 1}, g b) / (1 / 2) := by
  refine law_const (fun u => triangle u.1 u.2)
    (fun u => (Matrix.toLin (.finTwoProd ℝ) (.finTwoProd ℝ) !![-(1 / (2 * √u.1)), 0; u.2 * (1 / (2 * √u.1)), √u.1]).toContinuousLinearMap)
    (1 / 2) (by norm_num) ?_ ?_ ?_ ?_ _ ({1} ×ˢ {0} ∪ {b | b.1 + b.2 = 1}) ?_ ?_ ?_
  · unfold triangle; fun_prop
  · intro u hu
    have h1 := (Real.hasDerivAt_sqrt hu.1.1.ne').comp_hasFDerivAt u (hasFDerivAt_fst (𝕜 := ℝ) (p := u))
    have h2 := HasFDerivAt.prodMk (h1.const_sub 1) ((hasFDerivAt_snd (𝕜 := ℝ) (p := u)).mul h1)
    rw [Matrix.toLin_finTwoProd_toContinuousLinearMap]
    refine h2.congr_fderiv ?_
    ext <;> simp
  · rintro ⟨a, b⟩ ⟨ha, hb⟩ ⟨a', b'⟩ ⟨ha', hb'⟩ h
    simp only [triangle, Prod.mk.injEq] at h ha ha'
    have e : √a = √a' := by linarith [h.1]
    have haa : a = a' := by rw [← Real.sq_sqrt ha.1.le, ← Real.sq_sqrt ha'.1.le, e]
    subst haa
    have hs : √a ≠ 0 := (Real.sqrt_pos.2 ha.1).ne'
    rw [mul_right_cancel₀ hs h.2]
  · intro u hu
    have hs := Real.sqrt_pos.2 hu.1.1
    simp only [LinearMap.det_toContinuousLinearMap, LinearMap.det_toLin, Matrix.det_fin_two_of]
    rw [abs_of_neg]
    · field_simp; ring
    · have : (1 / (2 * √u.1)) * √u.1 = 1 / 2 := by field_simp
      nlinarith
  · rw [measure_union_null_iff]
    constructor
    · rw [Measure.volume_eq_prod, Measure.prod_prod]; simp
    · have : {b : ℝ × ℝ | b.1 + b.2 = 1} = (fun x : ℝ × ℝ => x + (-1, 0)) ⁻¹' (LinearMap.ker (LinearMap.fst ℝ ℝ ℝ + LinearMap.snd ℝ ℝ ℝ) : Set (ℝ × ℝ)) := by
        ext ⟨x, y⟩
        simp only [mem_ofPred_eq, mem_preimage, SetLike.mem_coe, LinearMap.mem_ker, LinearMap.add_apply, LinearMap.fst_apply, LinearMap.snd_apply, Prod.mk_add_mk]
        constructor <;> intro h <;> linarith
      rw [this, measure_preimage_add_right]
      apply Measure.addHaar_submodule
      intro h
      have : ((1, 0) : ℝ × ℝ) ∈ LinearMap.ker (LinearMap.fst ℝ ℝ ℝ + LinearMap.snd ℝ ℝ ℝ) := by rw [h]; trivial
      simp at this
  · rintro p ⟨u, hu, rfl⟩
    exact C21_triangle u.1 u.2 hu.1.2 hu.2.1 hu.2.2.le
  · rintro ⟨x, y⟩ ⟨hx, hy, hxy⟩
    by_cases h1 : x + y = 1
    · exact Or.inr (Or.inr h1)
    · left
      simp only at hx hy hxy
      have hlt : x + y < 1 := lt_of_le_of_ne hxy h1
      have h0 : 0 < 1 - x := by linarith
      refine ⟨((1 - x) ^ 2, y / (1 - x)), ⟨⟨by positivity, by nlinarith⟩, div_nonneg hy h0.le, (div_lt_one h0).2 (by linarith)⟩, ?_⟩
      simp only [triangle, Real.sqrt_sq h0.le, Prod.mk.injEq]
      exact ⟨by ring, by field_simp⟩

/-- **C66** for every set of barycentric pairs the mass sent there by `uniform_sample_triangle` is twice the area that the set covers of the triangle of all such pairs (whose area is one half) -/
theorem C66_triangle_law (A : Set (ℝ × ℝ)) (hA : MeasurableSet A) :
    volume {u : ℝ × ℝ | u ∈ Icc (0 : ℝ) 1 ×ˢ Icc (0 : ℝ) 1 ∧ triangle u.1 u.2 ∈ A} = volume (A ∩ {b | 0 ≤ b.1 ∧ 0 ≤ b.2 ∧ b.1 + b.2 ≤ 1}) / ENNReal.ofReal (1 / 2) :=
  triangle_laws.1 A hA

/-- **C66** the mean of any function of the sampled barycentric pair is its mean over the triangle of all such pairs -/
theorem C66_triangle_mean (g : ℝ × ℝ → ℝ) :
    ∫ u in Icc (0 : ℝ) 1 ×ˢ Icc (0 : ℝ) 1, g (triangle u.1 u.2) = (∫ b in {b : ℝ × ℝ | 0 ≤ b.1 ∧ 0 ≤ b.2 ∧ b.1 + b.2 ≤ 1}, g b) / (1 / 2) :=
  triangle_laws.2 g

/-- a set the theorems apply to, and what they say for it: half of the sphere samples go to the upper half -/
example : volume {u : ℝ × ℝ | u ∈ Icc (0 : ℝ) 1 ×ˢ Icc (0 : ℝ) 1 ∧ sphere u.1 u.2 ∈ {v : V3 ℝ | 0 ≤ v.z}} =
    ∫⁻ q in {q : ℝ × ℝ | q ∈ Icc (0 : ℝ) π ×ˢ Icc (0 : ℝ) (2 * π) ∧ polarDir q.1 q.2 ∈ {v : V3 ℝ | 0 ≤ v.z}}, ENNReal.ofReal (1 / (4 * π) * sin q.1) :=
  C66_sphere_law _ (measurableSet_le measurable_const (by fun_prop : Measurable fun q : ℝ × ℝ => cos q.1))

/-- parameters the theorems about cones and phase functions apply to -/
example : (-1 : ℝ) ≤ 1 / 2 ∧ (1 / 2 : ℝ) < 1 ∧ |(-1 / 2 : ℝ)| < 1 ∧ EPS ≤ |(-1 / 2 : ℝ)| ∧ |(0 : ℝ)| < EPS := by
  refine ⟨by norm_num, by norm_num, by rw [abs_lt]; norm_num, by rw [abs_of_neg] <;> norm_num [EPS], by norm_num [EPS]⟩

end Verif.MC
