import Verif.Integrator.Direct
import Verif.Shape.SphereSample
import Verif.Reflection.Diffuse
import Mathlib.MeasureTheory.Integral.IntervalIntegral.Periodic

/-!
# Light from a spherical area light (C172)

`estimate_direct` (`pytracer/integrator/utility.py:203-257`) with `DiffuseAreaLight.sample_l` (`pytracer/light/light.py:514-521`) on a `Sphere` (`pytracer/shape/sphere.py:78-123`), averaged over the two numbers that choose the
point on the light.  Real arithmetic.
-/
namespace Verif.Integrator
open Verif V3 Verif.Geom Verif.Light Bsdf Verif.Xform
open Verif.Shape (Sphere Rigid)
open Verif.Refl (basePdf baseDir absCosTheta)
set_option linter.unusedSimpArgs false

section
variable {ι : Type}

/-! ### Model -/

/-- `ShapeSet(sphere)` (`light/utility.py:78-99`): a sphere can be intersected, so it is the only shape -/
noncomputable def sphereSet (s : Sphere) (o2w w2o : Transform ℝ) (isect : Shape.Ray ℝ → Option (ℝ × V3 ℝ)) : ShapeSet :=
  ShapeSet.mk' [⟨s.area, s.sampleP o2w w2o false, s.pdfP o2w isect⟩]

/-- `estimate_direct` for a `DiffuseAreaLight` on a sphere (`integrator/utility.py:203-257`, `light/light.py:514-521`): light sample `u0 u1 uCom`, BSDF sample `v0 v1 vCom`.
`unocc` is the answer of the visibility test to the shadow ray, `T` the transmittance along it.  `none`: an exception -/
noncomputable def sphereEstimate (emit : ι → ℝ) (s : Sphere) (o2w w2o : Transform ℝ) (isect : Shape.Ray ℝ → Option (ℝ × V3 ℝ)) (unocc : Shape.Ray ℝ → Bool) (T : Shape.Ray ℝ → ι → ℝ) (b : BSDF (ι → ℝ))
    (p : V3 ℝ) (pEps : ℝ) (wo n : V3 ℝ) (uCom v0 v1 vCom u0 u1 : ℝ) : Option (ι → ℝ) :=
  match areaSample emit (sphereSet s o2w w2o isect) p pEps u0 u1 uCom with
  | .error _ => none
  | .ok ls => estimateDirect ls b wo n false (unocc ls.vis) (T ls.vis) (areaPdf (sphereSet s o2w w2o isect) p) v0 v1 vCom directFlags

/-! ### Specification -/

/-- the direction at angle `arccos c` from `z`, turned by `φ` about it -/
noncomputable def dirOf (x y z : V3 ℝ) (c φ : ℝ) : V3 ℝ := (Real.cos φ * Real.sqrt (1 - c * c)) * x + (Real.sin φ * Real.sqrt (1 - c * c)) * y + c * z

/-- the integral over the solid angle of the directions at most `arccos ct` away from `z` (`dω = dc dφ`) -/
noncomputable def coneIntegral (x y z : V3 ℝ) (ct : ℝ) (g : V3 ℝ → ℝ) : ℝ := ∫ c in ct..1, ∫ φ in (0 : ℝ)..(2 * Real.pi), g (dirOf x y z c φ)

/-- the point at which the ray from `p` along the unit vector `w` enters the sphere (see `C172_near_point`) -/
noncomputable def nearPoint (R : ℝ) (ctr p w : V3 ℝ) : V3 ℝ := p + (dot (ctr - p) w - Real.sqrt (R ^ 2 - (sqLength (p - ctr) - dot (ctr - p) w ^ 2))) * w

/-- the cosine of the half-angle of the cone of directions which meet a sphere of squared radius `R2` from a point at squared distance `D2` -/
noncomputable def rim (R2 D2 : ℝ) : ℝ := Real.sqrt (1 - R2 / D2)

/-! ### The sampled point -/

theorem sq_comm' (p q : V3 ℝ) : sqLength (p - q) = sqLength (q - p) := by simp only [sqLength, sub_x, sub_y, sub_z]; ring

/-- **C172** the point at which a ray enters the sphere: on the sphere and the ray, and no point of the ray before it is on the sphere -/
theorem C172_near_point (R : ℝ) (ctr p w : V3 ℝ) (hw : sqLength w = 1) (hout : R ^ 2 < sqLength (p - ctr)) (hB : 0 ≤ dot (ctr - p) w) (hQ : sqLength (p - ctr) - dot (ctr - p) w ^ 2 ≤ R ^ 2) :
    ∃ t : ℝ, 0 < t ∧ nearPoint R ctr p w = p + t * w ∧ sqLength (nearPoint R ctr p w - ctr) = R ^ 2 ∧ ∀ k : ℝ, sqLength (p + k * w - ctr) = R ^ 2 → t ≤ k := by
  have hsq : ∀ t : ℝ, sqLength (p + t * w - ctr) = sqLength (p - ctr) - 2 * t * dot (ctr - p) w + t ^ 2 := fun t => by
    have : sqLength (p + t * w - ctr) = sqLength (p - ctr) - 2 * t * dot (ctr - p) w + t ^ 2 * sqLength w := by
      simp only [sqLength, dot, add_x, add_y, add_z, sub_x, sub_y, sub_z, smul_x, smul_y, smul_z]; ring
    rw [this, hw]; ring
  unfold nearPoint
  generalize hBd : dot (ctr - p) w = B at *
  generalize hq : R ^ 2 - (sqLength (p - ctr) - B ^ 2) = Q at *
  have hQ0 : 0 ≤ Q := by linarith
  have h1 := Real.sq_sqrt hQ0
  have h2 := Real.sqrt_nonneg Q
  refine ⟨B - Real.sqrt Q, ?_, rfl, by rw [hsq]; nlinarith, fun k hk => ?_⟩
  · have : Real.sqrt Q < B := by
      by_contra h
      push Not at h
      have : B ^ 2 ≤ Real.sqrt Q ^ 2 := pow_le_pow_left₀ hB h 2
      nlinarith
    linarith
  · rw [hsq] at hk
    have h3 : (k - B) ^ 2 = Real.sqrt Q ^ 2 := by rw [h1]; nlinarith
    rcases sq_eq_sq_iff_eq_or_eq_neg.1 h3 with h | h <;> linarith

/-- what `sample_p` returns: the entry point, except on chords shorter than the tolerance, where it is the middle of the chord -/
theorem sampleP_exact (s : Sphere) (hs : s.Whole) (o2w w2o : Transform ℝ) (hw : Rigid w2o) (ctr : V3 ℝ) (hC : o2w.pt 0 = ctr) (hc : w2o.pt ctr = 0) (pnt : V3 ℝ) (u1 u2 : ℝ) (h0 : 0 ≤ u1) (h1 : u1 ≤ 1)
    (hout : s.radius ^ 2 + 1 / 100000 ≤ sqLength (pnt - ctr)) (hfar : s.radius + 1 / 100000 ≤ length (pnt - ctr)) (d : V3 ℝ) (hdd : s.sampleDir ctr pnt u1 u2 = d)
    (B Q : ℝ) (hBdef : B = dot (ctr - pnt) d) (hQdef : Q = s.radius ^ 2 - (sqLength (pnt - ctr) - B ^ 2)) :
    length d = 1 ∧ 0 < B ∧ 0 ≤ Q ∧
    (1 / 400000 < Q → s.sampleP o2w w2o false pnt u1 u2 = (nearPoint s.radius ctr pnt d, Geom.normalize (nearPoint s.radius ctr pnt d - ctr))) ∧
    (Q ≤ 1 / 400000 → s.sampleP o2w w2o false pnt u1 u2 = (pnt + B * d, Geom.normalize (pnt + B * d - ctr))) := by
  have hR := hs.1
  have hin : ¬ sqLength (pnt - ctr) - s.radius * s.radius < Shape.eps := by unfold Shape.eps; push Not; nlinarith
  have hL : 0 < sqLength (ctr - pnt) := by rw [sq_comm']; nlinarith [sq_nonneg s.radius]
  have hne : ctr - pnt ≠ 0 := fun h => by rw [h] at hL; simp [sqLength] at hL
  obtain ⟨d1, d2, d3, -⟩ := Shape.dir_spec s ctr pnt u1 u2 h0 h1 hne hR
  rw [hdd] at d1 d2 d3
  obtain ⟨-, n2, n3⟩ := (C06_normalize _).1 hne
  have hlen : length (ctr - pnt) ^ 2 = sqLength (ctr - pnt) := Real.sq_sqrt (sqLength_nonneg _)
  have hd1 : sqLength d = 1 := by
    have := Real.sq_sqrt (sqLength_nonneg d)
    rw [Geom.length] at d1; rw [d1] at this; linarith
  have hnd : Geom.normalize d = d := by
    have hz : d ≠ 0 := fun h => by rw [h] at hd1; simp [sqLength] at hd1
    obtain ⟨-, k2, -⟩ := (C06_normalize _).1 hz
    rw [d1] at k2
    conv_rhs => rw [← k2]
    ext <;> simp
  have hdot : B = length (ctr - pnt) * dot d (Geom.normalize (ctr - pnt)) := by
    rw [hBdef]
    conv_lhs => rw [← n2]
    simp only [dot, smul_x, smul_y, smul_z]; ring
  have hct : s.ctMax ctr pnt ^ 2 * sqLength (ctr - pnt) = sqLength (ctr - pnt) - s.radius ^ 2 := by
    have hnn : 0 ≤ 1 - s.radius * s.radius / sqLength (pnt - ctr) := by
      rw [sub_nonneg, div_le_one (by rw [sq_comm']; exact hL)]; nlinarith
    rw [Sphere.ctMax, Real.sq_sqrt (le_max_left _ _), max_eq_right hnn, sq_comm' pnt ctr]
    field_simp
  have hc0 : 0 ≤ s.ctMax ctr pnt := Real.sqrt_nonneg _
  have hB2 : sqLength (ctr - pnt) - s.radius ^ 2 ≤ B ^ 2 := by
    rw [← hct, hdot, mul_pow, hlen, mul_comm]
    exact mul_le_mul_of_nonneg_left (pow_le_pow_left₀ hc0 d2 2) hL.le
  have hBn : 0 ≤ B := by rw [hdot]; exact mul_nonneg n3.le (hc0.trans d2)
  have hsym := sq_comm' pnt ctr
  have hBpos : 0 < B := lt_of_le_of_ne hBn fun h => by rw [← h] at hB2; nlinarith
  have hQ0 : 0 ≤ Q := by rw [hQdef, hsym]; linarith
  have hBL : B ≤ length (ctr - pnt) := by rw [hdot]; nlinarith
  have hpos : ∀ t : ℝ, (⟨pnt, d, Shape.eps, ⊤⟩ : Shape.Ray ℝ).pos t = pnt + t * d := fun t => by ext <;> simp [Shape.Ray.pos, rayAt] <;> ring
  have hsq : ∀ t : ℝ, sqLength (pnt + t * d - ctr) = sqLength (ctr - pnt) - 2 * t * B + t ^ 2 := fun t => by
    have : sqLength (pnt + t * d - ctr) = sqLength (ctr - pnt) - 2 * t * dot (ctr - pnt) d + t ^ 2 * sqLength d := by
      simp only [sqLength, dot, add_x, add_y, add_z, sub_x, sub_y, sub_z, smul_x, smul_y, smul_z]; ring
    rw [this, hd1, hBdef]; ring
  have hdisc : s.discr w2o ⟨pnt, d, Shape.eps, ⊤⟩ = 4 * Q := by
    rw [Shape.discr_world hw hc pnt d hd1, ← hsym, hQdef, hBdef]
  have hmem : ∀ t, t ∈ s.hits w2o ⟨pnt, d, Shape.eps, ⊤⟩ ↔ 1 / 100000 ≤ t ∧ (t - B) ^ 2 = Q := by
    intro t
    have hwp : sqLength (w2o.pt (pnt + t * d)) = sqLength (pnt + t * d - ctr) := (Shape.rigid_dot hw hc (pnt + t * d) d).1
    simp only [Sphere.hits, Set.mem_ofPred_eq, Shape.whole_on hs, hpos, hwp, hsq, le_top, true_and]
    have he : (Shape.eps : ℝ) = 1 / 100000 := rfl
    have hq : Q = s.radius ^ 2 - (sqLength (ctr - pnt) - B ^ 2) := by rw [← hsym, hQdef]
    rw [he, hq]
    constructor
    · rintro ⟨a, b⟩; exact ⟨a, by linarith⟩
    · rintro ⟨a, b⟩; exact ⟨a, by linarith⟩
  have hsqQ : Real.sqrt Q ^ 2 = Q := Real.sq_sqrt hQ0
  have hnear : B - Real.sqrt Q ∈ s.hits w2o ⟨pnt, d, Shape.eps, ⊤⟩ := by
    rw [hmem]
    refine ⟨?_, by rw [sub_sub_cancel_left, neg_sq]; exact hsqQ⟩
    have hLR : s.radius + 1 / 100000 ≤ length (ctr - pnt) := by
      have : length (pnt - ctr) = length (ctr - pnt) := by rw [Geom.length, hsym, ← Geom.length]
      rw [← this]; exact hfar
    have e1 : (length (ctr - pnt) - s.radius) ≤ B - Real.sqrt Q :=
      Shape.near_root hR (by linarith) hBL hBn (by rw [hlen]; linarith) (by rw [hlen, ← hsym, hQdef])
    linarith
  refine ⟨d1, hBpos, hQ0, fun hQ => ?_, fun hQ => ?_⟩
  · cases hh : s.hit w2o ⟨pnt, d, Shape.eps, ⊤⟩ with
    | none =>
      rcases Shape.C41_miss s (Shape.Whole.ok hs) w2o hw.1 _ hh with h | h
      · rw [h] at hnear; exact absurd hnear (Set.notMem_empty _)
      · rw [hdisc] at h; linarith
    | some x =>
      obtain ⟨t, q, phi⟩ := x
      obtain ⟨⟨hm, hleast⟩, -⟩ := Shape.C41_hit s (Shape.Whole.ok hs) w2o hw.1 _ t phi q hh
      have h3 := hleast hnear
      have h4 := ((hmem t).1 hm).2
      have ht : t = B - Real.sqrt Q := by
        have h5 : (t - B) ^ 2 = Real.sqrt Q ^ 2 := by rw [h4, hsqQ]
        have := Real.sqrt_nonneg Q
        rcases sq_eq_sq_iff_eq_or_eq_neg.1 h5 with h | h <;> linarith
      simp only [Sphere.sampleP, hC, hin, if_false, hdd, hh, hpos, ht, nearPoint, Bool.false_eq_true, ← hBdef, ← hQdef]
  · have hh : s.hit w2o ⟨pnt, d, Shape.eps, ⊤⟩ = none := by
      have hD := hdisc
      rw [Shape.C41_discriminant] at hD
      simp only [Sphere.hit, Sphere.hitObj, zero_add]
      rw [if_pos]
      show (2 * dot (w2o.vec d) (w2o.pt pnt)) * (2 * dot (w2o.vec d) (w2o.pt pnt)) - 4 * sqLength (w2o.vec d) * (sqLength (w2o.pt pnt) - s.radius * s.radius) ≤ Shape.eps
      simp only at hD
      rw [hD]; unfold Shape.eps; linarith
    simp only [Sphere.sampleP, hC, hin, if_false, hdd, hh, hpos, hnd, Bool.false_eq_true, ← hBdef]

/-! ### One estimate -/

open Classical in
/-- the light that a surface with BSDF `b` at `p` sends towards `wo` out of what arrives along `-w` from a sphere which emits `emit`, per unit of solid angle (values that the code takes as black are taken as zero) -/
noncomputable def reflected (emit : ι → ℝ) (R : ℝ) (ctr : V3 ℝ) (unocc : Shape.Ray ℝ → Bool) (T : Shape.Ray ℝ → ι → ℝ) (b : BSDF (ι → ℝ)) (p : V3 ℝ) (pEps : ℝ) (wo n : V3 ℝ) (c : ι) (w : V3 ℝ) : ℝ :=
  if unocc (setSegment p pEps (nearPoint R ctr p w) Light.eps) = true ∧ ¬ Black (b.f wo w directFlags) then
    b.f wo w directFlags c * emit c * T (setSegment p pEps (nearPoint R ctr p w) Light.eps) c * |dot w n| else 0

theorem whole_area {s : Sphere} (hs : s.Whole) : 0 < s.area := by
  obtain ⟨h1, h2, h3, h4⟩ := hs
  rw [Sphere.area, h2, h3, h4]
  have := Real.pi_pos
  have : s.radius - -s.radius = 2 * s.radius := by ring
  rw [this]; positivity

theorem sphereSet_sample (s : Sphere) (hs : s.Whole) (o2w w2o : Transform ℝ) (isect : Shape.Ray ℝ → Option (ℝ × V3 ℝ)) (p : V3 ℝ) (u0 u1 u : ℝ) (h0 : 0 < u) (h1 : u ≤ 1) :
    (sphereSet s o2w w2o isect).sampleP p u0 u1 u = .ok (s.sampleP o2w w2o false p u0 u1) := by
  have ha := whole_area hs
  obtain ⟨idx, h, -⟩ := C98_pdf_is_mixture [⟨s.area, s.sampleP o2w w2o false, s.pdfP o2w isect⟩] (by simp [ha.le]) (by simpa using ha)
  obtain ⟨-, sh, h2, -, h3⟩ := h u h0 h1
  have : sh = ⟨s.area, s.sampleP o2w w2o false, s.pdfP o2w isect⟩ := by
    have := List.mem_of_getElem? h2
    simpa using this
  rw [sphereSet, h3, this]

theorem sphereSet_pdf (s : Sphere) (hs : s.Whole) (o2w w2o : Transform ℝ) (isect : Shape.Ray ℝ → Option (ℝ × V3 ℝ)) (p w : V3 ℝ) :
    (sphereSet s o2w w2o isect).pdf p w = s.pdfP o2w isect p w := by
  have ha := whole_area hs
  rw [sphereSet, mk'_eq]
  simp only [ShapeSet.pdf, wsum_eq]
  simp only [List.map_cons, List.map_nil, List.sum_cons, List.sum_nil, add_zero]
  field_simp

/-- the sample from `p` towards `p + t d` -/
theorem areaSample_at (emit : ι → ℝ) (s : Sphere) (hs : s.Whole) (o2w w2o : Transform ℝ) (isect : Shape.Ray ℝ → Option (ℝ × V3 ℝ)) (p : V3 ℝ) (pEps u0 u1 u : ℝ) (h0 : 0 < u) (h1 : u ≤ 1) (d ns : V3 ℝ) (t : ℝ) (ht : 0 < t)
    (hd : length d = 1) (hp : s.sampleP o2w w2o false p u0 u1 = (p + t * d, ns)) :
    areaSample emit (sphereSet s o2w w2o isect) p pEps u0 u1 u = .ok ⟨areaL emit ns (-d), d, s.pdfP o2w isect p d, setSegment p pEps (p + t * d) Light.eps⟩ := by
  have hd1 : sqLength d = 1 := by
    have := Real.sq_sqrt (sqLength_nonneg d)
    rw [Geom.length] at hd; rw [hd] at this; linarith
  have hw : Geom.normalize (p + t * d - p) = d := by
    have e : p + t * d - p = t * d := by ext <;> simp
    have hne : t * d ≠ 0 := fun h => by
      have : sqLength (t * d) = t ^ 2 * sqLength d := by simp only [sqLength, smul_x, smul_y, smul_z]; ring
      rw [h, hd1] at this
      simp [sqLength] at this
      exact pow_ne_zero 2 ht.ne' this.symm
    have hl : length (t * d) = t := by
      have : sqLength (t * d) = t ^ 2 := by
        have : sqLength (t * d) = t ^ 2 * sqLength d := by simp only [sqLength, smul_x, smul_y, smul_z]; ring
        rw [this, hd1, mul_one]
      rw [Geom.length, this, Real.sqrt_sq ht.le]
    obtain ⟨-, k2, -⟩ := (C06_normalize _).1 hne
    rw [e]
    rw [hl] at k2
    generalize Geom.normalize (t * d) = m at *
    have : ∀ a b : ℝ, t * a = t * b → a = b := fun a b h => mul_left_cancel₀ ht.ne' h
    ext
    · exact this _ _ (by have := congrArg V3.x k2; simpa using this)
    · exact this _ _ (by have := congrArg V3.y k2; simpa using this)
    · exact this _ _ (by have := congrArg V3.z k2; simpa using this)
  simp only [areaSample, sphereSet_sample s hs o2w w2o isect p u0 u1 u h0 h1, hp, bind, Except.bind, pure, Except.pure, hw, sphereSet_pdf s hs]

/-- the values in which the estimate is stated -/
theorem sampleDir_eq (s : Sphere) (ctr p : V3 ℝ) (u0 u1 : ℝ) : s.sampleDir ctr p u0 u1 =
    dirOf (coordinateSystem (Geom.normalize (ctr - p))).2.1 (coordinateSystem (Geom.normalize (ctr - p))).2.2 (Geom.normalize (ctr - p)) ((1 - s.ctMax ctr p) * u0 + s.ctMax ctr p) (2 * Real.pi * u1) := by
  simp only [Sphere.sampleDir, MC.cone, Option.getD_some, dirOf]
  rw [show (1 - u0) * s.ctMax ctr p + u0 * 1 = (1 - s.ctMax ctr p) * u0 + s.ctMax ctr p by ring, show u1 * 2 * Real.pi = 2 * Real.pi * u1 by ring]

theorem one_estimate (emit : ι → ℝ) (hem : ¬ Black emit) (s : Sphere) (hs : s.Whole) (hR : 1 / 400000 < s.radius ^ 2) (o2w w2o : Transform ℝ) (hw : Rigid w2o) (ctr : V3 ℝ) (hC : o2w.pt 0 = ctr) (hc : w2o.pt ctr = 0)
    (isect : Shape.Ray ℝ → Option (ℝ × V3 ℝ)) (unocc : Shape.Ray ℝ → Bool) (T : Shape.Ray ℝ → ι → ℝ) (b : BSDF (ι → ℝ)) (hh : Hands b) (p : V3 ℝ) (pEps : ℝ) (wo n : V3 ℝ) (uCom v0 v1 vCom u0 u1 : ℝ)
    (hu0 : 0 < uCom) (hu1 : uCom ≤ 1) (hv0 : 0 ≤ vCom) (hv1 : vCom < 1) (h0 : 0 ≤ u0) (h1 : u0 ≤ 1)
    (hout : s.radius ^ 2 + 1 / 100000 ≤ sqLength (p - ctr)) (hfar : s.radius + 1 / 100000 ≤ length (p - ctr)) (d : V3 ℝ) (hdd : s.sampleDir ctr p u0 u1 = d) (c : ι) :
    valOf (sphereEstimate emit s o2w w2o isect unocc T b p pEps wo n uCom v0 v1 vCom u0 u1) c =
      if 1 / 400000 < s.radius ^ 2 - (sqLength (p - ctr) - dot (ctr - p) d ^ 2) then
        misWeight (MC.conePdf (s.ctMax ctr p)) (b.pdf wo d directFlags) * (reflected emit s.radius ctr unocc T b p pEps wo n c d / MC.conePdf (s.ctMax ctr p)) else 0 := by
  obtain ⟨k1, k2, k3, k4, k5⟩ := sampleP_exact s hs o2w w2o hw ctr hC hc p u0 u1 h0 h1 hout hfar d hdd _ _ rfl rfl
  have hd1 : sqLength d = 1 := by
    have := Real.sq_sqrt (sqLength_nonneg d)
    rw [Geom.length] at k1; rw [k1] at this; linarith
  have hpdf : s.pdfP o2w isect p d = MC.conePdf (s.ctMax ctr p) := by
    have hin : ¬ sqLength (p - ctr) - s.radius * s.radius < Shape.eps := by unfold Shape.eps; push Not; nlinarith
    simp only [Sphere.pdfP, hC, hin, if_false]
  have hpos : 0 < MC.conePdf (s.ctMax ctr p) := by
    have := ((Shape.C140_pdf s hs.1 o2w isect p (by rw [hC]; exact hout)).1 d).2
    rwa [hpdf] at this
  have hb0 : Black (fun _ : ι => (0 : ℝ)) := by intro c; simp [eps]
  have hval : ∀ ls : LSample ι, areaSample emit (sphereSet s o2w w2o isect) p pEps u0 u1 uCom = .ok ls →
      valOf (sphereEstimate emit s o2w w2o isect unocc T b p pEps wo n uCom v0 v1 vCom u0 u1) c = misWeight ls.pdf (b.pdf wo ls.wi directFlags) * unweighted ls b wo n (unocc ls.vis) (T ls.vis) directFlags c := by
    intro ls hls
    simp only [sphereEstimate, hls, C101_area_light_weighted ls b wo n _ _ _ v0 v1 vCom hv0 hv1 hh, valOf]
  have hnrm : ∀ (v : V3 ℝ) (k : ℝ), v ≠ 0 → dot v d = k → ∃ l : ℝ, 0 < l ∧ dot (Geom.normalize v) (-d) = -k / l := by
    intro v k hv hk
    obtain ⟨-, n2, n3⟩ := (C06_normalize _).1 hv
    refine ⟨length v, n3, ?_⟩
    rw [eq_div_iff n3.ne', ← hk]
    conv_rhs => rw [← n2]
    simp only [dot, neg_x, neg_y, neg_z, smul_x, smul_y, smul_z]; ring
  have hoff : ∀ t : ℝ, dot (p + t * d - ctr) d = t - dot (ctr - p) d := fun t => by
    have : dot (p + t * d - ctr) d = t * sqLength d - dot (ctr - p) d := by
      simp only [sqLength, dot, add_x, add_y, add_z, sub_x, sub_y, sub_z, smul_x, smul_y, smul_z]; ring
    rw [this, hd1, mul_one]
  have hsq : ∀ t : ℝ, sqLength (p + t * d - ctr) = sqLength (p - ctr) - 2 * t * dot (ctr - p) d + t ^ 2 := fun t => by
    have : sqLength (p + t * d - ctr) = sqLength (p - ctr) - 2 * t * dot (ctr - p) d + t ^ 2 * sqLength d := by
      simp only [sqLength, dot, add_x, add_y, add_z, sub_x, sub_y, sub_z, smul_x, smul_y, smul_z]; ring
    rw [this, hd1]; ring
  split_ifs with hQ
  · obtain ⟨t, ht, e1, e2, -⟩ := C172_near_point s.radius ctr p d hd1 (by linarith) k2.le (by linarith)
    have e3 : nearPoint s.radius ctr p d = p + (dot (ctr - p) d - Real.sqrt (s.radius ^ 2 - (sqLength (p - ctr) - dot (ctr - p) d ^ 2))) * d := rfl
    have ls := areaSample_at emit s hs o2w w2o isect p pEps u0 u1 uCom hu0 hu1 d _ t ht k1 (by rw [k4 hQ, e1])
    have hlit : areaL emit (Geom.normalize (p + t * d - ctr)) (-d) = emit := by
      have hne : p + t * d - ctr ≠ 0 := fun h => by
        rw [e1, h] at e2
        simp [sqLength] at e2
        exact pow_ne_zero 2 hs.1.ne' e2.symm
      obtain ⟨l, hl, e⟩ := hnrm _ _ hne (hoff t)
      rw [areaL, if_pos]
      rw [e]
      apply div_pos _ hl
      have htt : t = dot (ctr - p) d - Real.sqrt (s.radius ^ 2 - (sqLength (p - ctr) - dot (ctr - p) d ^ 2)) := by
        have h2 := hoff t
        rw [← e1, e3, hoff] at h2
        linarith
      have : 0 < Real.sqrt (s.radius ^ 2 - (sqLength (p - ctr) - dot (ctr - p) d ^ 2)) := Real.sqrt_pos.2 (by linarith)
      linarith
    rw [hlit, hpdf, ← e1] at ls
    rw [hval _ ls]
    simp only [unweighted, reflected]
    congr 1
    by_cases h : unocc (setSegment p pEps (nearPoint s.radius ctr p d) Light.eps) = true ∧ ¬ Black (b.f wo d directFlags)
    · rw [if_pos h, if_pos ⟨hpos, h.1, hem, h.2⟩]
    · rw [if_neg h, if_neg (fun k => h ⟨k.2.1, k.2.2.2⟩), zero_div]
  · have hQ' := not_lt.1 hQ
    have ls := areaSample_at emit s hs o2w w2o isect p pEps u0 u1 uCom hu0 hu1 d _ _ k2 k1 (k5 hQ')
    rw [hval _ ls]
    have hdark : areaL emit (Geom.normalize (p + dot (ctr - p) d * d - ctr)) (-d) = fun _ => 0 := by
      have hne : p + dot (ctr - p) d * d - ctr ≠ 0 := fun h => by
        have h2 := hsq (dot (ctr - p) d)
        rw [h, show sqLength (0 : V3 ℝ) = 0 by simp [sqLength]] at h2
        nlinarith
      obtain ⟨l, hl, e⟩ := hnrm _ _ hne (hoff _)
      rw [areaL, if_neg]
      rw [e, sub_self]; simp
    simp only [hdark, unweighted, hb0, not_true_eq_false, false_and, and_false, if_false, mul_zero]

/-! ### The frame does not matter -/

theorem expand {x y z : V3 ℝ} (h : Orthonormal3 z x y) (v : V3 ℝ) : v = dot v x * x + dot v y * y + dot v z * z := by
  obtain ⟨h1, h2, h3, h4, h5, h6⟩ := h
  have one : ∀ a : V3 ℝ, length a = 1 → dot a a = 1 := fun a ha => by
    have := Real.sq_sqrt (sqLength_nonneg a)
    rw [Geom.length] at ha; rw [ha] at this
    simp only [sqLength] at this; simp only [dot]; linarith
  have hF : FrameOk (⟨x, y, z, z, []⟩ : BSDF Unit) := ⟨one _ h2, one _ h3, one _ h1, h6, by simp only [dot] at *; linarith, by simp only [dot] at *; linarith⟩
  obtain ⟨⟨c1, c2, c3⟩, c4, c5, c6⟩ := frame_columns hF
  simp only at c1 c2 c3 c4 c5 c6
  ext
  · simp only [dot, add_x, smul_x]; linear_combination (-v.x) * c1 - v.y * c4 - v.z * c5
  · simp only [dot, add_y, smul_y]; linear_combination (-v.y) * c2 - v.x * c4 - v.z * c6
  · simp only [dot, add_z, smul_z]; linear_combination (-v.z) * c3 - v.x * c5 - v.y * c6

theorem dirOf_periodic (x y z : V3 ℝ) (c : ℝ) (g : V3 ℝ → ℝ) : Function.Periodic (fun φ => g (dirOf x y z c φ)) (2 * Real.pi) := fun φ => by simp only [dirOf, Real.cos_add_two_pi, Real.sin_add_two_pi]

/-- turning the frame about its axis, or reflecting it, leaves the integral over the circle unchanged -/
theorem ring_integral {x y x' y' z : V3 ℝ} (h : Orthonormal3 z x y) (h' : Orthonormal3 z x' y') (c : ℝ) (g : V3 ℝ → ℝ) :
    ∫ φ in (0 : ℝ)..(2 * Real.pi), g (dirOf x' y' z c φ) = ∫ φ in (0 : ℝ)..(2 * Real.pi), g (dirOf x y z c φ) := by
  have ex := expand h x'
  have ey := expand h y'
  obtain ⟨-, g2, g3, g4, g5, g6⟩ := h'
  obtain ⟨k1, k2, k3, k4, k5, k6⟩ := h
  have one : ∀ a : V3 ℝ, length a = 1 → dot a a = 1 := fun a ha => by
    have := Real.sq_sqrt (sqLength_nonneg a)
    rw [Geom.length] at ha; rw [ha] at this
    simp only [sqLength] at this; simp only [dot]; linarith
  have cm : ∀ a b : V3 ℝ, dot a b = dot b a := fun a b => by simp only [dot]; ring
  rw [cm x' z, g4] at ex
  rw [cm y' z, g5] at ey
  generalize dot x' x = a at *
  generalize dot x' y = b at *
  generalize dot y' x = a' at *
  generalize dot y' y = b' at *
  have ex' : x' = a * x + b * y := by rw [ex]; ext <;> simp
  have ey' : y' = a' * x + b' * y := by rw [ey]; ext <;> simp
  have hab : ∀ p q r s : ℝ, dot (p * x + q * y) (r * x + s * y) = p * r + q * s := fun p q r s => by
    have e1 := one _ k2
    have e2 := one _ k3
    simp only [dot, add_x, add_y, add_z, smul_x, smul_y, smul_z] at *
    linear_combination (p * r) * e1 + (q * s) * e2 + (p * s + q * r) * k6
  have h1 : a * a + b * b = 1 := by have := one _ g2; rw [ex', hab] at this; exact this
  have h2 : a' * a' + b' * b' = 1 := by have := one _ g3; rw [ey', hab] at this; exact this
  have h3 : a * a' + b * b' = 0 := by rw [ex', ey', hab] at g6; exact g6
  obtain ⟨θ, hc, hs⟩ : ∃ θ : ℝ, Real.cos θ = a ∧ Real.sin θ = b := by
    have hn : ‖(⟨a, b⟩ : ℂ)‖ = 1 := by
      rw [Complex.norm_def, Complex.normSq_mk, h1, Real.sqrt_one]
    refine ⟨Complex.arg ⟨a, b⟩, ?_, ?_⟩
    · have hz : (⟨a, b⟩ : ℂ) ≠ 0 := fun h => by rw [h, norm_zero] at hn; exact zero_ne_one hn
      rw [Complex.cos_arg hz, hn]; simp
    · rw [Complex.sin_arg, hn]; simp
  have hP := dirOf_periodic x y z c g
  -- either `y' = (-b) x + a y` or its negative
  have hdet : (a * b' - b * a') * (a * b' - b * a') = 1 := by nlinarith
  rcases mul_self_eq_one_iff.1 hdet with hd | hd
  · have e1 : a' = -b := by linear_combination (-a') * h1 - b * hd + a * h3
    have e2 : b' = a := by linear_combination (-b') * h1 + a * hd + b * h3
    have : ∀ φ, dirOf x' y' z c φ = dirOf x y z c (φ + θ) := fun φ => by
      simp only [dirOf, Real.cos_add, Real.sin_add, hc, hs, ex', ey', e1, e2]
      ext <;> simp <;> ring
    simp only [this]
    rw [intervalIntegral.integral_comp_add_right (fun φ => g (dirOf x y z c φ)) θ, zero_add, add_comm (2 * Real.pi) θ, hP.intervalIntegral_add_eq θ 0, zero_add]
  · have e1 : a' = b := by linear_combination (-a') * h1 - b * hd + a * h3
    have e2 : b' = -a := by linear_combination (-b') * h1 + a * hd + b * h3
    have : ∀ φ, dirOf x' y' z c φ = dirOf x y z c (θ - φ) := fun φ => by
      simp only [dirOf, Real.cos_sub, Real.sin_sub, hc, hs, ex', ey', e1, e2]
      ext <;> simp <;> ring
    simp only [this]
    rw [intervalIntegral.integral_comp_sub_left (fun φ => g (dirOf x y z c φ)) θ, sub_zero]
    have := hP.intervalIntegral_add_eq (θ - 2 * Real.pi) 0
    rwa [sub_add_cancel, zero_add] at this

/-! ### The mean -/

/-- **C172** the mean over the two numbers that choose the point on the light is the integral, over the solid angle under which the sphere is seen, of the reflected light: each direction once, whatever the visibility.
Missing: the factor of the multiple-importance weight (see C101), and a ring at the edge of the sphere, where the code's test for a hit fails, that gives no light. -/
theorem C172_mean_partial (emit : ι → ℝ) (hem : ¬ Black emit) (s : Sphere) (hs : s.Whole) (hR : 1 / 400000 < s.radius ^ 2) (o2w w2o : Transform ℝ) (hw : Rigid w2o) (ctr : V3 ℝ) (hC : o2w.pt 0 = ctr) (hc : w2o.pt ctr = 0)
    (isect : Shape.Ray ℝ → Option (ℝ × V3 ℝ)) (unocc : Shape.Ray ℝ → Bool) (T : Shape.Ray ℝ → ι → ℝ) (b : BSDF (ι → ℝ)) (hh : Hands b) (p : V3 ℝ) (pEps : ℝ) (wo n : V3 ℝ) (uCom v0 v1 vCom : ℝ)
    (hu0 : 0 < uCom) (hu1 : uCom ≤ 1) (hv0 : 0 ≤ vCom) (hv1 : vCom < 1) (hout : s.radius ^ 2 + 1 / 100000 ≤ sqLength (p - ctr)) (hfar : s.radius + 1 / 100000 ≤ length (p - ctr))
    (x y : V3 ℝ) (hxy : Orthonormal3 (Geom.normalize (ctr - p)) x y) (c : ι) :
    ∫ u0 in (0 : ℝ)..1, ∫ u1 in (0 : ℝ)..1, valOf (sphereEstimate emit s o2w w2o isect unocc T b p pEps wo n uCom v0 v1 vCom u0 u1) c =
      coneIntegral x y (Geom.normalize (ctr - p)) (rim (s.radius ^ 2 - 1 / 400000) (sqLength (p - ctr))) fun w =>
        misWeight (MC.conePdf (rim (s.radius ^ 2) (sqLength (p - ctr)))) (b.pdf wo w directFlags) * reflected emit s.radius ctr unocc T b p pEps wo n c w := by
  have hR0 := hs.1
  have hD : 0 < sqLength (p - ctr) := by nlinarith
  have hL : 0 < sqLength (ctr - p) := by rw [sq_comm']; exact hD
  have hne : ctr - p ≠ 0 := fun h => by rw [h] at hL; simp [sqLength] at hL
  obtain ⟨n1, n2, n3⟩ := (C06_normalize _).1 hne
  set z := Geom.normalize (ctr - p) with hz
  set ct := s.ctMax ctr p with hctd
  set D2 := sqLength (p - ctr) with hD2
  have hrim : ct = rim (s.radius ^ 2) D2 := by
    have hnn : 0 ≤ 1 - s.radius * s.radius / D2 := by
      rw [sub_nonneg, div_le_one hD]; nlinarith
    rw [hctd, Sphere.ctMax, max_eq_right hnn, rim]; congr 2; ring
  rw [← hrim]
  set r' := rim (s.radius ^ 2 - 1 / 400000) D2 with hr'
  have hr'0 : 0 ≤ r' := Real.sqrt_nonneg _
  have hr'sq : r' ^ 2 * D2 = D2 - (s.radius ^ 2 - 1 / 400000) := by
    have hnn : 0 ≤ 1 - (s.radius ^ 2 - 1 / 400000) / D2 := by
      rw [sub_nonneg, div_le_one hD]; linarith
    rw [hr', rim, Real.sq_sqrt hnn]; field_simp
  have hct0 : 0 ≤ ct := by rw [hrim]; exact Real.sqrt_nonneg _
  have hct1 : ct < 1 := by
    rw [hrim, rim, Real.sqrt_lt' one_pos]
    have : 0 < s.radius ^ 2 / D2 := by positivity
    linarith
  have hctr : ct ≤ r' := by
    rw [hrim, hr', rim, rim]
    apply Real.sqrt_le_sqrt
    have : (s.radius ^ 2 - 1 / 400000) / D2 ≤ s.radius ^ 2 / D2 := by gcongr; linarith
    linarith
  have hr1 : r' ≤ 1 := by
    rw [hr', rim, Real.sqrt_le_iff]
    have : 0 ≤ (s.radius ^ 2 - 1 / 400000) / D2 := div_nonneg (by linarith) hD.le
    exact ⟨zero_le_one, by rw [one_pow]; linarith⟩
  obtain ⟨-, f2, -⟩ := C05_frame_orthonormal z n1
  obtain ⟨f1, -, -⟩ := C05_frame_orthonormal z n1
  rw [f1] at f2
  set x0 := (coordinateSystem z).2.1
  set y0 := (coordinateSystem z).2.2
  -- the integrand
  set H : V3 ℝ → ℝ := fun w => misWeight (MC.conePdf ct) (b.pdf wo w directFlags) * reflected emit s.radius ctr unocc T b p pEps wo n c w with hH
  set G : ℝ → ℝ := fun k => ∫ φ in (0 : ℝ)..(2 * Real.pi), H (dirOf x0 y0 z k φ) with hG
  have hpi := Real.pi_pos
  have hdot : ∀ k φ, dot (ctr - p) (dirOf x0 y0 z k φ) ^ 2 = D2 * k ^ 2 := fun k φ => by
    have h1 : dot (ctr - p) (dirOf x0 y0 z k φ) = length (ctr - p) * k := by
      obtain ⟨z1, -, -, zx, zy, -⟩ := f2
      have hzz : dot z z = 1 := by
        have := Real.sq_sqrt (sqLength_nonneg z)
        rw [Geom.length] at z1; rw [z1] at this
        simp only [sqLength] at this; simp only [dot]; linarith
      have h2 : dot (length (ctr - p) * z) (dirOf x0 y0 z k φ) = length (ctr - p) * (Real.cos φ * Real.sqrt (1 - k * k) * dot z x0 + Real.sin φ * Real.sqrt (1 - k * k) * dot z y0 + k * dot z z) := by
        simp only [dirOf, dot, add_x, add_y, add_z, smul_x, smul_y, smul_z]; ring
      rw [n2] at h2
      rw [h2, zx, zy, hzz]; ring
    rw [h1, mul_pow, show length (ctr - p) ^ 2 = sqLength (ctr - p) from Real.sq_sqrt (sqLength_nonneg _), ← sq_comm']
  have inner : ∀ u0 ∈ Set.uIcc (0 : ℝ) 1, (∫ u1 in (0 : ℝ)..1, valOf (sphereEstimate emit s o2w w2o isect unocc T b p pEps wo n uCom v0 v1 vCom u0 u1) c) =
      (2 * Real.pi)⁻¹ * (MC.conePdf ct)⁻¹ * (Set.Ioi r').indicator G ((1 - ct) * u0 + ct) := by
    intro u0 hu
    rw [Set.uIcc_of_le zero_le_one] at hu
    have hk : 0 ≤ (1 - ct) * u0 + ct := by nlinarith [hu.1]
    have hcond : (1 / 400000 < s.radius ^ 2 - (D2 - D2 * ((1 - ct) * u0 + ct) ^ 2)) ↔ r' < (1 - ct) * u0 + ct := by
      generalize (1 - ct) * u0 + ct = k at *
      rw [← sq_lt_sq₀ hr'0 hk, ← mul_lt_mul_iff_left₀ (b := r' ^ 2) hD, hr'sq]
      constructor <;> intro h <;> linarith
    have h1 : ∀ u1, valOf (sphereEstimate emit s o2w w2o isect unocc T b p pEps wo n uCom v0 v1 vCom u0 u1) c =
        (fun φ => if r' < (1 - ct) * u0 + ct then (MC.conePdf ct)⁻¹ * H (dirOf x0 y0 z ((1 - ct) * u0 + ct) φ) else 0) (2 * Real.pi * u1) := fun u1 => by
      rw [one_estimate emit hem s hs hR o2w w2o hw ctr hC hc isect unocc T b hh p pEps wo n uCom v0 v1 vCom u0 u1 hu0 hu1 hv0 hv1 hu.1 hu.2 hout hfar _ (sampleDir_eq s ctr p u0 u1) c, hdot, ← hD2]
      simp only [← hctd, hcond]
      split_ifs
      · simp only [hH]; ring
      · rfl
    rw [intervalIntegral.integral_congr (fun u1 _ => h1 u1)]
    rw [intervalIntegral.integral_comp_mul_left (fun φ => if r' < (1 - ct) * u0 + ct then (MC.conePdf ct)⁻¹ * H (dirOf x0 y0 z ((1 - ct) * u0 + ct) φ) else 0) (by positivity : 2 * Real.pi ≠ 0), mul_zero, mul_one, smul_eq_mul]
    by_cases h : r' < (1 - ct) * u0 + ct
    · rw [Set.indicator_of_mem (by exact h)]
      simp only [h, if_true]
      rw [intervalIntegral.integral_const_mul, hG]; ring
    · rw [Set.indicator_of_notMem (by exact h)]
      simp [h]
  rw [intervalIntegral.integral_congr inner, intervalIntegral.integral_const_mul, intervalIntegral.integral_comp_mul_add _ (by linarith : (1 - ct) ≠ 0) ct]
  rw [mul_zero, zero_add, mul_one, sub_add_cancel, smul_eq_mul, intervalIntegral.integral_of_le hct1.le, MeasureTheory.setIntegral_indicator measurableSet_Ioi]
  have hset : Set.Ioc ct 1 ∩ Set.Ioi r' = Set.Ioc r' 1 := by
    ext k; simp only [Set.mem_inter_iff, Set.mem_Ioc, Set.mem_Ioi]
    constructor
    · rintro ⟨⟨-, h⟩, h'⟩; exact ⟨h', h⟩
    · rintro ⟨h, h'⟩; exact ⟨⟨lt_of_le_of_lt hctr h, h'⟩, h⟩
  rw [hset, ← intervalIntegral.integral_of_le hr1, coneIntegral]
  have hcoef : (2 * Real.pi)⁻¹ * (MC.conePdf ct)⁻¹ * (1 - ct)⁻¹ = 1 := by
    rw [MC.conePdf]
    have : 1 - ct ≠ 0 := by linarith
    field_simp
  rw [← mul_assoc, hcoef, one_mul]
  apply intervalIntegral.integral_congr
  intro k _
  exact ring_integral hxy f2 k H

/-! ### A matte surface -/

/-- `Lambertian` (`reflection/bdf/bdf.py:310-338`) with a spectrum of reflectances; sampling and density are those of the base class (`bdf.py:97-126`) -/
noncomputable def lambertS (R : ι → ℝ) : Bdf (ι → ℝ) where
  type := REFLECTION ||| DIFFUSE
  f := fun _ _ c => MC.invPi * R c
  pdf := basePdf
  sample := fun wo u1 u2 => ⟨basePdf wo (baseDir wo u1 u2), some (baseDir wo u1 u2, fun c => MC.invPi * R c)⟩

/-- the `BSDF` of a matte surface (`material/material.py:122-141`) whose shading normal is its geometric normal `n` -/
noncomputable def matteBsdf (R : ι → ℝ) (sn tn n : V3 ℝ) : BSDF (ι → ℝ) := ⟨sn, tn, n, n, [lambertS R]⟩

theorem matte_match (R : ι → ℝ) (sn tn n : V3 ℝ) : matching (matteBsdf R sn tn n) directFlags = [lambertS R] := by
  have : Contained (REFLECTION ||| DIFFUSE) directFlags := by
    intro i hi h
    interval_cases i <;> revert h <;> decide
  simp [matching, matteBsdf, lambertS, this]

theorem matte_f (R : ι → ℝ) (sn tn n wo w : V3 ℝ) (h1 : 0 < dot wo n) (h2 : 0 < dot w n) : (matteBsdf R sn tn n).f wo w directFlags = fun c => MC.invPi * R c := by
  rw [C45_f, matte_match]
  have : ¬ transmits (REFLECTION ||| DIFFUSE) := by unfold transmits; decide
  have h : 0 < dot w (matteBsdf R sn tn n).ng * dot wo (matteBsdf R sn tn n).ng := mul_pos h2 h1
  simp only [gt_iff_lt, h, if_true]
  simp [lambertS, this]

theorem matte_pdf (R : ι → ℝ) (sn tn n wo w : V3 ℝ) (h1 : 0 < dot wo n) (h2 : 0 < dot w n) : (matteBsdf R sn tn n).pdf wo w directFlags = dot w n / Real.pi := by
  rw [C45_pdf, matte_match]
  simp only [List.map_cons, List.map_nil, List.sum_cons, List.sum_nil, List.length_cons, List.length_nil, lambertS, basePdf, BSDF.w2l, matteBsdf, absCosTheta]
  rw [if_pos (mul_pos h1 h2), abs_of_pos h2, MC.invPi]
  simp [div_eq_mul_inv]

theorem matte_hands (R : ι → ℝ) (sn tn n : V3 ℝ) : Hands (matteBsdf R sn tn n) := by
  intro d hd w a c _
  simp only [matteBsdf, List.mem_singleton] at hd
  subst hd; simp [lambertS]

/-- the cosine at the surface of a direction on the ring -/
theorem dot_dirOf (x y z n : V3 ℝ) (c φ : ℝ) : dot (dirOf x y z c φ) n = Real.cos φ * (Real.sqrt (1 - c * c) * dot x n) + Real.sin φ * (Real.sqrt (1 - c * c) * dot y n) + c * dot z n := by
  simp only [dirOf, dot, add_x, add_y, add_z, smul_x, smul_y, smul_z]; ring

theorem ring_cosine (x y z n : V3 ℝ) (c : ℝ) : ∫ φ in (0 : ℝ)..(2 * Real.pi), dot (dirOf x y z c φ) n = 2 * Real.pi * (c * dot z n) := by
  simp only [dot_dirOf]
  have i1 : IntervalIntegrable (fun φ => Real.cos φ * (Real.sqrt (1 - c * c) * dot x n)) MeasureTheory.volume 0 (2 * Real.pi) := (by fun_prop : Continuous _).intervalIntegrable _ _
  have i2 : IntervalIntegrable (fun φ => Real.sin φ * (Real.sqrt (1 - c * c) * dot y n)) MeasureTheory.volume 0 (2 * Real.pi) := (by fun_prop : Continuous _).intervalIntegrable _ _
  rw [intervalIntegral.integral_add (i1.add i2) intervalIntegrable_const, intervalIntegral.integral_add i1 i2, intervalIntegral.integral_mul_const, intervalIntegral.integral_mul_const, integral_cos, integral_sin, intervalIntegral.integral_const]
  simp

/-- **C172** the irradiance factor of a sphere which is wholly above the surface: the integral of the cosine over the directions in which it is seen -/
theorem C172_irradiance (x y z n : V3 ℝ) (R2 D2 : ℝ) (hD : 0 < D2) (h1 : R2 ≤ D2) : coneIntegral x y z (rim R2 D2) (fun w => dot w n) = Real.pi * dot z n * R2 / D2 := by
  unfold coneIntegral
  simp only [ring_cosine]
  rw [intervalIntegral.integral_const_mul, intervalIntegral.integral_mul_const, integral_id]
  have hnn : 0 ≤ 1 - R2 / D2 := by rw [sub_nonneg, div_le_one hD]; exact h1
  rw [rim, Real.sq_sqrt hnn]
  field_simp; ring

theorem weight_bound (m q : ℝ) (h0 : 0 ≤ q) (h1 : q ≤ 1) : (1 - m ^ 2) * (1 + (m * q) ^ 2) ≤ 1 := by
  have : q ^ 2 ≤ 1 := by nlinarith
  have h2 := mul_nonneg (sq_nonneg m) (sub_nonneg.2 this)
  have h3 := mul_nonneg (sq_nonneg m) (sq_nonneg (m * q))
  nlinarith

theorem continuous_dot_dirOf (x y z n : V3 ℝ) : Continuous fun q : ℝ × ℝ => dot (dirOf x y z q.1 q.2) n := by
  simp only [dot_dirOf]
  fun_prop

/-- **C172** a matte surface under a spherical light which is wholly above it and which nothing hides: the mean of the estimates against the exact value `E = R L cos α r²/D²`.
It never exceeds `E (1 - 1/(400000 r²))`, and falls short of that by no more than the fraction `4 (1 - cos β)²`, where `β` is half the angle under which the light is seen.  Missing: equality with `E`, see `C172_matte_false`. -/
theorem C172_matte_partial (emit R : ι → ℝ) (hem : ¬ Black emit) (hRb : ¬ Black fun c => MC.invPi * R c) (s : Sphere) (hs : s.Whole) (hR : 1 / 400000 < s.radius ^ 2) (o2w w2o : Transform ℝ) (hw : Rigid w2o) (ctr : V3 ℝ)
    (hC : o2w.pt 0 = ctr) (hc : w2o.pt ctr = 0) (isect : Shape.Ray ℝ → Option (ℝ × V3 ℝ)) (sn tn n : V3 ℝ) (hn : length n = 1) (p : V3 ℝ) (pEps : ℝ) (wo : V3 ℝ) (hwo : 0 < dot wo n) (uCom v0 v1 vCom : ℝ)
    (hu0 : 0 < uCom) (hu1 : uCom ≤ 1) (hv0 : 0 ≤ vCom) (hv1 : vCom < 1) (hout : s.radius ^ 2 + 1 / 100000 ≤ sqLength (p - ctr)) (hfar : s.radius + 1 / 100000 ≤ length (p - ctr)) (habove : s.radius < dot (ctr - p) n)
    (c : ι) (hR0 : 0 ≤ R c) (he0 : 0 ≤ emit c) (E mean : ℝ) (hE : E = R c * emit c * dot (Geom.normalize (ctr - p)) n * s.radius ^ 2 / sqLength (p - ctr))
    (hmean : mean = ∫ u0 in (0 : ℝ)..1, ∫ u1 in (0 : ℝ)..1, valOf (sphereEstimate emit s o2w w2o isect (fun _ => true) (fun _ _ => 1) (matteBsdf R sn tn n) p pEps wo n uCom v0 v1 vCom u0 u1) c) :
    mean ≤ E * (1 - 1 / (400000 * s.radius ^ 2)) ∧ E * (1 - 1 / (400000 * s.radius ^ 2)) * (1 - 4 * (1 - rim (s.radius ^ 2) (sqLength (p - ctr))) ^ 2) ≤ mean := by
  have hr0 := hs.1
  have hD : 0 < sqLength (p - ctr) := by nlinarith
  have hL : 0 < sqLength (ctr - p) := by rw [sq_comm']; exact hD
  have hne : ctr - p ≠ 0 := fun h => by rw [h] at hL; simp [sqLength] at hL
  obtain ⟨n1, n2, n3⟩ := (C06_normalize _).1 hne
  obtain ⟨f1, f2, -⟩ := C05_frame_orthonormal _ n1
  rw [f1] at f2
  rw [C172_mean_partial emit hem s hs hR o2w w2o hw ctr hC hc isect _ _ _ (matte_hands R sn tn n) p pEps wo n uCom v0 v1 vCom hu0 hu1 hv0 hv1 hout hfar _ _ f2 c] at hmean
  have hexp := fun v => expand f2 v
  generalize (coordinateSystem (Geom.normalize (ctr - p))).2.1 = x at *
  generalize (coordinateSystem (Geom.normalize (ctr - p))).2.2 = y at *
  generalize hz : Geom.normalize (ctr - p) = z at *
  generalize hD2 : sqLength (p - ctr) = D2 at *
  have hpi := Real.pi_pos
  have one : ∀ a : V3 ℝ, length a = 1 → dot a a = 1 := fun a ha => by
    have := Real.sq_sqrt (sqLength_nonneg a)
    rw [Geom.length] at ha; rw [ha] at this
    simp only [sqLength] at this; simp only [dot]; linarith
  obtain ⟨z1, x1, y1, zx, zy, xy⟩ := f2
  have hlen2 : length (ctr - p) ^ 2 = D2 := by rw [← hD2, sq_comm']; exact Real.sq_sqrt (sqLength_nonneg _)
  set r' := rim (s.radius ^ 2 - 1 / 400000) D2 with hr'
  set ct := rim (s.radius ^ 2) D2 with hct
  have hr'0 : 0 ≤ r' := Real.sqrt_nonneg _
  have hr'sq : r' ^ 2 * D2 = D2 - (s.radius ^ 2 - 1 / 400000) := by
    have hnn : 0 ≤ 1 - (s.radius ^ 2 - 1 / 400000) / D2 := by
      rw [sub_nonneg, div_le_one hD]; linarith
    rw [hr', rim, Real.sq_sqrt hnn]; field_simp
  have hr1 : r' ≤ 1 := by
    rw [hr', rim, Real.sqrt_le_iff]
    have : 0 ≤ (s.radius ^ 2 - 1 / 400000) / D2 := div_nonneg (by linarith) hD.le
    exact ⟨zero_le_one, by rw [one_pow]; linarith⟩
  have hct0 : 0 ≤ ct := Real.sqrt_nonneg _
  have hct1 : ct < 1 := by
    rw [hct, rim, Real.sqrt_lt' one_pos]
    have : 0 < s.radius ^ 2 / D2 := by positivity
    linarith
  -- the directions on the cone
  have unit : ∀ k φ, k ∈ Set.Icc r' 1 → sqLength (dirOf x y z k φ) = 1 := by
    intro k φ hk
    have h1 : 0 ≤ 1 - k * k := by nlinarith [hk.1, hk.2]
    have e : sqLength (dirOf x y z k φ) = Real.sqrt (1 - k * k) ^ 2 * (Real.cos φ ^ 2 * dot x x + Real.sin φ ^ 2 * dot y y + 2 * Real.cos φ * Real.sin φ * dot x y) +
        2 * k * Real.sqrt (1 - k * k) * (Real.cos φ * dot z x + Real.sin φ * dot z y) + k ^ 2 * dot z z := by
      simp only [sqLength, dirOf, dot, add_x, add_y, add_z, smul_x, smul_y, smul_z]; ring
    rw [e, one _ z1, one _ x1, one _ y1, zx, zy, xy, Real.sq_sqrt h1]
    linear_combination (1 - k * k) * Real.sin_sq_add_cos_sq φ
  have hdot : ∀ k φ, dot (ctr - p) (dirOf x y z k φ) = length (ctr - p) * k := fun k φ => by
    have h2 : dot (length (ctr - p) * z) (dirOf x y z k φ) = length (ctr - p) * (Real.cos φ * Real.sqrt (1 - k * k) * dot z x + Real.sin φ * Real.sqrt (1 - k * k) * dot z y + k * dot z z) := by
      simp only [dirOf, dot, add_x, add_y, add_z, smul_x, smul_y, smul_z]; ring
    rw [n2] at h2
    rw [h2, zx, zy, one _ z1]; ring
  have pos : ∀ k φ, k ∈ Set.Icc r' 1 → 0 < dot (dirOf x y z k φ) n ∧ dot (dirOf x y z k φ) n ≤ 1 := by
    intro k φ hk
    have hu := unit k φ hk
    have hk2 : r' ^ 2 ≤ k ^ 2 := pow_le_pow_left₀ hr'0 hk.1 2
    constructor
    · obtain ⟨t, ht, e1, e2, -⟩ := C172_near_point s.radius ctr p (dirOf x y z k φ) hu (by rw [hD2]; linarith) (by rw [hdot]; exact mul_nonneg n3.le (hr'0.trans hk.1))
        (by rw [hdot, mul_pow, hlen2, hD2]; nlinarith)
      rw [e1] at e2
      have h3 : |dot (p + t * dirOf x y z k φ - ctr) n| ≤ length (p + t * dirOf x y z k φ - ctr) * length n := (C06_abs_dot (p + t * dirOf x y z k φ - ctr) n).2.2
      rw [hn, mul_one, Geom.length, e2, Real.sqrt_sq hr0.le] at h3
      have h4 := (abs_le.1 h3).1
      have h5 : dot (p + t * dirOf x y z k φ - ctr) n = t * dot (dirOf x y z k φ) n - dot (ctr - p) n := by
        simp only [dot, add_x, add_y, add_z, sub_x, sub_y, sub_z, smul_x, smul_y, smul_z]; ring
      rw [h5] at h4
      exact pos_of_mul_pos_right (a := t) (by linarith) ht.le
    · have h3 : |dot (dirOf x y z k φ) n| ≤ length (dirOf x y z k φ) * length n := (C06_abs_dot (dirOf x y z k φ) n).2.2
      rw [hn, mul_one, Geom.length, hu, Real.sqrt_one] at h3
      exact (abs_le.1 h3).2
  -- the integrand
  set A := MC.invPi * R c * emit c with hA
  have hA0 : 0 ≤ A := by rw [hA, MC.invPi]; positivity
  set m := 2 * (1 - ct) with hm
  have val : ∀ k φ, k ∈ Set.Icc r' 1 → misWeight (MC.conePdf ct) ((matteBsdf R sn tn n).pdf wo (dirOf x y z k φ) directFlags) *
      reflected emit s.radius ctr (fun _ => true) (fun _ _ => 1) (matteBsdf R sn tn n) p pEps wo n c (dirOf x y z k φ) = A * dot (dirOf x y z k φ) n / (1 + (m * dot (dirOf x y z k φ) n) ^ 2) := by
    intro k φ hk
    obtain ⟨q0, -⟩ := pos k φ hk
    rw [reflected, matte_f R sn tn n wo _ hwo q0, matte_pdf R sn tn n wo _ hwo q0, if_pos ⟨rfl, hRb⟩, abs_of_pos q0, misWeight, MC.conePdf]
    have : 0 < 1 - ct := by linarith
    generalize dot (dirOf x y z k φ) n = q at *
    rw [hA, hm]
    field_simp
  have hmean' : mean = ∫ k in r'..1, ∫ φ in (0 : ℝ)..(2 * Real.pi), A * dot (dirOf x y z k φ) n / (1 + (m * dot (dirOf x y z k φ) n) ^ 2) := by
    rw [hmean, coneIntegral]
    apply intervalIntegral.integral_congr
    intro k hk
    rw [Set.uIcc_of_le hr1] at hk
    apply intervalIntegral.integral_congr
    intro φ _
    exact val k φ hk
  have cq := continuous_dot_dirOf x y z n
  have hden : ∀ q : ℝ, 0 < 1 + (m * q) ^ 2 := fun q => by positivity
  have cF : Continuous fun q : ℝ × ℝ => A * dot (dirOf x y z q.1 q.2) n / (1 + (m * dot (dirOf x y z q.1 q.2) n) ^ 2) :=
    (continuous_const.mul cq).div (continuous_const.add ((continuous_const.mul cq).pow 2)) fun q => (hden _).ne'
  have cG : ∀ B : ℝ, Continuous fun q : ℝ × ℝ => B * dot (dirOf x y z q.1 q.2) n := fun B => continuous_const.mul cq
  have inner : ∀ F : ℝ × ℝ → ℝ, Continuous F → (∀ k, IntervalIntegrable (fun φ => F (k, φ)) MeasureTheory.volume 0 (2 * Real.pi)) ∧
      IntervalIntegrable (fun k => ∫ φ in (0 : ℝ)..(2 * Real.pi), F (k, φ)) MeasureTheory.volume r' 1 := fun F hF =>
    ⟨fun k => (hF.comp (by fun_prop : Continuous fun φ : ℝ => (k, φ))).intervalIntegrable _ _,
      (intervalIntegral.continuous_parametric_intervalIntegral_of_continuous' (f := fun k φ => F (k, φ)) hF 0 (2 * Real.pi)).intervalIntegrable _ _⟩
  obtain ⟨iF1, iF2⟩ := inner _ cF
  have total : ∀ B : ℝ, ∫ k in r'..1, ∫ φ in (0 : ℝ)..(2 * Real.pi), B * dot (dirOf x y z k φ) n = B * (Real.pi * dot z n * (s.radius ^ 2 - 1 / 400000) / D2) := fun B => by
    have := C172_irradiance x y z n (s.radius ^ 2 - 1 / 400000) D2 hD (by linarith)
    rw [← this, coneIntegral]
    simp only [intervalIntegral.integral_const_mul]
    rw [← hr']
  have hEK : E * (1 - 1 / (400000 * s.radius ^ 2)) = A * (Real.pi * dot z n * (s.radius ^ 2 - 1 / 400000) / D2) := by
    rw [hE, hA, MC.invPi]; field_simp
  rw [hEK]
  constructor
  · rw [hmean', ← total A]
    obtain ⟨iG1, iG2⟩ := inner _ (cG A)
    apply intervalIntegral.integral_mono_on hr1 iF2 iG2
    intro k hk
    apply intervalIntegral.integral_mono_on (by positivity) (iF1 k) (iG1 k)
    intro φ _
    obtain ⟨q0, -⟩ := pos k φ hk
    generalize dot (dirOf x y z k φ) n = q at *
    rw [div_le_iff₀ (hden q)]
    exact le_mul_of_one_le_right (mul_nonneg hA0 q0.le) (le_add_of_nonneg_right (sq_nonneg _))
  · rw [hmean', mul_comm _ (1 - 4 * (1 - ct) ^ 2), ← mul_assoc, ← total]
    obtain ⟨iG1, iG2⟩ := inner _ (cG ((1 - 4 * (1 - ct) ^ 2) * A))
    apply intervalIntegral.integral_mono_on hr1 iG2 iF2
    intro k hk
    apply intervalIntegral.integral_mono_on (by positivity) (iG1 k) (iF1 k)
    intro φ _
    obtain ⟨q0, q1⟩ := pos k φ hk
    have hm2 : 4 * (1 - ct) ^ 2 = m ^ 2 := by rw [hm]; ring
    rw [hm2]
    generalize dot (dirOf x y z k φ) n = q at *
    rw [le_div_iff₀ (hden q)]
    have h1 := weight_bound m q q0.le q1
    have h2 := mul_le_mul_of_nonneg_left h1 (mul_nonneg hA0 q0.le)
    linarith only [h2]

/-- **C172 fails** for every such surface and light: wherever the light's contribution is not zero, the mean is below the exact value -/
theorem C172_matte_false (emit R : ι → ℝ) (hem : ¬ Black emit) (hRb : ¬ Black fun c => MC.invPi * R c) (s : Sphere) (hs : s.Whole) (hR : 1 / 400000 < s.radius ^ 2) (o2w w2o : Transform ℝ) (hw : Rigid w2o) (ctr : V3 ℝ)
    (hC : o2w.pt 0 = ctr) (hc : w2o.pt ctr = 0) (isect : Shape.Ray ℝ → Option (ℝ × V3 ℝ)) (sn tn n : V3 ℝ) (hn : length n = 1) (p : V3 ℝ) (pEps : ℝ) (wo : V3 ℝ) (hwo : 0 < dot wo n) (uCom v0 v1 vCom : ℝ)
    (hu0 : 0 < uCom) (hu1 : uCom ≤ 1) (hv0 : 0 ≤ vCom) (hv1 : vCom < 1) (hout : s.radius ^ 2 + 1 / 100000 ≤ sqLength (p - ctr)) (hfar : s.radius + 1 / 100000 ≤ length (p - ctr)) (habove : s.radius < dot (ctr - p) n)
    (c : ι) (hR0 : 0 < R c) (he0 : 0 < emit c) (x y : V3 ℝ) :
    ∫ u0 in (0 : ℝ)..1, ∫ u1 in (0 : ℝ)..1, valOf (sphereEstimate emit s o2w w2o isect (fun _ => true) (fun _ _ => 1) (matteBsdf R sn tn n) p pEps wo n uCom v0 v1 vCom u0 u1) c <
      coneIntegral x y (Geom.normalize (ctr - p)) (rim (s.radius ^ 2) (sqLength (p - ctr))) fun w => R c / Real.pi * emit c * dot w n := by
  have hr0 := hs.1
  have hD : 0 < sqLength (p - ctr) := by nlinarith
  have hL : 0 < sqLength (ctr - p) := by rw [sq_comm']; exact hD
  have hne : ctr - p ≠ 0 := fun h => by rw [h] at hL; simp [sqLength] at hL
  obtain ⟨n1, n2, n3⟩ := (C06_normalize _).1 hne
  have hpi := Real.pi_pos
  have hex : coneIntegral x y (Geom.normalize (ctr - p)) (rim (s.radius ^ 2) (sqLength (p - ctr))) (fun w => R c / Real.pi * emit c * dot w n) =
      R c * emit c * dot (Geom.normalize (ctr - p)) n * s.radius ^ 2 / sqLength (p - ctr) := by
    have h := C172_irradiance x y (Geom.normalize (ctr - p)) n (s.radius ^ 2) _ hD (by linarith)
    rw [coneIntegral] at h ⊢
    simp only [intervalIntegral.integral_const_mul]
    rw [h]; field_simp
  rw [hex]
  obtain ⟨h, -⟩ := C172_matte_partial emit R hem hRb s hs hR o2w w2o hw ctr hC hc isect sn tn n hn p pEps wo hwo uCom v0 v1 vCom hu0 hu1 hv0 hv1 hout hfar habove c hR0.le he0.le _ _ rfl rfl
  refine lt_of_le_of_lt h ?_
  have hzn : 0 < dot (Geom.normalize (ctr - p)) n := by
    have h2 : dot (length (ctr - p) * Geom.normalize (ctr - p)) n = length (ctr - p) * dot (Geom.normalize (ctr - p)) n := by simp only [dot, smul_x, smul_y, smul_z]; ring
    rw [n2] at h2
    exact pos_of_mul_pos_right (a := length (ctr - p)) (by linarith) n3.le
  have hE : 0 < R c * emit c * dot (Geom.normalize (ctr - p)) n * s.radius ^ 2 / sqLength (p - ctr) := by positivity
  have : 0 < 1 / (400000 * s.radius ^ 2) := by positivity
  nlinarith [mul_pos hE this]

/-- the unit sphere three above a table: the hypotheses hold -/
example (v0 v1 x y) : ∫ u0 in (0 : ℝ)..1, ∫ u1 in (0 : ℝ)..1, valOf (sphereEstimate (fun _ : Unit => 2) Shape.unitSphere ident ident (fun _ => none) (fun _ => true) (fun _ _ => 1)
      (matteBsdf (fun _ => 1 / 2) ⟨1, 0, 0⟩ ⟨0, 1, 0⟩ ⟨0, 0, 1⟩) ⟨0, 0, -3⟩ 0 ⟨0, 0, 1⟩ ⟨0, 0, 1⟩ 1 v0 v1 0 u0 u1) () <
    coneIntegral x y (Geom.normalize (0 - ⟨0, 0, -3⟩)) (rim (Shape.unitSphere.radius ^ 2) (sqLength ((⟨0, 0, -3⟩ : V3 ℝ) - 0))) fun w => 1 / 2 / Real.pi * 2 * dot w ⟨0, 0, 1⟩ := by
  have hl : length ((⟨0, 0, -3⟩ : V3 ℝ) - 0) = 3 := by
    rw [Geom.length, show sqLength ((⟨0, 0, -3⟩ : V3 ℝ) - 0) = 3 ^ 2 by norm_num [sqLength]]
    exact Real.sqrt_sq (by norm_num)
  have hb : ¬ Black fun _ : Unit => MC.invPi * (1 / 2) := fun h => by
    have := h ()
    have hp := Real.pi_le_four
    have hp0 := Real.pi_pos
    have h8 : (1 : ℝ) / 8 ≤ MC.invPi * (1 / 2) := by
      rw [MC.invPi, div_mul_div_comm, one_mul]
      exact one_div_le_one_div_of_le (by positivity) (by linarith)
    rw [abs_of_nonneg (by linarith)] at this
    norm_num [eps] at this
    linarith
  exact C172_matte_false (fun _ : Unit => 2) (fun _ => 1 / 2) (fun h => by have := h (); norm_num [eps] at this) hb Shape.unitSphere Shape.unitSphere_whole (by norm_num [Shape.unitSphere]) ident ident Shape.rigid_ident 0
    (by rw [Shape.ident_pt]) (by rw [Shape.ident_pt]) (fun _ => none) _ _ ⟨0, 0, 1⟩ (by norm_num [Geom.length, sqLength]) ⟨0, 0, -3⟩ 0 ⟨0, 0, 1⟩ (by norm_num [dot]) 1 v0 v1 0 (by norm_num) le_rfl le_rfl (by norm_num)
    (by norm_num [sqLength, Shape.unitSphere]) (by rw [hl]; norm_num [Shape.unitSphere]) (by norm_num [dot, Shape.unitSphere]) () (by norm_num) (by norm_num) x y

end
end Verif.Integrator
