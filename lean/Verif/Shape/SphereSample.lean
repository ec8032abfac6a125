import Verif.Shape.SphereGeo
/-!
# Sphere: sampling the part seen from a point (C140), density of sampled points over directions (C141)

Models `Sphere.sample_p` and `Sphere.pdf_p` (`pytracer/shape/sphere.py:78-123`) and `Shape.pdf_p` (`pytracer/shape/__init__.py:122-140`).  Real arithmetic.
-/
namespace Verif.Shape
open V3 Xform Verif.Geom

/-- `Sphere.sample` (`sphere.py:43-60`): the point in world space and the normal -/
noncomputable def Sphere.sample (s : Sphere) (o2w : Transform ℝ) (ro : Bool) (u1 u2 : ℝ) : V3 ℝ × V3 ℝ :=
  let p := s.sampleObj u1 u2
  let n := Geom.normalize (o2w.nrm p)
  (o2w.pt p, if ro then (-1 : ℝ) * n else n)

/-- the cosine of the half-angle of the cone under which the sphere is seen (`sphere.py:94-95`, `119-120`); `pnt.sq_dist(ctr)` is the square of the distance -/
noncomputable def Sphere.ctMax (s : Sphere) (ctr pnt : V3 ℝ) : ℝ :=
  Real.sqrt (max 0 (1 - s.radius * s.radius / sqLength (pnt - ctr)))

/-- the direction chosen by `sample_p` (`sphere.py:85-87`, `94-98`); `uniform_sample_cone` gets a frame, so that it does not raise (C67) -/
noncomputable def Sphere.sampleDir (s : Sphere) (ctr pnt : V3 ℝ) (u1 u2 : ℝ) : V3 ℝ :=
  let wc := Geom.normalize (ctr - pnt)
  let f := coordinateSystem wc
  (MC.cone u1 u2 (s.ctMax ctr pnt) (some (f.2.1, f.2.2, wc))).getD 0

/-- `Sphere.sample_p` (`sphere.py:78-110`) -/
noncomputable def Sphere.sampleP (s : Sphere) (o2w w2o : Transform ℝ) (ro : Bool) (pnt : V3 ℝ) (u1 u2 : ℝ) : V3 ℝ × V3 ℝ :=
  let ctr := o2w.pt 0
  if sqLength (pnt - ctr) - s.radius * s.radius < eps then s.sample o2w ro u1 u2 else
  let r : Ray ℝ := ⟨pnt, s.sampleDir ctr pnt u1 u2, eps, ⊤⟩
  let thit := match s.hit w2o r with
    | some (t, _, _) => t
    | none => dot (ctr - pnt) (Geom.normalize r.d)
  let ps := r.pos thit
  let ns := Geom.normalize (ps - ctr)
  (ps, if ro then (-1 : ℝ) * ns else ns)

/-- `Shape.pdf_p` (`shape/__init__.py:122-140`) for a shape with the given `area` whose `intersect` returns the parameter and the normal of the hit -/
noncomputable def shapePdfP (isect : Ray ℝ → Option (ℝ × V3 ℝ)) (area : ℝ) (pnt wi : V3 ℝ) : ℝ :=
  let ray : Ray ℝ := ⟨pnt, wi, eps, ⊤⟩
  match isect ray with
  | none => 0
  | some (thit, nn) => sqLength (pnt - ray.pos thit) / (absDot nn (-wi) * area)

/-- `Sphere.pdf_p` (`sphere.py:112-123`); `isect` as in `shapePdfP` -/
noncomputable def Sphere.pdfP (s : Sphere) (o2w : Transform ℝ) (isect : Ray ℝ → Option (ℝ × V3 ℝ)) (pnt wi : V3 ℝ) : ℝ :=
  let ctr := o2w.pt 0
  if sqLength (pnt - ctr) - s.radius * s.radius < eps then shapePdfP isect s.area pnt wi
  else MC.conePdf (s.ctMax ctr pnt)

/-! ### Specification -/

/-- the transformation keeps distances -/
def Rigid (t : Transform ℝ) : Prop := AffineM t.m ∧ ∀ p q, sqLength (t.pt p - t.pt q) = sqLength (p - q)

/-- a whole sphere -/
def Sphere.Whole (s : Sphere) : Prop := 0 < s.radius ∧ s.zmin = -s.radius ∧ s.zmax = s.radius ∧ s.phiMax = 2 * Real.pi

theorem Whole.ok {s : Sphere} (h : s.Whole) : s.Ok :=
  ⟨h.1, h.2.1.ge, h.2.2.1.le, by rw [h.2.2.2]; positivity, h.2.2.2.le⟩

theorem whole_on {s : Sphere} (h : s.Whole) (p : V3 ℝ) : OnSphere s p ↔ sqLength p = s.radius ^ 2 := by
  refine ⟨fun h => h.1, fun hp => ?_⟩
  have hz := abs_le_of_sq_le_sq' (a := p.z) (b := s.radius) (by rw [← hp]; simp only [sqLength]; nlinarith [mul_self_nonneg p.y, mul_self_nonneg p.x]) h.1.le
  refine ⟨hp, by rw [h.2.1]; exact hz.1, by rw [h.2.2.1]; exact hz.2, ?_⟩
  exact (angle_iff (Whole.ok h).phi0 (Whole.ok h).phi1 p).2 (by rw [h.2.2.2]; exact (azimuth_spec p).2.1.le)

theorem vec_eq {t : Transform ℝ} (h : AffineM t.m) (p d : V3 ℝ) : t.pt (p + d) = t.pt p + t.vec d := by
  rw [pt_affine t h, pt_affine t h]
  ext <;> simp [homog, Transform.vec] <;> ring

/-- dot products of vectors, and squared distances from the centre, are the same in world and object space -/
theorem rigid_dot {t : Transform ℝ} (h : Rigid t) {ctr : V3 ℝ} (hc : t.pt ctr = 0) (o d : V3 ℝ) :
    sqLength (t.pt o) = sqLength (o - ctr) ∧ sqLength (t.vec d) = sqLength d ∧ dot (t.vec d) (t.pt o) = dot d (o - ctr) := by
  have h1 : ∀ o, sqLength (t.pt o) = sqLength (o - ctr) := fun o => by
    have := h.2 o ctr
    rw [hc] at this
    rw [← this]; simp [sqLength]
  have h2 : sqLength (t.vec d) = sqLength d := by
    have := h.2 (o + d) o
    rw [vec_eq h.1] at this
    have e1 : t.pt o + t.vec d - t.pt o = t.vec d := by ext <;> simp
    have e2 : o + d - o = d := by ext <;> simp
    rwa [e1, e2] at this
  refine ⟨h1 o, h2, ?_⟩
  have h3 := h1 (o + d)
  rw [vec_eq h.1] at h3
  have h4 := h1 o
  simp only [sqLength, dot, add_x, add_y, add_z, sub_x, sub_y, sub_z] at *
  nlinarith

/-- the geometry of a ray from `pnt` along the unit direction `d`: everything follows from the distance to the centre and the dot product -/
theorem discr_world {s : Sphere} {t : Transform ℝ} (h : Rigid t) {ctr : V3 ℝ} (hc : t.pt ctr = 0) (pnt d : V3 ℝ) (hd : sqLength d = 1) (m : ℝ) :
    s.discr t ⟨pnt, d, m, ⊤⟩ = 4 * (s.radius ^ 2 - (sqLength (ctr - pnt) - dot (ctr - pnt) d ^ 2)) := by
  obtain ⟨h1, h2, h3⟩ := rigid_dot h hc pnt d
  rw [C41_discriminant]
  simp only
  rw [h1, h2, h3, hd]
  simp only [sqLength, dot, sub_x, sub_y, sub_z]
  ring

theorem le_of_sq_le_sq' {a b : ℝ} (h : a ^ 2 ≤ b ^ 2) (hb : 0 ≤ b) : a ≤ b := (abs_le_of_sq_le_sq' h hb).2

theorem dir_spec (s : Sphere) (ctr pnt : V3 ℝ) (u1 u2 : ℝ) (h0 : 0 ≤ u1) (h1 : u1 ≤ 1) (hne : ctr - pnt ≠ 0) (hr : 0 < s.radius) :
    length (s.sampleDir ctr pnt u1 u2) = 1 ∧ s.ctMax ctr pnt ≤ dot (s.sampleDir ctr pnt u1 u2) (Geom.normalize (ctr - pnt)) ∧
    dot (s.sampleDir ctr pnt u1 u2) (Geom.normalize (ctr - pnt)) ≤ 1 ∧
    ∀ c, s.ctMax ctr pnt ≤ c → c ≤ 1 → (dot (s.sampleDir ctr pnt u1 u2) (Geom.normalize (ctr - pnt)) ≤ c ↔
      u1 ≤ MC.capMass (fun _ => MC.conePdf (s.ctMax ctr pnt)) (Real.arccos c) (Real.arccos (s.ctMax ctr pnt))) := by
  obtain ⟨u, -, -⟩ := (C06_normalize _).1 hne
  obtain ⟨f1, ⟨a1, a2, a3, a4, a5, a6⟩, -⟩ := C05_frame_orthonormal _ u
  have hL : 0 < sqLength (pnt - ctr) := by
    rw [show sqLength (pnt - ctr) = sqLength (ctr - pnt) by simp only [sqLength, sub_x, sub_y, sub_z]; ring]
    exact lt_of_le_of_ne (sqLength_nonneg _) fun h => hne ((sqLength_eq_zero _).1 h.symm)
  have hc1 : s.ctMax ctr pnt < 1 := by
    rw [Sphere.ctMax, Real.sqrt_lt' one_pos]
    refine max_lt (by norm_num) ?_
    have : 0 < s.radius * s.radius / sqLength (pnt - ctr) := by positivity
    linarith
  have hc0 : -1 ≤ s.ctMax ctr pnt := le_trans (by norm_num) (Real.sqrt_nonneg _)
  rw [f1] at a4 a5
  have sym : ∀ x y : V3 ℝ, dot x y = dot y x := fun x y => by simp [dot]; ring
  obtain ⟨d, hd, l1, l2, l3, l4⟩ := MC.C67_cone u1 u2 (s.ctMax ctr pnt) h0 h1 hc0 hc1 _ _ _
    (⟨a2, a3, u, a6, by rw [sym]; exact a4, by rw [sym]; exact a5⟩ : Orthonormal3 (coordinateSystem (Geom.normalize (ctr - pnt))).2.1
      (coordinateSystem (Geom.normalize (ctr - pnt))).2.2 (Geom.normalize (ctr - pnt)))
  have e : s.sampleDir ctr pnt u1 u2 = d := by simp only [Sphere.sampleDir, hd, Option.getD_some]
  rw [e]
  exact ⟨l1, l2, l3, l4⟩

/-! ### C140 -/

/-- what a user expects of the point `ps` with normal `ns` sampled on a whole sphere of radius `R` around `ctr` as seen from `pnt`, up to the tolerance of the code: a chord
whose squared length is at most `EPS` is treated as a point of the silhouette -/
structure SampledPoint (R : ℝ) (ctr pnt : V3 ℝ) (ro : Bool) (ps ns : V3 ℝ) : Prop where
  /-- on the sphere, up to the tolerance -/
  on : R ^ 2 - 1 / 400000 ≤ sqLength (ps - ctr) ∧ sqLength (ps - ctr) ≤ R ^ 2
  /-- exactly on the sphere, except on chords shorter than the tolerance -/
  exact : ∀ q, 1 / 400000 < R ^ 2 - sqLength (q - ctr) → (∃ k : ℝ, q = pnt + k * (ps - pnt)) → sqLength (ps - ctr) = R ^ 2
  /-- the normal points away from the centre, or towards it for reversed orientation -/
  normal : ns = (if ro then (-1 : ℝ) else 1) * Geom.normalize (ps - ctr)

/-- the nearer intersection is at least the distance to the sphere -/
theorem near_root {L R B Q : ℝ} (hR : 0 < R) (hRL : R ≤ L) (hBL : B ≤ L) (hB : 0 ≤ B) (h : L ^ 2 - R ^ 2 ≤ B ^ 2) (hQ : Q = R ^ 2 - (L ^ 2 - B ^ 2)) :
    L - R ≤ B - Real.sqrt Q := by
  have h1 : L - R ≤ B := le_of_sq_le_sq' (by nlinarith [mul_nonneg (sub_nonneg.2 hRL) hR.le]) hB
  have : Real.sqrt Q ≤ B - (L - R) := by
    refine Real.sqrt_le_iff.2 ⟨by linarith, ?_⟩
    have := mul_nonneg (sub_nonneg.2 hRL) (sub_nonneg.2 hBL)
    rw [hQ]; linarith
  linarith

/-- main lemma -/
theorem sampleP_core (s : Sphere) (hs : s.Whole) (o2w w2o : Transform ℝ) (hw : Rigid w2o) (hc : w2o.pt (o2w.pt 0) = 0) (ro : Bool) (pnt : V3 ℝ) (u1 u2 : ℝ)
    (h0 : 0 ≤ u1) (h1 : u1 ≤ 1) (hout : s.radius ^ 2 + 1 / 100000 ≤ sqLength (pnt - o2w.pt 0)) :
    ∃ t : ℝ, 1 / 100000 ≤ t ∧ (s.sampleP o2w w2o ro pnt u1 u2).1 = pnt + t * s.sampleDir (o2w.pt 0) pnt u1 u2 ∧
      SampledPoint s.radius (o2w.pt 0) pnt ro (s.sampleP o2w w2o ro pnt u1 u2).1 (s.sampleP o2w w2o ro pnt u1 u2).2 ∧
      (s.radius + 1 / 100000 ≤ length (pnt - o2w.pt 0) → dot ((s.sampleP o2w w2o ro pnt u1 u2).1 - o2w.pt 0) ((s.sampleP o2w w2o ro pnt u1 u2).1 - pnt) ≤ 0) := by
  have hR := hs.1
  generalize hC : o2w.pt 0 = ctr at *
  have hsym : sqLength (pnt - ctr) = sqLength (ctr - pnt) := by simp only [sqLength, sub_x, sub_y, sub_z]; ring
  have hin : ¬ sqLength (pnt - ctr) - s.radius * s.radius < eps := by unfold eps; push Not; nlinarith
  have hL : 0 < sqLength (ctr - pnt) := by rw [← hsym]; nlinarith [sq_nonneg s.radius]
  have hne : ctr - pnt ≠ 0 := fun h => by rw [h] at hL; simp [sqLength] at hL
  obtain ⟨d1, d2, d3, -⟩ := dir_spec s ctr pnt u1 u2 h0 h1 hne hR
  obtain ⟨-, n2, n3⟩ := (C06_normalize _).1 hne
  have hlen : length (ctr - pnt) ^ 2 = sqLength (ctr - pnt) := Real.sq_sqrt (sqLength_nonneg _)
  have hd1 : sqLength (s.sampleDir ctr pnt u1 u2) = 1 := by
    have := Real.sq_sqrt (sqLength_nonneg (s.sampleDir ctr pnt u1 u2))
    rw [Geom.length] at d1; rw [d1] at this; linarith
  have hnd : Geom.normalize (s.sampleDir ctr pnt u1 u2) = s.sampleDir ctr pnt u1 u2 := by
    have hz : s.sampleDir ctr pnt u1 u2 ≠ 0 := fun h => by rw [h] at hd1; simp [sqLength] at hd1
    obtain ⟨-, k2, -⟩ := (C06_normalize _).1 hz
    rw [d1] at k2
    conv_rhs => rw [← k2]
    ext <;> simp
  simp only [Sphere.sampleP, hC, hin, if_false, hnd]
  generalize hd : s.sampleDir ctr pnt u1 u2 = d at *
  have hdot : dot (ctr - pnt) d = length (ctr - pnt) * dot d (Geom.normalize (ctr - pnt)) := by
    conv_lhs => rw [← n2]
    simp only [dot, smul_x, smul_y, smul_z]; ring
  have hct : s.ctMax ctr pnt ^ 2 * sqLength (ctr - pnt) = sqLength (ctr - pnt) - s.radius ^ 2 := by
    have hnn : 0 ≤ 1 - s.radius * s.radius / sqLength (pnt - ctr) := by
      rw [sub_nonneg, div_le_one (by rw [hsym]; exact hL)]; nlinarith
    rw [Sphere.ctMax, Real.sq_sqrt (le_max_left _ _), max_eq_right hnn, hsym]
    field_simp
  have hc0 : 0 ≤ s.ctMax ctr pnt := Real.sqrt_nonneg _
  generalize hB : dot (ctr - pnt) d = B at *
  have hBpos : 0 ≤ B := by rw [hdot]; exact mul_nonneg n3.le (hc0.trans d2)
  have hB2 : sqLength (ctr - pnt) - s.radius ^ 2 ≤ B ^ 2 := by
    rw [← hct, hdot, mul_pow, hlen, mul_comm]
    exact mul_le_mul_of_nonneg_left (pow_le_pow_left₀ hc0 d2 2) hL.le
  have hBtol : 1 / 100000 ≤ B ^ 2 := by linarith
  have hBeps : 1 / 100000 ≤ B := by
    by_contra h
    push Not at h
    have : B ^ 2 < 1 / 100000 := by nlinarith
    linarith
  -- points of the ray
  have hpos : ∀ t : ℝ, (⟨pnt, d, eps, ⊤⟩ : Ray ℝ).pos t = pnt + t * d := fun t => by ext <;> simp [Ray.pos, rayAt] <;> ring
  have hsq : ∀ t : ℝ, sqLength (pnt + t * d - ctr) = sqLength (ctr - pnt) - 2 * t * B + t ^ 2 := fun t => by
    rw [← hB]
    have : sqLength (pnt + t * d - ctr) = sqLength (ctr - pnt) - 2 * t * dot (ctr - pnt) d + t ^ 2 * sqLength d := by
      simp only [sqLength, dot, add_x, add_y, add_z, sub_x, sub_y, sub_z, smul_x, smul_y, smul_z]; ring
    rw [this, hd1]; ring
  have hwp : ∀ t : ℝ, sqLength (w2o.pt (pnt + t * d)) = sqLength (pnt + t * d - ctr) := fun t => (rigid_dot hw hc (pnt + t * d) d).1
  have hdisc : s.discr w2o ⟨pnt, d, eps, ⊤⟩ = 4 * (s.radius ^ 2 - (sqLength (ctr - pnt) - B ^ 2)) := by
    rw [discr_world hw hc pnt d hd1, hB]
  have hmem : ∀ t, t ∈ s.hits w2o ⟨pnt, d, eps, ⊤⟩ ↔ 1 / 100000 ≤ t ∧ (t - B) ^ 2 = s.radius ^ 2 - (sqLength (ctr - pnt) - B ^ 2) := by
    intro t
    simp only [Sphere.hits, Set.mem_ofPred_eq, whole_on hs, hpos, hwp, hsq, le_top, true_and]
    have he : (eps : ℝ) = 1 / 100000 := rfl
    rw [he]
    constructor
    · rintro ⟨a, b⟩; exact ⟨a, by linarith⟩
    · rintro ⟨a, b⟩; exact ⟨a, by linarith⟩
  generalize hq : s.radius ^ 2 - (sqLength (ctr - pnt) - B ^ 2) = Q at *
  have hQ0 : 0 ≤ Q := by linarith
  have hsqQ : Real.sqrt Q ^ 2 = Q := Real.sq_sqrt hQ0
  have hQn : 0 ≤ Real.sqrt Q := Real.sqrt_nonneg Q
  have hfar : B + Real.sqrt Q ∈ s.hits w2o ⟨pnt, d, eps, ⊤⟩ := by
    rw [hmem]; exact ⟨by linarith, by rw [add_sub_cancel_left]; exact hsqQ⟩
  have hnormal : ∀ n : V3 ℝ, (if ro then (-1 : ℝ) * n else n) = (if ro then (-1 : ℝ) else 1) * n := fun n => by
    split_ifs
    · rfl
    · ext <;> simp
  have hface : ∀ t : ℝ, dot (pnt + t * d - ctr) (pnt + t * d - pnt) = t * (t - B) := fun t => by
    rw [← hB]
    have : dot (pnt + t * d - ctr) (pnt + t * d - pnt) = t * (t * sqLength d - dot (ctr - pnt) d) := by
      simp only [sqLength, dot, add_x, add_y, add_z, sub_x, sub_y, sub_z, smul_x, smul_y, smul_z]; ring
    rw [this, hd1]; ring
  cases hh : s.hit w2o ⟨pnt, d, eps, ⊤⟩ with
  | some x =>
    obtain ⟨t, p, phi⟩ := x
    obtain ⟨⟨hm, hleast⟩, -⟩ := C41_hit s (Whole.ok hs) w2o hw.1 _ t phi p hh
    obtain ⟨ht, hroot⟩ := (hmem t).1 hm
    have hon : sqLength (pnt + t * d - ctr) = s.radius ^ 2 := by rw [hsq]; nlinarith
    simp only [hpos]
    refine ⟨t, ht, rfl, ⟨⟨by rw [hon]; linarith, hon.le⟩, fun _ _ _ => hon, hnormal _⟩, fun hfar' => ?_⟩
    rw [hface]
    have ht0 : 0 ≤ t := by linarith
    have : t ≤ B := by
      by_contra hlt
      push Not at hlt
      have hnear : B - Real.sqrt Q ∈ s.hits w2o ⟨pnt, d, eps, ⊤⟩ := by
        rw [hmem]
        refine ⟨?_, by rw [sub_sub_cancel_left, neg_sq]; exact hsqQ⟩
        -- distance from `pnt` to any point of the sphere is at least L - R
        have hLR : s.radius + 1 / 100000 ≤ length (ctr - pnt) := by
          have : length (pnt - ctr) = length (ctr - pnt) := by rw [Geom.length, hsym, ← Geom.length]
          rw [← this]; exact hfar'
        have hBL : B ≤ length (ctr - pnt) := by rw [hdot]; nlinarith
        have e1 : (length (ctr - pnt) - s.radius) ≤ B - Real.sqrt Q := near_root hR (by linarith) hBL hBpos (by rw [hlen]; linarith) (by rw [hlen]; exact hq.symm)
        linarith
      have := hleast hnear
      have : t - B ≤ -Real.sqrt Q := by linarith
      linarith
    exact mul_nonpos_of_nonneg_of_nonpos ht0 (sub_nonpos.2 this)
  | none =>
    have hsmall : Q ≤ 1 / 400000 := by
      rcases C41_miss s (Whole.ok hs) w2o hw.1 _ hh with h | h
      · rw [h] at hfar; exact absurd hfar (Set.notMem_empty _)
      · rw [hdisc] at h; linarith
    simp only [hB, hpos]
    have hon : sqLength (pnt + B * d - ctr) = s.radius ^ 2 - Q := by rw [hsq, ← hq]; ring
    refine ⟨B, hBeps, rfl, ⟨⟨by rw [hon]; linarith, by rw [hon]; linarith⟩, ?_, hnormal _⟩, fun _ => ?_⟩
    · rintro q hq1 ⟨k, rfl⟩
      have : pnt + k * (pnt + B * d - pnt) = pnt + (k * B) * d := by ext <;> simp <;> ring
      rw [this, hsq] at hq1
      have h2 : 1 / 400000 < Q - (k * B - B) ^ 2 := by
        have e : s.radius ^ 2 - (sqLength (ctr - pnt) - 2 * (k * B) * B + (k * B) ^ 2) = Q - (k * B - B) ^ 2 := by rw [← hq]; ring
        rwa [e] at hq1
      exact absurd (hsmall.trans_lt h2) (not_lt.2 (sub_le_self _ (sq_nonneg _)))
    · rw [hface, sub_self, mul_zero]

/-- **C140 (part)** sampling a whole sphere (placed by a rigid transformation) from a point outside: the sampled point lies in front of `pnt` in the sampled direction, on the sphere
with the outward normal, and it is turned towards `pnt`; the direction is a unit vector in the cone of directions towards the sphere, and its angle with the axis follows the
density reported by `pdf_p`.  Missing: points nearer to the sphere than `EPS` (`C140_visible_false`), scaled spheres (`C140_scaled_false`). -/
theorem C140_sample_partial (s : Sphere) (hs : s.Whole) (o2w w2o : Transform ℝ) (hw : Rigid w2o) (hc : w2o.pt (o2w.pt 0) = 0) (ro : Bool)
    (isect : Ray ℝ → Option (ℝ × V3 ℝ)) (pnt : V3 ℝ) (u1 u2 : ℝ)
    (h0 : 0 ≤ u1) (h1 : u1 ≤ 1) (hout : s.radius ^ 2 + 1 / 100000 ≤ sqLength (pnt - o2w.pt 0)) (hfar : s.radius + 1 / 100000 ≤ length (pnt - o2w.pt 0)) :
    ∃ (t : ℝ) (d : V3 ℝ), 0 < t ∧ length d = 1 ∧ (s.sampleP o2w w2o ro pnt u1 u2).1 = pnt + t * d ∧
      SampledPoint s.radius (o2w.pt 0) pnt ro (s.sampleP o2w w2o ro pnt u1 u2).1 (s.sampleP o2w w2o ro pnt u1 u2).2 ∧
      dot ((s.sampleP o2w w2o ro pnt u1 u2).1 - o2w.pt 0) ((s.sampleP o2w w2o ro pnt u1 u2).1 - pnt) ≤ 0 ∧
      (s.ctMax (o2w.pt 0) pnt ≤ dot d (Geom.normalize (o2w.pt 0 - pnt)) ∧ dot d (Geom.normalize (o2w.pt 0 - pnt)) ≤ 1) ∧
      ∀ c, s.ctMax (o2w.pt 0) pnt ≤ c → c ≤ 1 → (dot d (Geom.normalize (o2w.pt 0 - pnt)) ≤ c ↔
        u1 ≤ MC.capMass (fun _ => s.pdfP o2w isect pnt d) (Real.arccos c) (Real.arccos (s.ctMax (o2w.pt 0) pnt))) := by
  obtain ⟨t, ht, e, sp, hv⟩ := sampleP_core s hs o2w w2o hw hc ro pnt u1 u2 h0 h1 hout
  have hne : o2w.pt 0 - pnt ≠ 0 := by
    intro h
    have : sqLength (pnt - o2w.pt 0) = sqLength (o2w.pt 0 - pnt) := by simp only [sqLength, sub_x, sub_y, sub_z]; ring
    rw [this, h] at hout
    simp [sqLength] at hout
    nlinarith [sq_nonneg s.radius]
  obtain ⟨d1, d2, d3, d4⟩ := dir_spec s (o2w.pt 0) pnt u1 u2 h0 h1 hne hs.1
  have hin : ¬ sqLength (pnt - o2w.pt 0) - s.radius * s.radius < eps := by unfold eps; push Not; nlinarith
  refine ⟨t, s.sampleDir (o2w.pt 0) pnt u1 u2, by linarith, d1, e, sp, hv hfar, ⟨d2, d3⟩, ?_⟩
  simp only [Sphere.pdfP, hin, if_false]
  exact d4

/-- **C140** seen from outside, `pdf_p` is the uniform density over the directions in which the sphere lies: a unit direction meets the sphere in front of the point exactly if
it is in the cone around the direction of the centre, and the density has mass one over that cone -/
theorem C140_pdf (s : Sphere) (hs : 0 < s.radius) (o2w : Transform ℝ) (isect : Ray ℝ → Option (ℝ × V3 ℝ)) (pnt : V3 ℝ)
    (hout : s.radius ^ 2 + 1 / 100000 ≤ sqLength (pnt - o2w.pt 0)) :
    (∀ wi, MC.capMass (fun _ => s.pdfP o2w isect pnt wi) 0 (Real.arccos (s.ctMax (o2w.pt 0) pnt)) = 1 ∧ 0 < s.pdfP o2w isect pnt wi) ∧
    ∀ d : V3 ℝ, length d = 1 → ((∃ t : ℝ, 0 < t ∧ sqLength (pnt + t * d - o2w.pt 0) = s.radius ^ 2) ↔
      s.ctMax (o2w.pt 0) pnt ≤ dot d (Geom.normalize (o2w.pt 0 - pnt))) := by
  generalize hC : o2w.pt 0 = ctr at *
  have hsym : sqLength (pnt - ctr) = sqLength (ctr - pnt) := by simp only [sqLength, sub_x, sub_y, sub_z]; ring
  have hin : ¬ sqLength (pnt - ctr) - s.radius * s.radius < eps := by unfold eps; push Not; nlinarith
  have hL : 0 < sqLength (ctr - pnt) := by rw [← hsym]; nlinarith [sq_nonneg s.radius]
  have hne : ctr - pnt ≠ 0 := fun h => by rw [h] at hL; simp [sqLength] at hL
  obtain ⟨-, n2, n3⟩ := (C06_normalize _).1 hne
  have hlen : length (ctr - pnt) ^ 2 = sqLength (ctr - pnt) := Real.sq_sqrt (sqLength_nonneg _)
  have hnn : 0 ≤ 1 - s.radius * s.radius / sqLength (pnt - ctr) := by
    rw [sub_nonneg, div_le_one (by rw [hsym]; exact hL)]; nlinarith
  have hct : s.ctMax ctr pnt ^ 2 * sqLength (ctr - pnt) = sqLength (ctr - pnt) - s.radius ^ 2 := by
    rw [Sphere.ctMax, Real.sq_sqrt (le_max_left _ _), max_eq_right hnn, hsym]
    field_simp
  have hc0 : 0 ≤ s.ctMax ctr pnt := Real.sqrt_nonneg _
  have hc1 : s.ctMax ctr pnt < 1 := by
    rw [Sphere.ctMax, Real.sqrt_lt' one_pos]
    refine max_lt (by norm_num) ?_
    have : 0 < s.radius * s.radius / sqLength (pnt - ctr) := by rw [hsym]; positivity
    linarith
  constructor
  · intro wi
    simp only [Sphere.pdfP, hC, hin, if_false]
    have h1c : 0 < 1 - s.ctMax ctr pnt := by linarith
    constructor
    · rw [MC.capMass_const, Real.cos_zero, Real.cos_arccos (by linarith) hc1.le, MC.conePdf]
      have := Real.pi_pos
      field_simp
    · rw [MC.conePdf]; have := Real.pi_pos; positivity
  · intro d d1
    have hd1 : sqLength d = 1 := by
      have := Real.sq_sqrt (sqLength_nonneg d)
      rw [Geom.length] at d1; rw [d1] at this; linarith
    have hdot : dot (ctr - pnt) d = length (ctr - pnt) * dot d (Geom.normalize (ctr - pnt)) := by
      conv_lhs => rw [← n2]
      simp only [dot, smul_x, smul_y, smul_z]; ring
    have hsq : ∀ t : ℝ, sqLength (pnt + t * d - ctr) = sqLength (ctr - pnt) - 2 * t * dot (ctr - pnt) d + t ^ 2 := fun t => by
      have : sqLength (pnt + t * d - ctr) = sqLength (ctr - pnt) - 2 * t * dot (ctr - pnt) d + t ^ 2 * sqLength d := by
        simp only [sqLength, dot, add_x, add_y, add_z, sub_x, sub_y, sub_z, smul_x, smul_y, smul_z]; ring
      rw [this, hd1]; ring
    simp only [hsq]
    generalize hB : dot (ctr - pnt) d = B at *
    generalize hc : dot d (Geom.normalize (ctr - pnt)) = c at *
    constructor
    · rintro ⟨t, ht, e⟩
      have hBp : 0 < B := by
        by_contra h
        push Not at h
        nlinarith [mul_nonneg ht.le (neg_nonneg.2 h), sq_nonneg t]
      have hcp : 0 ≤ c := by
        by_contra h
        push Not at h
        rw [hdot] at hBp
        nlinarith
      refine le_of_sq_le_sq' ?_ hcp
      have : s.ctMax ctr pnt ^ 2 * sqLength (ctr - pnt) ≤ c ^ 2 * sqLength (ctr - pnt) := by
        rw [hct, ← hlen, ← mul_pow, mul_comm c, ← hdot, hlen]
        nlinarith [sq_nonneg (t - B)]
      exact le_of_mul_le_mul_right this hL
    · intro h
      have hBp : 0 ≤ B := by rw [hdot]; exact mul_nonneg n3.le (hc0.trans h)
      have hB2 : sqLength (ctr - pnt) - s.radius ^ 2 ≤ B ^ 2 := by
        rw [← hct, hdot, mul_pow, hlen, mul_comm]
        exact mul_le_mul_of_nonneg_left (pow_le_pow_left₀ hc0 h 2) hL.le
      have hQ : 0 ≤ B ^ 2 - (sqLength (ctr - pnt) - s.radius ^ 2) := by linarith
      refine ⟨B + Real.sqrt (B ^ 2 - (sqLength (ctr - pnt) - s.radius ^ 2)), ?_, ?_⟩
      · have : 0 < B := by
          rcases hBp.lt_or_eq with h | h
          · exact h
          · rw [← h] at hB2; nlinarith
        have := Real.sqrt_nonneg (B ^ 2 - (sqLength (ctr - pnt) - s.radius ^ 2))
        linarith
      · have := Real.sq_sqrt hQ
        nlinarith

/-- **C140 fails** for the density of directions that do not meet the sphere: it is the same as in the cone (it should be zero), for every direction whatever -/
theorem C140_pdf_outside_false (s : Sphere) (hs : 0 < s.radius) (o2w : Transform ℝ) (isect : Ray ℝ → Option (ℝ × V3 ℝ)) (pnt : V3 ℝ)
    (hout : s.radius ^ 2 + 1 / 100000 ≤ sqLength (pnt - o2w.pt 0)) (wi wi' : V3 ℝ) :
    0 < s.pdfP o2w isect pnt wi ∧ s.pdfP o2w isect pnt wi = s.pdfP o2w isect pnt wi' := by
  refine ⟨((C140_pdf s hs o2w isect pnt hout).1 wi).2, ?_⟩
  have hin : ¬ sqLength (pnt - o2w.pt 0) - s.radius * s.radius < eps := by unfold eps; push Not; nlinarith
  simp only [Sphere.pdfP, hin, if_false]

theorem rigid_ident : Rigid (ident : Transform ℝ) := by
  refine ⟨by simp [AffineM, ident, Matrix.one_apply], fun p q => ?_⟩
  have : ∀ p : V3 ℝ, (ident : Transform ℝ).pt p = p := fun p => by
    rw [pt_affine _ (by simp [AffineM, ident, Matrix.one_apply])]
    ext <;> simp [homog, ident, Matrix.one_apply]
  rw [this, this]

theorem ident_pt (p : V3 ℝ) : (ident : Transform ℝ).pt p = p := by
  rw [pt_affine _ (by simp [AffineM, ident, Matrix.one_apply])]
  ext <;> simp [homog, ident, Matrix.one_apply]

theorem unitSphere_whole : unitSphere.Whole := ⟨by norm_num [unitSphere], rfl, rfl, rfl⟩

/-- the unit sphere seen from (0, 0, 3): the hypotheses of `C140_sample_partial` and `C140_pdf` hold -/
example (u1 u2 : ℝ) (h0 : 0 ≤ u1) (h1 : u1 ≤ 1) : ∃ (t : ℝ) (d : V3 ℝ), 0 < t ∧ length d = 1 ∧ (unitSphere.sampleP ident ident true ⟨0, 0, 3⟩ u1 u2).1 = ⟨0, 0, 3⟩ + t * d := by
  have hl : length ((⟨0, 0, 3⟩ : V3 ℝ) - (ident : Transform ℝ).pt 0) = 3 := by
    rw [ident_pt, Geom.length, show sqLength ((⟨0, 0, 3⟩ : V3 ℝ) - 0) = 3 ^ 2 by norm_num [sqLength]]
    exact Real.sqrt_sq (by norm_num)
  obtain ⟨t, d, a, b, c, -⟩ := C140_sample_partial unitSphere unitSphere_whole ident ident rigid_ident (by rw [ident_pt, ident_pt]) true (fun _ => none) ⟨0, 0, 3⟩ u1 u2 h0 h1
    (by rw [ident_pt]; norm_num [sqLength, unitSphere]) (by rw [hl]; norm_num [unitSphere])
  exact ⟨t, d, a, b, c⟩

/-- **C140 fails** for points very near the sphere: 0.000006 above the pole of the unit sphere, the point sampled straight below is the far pole, which cannot be seen -/
theorem C140_visible_false : ∀ u2 : ℝ, (unitSphere.sampleP ident ident false ⟨0, 0, 1 + 6 / 1000000⟩ 1 u2).1 = ⟨0, 0, -1⟩ ∧
    unitSphere.radius ^ 2 + 1 / 100000 ≤ sqLength ((⟨0, 0, 1 + 6 / 1000000⟩ : V3 ℝ) - (ident : Transform ℝ).pt 0) := by
  intro u2
  have hout : unitSphere.radius ^ 2 + 1 / 100000 ≤ sqLength ((⟨0, 0, 1 + 6 / 1000000⟩ : V3 ℝ) - (ident : Transform ℝ).pt 0) := by
    rw [ident_pt]; norm_num [sqLength, unitSphere]
  refine ⟨?_, hout⟩
  obtain ⟨t, ht, e, sp, -⟩ := sampleP_core unitSphere unitSphere_whole ident ident rigid_ident (by rw [ident_pt, ident_pt]) false ⟨0, 0, 1 + 6 / 1000000⟩ 1 u2 zero_le_one le_rfl hout
  have hwc : Geom.normalize ((0 : V3 ℝ) - ⟨0, 0, 1 + 6 / 1000000⟩) = ⟨0, 0, -1⟩ := by
    have hl : length ((0 : V3 ℝ) - ⟨0, 0, 1 + 6 / 1000000⟩) = 1 + 6 / 1000000 := by
      rw [Geom.length, show sqLength ((0 : V3 ℝ) - ⟨0, 0, 1 + 6 / 1000000⟩) = (1 + 6 / 1000000) ^ 2 by norm_num [sqLength]]
      exact Real.sqrt_sq (by norm_num)
    rw [Geom.normalize, hl]
    norm_num
  have hd : unitSphere.sampleDir ((ident : Transform ℝ).pt 0) ⟨0, 0, 1 + 6 / 1000000⟩ 1 u2 = ⟨0, 0, -1⟩ := by
    rw [ident_pt]
    simp only [Sphere.sampleDir, hwc, MC.cone, Option.getD_some]
    ext <;> simp
  rw [hd] at e
  have hex := sp.exact 0 (by rw [ident_pt]; norm_num [sqLength, unitSphere]) ⟨(1 + 6 / 1000000) / t, by
    rw [e]
    have : t ≠ 0 := by linarith
    ext <;> simp
    field_simp
    ring⟩
  rw [e, ident_pt] at hex
  rw [e]
  simp [sqLength, unitSphere] at hex
  have h2 : (1 + 6 / 1000000 - t - 1) * (1 + 6 / 1000000 - t + 1) = 0 := by nlinarith
  rcases mul_eq_zero.1 h2 with h | h
  · exfalso; norm_num at ht; linarith
  · ext <;> simp
    linarith

/-- **C140 fails** for a scaled sphere, whose radius in world space is not `self.radius`: the unit sphere scaled by two, seen from (0, 0, 4).  Its point (6/5, 0, 8/5) is turned
towards that point, but no sample ever goes there. -/
theorem C140_scaled_false : (scale (2 : ℝ) 2 2).pt ⟨3 / 5, 0, 4 / 5⟩ = ⟨6 / 5, 0, 8 / 5⟩ ∧ OnSphere unitSphere ⟨3 / 5, 0, 4 / 5⟩ ∧
    0 < dot ((⟨6 / 5, 0, 8 / 5⟩ : V3 ℝ) - (scale (2 : ℝ) 2 2).pt 0) (⟨0, 0, 4⟩ - ⟨6 / 5, 0, 8 / 5⟩) ∧
    ∀ u1 u2 k : ℝ, 0 ≤ u1 → u1 ≤ 1 → unitSphere.sampleDir ((scale (2 : ℝ) 2 2).pt 0) ⟨0, 0, 4⟩ u1 u2 ≠ k * ((⟨6 / 5, 0, 8 / 5⟩ : V3 ℝ) - ⟨0, 0, 4⟩) := by
  have h0 : (scale (2 : ℝ) 2 2).pt 0 = 0 := by rw [(C08_translate_scale 0 0 0 2 2 2).2.2.1]; ext <;> simp
  refine ⟨?_, ?_, ?_, ?_⟩
  · rw [(C08_translate_scale 0 _ 0 2 2 2).2.2.1]; ext <;> norm_num
  · rw [whole_on unitSphere_whole]; norm_num [sqLength, unitSphere]
  · rw [h0]; norm_num [dot]
  · intro u1 u2 k a b e
    rw [h0] at e
    have hwc : Geom.normalize ((0 : V3 ℝ) - ⟨0, 0, 4⟩) = ⟨0, 0, -1⟩ := by
      have hl : length ((0 : V3 ℝ) - ⟨0, 0, 4⟩) = 4 := by
        rw [Geom.length, show sqLength ((0 : V3 ℝ) - ⟨0, 0, 4⟩) = 4 ^ 2 by norm_num [sqLength]]
        exact Real.sqrt_sq (by norm_num)
      rw [Geom.normalize, hl]
      norm_num
    obtain ⟨d1, d2, -⟩ := dir_spec unitSphere 0 ⟨0, 0, 4⟩ u1 u2 a b (by intro h; have := congrArg V3.z h; norm_num at this) unitSphere_whole.1
    have hd1 : sqLength (unitSphere.sampleDir 0 ⟨0, 0, 4⟩ u1 u2) = 1 := by
      have := Real.sq_sqrt (sqLength_nonneg (unitSphere.sampleDir 0 ⟨0, 0, 4⟩ u1 u2))
      rw [Geom.length] at d1; rw [d1] at this; linarith
    rw [hwc] at d2
    have hct : unitSphere.ctMax 0 ⟨0, 0, 4⟩ ^ 2 = 15 / 16 := by
      rw [Sphere.ctMax, Real.sq_sqrt (le_max_left _ _)]
      norm_num [sqLength, unitSphere]
    have hc0 : 0 ≤ unitSphere.ctMax 0 ⟨0, 0, 4⟩ := Real.sqrt_nonneg _
    rw [e] at d2 hd1
    simp [dot, sqLength] at d2 hd1
    have hk : k ^ 2 * (36 / 5) = 1 := by nlinarith
    have := pow_le_pow_left₀ hc0 d2 2
    rw [hct] at this
    nlinarith

/-! ### C141 -/

/-- **C141** the density over directions is the uniform density over the surface, converted: zero for directions that miss; otherwise, for a unit direction, the density times the solid
angle that a unit of surface area takes up (`cos / distance²`) is one over the area -/
theorem C141_change_of_measure (isect : Ray ℝ → Option (ℝ × V3 ℝ)) (area : ℝ) (pnt wi : V3 ℝ) (hw : length wi = 1) (ha : 0 < area) :
    (isect ⟨pnt, wi, 1 / 100000, ⊤⟩ = none → shapePdfP isect area pnt wi = 0) ∧
    ∀ t n, isect ⟨pnt, wi, 1 / 100000, ⊤⟩ = some (t, n) → t ≠ 0 → dot n wi ≠ 0 →
      0 < shapePdfP isect area pnt wi ∧ shapePdfP isect area pnt wi * (|dot n wi| / length (pnt + t * wi - pnt) ^ 2) = 1 / area := by
  refine ⟨fun h => by simp only [shapePdfP, eps, h], fun t n h ht hn => ?_⟩
  have hw1 : sqLength wi = 1 := by
    have := Real.sq_sqrt (sqLength_nonneg wi)
    rw [Geom.length] at hw; rw [hw] at this; linarith
  have e1 : sqLength (pnt - (⟨pnt, wi, 1 / 100000, ⊤⟩ : Ray ℝ).pos t) = t ^ 2 := by
    have : sqLength (pnt - (⟨pnt, wi, 1 / 100000, ⊤⟩ : Ray ℝ).pos t) = t ^ 2 * sqLength wi := by
      simp only [Ray.pos, rayAt, sqLength, add_x, add_y, add_z, sub_x, sub_y, sub_z, smul_x, smul_y, smul_z]; ring
    rw [this, hw1, mul_one]
  have e2 : length (pnt + t * wi - pnt) ^ 2 = t ^ 2 := by
    rw [Geom.length, Real.sq_sqrt (sqLength_nonneg _)]
    have : sqLength (pnt + t * wi - pnt) = t ^ 2 * sqLength wi := by
      simp only [sqLength, add_x, add_y, add_z, sub_x, sub_y, sub_z, smul_x, smul_y, smul_z]; ring
    rw [this, hw1, mul_one]
  have e3 : absDot n (-wi) = |dot n wi| := by
    rw [absDot, show dot n (-wi) = -dot n wi by simp [dot]; ring, abs_neg]
  simp only [shapePdfP, eps, h, e1, e2, e3]
  have hp : 0 < |dot n wi| := abs_pos.2 hn
  have ht2 : 0 < t ^ 2 := by positivity
  constructor
  · positivity
  · field_simp

/-- a disk of area 2 hit at distance 2 under a cosine of 3/5 -/
example : shapePdfP (fun _ => some (2, ⟨0, 0, 1⟩)) 2 ⟨0, 0, 0⟩ ⟨4 / 5, 0, 3 / 5⟩ * (3 / 5 / 4) = 1 / 2 := by
  have hl : length (⟨4 / 5, 0, 3 / 5⟩ : V3 ℝ) = 1 := by
    rw [Geom.length, show sqLength (⟨4 / 5, 0, 3 / 5⟩ : V3 ℝ) = 1 by norm_num [sqLength], Real.sqrt_one]
  have := ((C141_change_of_measure (fun _ => some (2, ⟨0, 0, 1⟩)) 2 ⟨0, 0, 0⟩ ⟨4 / 5, 0, 3 / 5⟩ hl (by norm_num)).2 2 ⟨0, 0, 1⟩ rfl (by norm_num) (by norm_num [dot])).2
  have e : length ((⟨0, 0, 0⟩ : V3 ℝ) + (2 : ℝ) * (⟨4 / 5, 0, 3 / 5⟩ : V3 ℝ) - ⟨0, 0, 0⟩) ^ 2 = 4 := by
    rw [Geom.length, Real.sq_sqrt (sqLength_nonneg _)]; norm_num [sqLength]
  rw [e] at this
  have e2 : |dot (⟨0, 0, 1⟩ : V3 ℝ) ⟨4 / 5, 0, 3 / 5⟩| = 3 / 5 := by norm_num [dot]
  rwa [e2] at this

end Verif.Shape
