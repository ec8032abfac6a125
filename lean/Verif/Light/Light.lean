import Verif.Geom.Props
import Verif.Shape.Triangle
import Verif.MC.Model
import Verif.Agg.Refine
import Mathlib.MeasureTheory.Integral.IntervalIntegral.Basic
import Mathlib.MeasureTheory.Integral.IntervalIntegral.FundThmCalculus
import Mathlib.Analysis.SpecialFunctions.Integrals.Basic

/-!
# Light sources (C54, C96, C97)

Models `pytracer/light/utility.py` `VisibilityTester` 34-59 and `pytracer/light/light.py` `PointLight.sample_l` 129-135,
`SpotLight.__falloff` 173-188, `SpotLight.sample_l` 190-196, over the real numbers.
Not modelled: `sample_r` of every light raises (`geo.Normal.fromVector`, light.py 141, 204, ..., does not exist), `power` is a property with an
extra parameter (147-149) and cannot be called.
-/
namespace Verif.Light
open V3 Verif.Geom

/-! ### Shadow rays -/

/-- `set_segment`, utility.py 34-42.  The division by `dist` is per component; it has a value only if the points differ. -/
noncomputable def setSegment (p1 : V3 ℝ) (eps1 : ℝ) (p2 : V3 ℝ) (eps2 : ℝ) : Shape.Ray ℝ :=
  let dist := Geom.length (p1 - p2)
  ⟨p1, ⟨(p2.x - p1.x) / dist, (p2.y - p1.y) / dist, (p2.z - p1.z) / dist⟩, eps1, ((dist * (1 - eps2) : ℝ) : WithTop ℝ)⟩

/-- `set_ray`, utility.py 44-51 -/
def setRay (p : V3 ℝ) (eps : ℝ) (w : V3 ℝ) : Shape.Ray ℝ := ⟨p, w, eps, ⊤⟩

/-- a scene of triangles: mesh and triangle number -/
abbrev Tris := List (Shape.Mesh ℝ × ℕ)

open Classical in
/-- `unoccluded`, utility.py 53-59, for a scene whose aggregate tests its triangles one by one (C34: the aggregates answer as such a
scan does) -/
noncomputable def unoccluded (frame : V3 ℝ → V3 ℝ × V3 ℝ) (scene : Tris) (r : Shape.Ray ℝ) : Bool :=
  !(scene.any fun t => decide (Shape.intersectP frame t.1 t.2 r = .hit ()))

/-- the points a ray covers -/
def Covers (r : Shape.Ray ℝ) (x : V3 ℝ) : Prop := ∃ t, Shape.InRange r t ∧ x = rayAt r.o r.d t

/-- the point at fraction `s` of the way from `p1` to `p2` -/
noncomputable def between (p1 p2 : V3 ℝ) (s : ℝ) : V3 ℝ := p1 + s * (p2 - p1)

theorem length_sub_comm (a b : V3 ℝ) : Geom.length (a - b) = Geom.length (b - a) := by
  unfold Geom.length sqLength
  congr 1
  simp only [sub_x, sub_y, sub_z]; ring

theorem length_sub_pos {a b : V3 ℝ} (h : a ≠ b) : 0 < Geom.length (a - b) := by
  unfold Geom.length
  apply Real.sqrt_pos.2
  rcases lt_or_eq_of_le (sqLength_nonneg (a - b)) with h' | h'
  · exact h'
  · exfalso
    have := (sqLength_eq_zero (a - b)).1 h'.symm
    apply h
    have hx := congrArg V3.x this
    have hy := congrArg V3.y this
    have hz := congrArg V3.z this
    simp only [sub_x, sub_y, sub_z, zero_x, zero_y, zero_z] at hx hy hz
    exact V3.ext (by linarith) (by linarith) (by linarith)

theorem length_sq (v : V3 ℝ) : Geom.length v ^ 2 = sqLength v := Real.sq_sqrt (sqLength_nonneg v)

theorem rayAt_segment (p1 p2 : V3 ℝ) (e1 e2 t : ℝ) :
    rayAt (setSegment p1 e1 p2 e2).o (setSegment p1 e1 p2 e2).d t = between p1 p2 (t / Geom.length (p1 - p2)) := by
  simp only [setSegment, rayAt, between]
  apply V3.ext <;> simp only [add_x, add_y, add_z, smul_x, smul_y, smul_z, sub_x, sub_y, sub_z] <;> ring

/-- **C54** the shadow ray covers exactly the points at fractions `eps1 / dist` to `1 - eps2` of the way from `p1` to `p2`. -/
theorem C54_segment_points (p1 p2 : V3 ℝ) (eps1 eps2 : ℝ) (h : p1 ≠ p2) (x : V3 ℝ) :
    Covers (setSegment p1 eps1 p2 eps2) x ↔ ∃ s, eps1 / Geom.length (p2 - p1) ≤ s ∧ s ≤ 1 - eps2 ∧ x = p1 + s * (p2 - p1) := by
  have hd := length_sub_pos h
  rw [length_sub_comm p2 p1]
  constructor
  · rintro ⟨t, ⟨h1, h2⟩, rfl⟩
    rw [rayAt_segment]
    simp only [setSegment, WithTop.coe_le_coe] at h1 h2
    refine ⟨_, div_le_div_of_nonneg_right h1 hd.le, ?_, rfl⟩
    rw [div_le_iff₀ hd]; linarith
  · rintro ⟨s, h1, h2, rfl⟩
    refine ⟨s * Geom.length (p1 - p2), ⟨?_, ?_⟩, ?_⟩
    · simpa only [setSegment] using (div_le_iff₀ hd).1 h1
    · simp only [setSegment, WithTop.coe_le_coe]
      rw [mul_comm]
      exact mul_le_mul_of_nonneg_left h2 hd.le
    · rw [rayAt_segment, mul_div_cancel_right₀ _ hd.ne']; rfl

/-- fractions along a segment determine the point -/
theorem between_inj {p1 p2 : V3 ℝ} (h : p1 ≠ p2) {s t : ℝ} (e : between p1 p2 s = between p1 p2 t) : s = t := by
  have hx := congrArg V3.x e
  have hy := congrArg V3.y e
  have hz := congrArg V3.z e
  simp only [between, add_x, add_y, add_z, smul_x, smul_y, smul_z, sub_x, sub_y, sub_z] at hx hy hz
  by_contra hst
  apply h
  have hs : s - t ≠ 0 := sub_ne_zero.2 hst
  refine V3.ext ?_ ?_ ?_
  · have : (s - t) * (p2.x - p1.x) = 0 := by linarith
    rcases mul_eq_zero.1 this with h | h
    · exact absurd h hs
    · linarith
  · have : (s - t) * (p2.y - p1.y) = 0 := by linarith
    rcases mul_eq_zero.1 this with h | h
    · exact absurd h hs
    · linarith
  · have : (s - t) * (p2.z - p1.z) = 0 := by linarith
    rcases mul_eq_zero.1 this with h | h
    · exact absurd h hs
    · linarith

/-- **C54** the end points: the shaded point is covered only if `eps1 ≤ 0` (and the range is not empty); the far point only if `eps2 ≤ 0`.
With `eps2 = 0`, as the point and spot lights call it, the light's own position is covered. -/
theorem C54_end_points (p1 p2 : V3 ℝ) (eps1 eps2 : ℝ) (h : p1 ≠ p2) :
    (Covers (setSegment p1 eps1 p2 eps2) p1 ↔ eps1 ≤ 0 ∧ eps2 ≤ 1) ∧
    (Covers (setSegment p1 eps1 p2 eps2) p2 ↔ eps1 ≤ Geom.length (p2 - p1) ∧ eps2 ≤ 0) := by
  have hd := length_sub_pos h
  rw [length_sub_comm] at hd
  rw [C54_segment_points _ _ _ _ h, C54_segment_points _ _ _ _ h]
  have b0 : p1 = between p1 p2 0 := by
    apply V3.ext <;> simp [between]
  have b1 : p2 = between p1 p2 1 := by
    apply V3.ext <;> simp [between]
  constructor
  · constructor
    · rintro ⟨s, h1, h2, h3⟩
      have : s = 0 := between_inj h (h3.symm.trans b0)
      subst this
      exact ⟨by simpa using (div_le_iff₀ hd).1 h1, by linarith⟩
    · rintro ⟨h1, h2⟩
      exact ⟨0, by rw [div_le_iff₀ hd]; linarith, by linarith, b0⟩
  · constructor
    · rintro ⟨s, h1, h2, h3⟩
      have : s = 1 := between_inj h (h3.symm.trans b1)
      subst this
      exact ⟨by simpa using (div_le_iff₀ hd).1 h1, by linarith⟩
    · rintro ⟨h1, h2⟩
      exact ⟨1, by rw [div_le_iff₀ hd]; linarith, by linarith, b1⟩

theorem unit_dir {a b : V3 ℝ} (h : a ≠ b) (d : ℝ) (hd : d = Geom.length (a - b)) :
    Geom.length ⟨(b.x - a.x) / d, (b.y - a.y) / d, (b.z - a.z) / d⟩ = 1 := by
  have h0 := length_sub_pos h
  rw [← hd] at h0
  have : d ^ 2 = sqLength (a - b) := by rw [hd, length_sq]
  unfold Geom.length
  rw [Real.sqrt_eq_one]
  simp only [sqLength, sub_x, sub_y, sub_z] at *
  field_simp
  linarith

/-- **C54** the shadow ray's direction is a unit vector, so `eps1` is a distance. -/
theorem C54_unit_direction (p1 p2 : V3 ℝ) (eps1 eps2 : ℝ) (h : p1 ≠ p2) : Geom.length (setSegment p1 eps1 p2 eps2).d = 1 :=
  unit_dir h _ rfl

/-- a triangle of the scene is well formed and not parallel to the ray -/
def Good (r : Shape.Ray ℝ) (t : Shape.Mesh ℝ × ℕ) (q1 q2 q3 : V3 ℝ) : Prop :=
  t.1.vertex t.2 0 = some q1 ∧ t.1.vertex t.2 1 = some q2 ∧ t.1.vertex t.2 2 = some q3 ∧ (t.1.getUvs t.2).isSome ∧ t.1.alpha = none ∧
  Shape.Transversal q1 q2 q3 r.d

/-- **C54** `unoccluded` holds exactly when no point of any triangle of the scene is covered by the shadow ray, i.e. lies on the
shortened segment. -/
theorem C54_unoccluded (frame : V3 ℝ → V3 ℝ × V3 ℝ) (scene : Tris) (p1 p2 : V3 ℝ) (eps1 eps2 : ℝ) (h : p1 ≠ p2)
    (vs : Shape.Mesh ℝ × ℕ → V3 ℝ × V3 ℝ × V3 ℝ)
    (hg : ∀ t ∈ scene, Good (setSegment p1 eps1 p2 eps2) t (vs t).1 (vs t).2.1 (vs t).2.2) :
    unoccluded frame scene (setSegment p1 eps1 p2 eps2) = true ↔
      ∀ t ∈ scene, ∀ s, eps1 / Geom.length (p2 - p1) ≤ s → s ≤ 1 - eps2 →
        ¬ Shape.InTriangle (vs t).1 (vs t).2.1 (vs t).2.2 (p1 + s * (p2 - p1)) := by
  have key : ∀ t ∈ scene, (Shape.intersectP frame t.1 t.2 (setSegment p1 eps1 p2 eps2) = .hit () ↔
      ∃ x, Covers (setSegment p1 eps1 p2 eps2) x ∧ Shape.InTriangle (vs t).1 (vs t).2.1 (vs t).2.2 x) := by
    intro t ht
    obtain ⟨a, b, c, d, e, f⟩ := hg t ht
    rw [(Shape.C40_intersect_p_agrees frame t.1 t.2 _).1]
    constructor
    · rintro ⟨⟨tt, re, g⟩, hx⟩
      obtain ⟨-, h2, h3⟩ := (Shape.C40_sound_complete frame t.1 t.2 _ _ _ _ a b c d e tt).1 ⟨re, g, hx⟩
      exact ⟨_, ⟨tt, h2, rfl⟩, h3⟩
    · rintro ⟨x, ⟨tt, h2, rfl⟩, h3⟩
      obtain ⟨re, g, hx⟩ := (Shape.C40_sound_complete frame t.1 t.2 _ _ _ _ a b c d e tt).2 ⟨f, h2, h3⟩
      exact ⟨_, hx⟩
  simp only [unoccluded, Bool.not_eq_true', List.any_eq_false, decide_eq_true_eq]
  constructor
  · intro hn t ht s h1 h2 hi
    exact hn t ht ((key t ht).2 ⟨_, (C54_segment_points p1 p2 eps1 eps2 h _).2 ⟨s, h1, h2, rfl⟩, hi⟩)
  · intro hn t ht hh
    obtain ⟨x, hc, hi⟩ := (key t ht).1 hh
    obtain ⟨s, h1, h2, rfl⟩ := (C54_segment_points p1 p2 eps1 eps2 h _).1 hc
    exact hn t ht s h1 h2 hi

/-- a ray of `set_ray` covers the half line from distance `eps` on -/
theorem C54_ray_points (p w : V3 ℝ) (eps : ℝ) (x : V3 ℝ) :
    Covers (setRay p eps w) x ↔ ∃ t, eps ≤ t ∧ x = p + t * w := by
  constructor
  · rintro ⟨t, ⟨h1, -⟩, rfl⟩
    exact ⟨t, h1, by apply V3.ext <;> simp [setRay, rayAt, mul_comm]⟩
  · rintro ⟨t, h1, rfl⟩
    exact ⟨t, ⟨h1, by simp [setRay]⟩, by apply V3.ext <;> simp [setRay, rayAt, mul_comm]⟩

/-- a triangle across the middle of a segment, and the hypotheses of `C54_unoccluded` -/
def exMesh : Shape.Mesh ℝ := ⟨1, 3, [0, 1, 2], [⟨-1, -1, 1⟩, ⟨1, -1, 1⟩, ⟨0, 1, 1⟩], none, none, id⟩

example : ∀ t ∈ [(exMesh, 0)], Good (setSegment ⟨0, 0, 0⟩ (1/1000) ⟨0, 0, 2⟩ 0) t ⟨-1, -1, 1⟩ ⟨1, -1, 1⟩ ⟨0, 1, 1⟩ := by
  have hl : Geom.length ((⟨0, 0, 0⟩ : V3 ℝ) - ⟨0, 0, 2⟩) = 2 := by
    unfold Geom.length; rw [Real.sqrt_eq_iff_eq_sq] <;> norm_num [sqLength]
  intro t ht
  simp only [List.mem_singleton] at ht
  subst ht
  refine ⟨by simp [exMesh, Shape.Mesh.vertex, Shape.pyGet], by simp [exMesh, Shape.Mesh.vertex, Shape.pyGet],
    by simp [exMesh, Shape.Mesh.vertex, Shape.pyGet], by simp [exMesh, Shape.Mesh.getUvs], rfl, ?_⟩
  simp only [Shape.Transversal, setSegment, hl]
  norm_num [dot, cross]

/-! ### Point lights -/

/-- the result of `sample_l`: radiance per channel, direction, density, shadow ray -/
structure LSample (ι : Type*) where
  radiance : ι → ℝ
  wi : V3 ℝ
  pdf : ℝ
  vis : Shape.Ray ℝ

/-- `PointLight.sample_l`, light.py 129-135; `pos` is `l2w(Point(0,0,0))` (126).  Spectra are functions from channels. -/
noncomputable def pointSample {ι : Type*} (pos : V3 ℝ) (I : ι → ℝ) (p : V3 ℝ) (pEps : ℝ) : LSample ι :=
  ⟨fun c => I c / sqLength (pos - p), normalize (pos - p), 1, setSegment p pEps pos 0⟩

theorem normalize_eq {a b : V3 ℝ} (h : b ≠ a) :
    normalize (b - a) = ⟨(b.x - a.x) / Geom.length (b - a), (b.y - a.y) / Geom.length (b - a), (b.z - a.z) / Geom.length (b - a)⟩ := by
  have := (length_sub_pos h).ne'
  simp [Geom.normalize, this]

/-- **C96** sampling a point light: the direction is the unit vector to the light, the light is at distance `|pos - p|` along it, the radiance falls off
with the square of that distance, the density is one, and the shadow ray runs from the point to the light along that direction. -/
theorem C96_point_sample {ι : Type*} (pos p : V3 ℝ) (I : ι → ℝ) (pEps : ℝ) (h : p ≠ pos) :
    let s := pointSample pos I p pEps
    let d := Geom.length (pos - p)
    (∀ c, s.radiance c * d ^ 2 = I c) ∧ Geom.length s.wi = 1 ∧ pos = p + d * s.wi ∧ s.pdf = 1 ∧
      s.vis.o = p ∧ s.vis.d = s.wi ∧ s.vis.mint = pEps ∧ s.vis.maxt = (d : WithTop ℝ) := by
  intro s d
  have hd : 0 < d := length_sub_pos h.symm
  have hw : s.wi = ⟨(pos.x - p.x) / d, (pos.y - p.y) / d, (pos.z - p.z) / d⟩ := normalize_eq h.symm
  have hlc : Geom.length (p - pos) = d := length_sub_comm _ _
  refine ⟨?_, ?_, ?_, rfl, rfl, ?_, rfl, ?_⟩
  · intro c
    show I c / sqLength (pos - p) * d ^ 2 = I c
    rw [← length_sq]
    exact div_mul_cancel₀ _ (pow_ne_zero 2 hd.ne')
  · rw [hw]
    exact unit_dir h d hlc.symm
  · rw [hw]
    apply V3.ext <;> simp only [add_x, add_y, add_z, smul_x, smul_y, smul_z] <;> field_simp <;> ring
  · rw [hw]
    simp only [s, pointSample, setSegment, hlc]
  · simp only [s, pointSample, setSegment, hlc, sub_zero, mul_one]

/-- **C96** energy: the radiance arriving on a sphere of any radius around the light, integrated over the sphere in
spherical coordinates, is `4π` times the intensity. -/
theorem C96_point_flux {ι : Type*} (pos : V3 ℝ) (I : ι → ℝ) (r pEps : ℝ) (hr : 0 < r) (c : ι) :
    (∫ θ in (0:ℝ)..Real.pi, ∫ φ in (0:ℝ)..(2 * Real.pi),
      (pointSample pos I (pos + r * sphericalDirection (Real.sin θ) (Real.cos θ) φ) pEps).radiance c * (r ^ 2 * Real.sin θ))
      = 4 * Real.pi * I c := by
  have hrad : ∀ θ φ : ℝ, (pointSample pos I (pos + r * sphericalDirection (Real.sin θ) (Real.cos θ) φ) pEps).radiance c = I c / r ^ 2 := by
    intro θ φ
    have : sqLength (pos - (pos + r * sphericalDirection (Real.sin θ) (Real.cos θ) φ)) = r ^ 2 := by
      simp only [sqLength, sphericalDirection, sub_x, sub_y, sub_z, add_x, add_y, add_z, smul_x, smul_y, smul_z]
      have h1 := Real.sin_sq_add_cos_sq θ
      have h2 := Real.sin_sq_add_cos_sq φ
      linear_combination r ^ 2 * h1 + r ^ 2 * Real.sin θ ^ 2 * h2
    simp only [pointSample, this]
  simp only [hrad]
  have e : ∀ θ : ℝ, (∫ _φ in (0:ℝ)..(2 * Real.pi), I c / r ^ 2 * (r ^ 2 * Real.sin θ)) = 2 * Real.pi * I c * Real.sin θ := by
    intro θ
    rw [intervalIntegral.integral_const, smul_eq_mul]
    field_simp
    ring
  simp only [e]
  rw [intervalIntegral.integral_const_mul, integral_sin]
  simp; ring

example : (⟨1, 2, 3⟩ : V3 ℝ) ≠ ⟨0, 0, 5⟩ := by
  intro h; have := congrArg V3.x h; norm_num at this

/-! ### Spot lights -/

open Classical in
/-- `SpotLight.__falloff`, light.py 173-188, in terms of `ct`, the z coordinate of the normalised direction in light space (180-181).  `none` is the
`0/0` of line 187 when both cosines equal `ct`. -/
noncomputable def falloffCos (cosWidth cosFalloff ct : ℝ) : Option ℝ :=
  if ct < cosWidth then some 0
  else if ct > cosFalloff then some 1
  else (MC.qdiv (ct - cosWidth) (cosFalloff - cosWidth)).map fun d => d * d * d * d

/-- `SpotLight.__falloff`, light.py 173-188: `w2l` is the world-to-light map on vectors -/
noncomputable def falloff (w2l : V3 ℝ → V3 ℝ) (cosWidth cosFalloff : ℝ) (w : V3 ℝ) : Option ℝ :=
  falloffCos cosWidth cosFalloff (normalize (w2l w)).z

/-- `self.intensity / self.__falloff(-wi)` (light.py 196) per channel; `none` if the divisor is zero or not a number -/
noncomputable def spotRadiance {ι : Type*} (w2l : V3 ℝ → V3 ℝ) (pos : V3 ℝ) (I : ι → ℝ) (cosWidth cosFalloff : ℝ) (p : V3 ℝ) (c : ι) : Option ℝ :=
  (falloff w2l cosWidth cosFalloff (-(normalize (pos - p)))).bind fun f => MC.qdiv (I c) f

theorem falloffCos_mid {cw cf ct : ℝ} (h : cw < cf) (h1 : cw ≤ ct) (h2 : ct ≤ cf) :
    falloffCos cw cf ct = some (((ct - cw) / (cf - cw)) ^ 4) := by
  have : cf - cw ≠ 0 := (sub_pos.2 h).ne'
  simp only [falloffCos, if_neg (not_lt.2 h1), gt_iff_lt, if_neg (not_lt.2 h2), MC.qdiv, this, if_false, Option.map_some]
  congr 1; ring

/-- **C97** the falloff factor of a spot light whose falloff angle is inside its cone: defined for every direction, between 0 and 1, exactly 1 within the
falloff angle, exactly 0 outside the cone. -/
theorem C97_falloff_range (cw cf : ℝ) (h : cw < cf) (ct : ℝ) :
    ∃ f, falloffCos cw cf ct = some f ∧ 0 ≤ f ∧ f ≤ 1 ∧ (f = 1 ↔ cf ≤ ct) ∧ (f = 0 ↔ ct ≤ cw) := by
  have hpos : 0 < cf - cw := sub_pos.2 h
  rcases lt_or_ge ct cw with h1 | h1
  · refine ⟨0, by simp [falloffCos, h1], le_refl _, zero_le_one, ?_, ?_⟩
    · constructor
      · intro h0; norm_num at h0
      · intro h2; linarith
    · exact ⟨fun _ => h1.le, fun _ => rfl⟩
  · rcases lt_or_ge cf ct with h2 | h2
    · refine ⟨1, by simp [falloffCos, not_lt.2 h1, h2], zero_le_one, le_refl _, ⟨fun _ => h2.le, fun _ => rfl⟩, ?_⟩
      constructor
      · intro h0; norm_num at h0
      · intro h3; linarith
    · refine ⟨_, falloffCos_mid h h1 h2, by positivity, ?_, ?_, ?_⟩
      · apply pow_le_one₀ (div_nonneg (by linarith) hpos.le)
        rw [div_le_one hpos]; linarith
      · rw [pow_eq_one_iff_of_nonneg (div_nonneg (by linarith) hpos.le) (by norm_num), div_eq_one_iff_eq hpos.ne']
        constructor
        · intro h3; linarith
        · intro h3; linarith
      · rw [pow_eq_zero_iff (by norm_num), div_eq_zero_iff]
        constructor
        · rintro (h3 | h3)
          · linarith
          · linarith
        · intro h3; left; linarith

/-- **C97** the falloff never increases with the angle from the axis. -/
theorem C97_falloff_monotone (cw cf : ℝ) (h : cw < cf) (c1 c2 f1 f2 : ℝ) (hc : c1 ≤ c2) (h1 : falloffCos cw cf c1 = some f1)
    (h2 : falloffCos cw cf c2 = some f2) : f1 ≤ f2 := by
  obtain ⟨g1, e1, a1, b1, o1, z1⟩ := C97_falloff_range cw cf h c1
  obtain ⟨g2, e2, a2, b2, o2, z2⟩ := C97_falloff_range cw cf h c2
  rw [e1] at h1; rw [e2] at h2
  cases h1; cases h2
  rcases le_total c1 cw with h3 | h3
  · rw [z1.2 h3]; exact a2
  rcases le_total cf c2 with h4 | h4
  · rw [o2.2 h4]; exact b1
  rw [falloffCos_mid h h3 (hc.trans h4)] at e1
  rw [falloffCos_mid h (h3.trans hc) h4] at e2
  cases e1; cases e2
  have hpos : 0 < cf - cw := sub_pos.2 h
  apply pow_le_pow_left₀ (div_nonneg (by linarith) hpos.le)
  exact div_le_div_of_nonneg_right (by linarith) hpos.le

/-- **C97** in terms of angles, for a light whose world-to-light map keeps lengths of directions (no scale): a direction at angle `θ` from the light's axis
gets the full intensity for `θ` up to the falloff angle and none from the cone's width on. -/
theorem C97_falloff_angles (w2l : V3 ℝ → V3 ℝ) (width fall θ φ : ℝ) (w : V3 ℝ) (hw : w2l w = sphericalDirection (Real.sin θ) (Real.cos θ) φ)
    (h0 : 0 ≤ fall) (h1 : fall < width) (h2 : width ≤ Real.pi) (hθ0 : 0 ≤ θ) (hθ : θ ≤ Real.pi) :
    (θ ≤ fall ↔ falloff w2l (Real.cos width) (Real.cos fall) w = some 1) ∧
    (width ≤ θ ↔ falloff w2l (Real.cos width) (Real.cos fall) w = some 0) := by
  have hu : Geom.length (sphericalDirection (Real.sin θ) (Real.cos θ) φ) = 1 := by
    unfold Geom.length
    rw [Real.sqrt_eq_one]
    simp only [sqLength, sphericalDirection]
    have h1 := Real.sin_sq_add_cos_sq θ
    have h2 := Real.sin_sq_add_cos_sq φ
    linear_combination h1 + Real.sin θ ^ 2 * h2
  have hz : (normalize (w2l w)).z = Real.cos θ := by
    rw [hw]; simp only [Geom.normalize, hu]; simp [sphericalDirection]
  have hc : Real.cos width < Real.cos fall := Real.cos_lt_cos_of_nonneg_of_le_pi h0 h2 h1
  obtain ⟨f, e, -, -, o, z⟩ := C97_falloff_range _ _ hc (Real.cos θ)
  simp only [falloff, hz, e, Option.some.injEq, o, z]
  have mono : ∀ a b : ℝ, 0 ≤ a → a ≤ Real.pi → 0 ≤ b → b ≤ Real.pi → (a ≤ b ↔ Real.cos b ≤ Real.cos a) := by
    intro a b ha ha' hb hb'
    exact (Real.strictAntiOn_cos.le_iff_ge ⟨hb, hb'⟩ ⟨ha, ha'⟩).symm
  exact ⟨mono _ _ hθ0 hθ h0 (by linarith), mono _ _ (by linarith) h2 hθ0 hθ⟩

/-- the radiance a spot light should deliver: intensity times falloff over squared distance -/
noncomputable def spotSpec (I f d : ℝ) : ℝ := I * f / d ^ 2

/-- **C97** what `sample_l` delivers instead is correct only where the squared falloff equals the squared distance. -/
theorem C97_sample_l_iff {ι : Type*} (w2l : V3 ℝ → V3 ℝ) (pos p : V3 ℝ) (I : ι → ℝ) (cw cf : ℝ) (c : ι) (f : ℝ) (h : p ≠ pos) (hI : I c ≠ 0)
    (hf : falloff w2l cw cf (-(normalize (pos - p))) = some f) (hf0 : 0 < f) :
    spotRadiance w2l pos I cw cf p c = some (spotSpec (I c) f (Geom.length (pos - p))) ↔ f = Geom.length (pos - p) := by
  have hd := length_sub_pos h.symm
  simp only [spotRadiance, hf, Option.bind_some, MC.qdiv, hf0.ne', if_false, Option.some.injEq, spotSpec]
  rw [div_eq_div_iff hf0.ne' (pow_ne_zero 2 hd.ne')]
  constructor
  · intro e
    have : f ^ 2 = Geom.length (pos - p) ^ 2 := by
      have : I c * (Geom.length (pos - p) ^ 2) = I c * f ^ 2 := by linear_combination e
      exact (mul_left_cancel₀ hI this).symm
    exact (pow_left_inj₀ hf0.le hd.le (by norm_num)).1 this
  · intro e; rw [← e]; ring

/-- **C97** outside the cone, where the radiance should be zero, `sample_l` divides by zero. -/
theorem C97_outside_divides_by_zero {ι : Type*} (w2l : V3 ℝ → V3 ℝ) (pos p : V3 ℝ) (I : ι → ℝ) (cw cf : ℝ) (c : ι)
    (hf : falloff w2l cw cf (-(normalize (pos - p))) = some 0) : spotRadiance w2l pos I cw cf p c = none := by
  simp [spotRadiance, hf, MC.qdiv]

/-- **C97** the full statement fails: a light at the origin shining along +z, a point on the axis at distance 2. -/
theorem C97_sample_l_false : ¬ ∀ (pos p : V3 ℝ) (I : Unit → ℝ) (cw cf f : ℝ), p ≠ pos → cw < cf →
    falloff id cw cf (-(normalize (pos - p))) = some f → spotRadiance id pos I cw cf p () = some (spotSpec (I ()) f (Geom.length (pos - p))) := by
  intro H
  have hne : (⟨0, 0, 2⟩ : V3 ℝ) ≠ ⟨0, 0, 0⟩ := by intro h; have := congrArg V3.z h; norm_num at this
  have hl : Geom.length ((⟨0, 0, 0⟩ : V3 ℝ) - ⟨0, 0, 2⟩) = 2 := by
    unfold Geom.length; rw [Real.sqrt_eq_iff_eq_sq] <;> norm_num [sqLength]
  have hn : -(normalize ((⟨0, 0, 0⟩ : V3 ℝ) - ⟨0, 0, 2⟩)) = ⟨0, 0, 1⟩ := by
    rw [normalize_eq hne.symm, hl]
    apply V3.ext <;> norm_num
  have hn1 : normalize (⟨0, 0, 1⟩ : V3 ℝ) = ⟨0, 0, 1⟩ := by
    have : Geom.length (⟨0, 0, 1⟩ : V3 ℝ) = 1 := by unfold Geom.length; rw [Real.sqrt_eq_one]; norm_num [sqLength]
    simp [Geom.normalize, this]
  have hf : falloff id 0 (1/2) (-(normalize ((⟨0, 0, 0⟩ : V3 ℝ) - ⟨0, 0, 2⟩))) = some 1 := by
    rw [hn]
    simp only [falloff, id, hn1, falloffCos]
    norm_num
  have := (C97_sample_l_iff id _ _ (fun _ => (1:ℝ)) 0 (1/2) () 1 hne one_ne_zero hf one_pos).1
    (H _ _ (fun _ => 1) 0 (1/2) 1 hne (by norm_num) hf)
  rw [hl] at this
  norm_num at this

end Verif.Light
