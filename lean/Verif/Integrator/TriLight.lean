import Verif.Integrator.SphereLight
import Verif.Shape.TriLaw

/-!
# Light from an area light made of triangles (C173)

`estimate_direct` (`pytracer/integrator/utility.py:203-257`) with `DiffuseAreaLight.sample_l` (`pytracer/light/light.py:514-521`) on a `TriangleMesh`, which `ShapeSet` (`pytracer/light/utility.py:78-132`) splits into its triangles;
averaged over the three numbers that choose the triangle and the point on it.  Real arithmetic.
-/
namespace Verif.Integrator
open Verif V3 Verif.Geom Verif.Light Bsdf
open MeasureTheory Set
open Verif.Shape (Mesh pyGet InTriangle shapePdfP)
set_option linter.unusedSimpArgs false

section
variable {ι : Type}

/-! ### Model -/

/-- `coordinate_system(normalize(v))`, the two new vectors (`triangle.py:216-218`) -/
noncomputable def frameOf (v : V3 ℝ) : V3 ℝ × V3 ℝ := ((coordinateSystem (Geom.normalize v)).2.1, (coordinateSystem (Geom.normalize v)).2.2)

/-- `Triangle.intersect` (`triangle.py:173-243`) as `Shape.pdf_p` uses it: the parameter of the hit and `dg.nn` (`geometry/diffgeom.py:30-39`).  `flip` is `ro ^ transform_swaps_handedness`.  An `IndexError` counts as a miss here; under the
hypotheses of the theorems there is none. -/
noncomputable def triIsect (m : Mesh ℝ) (v : ℕ) (flip : Bool) (r : Shape.Ray ℝ) : Option (ℝ × V3 ℝ) :=
  match Shape.intersect frameOf m v r with
  | .hit (t, _, g) => some (t, if flip then (-1 : ℝ) * Geom.normalize (cross g.dpdu g.dpdv) else Geom.normalize (cross g.dpdu g.dpdv))
  | _ => none

/-- `Triangle.area` (`triangle.py:317-321`) of a triangle of the mesh -/
noncomputable def triArea (m : Mesh ℝ) (v : ℕ) : ℝ :=
  match m.vertex v 0, m.vertex v 1, m.vertex v 2 with
  | some p1, some p2, some p3 => Shape.area p1 p2 p3
  | _, _, _ => 0

/-- a triangle of the mesh as a member of a `ShapeSet`: `area`, `sample_p` (which is `sample`, `shape/__init__.py:104-112`) and `pdf_p` (`shape/__init__.py:122-140`) -/
noncomputable def triEmitter (m : Mesh ℝ) (ro flip : Bool) (v : ℕ) : Emitter :=
  ⟨triArea m v, fun _ u0 u1 => (Shape.sample m v ro u0 u1).getD (0, 0), shapePdfP (triIsect m v flip) (triArea m v)⟩

/-- the `ShapeSet` of the triangles with the offsets `vs` (`light/utility.py:78-99`) -/
noncomputable def meshSet (m : Mesh ℝ) (ro flip : Bool) (vs : List ℕ) : ShapeSet := ShapeSet.mk' (vs.map (triEmitter m ro flip))

/-- `estimate_direct` for a `DiffuseAreaLight` (`integrator/utility.py:203-257`, `light/light.py:514-521`), arguments as in `sphereEstimate` -/
noncomputable def areaEstimate (emit : ι → ℝ) (set : ShapeSet) (unocc : Shape.Ray ℝ → Bool) (T : Shape.Ray ℝ → ι → ℝ) (b : BSDF (ι → ℝ)) (p : V3 ℝ) (pEps : ℝ) (wo n : V3 ℝ) (v0 v1 vCom u0 u1 uCom : ℝ) : Option (ι → ℝ) :=
  match areaSample emit set p pEps u0 u1 uCom with
  | .error _ => none
  | .ok ls => estimateDirect ls b wo n false (unocc ls.vis) (T ls.vis) (areaPdf set p) v0 v1 vCom directFlags

/-! ### Specification -/

/-- three corners -/
structure Corners where
  a : V3 ℝ
  b : V3 ℝ
  c : V3 ℝ

/-- the pairs of barycentric coordinates of a triangle -/
def Bary : Set (ℝ × ℝ) := {b | 0 ≤ b.1 ∧ 0 ≤ b.2 ∧ b.1 + b.2 ≤ 1}

/-- the point with the given barycentric coordinates -/
noncomputable def Corners.at (k : Corners) (b : ℝ × ℝ) : V3 ℝ := b.1 * k.a + b.2 * k.b + (1 - b.1 - b.2) * k.c

/-- the unit normal -/
noncomputable def Corners.normal (k : Corners) : V3 ℝ := Geom.normalize (cross (k.b - k.a) (k.c - k.a))

/-- half the product of base and height -/
noncomputable def Corners.area (k : Corners) : ℝ := Shape.area k.a k.b k.c

/-- the integral of `g` over the surface of the triangle (the map from the barycentric coordinates multiplies areas by twice the triangle's area) -/
noncomputable def Corners.surfaceIntegral (k : Corners) (g : V3 ℝ → ℝ) : ℝ := 2 * k.area * ∫ b in Bary, g (k.at b)

/-- `v` is the offset of a triangle of the mesh with the corners `k`: not degenerate, with texture coordinates, not masked, and with a second vertex number that follows the first (see `C71_wrong_vertex_false`) -/
structure Piece (m : Mesh ℝ) (v : ℕ) (k : Corners) : Prop where
  a : m.vertex v 0 = some k.a
  b : m.vertex v 1 = some k.b
  c : m.vertex v 2 = some k.c
  next : ∃ i : ℤ, pyGet m.vi v = some i ∧ pyGet m.vi (v + (1 : ℕ)) = some (i + 1)
  uv : (m.getUvs v).isSome
  plain : m.alpha = none
  flat : cross (k.b - k.a) (k.c - k.a) ≠ 0

open Classical in
/-- the light that a surface with BSDF `b` at `p` sends towards `wo` out of what arrives from the point `q` of a one-sided light with unit normal `nq` there, per unit of the light's area (values that the code takes as black are taken as zero) -/
noncomputable def perArea (emit : ι → ℝ) (unocc : Shape.Ray ℝ → Bool) (T : Shape.Ray ℝ → ι → ℝ) (b : BSDF (ι → ℝ)) (p : V3 ℝ) (pEps : ℝ) (wo n : V3 ℝ) (c : ι) (nq q : V3 ℝ) : ℝ :=
  if 0 < dot nq (p - q) ∧ unocc (setSegment p pEps q Light.eps) = true ∧ ¬ Black (b.f wo (Geom.normalize (q - p)) directFlags) then
    b.f wo (Geom.normalize (q - p)) directFlags c * emit c * T (setSegment p pEps q Light.eps) c * |dot (Geom.normalize (q - p)) n| * (dot nq (Geom.normalize (p - q)) / sqLength (q - p)) else 0

/-! ### One triangle -/

theorem unit_of_ne {v : V3 ℝ} (h : v ≠ 0) : sqLength (Geom.normalize v) = 1 ∧ Geom.length v * Geom.normalize v = v ∧ 0 < Geom.length v := by
  obtain ⟨n1, n2, n3⟩ := (C06_normalize _).1 h
  refine ⟨?_, n2, n3⟩
  have := Real.sq_sqrt (sqLength_nonneg (Geom.normalize v))
  rw [Geom.length] at n1; rw [n1] at this; linarith

/-- scaling a vector changes its direction by the sign at most -/
theorem absDot_scaled {k : ℝ} {v : V3 ℝ} (hk : k ≠ 0) (hv : v ≠ 0) (w : V3 ℝ) : |dot (Geom.normalize (k * v)) w| = |dot (Geom.normalize v) w| := by
  have hkv : k * v ≠ 0 := fun h => hv (by
    have hx := congrArg V3.x h
    have hy := congrArg V3.y h
    have hz := congrArg V3.z h
    simp [hk] at hx hy hz
    ext <;> assumption)
  obtain ⟨-, a2, a3⟩ := unit_of_ne hv
  obtain ⟨-, b2, b3⟩ := unit_of_ne hkv
  have hl : Geom.length (k * v) = |k| * Geom.length v := by
    rw [Geom.length, Geom.length, show sqLength (k * v) = k ^ 2 * sqLength v by simp only [sqLength, smul_x, smul_y, smul_z]; ring, Real.sqrt_mul (sq_nonneg k), Real.sqrt_sq_eq_abs]
  have e : Geom.length (k * v) * dot (Geom.normalize (k * v)) w = k * (Geom.length v * dot (Geom.normalize v) w) := by
    have h1 : Geom.length (k * v) * dot (Geom.normalize (k * v)) w = dot (Geom.length (k * v) * Geom.normalize (k * v)) w := by simp only [dot, smul_x, smul_y, smul_z]; ring
    have h2 : Geom.length v * dot (Geom.normalize v) w = dot (Geom.length v * Geom.normalize v) w := by simp only [dot, smul_x, smul_y, smul_z]; ring
    rw [h1, h2, a2, b2]
    simp only [dot, smul_x, smul_y, smul_z]; ring
  rw [hl] at e
  have hk' : 0 < |k| := abs_pos.2 hk
  have h3 := congrArg abs e
  rw [abs_mul, abs_mul, abs_mul, abs_mul, abs_abs, abs_of_pos a3, mul_assoc] at h3
  exact mul_left_cancel₀ a3.ne' (mul_left_cancel₀ hk'.ne' h3)

/-- the normal that a hit reports is that of the triangle, up to its sign -/
theorem hit_normal (k : Corners) (hf : cross (k.b - k.a) (k.c - k.a) ≠ 0) (uvs : (ℝ × ℝ) × (ℝ × ℝ) × (ℝ × ℝ)) (r : Shape.Ray ℝ) (t b1 b2 : ℝ) (flip : Bool) (w : V3 ℝ) :
    |dot (if flip then (-1 : ℝ) * Geom.normalize (cross (Shape.geoOf frameOf k.a k.b k.c uvs r t b1 b2).dpdu (Shape.geoOf frameOf k.a k.b k.c uvs r t b1 b2).dpdv) else
      Geom.normalize (cross (Shape.geoOf frameOf k.a k.b k.c uvs r t b1 b2).dpdu (Shape.geoOf frameOf k.a k.b k.c uvs r t b1 b2).dpdv)) w| = |dot k.normal w| := by
  have hfl : ∀ v : V3 ℝ, |dot (if flip then (-1 : ℝ) * v else v) w| = |dot v w| := fun v => by
    cases flip
    · simp
    · have : dot ((-1 : ℝ) * v) w = -dot v w := by simp only [dot, smul_x, smul_y, smul_z]; ring
      simp only [if_true, this, abs_neg]
  rw [hfl]
  obtain ⟨⟨u0, v0⟩, ⟨u1, v1⟩, ⟨u2, v2⟩⟩ := uvs
  simp only [Shape.geoOf]
  by_cases hd : (u0 - u2) * (v1 - v2) - (u1 - u2) * (v0 - v2) = 0
  · simp only [hd, if_true, frameOf]
    have hneg : cross (k.c - k.a) (k.b - k.a) = (-1 : ℝ) * cross (k.b - k.a) (k.c - k.a) := by
      ext <;> simp only [cross, smul_x, smul_y, smul_z, sub_x, sub_y, sub_z] <;> ring
    have hne : cross (k.c - k.a) (k.b - k.a) ≠ 0 := fun h => hf (by
      rw [hneg] at h
      have hx := congrArg V3.x h
      have hy := congrArg V3.y h
      have hz := congrArg V3.z h
      simp at hx hy hz
      ext <;> assumption)
    obtain ⟨n1, -, -⟩ := (C06_normalize _).1 hne
    obtain ⟨f1, ⟨g1, g2, g3, g4, g5, g6⟩, f3⟩ := C05_frame_orthonormal _ n1
    rw [f1] at f3 g4
    have e : cross (coordinateSystem (Geom.normalize (cross (k.c - k.a) (k.b - k.a)))).2.1 (coordinateSystem (Geom.normalize (cross (k.c - k.a) (k.b - k.a)))).2.2 = Geom.normalize (cross (k.c - k.a) (k.b - k.a)) := by
      rw [f3]
      generalize (coordinateSystem (Geom.normalize (cross (k.c - k.a) (k.b - k.a)))).2.1 = y at *
      generalize Geom.normalize (cross (k.c - k.a) (k.b - k.a)) = x at *
      have hy : sqLength y = 1 := by
        have := Real.sq_sqrt (sqLength_nonneg y)
        rw [Geom.length] at g2; rw [g2] at this; linarith
      simp only [sqLength, dot] at hy g4
      ext
      · simp only [cross]; linear_combination x.x * hy - y.x * g4
      · simp only [cross]; linear_combination x.y * hy - y.y * g4
      · simp only [cross]; linear_combination x.z * hy - y.z * g4
    have hnn : Geom.normalize (Geom.normalize (cross (k.c - k.a) (k.b - k.a))) = Geom.normalize (cross (k.c - k.a) (k.b - k.a)) := by
      have hz : Geom.normalize (cross (k.c - k.a) (k.b - k.a)) ≠ 0 := fun h => by rw [h] at n1; simp [Geom.length, sqLength] at n1
      obtain ⟨-, k2, -⟩ := (C06_normalize _).1 hz
      rw [n1] at k2
      conv_rhs => rw [← k2]
      ext <;> simp
    rw [e, hnn, hneg, absDot_scaled (by norm_num) hf]; rfl
  · simp only [hd, if_false]
    have e : cross ((1 / ((u0 - u2) * (v1 - v2) - (u1 - u2) * (v0 - v2))) * ((v1 - v2) * (k.a - k.c) - (v0 - v2) * (k.b - k.c)))
        ((1 / ((u0 - u2) * (v1 - v2) - (u1 - u2) * (v0 - v2))) * ((-(u1 - u2)) * (k.a - k.c) + (u0 - u2) * (k.b - k.c))) =
        (1 / ((u0 - u2) * (v1 - v2) - (u1 - u2) * (v0 - v2))) * cross (k.b - k.a) (k.c - k.a) := by
      generalize hD : (u0 - u2) * (v1 - v2) - (u1 - u2) * (v0 - v2) = D at *
      have h2 : (1 / D) * (1 / D) * ((u0 - u2) * (v1 - v2) - (u1 - u2) * (v0 - v2)) = 1 / D := by rw [hD]; field_simp
      ext
      · simp only [cross, smul_x, smul_y, smul_z, sub_x, sub_y, sub_z, add_x, add_y, add_z]
        linear_combination ((k.b.y - k.a.y) * (k.c.z - k.a.z) - (k.b.z - k.a.z) * (k.c.y - k.a.y)) * h2
      · simp only [cross, smul_x, smul_y, smul_z, sub_x, sub_y, sub_z, add_x, add_y, add_z]
        linear_combination ((k.b.z - k.a.z) * (k.c.x - k.a.x) - (k.b.x - k.a.x) * (k.c.z - k.a.z)) * h2
      · simp only [cross, smul_x, smul_y, smul_z, sub_x, sub_y, sub_z, add_x, add_y, add_z]
        linear_combination ((k.b.x - k.a.x) * (k.c.y - k.a.y) - (k.b.y - k.a.y) * (k.c.x - k.a.x)) * h2
    rw [e, absDot_scaled (one_div_ne_zero hd) hf]; rfl

theorem Corners.in_triangle (k : Corners) {b : ℝ × ℝ} (hb : b ∈ Bary) : InTriangle k.a k.b k.c (k.at b) := Shape.inTriangle_of hb.1 hb.2.1 hb.2.2

theorem Piece.area_eq {m : Mesh ℝ} {v : ℕ} {k : Corners} (h : Piece m v k) : triArea m v = k.area ∧ 0 < k.area := by
  refine ⟨by simp only [triArea, h.a, h.b, h.c]; rfl, ?_⟩
  rw [Corners.area, Shape.area]
  have := (unit_of_ne h.flat).2.2
  linarith

theorem Piece.sample_eq {m : Mesh ℝ} {v : ℕ} {k : Corners} (h : Piece m v k) (ro : Bool) (u0 u1 : ℝ) :
    Shape.sample m v ro u0 u1 = some (k.at (MC.triangle u0 u1), if ro then (-1 : ℝ) * k.normal else k.normal) := by
  obtain ⟨i, hi, hi'⟩ := h.next
  have hq : (pyGet m.vi v).bind (fun i => pyGet m.p (i + 1)) = some k.b := by
    rw [hi, Option.bind_some]
    have := h.b
    rw [Mesh.vertex, hi', Option.bind_some] at this
    exact this
  simp only [Shape.sample, h.a, h.b, h.c, hq]; rfl

/-- the cosine at the light does not depend on the point: the distance from the plane -/
theorem plane_dist (k : Corners) (hf : cross (k.b - k.a) (k.c - k.a) ≠ 0) (p : V3 ℝ) (b : ℝ × ℝ) : dot k.normal (p - k.at b) = dot k.normal (p - k.a) := by
  obtain ⟨-, n2, n3⟩ := unit_of_ne hf
  have h1 : dot (Geom.length (cross (k.b - k.a) (k.c - k.a)) * k.normal) (p - k.at b) = dot (Geom.length (cross (k.b - k.a) (k.c - k.a)) * k.normal) (p - k.a) := by
    rw [Corners.normal, n2]
    simp only [Corners.at, dot, cross, add_x, add_y, add_z, sub_x, sub_y, sub_z, smul_x, smul_y, smul_z]; ring
  have h2 : ∀ w, dot (Geom.length (cross (k.b - k.a) (k.c - k.a)) * k.normal) w = Geom.length (cross (k.b - k.a) (k.c - k.a)) * dot k.normal w := fun w => by simp only [dot, smul_x, smul_y, smul_z]; ring
  rw [h2, h2] at h1
  exact mul_left_cancel₀ n3.ne' h1

/-- seen from a point off its plane, the density of a triangle in the direction of one of its points -/
theorem Piece.pdf_at {m : Mesh ℝ} {v : ℕ} {k : Corners} (h : Piece m v k) (flip : Bool) (p : V3 ℝ) (hp : 1 / 100000 ≤ |dot k.normal (p - k.a)|) {b : ℝ × ℝ} (hb : b ∈ Bary) :
    p ≠ k.at b ∧ dot k.normal (Geom.normalize (k.at b - p)) ≠ 0 ∧
    k.area * shapePdfP (triIsect m v flip) k.area p (Geom.normalize (k.at b - p)) = sqLength (k.at b - p) / |dot k.normal (Geom.normalize (k.at b - p))| := by
  have hpl := plane_dist k h.flat p b
  have hne : k.at b - p ≠ 0 := fun e => by
    have : p - k.at b = 0 := by
      have hx := congrArg V3.x e
      have hy := congrArg V3.y e
      have hz := congrArg V3.z e
      simp at hx hy hz
      ext <;> simp <;> linarith
    rw [this] at hpl
    rw [← hpl] at hp
    simp [dot] at hp
    norm_num at hp
  obtain ⟨w1, w2, w3⟩ := unit_of_ne hne
  obtain ⟨nn1, -, -⟩ := unit_of_ne h.flat
  set w := Geom.normalize (k.at b - p) with hw
  set L := Geom.length (k.at b - p) with hL
  have hdot : L * dot k.normal w = -dot k.normal (p - k.a) := by
    rw [← hpl]
    have : L * dot k.normal w = dot k.normal (L * w) := by simp only [dot, smul_x, smul_y, smul_z]; ring
    rw [this, w2]; simp only [dot, sub_x, sub_y, sub_z]; ring
  have hn0 : dot k.normal w ≠ 0 := fun e => by
    rw [e, mul_zero] at hdot
    have : dot k.normal (p - k.a) = 0 := by linarith
    rw [this, abs_zero] at hp; norm_num at hp
  have hLbig : 1 / 100000 ≤ L := by
    have h1 := (C06_abs_dot k.normal w).2.2
    rw [absDot, Corners.normal, Geom.length, Geom.length, nn1, w1, Real.sqrt_one, mul_one] at h1
    have h2 := congrArg abs hdot
    rw [abs_mul, abs_neg, abs_of_pos w3] at h2
    rw [← h2] at hp
    have : L * |dot k.normal w| ≤ L * 1 := mul_le_mul_of_nonneg_left h1 w3.le
    linarith
  obtain ⟨uvs, huv⟩ := Option.isSome_iff_exists.1 h.uv
  obtain ⟨b1, b2, c1, c2, c3, c4⟩ := k.in_triangle hb
  have hT : Shape.Transversal k.a k.b k.c w := fun e => hn0 (by
    obtain ⟨-, n2, n3⟩ := unit_of_ne h.flat
    have : Geom.length (cross (k.b - k.a) (k.c - k.a)) * dot k.normal w = 0 := by
      rw [← e]
      conv_rhs => rw [← n2]
      simp only [Corners.normal, dot, smul_x, smul_y, smul_z]; ring
    exact (mul_eq_zero.1 this).resolve_left n3.ne')
  have hc := (Shape.core_iff k.a k.b k.c ⟨p, w, Shape.eps, ⊤⟩ L b1 b2).2 ⟨hT, ⟨hLbig, le_top⟩, c1, c2, c3, by
    rw [← c4]
    have : rayAt p w L = p + L * w := by ext <;> simp [rayAt] <;> ring
    show rayAt p w L = k.at b
    rw [this, w2]; ext <;> simp⟩
  have hi : triIsect m v flip ⟨p, w, Shape.eps, ⊤⟩ = some (L, if flip then (-1 : ℝ) * Geom.normalize (cross (Shape.geoOf frameOf k.a k.b k.c uvs ⟨p, w, Shape.eps, ⊤⟩ L b1 b2).dpdu (Shape.geoOf frameOf k.a k.b k.c uvs ⟨p, w, Shape.eps, ⊤⟩ L b1 b2).dpdv) else
      Geom.normalize (cross (Shape.geoOf frameOf k.a k.b k.c uvs ⟨p, w, Shape.eps, ⊤⟩ L b1 b2).dpdu (Shape.geoOf frameOf k.a k.b k.c uvs ⟨p, w, Shape.eps, ⊤⟩ L b1 b2).dpdv)) := by
    simp only [triIsect, Shape.intersect, h.a, h.b, h.c, hc, huv, h.plain]
  refine ⟨fun e => hne (by rw [e]; ext <;> simp), hn0, ?_⟩
  have hpos := h.area_eq.2
  have hq : sqLength (p - (⟨p, w, Shape.eps, ⊤⟩ : Shape.Ray ℝ).pos L) = sqLength (k.at b - p) := by
    have : (⟨p, w, Shape.eps, ⊤⟩ : Shape.Ray ℝ).pos L = p + L * w := by ext <;> simp [Shape.Ray.pos, rayAt] <;> ring
    rw [this, w2]; simp only [sqLength, add_x, add_y, add_z, sub_x, sub_y, sub_z]; ring
  have hneg : ∀ x : V3 ℝ, |dot x (-w)| = |dot x w| := fun x => by
    rw [show dot x (-w) = -dot x w by simp only [dot, neg_x, neg_y, neg_z]; ring, abs_neg]
  have hn0' : 0 < |dot k.normal w| := abs_pos.2 hn0
  simp only [shapePdfP, hi, hq, absDot]
  rw [hneg, hit_normal k h.flat]
  field_simp

/-- a triangle that the ray does not meet has density zero -/
theorem pdf_miss {m : Mesh ℝ} {v : ℕ} {k : Corners} (ha : m.vertex v 0 = some k.a) (hb : m.vertex v 1 = some k.b) (hc' : m.vertex v 2 = some k.c) (flip : Bool) (p w : V3 ℝ)
    (hmiss : ∀ t : ℝ, 1 / 100000 ≤ t → ¬ InTriangle k.a k.b k.c (p + t * w)) (ar : ℝ) : shapePdfP (triIsect m v flip) ar p w = 0 := by
  have hc : Shape.core k.a k.b k.c ⟨p, w, Shape.eps, ⊤⟩ = none := by
    cases hc : Shape.core k.a k.b k.c ⟨p, w, Shape.eps, ⊤⟩ with
    | none => rfl
    | some x =>
      obtain ⟨t, b1, b2⟩ := x
      obtain ⟨-, ⟨r1, -⟩, c1, c2, c3, c4⟩ := (Shape.core_iff _ _ _ _ _ _ _).1 hc
      refine absurd ⟨b1, b2, c1, c2, c3, ?_⟩ (hmiss t r1)
      rw [← c4]; ext <;> simp [rayAt] <;> ring
  have hi : triIsect m v flip ⟨p, w, Shape.eps, ⊤⟩ = none := by
    simp only [triIsect, Shape.intersect, ha, hb, hc', hc]
  simp only [shapePdfP, hi]

theorem Piece.pdf_miss {m : Mesh ℝ} {v : ℕ} {k : Corners} (h : Piece m v k) (flip : Bool) (p w : V3 ℝ) (hmiss : ∀ t : ℝ, 1 / 100000 ≤ t → ¬ InTriangle k.a k.b k.c (p + t * w)) : shapePdfP (triIsect m v flip) k.area p w = 0 :=
  Verif.Integrator.pdf_miss h.a h.b h.c flip p w hmiss _

/-! ### The mean -/

/-- the normal that the light is given -/
noncomputable def Corners.side (k : Corners) (ro : Bool) : V3 ℝ := if ro then (-1 : ℝ) * k.normal else k.normal

/-- the value of the estimate for one triangle and one pair of barycentric coordinates, before the densities are worked out -/
noncomputable def rawVal (emit : ι → ℝ) (set : ShapeSet) (unocc : Shape.Ray ℝ → Bool) (T : Shape.Ray ℝ → ι → ℝ) (b : BSDF (ι → ℝ)) (p : V3 ℝ) (pEps : ℝ) (wo n : V3 ℝ) (c : ι) (nq q : V3 ℝ) : ℝ :=
  misWeight (set.pdf p (Geom.normalize (q - p))) (b.pdf wo (Geom.normalize (q - p)) directFlags) *
    unweighted ⟨areaL emit nq (-(Geom.normalize (q - p))), Geom.normalize (q - p), set.pdf p (Geom.normalize (q - p)), setSegment p pEps q Light.eps⟩ b wo n (unocc (setSegment p pEps q Light.eps)) (T (setSegment p pEps q Light.eps)) directFlags c

theorem estimate_raw (emit : ι → ℝ) (set : ShapeSet) (unocc : Shape.Ray ℝ → Bool) (T : Shape.Ray ℝ → ι → ℝ) (b : BSDF (ι → ℝ)) (hh : Hands b) (p : V3 ℝ) (pEps : ℝ) (wo n : V3 ℝ) (v0 v1 vCom u0 u1 uCom : ℝ)
    (hv0 : 0 ≤ vCom) (hv1 : vCom < 1) (q nq : V3 ℝ) (hs : set.sampleP p u0 u1 uCom = .ok (q, nq)) (c : ι) :
    valOf (areaEstimate emit set unocc T b p pEps wo n v0 v1 vCom u0 u1 uCom) c = rawVal emit set unocc T b p pEps wo n c nq q := by
  simp only [areaEstimate, areaSample, hs, bind, Except.bind, pure, Except.pure, C101_area_light_weighted _ b wo n _ _ _ v0 v1 vCom hv0 hv1 hh, valOf, rawVal]

theorem raw_lit (emit : ι → ℝ) (hem : ¬ Black emit) (set : ShapeSet) (unocc : Shape.Ray ℝ → Bool) (T : Shape.Ray ℝ → ι → ℝ) (b : BSDF (ι → ℝ)) (p : V3 ℝ) (pEps : ℝ) (wo n : V3 ℝ) (c : ι) (nq q : V3 ℝ) (hne : q - p ≠ 0) (A : ℝ) (hA : 0 < A)
    (hn : dot nq (Geom.normalize (q - p)) ≠ 0) (hpdf : set.pdf p (Geom.normalize (q - p)) = sqLength (q - p) / |dot nq (Geom.normalize (q - p))| / A) :
    rawVal emit set unocc T b p pEps wo n c nq q =
      A * (misWeight (sqLength (q - p) / (|dot nq (Geom.normalize (q - p))| * A)) (b.pdf wo (Geom.normalize (q - p)) directFlags) * perArea emit unocc T b p pEps wo n c nq q) := by
  have hL : 0 < sqLength (q - p) := by
    obtain ⟨-, -, h⟩ := unit_of_ne hne
    have := Real.sqrt_pos.1 h
    exact this
  obtain ⟨w1, w2, w3⟩ := unit_of_ne hne
  have hn0 : 0 < |dot nq (Geom.normalize (q - p))| := abs_pos.2 hn
  have hpos : 0 < set.pdf p (Geom.normalize (q - p)) := by rw [hpdf]; positivity
  have hb0 : Black (fun _ : ι => (0 : ℝ)) := by intro c; simp [eps]
  have hneg : dot nq (-(Geom.normalize (q - p))) = -dot nq (Geom.normalize (q - p)) := by simp only [dot, neg_x, neg_y, neg_z]; ring
  have hpq : dot nq (p - q) = Geom.length (q - p) * -dot nq (Geom.normalize (q - p)) := by
    have : Geom.length (q - p) * -dot nq (Geom.normalize (q - p)) = dot nq (-(Geom.length (q - p) * Geom.normalize (q - p))) := by simp only [dot, smul_x, smul_y, smul_z, neg_x, neg_y, neg_z]; ring
    rw [this, w2]; simp only [dot, sub_x, sub_y, sub_z, neg_x, neg_y, neg_z]; ring
  have hrev : dot nq (Geom.normalize (p - q)) = -dot nq (Geom.normalize (q - p)) := by
    have hne' : p - q ≠ 0 := fun e => hne (by
      have hx := congrArg V3.x e
      have hy := congrArg V3.y e
      have hz := congrArg V3.z e
      simp at hx hy hz
      ext <;> simp <;> linarith)
    obtain ⟨-, r2, r3⟩ := unit_of_ne hne'
    have hl : Geom.length (p - q) = Geom.length (q - p) := by rw [Geom.length, Geom.length, sq_comm']
    have : Geom.length (q - p) * dot nq (Geom.normalize (p - q)) = dot nq (p - q) := by
      rw [← hl]
      have : Geom.length (p - q) * dot nq (Geom.normalize (p - q)) = dot nq (Geom.length (p - q) * Geom.normalize (p - q)) := by simp only [dot, smul_x, smul_y, smul_z]; ring
      rw [this, r2]
    rw [hpq] at this
    exact mul_left_cancel₀ w3.ne' this
  rw [rawVal, ← div_div, ← hpdf, mul_left_comm]
  congr 1
  simp only [unweighted, perArea]
  by_cases hside : 0 < dot nq (p - q)
  · have hs' : 0 < -dot nq (Geom.normalize (q - p)) := by
      rw [hpq] at hside
      exact pos_of_mul_pos_right hside w3.le
    have hl : areaL emit nq (-(Geom.normalize (q - p))) = emit := by rw [areaL, if_pos (by rw [hneg]; exact hs')]
    by_cases h : unocc (setSegment p pEps q Light.eps) = true ∧ ¬ Black (b.f wo (Geom.normalize (q - p)) directFlags)
    · rw [if_pos ⟨hpos, h.1, by rw [hl]; exact hem, h.2⟩, if_pos ⟨hside, h⟩, hpdf, hl, hrev, abs_of_neg (show dot nq (Geom.normalize (q - p)) < 0 by linarith)]
      have : dot nq (Geom.normalize (q - p)) ≠ 0 := hn
      field_simp
    · rw [if_neg (fun k => h ⟨k.2.1, k.2.2.2⟩), if_neg (fun k => h k.2), mul_zero]
  · have hs' : ¬ dot nq (-(Geom.normalize (q - p))) > 0 := by
      rw [hneg]
      intro h
      apply hside
      rw [hpq]
      exact mul_pos w3 h
    have hl : areaL emit nq (-(Geom.normalize (q - p))) = fun _ => 0 := by rw [areaL, if_neg hs']
    rw [if_neg (fun k => k.2.2.1 (by rw [hl]; exact hb0)), if_neg (fun k => hside k.1), mul_zero]

theorem sum_range_getD (l : List ℕ) (F : ℕ → ℝ) : ∑ k ∈ Finset.range l.length, F (l.getD k 0) = (l.map F).sum := by
  induction l with
  | nil => simp
  | cons a t ih =>
    rw [List.length_cons, Finset.sum_range_succ']
    simp only [List.getD_cons_succ, List.getD_cons_zero, List.map_cons, List.sum_cons]
    rw [ih]; ring

theorem meshSet_pdf (m : Mesh ℝ) (ro flip : Bool) (vs : List ℕ) (K : ℕ → Corners) (hP : ∀ v ∈ vs, Piece m v (K v)) (p w : V3 ℝ) :
    (meshSet m ro flip vs).pdf p w = (vs.map fun v => (K v).area * shapePdfP (triIsect m v flip) (K v).area p w).sum / (vs.map fun v => (K v).area).sum := by
  rw [meshSet, mk'_eq]
  simp only [ShapeSet.pdf, wsum_eq]
  simp only [List.map_map]
  congr 2
  · apply List.map_congr_left
    intro v hv
    simp only [Function.comp, triEmitter, (hP v hv).area_eq.1]
  · apply List.map_congr_left
    intro v hv
    simp only [Function.comp, triEmitter, (hP v hv).area_eq.1]

theorem sum_single (l : List ℕ) (i : ℕ) (hi : i < l.length) (F : ℕ → ℝ) (h : ∀ j (hj : j < l.length), j ≠ i → F l[j] = 0) : (l.map F).sum = F l[i] := by
  induction l generalizing i with
  | nil => simp at hi
  | cons a t ih =>
    cases i with
    | zero =>
      have : (t.map F).sum = 0 := by
        apply List.sum_eq_zero
        intro x hx
        obtain ⟨y, hy, rfl⟩ := List.mem_map.1 hx
        obtain ⟨j, hj, rfl⟩ := List.getElem_of_mem hy
        exact h (j + 1) (by simpa using hj) (by simp)
      simp [this]
    | succ i =>
      have h0 : F a = 0 := h 0 (by simp) (by simp)
      have := ih i (by simpa using hi) (fun j hj hne => h (j + 1) (by simpa using hj) (by simpa using hne))
      simp [h0, this]

/-- **C173** an area light made of triangles no two of which are behind each other as seen from `p`: the mean, over the three numbers that choose the triangle and the point on it, is the sum over the triangles of the integral over their
surface of the light that arrives from there and is reflected, with the cosine at the light over the squared distance: each visible point once, whatever the number and sizes of the triangles.
Missing: the factor of the multiple-importance weight (see C101), and triangles whose second vertex number does not follow the first (see `C173_wrong_vertex_false`). -/
theorem C173_mean_partial (emit : ι → ℝ) (hem : ¬ Black emit) (m : Mesh ℝ) (ro flip : Bool) (vs : List ℕ) (hvs : vs ≠ []) (K : ℕ → Corners) (hP : ∀ v ∈ vs, Piece m v (K v)) (unocc : Shape.Ray ℝ → Bool) (T : Shape.Ray ℝ → ι → ℝ)
    (b : BSDF (ι → ℝ)) (hh : Hands b) (p : V3 ℝ) (pEps : ℝ) (wo n : V3 ℝ) (v0 v1 vCom : ℝ) (hv0 : 0 ≤ vCom) (hv1 : vCom < 1) (hp : ∀ v ∈ vs, 1 / 100000 ≤ |dot (K v).normal (p - (K v).a)|)
    (hap : ∀ i j (hi : i < vs.length) (hj : j < vs.length), j ≠ i → ∀ᵐ x : ℝ × ℝ, x ∈ Bary → ∀ t : ℝ, 1 / 100000 ≤ t →
      ¬ InTriangle (K vs[j]).a (K vs[j]).b (K vs[j]).c (p + t * Geom.normalize ((K vs[i]).at x - p))) (c : ι) (A : ℝ) (hA : A = (vs.map fun v => (K v).area).sum) :
    ∫ uCom in (0 : ℝ)..1, ∫ u in Icc (0 : ℝ) 1 ×ˢ Icc (0 : ℝ) 1, valOf (areaEstimate emit (meshSet m ro flip vs) unocc T b p pEps wo n v0 v1 vCom u.1 u.2 uCom) c =
      (vs.map fun v => (K v).surfaceIntegral fun q =>
        misWeight (sqLength (q - p) / (|dot ((K v).side ro) (Geom.normalize (q - p))| * A)) (b.pdf wo (Geom.normalize (q - p)) directFlags) * perArea emit unocc T b p pEps wo n c ((K v).side ro) q).sum := by
  have hareas : (vs.map (triEmitter m ro flip)).map Emitter.area = vs.map fun v => (K v).area := by
    rw [List.map_map]
    apply List.map_congr_left
    intro v hv
    simp only [Function.comp, triEmitter, (hP v hv).area_eq.1]
  have hApos : 0 < A := by
    rw [hA]
    apply List.sum_pos
    · intro x hx
      obtain ⟨v, hv, rfl⟩ := List.mem_map.1 hx
      exact (hP v hv).area_eq.2
    · simpa using hvs
  have hnn : ∀ x ∈ vs.map fun v => (K v).area, 0 ≤ x := by
    intro x hx
    obtain ⟨v, hv, rfl⟩ := List.mem_map.1 hx
    exact (hP v hv).area_eq.2.le
  obtain ⟨idx, hidx, -⟩ := C98_pdf_is_mixture (vs.map (triEmitter m ro flip)) (by
      intro sh hsh
      obtain ⟨v, hv, rfl⟩ := List.mem_map.1 hsh
      show 0 ≤ triArea m v
      rw [(hP v hv).area_eq.1]; exact (hP v hv).area_eq.2.le) (by rw [hareas, ← hA]; exact hApos)
  -- the mean over the point, for one triangle
  set G : ℕ → ℝ := fun k => ∫ u in Icc (0 : ℝ) 1 ×ˢ Icc (0 : ℝ) 1, rawVal emit (meshSet m ro flip vs) unocc T b p pEps wo n c ((K (vs.getD k 0)).side ro) ((K (vs.getD k 0)).at (MC.triangle u.1 u.2)) with hG
  have step1 : ∫ uCom in (0 : ℝ)..1, ∫ u in Icc (0 : ℝ) 1 ×ˢ Icc (0 : ℝ) 1, valOf (areaEstimate emit (meshSet m ro flip vs) unocc T b p pEps wo n v0 v1 vCom u.1 u.2 uCom) c = ∫ uCom in (0 : ℝ)..1, G (idx uCom) := by
    apply intervalIntegral.integral_congr_ae
    rw [Set.uIoc_of_le zero_le_one]
    refine Filter.Eventually.of_forall fun uCom hu => ?_
    obtain ⟨-, sh, h2, -, h3⟩ := hidx uCom hu.1 hu.2
    simp only [hG]
    congr 1
    funext u
    rw [List.getElem?_map, Option.map_eq_some_iff] at h2
    obtain ⟨v, hv, rfl⟩ := h2
    have hv' : vs.getD (idx uCom) 0 = v := by rw [List.getD_eq_getElem?_getD, hv, Option.getD_some]
    rw [hv']
    have hs := h3 p u.1 u.2
    have hvm := List.mem_of_getElem? hv
    simp only [triEmitter, (hP v hvm).sample_eq, Option.getD_some] at hs
    exact estimate_raw emit _ unocc T b hh p pEps wo n v0 v1 vCom u.1 u.2 uCom hv0 hv1 _ _ hs c
  rw [step1, integral_choose (vs.map fun v => (K v).area) hnn (by rw [← hA]; exact hApos) G idx (by
    intro u h0 h1
    obtain ⟨h, -⟩ := hidx u h0 h1
    rw [mk'_eq, ShapeSet.choose, hareas] at h
    simp only at h
    cases hd : (Dist.D1.mk' (vs.map fun v => (K v).area)).sampleDis u with
    | error e => rw [hd] at h; simp [Except.map] at h
    | ok x =>
      rw [hd] at h
      simp only [Except.map, Except.ok.injEq] at h
      exact ⟨x.2, by rw [← h]⟩), ← hA, List.length_map, ← sum_range_getD vs]
  apply Finset.sum_congr rfl
  intro i hi
  have hi' := Finset.mem_range.1 hi
  have hget : vs.getD i 0 = vs[i] := by rw [List.getD_eq_getElem?_getD, List.getElem?_eq_getElem hi', Option.getD_some]
  have hget2 : (vs.map fun v => (K v).area).getD i 0 = (K vs[i]).area := by rw [List.getD_eq_getElem?_getD, List.getElem?_map, List.getElem?_eq_getElem hi']; rfl
  have hmem := List.getElem_mem hi'
  rw [hget2, hG]
  simp only [hget]
  rw [MC.C66_triangle_mean (fun x => rawVal emit (meshSet m ro flip vs) unocc T b p pEps wo n c ((K vs[i]).side ro) ((K vs[i]).at x)), Corners.surfaceIntegral]
  have hB : MeasurableSet Bary := (measurableSet_le measurable_const measurable_fst).inter ((measurableSet_le measurable_const measurable_snd).inter (measurableSet_le (measurable_fst.add measurable_snd) measurable_const))
  have hae : ∀ᵐ x : ℝ × ℝ, x ∈ Bary → ∀ j (hj : j < vs.length), j ≠ i → ∀ t : ℝ, 1 / 100000 ≤ t → ¬ InTriangle (K vs[j]).a (K vs[j]).b (K vs[j]).c (p + t * Geom.normalize ((K vs[i]).at x - p)) := by
    have : ∀ᵐ x : ℝ × ℝ, ∀ j : Fin vs.length, (j : ℕ) ≠ i → x ∈ Bary → ∀ t : ℝ, 1 / 100000 ≤ t → ¬ InTriangle (K vs[j]).a (K vs[j]).b (K vs[j]).c (p + t * Geom.normalize ((K vs[i]).at x - p)) := by
      rw [ae_all_iff]
      intro j
      by_cases hji : (j : ℕ) = i
      · exact Filter.Eventually.of_forall fun x h => absurd hji h
      · filter_upwards [hap i j hi' j.2 hji] with x hx _ using hx
    filter_upwards [this] with x hx hxb j hj hji
    exact hx ⟨j, hj⟩ hji hxb
  have hint : ∫ x in Bary, rawVal emit (meshSet m ro flip vs) unocc T b p pEps wo n c ((K vs[i]).side ro) ((K vs[i]).at x) = ∫ x in Bary, A * (misWeight (sqLength ((K vs[i]).at x - p) / (|dot ((K vs[i]).side ro) (Geom.normalize ((K vs[i]).at x - p))| * A))
      (b.pdf wo (Geom.normalize ((K vs[i]).at x - p)) directFlags) * perArea emit unocc T b p pEps wo n c ((K vs[i]).side ro) ((K vs[i]).at x)) := by
    apply setIntegral_congr_ae hB
    filter_upwards [hae] with x hx hxb
    obtain ⟨g1, g2, g3⟩ := (hP _ hmem).pdf_at flip p (hp _ hmem) hxb
    have hsd : ∀ w, |dot ((K vs[i]).side ro) w| = |dot (K vs[i]).normal w| := fun w => by
      cases ro
      · rfl
      · have : dot ((-1 : ℝ) * (K vs[i]).normal) w = -dot (K vs[i]).normal w := by simp only [dot, smul_x, smul_y, smul_z]; ring
        simp only [Corners.side, if_true, this, abs_neg]
    apply raw_lit emit hem
    · intro e
      exact g1 (by
        have hx := congrArg V3.x e
        have hy := congrArg V3.y e
        have hz := congrArg V3.z e
        simp at hx hy hz
        ext <;> linarith)
    · exact hApos
    · rw [← abs_pos, hsd, abs_pos]; exact g2
    · rw [meshSet_pdf m ro flip vs K hP, ← hA, hsd, ← g3,
        sum_single vs i hi' (fun v => (K v).area * shapePdfP (triIsect m v flip) (K v).area p (Geom.normalize ((K vs[i]).at x - p))) (fun j hj hne => by
          rw [(hP _ (List.getElem_mem hj)).pdf_miss flip p _ (hx hxb j hj hne), mul_zero])]
  rw [show {b : ℝ × ℝ | 0 ≤ b.1 ∧ 0 ≤ b.2 ∧ b.1 + b.2 ≤ 1} = Bary from rfl, hint, integral_const_mul]
  field_simp

/-! ### Examples and failures -/

/-- the ray from a point off the plane `z = 0` through a point of that plane meets the plane nowhere else -/
theorem through_plane (p q : V3 ℝ) (hq : q.z = 0) (hp : p.z ≠ 0) (t : ℝ) (h : (p + t * Geom.normalize (q - p)).z = 0) : p + t * Geom.normalize (q - p) = q := by
  have hne : q - p ≠ 0 := fun e => hp (by
    have hz := congrArg V3.z e
    simp [hq] at hz
    exact hz)
  obtain ⟨-, w2, w3⟩ := unit_of_ne hne
  have hz := congrArg V3.z w2
  simp only [smul_z, sub_z, hq, add_z, zero_sub] at hz h
  have ht : t = Geom.length (q - p) := by
    have h1 : (t - Geom.length (q - p)) * (Geom.normalize (q - p)).z = 0 := by linarith
    rcases mul_eq_zero.1 h1 with h2 | h2
    · linarith
    · rw [h2, mul_zero] at hz
      exact absurd (by linarith) hp
  rw [ht, w2]
  ext <;> simp

theorem off_axis : ∀ᵐ x : ℝ × ℝ, x.2 ≠ 0 := by
  rw [ae_iff]
  have : {x : ℝ × ℝ | ¬ x.2 ≠ 0} = univ ×ˢ {0} := by ext x; simp
  rw [this, Measure.volume_eq_prod, Measure.prod_prod]; simp

/-- a square light of two triangles -/
def square : Mesh ℝ := ⟨2, 4, [0, 1, 2, 2, 3, 0], [⟨0, 0, 0⟩, ⟨1, 0, 0⟩, ⟨1, 1, 0⟩, ⟨0, 1, 0⟩], none, none, id⟩

noncomputable def squareK (v : ℕ) : Corners := if v = 0 then ⟨⟨0, 0, 0⟩, ⟨1, 0, 0⟩, ⟨1, 1, 0⟩⟩ else ⟨⟨1, 1, 0⟩, ⟨0, 1, 0⟩, ⟨0, 0, 0⟩⟩

/-- the square light meets the hypotheses of `C173_mean_partial` as seen from every point that is not in its plane -/
theorem square_ok (p : V3 ℝ) (hp : 1 / 100000 ≤ |p.z|) : (∀ v ∈ [0, 3], Piece square v (squareK v)) ∧ (∀ v ∈ [0, 3], 1 / 100000 ≤ |dot (squareK v).normal (p - (squareK v).a)|) ∧
    ∀ i j (hi : i < [0, 3].length) (hj : j < [0, 3].length), j ≠ i → ∀ᵐ x : ℝ × ℝ, x ∈ Bary → ∀ t : ℝ, 1 / 100000 ≤ t →
      ¬ InTriangle (squareK [0, 3][j]).a (squareK [0, 3][j]).b (squareK [0, 3][j]).c (p + t * Geom.normalize ((squareK [0, 3][i]).at x - p)) := by
  have hp0 : p.z ≠ 0 := fun e => by rw [e, abs_zero] at hp; norm_num at hp
  have hc0 : cross ((squareK 0).b - (squareK 0).a) ((squareK 0).c - (squareK 0).a) = ⟨0, 0, 1⟩ := by ext <;> simp [squareK, cross]
  have hc3 : cross ((squareK 3).b - (squareK 3).a) ((squareK 3).c - (squareK 3).a) = ⟨0, 0, 1⟩ := by ext <;> simp [squareK, cross]
  have hz1 : (⟨0, 0, 1⟩ : V3 ℝ) ≠ 0 := fun h => by have := congrArg V3.z h; simp at this
  have hn1 : Geom.normalize (⟨0, 0, 1⟩ : V3 ℝ) = ⟨0, 0, 1⟩ := by
    have : Geom.length (⟨0, 0, 1⟩ : V3 ℝ) = 1 := by simp [Geom.length, sqLength]
    rw [Geom.normalize, this]; simp
  refine ⟨?_, ?_, ?_⟩
  · intro v hv
    simp only [List.mem_cons, List.not_mem_nil, or_false] at hv
    rcases hv with rfl | rfl
    · exact ⟨by simp [square, squareK, Mesh.vertex, pyGet], by simp [square, squareK, Mesh.vertex, pyGet], by simp [square, squareK, Mesh.vertex, pyGet], ⟨0, by simp [square, pyGet], by simp [square, pyGet]⟩, by simp [square, Mesh.getUvs],
        rfl, by rw [hc0]; exact hz1⟩
    · exact ⟨by simp [square, squareK, Mesh.vertex, pyGet], by simp [square, squareK, Mesh.vertex, pyGet], by simp [square, squareK, Mesh.vertex, pyGet], ⟨2, by simp [square, pyGet], by simp [square, pyGet]⟩, by simp [square, Mesh.getUvs],
        rfl, by rw [hc3]; exact hz1⟩
  · intro v hv
    simp only [List.mem_cons, List.not_mem_nil, or_false] at hv
    rcases hv with rfl | rfl
    · rw [Corners.normal, hc0, hn1]; simpa [dot, squareK] using hp
    · rw [Corners.normal, hc3, hn1]; simpa [dot, squareK] using hp
  · intro i j hi hj hji
    filter_upwards [off_axis] with x hx2 hx t ht
    have hx2' : 0 < x.2 := lt_of_le_of_ne hx.2.1 (Ne.symm hx2)
    rintro ⟨b1, b2, c1, c2, c3, e⟩
    simp only [List.length_cons, List.length_nil] at hi hj
    have hi2 : i = 0 ∨ i = 1 := by omega
    have hj2 : j = 0 ∨ j = 1 := by omega
    rcases hi2 with rfl | rfl <;> rcases hj2 with rfl | rfl
    · exact hji rfl
    · simp only [List.getElem_cons_zero, List.getElem_cons_succ] at e
      have hz : (p + t * Geom.normalize ((squareK 0).at x - p)).z = 0 := by rw [e]; simp [squareK, Shape.bary]
      rw [through_plane p _ (by simp [squareK, Corners.at]) hp0 t hz] at e
      have hx' := congrArg V3.x e
      have hy' := congrArg V3.y e
      simp [squareK, Corners.at, Shape.bary] at hx' hy'
      linarith
    · simp only [List.getElem_cons_zero, List.getElem_cons_succ] at e
      have hz : (p + t * Geom.normalize ((squareK 3).at x - p)).z = 0 := by rw [e]; simp [squareK, Shape.bary]
      rw [through_plane p _ (by simp [squareK, Corners.at]) hp0 t hz] at e
      have hx' := congrArg V3.x e
      have hy' := congrArg V3.y e
      simp [squareK, Corners.at, Shape.bary] at hx' hy'
      linarith
    · exact hji rfl

/-- the light above a table: every hypothesis of `C173_mean_partial` holds -/
example (unocc : Shape.Ray ℝ → Bool) (v0 v1 : ℝ) := C173_mean_partial (fun _ : Unit => (2 : ℝ)) (fun h => by have := h (); norm_num [eps] at this) square true true [0, 3] (by simp) squareK (square_ok ⟨0, 0, -1⟩ (by norm_num)).1 unocc (fun _ _ => 1)
  (matteBsdf (fun _ => 1 / 2) ⟨1, 0, 0⟩ ⟨0, 1, 0⟩ ⟨0, 0, 1⟩) (matte_hands _ _ _ _) ⟨0, 0, -1⟩ 0 ⟨0, 0, 1⟩ ⟨0, 0, 1⟩ v0 v1 0 le_rfl one_pos (square_ok ⟨0, 0, -1⟩ (by norm_num)).2.1 (square_ok ⟨0, 0, -1⟩ (by norm_num)).2.2 () _ rfl

/-- a mesh of one triangle, with the vertex numbers 0, 2, 3 -/
def skipping : Mesh ℝ := ⟨1, 4, [0, 2, 3], [⟨0, 0, 0⟩, ⟨-1, 0, 0⟩, ⟨1, 0, 0⟩, ⟨0, 1, 0⟩], none, none, id⟩

noncomputable def skippingK : Corners := ⟨⟨0, 0, 0⟩, ⟨1, 0, 0⟩, ⟨0, 1, 0⟩⟩

/-- **C173 fails** for triangles whose second vertex number does not follow the first: this light, a proper mesh of one triangle that `create_triangle_mesh` accepts, lights nothing, whatever the surface and whatever it emits,
although a matte surface below it that faces it should receive light from every one of its points. -/
theorem C173_wrong_vertex_false :
    Shape.create id id ⟨some [0, 2, 3], some (.points [⟨0, 0, 0⟩, ⟨-1, 0, 0⟩, ⟨1, 0, 0⟩, ⟨0, 1, 0⟩]), none, none, false, none, none, .absent⟩ = .ok skipping ∧
    (skipping.vertex 0 0 = some skippingK.a ∧ skipping.vertex 0 1 = some skippingK.b ∧ skipping.vertex 0 2 = some skippingK.c) ∧
    (∀ (emit : ι → ℝ) (ro flip : Bool) (unocc : Shape.Ray ℝ → Bool) (T : Shape.Ray ℝ → ι → ℝ) (b : BSDF (ι → ℝ)) (_ : Hands b) (p : V3 ℝ) (pEps : ℝ) (wo n : V3 ℝ) (v0 v1 vCom : ℝ) (_ : 0 ≤ vCom) (_ : vCom < 1) (_ : p.z ≠ 0) (c : ι),
      ∫ uCom in (0 : ℝ)..1, ∫ u in Icc (0 : ℝ) 1 ×ˢ Icc (0 : ℝ) 1, valOf (areaEstimate emit (meshSet skipping ro flip [0]) unocc T b p pEps wo n v0 v1 vCom u.1 u.2 uCom) c = 0) ∧
    ∀ q, InTriangle skippingK.a skippingK.b skippingK.c q →
      0 < perArea (fun _ : Unit => 1) (fun _ => true) (fun _ _ => 1) (matteBsdf (fun _ => 1) ⟨1, 0, 0⟩ ⟨0, 1, 0⟩ ⟨0, 0, -1⟩) ⟨0, 0, 1⟩ 0 ⟨0, 0, -1⟩ ⟨0, 0, -1⟩ () (skippingK.side false) q := by
  have ha : skipping.vertex 0 0 = some skippingK.a := by simp [skipping, skippingK, Mesh.vertex, pyGet]
  have hb : skipping.vertex 0 1 = some skippingK.b := by simp [skipping, skippingK, Mesh.vertex, pyGet]
  have hc : skipping.vertex 0 2 = some skippingK.c := by simp [skipping, skippingK, Mesh.vertex, pyGet]
  have hcr : cross (skippingK.b - skippingK.a) (skippingK.c - skippingK.a) = ⟨0, 0, 1⟩ := by ext <;> simp [skippingK, cross]
  have hz1 : (⟨0, 0, 1⟩ : V3 ℝ) ≠ 0 := fun h => by have := congrArg V3.z h; simp at this
  have hn1 : Geom.normalize (⟨0, 0, 1⟩ : V3 ℝ) = ⟨0, 0, 1⟩ := by
    have : Geom.length (⟨0, 0, 1⟩ : V3 ℝ) = 1 := by simp [Geom.length, sqLength]
    rw [Geom.normalize, this]; simp
  refine ⟨by simp [Shape.create, Shape.vertices, Shape.keepUv, skipping], ⟨ha, hb, hc⟩, ?_, ?_⟩
  · intro emit ro flip unocc T b hh p pEps wo n v0 v1 vCom hv0 hv1 hp c
    have harea : triArea skipping 0 = 1 / 2 := by
      simp only [triArea, ha, hb, hc, Shape.area, hcr]
      simp [Geom.length, sqLength]
    obtain ⟨idx, hidx, -⟩ := C98_pdf_is_mixture ([0].map (triEmitter skipping ro flip)) (by simp [triEmitter, harea]) (by simp [triEmitter, harea])
    have h0 : ∀ uCom ∈ Ioc (0 : ℝ) 1, ∫ u in Icc (0 : ℝ) 1 ×ˢ Icc (0 : ℝ) 1, valOf (areaEstimate emit (meshSet skipping ro flip [0]) unocc T b p pEps wo n v0 v1 vCom u.1 u.2 uCom) c = 0 := by
      intro uCom hu
      obtain ⟨-, sh, h2, -, h3⟩ := hidx uCom hu.1 hu.2
      have hsh : sh = triEmitter skipping ro flip 0 := by
        have := List.mem_of_getElem? h2
        simpa using this
      subst hsh
      have hae : ∀ᵐ u : ℝ × ℝ, u ∈ Icc (0 : ℝ) 1 ×ˢ Icc (0 : ℝ) 1 → valOf (areaEstimate emit (meshSet skipping ro flip [0]) unocc T b p pEps wo n v0 v1 vCom u.1 u.2 uCom) c = 0 := by
        have h1 : ∀ᵐ u : ℝ × ℝ, u.1 ≠ 0 := by
          rw [ae_iff]
          have : {x : ℝ × ℝ | ¬ x.1 ≠ 0} = {0} ×ˢ univ := by ext x; simp
          rw [this, Measure.volume_eq_prod, Measure.prod_prod]; simp
        filter_upwards [h1, off_axis] with u hu1 hu2 hu
        have hs : (meshSet skipping ro flip [0]).sampleP p u.1 u.2 uCom = _ := h3 p u.1 u.2
        have hsm : Shape.sample skipping 0 ro u.1 u.2 = some ((MC.triangle u.1 u.2).1 * (⟨0, 0, 0⟩ : V3 ℝ) + (MC.triangle u.1 u.2).2 * (⟨-1, 0, 0⟩ : V3 ℝ) + (1 - (MC.triangle u.1 u.2).1 - (MC.triangle u.1 u.2).2) * (⟨0, 1, 0⟩ : V3 ℝ), skippingK.side ro) := by
          have hq : (pyGet skipping.vi (0 : ℕ)).bind (fun i => pyGet skipping.p (i + 1)) = some ⟨-1, 0, 0⟩ := by simp [skipping, pyGet]
          simp only [Shape.sample, ha, hb, hc, hq]; rfl
        simp only [triEmitter, hsm, Option.getD_some] at hs
        rw [estimate_raw emit _ unocc T b hh p pEps wo n v0 v1 vCom u.1 u.2 uCom hv0 hv1 _ _ hs c]
        have hb2 : 0 < (MC.triangle u.1 u.2).2 := mul_pos (lt_of_le_of_ne hu.2.1 (Ne.symm hu2)) (Real.sqrt_pos.2 (lt_of_le_of_ne hu.1.1 (Ne.symm hu1)))
        generalize MC.triangle u.1 u.2 = x at *
        have hpdf : (meshSet skipping ro flip [0]).pdf p (Geom.normalize (x.1 * (⟨0, 0, 0⟩ : V3 ℝ) + x.2 * (⟨-1, 0, 0⟩ : V3 ℝ) + (1 - x.1 - x.2) * (⟨0, 1, 0⟩ : V3 ℝ) - p)) = 0 := by
          rw [meshSet, mk'_eq]
          simp only [ShapeSet.pdf, wsum_eq]
          simp only [List.map_cons, List.map_nil, List.sum_cons, List.sum_nil, add_zero, triEmitter]
          rw [pdf_miss ha hb hc flip p _ (fun t _ => ?_), mul_zero, zero_div]
          rintro ⟨b1, b2, c1, c2, c3, e⟩
          rw [through_plane p _ (by simp) hp t (by rw [e]; simp [skippingK, Shape.bary])] at e
          have hx' := congrArg V3.x e
          simp [skippingK, Shape.bary] at hx'
          linarith
        simp [rawVal, unweighted, hpdf]
      rw [setIntegral_congr_ae (g := fun _ => (0 : ℝ)) (measurableSet_Icc.prod measurableSet_Icc) hae]; simp
    rw [intervalIntegral.integral_of_le zero_le_one, setIntegral_congr_fun (g := fun _ => (0 : ℝ)) measurableSet_Ioc h0]; simp
  · rintro q ⟨b1, b2, c1, c2, c3, rfl⟩
    set q := Shape.bary skippingK.a skippingK.b skippingK.c b1 b2 with hq
    have hqz : q.z = 0 := by simp [hq, skippingK, Shape.bary]
    have hne : q - ⟨0, 0, 1⟩ ≠ 0 := fun e => by
      have hz := congrArg V3.z e
      simp [hqz] at hz
    obtain ⟨w1, w2, w3⟩ := unit_of_ne hne
    have hwz : Geom.length (q - ⟨0, 0, 1⟩) * (Geom.normalize (q - ⟨0, 0, 1⟩)).z = -1 := by
      have := congrArg V3.z w2
      simpa [hqz] using this
    have hneg : (Geom.normalize (q - ⟨0, 0, 1⟩)).z < 0 := by nlinarith
    have hwd : 0 < dot (Geom.normalize (q - ⟨0, 0, 1⟩)) ⟨0, 0, -1⟩ := by simp [dot]; exact hneg
    have hne' : (⟨0, 0, 1⟩ : V3 ℝ) - q ≠ 0 := fun e => by
      have hz := congrArg V3.z e
      simp [hqz] at hz
    obtain ⟨r1, r2, r3⟩ := unit_of_ne hne'
    have hrz : 0 < (Geom.normalize (⟨0, 0, 1⟩ - q)).z := by
      have := congrArg V3.z r2
      simp [hqz] at this
      nlinarith
    have hside : skippingK.side false = ⟨0, 0, 1⟩ := by
      simp only [Corners.side, Corners.normal, hcr, hn1, Bool.false_eq_true, if_false]
    have hb : ¬ Black fun _ : Unit => MC.invPi * (1 : ℝ) := fun h => by
      have := h ()
      have hp := Real.pi_le_four
      have hp0 := Real.pi_pos
      have h8 : (1 : ℝ) / 4 ≤ MC.invPi * 1 := by
        rw [MC.invPi, mul_one]
        exact one_div_le_one_div_of_le (by positivity) hp
      rw [abs_of_nonneg (by linarith)] at this
      norm_num [eps] at this
      linarith
    rw [hside, perArea, matte_f _ _ _ _ _ _ (by norm_num [dot]) hwd, if_pos ⟨by simp [dot, hqz], rfl, hb⟩]
    have hL : 0 < sqLength (q - ⟨0, 0, 1⟩) := Real.sqrt_pos.1 w3
    have hd : dot (⟨0, 0, 1⟩ : V3 ℝ) (Geom.normalize (⟨0, 0, 1⟩ - q)) = (Geom.normalize (⟨0, 0, 1⟩ - q)).z := by simp [dot]
    rw [hd]
    have hpi := Real.pi_pos
    have : 0 < MC.invPi := by rw [MC.invPi]; positivity
    have hwd' := abs_pos.2 hwd.ne'
    positivity

end
end Verif.Integrator
