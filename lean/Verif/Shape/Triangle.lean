import Verif.Base.V3
import Verif.BBox.Model
import Mathlib.Order.WithBot
import Mathlib.Algebra.Order.Field.Rat
import Mathlib.Tactic.LinearCombination
import Mathlib.Tactic.FieldSimp
import Mathlib.Tactic.NormNum
/-!
# Triangles (C40)

Models `pytracer/shape/triangle.py` `Triangle` 106-321 over an ordered field: `get_uvs` 125-131, `object_bound` 133-138, `world_bound` 140-144,
`intersect` 173-243, `intersect_p` 245-315.  Not modelled here: rounding; `sample` and `area` are in `Shape/TriSample.lean`, the mesh constructor in
`Shape/Mesh.lean`.
-/
set_option linter.unusedSectionVars false
namespace Verif.Shape
open V3

/-- Python list indexing: negative indices count from the end, otherwise `IndexError` (`none`) -/
def pyGet {α : Type*} (l : List α) (i : ℤ) : Option α :=
  if 0 ≤ i then l[i.toNat]? else if 0 ≤ i + l.length then l[(i + l.length).toNat]? else none

variable {K : Type*} [Field K] [LinearOrder K] [IsStrictOrderedRing K]

/-- the part of `DifferentialGeometry` a triangle hit fills in -/
structure Geo (K : Type*) where
  p : V3 K
  dpdu : V3 K
  dpdv : V3 K
  u : K
  v : K

/-- `TriangleMesh` (triangle.py 409-435): vertex indices, vertices in world space, texture coordinates, alpha texture; `w2o` is the world-to-object map -/
structure Mesh (K : Type*) where
  ntris : ℕ
  nverts : ℕ
  vi : List ℤ
  p : List (V3 K)
  uvs : Option (List K)
  alpha : Option (Geo K → K)
  w2o : V3 K → V3 K

/-- a ray: origin, direction, `mint`, `maxt` (which may be infinite) -/
structure Ray (K : Type*) where
  o : V3 K
  d : V3 K
  mint : K
  maxt : WithTop K

/-- outcome of an intersection test that can raise `IndexError` -/
inductive Out (α : Type*)
  | indexError
  | miss
  | hit (a : α)
deriving DecidableEq

/-- `self.mesh.p[self.mesh.vertexIndex[self.v + k]]`, e.g. triangle.py 179-181 -/
def Mesh.vertex (m : Mesh K) (v k : ℕ) : Option (V3 K) := (pyGet m.vi (v + k)).bind (pyGet m.p)

/-- `get_uvs`, triangle.py 125-131 -/
def Mesh.getUvs (m : Mesh K) (v : ℕ) : Option ((K × K) × (K × K) × (K × K)) :=
  match m.uvs with
  | none => some ((0, 0), (1, 0), (1, 1))
  | some l =>
    match pyGet l (2 * v), pyGet l (2 * v + 1), pyGet l (2 * (v + 1)), pyGet l (2 * (v + 1) + 1), pyGet l (2 * (v + 2)), pyGet l (2 * (v + 2) + 1) with
    | some a, some b, some c, some d, some e, some f => some ((a, b), (c, d), (e, f))
    | _, _, _, _, _, _ => none

/-- triangle.py 183-207: `t` and the barycentric coordinates `b1`, `b2` -/
def core (p1 p2 p3 : V3 K) (r : Ray K) : Option (K × K × K) :=
  let e1 := p2 - p1
  let e2 := p3 - p1
  let s1 := cross r.d e2
  let div := dot s1 e1
  if div = 0 then none else
  let divInv := 1 / div
  let d := r.o - p1
  let b1 := dot d s1 * divInv
  if b1 < 0 ∨ b1 > 1 then none else
  let s2 := cross d e1
  let b2 := dot r.d s2 * divInv
  if b2 < 0 ∨ b1 + b2 > 1 then none else
  let t := dot e2 s2 * divInv
  if t < r.mint ∨ (t : WithTop K) > r.maxt then none else some (t, b1, b2)

/-- triangle.py 210-235: the differential geometry; `frame` stands for `coordinate_system(normalize(·))` (last two results; `Verif.Geom` has
its model) -/
def geoOf (frame : V3 K → V3 K × V3 K) (p1 p2 p3 : V3 K) (uvs : (K × K) × (K × K) × (K × K)) (r : Ray K) (t b1 b2 : K) : Geo K :=
  let (uv0, uv1, uv2) := uvs
  let du1 := uv0.1 - uv2.1
  let du2 := uv1.1 - uv2.1
  let dv1 := uv0.2 - uv2.2
  let dv2 := uv1.2 - uv2.2
  let dp1 := p1 - p3
  let dp2 := p2 - p3
  let det := du1 * dv2 - du2 * dv1
  let f := if det = 0 then frame (cross (p3 - p1) (p2 - p1))
    else ((1 / det) * (dv2 * dp1 - dv1 * dp2), (1 / det) * ((-du2) * dp1 + du1 * dp2))
  let b0 := 1 - b1 - b2
  ⟨rayAt r.o r.d t, f.1, f.2, b0 * uv0.1 + b1 * uv1.1 + b2 * uv2.1, b0 * uv0.2 + b1 * uv1.2 + b2 * uv2.2⟩

/-- `Triangle.intersect`, triangle.py 173-243: `t`, the ray epsilon and the geometry -/
def intersect (frame : V3 K → V3 K × V3 K) (m : Mesh K) (v : ℕ) (r : Ray K) : Out (K × K × Geo K) :=
  match m.vertex v 0, m.vertex v 1, m.vertex v 2 with
  | some p1, some p2, some p3 =>
    match core p1 p2 p3 r with
    | none => .miss
    | some (t, b1, b2) =>
      match m.getUvs v with
      | none => .indexError
      | some uvs =>
        let dg := geoOf frame p1 p2 p3 uvs r t b1 b2
        match m.alpha with
        | none => .hit (t, 1 / 1000 * t, dg)
        | some a => if a dg = 0 then .miss else .hit (t, 1 / 1000 * t, dg)
  | _, _, _ => .indexError

/-- `Triangle.intersect_p`, triangle.py 245-315 -/
def intersectP (frame : V3 K → V3 K × V3 K) (m : Mesh K) (v : ℕ) (r : Ray K) : Out Unit :=
  match m.vertex v 0, m.vertex v 1, m.vertex v 2 with
  | some p1, some p2, some p3 =>
    match core p1 p2 p3 r with
    | none => .miss
    | some (t, b1, b2) =>
      match m.getUvs v with
      | none => .indexError
      | some uvs =>
        match m.alpha with
        | none => .hit ()
        | some a => if a (geoOf frame p1 p2 p3 uvs r t b1 b2) = 0 then .miss else .hit ()
  | _, _, _ => .indexError

/-- `world_bound`, triangle.py 140-144 -/
def worldBound (m : Mesh K) (v : ℕ) : Option (BBox K) :=
  match m.vertex v 0, m.vertex v 1, m.vertex v 2 with
  | some p1, some p2, some p3 => some ((BBox.ofPoints p1 p2).unionPt p3)
  | _, _, _ => none

/-- `object_bound`, triangle.py 133-138 -/
def objectBound (m : Mesh K) (v : ℕ) : Option (BBox K) :=
  match m.vertex v 0, m.vertex v 1, m.vertex v 2 with
  | some p1, some p2, some p3 => some ((BBox.ofPoints (m.w2o p1) (m.w2o p2)).unionPt (m.w2o p3))
  | _, _, _ => none

/-! ### Specification -/

/-- the point with barycentric coordinates `b1`, `b2` -/
def bary (p1 p2 p3 : V3 K) (b1 b2 : K) : V3 K := (1 - b1 - b2) * p1 + b1 * p2 + b2 * p3

/-- `q` is a point of the closed triangle -/
def InTriangle (p1 p2 p3 q : V3 K) : Prop := ∃ b1 b2 : K, 0 ≤ b1 ∧ 0 ≤ b2 ∧ b1 + b2 ≤ 1 ∧ q = bary p1 p2 p3 b1 b2

/-- the triangle is not degenerate and the direction not parallel to its plane -/
def Transversal (p1 p2 p3 d : V3 K) : Prop := dot d (cross (p2 - p1) (p3 - p1)) ≠ 0

/-- the parameter is in the ray's range -/
def InRange (r : Ray K) (t : K) : Prop := r.mint ≤ t ∧ (t : WithTop K) ≤ r.maxt

theorem div_eq (d e1 e2 : V3 K) : dot (cross d e2) e1 = -dot d (cross e1 e2) := by simp only [dot, cross]; ring

/-- Cramer's rule both ways -/
theorem cramer (p1 p2 p3 o d : V3 K) (h : dot (cross d (p3 - p1)) (p2 - p1) ≠ 0) (t b1 b2 : K) :
    rayAt o d t = bary p1 p2 p3 b1 b2 ↔
      t = dot (p3 - p1) (cross (o - p1) (p2 - p1)) * (1 / dot (cross d (p3 - p1)) (p2 - p1)) ∧
      b1 = dot (o - p1) (cross d (p3 - p1)) * (1 / dot (cross d (p3 - p1)) (p2 - p1)) ∧
      b2 = dot d (cross (o - p1) (p2 - p1)) * (1 / dot (cross d (p3 - p1)) (p2 - p1)) := by
  obtain ⟨ax, ay, az⟩ := p1
  obtain ⟨bx, by', bz⟩ := p2
  obtain ⟨cx, cy, cz⟩ := p3
  obtain ⟨ox, oy, oz⟩ := o
  obtain ⟨dx, dy, dz⟩ := d
  simp only [V3.ext_iff, rayAt, bary, add_x, add_y, add_z, smul_x, smul_y, smul_z]
  simp only [mul_one_div, eq_div_iff h]
  have hz := h
  simp only [dot, cross, sub_x, sub_y, sub_z] at h hz ⊢
  constructor
  · rintro ⟨hx, hy, hz'⟩
    refine ⟨?_, ?_, ?_⟩
    · linear_combination (-( (cz-az)*(by'-ay) - (cy-ay)*(bz-az))) * hx + (-((cx-ax)*(bz-az) - (cz-az)*(bx-ax))) * hy + (-((cy-ay)*(bx-ax) - (cx-ax)*(by'-ay))) * hz'
    · linear_combination (-(dy*(cz-az) - dz*(cy-ay))) * hx + (-(dz*(cx-ax) - dx*(cz-az))) * hy + (-(dx*(cy-ay) - dy*(cx-ax))) * hz'
    · linear_combination (-((by'-ay)*dz - (bz-az)*dy)) * hx + (-((bz-az)*dx - (bx-ax)*dz)) * hy + (-((bx-ax)*dy - (by'-ay)*dx)) * hz'
  · rintro ⟨ht, h1, h2⟩
    refine ⟨?_, ?_, ?_⟩
    · apply mul_right_cancel₀ hz
      linear_combination dx * ht - (bx - ax) * h1 - (cx - ax) * h2
    · apply mul_right_cancel₀ hz
      linear_combination dy * ht - (by' - ay) * h1 - (cy - ay) * h2
    · apply mul_right_cancel₀ hz
      linear_combination dz * ht - (bz - az) * h1 - (cz - az) * h2

theorem core_iff (p1 p2 p3 : V3 K) (r : Ray K) (t b1 b2 : K) :
    core p1 p2 p3 r = some (t, b1, b2) ↔
      Transversal p1 p2 p3 r.d ∧ InRange r t ∧ 0 ≤ b1 ∧ 0 ≤ b2 ∧ b1 + b2 ≤ 1 ∧ rayAt r.o r.d t = bary p1 p2 p3 b1 b2 := by
  have hdiv : dot (cross r.d (p3 - p1)) (p2 - p1) = 0 ↔ ¬ Transversal p1 p2 p3 r.d := by
    rw [div_eq, neg_eq_zero, Transversal, not_not]
  by_cases h0 : dot (cross r.d (p3 - p1)) (p2 - p1) = 0
  · have := hdiv.1 h0
    simp [core, h0, this]
  · have hT : Transversal p1 p2 p3 r.d := by by_contra h; exact h0 (hdiv.2 h)
    have hc := cramer p1 p2 p3 r.o r.d h0 t b1 b2
    rw [hc]
    simp only [core, h0, if_false, gt_iff_lt, InRange]
    constructor
    · intro h
      split_ifs at h with h1 h2 h3
      simp only [Option.some.injEq, Prod.mk.injEq] at h
      obtain ⟨rfl, rfl, rfl⟩ := h
      push Not at h1 h2 h3
      exact ⟨hT, ⟨h3.1, h3.2⟩, h1.1, h2.1, h2.2, rfl, rfl, rfl⟩
    · rintro ⟨-, ⟨ht1, ht2⟩, hb1, hb2, hs, rfl, rfl, rfl⟩
      rw [if_neg (by push Not; exact ⟨hb1, by linarith⟩), if_neg (by push Not; exact ⟨hb2, hs⟩), if_neg (by push Not; exact ⟨ht1, ht2⟩)]

/-- the reported geometry -/
structure GeoSpec (p1 p2 p3 : V3 K) (uv : (K × K) × (K × K) × (K × K)) (b1 b2 : K) (g : Geo K) : Prop where
  point : g.p = bary p1 p2 p3 b1 b2
  u : g.u = (1 - b1 - b2) * uv.1.1 + b1 * uv.2.1.1 + b2 * uv.2.2.1
  v : g.v = (1 - b1 - b2) * uv.1.2 + b1 * uv.2.1.2 + b2 * uv.2.2.2

/-- **C40** for a triangle whose three vertices exist and with usable texture coordinates, without alpha texture: `intersect` reports a hit at `t`
exactly when the triangle and the ray are transversal, `t` is in the ray's range and the ray at `t` is a point of the closed triangle. -/
theorem C40_sound_complete (frame : V3 K → V3 K × V3 K) (m : Mesh K) (v : ℕ) (r : Ray K) (p1 p2 p3 : V3 K)
    (h1 : m.vertex v 0 = some p1) (h2 : m.vertex v 1 = some p2) (h3 : m.vertex v 2 = some p3) (huv : (m.getUvs v).isSome) (ha : m.alpha = none) (t : K) :
    (∃ re g, intersect frame m v r = .hit (t, re, g)) ↔ Transversal p1 p2 p3 r.d ∧ InRange r t ∧ InTriangle p1 p2 p3 (rayAt r.o r.d t) := by
  obtain ⟨uvs, huv⟩ := Option.isSome_iff_exists.1 huv
  constructor
  · rintro ⟨re, g, h⟩
    simp only [intersect, h1, h2, h3] at h
    split at h
    · cases h
    · rename_i t' b1 b2 hc
      simp only [huv, ha] at h
      cases h
      obtain ⟨a, b, c, d, e, f⟩ := (core_iff _ _ _ _ _ _ _).1 hc
      exact ⟨a, b, b1, b2, c, d, e, f⟩
  · rintro ⟨a, b, b1, b2, c, d, e, f⟩
    have hc := (core_iff p1 p2 p3 r t b1 b2).2 ⟨a, b, c, d, e, f⟩
    simp only [intersect, h1, h2, h3, hc, huv, ha]
    exact ⟨_, _, rfl⟩

/-- **C40** (which is never ambiguous) at most one parameter can be hit, so a miss means that no point of the closed triangle is met in the range. -/
theorem C40_miss (frame : V3 K → V3 K × V3 K) (m : Mesh K) (v : ℕ) (r : Ray K) (p1 p2 p3 : V3 K)
    (h1 : m.vertex v 0 = some p1) (h2 : m.vertex v 1 = some p2) (h3 : m.vertex v 2 = some p3) (huv : (m.getUvs v).isSome) (ha : m.alpha = none)
    (hT : Transversal p1 p2 p3 r.d) :
    intersect frame m v r = .miss ↔ ∀ t, InRange r t → ¬ InTriangle p1 p2 p3 (rayAt r.o r.d t) := by
  obtain ⟨uvs, huv'⟩ := Option.isSome_iff_exists.1 huv
  constructor
  · intro h t ht hi
    obtain ⟨re, g, h'⟩ := (C40_sound_complete frame m v r p1 p2 p3 h1 h2 h3 huv ha t).2 ⟨hT, ht, hi⟩
    rw [h] at h'; cases h'
  · intro h
    cases hc : core p1 p2 p3 r with
    | none => simp only [intersect, h1, h2, h3, hc]
    | some x =>
      obtain ⟨t, b1, b2⟩ := x
      obtain ⟨a, b, c, d, e, f⟩ := (core_iff _ _ _ _ _ _ _).1 hc
      exact absurd ⟨b1, b2, c, d, e, f⟩ (h t b)

/-- **C40** what a hit reports, alpha texture or not: the ray at `t`, which is the point of the triangle with barycentric coordinates `b1`, `b2`; texture
coordinates interpolated with them; the epsilon `t/1000`; and the tangents describe the triangle: the point is the third
vertex moved along `dpdu`, `dpdv` by the difference in texture coordinates (when these are not degenerate). -/
theorem C40_geometry (frame : V3 K → V3 K × V3 K) (m : Mesh K) (v : ℕ) (r : Ray K) (p1 p2 p3 : V3 K)
    (h1 : m.vertex v 0 = some p1) (h2 : m.vertex v 1 = some p2) (h3 : m.vertex v 2 = some p3) (uv : (K × K) × (K × K) × (K × K))
    (huv : m.getUvs v = some uv) (t re : K) (g : Geo K) (h : intersect frame m v r = .hit (t, re, g)) :
    re = t / 1000 ∧ g.p = rayAt r.o r.d t ∧ InRange r t ∧
    ∃ b1 b2, 0 ≤ b1 ∧ 0 ≤ b2 ∧ b1 + b2 ≤ 1 ∧ GeoSpec p1 p2 p3 uv b1 b2 g ∧
      ((uv.1.1 - uv.2.2.1) * (uv.2.1.2 - uv.2.2.2) - (uv.2.1.1 - uv.2.2.1) * (uv.1.2 - uv.2.2.2) ≠ 0 →
        g.p = p3 + (g.u - uv.2.2.1) * g.dpdu + (g.v - uv.2.2.2) * g.dpdv) := by
  have key : ∃ b1 b2, core p1 p2 p3 r = some (t, b1, b2) ∧ re = t / 1000 ∧ g = geoOf frame p1 p2 p3 uv r t b1 b2 := by
    simp only [intersect, h1, h2, h3] at h
    split at h
    · cases h
    · rename_i t' b1 b2 hc
      simp only [huv] at h
      split at h
      · simp only [Out.hit.injEq, Prod.mk.injEq] at h
        obtain ⟨rfl, rfl, rfl⟩ := h
        exact ⟨b1, b2, hc, by ring, rfl⟩
      · split at h
        · cases h
        · simp only [Out.hit.injEq, Prod.mk.injEq] at h
          obtain ⟨rfl, rfl, rfl⟩ := h
          exact ⟨b1, b2, hc, by ring, rfl⟩
  obtain ⟨b1, b2, hc, hre, rfl⟩ := key
  obtain ⟨a, b, c, d, e, f⟩ := (core_iff _ _ _ _ _ _ _).1 hc
  obtain ⟨⟨u0, v0⟩, ⟨u1, v1⟩, ⟨u2, v2⟩⟩ := uv
  refine ⟨hre, rfl, b, b1, b2, c, d, e, ⟨f, rfl, rfl⟩, ?_⟩
  intro hdet
  simp only at hdet
  simp only [geoOf, if_neg hdet]
  rw [f]
  apply V3.ext <;>
  · simp only [bary, add_x, add_y, add_z, sub_x, sub_y, sub_z, smul_x, smul_y, smul_z]
    field_simp
    ring

/-- **C40** `intersect_p` agrees with `intersect` on every triangle, ray and alpha texture (an `IndexError` included). -/
theorem C40_intersect_p_agrees (frame : V3 K → V3 K × V3 K) (m : Mesh K) (v : ℕ) (r : Ray K) :
    (intersectP frame m v r = .hit () ↔ ∃ x, intersect frame m v r = .hit x) ∧
    (intersectP frame m v r = .indexError ↔ intersect frame m v r = .indexError) := by
  unfold intersectP intersect
  split
  · split
    · simp
    · split
      · simp
      · split
        · simp
        · split <;> rename_i h <;> simp [h]
  · simp

theorem bary_between {a b c b1 b2 : K} (h1 : 0 ≤ b1) (h2 : 0 ≤ b2) (hs : b1 + b2 ≤ 1) :
    min (min a b) c ≤ (1 - b1 - b2) * a + b1 * b + b2 * c ∧ (1 - b1 - b2) * a + b1 * b + b2 * c ≤ max (max a b) c := by
  have h0 : 0 ≤ 1 - b1 - b2 := by linarith
  have la : min (min a b) c ≤ a := (min_le_left _ _).trans (min_le_left _ _)
  have lb : min (min a b) c ≤ b := (min_le_left _ _).trans (min_le_right _ _)
  have lc : min (min a b) c ≤ c := min_le_right _ _
  have ga : a ≤ max (max a b) c := (le_max_left _ _).trans (le_max_left _ _)
  have gb : b ≤ max (max a b) c := (le_max_right _ _).trans (le_max_left _ _)
  have gc : c ≤ max (max a b) c := le_max_right _ _
  constructor
  · nlinarith [mul_le_mul_of_nonneg_left la h0, mul_le_mul_of_nonneg_left lb h1, mul_le_mul_of_nonneg_left lc h2]
  · nlinarith [mul_le_mul_of_nonneg_left ga h0, mul_le_mul_of_nonneg_left gb h1, mul_le_mul_of_nonneg_left gc h2]

/-- **C40** every point of the triangle, in particular every reported hit point, is inside its world bound. -/
theorem C40_world_bound (m : Mesh K) (v : ℕ) (p1 p2 p3 q : V3 K) (h1 : m.vertex v 0 = some p1) (h2 : m.vertex v 1 = some p2) (h3 : m.vertex v 2 = some p3)
    (hq : InTriangle p1 p2 p3 q) : ∃ b, worldBound m v = some b ∧ b.inside q = true := by
  obtain ⟨b1, b2, hb1, hb2, hs, rfl⟩ := hq
  refine ⟨(BBox.ofPoints p1 p2).unionPt p3, by simp only [worldBound, h1, h2, h3], ?_⟩
  have hx := bary_between (a := p1.x) (b := p2.x) (c := p3.x) hb1 hb2 hs
  have hy := bary_between (a := p1.y) (b := p2.y) (c := p3.y) hb1 hb2 hs
  have hz := bary_between (a := p1.z) (b := p2.z) (c := p3.z) hb1 hb2 hs
  simp only [BBox.inside, BBox.unionPt, BBox.ofPoints, bary, add_x, add_y, add_z, smul_x, smul_y, smul_z, ge_iff_le, Bool.and_eq_true, decide_eq_true_eq]
  exact ⟨⟨⟨⟨⟨hx.2, decide_eq_true hx.1⟩, hy.2⟩, decide_eq_true hy.1⟩, hz.2⟩, decide_eq_true hz.1⟩

/-- **C40** the object bound contains the triangle seen in object space, if the world-to-object map keeps affine combinations (as every affine transform does) -/
theorem C40_object_bound (m : Mesh K) (v : ℕ) (p1 p2 p3 q : V3 K) (h1 : m.vertex v 0 = some p1) (h2 : m.vertex v 1 = some p2) (h3 : m.vertex v 2 = some p3)
    (haff : ∀ b1 b2, m.w2o (bary p1 p2 p3 b1 b2) = bary (m.w2o p1) (m.w2o p2) (m.w2o p3) b1 b2)
    (hq : InTriangle p1 p2 p3 q) : ∃ b, objectBound m v = some b ∧ b.inside (m.w2o q) = true := by
  obtain ⟨b1, b2, hb1, hb2, hs, rfl⟩ := hq
  rw [haff]
  refine ⟨(BBox.ofPoints (m.w2o p1) (m.w2o p2)).unionPt (m.w2o p3), by simp only [objectBound, h1, h2, h3], ?_⟩
  generalize m.w2o p1 = p1
  generalize m.w2o p2 = p2
  generalize m.w2o p3 = p3
  have hx := bary_between (a := p1.x) (b := p2.x) (c := p3.x) hb1 hb2 hs
  have hy := bary_between (a := p1.y) (b := p2.y) (c := p3.y) hb1 hb2 hs
  have hz := bary_between (a := p1.z) (b := p2.z) (c := p3.z) hb1 hb2 hs
  simp only [BBox.inside, BBox.unionPt, BBox.ofPoints, bary, add_x, add_y, add_z, smul_x, smul_y, smul_z, ge_iff_le, Bool.and_eq_true, decide_eq_true_eq]
  exact ⟨⟨⟨⟨⟨hx.2, decide_eq_true hx.1⟩, hy.2⟩, decide_eq_true hy.1⟩, hz.2⟩, decide_eq_true hz.1⟩

/-- **C40** a mesh without texture coordinates is parametrised by barycentric coordinates: a hit at `(1 - b1 - b2) p1 + b1 p2 + b2 p3` has `u = b1 + b2`, `v = b2`, and the returned tangents are
those of this parametrisation -/
theorem C40_default_parametrisation (frame : V3 K → V3 K × V3 K) (m : Mesh K) (v : ℕ) (r : Ray K) (p1 p2 p3 : V3 K) (hn : m.uvs = none)
    (h1 : m.vertex v 0 = some p1) (h2 : m.vertex v 1 = some p2) (h3 : m.vertex v 2 = some p3) (t re : K) (g : Geo K) (h : intersect frame m v r = .hit (t, re, g)) :
    ∃ b1 b2, g.p = bary p1 p2 p3 b1 b2 ∧ g.u = b1 + b2 ∧ g.v = b2 ∧ g.p = p3 + (g.u - 1) * g.dpdu + (g.v - 1) * g.dpdv := by
  have hg : m.getUvs v = some ((0, 0), (1, 0), (1, 1)) := by rw [Mesh.getUvs, hn]
  obtain ⟨-, -, -, b1, b2, -, -, -, hs, hd⟩ := C40_geometry frame m v r p1 p2 p3 h1 h2 h3 _ hg t re g h
  refine ⟨b1, b2, hs.point, ?_, ?_, hd (by norm_num)⟩
  · rw [hs.u]; ring
  · rw [hs.v]; ring

/-! ### Concrete cases -/

/-- the triangle (0,0,0), (1,0,0), (0,1,0) with default texture coordinates -/
def exMesh : Mesh ℚ := ⟨1, 3, [0, 1, 2], [⟨0, 0, 0⟩, ⟨1, 0, 0⟩, ⟨0, 1, 0⟩], none, none, id⟩

/-- a ray down on (1/4, 1/2, 0) hits at t = 3; the hypotheses of the theorems hold for `exMesh` -/
example : exMesh.vertex 0 0 = some ⟨0, 0, 0⟩ ∧ exMesh.vertex 0 1 = some ⟨1, 0, 0⟩ ∧ exMesh.vertex 0 2 = some ⟨0, 1, 0⟩ ∧ (exMesh.getUvs 0).isSome ∧
    core (⟨0, 0, 0⟩ : V3 ℚ) ⟨1, 0, 0⟩ ⟨0, 1, 0⟩ ⟨⟨1/4, 1/2, 3⟩, ⟨0, 0, -1⟩, 0, ⊤⟩ = some (3, 1/4, 1/2) := by decide +kernel

end Verif.Shape
