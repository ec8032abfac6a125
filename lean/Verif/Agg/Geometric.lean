import Verif.Shape.Disk
import Verif.Agg.Simple
import Verif.BVH.TraverseProps

/-!
# Geometric primitives, and aggregates of them (`pytracer/aggregate/primitive.py:79-133`): property C145

The aggregates are modelled over primitives that are described by their first hit (`BVH.hitOne`).  Here the primitives are the ones the code has: spheres, disks and triangles with the intersection tests modelled in
`Shape/*`.  It is shown that such a primitive is described by its first hit whatever the current `ray.maxt` is, and the theorem about the BVH is carried over to the geometry of the shapes.
Real arithmetic, as for the shapes; no alpha textures.
-/
namespace Verif.Prim
open Verif V3 Xform Shape BBox

/-- the shapes of a primitive: triangle `v` of a mesh, sphere, disk, with `o2w` and `w2o` (`shape/__init__.py:45-53`) -/
inductive Shp where
  | tri (frame : V3 ℝ → V3 ℝ × V3 ℝ) (m : Mesh ℝ) (v : ℕ)
  | sphere (s : Sphere) (o2w w2o : Transform ℝ)
  | disk (s : Disk) (o2w w2o : Transform ℝ)

/-- `shape.intersect(r)`: hit parameter, ray epsilon and `dg.p` (`triangle.py:173-243`, `sphere.py:125-224`, `disk.py:58-112`) -/
noncomputable def Shp.intersect : Shp → Shape.Ray ℝ → Out (ℝ × ℝ × V3 ℝ)
  | .tri frame m v, r =>
    match Shape.intersect frame m v r with
    | .indexError => .indexError
    | .miss => .miss
    | .hit (t, re, g) => .hit (t, re, g.p)
  | .sphere s o2w w2o, r =>
    match s.hit w2o r with
    | none => .miss
    | some (t, p, _) => .hit (t, eps * t, o2w.pt p)
  | .disk s o2w w2o, r =>
    match s.hit w2o r with
    | none => .miss
    | some (t, p, _) => .hit (t, eps * t, o2w.pt p)

/-- `shape.intersect_p(r)` (`triangle.py:245-315`, `sphere.py:226-279`, `disk.py:114-142`) -/
noncomputable def Shp.intersectP : Shp → Shape.Ray ℝ → Out Unit
  | .tri frame m v, r => Shape.intersectP frame m v r
  | .sphere s _ w2o, r => if s.hitP w2o r then .hit () else .miss
  | .disk s _ w2o, r => if s.hitP w2o r then .hit () else .miss

/-- `shape.world_bound()`: `triangle.py` for triangles (`Shape.worldBound`), else `self.o2w(self.object_bound())` (`shape/__init__.py:63-64`); `none` is an `IndexError` -/
noncomputable def Shp.worldBound : Shp → Option (BBox ℝ)
  | .tri _ m v => Shape.worldBound m v
  | .sphere s o2w _ => some (o2w.box s.objectBound)
  | .disk s o2w _ => some (o2w.box s.objectBound)

/-- `GeometricPrimitive` (`primitive.py:79-84`): its shape, the ids given by `Shape.__init__` and `Primitive.__init__` -/
structure GPrim where
  shape : Shp
  shapeId : ℕ
  primitiveId : ℕ

/-- `Intersection` (`intersection.py:19-28`): `dg` by its position; `w2o` and `o2w` go with the shape and are kept as the shape they come from -/
structure Isect where
  dg : Option (V3 ℝ)
  primitive : Option GPrim
  xform : Option Shp
  shapeId : ℕ
  primitiveId : ℕ
  rEps : ℝ

/-- `GeometricPrimitive.intersect(r, isect)` (`primitive.py:89-108`): the answer, and the ray and the intersection afterwards; `none`: it raises -/
noncomputable def GPrim.intersect (p : GPrim) (r : Shape.Ray ℝ) (i : Isect) : Option (Bool × Shape.Ray ℝ × Isect) :=
  match p.shape.intersect r with
  | .indexError => none
  | .miss => some (false, r, i)
  | .hit (t, re, q) => some (true, { r with maxt := (t : WithTop ℝ) }, ⟨some q, some p, some p.shape, p.shapeId, p.primitiveId, re⟩)

/-- `GeometricPrimitive.intersect_p(r)` (`primitive.py:110-111`) -/
noncomputable def GPrim.intersectP (p : GPrim) (r : Shape.Ray ℝ) : Option Bool :=
  match p.shape.intersectP r with
  | .indexError => none
  | .miss => some false
  | .hit () => some true

/-! ## Specification -/

/-- the point `q` of the world is on the shape -/
def Shp.On : Shp → V3 ℝ → Prop
  | .tri _ m v, q => ∃ p1 p2 p3, m.vertex v 0 = some p1 ∧ m.vertex v 1 = some p2 ∧ m.vertex v 2 = some p3 ∧ InTriangle p1 p2 p3 q
  | .sphere s _ w2o, q => OnSphere s (w2o.pt q)
  | .disk s _ w2o, q => OnDisk s (w2o.pt q)

/-- the ray is not one that the shape's test gives up on: parallel to the plane of the triangle, all but tangent to (or very much shorter than) the sphere, all but parallel to the disk -/
def Shp.Seen : Shp → V3 ℝ → V3 ℝ → Prop
  | .tri _ m v, _, d => ∃ p1 p2 p3, m.vertex v 0 = some p1 ∧ m.vertex v 1 = some p2 ∧ m.vertex v 2 = some p3 ∧ Transversal p1 p2 p3 d
  | .sphere s _ w2o, o, d => 1 / 100000 < 4 * (s.radius ^ 2 * sqLength (w2o.vec d) - sqLength (cross (w2o.pt o) (w2o.vec d)))
  | .disk _ _ w2o, _, d => 1 / 100000 ≤ |(w2o.vec d).z|

/-- shapes as the constructors make them: the triangle has its three vertices, usable texture coordinates and no alpha texture; `o2w` and `w2o` are affine and inverse to each other -/
def Shp.Ok : Shp → Prop
  | .tri _ m v => (m.vertex v 0).isSome ∧ (m.vertex v 1).isSome ∧ (m.vertex v 2).isSome ∧ (m.getUvs v).isSome ∧ m.alpha = none
  | .sphere s o2w w2o => s.Ok ∧ s.zmin ≤ s.zmax ∧ AffineM w2o.m ∧ ∀ q, o2w.pt (w2o.pt q) = q
  | .disk s o2w w2o => s.Ok ∧ 0 ≤ s.radius ∧ AffineM w2o.m ∧ ∀ q, o2w.pt (w2o.pt q) = q

/-- the parameters in the range of the ray at which it is on the shape -/
def Shp.hits (s : Shp) (r : Shape.Ray ℝ) : Set ℝ := {t | r.mint ≤ t ∧ (t : WithTop ℝ) ≤ r.maxt ∧ s.On (rayAt r.o r.d t)}

/-- no transform of the primitive turns or mirrors (its matrix has no negative entry): then the code's world bound is one (`C11_box_conservative_partial`) -/
def Shp.Upright : Shp → Prop
  | .tri _ _ _ => True
  | .sphere _ o2w _ => AffineM o2w.m ∧ ∀ i j : Fin 4, i ≠ 3 → j ≠ 3 → 0 ≤ o2w.m i j
  | .disk _ o2w _ => AffineM o2w.m ∧ ∀ i j : Fin 4, i ≠ 3 → j ≠ 3 → 0 ≤ o2w.m i j

/-! ## Proofs -/

theorem not_indexError {s : Shp} (h : s.Ok) (r : Shape.Ray ℝ) : s.intersect r ≠ .indexError := by
  cases s with
  | tri frame m v =>
    obtain ⟨a1, a2, a3, a4, a5⟩ := h
    obtain ⟨p1, a1⟩ := Option.isSome_iff_exists.1 a1
    obtain ⟨p2, a2⟩ := Option.isSome_iff_exists.1 a2
    obtain ⟨p3, a3⟩ := Option.isSome_iff_exists.1 a3
    obtain ⟨uv, a4⟩ := Option.isSome_iff_exists.1 a4
    simp only [Shp.intersect, Shape.intersect, a1, a2, a3, a4, a5]
    cases core p1 p2 p3 r <;> simp
  | sphere s o2w w2o =>
    simp only [Shp.intersect]
    split <;> simp
  | disk s o2w w2o =>
    simp only [Shp.intersect]
    split <;> simp

/-- a hit at `t` is reported exactly when `t` is the least parameter in range at which the ray is on the shape (and the ray is `Seen`) -/
theorem intersect_iff {s : Shp} (h : s.Ok) (r : Shape.Ray ℝ) (t : ℝ) : (∃ re q, s.intersect r = .hit (t, re, q)) ↔ s.Seen r.o r.d ∧ IsLeast (s.hits r) t := by
  cases s with
  | tri frame m v =>
    obtain ⟨a1, a2, a3, a4, a5⟩ := h
    obtain ⟨p1, a1⟩ := Option.isSome_iff_exists.1 a1
    obtain ⟨p2, a2⟩ := Option.isSome_iff_exists.1 a2
    obtain ⟨p3, a3⟩ := Option.isSome_iff_exists.1 a3
    have key := C40_sound_complete frame m v r p1 p2 p3 a1 a2 a3 a4 a5
    have hon : ∀ q, (Shp.tri frame m v).On q ↔ InTriangle p1 p2 p3 q := by
      intro q; simp [Shp.On, a1, a2, a3]
    have hseen : ∀ o d, (Shp.tri frame m v).Seen o d ↔ Transversal p1 p2 p3 d := by
      intro o d; simp [Shp.Seen, a1, a2, a3]
    have e : (∃ re q, (Shp.tri frame m v).intersect r = .hit (t, re, q)) ↔ ∃ re g, Shape.intersect frame m v r = .hit (t, re, g) := by
      simp only [Shp.intersect]
      cases Shape.intersect frame m v r with
      | indexError => simp
      | miss => simp
      | hit x => obtain ⟨t', re', g'⟩ := x; simp
    rw [e, key t, hseen]
    refine and_congr_right fun hT => ⟨fun ⟨h1, h2⟩ => ⟨⟨h1.1, h1.2, (hon _).2 h2⟩, fun u hu => ?_⟩, fun hl => ⟨⟨hl.1.1, hl.1.2.1⟩, (hon _).1 hl.1.2.2⟩⟩
    obtain ⟨re, g, e1⟩ := (key t).2 ⟨hT, h1, h2⟩
    obtain ⟨re', g', e2⟩ := (key u).2 ⟨hT, ⟨hu.1, hu.2.1⟩, (hon _).1 hu.2.2⟩
    rw [e1] at e2
    simp only [Out.hit.injEq, Prod.mk.injEq] at e2
    exact e2.1.le
  | sphere s o2w w2o =>
    obtain ⟨hs, -, hw, -⟩ := h
    have hh : (Shp.sphere s o2w w2o).hits r = s.hits w2o r := rfl
    have hd : (Shp.sphere s o2w w2o).Seen r.o r.d ↔ ¬ s.discr w2o r ≤ 1 / 100000 := not_le.symm
    rw [hh, hd]
    have e : (∃ re q, (Shp.sphere s o2w w2o).intersect r = .hit (t, re, q)) ↔ ∃ p phi, s.hit w2o r = some (t, p, phi) := by
      simp only [Shp.intersect]
      cases s.hit w2o r with
      | none => simp
      | some x => obtain ⟨t', p', phi'⟩ := x; simp
    rw [e]
    constructor
    · rintro ⟨p, phi, h⟩
      refine ⟨fun hD => ?_, (C41_hit s hs w2o hw r t phi p h).1⟩
      rw [C41_discriminant] at hD
      have hD' : (2 * dot (r.map w2o).d (r.map w2o).o) * (2 * dot (r.map w2o).d (r.map w2o).o) - 4 * sqLength (r.map w2o).d * (sqLength (r.map w2o).o - s.radius * s.radius) ≤ eps := hD
      simp only [Sphere.hit, Sphere.hitObj, zero_add, if_pos hD'] at h
      cases h
    · rintro ⟨hD, hl⟩
      cases hc : s.hit w2o r with
      | none =>
        rcases C41_miss s hs w2o hw r hc with h | h
        · rw [h] at hl; exact absurd hl.1 (Set.notMem_empty _)
        · exact absurd h hD
      | some x =>
        obtain ⟨t', p', phi'⟩ := x
        have := (C41_hit s hs w2o hw r t' phi' p' hc).1
        rw [this.unique hl]
        exact ⟨_, _, rfl⟩
  | disk s o2w w2o =>
    obtain ⟨hs, -, hw, -⟩ := h
    have hh : (Shp.disk s o2w w2o).hits r = s.hits w2o r := rfl
    have hd : (Shp.disk s o2w w2o).Seen r.o r.d ↔ 1 / 100000 ≤ |(w2o.vec r.d).z| := Iff.rfl
    rw [hh, hd]
    have e : (∃ re q, (Shp.disk s o2w w2o).intersect r = .hit (t, re, q)) ↔ ∃ p phi, s.hit w2o r = some (t, p, phi) := by
      simp only [Shp.intersect]
      cases s.hit w2o r with
      | none => simp
      | some x => obtain ⟨t', p', phi'⟩ := x; simp
    rw [e]
    constructor
    · rintro ⟨p, phi, h⟩
      have hz : 1 / 100000 ≤ |(w2o.vec r.d).z| := ((s.hitObj_eq_some hs _ _).1 h).1
      have hm := ((C42_sound s hs w2o hw r).1 t p phi h).1
      refine ⟨hz, hm, fun u hu => ?_⟩
      obtain ⟨phi', e2⟩ := (C42_hit s hs w2o hw r hz u).2 hu
      rw [h] at e2
      simp only [Option.some.injEq, Prod.mk.injEq] at e2
      exact e2.1.le
    · rintro ⟨hz, hl⟩
      obtain ⟨phi', e2⟩ := (C42_hit s hs w2o hw r hz t).2 hl.1
      exact ⟨_, _, e2⟩

/-- if the ray is anywhere on the shape within its range, there is a first such parameter -/
theorem least_exists {s : Shp} (h : s.Ok) (r : Shape.Ray ℝ) (hs : s.Seen r.o r.d) (hne : (s.hits r).Nonempty) : ∃ t, IsLeast (s.hits r) t := by
  have key : (∃ t re q, s.intersect r = .hit (t, re, q)) → ∃ t, IsLeast (s.hits r) t := fun ⟨t, re, q, e⟩ => ⟨t, ((intersect_iff h r t).1 ⟨re, q, e⟩).2⟩
  apply key
  cases s with
  | tri frame m v =>
    obtain ⟨t, ht1, ht2, p1, p2, p3, a1, a2, a3, hq⟩ := hne
    obtain ⟨q1, q2, q3, b1, b2, b3, hT⟩ := hs
    rw [a1] at b1; rw [a2] at b2; rw [a3] at b3
    obtain ⟨rfl, rfl, rfl⟩ : p1 = q1 ∧ p2 = q2 ∧ p3 = q3 := ⟨Option.some.inj b1, Option.some.inj b2, Option.some.inj b3⟩
    obtain ⟨re, g, e⟩ := (C40_sound_complete frame m v r p1 p2 p3 a1 a2 a3 h.2.2.2.1 h.2.2.2.2 t).2 ⟨hT, ⟨ht1, ht2⟩, hq⟩
    exact ⟨t, re, g.p, by simp only [Shp.intersect, e]⟩
  | sphere s o2w w2o =>
    obtain ⟨hs', -, hw, -⟩ := h
    cases hc : s.hit w2o r with
    | none =>
      rcases C41_miss s hs' w2o hw r hc with h | h
      · have : (Shp.sphere s o2w w2o).hits r = s.hits w2o r := rfl
        rw [this, h] at hne
        exact absurd hne Set.not_nonempty_empty
      · exact absurd h (not_le.2 hs)
    | some x => obtain ⟨t, p, phi⟩ := x; exact ⟨t, eps * t, o2w.pt p, by simp only [Shp.intersect, hc]⟩
  | disk s o2w w2o =>
    obtain ⟨hs', -, hw, -⟩ := h
    cases hc : s.hit w2o r with
    | none =>
      rcases (C42_sound s hs' w2o hw r).2 hc with h | h
      · have : (Shp.disk s o2w w2o).hits r = s.hits w2o r := rfl
        rw [this, h] at hne
        exact absurd hne Set.not_nonempty_empty
      · exact absurd hs (not_le.2 h)
    | some x => obtain ⟨t, p, phi⟩ := x; exact ⟨t, eps * t, o2w.pt p, by simp only [Shp.intersect, hc]⟩

/-- the reported `dg.p` is the ray's position, up to the shift on the axis of a sphere -/
theorem intersect_point {s : Shp} (h : s.Ok) (r : Shape.Ray ℝ) (t re : ℝ) (q : V3 ℝ) (hi : s.intersect r = .hit (t, re, q)) :
    (∀ sp o2w w2o, s = .sphere sp o2w w2o → ¬((w2o.pt (rayAt r.o r.d t)).x = 0 ∧ (w2o.pt (rayAt r.o r.d t)).y = 0)) → q = rayAt r.o r.d t := by
  intro hax
  cases s with
  | tri frame m v =>
    obtain ⟨a1, a2, a3, a4, a5⟩ := h
    obtain ⟨p1, a1⟩ := Option.isSome_iff_exists.1 a1
    obtain ⟨p2, a2⟩ := Option.isSome_iff_exists.1 a2
    obtain ⟨p3, a3⟩ := Option.isSome_iff_exists.1 a3
    obtain ⟨uv, a4⟩ := Option.isSome_iff_exists.1 a4
    simp only [Shp.intersect] at hi
    split at hi
    · cases hi
    · cases hi
    · rename_i t' re' g' hg
      simp only [Out.hit.injEq, Prod.mk.injEq] at hi
      obtain ⟨rfl, rfl, rfl⟩ := hi
      exact (C40_geometry frame m v r p1 p2 p3 a1 a2 a3 uv a4 _ _ _ hg).2.1
  | sphere s o2w w2o =>
    obtain ⟨hs, -, hw, hinv⟩ := h
    simp only [Shp.intersect] at hi
    split at hi
    · cases hi
    · rename_i t' p' phi' hg
      simp only [Out.hit.injEq, Prod.mk.injEq] at hi
      obtain ⟨rfl, rfl, rfl⟩ := hi
      have := (C41_hit s hs w2o hw r _ _ _ hg).2.1 (hax s o2w w2o rfl)
      rw [this, hinv]
      rfl
  | disk s o2w w2o =>
    obtain ⟨hs, -, hw, hinv⟩ := h
    simp only [Shp.intersect] at hi
    split at hi
    · cases hi
    · rename_i t' p' phi' hg
      simp only [Out.hit.injEq, Prod.mk.injEq] at hi
      obtain ⟨rfl, rfl, rfl⟩ := hi
      have := ((C42_sound s hs w2o hw r).1 _ _ _ hg).2
      rw [this, hinv]
      rfl

theorem box_mem {o2w w2o : Transform ℝ} (hu : AffineM o2w.m ∧ ∀ i j : Fin 4, i ≠ 3 → j ≠ 3 → 0 ≤ o2w.m i j) (hinv : ∀ q, o2w.pt (w2o.pt q) = q)
    (b : BBox ℝ) (hb : BBox.Proper b) (q : V3 ℝ) (hq : b.inside (w2o.pt q) = true) : Mem q (o2w.box b) := by
  have := C11_box_conservative_partial o2w hu.1 hu.2 b hb _ ((C04_inside_iff _ _).1 hq)
  rwa [hinv] at this

theorem on_mem_bound {s : Shp} (h : s.Ok) (hu : s.Upright) (q : V3 ℝ) (hq : s.On q) : ∃ b, s.worldBound = some b ∧ Mem q b := by
  cases s with
  | tri frame m v =>
    obtain ⟨p1, p2, p3, a1, a2, a3, hq⟩ := hq
    obtain ⟨b, hb, hm⟩ := C40_world_bound m v p1 p2 p3 q a1 a2 a3 hq
    exact ⟨b, hb, (C04_inside_iff _ _).1 hm⟩
  | sphere s o2w w2o =>
    obtain ⟨hs, hz, hw, hinv⟩ := h
    refine ⟨_, rfl, box_mem hu hinv _ ?_ q (C41_object_bound s hs _ hq)⟩
    simp only [BBox.Proper, Sphere.objectBound, BBox.ofPoints]
    exact ⟨min_le_max, min_le_max, min_le_max⟩
  | disk s o2w w2o =>
    obtain ⟨hs, hz, hw, hinv⟩ := h
    refine ⟨_, rfl, box_mem hu hinv _ ?_ q (C42_object_bound s hz _ hq)⟩
    simp only [BBox.Proper, Disk.objectBound, BBox.ofPoints]
    exact ⟨min_le_max, min_le_max, min_le_max⟩

/-- the first hit of the shape on the line from `mint` on -/
noncomputable def first (o d : V3 ℝ) (mint : ℝ) (p : GPrim) : Option ℝ :=
  match p.shape.intersect ⟨o, d, mint, ⊤⟩ with
  | .hit (t, _, _) => some t
  | _ => none

theorem first_iff {p : GPrim} (h : p.shape.Ok) (o d : V3 ℝ) (mint t : ℝ) : first o d mint p = some t ↔ p.shape.Seen o d ∧ IsLeast {u | mint ≤ u ∧ p.shape.On (rayAt o d u)} t := by
  have h1 := intersect_iff h ⟨o, d, mint, ⊤⟩ t
  have hset : p.shape.hits ⟨o, d, mint, ⊤⟩ = {u | mint ≤ u ∧ p.shape.On (rayAt o d u)} := by
    ext u; simp [Shp.hits]
  rw [hset] at h1
  rw [← h1, first]
  cases p.shape.intersect ⟨o, d, mint, ⊤⟩ with
  | indexError => simp
  | miss => simp
  | hit x => obtain ⟨a, b, c⟩ := x; simp

theorem least_iff {s : Shp} (o d : V3 ℝ) (mint : ℝ) (maxt : WithTop ℝ) (t : ℝ) :
    IsLeast (s.hits ⟨o, d, mint, maxt⟩) t ↔ IsLeast {u | mint ≤ u ∧ s.On (rayAt o d u)} t ∧ (t : WithTop ℝ) ≤ maxt := by
  constructor
  · rintro ⟨⟨h1, h2, h3⟩, h4⟩
    refine ⟨⟨⟨h1, h3⟩, fun u hu => ?_⟩, h2⟩
    by_cases hc : (u : WithTop ℝ) ≤ maxt
    · exact h4 ⟨hu.1, hc, hu.2⟩
    · exact_mod_cast (h2.trans (le_of_lt (not_le.1 hc)))
  · rintro ⟨⟨⟨h1, h3⟩, h4⟩, h2⟩
    exact ⟨⟨h1, h2, h3⟩, fun u hu => h4 ⟨hu.1, hu.2.2⟩⟩

/-- whatever the current upper limit of the ray: the shape is hit exactly when its first hit is not beyond the limit -/
theorem intersect_first {p : GPrim} (h : p.shape.Ok) (o d : V3 ℝ) (mint : ℝ) (maxt : WithTop ℝ) (t : ℝ) :
    (∃ re q, p.shape.intersect ⟨o, d, mint, maxt⟩ = .hit (t, re, q)) ↔ first o d mint p = some t ∧ (t : WithTop ℝ) ≤ maxt := by
  rw [intersect_iff h, first_iff h, least_iff, and_assoc]

/-! ## C145 -/

/-- The record that a hit of `p` leaves: it is complete and belongs to `p`. -/
structure Records (p : GPrim) (i : Isect) : Prop where
  primitive : i.primitive = some p
  xform : i.xform = some p.shape
  shapeId : i.shapeId = p.shapeId
  primitiveId : i.primitiveId = p.primitiveId
  dg : i.dg.isSome

/-- `GeometricPrimitive.intersect` for spheres, disks and triangles, on a ray with any range and a record with any contents.  It answers True exactly when the ray is, within its range, somewhere on the shape (and is not one of
the rays on which the shape's test gives up); then `ray.maxt`, and nothing else of the ray, is set to the smallest such parameter, and the record is overwritten with one that belongs to this primitive and whose position is the ray's
position there (except on the axis of a sphere).  Otherwise ray and record are left as they were.  `intersect_p` gives the same answer. -/
theorem C145_intersect (p : GPrim) (hp : p.shape.Ok) (r : Shape.Ray ℝ) (i : Isect) :
    (∃ t i', p.shape.Seen r.o r.d ∧ IsLeast (p.shape.hits r) t ∧ p.intersect r i = some (true, { r with maxt := (t : WithTop ℝ) }, i') ∧ p.intersectP r = some true ∧ Records p i' ∧
      ((∀ sp o2w w2o, p.shape = .sphere sp o2w w2o → ¬((w2o.pt (rayAt r.o r.d t)).x = 0 ∧ (w2o.pt (rayAt r.o r.d t)).y = 0)) → i'.dg = some (rayAt r.o r.d t))) ∨
    ((p.shape.Seen r.o r.d → p.shape.hits r = ∅) ∧ p.intersect r i = some (false, r, i) ∧ p.intersectP r = some false) := by
  have hP : (p.shape.intersectP r = .hit () ↔ ∃ x, p.shape.intersect r = .hit x) ∧ p.shape.intersectP r ≠ .indexError := by
    have hne := not_indexError hp r
    revert hne
    cases p.shape with
    | tri frame m v =>
      obtain ⟨a, b⟩ := C40_intersect_p_agrees frame m v r
      simp only [Shp.intersectP, Shp.intersect]
      intro hne
      constructor
      · rw [a]
        cases Shape.intersect frame m v r with
        | indexError => simp
        | miss => simp
        | hit x => simp
      · intro hc
        rw [b.1 hc] at hne
        exact hne rfl
    | sphere s o2w w2o =>
      intro _
      simp only [Shp.intersectP, Shp.intersect, C41_intersect_p_agrees]
      cases s.hit w2o r <;> simp
    | disk s o2w w2o =>
      intro _
      simp only [Shp.intersectP, Shp.intersect, C42_intersect_p_agrees]
      cases s.hit w2o r <;> simp
  cases hc : p.shape.intersect r with
  | indexError => exact absurd hc (not_indexError hp r)
  | miss =>
    right
    refine ⟨fun hs => ?_, by simp only [GPrim.intersect, hc], ?_⟩
    · -- a non-empty set of hits would have a least element
      by_contra hne
      obtain ⟨t, ht⟩ := Set.nonempty_iff_ne_empty.2 hne
      have hleast : ∃ u, IsLeast (p.shape.hits r) u := least_exists hp r hs ⟨t, ht⟩
      obtain ⟨u, hu⟩ := hleast
      obtain ⟨re, q, e⟩ := (intersect_iff hp r u).2 ⟨hs, hu⟩
      rw [hc] at e; cases e
    · cases hq : p.shape.intersectP r with
      | indexError => exact absurd hq hP.2
      | miss => simp only [GPrim.intersectP, hq]
      | hit x => obtain ⟨y, e⟩ := hP.1.1 hq; rw [hc] at e; cases e
  | hit x =>
    obtain ⟨t, re, q⟩ := x
    left
    obtain ⟨hs, hl⟩ := (intersect_iff hp r t).1 ⟨re, q, hc⟩
    refine ⟨t, _, hs, hl, by simp only [GPrim.intersect, hc]; rfl, by simp only [GPrim.intersectP, hP.1.2 ⟨_, hc⟩], ⟨rfl, rfl, rfl, rfl, rfl⟩, fun hax => ?_⟩
    exact congrArg some (intersect_point hp r t re q hc hax)

/-- an upper limit as a float -/
def toF : WithTop ℝ → F ℝ
  | ⊤ => .pinf
  | (x : ℝ) => .fin x

/-- the ray with the signs of its zero components, as the box tests see it -/
def fray (r : Shape.Ray ℝ) (nz : V3 Bool) : FRay ℝ := ⟨r.o, ⟨⟨r.d.x, nz.x⟩, ⟨r.d.y, nz.y⟩, ⟨r.d.z, nz.z⟩⟩, .fin r.mint, toF r.maxt⟩

theorem le_toF (t : ℝ) (m : WithTop ℝ) : F.le (.fin t) (toF m) = true ↔ (t : WithTop ℝ) ≤ m := by
  induction m using WithTop.recTopCoe with
  | top => simp [toF, F.le]
  | coe x => simp [toF, F.le]

theorem lt_toF (t : ℝ) (m : WithTop ℝ) : F.lt (.fin t) (toF m) = true ↔ (t : WithTop ℝ) < m := by
  induction m using WithTop.recTopCoe with
  | top => simp [toF, F.lt]
  | coe x => simp [toF, F.lt]

/-- What the models of the aggregates use for one primitive (`BVH.hitOne`, `BVH.hitP`) is what `GeometricPrimitive` does, at every stage of the search: with the ray's upper limit at any value and any contents of the record. -/
theorem C145_steps (p : GPrim) (hp : p.shape.Ok) (r : Shape.Ray ℝ) (i : Isect) (a : Option GPrim) (b : Bool) :
    (∃ ans r' i', p.intersect r i = some (ans, r', i') ∧ r'.o = r.o ∧ r'.d = r.d ∧ r'.mint = r.mint ∧ (ans = true → Records p i') ∧ (ans = false → i' = i ∧ r' = r) ∧
      BVH.hitOne (first r.o r.d r.mint) ⟨toF r.maxt, a, b⟩ p = ⟨toF r'.maxt, if ans then i'.primitive else a, ans || b⟩) ∧
    p.intersectP r = some (BVH.hitP (first r.o r.d r.mint) (toF r.maxt) p) := by
  have key := intersect_first hp r.o r.d r.mint r.maxt
  rcases C145_intersect p hp r i with ⟨t, i', hs, hl, e1, e2, e3, -⟩ | ⟨h1, e1, e2⟩
  · obtain ⟨f1, f2⟩ := (key t).1 ((intersect_iff hp r t).2 ⟨hs, hl⟩)
    have f3 := (le_toF t r.maxt).2 f2
    refine ⟨⟨true, _, i', e1, rfl, rfl, rfl, fun _ => e3, by simp, ?_⟩, ?_⟩
    · simp only [BVH.hitOne, f1, f3, if_true, e3.primitive, Bool.true_or]
      rfl
    · rw [e2]; simp only [BVH.hitP, f1, f3]
  · have hn : ∀ t, first r.o r.d r.mint p = some t → F.le (.fin t) (toF r.maxt) = false := by
      intro t ht
      by_contra hc
      have hc : F.le (.fin t) (toF r.maxt) = true := by simpa using hc
      obtain ⟨hs, hl⟩ := (intersect_iff hp r t).1 ((key t).2 ⟨ht, (le_toF t r.maxt).1 hc⟩)
      rw [h1 hs] at hl
      exact hl.1
    refine ⟨⟨false, r, i, e1, rfl, rfl, rfl, by simp, by simp, ?_⟩, ?_⟩
    · simp only [BVH.hitOne]
      cases hf : first r.o r.d r.mint p with
      | none => simp
      | some t => simp [hn t hf]
    · rw [e2]
      simp only [BVH.hitP]
      cases hf : first r.o r.d r.mint p with
      | none => rfl
      | some t => simp [hn t hf]

/-- the nearest point of a list of primitives along a ray, as a set-up of the geometry alone: nothing is met before the end of the range, or `p` is met at `s` and no primitive is met earlier -/
def Nearest (prims : List GPrim) (r : Shape.Ray ℝ) (acc : BVH.Acc ℝ GPrim) : Prop :=
  (acc = ⟨toF r.maxt, none, false⟩ ∧ ∀ p ∈ prims, p.shape.Seen r.o r.d → ∀ t, r.mint ≤ t → (t : WithTop ℝ) < r.maxt → ¬ p.shape.On (rayAt r.o r.d t)) ∨
  ∃ p ∈ prims, ∃ s, acc = ⟨.fin s, some p, true⟩ ∧ r.mint ≤ s ∧ (s : WithTop ℝ) ≤ r.maxt ∧ p.shape.On (rayAt r.o r.d s) ∧
    ∀ q ∈ prims, q.shape.Seen r.o r.d → ∀ u, r.mint ≤ u → q.shape.On (rayAt r.o r.d u) → s ≤ u

theorem first_le {p : GPrim} (hp : p.shape.Ok) (o d : V3 ℝ) (mint u : ℝ) (hs : p.shape.Seen o d) (hu : mint ≤ u) (hon : p.shape.On (rayAt o d u)) : ∃ s, first o d mint p = some s ∧ s ≤ u := by
  obtain ⟨t, ht⟩ := least_exists hp ⟨o, d, mint, ⊤⟩ hs ⟨u, hu, le_top, hon⟩
  have ht' := (least_iff o d mint ⊤ t).1 ht
  exact ⟨t, (first_iff hp o d mint t).2 ⟨hs, ht'.1⟩, ht'.1.2 ⟨hu, hon⟩⟩

theorem nearest_of {prims : List GPrim} (hok : ∀ p ∈ prims, p.shape.Ok) (r : Shape.Ray ℝ) (acc : BVH.Acc ℝ GPrim)
    (h : BVH.NearestAnswer prims (first r.o r.d r.mint) (toF r.maxt) acc) : Nearest prims r acc := by
  rcases h with ⟨rfl, h⟩ | ⟨p, hp, s, h1, rfl, h2, h3⟩
  · left
    refine ⟨rfl, fun p hp hs t ht hlt hon => ?_⟩
    obtain ⟨u, hu, hle⟩ := first_le (hok p hp) r.o r.d r.mint t hs ht hon
    have := (lt_toF u r.maxt).2 (lt_of_le_of_lt (WithTop.coe_le_coe.2 hle) hlt)
    rw [h p hp u hu] at this
    cases this
  · right
    obtain ⟨hs, ⟨⟨g1, g2⟩, -⟩⟩ := (first_iff (hok p hp) r.o r.d r.mint s).1 h1
    refine ⟨p, hp, s, rfl, g1, (le_toF s r.maxt).1 h2, g2, fun q hq hsq u hu hon => ?_⟩
    obtain ⟨v, hv, hle⟩ := first_le (hok q hq) r.o r.d r.mint u hsq hu hon
    exact (h3 q hq v hv).trans hle

theorem at_fray (r : Shape.Ray ℝ) (nz : V3 Bool) (t : ℝ) : rayAt (fray r nz).o (BVH.rayDir (fray r nz)) t = rayAt r.o r.d t := rfl

/-- **From shapes to the BVH**: for every list of spheres, disks and triangles (with upright transforms), every cost function, node size and split method for which the construction succeeds with a tree of at most 64 levels, and every
ray that does not start on a shape and is not one of the special cases of the box test, `BVH.intersect` gives the nearest point of all the shapes along the ray.  Missing: turned and mirrored shapes (`C145_turned_false`), and what is
missing in C38. -/
theorem C145_bvh_partial (cfg : BVH.Config ℝ) (prims : List GPrim) (hne : prims ≠ []) (hok : ∀ p ∈ prims, p.shape.Ok ∧ p.shape.Upright) (r : Shape.Ray ℝ) (nz : V3 Bool)
    (wb : GPrim → BBox ℝ) (hwb : ∀ p ∈ prims, p.shape.worldBound = some (wb p)) (hstart : ∀ p ∈ prims, ¬ p.shape.On (rayAt r.o r.d r.mint))
    (hr : BVH.RayFine wb prims (fray r nz)) (t : BVH.Node ℝ) (ordered : List GPrim) (total : ℕ)
    (h : BVH.build cfg prims prims.length (BVH.buildData wb prims) [] 0 = .ok (t, ordered, total)) (hh : t.height ≤ 64) :
    ∃ bvh acc, BVH.mk cfg wb prims = .ok bvh ∧ (∀ fuel ≥ total, bvh.intersect (first r.o r.d r.mint) (fray r nz) fuel = .ok acc) ∧ Nearest prims r acc := by
  have hc : ∀ p ∈ prims, BVH.Contract wb (first r.o r.d r.mint) (fray r nz) p := by
    intro p hp s hs
    obtain ⟨-, ⟨⟨g1, g2⟩, -⟩⟩ := (first_iff (hok p hp).1 r.o r.d r.mint s).1 hs
    obtain ⟨b, hb, hm⟩ := on_mem_bound (hok p hp).1 (hok p hp).2 _ g2
    rw [hwb p hp] at hb
    obtain rfl := Option.some.inj hb
    refine ⟨?_, hm⟩
    have : r.mint < s := lt_of_le_of_ne g1 (fun e => hstart p hp (e ▸ g2))
    simpa [fray, F.lt] using this
  obtain ⟨bvh, acc, h1, h2, h3⟩ := BVH.C38_intersect_nearest_partial cfg wb prims hne (first r.o r.d r.mint) (fray r nz) hc hr t ordered total h hh
  exact ⟨bvh, acc, h1, h2, nearest_of (fun p hp => (hok p hp).1) r acc h3⟩

/-- a quarter turn about the z axis -/
def quarter : Transform ℝ := ⟨!![0, -1, 0, 0; 1, 0, 0, 0; 0, 0, 1, 0; 0, 0, 0, 1], !![0, 1, 0, 0; -1, 0, 0, 0; 0, 0, 1, 0; 0, 0, 0, 1]⟩

theorem quarter_pt (p : V3 ℝ) : quarter.pt p = ⟨-p.y, p.x, p.z⟩ := by
  rw [pt_affine _ (by simp [quarter, AffineM])]
  simp [homog, quarter]

theorem quarter_inv_pt (p : V3 ℝ) : quarter.inverse.pt p = ⟨p.y, -p.x, p.z⟩ := by
  rw [pt_affine _ (by simp [quarter, Transform.inverse, AffineM])]
  simp [homog, quarter, Transform.inverse]

theorem quarter_vec (p : V3 ℝ) : quarter.vec p = ⟨-p.y, p.x, p.z⟩ := by
  simp [Transform.vec, quarter]

theorem quarter_inv_vec (p : V3 ℝ) : quarter.inverse.vec p = ⟨p.y, -p.x, p.z⟩ := by
  simp [Transform.vec, quarter, Transform.inverse]

/-- a disk of radius one, turned about its own axis by a quarter turn -/
noncomputable def turned : Shp := .disk ⟨0, 1, 0, 2 * Real.pi⟩ quarter quarter.inverse

/-- **Violated for turned shapes**: a disk that is turned by a quarter turn (which does not change it) is hit by the ray straight down at `(1/2, 0)`, but its world bound holds none of its points, and the box test of the BVH
rejects that ray. -/
theorem C145_turned_false : turned.Ok ∧ turned.Seen ⟨1 / 2, 0, 1⟩ ⟨0, 0, -1⟩ ∧ turned.On (rayAt ⟨1 / 2, 0, 1⟩ ⟨0, 0, -1⟩ 1) ∧
    ∃ b, turned.worldBound = some b ∧ (∀ q, ¬ Mem q b) ∧ BVH.boxHit b (fray ⟨⟨1 / 2, 0, 1⟩, ⟨0, 0, -1⟩, 0, ⊤⟩ ⟨false, false, false⟩) = false := by
  have hpi := Real.pi_pos
  refine ⟨⟨⟨by positivity, le_rfl⟩, zero_le_one, by simp [quarter, Transform.inverse, AffineM], fun q => ?_⟩, ?_, ?_, ?_⟩
  · rw [quarter_inv_pt, quarter_pt]; simp
  · simp only [turned, Shp.Seen, quarter_inv_vec]; norm_num
  · simp only [turned, Shp.On, quarter_inv_pt, OnDisk, rayAt]
    refine ⟨by norm_num, by norm_num, by norm_num, 3 * Real.pi / 2, by positivity, by linarith, ?_, ?_⟩
    · have : Real.cos (3 * Real.pi / 2) = 0 := by
        rw [show 3 * Real.pi / 2 = Real.pi / 2 + Real.pi by ring, Real.cos_add_pi, Real.cos_pi_div_two]; simp
      rw [this]; norm_num
    · have : Real.sin (3 * Real.pi / 2) = -1 := by
        rw [show 3 * Real.pi / 2 = Real.pi / 2 + Real.pi by ring, Real.sin_add_pi, Real.sin_pi_div_two]
      have h2 : Real.sqrt ((0:ℝ) ^ 2 + (1 / 2) ^ 2) = 1 / 2 := by
        rw [show (0:ℝ) ^ 2 + (1 / 2) ^ 2 = (1 / 2) ^ 2 by norm_num]
        exact Real.sqrt_sq (by norm_num)
      rw [this]
      norm_num
      norm_num at h2
      rw [h2]
  · have hb : turned.worldBound = some ⟨⟨1, -1, 0⟩, ⟨-1, 1, 0⟩⟩ := by
      simp only [turned, Shp.worldBound, Transform.box, Disk.objectBound, BBox.fromBBox, BBox.ofPoints, quarter_pt, quarter_vec]
      norm_num
      apply V3.ext <;> simp <;> norm_num
    refine ⟨_, hb, ?_, ?_⟩
    · rintro q ⟨⟨h1, h2⟩, -⟩
      simp only at h1 h2
      linarith
    · norm_num [BVH.boxHit, fray, BVH.slab, BVH.dirNeg, BVH.mulFin, F.divFin, F.gt, F.lt]

/-- a triangle and a sphere satisfy the hypotheses -/
noncomputable def exTri : Shp := .tri (fun _ => (0, 0)) ⟨1, 3, [0, 1, 2], [⟨0, 0, 0⟩, ⟨1, 0, 0⟩, ⟨0, 1, 0⟩], none, none, id⟩ 0

example : exTri.Ok ∧ exTri.Upright := by
  refine ⟨⟨rfl, rfl, rfl, rfl, rfl⟩, trivial⟩

example : (Shp.sphere (Sphere.init 1 (-1) 1 360) ident ident).Ok ∧ (Shp.sphere (Sphere.init 1 (-1) 1 360) ident ident).Upright := by
  have hid : ∀ q : V3 ℝ, (ident : Transform ℝ).pt q = q := by
    intro q
    rw [pt_affine _ (by simp [ident, AffineM])]
    simp [homog, ident]
  have ha : AffineM (ident : Transform ℝ).m := by simp [ident, AffineM]
  obtain ⟨h1, h2⟩ := Sphere.init_ok 1 (-1) 1 360 one_pos
  refine ⟨⟨h1, h2, ha, fun q => by rw [hid, hid]⟩, ha, ?_⟩
  intro i j _ _
  simp only [ident, Matrix.one_apply]
  split_ifs <;> norm_num

end Verif.Prim
