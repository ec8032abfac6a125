import Verif.Render.Linear
import Verif.Integrator.Whitted
import Verif.Agg.Geometric
import Verif.Camera.Camera
import Verif.Shape.Shading
import Verif.BVH.Depth

/-!
# A picture from end to end (C168)

Puts the models together: a scene of triangles of constant matte colour under point lights, in a `BVH`, seen by the `PerspectiveCamera` without lens, rendered by `SamplerRenderer` with the
`WhittedIntegrator` and the `StratifiedSampler` on an `ImageFilm`.  Nothing is left abstract except random numbers, and what the integrator would get for specular rays (it traces none).  Exact real arithmetic.
-/
set_option linter.unusedSectionVars false

namespace Verif.Picture
open Verif V3 Verif.Geom Verif.DiffG Verif.Mat Verif.Light Verif.Integrator Verif.Prim Verif.Whitted Verif.Camera
open Verif.Sampler (Sample)
open Verif.Film (Vec Film)

/-! ### Model -/

/-- the scene (`scene/scene.py:17-32`) before its aggregate is made, and its camera.  `refl` is the constant `Kd` of the `MatteMaterial` of a primitive (`sigma` is 0, no bump map), `flip` is
`shape.ro ^ shape.transform_swaps_handedness` (`diffgeom.py:38-42`).  For the model: `fuel` bounds the turns of the traversal loop, `nz` tells which zero components of a direction are `-0.0`, `rli` and `rnd` are
the renderer's answers for specular rays and the random numbers drawn for them. -/
structure Scene where
  cfg : BVH.Config ℝ
  prims : List GPrim
  refl : GPrim → Spec
  flip : GPrim → Bool
  lights : List PLight
  cam : Proj
  fov : ℝ
  maxDepth : ℕ
  fuel : ℕ
  nz : Shape.Ray ℝ → V3 Bool
  rli : Spec.Li (Fin 3)
  rnd : Sample ℝ → (ℝ × ℝ × ℝ) × (ℝ × ℝ × ℝ)

/-- `primitive.world_bound()` as the BVH constructor reads it (`bvh.py:68-107`) -/
noncomputable def wbOf (p : GPrim) : BBox ℝ := p.shape.worldBound.getD ⟨0, 0⟩

/-- `scene.intersect_p(ray)` (`scene/scene.py:36-37`, `bvh.py:353-410`); `none`: it raises -/
noncomputable def Scene.hitAny (S : Scene) (r : Shape.Ray ℝ) : Option Bool :=
  match BVH.mk S.cfg wbOf S.prims with
  | .error _ => none
  | .ok bvh =>
    match bvh.intersectP (first r.o r.d r.mint) (fray r (S.nz r)) S.fuel with
    | .error _ => none
    | .ok b => some b

/-- `scene.intersect(ray, isect)` (`scene/scene.py:33-34`, `bvh.py:295-351`): the primitive recorded in `isect`; `none`: it raises -/
noncomputable def Scene.hitFirst (S : Scene) (r : Shape.Ray ℝ) : Option (Option GPrim) :=
  match BVH.mk S.cfg wbOf S.prims with
  | .error _ => none
  | .ok bvh =>
    match bvh.intersect (first r.o r.d r.mint) (fray r (S.nz r)) S.fuel with
    | .error _ => none
    | .ok acc => some (if acc.hit then acc.isect else none)

/-- the geometry and the ray epsilon recorded for primitive `p` (`triangle.py:210-243`, `primitive.py:93-105`); other shapes: no claim.  It is taken at the ray's full range; a smaller range that still contains the hit gives
the same (`record_maxt`). -/
noncomputable def record (flip : Bool) (p : GPrim) (r : Shape.Ray ℝ) : Option Spec.Isect :=
  match p.shape with
  | .tri frame m v =>
    match Shape.intersect frame m v r with
    | .hit (_, re, g) => some ⟨DiffGeom.init g.p g.dpdu g.dpdv 0 0 g.u g.v flip, re⟩
    | _ => none
  | _ => none

/-- the range of a ray with differentials as the shapes use it -/
noncomputable def toShape (r : Spec.RayD) : Shape.Ray ℝ := ⟨r.o, r.d, r.mint.untopD 0, r.maxt⟩

/-- what the lights answer at `p` (`light.py:129-135`, `light/utility.py:53-70`); `none`: a shadow test raises -/
noncomputable def Scene.lit (S : Scene) (rEps : ℝ) (p : V3 ℝ) : List (LSample (Fin 3) × Option Bool) :=
  S.lights.map fun l => let s := pointSample l.pos l.I p rEps; (s, S.hitAny s.vis)

open Classical in
/-- `SamplerRenderer.li` (`renderer.py:58-75`) without volume integrator, with `WhittedIntegrator.li` (`whitted.py:30-59`), `Intersection.get_bsdf` (`intersection.py:34-36`) and `GeometricPrimitive.get_bsdf`
(`primitive.py:126-128`) for meshes without normals and tangents.  `none`: it raises.  Simplification: it is taken to raise also if the shadow test of a light that is skipped would raise. -/
noncomputable def Scene.li (S : Scene) (smp : Sample ℝ) (ray : Spec.RayD) : Option Spec :=
  if ray.time ≠ smp.time then none else
  match S.hitFirst (toShape ray) with
  | none => none
  | some none => some (S.lights.foldl (fun L _ => fun c => L c + 0) fun _ => 0)
  | some (some p) =>
    match record (S.flip p) p (toShape ray) with
    | none => none
    | some i =>
      let dg := i.dg.compute ray
      if ∃ x ∈ S.lit i.rEps dg.p, x.2 = none then none else
      whittedLi S.rli S.maxDepth ray ⟨dg, i.rEps⟩ (.matte (fun _ => S.refl p) (fun _ => 0) none) dg dg (fun _ _ => 0)
        (fun q => (S.lit i.rEps q).map fun x => ⟨x.1, !(x.2.getD true), fun _ => 1⟩) (S.rnd smp).1 (S.rnd smp).2

/-- the camera's ray (`renderer.py:166-167`, `projective.py:178-232`), scaled for `spp` samples per pixel, and its weight -/
noncomputable def Scene.ray (S : Scene) (spp : ℕ) (smp : Sample ℝ) : Option (ℝ × Spec.RayD) :=
  (S.cam.perspRayD S.fov ⟨smp.imageX, smp.imageY, smp.lensU, smp.lensV, smp.time⟩).map fun x =>
    (x.1, Xform.RayDiff.scale (⟨⟨x.2.main.o, x.2.main.d, (x.2.main.mint : WithTop ℝ), x.2.main.maxt, 0, x.2.main.time⟩, x.2.hasDiff, x.2.rxO, x.2.ryO, x.2.rxD, x.2.ryD⟩ : Spec.RayD) (1 / Real.sqrt spp))

/-- what the rendering task calls (`renderer.py:163-183`).  An exception would end the rendering; here it gives black, and the theorems show of which samples it cannot happen. -/
noncomputable def Scene.world (S : Scene) (spp : ℕ) : Render.World ℝ Unit (Option (ℝ × Spec.RayD)) (Sample ℝ) where
  generate := fun _ => none
  camera := fun _ smp => (((S.ray spp smp).map Prod.fst).getD 0, S.ray spp smp)
  hit := fun e _ => (((e.bind fun x => S.hitAny (toShape x.2))).getD false, e)
  li := fun e smp => (fun c => .fin (((e.bind fun x => S.li smp x.2).getD fun _ => 0) c), e)
  report := fun s _ => (true, s)

/-! ### Specification -/

/-- a coloured triangle in space -/
structure Face where
  a : V3 ℝ
  b : V3 ℝ
  c : V3 ℝ
  R : Spec

/-- the point belongs to the face -/
def Face.has (f : Face) (q : V3 ℝ) : Prop := Shape.InTriangle f.a f.b f.c q

/-- a vector at right angles to the face -/
noncomputable def Face.normal (f : Face) : V3 ℝ := cross (f.b - f.a) (f.c - f.a)

/-- looking from `o` in direction `d`, face `f` is what is seen, at distance `t` (in units of `d`) -/
def FirstSeen (faces : List Face) (o d : V3 ℝ) (f : Face) (t : ℝ) : Prop :=
  f ∈ faces ∧ 0 < t ∧ f.has (rayAt o d t) ∧ ∀ g ∈ faces, ∀ u, 0 ≤ u → g.has (rayAt o d u) → t ≤ u

/-- the same for a ray that starts at distance `s` -/
def FirstFrom (faces : List Face) (o d : V3 ℝ) (s : ℝ) (f : Face) (t : ℝ) : Prop :=
  f ∈ faces ∧ s < t ∧ f.has (rayAt o d t) ∧ ∀ g ∈ faces, ∀ u, s ≤ u → g.has (rayAt o d u) → t ≤ u

/-- no face is between `q` and `l`; the part closer than `e` to `q` is not looked at -/
def Clear (faces : List Face) (e : ℝ) (q l : V3 ℝ) : Prop :=
  ∀ f ∈ faces, ∀ s, e / Geom.length (l - q) ≤ s → s ≤ 1 → ¬ f.has (q + s * (l - q))

open Classical in
/-- Lambert's law: the light that `f` reflects from `q` into direction `w`, summed over the lights in view of `q` on the side of `w` -/
noncomputable def lambert (faces : List Face) (lights : List PLight) (f : Face) (e : ℝ) (q w : V3 ℝ) (c : Fin 3) : ℝ :=
  (lights.map fun l =>
    if Clear faces e q l.pos ∧ 0 < dot (l.pos - q) f.normal * dot w f.normal ∧ (∃ k, 1 / 100000 ≤ l.I k / Geom.length (l.pos - q) ^ 2) ∧ (∃ k, 1 / 100000 ≤ f.R k / Real.pi) then
      f.R c / Real.pi * (l.I c / Geom.length (l.pos - q) ^ 2) * (|dot (l.pos - q) f.normal| / (Geom.length (l.pos - q) * Geom.length f.normal))
    else 0).sum

/-- the light that comes from the scene along the ray: none if no face is seen, else what the seen face reflects -/
def Shows (faces : List Face) (lights : List PLight) (o d : V3 ℝ) (L : Spec) : Prop :=
  ((∀ f ∈ faces, ∀ t, 0 ≤ t → ¬ f.has (rayAt o d t)) ∧ ∀ c, L c = 0) ∨
  ∃ f t, FirstSeen faces o d f t ∧ ∀ c, L c = lambert faces lights f (t / 1000) (rayAt o d t) (-d) c

/-- the primitives of the scene are the triangles of the list, with usable texture coordinates and no alpha texture -/
def Scene.Consists (S : Scene) (faces : List Face) : Prop :=
  List.Forall₂ (fun p (f : Face) => S.refl p = f.R ∧ ∃ frame m v uv, p.shape = .tri frame m v ∧ m.vertex v 0 = some f.a ∧ m.vertex v 1 = some f.b ∧ m.vertex v 2 = some f.c ∧ m.getUvs v = some uv ∧
    Shape.uvArea uv ≠ 0 ∧ m.alpha = none) S.prims faces

/-- the construction of the BVH succeeds, with at most 64 levels -/
def Scene.Built (S : Scene) : Prop :=
  S.prims ≠ [] ∧ ∃ t ordered total, BVH.build S.cfg S.prims S.prims.length (BVH.buildData wbOf S.prims) [] 0 = .ok (t, ordered, total) ∧ t.height ≤ 64 ∧ total ≤ S.fuel

/-- a ray that is no special case: not parallel to a coordinate plane or to a face, not starting on a face -/
structure Plain (faces : List Face) (o d : V3 ℝ) (start : ℝ) : Prop where
  x : d.x ≠ 0
  y : d.y ≠ 0
  z : d.z ≠ 0
  across : ∀ f ∈ faces, dot d f.normal ≠ 0
  start : ∀ f ∈ faces, ¬ f.has (rayAt o d start)

/-- the ray and the shadow rays of the point it sees are no special cases, no light is on a face -/
structure Fine (faces : List Face) (lights : List PLight) (o d : V3 ℝ) : Prop where
  ray : Plain faces o d 0
  off : ∀ l ∈ lights, ∀ f ∈ faces, ¬ f.has l.pos
  shadow : ∀ f t, FirstSeen faces o d f t → ∀ l ∈ lights, Plain faces (rayAt o d t) (normalize (l.pos - rayAt o d t)) (t / 1000)

/-- the ray of image position `(x, y)`: from the eye through the position's place on the screen, both brought to world space -/
def EyeRay (c : Proj) (fov : ℝ) (smp : Sample ℝ) (o d : V3 ℝ) : Prop :=
  ∃ k, PerspDir c fov smp.imageX smp.imageY k ∧ o = (selT c.c2w smp.time).pt 0 ∧ d = (selT c.c2w smp.time).vec k

/-! ### Lemmas -/

variable {S : Scene} {faces : List Face}

theorem face_of (hc : S.Consists faces) {p : GPrim} (hp : p ∈ S.prims) : ∃ f ∈ faces, S.refl p = f.R ∧ ∃ frame m v uv, p.shape = .tri frame m v ∧ m.vertex v 0 = some f.a ∧ m.vertex v 1 = some f.b ∧
    m.vertex v 2 = some f.c ∧ m.getUvs v = some uv ∧ Shape.uvArea uv ≠ 0 ∧ m.alpha = none := by
  obtain ⟨i, hi, rfl⟩ := List.getElem_of_mem hp
  have hl := hc.length_eq
  exact ⟨faces[i], List.getElem_mem _, List.Forall₂.get hc hi (hl ▸ hi)⟩

theorem prim_of (hc : S.Consists faces) {f : Face} (hf : f ∈ faces) : ∃ p ∈ S.prims, S.refl p = f.R ∧ ∃ frame m v uv, p.shape = .tri frame m v ∧ m.vertex v 0 = some f.a ∧ m.vertex v 1 = some f.b ∧
    m.vertex v 2 = some f.c ∧ m.getUvs v = some uv ∧ Shape.uvArea uv ≠ 0 ∧ m.alpha = none := by
  obtain ⟨i, hi, rfl⟩ := List.getElem_of_mem hf
  have hl := hc.length_eq
  exact ⟨S.prims[i]'(hl ▸ hi), List.getElem_mem _, List.Forall₂.get hc (hl ▸ hi) hi⟩

/-- with the surface-area method, at most four primitives per node and at most 66 in all, the tree is always built and low enough -/
theorem built_default (S : Scene) (hm : S.cfg.middle = false) (h4 : S.cfg.maxPrim ≤ 4) (hne : S.prims ≠ []) (hs : S.prims.length ≤ 66) : ∃ n, ∀ fuel ≥ n, ({ S with fuel := fuel } : Scene).Built := by
  obtain ⟨t, o, n, hb⟩ := BVH.C35_default_succeeds_partial S.cfg hm h4 wbOf S.prims hne
  exact ⟨n, fun fuel hf => ⟨hne, t, o, n, hb, BVH.C38_sah_scenes_fit_partial S.cfg hm wbOf S.prims t o n hb hs, hf⟩⟩

/-- what a primitive of the scene is in terms of a face -/
structure Is (p : GPrim) (f : Face) : Prop where
  ok : p.shape.Ok
  up : p.shape.Upright
  on : ∀ q, p.shape.On q ↔ f.has q
  seen : ∀ o d, p.shape.Seen o d ↔ dot d f.normal ≠ 0
  wb : p.shape.worldBound = some (wbOf p)

theorem is_of {p : GPrim} {f : Face} (h : ∃ frame m v uv, p.shape = .tri frame m v ∧ m.vertex v 0 = some f.a ∧ m.vertex v 1 = some f.b ∧
    m.vertex v 2 = some f.c ∧ m.getUvs v = some uv ∧ Shape.uvArea uv ≠ 0 ∧ m.alpha = none) : Is p f := by
  obtain ⟨frame, m, v, uv, e, a, b, c, hu, -, ha⟩ := h
  refine ⟨by rw [e]; exact ⟨by simp [a], by simp [b], by simp [c], by simp [hu], ha⟩, by rw [e]; trivial, fun q => ?_, fun o d => ?_, ?_⟩
  · rw [e]; simp [Shp.On, a, b, c, Face.has]
  · rw [e]; simp [Shp.Seen, a, b, c, Shape.Transversal, Face.normal]
  · rw [wbOf, e]
    simp only [Shp.worldBound]
    obtain ⟨w, hw, -⟩ := Shape.C40_world_bound m v f.a f.b f.c f.a a b c ⟨0, 0, le_rfl, le_rfl, by norm_num, by apply V3.ext <;> simp [Shape.bary]⟩
    rw [hw]; rfl

theorem rayFine {d : V3 ℝ} (o : V3 ℝ) (mint : ℝ) (maxt : WithTop ℝ) (hx : d.x ≠ 0) (hy : d.y ≠ 0) (hz : d.z ≠ 0) (nz : V3 Bool) (prims : List GPrim) : BVH.RayFine wbOf prims (fray ⟨o, d, mint, maxt⟩ nz) :=
  fun _ _ => ⟨Or.inl hx, Or.inl hy, Or.inl hz⟩

/-- the scene's answer to a shadow ray or visibility ray -/
theorem hitAny_spec (hc : S.Consists faces) (hb : S.Built) (r : Shape.Ray ℝ) (hp : Plain faces r.o r.d r.mint) (hend : ∀ e : ℝ, r.maxt = e → ∀ f ∈ faces, ¬ f.has (rayAt r.o r.d e)) :
    ∃ b, S.hitAny r = some b ∧ (b = true ↔ ∃ f ∈ faces, ∃ t, r.mint ≤ t ∧ (t : WithTop ℝ) ≤ r.maxt ∧ f.has (rayAt r.o r.d t)) := by
  obtain ⟨hne, tr, ordered, total, hbuild, hh, hfuel⟩ := hb
  have his : ∀ p ∈ S.prims, ∃ f ∈ faces, Is p f := fun p hp => by
    obtain ⟨f, hf, -, h⟩ := face_of hc hp
    exact ⟨f, hf, is_of h⟩
  have hcon : ∀ p ∈ S.prims, BVH.Contract wbOf (first r.o r.d r.mint) (fray r (S.nz r)) p := by
    intro p hpm s hs
    obtain ⟨f, hf, hi⟩ := his p hpm
    obtain ⟨-, ⟨⟨g1, g2⟩, -⟩⟩ := (first_iff hi.ok r.o r.d r.mint s).1 hs
    obtain ⟨b, hb, hm⟩ := on_mem_bound hi.ok hi.up _ g2
    rw [hi.wb] at hb
    obtain rfl := Option.some.inj hb
    refine ⟨?_, hm⟩
    have : r.mint < s := lt_of_le_of_ne g1 (fun e => hp.start f hf ((hi.on _).1 (e ▸ g2)))
    simpa [fray, F.lt] using this
  obtain ⟨bvh, res, e1, e2, e3, e4⟩ := BVH.C38_intersect_p_partial S.cfg wbOf S.prims hne (first r.o r.d r.mint) (fray r (S.nz r)) hcon (rayFine _ _ _ hp.x hp.y hp.z _ _) tr ordered total hbuild hh
  refine ⟨res, by simp only [Scene.hitAny, e1, e2 S.fuel hfuel], fun h => ?_, ?_⟩
  · obtain ⟨p, hpm, s, h1, h2⟩ := e3 h
    obtain ⟨f, hf, hi⟩ := his p hpm
    obtain ⟨-, ⟨⟨g1, g2⟩, -⟩⟩ := (first_iff hi.ok r.o r.d r.mint s).1 h1
    exact ⟨f, hf, s, g1, (le_toF s r.maxt).1 h2, (hi.on _).1 g2⟩
  · rintro ⟨f, hf, t, h1, h2, h3⟩
    apply e4
    obtain ⟨p, hpm, -, h⟩ := prim_of hc hf
    have hi := is_of h
    obtain ⟨s, hs, hle⟩ := first_le hi.ok r.o r.d r.mint t ((hi.seen _ _).2 (hp.across f hf)) h1 ((hi.on _).2 h3)
    refine ⟨p, hpm, s, hs, (lt_toF s r.maxt).2 (lt_of_le_of_lt (WithTop.coe_le_coe.2 hle) (lt_of_le_of_ne h2 fun e => ?_))⟩
    exact hend t e.symm f hf h3

/-- the scene's answer to a ray of unlimited range -/
theorem hitFirst_from (hc : S.Consists faces) (hb : S.Built) (o d : V3 ℝ) (s : ℝ) (hp : Plain faces o d s) :
    (S.hitFirst ⟨o, d, s, ⊤⟩ = some none ∧ ∀ f ∈ faces, ∀ t, s ≤ t → ¬ f.has (rayAt o d t)) ∨
    ∃ p ∈ S.prims, ∃ f t, S.hitFirst ⟨o, d, s, ⊤⟩ = some (some p) ∧ S.refl p = f.R ∧ (∃ frame m v uv, p.shape = .tri frame m v ∧ m.vertex v 0 = some f.a ∧ m.vertex v 1 = some f.b ∧
      m.vertex v 2 = some f.c ∧ m.getUvs v = some uv ∧ Shape.uvArea uv ≠ 0 ∧ m.alpha = none) ∧ FirstFrom faces o d s f t := by
  obtain ⟨hne, tr, ordered, total, hbuild, hh, hfuel⟩ := hb
  have his : ∀ p ∈ S.prims, ∃ f ∈ faces, Is p f := fun p hp => by
    obtain ⟨f, hf, -, h⟩ := face_of hc hp
    exact ⟨f, hf, is_of h⟩
  obtain ⟨bvh, acc, e1, e2, e3⟩ := C145_bvh_partial S.cfg S.prims hne (fun p hpm => by obtain ⟨f, -, hi⟩ := his p hpm; exact ⟨hi.ok, hi.up⟩) ⟨o, d, s, ⊤⟩ (S.nz ⟨o, d, s, ⊤⟩) wbOf
    (fun p hpm => by obtain ⟨f, -, hi⟩ := his p hpm; exact hi.wb) (fun p hpm hon => by obtain ⟨f, hf, hi⟩ := his p hpm; exact hp.start f hf ((hi.on _).1 hon))
    (rayFine _ _ _ hp.x hp.y hp.z _ _) tr ordered total hbuild hh
  have e4 := e2 S.fuel hfuel
  rcases e3 with ⟨rfl, h⟩ | ⟨p, hpm, t, rfl, h1, -, h3, h4⟩
  · left
    refine ⟨by simp only [Scene.hitFirst, e1, e4]; rfl, fun f hf t ht hon => ?_⟩
    obtain ⟨p, hpm, -, h'⟩ := prim_of hc hf
    have hi := is_of h'
    exact h p hpm ((hi.seen _ _).2 (hp.across f hf)) t ht (WithTop.coe_lt_top t) ((hi.on _).2 hon)
  · right
    obtain ⟨f, hf, hR, h'⟩ := face_of hc hpm
    have hi := is_of h'
    refine ⟨p, hpm, f, t, by simp only [Scene.hitFirst, e1, e4]; rfl, hR, h', hf, ?_, (hi.on _).1 h3, fun g hg u hu hon => ?_⟩
    · exact lt_of_le_of_ne h1 fun e => hp.start f hf (by rw [e]; exact (hi.on _).1 h3)
    · obtain ⟨q, hqm, -, hq⟩ := prim_of hc hg
      have hj := is_of hq
      exact h4 q hqm ((hj.seen _ _).2 (hp.across g hg)) u hu ((hj.on _).2 hon)

/-- the scene's answer to a ray of unlimited range from the eye -/
theorem hitFirst_spec (hc : S.Consists faces) (hb : S.Built) (o d : V3 ℝ) (hp : Plain faces o d 0) :
    (S.hitFirst ⟨o, d, 0, ⊤⟩ = some none ∧ ∀ f ∈ faces, ∀ t, 0 ≤ t → ¬ f.has (rayAt o d t)) ∨
    ∃ p ∈ S.prims, ∃ f t, S.hitFirst ⟨o, d, 0, ⊤⟩ = some (some p) ∧ S.refl p = f.R ∧ (∃ frame m v uv, p.shape = .tri frame m v ∧ m.vertex v 0 = some f.a ∧ m.vertex v 1 = some f.b ∧
      m.vertex v 2 = some f.c ∧ m.getUvs v = some uv ∧ Shape.uvArea uv ≠ 0 ∧ m.alpha = none) ∧ FirstSeen faces o d f t :=
  hitFirst_from hc hb o d 0 hp

/-- the record of a hit, with the direction of its first tangent -/
theorem record_uv {p : GPrim} {f : Face} {frame : V3 ℝ → V3 ℝ × V3 ℝ} {m : Shape.Mesh ℝ} {v : ℕ} {uv : (ℝ × ℝ) × (ℝ × ℝ) × (ℝ × ℝ)} (e : p.shape = .tri frame m v) (a : m.vertex v 0 = some f.a) (b : m.vertex v 1 = some f.b)
    (c : m.vertex v 2 = some f.c) (hu : m.getUvs v = some uv) (har : Shape.uvArea uv ≠ 0) (ha : m.alpha = none) (flip : Bool) (o d : V3 ℝ) (mint : ℝ) (maxt : WithTop ℝ) (t : ℝ) (h1 : mint ≤ t) (h2 : (t : WithTop ℝ) ≤ maxt)
    (hon : f.has (rayAt o d t)) (ht : dot d f.normal ≠ 0) :
    ∃ (dpdu dpdv : V3 ℝ) (u v k : ℝ), record flip p ⟨o, d, mint, maxt⟩ = some ⟨DiffGeom.init (rayAt o d t) dpdu dpdv 0 0 u v flip, t / 1000⟩ ∧ k ≠ 0 ∧ cross dpdu dpdv = k * f.normal ∧
      dpdu = k * ((uv.2.1.2 - uv.2.2.2) * (f.a - f.c) - (uv.1.2 - uv.2.2.2) * (f.b - f.c)) := by
  obtain ⟨re, g, hg⟩ := (Shape.C40_sound_complete frame m v ⟨o, d, mint, maxt⟩ f.a f.b f.c a b c (by simp [hu]) ha t).2 ⟨ht, ⟨h1, h2⟩, hon⟩
  obtain ⟨g1, g2, -⟩ := Shape.C40_geometry frame m v _ f.a f.b f.c a b c uv hu t re g hg
  have hd : (uv.1.1 - uv.2.2.1) * (uv.2.1.2 - uv.2.2.2) - (uv.2.1.1 - uv.2.2.1) * (uv.1.2 - uv.2.2.2) ≠ 0 := by
    intro h0; apply har; simp only [Shape.uvArea]; linear_combination h0
  have key : g.dpdu = (1 / ((uv.1.1 - uv.2.2.1) * (uv.2.1.2 - uv.2.2.2) - (uv.2.1.1 - uv.2.2.1) * (uv.1.2 - uv.2.2.2))) * ((uv.2.1.2 - uv.2.2.2) * (f.a - f.c) - (uv.1.2 - uv.2.2.2) * (f.b - f.c)) ∧
      g.dpdv = (1 / ((uv.1.1 - uv.2.2.1) * (uv.2.1.2 - uv.2.2.2) - (uv.2.1.1 - uv.2.2.1) * (uv.1.2 - uv.2.2.2))) * ((-(uv.2.1.1 - uv.2.2.1)) * (f.a - f.c) + (uv.1.1 - uv.2.2.1) * (f.b - f.c)) := by
    simp only [Shape.intersect, a, b, c, hu, ha] at hg
    split at hg
    · cases hg
    · simp only [Shape.Out.hit.injEq, Prod.mk.injEq] at hg
      obtain ⟨-, -, rfl⟩ := hg
      simp only [Shape.geoOf, if_neg hd, and_self]
  refine ⟨g.dpdu, g.dpdv, g.u, g.v, 1 / ((uv.1.1 - uv.2.2.1) * (uv.2.1.2 - uv.2.2.2) - (uv.2.1.1 - uv.2.2.1) * (uv.1.2 - uv.2.2.2)), ?_, one_div_ne_zero hd, ?_, key.1⟩
  · simp only [record, e, hg, g1]
    rw [← g2]
  · rw [key.1, key.2]
    generalize (uv.1.1 - uv.2.2.1) = d1 at *
    generalize (uv.2.1.1 - uv.2.2.1) = d2 at *
    generalize (uv.1.2 - uv.2.2.2) = d3 at *
    generalize (uv.2.1.2 - uv.2.2.2) = d4 at *
    apply V3.ext <;> simp only [Face.normal, cross, smul_x, smul_y, smul_z, sub_x, sub_y, sub_z, add_x, add_y, add_z] <;> field_simp <;> ring

/-- the record of a hit -/
theorem record_spec {p : GPrim} {f : Face} (h : ∃ frame m v uv, p.shape = .tri frame m v ∧ m.vertex v 0 = some f.a ∧ m.vertex v 1 = some f.b ∧
      m.vertex v 2 = some f.c ∧ m.getUvs v = some uv ∧ Shape.uvArea uv ≠ 0 ∧ m.alpha = none) (flip : Bool) (o d : V3 ℝ) (mint : ℝ) (maxt : WithTop ℝ) (t : ℝ) (h1 : mint ≤ t) (h2 : (t : WithTop ℝ) ≤ maxt)
    (hon : f.has (rayAt o d t)) (ht : dot d f.normal ≠ 0) :
    ∃ (dpdu dpdv : V3 ℝ) (u v k : ℝ), record flip p ⟨o, d, mint, maxt⟩ = some ⟨DiffGeom.init (rayAt o d t) dpdu dpdv 0 0 u v flip, t / 1000⟩ ∧ k ≠ 0 ∧ cross dpdu dpdv = k * f.normal := by
  obtain ⟨frame, m, v, uv, e, a, b, c, hu, har, ha⟩ := h
  obtain ⟨du, dv, u, w, k, g1, g2, g3, -⟩ := record_uv e a b c hu har ha flip o d mint maxt t h1 h2 hon ht
  exact ⟨du, dv, u, w, k, g1, g2, g3⟩

/-- the normal of the record is a unit multiple of the face's -/
theorem nn_face (p dpdu dpdv : V3 ℝ) (u v k : ℝ) (flip : Bool) (N : V3 ℝ) (hk : k ≠ 0) (hN : N ≠ 0) (hc : cross dpdu dpdv = k * N) :
    ∃ m : ℝ, m ≠ 0 ∧ |m| * Geom.length N = 1 ∧ (DiffGeom.init p dpdu dpdv 0 0 u v flip).nn = m * N := by
  have hkN : k * N ≠ 0 := by
    intro h
    apply hN
    have hx := congrArg V3.x h
    have hy := congrArg V3.y h
    have hz := congrArg V3.z h
    simp only [smul_x, smul_y, smul_z, zero_x, zero_y, zero_z, mul_eq_zero, hk, false_or] at hx hy hz
    ext <;> assumption
  obtain ⟨-, h2, h3⟩ := (Geom.C06_normalize (k * N)).1 hkN
  have hl : Geom.length (k * N) = |k| * Geom.length N := by
    simp only [Geom.length, sqLength, smul_x, smul_y, smul_z]
    rw [← Real.sqrt_sq_eq_abs, ← Real.sqrt_mul (sq_nonneg _)]
    congr 1; ring
  have e : Geom.normalize (k * N) = (k / Geom.length (k * N)) * N := by
    have hx := congrArg V3.x h2
    have hy := congrArg V3.y h2
    have hz := congrArg V3.z h2
    simp only [smul_x, smul_y, smul_z] at hx hy hz
    ext <;> simp only [smul_x, smul_y, smul_z] <;> field_simp <;> linarith
  have hN0 : Geom.length N ≠ 0 := by
    intro h0; rw [hl, h0, mul_zero] at h3; exact lt_irrefl _ h3
  have habs : |k / Geom.length (k * N)| * Geom.length N = 1 := by
    rw [abs_div, abs_of_pos h3, hl, div_mul_eq_mul_div, div_self (mul_ne_zero (abs_ne_zero.2 hk) hN0)]
  cases flip with
  | false => exact ⟨k / Geom.length (k * N), div_ne_zero hk h3.ne', habs, by simp only [DiffGeom.init, hc, e]; rfl⟩
  | true =>
    refine ⟨-(k / Geom.length (k * N)), neg_ne_zero.2 (div_ne_zero hk h3.ne'), by rw [abs_neg]; exact habs, ?_⟩
    simp only [DiffGeom.init, hc, e, if_true]
    apply V3.ext <;> simp

theorem whittedLi_congr (rli : Spec.Li (Fin 3)) (maxDepth : ℕ) (ray : Spec.RayD) (i : Spec.Isect) (Kd : STex) (sigma : FTex) (dgg dgs : DiffGeom) (le : V3 ℝ → Spec) (l1 l2 : V3 ℝ → List Lit) (ur ut : ℝ × ℝ × ℝ)
    (h : l1 dgs.p = l2 dgs.p) : whittedLi rli maxDepth ray i (.matte Kd sigma none) dgg dgs le l1 ur ut = whittedLi rli maxDepth ray i (.matte Kd sigma none) dgg dgs le l2 ur ut := by
  obtain ⟨r, hr, hd, -⟩ := C131_total (.matte Kd sigma none) (by simp [Material.bumped]) (by simp) (by simp) dgg dgs
  have hp : r.dgs.p = dgs.p := by rw [hd]; rfl
  simp only [whittedLi, hr, Option.bind_some, hp, h]

theorem segment_dir {q l : V3 ℝ} (h : q ≠ l) (e : ℝ) : (setSegment q e l 0).d = normalize (l - q) := by
  rw [normalize_eq h.symm]
  simp only [setSegment, length_sub_comm q l]

theorem segment_at {q l : V3 ℝ} (h : q ≠ l) (s : ℝ) : rayAt q (normalize (l - q)) (s * Geom.length (l - q)) = q + s * (l - q) := by
  have hl : 0 < Geom.length (l - q) := length_sub_pos h.symm
  rw [normalize_eq h.symm]
  apply V3.ext <;> simp only [rayAt, sub_x, sub_y, sub_z, add_x, add_y, add_z, smul_x, smul_y, smul_z] <;> field_simp

theorem shadow_spec (hc : S.Consists faces) (hb : S.Built) (q l : V3 ℝ) (e : ℝ) (hne : q ≠ l) (hp : Plain faces q (normalize (l - q)) e) (hoff : ∀ f ∈ faces, ¬ f.has l) :
    ∃ b, S.hitAny (setSegment q e l 0) = some b ∧ (b = false ↔ Clear faces e q l) := by
  have hl : 0 < Geom.length (l - q) := length_sub_pos hne.symm
  have hd := segment_dir hne e
  have hm : (setSegment q e l 0).maxt = ((Geom.length (l - q) : ℝ) : WithTop ℝ) := by simp only [setSegment, length_sub_comm q l, sub_zero, mul_one]
  have hat : ∀ t, rayAt (setSegment q e l 0).o (setSegment q e l 0).d t = q + (t / Geom.length (l - q)) * (l - q) := by
    intro t
    rw [hd, ← segment_at hne, div_mul_cancel₀ _ hl.ne']; rfl
  obtain ⟨b, h1, h2⟩ := hitAny_spec hc hb (setSegment q e l 0) (by rw [hd]; exact hp) (by
    intro x hx f hf hon
    rw [hm, WithTop.coe_inj] at hx
    rw [hat, ← hx, div_self hl.ne'] at hon
    refine hoff f hf ?_
    convert hon using 1
    apply V3.ext <;> simp)
  refine ⟨b, h1, ?_⟩
  rw [← Bool.not_eq_true, h2, Clear]
  push Not
  refine forall₂_congr fun f hf => ⟨fun h s hs1 hs2 hon => ?_, fun h t ht1 ht2 hon => ?_⟩
  · refine h (s * Geom.length (l - q)) ((div_le_iff₀ hl).1 hs1) ?_ ?_
    · rw [hm, WithTop.coe_le_coe]; exact mul_le_of_le_one_left hl.le hs2
    · rw [hat, mul_div_cancel_right₀ _ hl.ne']; exact hon
  · rw [hm, WithTop.coe_le_coe] at ht2
    refine h (t / Geom.length (l - q)) ?_ ((div_le_one hl).2 ht2) ?_
    · exact (div_le_div_iff_of_pos_right hl).2 ht1
    · rw [← hat]; exact hon

/-- a face as a mesh, for `C163_matte` -/
noncomputable def meshOf (f : Face) : Shape.Mesh ℝ × ℕ := (⟨1, 3, [0, 1, 2], [f.a, f.b, f.c], none, none, id⟩, 0)

noncomputable def vsOf (t : Shape.Mesh ℝ × ℕ) : V3 ℝ × V3 ℝ × V3 ℝ := ((t.1.vertex t.2 0).getD 0, (t.1.vertex t.2 1).getD 0, (t.1.vertex t.2 2).getD 0)

theorem vertex_meshOf (f : Face) : (meshOf f).1.vertex (meshOf f).2 0 = some f.a ∧ (meshOf f).1.vertex (meshOf f).2 1 = some f.b ∧ (meshOf f).1.vertex (meshOf f).2 2 = some f.c := by
  simp [meshOf, Shape.Mesh.vertex, Shape.pyGet]

theorem seen_iff (e : ℝ) (q l : V3 ℝ) : Seen vsOf (faces.map meshOf) e q l ↔ Clear faces e q l := by
  simp only [Seen, Clear, List.forall_mem_map]
  refine forall₂_congr fun f hf => ?_
  obtain ⟨a, b, c⟩ := vertex_meshOf f
  simp only [vsOf, a, b, c, Option.getD_some, Face.has]

theorem clip_of_nonneg {s : Spec} (h : ∀ c, 0 ≤ s c) : clip s = s := funext fun c => max_eq_left (h c)

theorem compute_init {T : Type*} (g : DiffGeom) (r : Xform.RayDiff ℝ T) : (g.compute r).p = g.p ∧ (g.compute r).nn = g.nn ∧ (g.compute r).copy = g.copy := by
  simp only [DiffGeom.compute]
  split_ifs <;> exact ⟨rfl, rfl, rfl⟩

open Classical in
/-- what a matte face reflects -/
theorem matte_spec (hc : S.Consists faces) (hR : ∀ f ∈ faces, ∀ c, 0 ≤ f.R c) (hb : S.Built) (rli : Spec.Li (Fin 3)) (maxDepth : ℕ) (ur ut : ℝ × ℝ × ℝ) (ray : Spec.RayD) (f : Face) (hfm : f ∈ faces) (t : ℝ)
    (hon : f.has (rayAt ray.o ray.d t)) (hN : f.normal ≠ 0) (hoff : ∀ l ∈ S.lights, ∀ f ∈ faces, ¬ f.has l.pos)
    (hsh : ∀ l ∈ S.lights, Plain faces (rayAt ray.o ray.d t) (normalize (l.pos - rayAt ray.o ray.d t)) (t / 1000)) (du dv : V3 ℝ) (u v k : ℝ) (fl : Bool) (hk : k ≠ 0) (hcr : cross du dv = k * f.normal) (R : Spec) (hRp : R = f.R) :
    let g := DiffGeom.init (rayAt ray.o ray.d t) du dv 0 0 u v fl
    (¬ ∃ x ∈ S.lit (t / 1000) (g.compute ray).p, x.2 = none) ∧
    whittedLi rli maxDepth ray ⟨g.compute ray, t / 1000⟩ (.matte (fun _ => R) (fun _ => 0) none) (g.compute ray) (g.compute ray) (fun _ _ => 0)
        (fun q => (S.lit (t / 1000) q).map fun x => ⟨x.1, !(x.2.getD true), fun _ => 1⟩) ur ut = some fun c => lambert faces S.lights f (t / 1000) (rayAt ray.o ray.d t) (-ray.d) c := by
  obtain ⟨m, hm0, hm1, hnn⟩ := nn_face (rayAt ray.o ray.d t) du dv u v k fl f.normal hk hN hcr
  intro g0
  set q := rayAt ray.o ray.d t with hq
  set g := DiffGeom.init q du dv 0 0 u v fl with hg
  have hgp : g.p = q := rfl
  obtain ⟨c1, c2, c3⟩ := compute_init g ray
  have hcopy : g.copy = g := rfl
  have hne : ∀ l ∈ S.lights, q ≠ l.pos := fun l hl h => hoff l hl f hfm (h ▸ hon)
  have hsp : ∀ l ∈ S.lights, ∃ b, S.hitAny (setSegment q (t / 1000) l.pos 0) = some b ∧ (b = false ↔ Clear faces (t / 1000) q l.pos) :=
    fun l hl => shadow_spec hc hb q l.pos (t / 1000) (hne l hl) (hsh l hl) (hoff l hl)
  have hgs : GoodScene vsOf (faces.map meshOf) (t / 1000) S.lights q := by
    intro l hl
    refine ⟨hne l hl, fun x hx => ?_⟩
    obtain ⟨f', hf', rfl⟩ := List.mem_map.1 hx
    obtain ⟨a, b, c⟩ := vertex_meshOf f'
    refine ⟨by simp [vsOf, a], by simp [vsOf, b], by simp [vsOf, c], by simp [meshOf, Shape.Mesh.getUvs], rfl, ?_⟩
    simp only [vsOf, a, b, c, Option.getD_some, Shape.Transversal, segment_dir (hne l hl)]
    exact (hsh l hl).across f' hf'
  have hlit : ((S.lit (t / 1000) q).map fun x => (⟨x.1, !(x.2.getD true), fun _ => 1⟩ : Lit)) = litBy (fun _ => (0, 0)) (faces.map meshOf) (t / 1000) S.lights q := by
    rw [Scene.lit, litBy, List.map_map]
    apply List.map_congr_left
    intro l hl
    obtain ⟨b, h1, h2⟩ := hsp l hl
    have h3 := C54_unoccluded (fun _ => (0, 0)) (faces.map meshOf) q l.pos (t / 1000) 0 (hne l hl) vsOf (hgs l hl).2
    simp only [sub_zero] at h3
    change _ ↔ Seen vsOf (faces.map meshOf) (t / 1000) q l.pos at h3
    rw [seen_iff, ← h2] at h3
    simp only [Function.comp_apply, pointSample, h1, Option.getD_some, Lit.mk.injEq, true_and, and_true]
    rw [Bool.eq_iff_iff, h3, Bool.not_eq_true']
  have hno : ¬ ∃ x ∈ S.lit (t / 1000) (g.compute ray).p, x.2 = none := by
    rintro ⟨x, hx, hx2⟩
    rw [c1, hgp, Scene.lit, List.mem_map] at hx
    obtain ⟨l, hl, rfl⟩ := hx
    obtain ⟨b, h1, -⟩ := hsp l hl
    simp only [pointSample, h1] at hx2
    cases hx2
  have hmat := C163_matte rli maxDepth ray ⟨g.compute ray, t / 1000⟩ (fun _ => R) (fun _ => 0) (g.compute ray) (g.compute ray) (fun _ _ => 0) S.lights (faces.map meshOf) (fun _ => (0, 0)) vsOf
    ur ut le_rfl (by rw [c1, hgp]; exact hgs)
  rw [← whittedLi_congr rli maxDepth ray ⟨g.compute ray, t / 1000⟩ (fun _ => R) (fun _ => 0) (g.compute ray) (g.compute ray) (fun _ _ => 0)
    (fun q => (S.lit (t / 1000) q).map fun x => ⟨x.1, !(x.2.getD true), fun _ => 1⟩) _ ur ut (by rw [c1, hgp]; exact hlit)] at hmat
  refine ⟨hno, ?_⟩
  refine hmat.trans (congrArg some ?_)
  funext c
  simp only [c1, c2, c3, hcopy, hgp, hRp, clip_of_nonneg (hR f hfm), zero_add, lambert]
  congr 1
  apply List.map_congr_left
  intro l hl
  have hside : SameSide (-ray.d) g.nn q l.pos ↔ 0 < dot (l.pos - q) f.normal * dot (-ray.d) f.normal := by
    rw [SameSide, hnn]
    have : dot (l.pos - q) (m * f.normal) * dot (-ray.d) (m * f.normal) = m ^ 2 * (dot (l.pos - q) f.normal * dot (-ray.d) f.normal) := by
      simp only [dot, smul_x, smul_y, smul_z]; ring
    rw [this]
    exact mul_pos_iff_of_pos_left (by positivity)
  have hlen : 0 < Geom.length (l.pos - q) := length_sub_pos (hne l hl).symm
  have hNl : Geom.length f.normal ≠ 0 := by intro h0; rw [h0, mul_zero] at hm1; norm_num at hm1
  have hterm : lambertTerm f.R g.nn q l c = f.R c / Real.pi * (l.I c / Geom.length (l.pos - q) ^ 2) * (|dot (l.pos - q) f.normal| / (Geom.length (l.pos - q) * Geom.length f.normal)) := by
    rw [lambertTerm, hnn]
    have : dot (l.pos - q) (m * f.normal) = m * dot (l.pos - q) f.normal := by simp only [dot, smul_x, smul_y, smul_z]; ring
    rw [this, abs_mul, show |m| = 1 / Geom.length f.normal by rw [eq_div_iff hNl]; exact hm1]
    field_simp
  simp only [seen_iff, hside, hterm, Visible]

/-! ### Theorems -/

/-- **C168** the radiance of a ray: no exception, and the light is what the scene sends along the ray -/
theorem C168_li_partial (hc : S.Consists faces) (hR : ∀ f ∈ faces, ∀ c, 0 ≤ f.R c) (hb : S.Built) (smp : Sample ℝ) (ray : Spec.RayD) (hmin : ray.mint = (0 : ℝ)) (hmax : ray.maxt = ⊤) (ht : ray.time = smp.time)
    (hf : Fine faces S.lights ray.o ray.d) : ∃ L, S.li smp ray = some L ∧ Shows faces S.lights ray.o ray.d L := by
  classical
  have hray : toShape ray = ⟨ray.o, ray.d, 0, ⊤⟩ := by simp only [toShape, hmin, hmax]; rfl
  rcases hitFirst_spec hc hb ray.o ray.d hf.ray with ⟨e, hmiss⟩ | ⟨p, hpm, f, t, e, hRp, hshape, hfs⟩
  · refine ⟨fun _ => 0, ?_, Or.inl ⟨hmiss, fun _ => rfl⟩⟩
    simp only [Scene.li, ht, ne_eq, not_true_eq_false, if_false, hray, e, Option.some.injEq]
    funext c
    simp only [add_zero]
    induction S.lights with
    | nil => rfl
    | cons l ls ih => rw [List.foldl_cons]; exact ih
  · obtain ⟨hfm, ht0, hon, hfirst⟩ := hfs
    have hN : f.normal ≠ 0 := fun h => hf.ray.across f hfm (by rw [h]; simp [dot])
    obtain ⟨du, dv, u, v, k, hrec, hk, hcr⟩ := record_spec hshape (S.flip p) ray.o ray.d 0 ⊤ t ht0.le le_top hon (hf.ray.across f hfm)
    obtain ⟨hno, hmat⟩ := matte_spec hc hR hb S.rli S.maxDepth (S.rnd smp).1 (S.rnd smp).2 ray f hfm t hon hN hf.off (hf.shadow f t ⟨hfm, ht0, hon, hfirst⟩) du dv u v k (S.flip p) hk hcr (S.refl p) hRp
    refine ⟨_, ?_, Or.inr ⟨f, t, ⟨hfm, ht0, hon, hfirst⟩, fun _ => rfl⟩⟩
    simp only [Scene.li, ht, ne_eq, not_true_eq_false, if_false, hray, e, hrec, hno]
    exact hmat

theorem ray_spec (h0 : 0 < S.fov) (h1 : S.fov < 180) (hl : S.cam.lensRad ≤ 0) (spp : ℕ) (smp : Sample ℝ) :
    ∃ ray, S.ray spp smp = some (1, ray) ∧ ray.mint = (0 : ℝ) ∧ ray.maxt = ⊤ ∧ ray.time = smp.time ∧ EyeRay S.cam S.fov smp ray.o ray.d := by
  refine ⟨_, by simp only [Scene.ray, Proj.perspRayD, Proj.dof, if_neg (not_lt.2 hl), Option.bind_eq_bind, Option.bind_some, Option.map_some]; rfl, rfl, rfl, rfl, ?_⟩
  exact ⟨_, persp_dir S.cam S.fov h0 h1 smp.imageX smp.imageY, rfl, rfl⟩

theorem eyeRay_unique {c : Proj} {fov : ℝ} {smp : Sample ℝ} {o d o' d' : V3 ℝ} (h : EyeRay c fov smp o d) (h' : EyeRay c fov smp o' d') : o = o' ∧ d = d' := by
  obtain ⟨k, hk, rfl, rfl⟩ := h
  obtain ⟨k', hk', rfl, rfl⟩ := h'
  exact ⟨rfl, by rw [perspDir_unique c fov _ _ k k' hk hk']⟩

theorem lambert_nonneg (lights : List PLight) (hI : ∀ l ∈ lights, ∀ c, 0 ≤ l.I c) (f : Face) (hR : ∀ c, 0 ≤ f.R c) (e : ℝ) (q w : V3 ℝ) (c : Fin 3) : 0 ≤ lambert faces lights f e q w c := by
  classical
  apply List.sum_nonneg
  intro x hx
  obtain ⟨l, hl, rfl⟩ := List.mem_map.1 hx
  split_ifs
  · have hl0 : ∀ v : V3 ℝ, 0 ≤ Geom.length v := fun v => Real.sqrt_nonneg _
    exact mul_nonneg (mul_nonneg (div_nonneg (hR c) Real.pi_pos.le) (div_nonneg (hI l hl c) (sq_nonneg _))) (div_nonneg (abs_nonneg _) (mul_nonneg (hl0 _) (hl0 _)))
  · exact le_rfl

theorem shows_nonneg {lights : List PLight} (hI : ∀ l ∈ lights, ∀ c, 0 ≤ l.I c) (hR : ∀ f ∈ faces, ∀ c, 0 ≤ f.R c) {o d : V3 ℝ} {L : Spec} (h : Shows faces lights o d L) (c : Fin 3) : 0 ≤ L c := by
  rcases h with ⟨-, h⟩ | ⟨f, t, h1, h2⟩
  · rw [h]
  · rw [h2]; exact lambert_nonneg lights hI f (hR f h1.1) _ _ _ _

theorem shows_unique_black {lights : List PLight} {o d : V3 ℝ} {L : Spec} (h : Shows faces lights o d L) (hn : ∀ f ∈ faces, ∀ t, 0 ≤ t → ¬ f.has (rayAt o d t)) : ∀ c, L c = 0 := by
  rcases h with ⟨-, h⟩ | ⟨f, t, h1, -⟩
  · exact h
  · exact absurd h1.2.2.1 (hn f h1.1 t h1.2.1.le)

/-- **C168** one sample: whatever was rendered before, if the ray of the sample's image position is fine the value that reaches the film is the light the scene sends along that ray; the visibility test, the search and the
integrator raise no exception. -/
theorem C168_sample_partial (hc : S.Consists faces) (hR : ∀ f ∈ faces, ∀ c, 0 ≤ f.R c) (hI : ∀ l ∈ S.lights, ∀ c, 0 ≤ l.I c) (hb : S.Built) (h0 : 0 < S.fov) (h1 : S.fov < 180) (hl : S.cam.lensRad ≤ 0)
    (spp : ℕ) (e : Option (ℝ × Spec.RayD)) (smp : Sample ℝ) (o d : V3 ℝ) (hray : EyeRay S.cam S.fov smp o d) (hf : Fine faces S.lights o d) :
    ∃ L : Spec, Render.sanitise (Render.radiance (S.world spp) false e smp).1 = (fun c => .fin (L c)) ∧ Shows faces S.lights o d L ∧
      ∃ ray b, S.ray spp smp = some (1, ray) ∧ S.hitAny (toShape ray) = some b ∧ (b = true → S.li smp ray = some L) := by
  obtain ⟨ray, r1, r2, r3, r4, r5⟩ := ray_spec h0 h1 hl spp smp
  obtain ⟨rfl, rfl⟩ := eyeRay_unique hray r5
  have hsh : toShape ray = ⟨ray.o, ray.d, 0, ⊤⟩ := by simp only [toShape, r2, r3]; rfl
  obtain ⟨b, b1, b2⟩ := hitAny_spec hc hb (toShape ray) (by rw [hsh]; exact hf.ray) (by rw [hsh]; intro x hx; cases hx)
  obtain ⟨L, l1, l2⟩ := C168_li_partial hc hR hb smp ray r2 r3 r4 hf
  have hL0 : ∀ c, 0 ≤ L c := shows_nonneg hI hR l2
  refine ⟨L, ?_, l2, ray, b, r1, b1, fun _ => l1⟩
  rw [← Full.sanitise_nonneg L hL0]
  congr 1
  simp only [Render.radiance, Scene.world, r1, Option.map_some, Option.getD_some, Option.bind_some, b1, l1, Bool.false_eq_true, if_false]
  cases b with
  | true =>
    simp only [true_and, zero_lt_one, if_true]
    funext c
    simp only [Render.scaleBy, F.smul, one_mul]
  | false =>
    simp only [Bool.false_eq_true, false_and, if_false]
    funext c
    have hz : ∀ f ∈ faces, ∀ t, 0 ≤ t → ¬ f.has (rayAt ray.o ray.d t) := by
      intro f hfm t ht hon
      have := b2.2 ⟨f, hfm, t, by rw [hsh]; exact ht, by rw [hsh]; exact le_top, by rw [hsh]; exact hon⟩
      cases this
    simp only [Render.black, shows_unique_black l2 hz c]

/-- **C168** the picture.  A scene of matte triangles under point lights, any camera position, field of view, sampling window and numbers of samples: rendering it puts exactly one sample into every cell of every pixel of the
window, each with the light that the scene sends to the eye from the direction of that image position, and every pixel of the picture written is the filter-weighted mean of the samples under its filter.  Missing: samples that are not
`Fine`, trees of more than 64 levels. -/
theorem C168_picture_partial (hc : S.Consists faces) (hR : ∀ f ∈ faces, ∀ c, 0 ≤ f.R c) (hI : ∀ l ∈ S.lights, ∀ c, 0 ≤ l.I c) (hb : S.Built) (h0 : 0 < S.fov) (h1 : S.fov < 180) (hl : S.cam.lensRad ≤ 0)
    (r : Sampler.Rand ℝ) (hr : Sampler.UnitDraws r) (hs : Sampler.Shuffles r) (x0 y0 : ℤ) (w h : ℕ) (hw : 0 < w) (xst yst : ℕ) (jitter : Bool) (sOpen sClose : ℝ) (n1 n2 : List ℕ) (st : Sampler.RS)
    (e : Option (ℝ × Spec.RayD)) (f0 : Film ℝ) (hf0 : Film.Made f0) (hblank : ∀ i j, f0.pix i j = ⟨0, 0, 0⟩) :
    ∃ s1 log, Full.render (S.world (max xst 1 * max yst 1)) r n1 n2 (w * h + 1)
        ⟨Sampler.Strat.mk' (x0 : ℝ) (x0 + w : ℤ) (y0 : ℝ) (y0 + h : ℤ) xst yst jitter sOpen sClose, st, e, f0⟩ = some (s1, log) ∧
      log.length = w * h * (max xst 1 * max yst 1) ∧
      (∀ i < w, ∀ j < h, ∀ a < max xst 1, ∀ b < max yst 1, ∃! t : ℕ, ∃ q, log[t]? = some q ∧ Full.InCell (max xst 1) (max yst 1) (x0 + i) (y0 + j) a b q.1) ∧
      (∀ q ∈ log, ∀ o d, EyeRay S.cam S.fov q.1 o d → Fine faces S.lights o d → Shows faces S.lights o d q.2) ∧
      ∀ i < f0.xCnt, ∀ j < f0.yCnt, ∀ k,
        (((Film.hits f0 i j (Full.events log)).map Prod.fst).sum ≠ 0 → Full.picture s1.film j i k =
          max 0 (((Film.hits f0 i j (Full.events log)).map (fun p => p.1 * Film.rt p.2 k)).sum / ((Film.hits f0 i j (Full.events log)).map Prod.fst).sum)) ∧
        ((∀ p ∈ Film.hits f0 i j (Full.events log), p.1 = 0) → Full.picture s1.film j i k = 0) := by
  obtain ⟨s1, log, a1, a2, a3, -, a5, a6⟩ := Full.C157_render r hr hs x0 y0 w h hw xst yst jitter sOpen sClose (S.world (max xst 1 * max yst 1))
    (fun e smp => ⟨(e.bind fun x => S.li smp x.2).getD fun _ => 0, rfl⟩) n1 n2 st e f0
  refine ⟨s1, log, a1, a2, a3, fun q hq o d hray hf => ?_, fun i hi j hj k => Full.C157_picture f0 s1.film hf0 hblank log a6 i j hi hj k⟩
  obtain ⟨e', he⟩ := a5 q hq
  obtain ⟨L, l1, l2, -⟩ := C168_sample_partial hc hR hI hb h0 h1 hl (max xst 1 * max yst 1) e' q.1 o d hray hf
  rw [l1, Full.toVec_fin] at he
  rw [← Option.some.inj he]
  exact l2

/-- the record does not depend on how far the ray may still go -/
theorem record_maxt {p : GPrim} {f : Face} (h : ∃ frame m v uv, p.shape = .tri frame m v ∧ m.vertex v 0 = some f.a ∧ m.vertex v 1 = some f.b ∧
      m.vertex v 2 = some f.c ∧ m.getUvs v = some uv ∧ Shape.uvArea uv ≠ 0 ∧ m.alpha = none) (flip : Bool) (o d : V3 ℝ) (mint t : ℝ) (m1 m2 : WithTop ℝ) (h0 : mint ≤ t) (h1 : (t : WithTop ℝ) ≤ m1) (h2 : (t : WithTop ℝ) ≤ m2)
    (hon : f.has (rayAt o d t)) (ht : dot d f.normal ≠ 0) : record flip p ⟨o, d, mint, m1⟩ = record flip p ⟨o, d, mint, m2⟩ := by
  obtain ⟨frame, m, v, uv, e, a, b, c, hu, har, ha⟩ := h
  obtain ⟨re, g, hg⟩ := (Shape.C40_sound_complete frame m v ⟨o, d, mint, m1⟩ f.a f.b f.c a b c (by simp [hu]) ha t).2 ⟨ht, ⟨h0, h1⟩, hon⟩
  obtain ⟨re', g', hg'⟩ := (Shape.C40_sound_complete frame m v ⟨o, d, mint, m2⟩ f.a f.b f.c a b c (by simp [hu]) ha t).2 ⟨ht, ⟨h0, h2⟩, hon⟩
  have key : ∀ mx re g, Shape.intersect frame m v ⟨o, d, mint, mx⟩ = .hit (t, re, g) → re = 1 / 1000 * t ∧
      g = Shape.geoOf frame f.a f.b f.c uv ⟨o, d, mint, ⊤⟩ t (dot (o - f.a) (cross d (f.c - f.a)) * (1 / dot (cross d (f.c - f.a)) (f.b - f.a))) (dot d (cross (o - f.a) (f.b - f.a)) * (1 / dot (cross d (f.c - f.a)) (f.b - f.a))) := by
    intro mx re g hh
    simp only [Shape.intersect, a, b, c, hu, ha] at hh
    split at hh
    · cases hh
    · rename_i t' b1 b2 hcore
      simp only [Shape.Out.hit.injEq, Prod.mk.injEq] at hh
      obtain ⟨rfl, rfl, rfl⟩ := hh
      refine ⟨rfl, ?_⟩
      simp only [Shape.core] at hcore
      split_ifs at hcore
      simp only [Option.some.injEq, Prod.mk.injEq] at hcore
      obtain ⟨-, rfl, rfl⟩ := hcore
      rfl
  obtain ⟨k1, k2⟩ := key _ _ _ hg
  obtain ⟨k3, k4⟩ := key _ _ _ hg'
  simp only [record, e, hg, hg', k1, k2, k3, k4]

/-! ### A scene that meets the hypotheses -/

/-- a triangle in front of the eye -/
noncomputable def exFace : Face := ⟨⟨-10, -10, 5⟩, ⟨10, -10, 5⟩, ⟨0, 20, 5⟩, fun _ => 1 / 2⟩

noncomputable def exPrim : GPrim := ⟨.tri (fun _ => (0, 0)) (meshOf exFace).1 0, 1, 1⟩

/-- the triangle, a light before it, a camera at the origin -/
noncomputable def exScene : Scene where
  cfg := ⟨1, true, fun _ _ => 0, fun _ _ => true⟩
  prims := [exPrim]
  refl := fun _ _ => 1 / 2
  flip := fun _ => false
  lights := [⟨⟨2, 3, 1⟩, fun _ => 100⟩]
  cam := movedCam
  fov := 90
  maxDepth := 5
  fuel := 1
  nz := fun _ => ⟨false, false, false⟩
  rli := fun _ i => ((fun _ => 0, fun _ => 0), i)
  rnd := fun _ => ((0, 0, 0), (0, 0, 0))

example : exScene.Consists [exFace] := by
  refine List.Forall₂.cons ⟨rfl, _, _, _, _, rfl, (vertex_meshOf exFace).1, (vertex_meshOf exFace).2.1, (vertex_meshOf exFace).2.2, rfl, ?_, rfl⟩ List.Forall₂.nil
  simp [Shape.uvArea]

example : exScene.Built := by
  refine ⟨by simp [exScene], _, _, _, by simp only [exScene, List.length_cons, List.length_nil, BVH.buildData]; rfl, ?_, ?_⟩
  · simp [BVH.Node.height]
  · simp [exScene]

theorem exFace_z {q : V3 ℝ} (h : exFace.has q) : q.z = 5 := by
  obtain ⟨b1, b2, -, -, -, rfl⟩ := h
  simp [exFace, Shape.bary]; ring

/-- the ray towards `(1, 1, 10)` is fine and sees the triangle -/
example : Fine [exFace] exScene.lights ⟨0, 0, 0⟩ ⟨1, 1, 10⟩ ∧ FirstSeen [exFace] ⟨0, 0, 0⟩ ⟨1, 1, 10⟩ exFace (1 / 2) := by
  have hN : exFace.normal = ⟨0, 0, 600⟩ := by apply V3.ext <;> simp [Face.normal, exFace, cross]; norm_num
  have hat : ∀ t, exFace.has (rayAt (⟨0, 0, 0⟩ : V3 ℝ) ⟨1, 1, 10⟩ t) → t = 1 / 2 := by
    intro t h
    have := exFace_z h
    simp only [rayAt] at this
    linarith
  refine ⟨⟨⟨by norm_num, by norm_num, by norm_num, ?_, ?_⟩, ?_, ?_⟩, List.mem_singleton.2 rfl, by norm_num, ?_, ?_⟩
  · intro f hf; obtain rfl := List.mem_singleton.1 hf; rw [hN]; norm_num [dot]
  · intro f hf h; obtain rfl := List.mem_singleton.1 hf; have := hat 0 h; norm_num at this
  · intro l hl f hf h
    obtain rfl := List.mem_singleton.1 hf
    obtain rfl := List.mem_singleton.1 (show l ∈ [(⟨⟨2, 3, 1⟩, fun _ => 100⟩ : PLight)] from hl)
    have := exFace_z h
    norm_num at this
  · intro f t hfs l hl
    obtain ⟨hf, -, hon, -⟩ := hfs
    obtain rfl := List.mem_singleton.1 hf
    obtain rfl := hat t hon
    obtain rfl := List.mem_singleton.1 (show l ∈ [(⟨⟨2, 3, 1⟩, fun _ => 100⟩ : PLight)] from hl)
    have e : ((⟨2, 3, 1⟩ : V3 ℝ) - rayAt ⟨0, 0, 0⟩ ⟨1, 1, 10⟩ (1 / 2)) = ⟨3 / 2, 5 / 2, -4⟩ := by apply V3.ext <;> simp [rayAt] <;> norm_num
    simp only [e]
    have hne : (⟨3 / 2, 5 / 2, -4⟩ : V3 ℝ) ≠ 0 := by intro h; have := congrArg V3.x h; norm_num at this
    obtain ⟨-, h2, h3⟩ := (Geom.C06_normalize (⟨3 / 2, 5 / 2, -4⟩ : V3 ℝ)).1 hne
    have hx := congrArg V3.x h2
    have hy := congrArg V3.y h2
    have hz := congrArg V3.z h2
    simp only [smul_x, smul_y, smul_z] at hx hy hz
    have nz : (normalize (⟨3 / 2, 5 / 2, -4⟩ : V3 ℝ)).z ≠ 0 := by intro h; rw [h] at hz; norm_num at hz
    refine ⟨by intro h; rw [h] at hx; norm_num at hx, by intro h; rw [h] at hy; norm_num at hy, nz, ?_, ?_⟩
    · intro f hf; obtain rfl := List.mem_singleton.1 hf; rw [hN]; simpa [dot] using nz
    · intro f hf h
      obtain rfl := List.mem_singleton.1 hf
      have := exFace_z h
      simp only [rayAt] at this
      have : (normalize (⟨3 / 2, 5 / 2, -4⟩ : V3 ℝ)).z = 0 := by linarith
      exact nz this
  · refine ⟨7 / 20, 7 / 20, by norm_num, by norm_num, by norm_num, ?_⟩
    apply V3.ext <;> simp [rayAt, Shape.bary, exFace] <;> norm_num
  · intro g hg u _ hon
    obtain rfl := List.mem_singleton.1 hg
    exact (hat u hon).ge

end Verif.Picture
