import Verif.Render.Picture

/-!
# A picture with mirrors (C169)

The scene of `Render/Picture.lean` with triangles of `MirrorMaterial` among the matte ones: `WhittedIntegrator.li`, `specular_reflect` and `SamplerRenderer.li` call each other until the depth limit.
Exact real arithmetic.
-/
set_option linter.unusedSectionVars false

namespace Verif.Mirrors
open Verif V3 Verif.Geom Verif.DiffG Verif.Bsdf Verif.Refl Verif.Mat Verif.Light Verif.Integrator Verif.Prim Verif.Whitted Verif.Camera Verif.Picture
open Verif.Sampler (Sample)
open Verif.Film (Vec Film)

/-! ### Model -/

/-- a scene of matte and mirror triangles; `refl` is `Kd` of the one (`material.py:104-141`) and `Kr` of the other (`material.py:191-222`), both constant.  `rnd` are the random numbers drawn for the two specular samples
of a ray (of a history, in the code: any choice is allowed here). -/
structure MScene extends Scene where
  mirror : GPrim → Bool
  draws : Sample ℝ → Spec.RayD → (ℝ × ℝ × ℝ) × (ℝ × ℝ × ℝ)

/-- the material of a primitive -/
def MScene.mat (S : MScene) (p : GPrim) : Material := if S.mirror p then .mirror (fun _ => S.refl p) none else .matte (fun _ => S.refl p) (fun _ => 0) none

open Classical in
/-- `specular_reflect` (`integrator/utility.py:120-155`) where `renderer.li` may raise (`none`) -/
noncomputable def reflectO (rli : Spec.RayD → Option Spec) (ray : Spec.RayD) (b : Spec.Surf) (i : Spec.Isect) (s : Spec.Smp (Fin 3)) : Option Spec :=
  if s.pdf > 0 ∧ ¬ Spec.black s.f ∧ |dot s.wi b.dgs.nn| ≠ 0 then
    (rli (Spec.reflectRay ray b i s.wi)).map fun L => fun c => s.f c * L c * |dot s.wi b.dgs.nn| / s.pdf
  else some fun _ => 0

open Classical in
/-- `specular_transmit` (`integrator/utility.py:158-200`); without volume integrator the value it takes from `renderer.li` is black (`renderer.py:75`).  Simplification: the record it reads is the one before the reflected ray was traced; it
matters for the ray only. -/
noncomputable def transmitO (rli : Spec.RayD → Option Spec) (ray : Spec.RayD) (b : Spec.Surf) (i : Spec.Isect) (s : Spec.Smp (Fin 3)) : Option Spec :=
  if s.pdf > 0 ∧ ¬ Spec.black s.f ∧ |dot s.wi b.dgs.nn| ≠ 0 then
    (rli (Spec.transmitRay ray b i s.wi)).map fun _ => fun c => s.f c * 0 * |dot s.wi b.dgs.nn| / s.pdf
  else some fun _ => 0

/-- the end of `WhittedIntegrator.li` (`whitted.py:53-59`) -/
noncomputable def specularO (rli : Spec.RayD → Option Spec) (maxDepth : ℕ) (ray : Spec.RayD) (i : Spec.Isect) (r : Made) (ur ut : ℝ × ℝ × ℝ) (L : Spec) : Option Spec :=
  if ray.depth + 1 < maxDepth then
    (specSample r (-ray.d) ur (REFLECTION ||| SPECULAR)).bind fun sr =>
      (reflectO rli ray ⟨r.dgs, r.eta⟩ i sr).bind fun Lr =>
        (specSample r (-ray.d) ut (TRANSMISSION ||| SPECULAR)).bind fun st =>
          (transmitO rli ray ⟨r.dgs, r.eta⟩ i st).map fun Lt => fun c => L c + Lr c + Lt c
  else some L

open Classical in
/-- `SamplerRenderer.li` (`renderer.py:58-75`) with `WhittedIntegrator.li` (`whitted.py:30-59`) and all they call.  `none`: an exception; `n` bounds the depth of Python's recursion. -/
noncomputable def MScene.li (S : MScene) (smp : Sample ℝ) : ℕ → Spec.RayD → Option Spec
  | 0, _ => none
  | n + 1, ray =>
    if ray.time ≠ smp.time then none else
    match S.hitFirst (toShape ray) with
    | none => none
    | some none => some (S.lights.foldl (fun L _ => fun c => L c + 0) fun _ => 0)
    | some (some p) =>
      match record (S.flip p) p (toShape ray) with
      | none => none
      | some i =>
        let dg := i.dg.compute ray
        match (S.mat p).getBsdf dg dg with
        | none => none
        | some r =>
          let lit := S.lit i.rEps r.dgs.p
          if ∃ x ∈ lit, ¬ (black x.1.radiance ∨ x.1.pdf = 0) ∧ ¬ black (value r (-ray.d) x.1.wi ALL) ∧ x.2 = none then none else
          specularO (S.li smp n) S.maxDepth ray ⟨dg, i.rEps⟩ r (S.draws smp ray).1 (S.draws smp ray).2
            (Whitted.direct r (fun _ _ => 0) ray.d (lit.map fun x => ⟨x.1, !(x.2.getD true), fun _ => 1⟩))

/-- what the rendering task calls (`renderer.py:163-183`); an exception gives black here, and the theorems show of which samples it cannot happen -/
noncomputable def MScene.world (S : MScene) (n spp : ℕ) : Render.World ℝ Unit (Option (ℝ × Spec.RayD)) (Sample ℝ) where
  generate := fun _ => none
  camera := fun _ smp => (((S.ray spp smp).map Prod.fst).getD 0, S.ray spp smp)
  hit := fun e _ => (((e.bind fun x => S.hitAny (toShape x.2))).getD false, e)
  li := fun e smp => (fun c => .fin (((e.bind fun x => S.li smp n x.2).getD fun _ => 0) c), e)
  report := fun s _ => (true, s)

/-! ### Specification -/

/-- a triangle that is matte or a mirror; its colour is that of the face -/
structure Thing extends Face where
  mirror : Bool

/-- the faces of the things -/
def faces (xs : List Thing) : List Face := xs.map Thing.toFace

/-- the direction of a ray of direction `d` after it is thrown back by a plane at right angles to `N` -/
noncomputable def thrownBack (d N : V3 ℝ) : V3 ℝ := d - (2 * dot d N / sqLength N) * N

/-- a mirror whose colour counts: the integrator ignores a colour below `1/100000` in every channel, before and after division by the cosine -/
def Bright (x : Thing) (d : V3 ℝ) : Prop := Visible x.R ∧ Visible fun c => x.R c / (|dot d x.normal| / Geom.length x.normal)

/-- `Sees xs lights n o d s L`: with at most `n` mirrors on the way, the light that comes from the scene along the ray from `o` in direction `d`, from distance `s` on, is `L` -/
inductive Sees (xs : List Thing) (lights : List PLight) : ℕ → V3 ℝ → V3 ℝ → ℝ → Spec → Prop
  | dark (n o d s) : (∀ x ∈ xs, ∀ t, s ≤ t → ¬ x.has (rayAt o d t)) → Sees xs lights n o d s fun _ => 0
  | matte (n o d s x t) : x ∈ xs → FirstFrom (faces xs) o d s x.toFace t → x.mirror = false →
      Sees xs lights n o d s (lambert (faces xs) lights x.toFace (t / 1000) (rayAt o d t) (-d))
  | mirror (n o d s x t L) : x ∈ xs → FirstFrom (faces xs) o d s x.toFace t → x.mirror = true → Bright x d →
      Sees xs lights n (rayAt o d t) (thrownBack d x.normal) (t / 1000) L → Sees xs lights (n + 1) o d s fun c => x.R c * L c
  | dull (n o d s x t) : x ∈ xs → FirstFrom (faces xs) o d s x.toFace t → x.mirror = true → ¬ Bright x d → Sees xs lights n o d s fun _ => 0
  | limit (o d s x t) : x ∈ xs → FirstFrom (faces xs) o d s x.toFace t → x.mirror = true → Sees xs lights 0 o d s fun _ => 0

/-- the direction in which the texture coordinate `u` grows while `v` stays is that of the x axis (up to sign) -/
def AlongX (f : Face) (uv : (ℝ × ℝ) × (ℝ × ℝ) × (ℝ × ℝ)) : Prop :=
  let w := (uv.2.1.2 - uv.2.2.2) * (f.a - f.c) - (uv.1.2 - uv.2.2.2) * (f.b - f.c)
  w.y = 0 ∧ w.z = 0

/-- the primitives of the scene are the triangles of the list, with usable texture coordinates and no alpha texture -/
def MScene.Consists (S : MScene) (xs : List Thing) : Prop :=
  List.Forall₂ (fun p (x : Thing) => S.mirror p = x.mirror ∧ S.refl p = x.R ∧ ∃ frame m v uv, p.shape = .tri frame m v ∧ m.vertex v 0 = some x.a ∧ m.vertex v 1 = some x.b ∧ m.vertex v 2 = some x.c ∧ m.getUvs v = some uv ∧
    Shape.uvArea uv ≠ 0 ∧ m.alpha = none) S.prims xs

/-- every mirror is level (at right angles to the z axis) and its texture runs along the x axis: the only mirrors the code gets right (`C169_turned_false`) -/
def MScene.Level (S : MScene) : Prop :=
  ∀ p ∈ S.prims, S.mirror p = true → ∀ frame m v uv a b c, p.shape = .tri frame m v → m.vertex v 0 = some a → m.vertex v 1 = some b → m.vertex v 2 = some c → m.getUvs v = some uv →
    (cross (b - a) (c - a)).x = 0 ∧ (cross (b - a) (c - a)).y = 0 ∧ AlongX ⟨a, b, c, 0⟩ uv

/-- the ray, the rays it becomes in the mirrors (at most `n`) and the shadow rays of the point seen are no special cases -/
def Fine (xs : List Thing) (lights : List PLight) : ℕ → V3 ℝ → V3 ℝ → ℝ → Prop
  | n, o, d, s => Plain (faces xs) o d s ∧ ∀ x ∈ xs, ∀ t, FirstFrom (faces xs) o d s x.toFace t →
      (x.mirror = false → ∀ l ∈ lights, Plain (faces xs) (rayAt o d t) (normalize (l.pos - rayAt o d t)) (t / 1000)) ∧
      (x.mirror = true → match n with
        | 0 => True
        | n + 1 => Fine xs lights n (rayAt o d t) (thrownBack d x.normal) (t / 1000))

/-! ### Lemmas -/

variable {S : MScene} {xs : List Thing}

theorem consists (h : S.Consists xs) : S.toScene.Consists (faces xs) := by
  simp only [Scene.Consists, faces]
  rw [List.forall₂_map_right_iff]
  exact h.imp fun p x hx => hx.2

theorem thing_of (hc : S.Consists xs) {p : GPrim} (hp : p ∈ S.prims) : ∃ x ∈ xs, S.mirror p = x.mirror ∧ S.refl p = x.R ∧ ∃ frame m v uv, p.shape = .tri frame m v ∧ m.vertex v 0 = some x.a ∧ m.vertex v 1 = some x.b ∧
    m.vertex v 2 = some x.c ∧ m.getUvs v = some uv ∧ Shape.uvArea uv ≠ 0 ∧ m.alpha = none := by
  obtain ⟨i, hi, rfl⟩ := List.getElem_of_mem hp
  have hl := hc.length_eq
  exact ⟨xs[i], List.getElem_mem _, List.Forall₂.get hc hi (hl ▸ hi)⟩

theorem mem_faces {x : Thing} (h : x ∈ xs) : x.toFace ∈ faces xs := List.mem_map.2 ⟨x, h, rfl⟩

/-- the scene's answer to a ray of unlimited range -/
theorem hit_spec (hc : S.Consists xs) (hb : S.Built) (o d : V3 ℝ) (s : ℝ) (hp : Plain (faces xs) o d s) :
    (S.hitFirst ⟨o, d, s, ⊤⟩ = some none ∧ ∀ x ∈ xs, ∀ t, s ≤ t → ¬ x.has (rayAt o d t)) ∨
    ∃ p ∈ S.prims, ∃ x ∈ xs, ∃ t, S.hitFirst ⟨o, d, s, ⊤⟩ = some (some p) ∧ S.mirror p = x.mirror ∧ S.refl p = x.R ∧ (∃ frame m v uv, p.shape = .tri frame m v ∧ m.vertex v 0 = some x.a ∧ m.vertex v 1 = some x.b ∧
      m.vertex v 2 = some x.c ∧ m.getUvs v = some uv ∧ Shape.uvArea uv ≠ 0 ∧ m.alpha = none) ∧ FirstFrom (faces xs) o d s x.toFace t := by
  rcases hitFirst_from (consists hc) hb o d s hp with ⟨e, h⟩ | ⟨p, hpm, f, t, e, hR, ⟨frame, m, v, uv, h1, h2, h3, h4, -⟩, hf⟩
  · exact Or.inl ⟨e, fun x hx => h x.toFace (mem_faces hx)⟩
  · right
    obtain ⟨x, hx, hm, hR', frame', m', v', uv', k1, k2, k3, k4, k5⟩ := thing_of hc hpm
    have hs := h1.symm.trans k1
    simp only [Shp.tri.injEq] at hs
    obtain ⟨rfl, rfl, rfl⟩ := hs
    have hfx : f = x.toFace := by
      cases f
      simp only [h2, h3, h4, Option.some.injEq] at k2 k3 k4
      rw [Face.mk.injEq]
      exact ⟨k2, k3, k4, hR.symm.trans hR'⟩
    exact ⟨p, hpm, x, hx, t, e, hm, hR', ⟨_, _, _, _, k1, k2, k3, k4, k5⟩, hfx ▸ hf⟩

theorem direct_specular (m : Material) (hm : (∃ Kr bm, m = .mirror Kr bm) ∨ (∃ Kr Kt i bm, m = .glass Kr Kt i bm)) (dgg dgs : DiffGeom) (r : Made) (hr : m.getBsdf dgg dgs = some r) (d : V3 ℝ) (ls : List Lit) :
    Whitted.direct r (fun _ _ => 0) d ls = fun _ => 0 := by
  classical
  funext c
  rw [direct_eq, zero_add]
  apply List.sum_eq_zero
  intro x hx
  obtain ⟨l, -, rfl⟩ := List.mem_map.1 hx
  rw [adds, if_neg]
  rintro ⟨-, -, ⟨j, hj⟩, -⟩
  rw [value, (C131_specular m hm dgg dgs r hr j).1] at hj
  norm_num at hj

theorem value_specular (m : Material) (hm : (∃ Kr bm, m = .mirror Kr bm) ∨ (∃ Kr Kt i bm, m = .glass Kr Kt i bm)) (dgg dgs : DiffGeom) (r : Made) (hr : m.getBsdf dgg dgs = some r) (wo wi : V3 ℝ) :
    Mat.black (value r wo wi ALL) := by
  intro c
  rw [value, (C131_specular m hm dgg dgs r hr c).1]
  norm_num [EPS]

theorem specularO_none (rli : Spec.RayD → Option Spec) (maxDepth : ℕ) (ray : Spec.RayD) (i : Spec.Isect) (r : Made) (h : NoSpecular r.comps) (ur ut : ℝ × ℝ × ℝ) (L : Spec) :
    specularO rli maxDepth ray i r ur ut L = some L := by
  simp only [specularO]
  split_ifs with hd
  · rw [specSample_none r h _ _ _ (Or.inl rfl), specSample_none r h _ _ _ (Or.inr rfl)]
    simp [reflectO, transmitO]
  · rfl

/-- the two specular samples of a level mirror -/
theorem sample_level (r : Made) (R : Spec) (hr : r.comps = [.refl R .full]) (ν α : ℝ) (hν : ν * ν = 1) (hα : α ≠ 0) (hn : r.dgs.nn = ⟨0, 0, ν⟩) (hd : r.dgs.dpdu = ⟨α, 0, 0⟩) (wo : V3 ℝ) (u : ℝ × ℝ × ℝ)
    (h0 : 0 ≤ u.2.2) (h1 : u.2.2 < 1) :
    specSample r wo u (REFLECTION ||| SPECULAR) = some ⟨1, ⟨-wo.x, -wo.y, wo.z⟩, fun c => R c / |wo.z|⟩ ∧ specSample r wo u (TRANSMISSION ||| SPECULAR) = some ⟨0, 0, ![0, 0, 0]⟩ := by
  have hm : ∀ i, matching (r.bsdf i) (REFLECTION ||| SPECULAR) = [specularReflection (R i) fullReflect] := by
    intro i
    rw [matching, made_bdfs, hr]
    simp only [List.map_cons, List.map_nil, Comp.bdf]
    rw [List.filter_cons_of_pos]
    · rfl
    · show decide (Contained (REFLECTION ||| SPECULAR) (REFLECTION ||| SPECULAR)) = true
      decide
  have hm' : ∀ i, matching (r.bsdf i) (TRANSMISSION ||| SPECULAR) = [] := by
    intro i
    rw [matching, made_bdfs, hr]
    simp only [List.map_cons, List.map_nil, Comp.bdf]
    rw [List.filter_cons_of_neg]
    · rfl
    · show ¬ decide (Contained (REFLECTION ||| SPECULAR) (TRANSMISSION ||| SPECULAR)) = true
      decide
  have hν1 : |ν| = 1 := by
    have h : |ν| * |ν| = 1 := by rw [← abs_mul, hν, abs_one]
    nlinarith [abs_nonneg ν]
  have hlen : Geom.length (⟨α, 0, 0⟩ : V3 ℝ) = |α| := by
    simp only [Geom.length, sqLength, mul_zero, add_zero]
    rw [← pow_two, Real.sqrt_sq_eq_abs]
  have hα0 : |α| ≠ 0 := abs_ne_zero.2 hα
  have hσ : α / |α| * (α / |α|) = 1 := by
    rw [div_mul_div_comm, abs_mul_abs_self, div_self (mul_ne_zero hα hα)]
  have fr : ∀ i, (r.bsdf i).sn = ⟨α / |α|, 0, 0⟩ ∧ (r.bsdf i).tn = ⟨0, ν * (α / |α|), 0⟩ ∧ (r.bsdf i).nn = ⟨0, 0, ν⟩ := by
    intro i
    have hb : (r.bsdf i).sn = Geom.normalize r.dgs.dpdu ∧ (r.bsdf i).tn = cross r.dgs.nn (Geom.normalize r.dgs.dpdu) ∧ (r.bsdf i).nn = r.dgs.nn := by
      rw [Made.bsdf, hr]; exact ⟨rfl, rfl, rfl⟩
    have hs : Geom.normalize r.dgs.dpdu = ⟨α / |α|, 0, 0⟩ := by
      have hne : (⟨α, 0, 0⟩ : V3 ℝ) ≠ 0 := fun h => hα (congrArg V3.x h)
      obtain ⟨-, h2, h3⟩ := (Geom.C06_normalize (⟨α, 0, 0⟩ : V3 ℝ)).1 hne
      rw [hd]
      have hx := congrArg V3.x h2
      have hy := congrArg V3.y h2
      have hz := congrArg V3.z h2
      simp only [smul_x, smul_y, smul_z, hlen] at hx hy hz
      ext
      · simp only []; rw [eq_div_iff hα0]; linarith
      · simpa [hα0] using hy.symm
      · simpa [hα0] using hz.symm
    refine ⟨hb.1.trans hs, hb.2.1.trans ?_, hb.2.2.trans hn⟩
    rw [hs, hn]
    ext <;> simp [cross]
  have hS : ∀ i, (r.bsdf i).sampleF wo u.1 u.2.1 u.2.2 (REFLECTION ||| SPECULAR) = some ⟨1, some ⟨-wo.x, -wo.y, wo.z⟩, some (REFLECTION ||| SPECULAR), R i / |wo.z|⟩ := by
    intro i
    obtain ⟨j, hj, -, -, hch⟩ := C45_choice (r.bsdf i) (REFLECTION ||| SPECULAR) u.2.2 h0 h1 (by rw [hm]; simp)
    simp only [hm, List.length_singleton, Nat.lt_one_iff] at hj
    subst hj
    obtain ⟨f1, f2, f3⟩ := fr i
    simp only [BSDF.sampleF, C45_count, hm, List.length_singleton, one_ne_zero, if_false, hch, List.getElem_cons_zero, specularReflection, BSDF.w2l, BSDF.l2w, f1, f2, f3, lt_irrefl, fullReflect,
      absCosTheta, dot, Option.some.injEq, Out.mk.injEq, V3.mk.injEq, true_and]
    generalize α / |α| = σ at *
    refine ⟨⟨?_, ?_, ?_⟩, ?_⟩
    · linear_combination (-wo.x) * hσ
    · linear_combination (-wo.y * ν * ν) * hσ - wo.y * hν
    · linear_combination wo.z * hν
    · rw [one_mul]
      congr 1
      simp [abs_mul, hν1]
  refine ⟨?_, ?_⟩
  · simp only [specSample, hS, Option.bind_some, Option.getD_some, Option.some.injEq, Spec.Smp.mk.injEq, true_and]
    funext c
    fin_cases c <;> rfl
  · have e := fun i => (C45_none (r.bsdf i) wo wo u.1 u.2.1 u.2.2 _ (hm' i)).2.2.2
    simp only [specSample, e, Option.bind_some, Option.getD_none]

theorem matte_bsdf (R : Spec) (dg : DiffGeom) : ∃ r, (Material.matte (fun _ => R) (fun _ => 0) none).getBsdf dg dg = some r ∧ r.dgs = dg.copy ∧ NoSpecular r.comps := by
  obtain ⟨r, hr, hc, -, h3⟩ := C131_matte (fun _ => R) (fun _ => 0) dg dg
  obtain ⟨r', hr', hd, -⟩ := C131_total (.matte (fun _ => R) (fun _ => 0) none) (by simp [Material.bumped]) (by simp) (by simp) dg dg
  obtain rfl : r = r' := Option.some.inj (hr.symm.trans hr')
  refine ⟨r, hr, hd, ?_⟩
  intro c hcm
  rw [hc le_rfl] at hcm
  obtain rfl := List.mem_singleton.1 hcm
  exact ⟨by simp, by simp⟩

open Classical in
/-- what a level mirror does with the light of the ray it throws back -/
theorem mirror_spec (R : Spec) (hR : ∀ c, 0 ≤ R c) (ray : Spec.RayD) (f : Face) (hfR : f.R = R) (q du dv : V3 ℝ) (u w k : ℝ) (fl : Bool) (hk : k ≠ 0) (hcr : cross du dv = k * f.normal) (hx : f.normal.x = 0) (hy : f.normal.y = 0)
    (hdy : du.y = 0) (hdz : du.z = 0) (hacr : dot ray.d f.normal ≠ 0) (e : ℝ) :
    let dg := (DiffGeom.init q du dv 0 0 u w fl).compute ray
    ∃ r, (Material.mirror (fun _ => R) none).getBsdf dg dg = some r ∧ r.dgs.p = q ∧ ∀ (rli : Spec.RayD → Option Spec) (maxDepth : ℕ) (ur ut : ℝ × ℝ × ℝ), 0 ≤ ur.2.2 → ur.2.2 < 1 → 0 ≤ ut.2.2 → ut.2.2 < 1 →
      specularO rli maxDepth ray ⟨dg, e⟩ r ur ut (fun _ => 0) =
        if ray.depth + 1 < maxDepth ∧ Bright ⟨f, true⟩ ray.d then (rli (Spec.reflectRay ray ⟨r.dgs, r.eta⟩ ⟨dg, e⟩ (thrownBack ray.d f.normal))).map fun L c => R c * L c
        else some fun _ => 0 := by
  intro dg
  subst hfR
  obtain ⟨c1, c2, c3⟩ := compute_init (DiffGeom.init q du dv 0 0 u w fl) ray
  obtain ⟨r, hr, -, h3, h4⟩ := C131_mirror (fun _ => f.R) dg dg
  obtain ⟨r', hr', hd, -⟩ := C131_total (.mirror (fun _ => f.R) none) (by simp [Material.bumped]) (by simp) (by simp) dg dg
  obtain rfl : r = r' := Option.some.inj (hr.symm.trans hr')
  have hcopy : r.dgs = DiffGeom.init q du dv 0 0 u w fl := hd.trans c3
  refine ⟨r, hr, by rw [hcopy]; rfl, fun rli maxDepth ur ut a1 a2 a3 a4 => ?_⟩
  have hN : f.normal = ⟨0, 0, f.normal.z⟩ := by ext <;> simp [hx, hy]
  have hz0 : f.normal.z ≠ 0 := fun h => hacr (by rw [hN, h]; simp [dot])
  have hdz0 : ray.d.z ≠ 0 := fun h => hacr (by rw [hN]; simp [dot, h])
  obtain ⟨m, hm0, hm1, hnn⟩ := nn_face q du dv u w k fl f.normal hk (by rw [hN]; intro h; exact hz0 (congrArg V3.z h)) hcr
  have hlen : Geom.length f.normal = |f.normal.z| := by
    rw [hN]
    simp only [Geom.length, sqLength, mul_zero, zero_add, add_zero]
    rw [← pow_two, Real.sqrt_sq_eq_abs]
  have hcos : |dot ray.d f.normal| / Geom.length f.normal = |ray.d.z| := by
    rw [hlen, hN]
    simp only [dot, mul_zero, zero_add, abs_mul]
    rw [mul_div_assoc, div_self (abs_ne_zero.2 hz0), mul_one]
  have hback : thrownBack ray.d f.normal = ⟨ray.d.x, ray.d.y, -ray.d.z⟩ := by
    rw [thrownBack, hN]
    ext <;> simp [dot, sqLength]
    field_simp
    ring
  have hν : (m * f.normal.z) * (m * f.normal.z) = 1 := by
    rw [hlen] at hm1
    have h : |m * f.normal.z| = 1 := by rw [abs_mul]; exact hm1
    rw [← abs_mul_abs_self, h, one_mul]
  have hνa : |m * f.normal.z| = 1 := by rw [abs_mul, ← hlen]; exact hm1
  have hrn : r.dgs.nn = ⟨0, 0, m * f.normal.z⟩ := by
    rw [hcopy, hnn]
    ext <;> simp [hx, hy]
  have hrd : r.dgs.dpdu = ⟨du.x, 0, 0⟩ := by
    rw [hcopy]
    show du = _
    ext <;> simp [hdy, hdz]
  have hdx : du.x ≠ 0 := by
    intro h
    have := congrArg V3.z hcr
    simp only [cross, smul_z, h, hdy, zero_mul, sub_zero] at this
    exact mul_ne_zero hk hz0 this.symm
  simp only [specularO]
  by_cases hdep : ray.depth + 1 < maxDepth
  swap
  · rw [if_neg hdep, if_neg fun h => hdep h.1]
  rw [if_pos hdep]
  simp only [hdep, true_and]
  by_cases hV : Visible f.R
  swap
  · have hns : NoSpecular r.comps := by rw [h4 hV]; intro c hc; cases hc
    rw [specSample_none r hns _ _ _ (Or.inl rfl), specSample_none r hns _ _ _ (Or.inr rfl), if_neg fun h => hV h.1]
    simp [reflectO, transmitO]
  obtain ⟨s1, -⟩ := sample_level r (clip f.R) (h3 hV) _ _ hν hdx hrn hrd (-ray.d) ur a1 a2
  obtain ⟨-, s2⟩ := sample_level r (clip f.R) (h3 hV) _ _ hν hdx hrn hrd (-ray.d) ut a3 a4
  rw [s1, s2]
  simp only [Option.bind_some, transmitO, lt_irrefl, gt_iff_lt, false_and, if_false, Option.map_some, add_zero, zero_add]
  have hwi : (⟨-(-ray.d).x, -(-ray.d).y, (-ray.d).z⟩ : V3 ℝ) = thrownBack ray.d f.normal := by rw [hback]; ext <;> simp
  have hdot : |dot (thrownBack ray.d f.normal) r.dgs.nn| = |ray.d.z| := by
    rw [hback, hrn]
    simp only [dot, mul_zero, zero_add, abs_mul, abs_neg]
    rw [← abs_mul, hνa, mul_one]
  have hz' : |(-ray.d).z| = |ray.d.z| := by simp
  rw [hwi, hz', clip_of_nonneg hR]
  have hpos : 0 < |ray.d.z| := abs_pos.2 hdz0
  have hbl : ¬ Spec.black (fun c => f.R c / |ray.d.z|) ↔ Visible fun c => f.R c / |ray.d.z| := by
    simp only [Spec.black, Visible, not_forall, not_lt]
    refine exists_congr fun c => ?_
    rw [abs_of_nonneg (div_nonneg (hR c) hpos.le)]
    norm_num
  have hbr : Bright ⟨f, true⟩ ray.d ↔ Visible fun c => f.R c / |ray.d.z| := by
    simp only [Bright, hcos]
    exact and_iff_right hV
  simp only [reflectO, zero_lt_one, gt_iff_lt, true_and, hbl, hdot, hbr, ne_eq, hpos.ne', not_false_eq_true, and_true]
  by_cases hVis : Visible fun c => f.R c / |ray.d.z|
  · rw [if_pos hVis, if_pos hVis]
    cases rli (Spec.reflectRay ray ⟨r.dgs, r.eta⟩ ⟨dg, e⟩ (thrownBack ray.d f.normal)) with
    | none => rfl
    | some L =>
      simp only [Option.map_some, Option.bind_some, Option.some.injEq]
      funext c
      field_simp
  · rw [if_neg hVis, if_neg hVis]
    rfl

/-! ### Theorems -/

/-- **C169** the radiance along a ray: no exception, and the light is what the scene sends along the ray, mirrors included, up to the depth limit of the integrator.  Missing: mirrors that are not `Level`
(`C169_turned_false`), rays that are not `Fine`. -/
theorem C169_li_partial (hc : S.Consists xs) (hlev : S.Level) (hR : ∀ x ∈ xs, ∀ c, 0 ≤ x.R c) (hb : S.Built) (smp : Sample ℝ) (hu : ∀ ray, 0 ≤ (S.draws smp ray).1.2.2 ∧ (S.draws smp ray).1.2.2 < 1 ∧
    0 ≤ (S.draws smp ray).2.2.2 ∧ (S.draws smp ray).2.2.2 < 1) (hoff : ∀ l ∈ S.lights, ∀ x ∈ xs, ¬ x.has l.pos) (k : ℕ) :
    ∀ (n : ℕ) (ray : Spec.RayD) (s : ℝ), k < n → k = S.maxDepth - 1 - ray.depth → ray.mint = s → ray.maxt = ⊤ → ray.time = smp.time → Fine xs S.lights k ray.o ray.d s →
      ∃ L, S.li smp n ray = some L ∧ Sees xs S.lights k ray.o ray.d s L := by
  classical
  have hRf : ∀ f ∈ faces xs, ∀ c, 0 ≤ f.R c := by
    intro f hf
    obtain ⟨x, hx, rfl⟩ := List.mem_map.1 hf
    exact hR x hx
  have hofff : ∀ l ∈ S.lights, ∀ f ∈ faces xs, ¬ f.has l.pos := by
    intro l hl f hf
    obtain ⟨x, hx, rfl⟩ := List.mem_map.1 hf
    exact hoff l hl x hx
  induction k with
  | zero => ?_
  | succ k ih => ?_
  all_goals
    intro n ray s hkn hk hmin hmax ht hf
    obtain ⟨n, rfl⟩ : ∃ m, n = m + 1 := ⟨n - 1, by omega⟩
    have hray : toShape ray = ⟨ray.o, ray.d, s, ⊤⟩ := by simp only [toShape, hmin, hmax]; rfl
    obtain ⟨hplain, hf⟩ := hf
    rcases hit_spec hc hb ray.o ray.d s hplain with ⟨e, hmiss⟩ | ⟨p, hpm, x, hx, t, e, hmir, hRp, ⟨frame, m, v, uv, k1, k2, k3, k4, k5, k6, k7⟩, hfs⟩
    · refine ⟨fun _ => 0, ?_, Sees.dark _ _ _ _ hmiss⟩
      simp only [MScene.li, ht, ne_eq, not_true_eq_false, if_false, hray, e, Option.some.injEq]
      funext c
      simp only [add_zero]
      induction S.lights with
      | nil => rfl
      | cons l ls ih => rw [List.foldl_cons]; exact ih
    · obtain ⟨hfm, hst, hon, hfirst⟩ := id hfs
      have hacr := hplain.across _ hfm
      have hN : x.toFace.normal ≠ 0 := fun h => hacr (by rw [h]; simp [dot])
      obtain ⟨du, dv, u, w, q, hrec, hq, hcr, hdu⟩ := record_uv (f := x.toFace) k1 k2 k3 k4 k5 k6 k7 (S.flip p) ray.o ray.d s ⊤ t hst.le le_top hon hacr
      obtain ⟨ν, hν0, hν1, hnn⟩ := nn_face (rayAt ray.o ray.d t) du dv u w q (S.flip p) x.toFace.normal hq hN hcr
      obtain ⟨hx1, hx2⟩ := hf x hx t hfs
      cases hxm : x.mirror with
      | false =>
        obtain ⟨hno, hmat⟩ := matte_spec (consists hc) hRf hb S.rli S.maxDepth (S.draws smp ray).1 (S.draws smp ray).2 ray x.toFace hfm t hon hN hofff (hx1 hxm) du dv u w q (S.flip p) hq hcr (S.refl p) hRp
        refine ⟨_, ?_, Sees.matte _ _ _ _ x t hx hfs hxm⟩
        obtain ⟨r, hr, hrd, hns⟩ := matte_bsdf (S.refl p) ((DiffGeom.init (rayAt ray.o ray.d t) du dv 0 0 u w (S.flip p)).compute ray)
        have hrp : r.dgs.p = ((DiffGeom.init (rayAt ray.o ray.d t) du dv 0 0 u w (S.flip p)).compute ray).p := by rw [hrd]; rfl
        have hno' : ¬ ∃ y ∈ S.lit (t / 1000) r.dgs.p, ¬ (Mat.black y.1.radiance ∨ y.1.pdf = 0) ∧ ¬ Mat.black (value r (-ray.d) y.1.wi ALL) ∧ y.2 = none := by
          rintro ⟨y, hy, -, -, h⟩
          exact hno ⟨y, hrp ▸ hy, h⟩
        simp only [MScene.li, ht, ne_eq, not_true_eq_false, if_false, hray, e, hrec, MScene.mat, hmir, hxm, Bool.false_eq_true, hr, hno']
        rw [specularO_none _ _ _ _ _ hns]
        simp only [whittedLi, hr, Option.bind_some, Whitted.specular_none _ _ _ _ _ hns] at hmat
        exact hmat
      | true =>
        obtain ⟨l1, l2, l3, l4⟩ := hlev p hpm (hmir.trans hxm) frame m v uv x.a x.b x.c k1 k2 k3 k4 k5
        have hdy : du.y = 0 := by rw [hdu, smul_y]; exact mul_eq_zero_of_right _ l3
        have hdz : du.z = 0 := by rw [hdu, smul_z]; exact mul_eq_zero_of_right _ l4
        obtain ⟨r, hr, hrp, hspec⟩ := mirror_spec (S.refl p) (by rw [hRp]; exact hR x hx) ray x.toFace hRp.symm (rayAt ray.o ray.d t) du dv u w q (S.flip p) hq hcr l1 l2 hdy hdz hacr (t / 1000)
        have hsp := hspec (S.li smp n) S.maxDepth _ _ (hu ray).1 (hu ray).2.1 (hu ray).2.2.1 (hu ray).2.2.2
        have hno' : ¬ ∃ y ∈ S.lit (t / 1000) r.dgs.p, ¬ (Mat.black y.1.radiance ∨ y.1.pdf = 0) ∧ ¬ Mat.black (value r (-ray.d) y.1.wi ALL) ∧ y.2 = none := by
          rintro ⟨y, hy, -, h, -⟩
          exact h (value_specular _ (Or.inl ⟨_, _, rfl⟩) _ _ r hr _ _)
        have hli : S.li smp (n + 1) ray = specularO (S.li smp n) S.maxDepth ray ⟨(DiffGeom.init (rayAt ray.o ray.d t) du dv 0 0 u w (S.flip p)).compute ray, t / 1000⟩ r (S.draws smp ray).1 (S.draws smp ray).2 (fun _ => 0) := by
          simp only [MScene.li, ht, ne_eq, not_true_eq_false, if_false, hray, e, hrec, MScene.mat, hmir, hxm, if_true, hr, hno', direct_specular _ (Or.inl ⟨_, _, rfl⟩) _ _ r hr]
        rw [hli, hsp]
        have hxe : (⟨x.toFace, true⟩ : Thing) = x := by cases x; simp only at hxm; rw [hxm]
        rw [hxe]
        first
        | refine ⟨_, if_neg fun h => absurd h.1 (by omega), Sees.limit _ _ _ x t hx hfs hxm⟩
        | by_cases hbr : Bright x ray.d
          · obtain ⟨i1, i2, i3, i4, i5, i6, -⟩ := Spec.C146_ray ray ⟨r.dgs, r.eta⟩ ⟨(DiffGeom.init (rayAt ray.o ray.d t) du dv 0 0 u w (S.flip p)).compute ray, t / 1000⟩ (thrownBack ray.d x.normal)
            obtain ⟨L, hL, hsee⟩ := ih n _ (t / 1000) (by omega) (by rw [i5]; omega) i3 i4 (i6.trans ht) (by rw [i1, i2]; simp only []; rw [hrp]; exact hx2 hxm)
            refine ⟨fun c => x.R c * L c, ?_, ?_⟩
            · rw [if_pos ⟨by omega, hbr⟩, hL, Option.map_some, hRp]
            · rw [i1, i2] at hsee
              simp only [] at hsee
              rw [hrp] at hsee
              exact Sees.mirror _ _ _ _ x t L hx hfs hxm hbr hsee
          · exact ⟨_, if_neg fun h => hbr h.2, Sees.dull _ _ _ _ x t hx hfs hxm hbr⟩

theorem sees_nonneg {lights : List PLight} (hI : ∀ l ∈ lights, ∀ c, 0 ≤ l.I c) (hR : ∀ x ∈ xs, ∀ c, 0 ≤ x.R c) {n : ℕ} {o d : V3 ℝ} {s : ℝ} {L : Spec} (h : Sees xs lights n o d s L) (c : Fin 3) : 0 ≤ L c := by
  induction h with
  | dark => exact le_rfl
  | matte n o d s x t hx => exact lambert_nonneg lights hI x.toFace (hR x hx) _ _ _ _
  | mirror n o d s x t L hx _ _ _ _ ih => exact mul_nonneg (hR x hx c) ih
  | dull => exact le_rfl
  | limit => exact le_rfl

theorem sees_black {lights : List PLight} {n : ℕ} {o d : V3 ℝ} {s : ℝ} {L : Spec} (h : Sees xs lights n o d s L) (hn : ∀ x ∈ xs, ∀ t, s ≤ t → ¬ x.has (rayAt o d t)) : ∀ c, L c = 0 := by
  intro c
  induction h with
  | dark => rfl
  | matte n o d s x t hx hf => exact absurd hf.2.2.1 (hn x hx t hf.2.1.le)
  | mirror n o d s x t L hx hf => exact absurd hf.2.2.1 (hn x hx t hf.2.1.le)
  | dull => rfl
  | limit => rfl

theorem ray_depth {S : Scene} {spp : ℕ} {smp : Sample ℝ} {w : ℝ} {ray : Spec.RayD} (h : S.ray spp smp = some (w, ray)) : ray.depth = 0 := by
  simp only [Scene.ray, Option.map_eq_some_iff] at h
  obtain ⟨x, -, h⟩ := h
  simp only [Prod.mk.injEq] at h
  rw [← h.2]
  rfl

/-- the number of mirrors the integrator follows a ray of the camera through -/
def MScene.bounces (S : MScene) : ℕ := S.maxDepth - 1

/-- **C169** one sample: whatever was rendered before, if the ray of the sample's image position is fine the value that reaches the film is the light the scene sends along that ray; no exception is raised, and `maxDepth` nested calls
are enough. -/
theorem C169_sample_partial (hc : S.Consists xs) (hlev : S.Level) (hR : ∀ x ∈ xs, ∀ c, 0 ≤ x.R c) (hI : ∀ l ∈ S.lights, ∀ c, 0 ≤ l.I c) (hb : S.Built)
    (hu : ∀ smp ray, 0 ≤ (S.draws smp ray).1.2.2 ∧ (S.draws smp ray).1.2.2 < 1 ∧ 0 ≤ (S.draws smp ray).2.2.2 ∧ (S.draws smp ray).2.2.2 < 1) (hoff : ∀ l ∈ S.lights, ∀ x ∈ xs, ¬ x.has l.pos)
    (h0 : 0 < S.fov) (h1 : S.fov < 180) (hl : S.cam.lensRad ≤ 0) (n : ℕ) (hn : S.bounces < n)
    (spp : ℕ) (e : Option (ℝ × Spec.RayD)) (smp : Sample ℝ) (o d : V3 ℝ) (hray : EyeRay S.cam S.fov smp o d) (hf : Fine xs S.lights S.bounces o d 0) :
    ∃ L : Spec, Render.sanitise (Render.radiance (S.world n spp) false e smp).1 = (fun c => .fin (L c)) ∧ Sees xs S.lights S.bounces o d 0 L ∧
      ∃ ray b, S.ray spp smp = some (1, ray) ∧ S.hitAny (toShape ray) = some b ∧ (b = true → S.li smp n ray = some L) := by
  obtain ⟨ray, r1, r2, r3, r4, r5⟩ := ray_spec h0 h1 hl spp smp
  obtain ⟨rfl, rfl⟩ := eyeRay_unique hray r5
  have hsh : toShape ray = ⟨ray.o, ray.d, 0, ⊤⟩ := by simp only [toShape, r2, r3]; rfl
  have hpl : Plain (faces xs) ray.o ray.d 0 := by unfold Fine at hf; exact hf.1
  obtain ⟨b, b1, b2⟩ := hitAny_spec (consists hc) hb (toShape ray) (by rw [hsh]; exact hpl) (by rw [hsh]; intro x hx; cases hx)
  obtain ⟨L, l1, l2⟩ := C169_li_partial hc hlev hR hb smp (hu smp) hoff S.bounces n ray 0 hn (by rw [ray_depth r1]; rfl) r2 r3 r4 hf
  have hL0 : ∀ c, 0 ≤ L c := sees_nonneg hI hR l2
  refine ⟨L, ?_, l2, ray, b, r1, b1, fun _ => l1⟩
  rw [← Full.sanitise_nonneg L hL0]
  congr 1
  simp only [Render.radiance, MScene.world, r1, Option.map_some, Option.getD_some, Option.bind_some, b1, l1, Bool.false_eq_true, if_false]
  cases b with
  | true =>
    simp only [true_and, zero_lt_one, if_true]
    funext c
    simp only [Render.scaleBy, F.smul, one_mul]
  | false =>
    simp only [Bool.false_eq_true, false_and, if_false]
    funext c
    have hz : ∀ x ∈ xs, ∀ t, 0 ≤ t → ¬ x.has (rayAt ray.o ray.d t) := by
      intro x hx t ht hon
      have := b2.2 ⟨x.toFace, mem_faces hx, t, by rw [hsh]; exact ht, by rw [hsh]; exact le_top, by rw [hsh]; exact hon⟩
      cases this
    simp only [Render.black, sees_black l2 hz c]

/-- **C169** the picture: a scene of matte triangles and mirrors under point lights.  Every cell of every pixel of the window gets exactly one sample with the light that the scene sends to the eye from there, mirrors included, and every
pixel of the picture is the filter-weighted mean of the samples under its filter.  Missing: mirrors that are not `Level`, samples that are not `Fine`, trees of more than 64 levels. -/
theorem C169_picture_partial (hc : S.Consists xs) (hlev : S.Level) (hR : ∀ x ∈ xs, ∀ c, 0 ≤ x.R c) (hI : ∀ l ∈ S.lights, ∀ c, 0 ≤ l.I c) (hb : S.Built)
    (hu : ∀ smp ray, 0 ≤ (S.draws smp ray).1.2.2 ∧ (S.draws smp ray).1.2.2 < 1 ∧ 0 ≤ (S.draws smp ray).2.2.2 ∧ (S.draws smp ray).2.2.2 < 1) (hoff : ∀ l ∈ S.lights, ∀ x ∈ xs, ¬ x.has l.pos)
    (h0 : 0 < S.fov) (h1 : S.fov < 180) (hl : S.cam.lensRad ≤ 0) (n : ℕ) (hn : S.bounces < n)
    (r : Sampler.Rand ℝ) (hr : Sampler.UnitDraws r) (hs : Sampler.Shuffles r) (x0 y0 : ℤ) (w h : ℕ) (hw : 0 < w) (xst yst : ℕ) (jitter : Bool) (sOpen sClose : ℝ) (n1 n2 : List ℕ) (st : Sampler.RS)
    (e : Option (ℝ × Spec.RayD)) (f0 : Film ℝ) (hf0 : Film.Made f0) (hblank : ∀ i j, f0.pix i j = ⟨0, 0, 0⟩) :
    ∃ s1 log, Full.render (S.world n (max xst 1 * max yst 1)) r n1 n2 (w * h + 1)
        ⟨Sampler.Strat.mk' (x0 : ℝ) (x0 + w : ℤ) (y0 : ℝ) (y0 + h : ℤ) xst yst jitter sOpen sClose, st, e, f0⟩ = some (s1, log) ∧
      log.length = w * h * (max xst 1 * max yst 1) ∧
      (∀ i < w, ∀ j < h, ∀ a < max xst 1, ∀ b < max yst 1, ∃! t : ℕ, ∃ q, log[t]? = some q ∧ Full.InCell (max xst 1) (max yst 1) (x0 + i) (y0 + j) a b q.1) ∧
      (∀ q ∈ log, ∀ o d, EyeRay S.cam S.fov q.1 o d → Fine xs S.lights S.bounces o d 0 → Sees xs S.lights S.bounces o d 0 q.2) ∧
      ∀ i < f0.xCnt, ∀ j < f0.yCnt, ∀ k,
        (((Film.hits f0 i j (Full.events log)).map Prod.fst).sum ≠ 0 → Full.picture s1.film j i k =
          max 0 (((Film.hits f0 i j (Full.events log)).map (fun p => p.1 * Film.rt p.2 k)).sum / ((Film.hits f0 i j (Full.events log)).map Prod.fst).sum)) ∧
        ((∀ p ∈ Film.hits f0 i j (Full.events log), p.1 = 0) → Full.picture s1.film j i k = 0) := by
  obtain ⟨s1, log, a1, a2, a3, -, a5, a6⟩ := Full.C157_render r hr hs x0 y0 w h hw xst yst jitter sOpen sClose (S.world n (max xst 1 * max yst 1))
    (fun e smp => ⟨(e.bind fun x => S.li smp n x.2).getD fun _ => 0, rfl⟩) n1 n2 st e f0
  refine ⟨s1, log, a1, a2, a3, fun q hq o d hray hf => ?_, fun i hi j hj k => Full.C157_picture f0 s1.film hf0 hblank log a6 i j hi hj k⟩
  obtain ⟨e', he⟩ := a5 q hq
  obtain ⟨L, l1, l2, -⟩ := C169_sample_partial hc hlev hR hI hb hu hoff h0 h1 hl n hn (max xst 1 * max yst 1) e' q.1 o d hray hf
  rw [l1, Full.toVec_fin] at he
  rw [← Option.some.inj he]
  exact l2

/-! ### Mirrors that are not level along x -/

/-- **C169 fails** for every level mirror whose texture runs along the y axis instead (so that turning the scene by a quarter changes the picture): whatever the random numbers, the ray that is followed is not the one the mirror throws
back, unless the two horizontal components happen to be equal in size.  (`BSDF.l2w` is not the inverse of `BSDF.w2l`, `C48_round_trip_false`.) -/
theorem C169_turned_false (R : Spec) (hV : Visible R) (d q du dv : V3 ℝ) (u w k : ℝ) (fl : Bool) (N : V3 ℝ) (hk : k ≠ 0) (hcr : cross du dv = k * N) (hx : N.x = 0) (hy : N.y = 0) (hz : N.z ≠ 0) (hdx : du.x = 0) (hdz : du.z = 0)
    (hne : |d.x| ≠ |d.y|) :
    let dg := DiffGeom.init q du dv 0 0 u w fl
    ∃ r, (Material.mirror (fun _ => R) none).getBsdf dg dg = some r ∧ ∀ v : ℝ × ℝ × ℝ, 0 ≤ v.2.2 → v.2.2 < 1 →
      ∃ s, specSample r (-d) v (REFLECTION ||| SPECULAR) = some s ∧ s.pdf = 1 ∧ s.wi ≠ thrownBack d N := by
  intro dg
  obtain ⟨r, hr, -, h3, -⟩ := C131_mirror (fun _ => R) dg dg
  obtain ⟨r', hr', hd, -⟩ := C131_total (.mirror (fun _ => R) none) (by simp [Material.bumped]) (by simp) (by simp) dg dg
  obtain rfl : r = r' := Option.some.inj (hr.symm.trans hr')
  refine ⟨r, hr, fun v h0 h1 => ?_⟩
  have hN : N = ⟨0, 0, N.z⟩ := by ext <;> simp [hx, hy]
  obtain ⟨m, hm0, hm1, hnn⟩ := nn_face q du dv u w k fl N hk (by rw [hN]; intro h; exact hz (congrArg V3.z h)) hcr
  have hlen : Geom.length N = |N.z| := by
    rw [hN]
    simp only [Geom.length, sqLength, mul_zero, zero_add, add_zero]
    rw [← pow_two, Real.sqrt_sq_eq_abs]
  have hrn : r.dgs.nn = ⟨0, 0, m * N.z⟩ := by
    rw [hd]
    change (DiffGeom.init q du dv 0 0 u w fl).nn = _
    rw [hnn]
    ext <;> simp [hx, hy]
  have hν1 : |m * N.z| = 1 := by rw [abs_mul, ← hlen]; exact hm1
  have hrd : r.dgs.dpdu = ⟨0, du.y, 0⟩ := by
    rw [hd]
    show du = _
    ext <;> simp [hdx, hdz]
  have hα : du.y ≠ 0 := by
    intro h
    have := congrArg V3.z hcr
    simp only [cross, smul_z, h, hdx, zero_mul, sub_zero] at this
    exact mul_ne_zero hk hz this.symm
  generalize m * N.z = ν at *
  have hν : ν * ν = 1 := by rw [← abs_mul_abs_self, hν1, one_mul]
  have hα0 : |du.y| ≠ 0 := abs_ne_zero.2 hα
  have hσ : du.y / |du.y| * (du.y / |du.y|) = 1 := by
    rw [div_mul_div_comm, abs_mul_abs_self, div_self (mul_ne_zero hα hα)]
  have hm : ∀ i, matching (r.bsdf i) (REFLECTION ||| SPECULAR) = [specularReflection (clip R i) fullReflect] := by
    intro i
    rw [matching, made_bdfs, h3 hV]
    simp only [List.map_cons, List.map_nil, Comp.bdf]
    rw [List.filter_cons_of_pos]
    · rfl
    · show decide (Contained (REFLECTION ||| SPECULAR) (REFLECTION ||| SPECULAR)) = true
      decide
  have fr : ∀ i, (r.bsdf i).sn = ⟨0, du.y / |du.y|, 0⟩ ∧ (r.bsdf i).tn = ⟨-(ν * (du.y / |du.y|)), 0, 0⟩ ∧ (r.bsdf i).nn = ⟨0, 0, ν⟩ := by
    intro i
    have hb : (r.bsdf i).sn = Geom.normalize r.dgs.dpdu ∧ (r.bsdf i).tn = cross r.dgs.nn (Geom.normalize r.dgs.dpdu) ∧ (r.bsdf i).nn = r.dgs.nn := by
      rw [Made.bsdf, h3 hV]; exact ⟨rfl, rfl, rfl⟩
    have hs : Geom.normalize r.dgs.dpdu = ⟨0, du.y / |du.y|, 0⟩ := by
      have hne : (⟨0, du.y, 0⟩ : V3 ℝ) ≠ 0 := fun h => hα (congrArg V3.y h)
      obtain ⟨-, h2, h3⟩ := (Geom.C06_normalize (⟨0, du.y, 0⟩ : V3 ℝ)).1 hne
      have hl : Geom.length (⟨0, du.y, 0⟩ : V3 ℝ) = |du.y| := by
        simp only [Geom.length, sqLength, mul_zero, add_zero, zero_add]
        rw [← pow_two, Real.sqrt_sq_eq_abs]
      rw [hrd]
      have hx := congrArg V3.x h2
      have hy := congrArg V3.y h2
      have hz := congrArg V3.z h2
      simp only [smul_x, smul_y, smul_z, hl] at hx hy hz
      ext
      · simpa [hα0] using hx.symm
      · simp only []; rw [eq_div_iff hα0]; linarith
      · simpa [hα0] using hz.symm
    refine ⟨hb.1.trans hs, hb.2.1.trans ?_, hb.2.2.trans hrn⟩
    rw [hs, hrn]
    ext <;> simp [cross]
  have hS : ∀ i, ∃ x, (r.bsdf i).sampleF (-d) v.1 v.2.1 v.2.2 (REFLECTION ||| SPECULAR) = some ⟨1, some ⟨-(ν * d.y), -(ν * d.x), -d.z⟩, some (REFLECTION ||| SPECULAR), x⟩ := by
    intro i
    obtain ⟨j, hj, -, -, hch⟩ := C45_choice (r.bsdf i) (REFLECTION ||| SPECULAR) v.2.2 h0 h1 (by rw [hm]; simp)
    simp only [hm, List.length_singleton, Nat.lt_one_iff] at hj
    subst hj
    obtain ⟨f1, f2, f3⟩ := fr i
    simp only [BSDF.sampleF, C45_count, hm, List.length_singleton, one_ne_zero, if_false, hch, List.getElem_cons_zero, specularReflection, BSDF.w2l, BSDF.l2w, f1, f2, f3, lt_irrefl, fullReflect,
      dot, Option.some.injEq, Out.mk.injEq, V3.mk.injEq, true_and, neg_x, neg_y, neg_z]
    generalize du.y / |du.y| = σ at *
    refine ⟨_, ⟨?_, ?_, ?_⟩, rfl⟩
    · linear_combination (-ν * d.y) * hσ
    · linear_combination (-ν * d.x) * hσ
    · linear_combination (-d.z) * hν
  obtain ⟨x0, e0⟩ := hS 0
  obtain ⟨x1, e1⟩ := hS 1
  obtain ⟨x2, e2⟩ := hS 2
  refine ⟨⟨1, ⟨-(ν * d.y), -(ν * d.x), -d.z⟩, ![x0, x1, x2]⟩, by simp only [specSample, e0, e1, e2, Option.bind_some, Option.getD_some], rfl, fun h => hne ?_⟩
  have hb : (thrownBack d N).x = d.x := by
    rw [thrownBack, hN]; simp
  have := congrArg V3.x h
  rw [hb] at this
  simp only at this
  rw [← this, abs_neg, abs_mul, hν1, one_mul]

/-- the hypotheses are met by the geometry of a triangle turned by a quarter -/
example : ∃ (d du dv N : V3 ℝ) (k : ℝ), k ≠ 0 ∧ cross du dv = k * N ∧ N.x = 0 ∧ N.y = 0 ∧ N.z ≠ 0 ∧ du.x = 0 ∧ du.z = 0 ∧ |d.x| ≠ |d.y| ∧ dot d N ≠ 0 := by
  refine ⟨⟨1, 2, -3⟩, ⟨0, 2, 0⟩, ⟨-2, 0, 0⟩, ⟨0, 0, 4⟩, 1, one_ne_zero, ?_, rfl, rfl, by norm_num, rfl, rfl, by norm_num, by norm_num [dot]⟩
  ext <;> simp [cross]; norm_num

/-! ### A scene that meets the hypotheses -/

/-- a mirror on the floor, its first edge along x -/
noncomputable def floor : Thing := ⟨⟨⟨-10, -10, 0⟩, ⟨10, -10, 0⟩, ⟨0, 20, 0⟩, fun _ => 1 / 2⟩, true⟩

/-- a matte triangle above it -/
noncomputable def ceiling : Thing := ⟨⟨⟨-10, -10, 5⟩, ⟨10, -10, 5⟩, ⟨0, 20, 5⟩, fun _ => 1 / 4⟩, false⟩

noncomputable def primOf (x : Thing) : GPrim := ⟨.tri (fun _ => (0, 0)) (meshOf x.toFace).1 0, if x.mirror then 1 else 2, 1⟩

theorem prim_ne : primOf floor ≠ primOf ceiling := by
  intro h
  have := congrArg GPrim.shape h
  simp only [primOf, Shp.tri.injEq, meshOf, floor, ceiling, Shape.Mesh.mk.injEq, List.cons.injEq, V3.mk.injEq] at this
  norm_num at this

open Classical in
/-- both, a light between them, a camera -/
noncomputable def exMirrors : MScene where
  cfg := ⟨4, false, fun _ _ => 0, fun _ _ => true⟩
  prims := [primOf floor, primOf ceiling]
  refl := fun p => if p = primOf floor then fun _ => 1 / 2 else fun _ => 1 / 4
  flip := fun _ => false
  lights := [⟨⟨2, 3, 1⟩, fun _ => 100⟩]
  cam := movedCam
  fov := 90
  maxDepth := 2
  fuel := 3
  nz := fun _ => ⟨false, false, false⟩
  rli := fun _ i => ((fun _ => 0, fun _ => 0), i)
  rnd := fun _ => ((0, 0, 0), (0, 0, 0))
  mirror := fun p => if p = primOf floor then true else false
  draws := fun _ _ => ((0, 0, 0), (0, 0, 0))

open Classical in
example : exMirrors.Consists [floor, ceiling] := by
  have h : ∀ x : Thing, ∃ frame m v uv, (primOf x).shape = .tri frame m v ∧ m.vertex v 0 = some x.a ∧ m.vertex v 1 = some x.b ∧ m.vertex v 2 = some x.c ∧ m.getUvs v = some uv ∧ Shape.uvArea uv ≠ 0 ∧ m.alpha = none :=
    fun x => ⟨_, _, _, _, rfl, (vertex_meshOf x.toFace).1, (vertex_meshOf x.toFace).2.1, (vertex_meshOf x.toFace).2.2, rfl, by simp [Shape.uvArea], rfl⟩
  refine List.Forall₂.cons ⟨by simp [exMirrors, floor], by simp [exMirrors, floor], h floor⟩ (List.Forall₂.cons ⟨?_, ?_, h ceiling⟩ List.Forall₂.nil)
  · show (if primOf ceiling = primOf floor then true else false) = false
    rw [if_neg prim_ne.symm]
  · show (if primOf ceiling = primOf floor then _ else _) = _
    rw [if_neg prim_ne.symm]
    rfl

example : exMirrors.Level := by
  intro p hp hm frame m v uv a b c e ha hb hc hu
  have hpe : p = primOf floor := by
    by_contra h
    simp [exMirrors, h] at hm
  subst hpe
  simp only [primOf, Shp.tri.injEq] at e
  obtain ⟨-, rfl, rfl⟩ := e
  obtain ⟨va, vb, vc⟩ := vertex_meshOf floor.toFace
  obtain rfl := Option.some.inj (va.symm.trans ha)
  obtain rfl := Option.some.inj (vb.symm.trans hb)
  obtain rfl := Option.some.inj (vc.symm.trans hc)
  simp only [meshOf, Shape.Mesh.getUvs, Option.some.injEq] at hu
  subst hu
  refine ⟨?_, ?_, ?_, ?_⟩ <;> simp [floor, cross]

/-- its tree is built, with enough turns of the traversal loop -/
example : ∃ n, ∀ fuel ≥ n, ({ exMirrors.toScene with fuel := fuel } : Scene).Built := built_default _ rfl le_rfl (by simp [exMirrors]) (by simp [exMirrors])

theorem has_z {x : Thing} {z : ℝ} (ha : x.a.z = z) (hb : x.b.z = z) (hc : x.c.z = z) {q : V3 ℝ} (h : x.has q) : q.z = z := by
  obtain ⟨b1, b2, -, -, -, rfl⟩ := h
  simp only [Shape.bary, add_z, smul_z, ha, hb, hc]; ring

theorem plain_ex {o d : V3 ℝ} {s : ℝ} (hx : d.x ≠ 0) (hy : d.y ≠ 0) (hz : d.z ≠ 0) (h0 : o.z + s * d.z ≠ 0) (h5 : o.z + s * d.z ≠ 5) : Plain (faces [floor, ceiling]) o d s := by
  refine ⟨hx, hy, hz, ?_, ?_⟩
  · intro f hf
    have h : f = floor.toFace ∨ f = ceiling.toFace := by simpa [faces] using hf
    rcases h with rfl | rfl <;> simp [Face.normal, floor, ceiling, cross, dot, hz] <;> norm_num
  · intro f hf hh
    have h : f = floor.toFace ∨ f = ceiling.toFace := by simpa [faces] using hf
    rcases h with rfl | rfl
    · exact h0 (by have := has_z (x := floor) (z := 0) rfl rfl rfl hh; simp only [rayAt] at this; linarith)
    · exact h5 (by have := has_z (x := ceiling) (z := 5) rfl rfl rfl hh; simp only [rayAt] at this; linarith)

/-- the ray from above the mirror towards `(1, 1, -10)` is fine; what it sees is the ceiling in the mirror -/
example : Fine [floor, ceiling] exMirrors.lights exMirrors.bounces ⟨0, 0, 2⟩ ⟨1, 1, -10⟩ 0 ∧
    Sees [floor, ceiling] exMirrors.lights 1 ⟨0, 0, 2⟩ ⟨1, 1, -10⟩ 0
      fun c => 1 / 2 * lambert (faces [floor, ceiling]) exMirrors.lights ceiling.toFace (1 / 2 / 1000) ⟨7 / 10, 7 / 10, 5⟩ ⟨-1, -1, -10⟩ c := by
  have hback : thrownBack ⟨1, 1, -10⟩ floor.normal = ⟨1, 1, 10⟩ := by
    have : floor.normal = ⟨0, 0, 600⟩ := by apply V3.ext <;> simp [Face.normal, floor, cross]; norm_num
    rw [this, thrownBack]
    ext <;> simp [dot, sqLength]; norm_num
  have hat1 : rayAt (⟨0, 0, 2⟩ : V3 ℝ) ⟨1, 1, -10⟩ (1 / 5) = ⟨1 / 5, 1 / 5, 0⟩ := by ext <;> simp [rayAt]; norm_num
  have hat2 : rayAt (⟨1 / 5, 1 / 5, 0⟩ : V3 ℝ) ⟨1, 1, 10⟩ (1 / 2) = ⟨7 / 10, 7 / 10, 5⟩ := by ext <;> simp [rayAt] <;> norm_num
  have hf1 : FirstFrom (faces [floor, ceiling]) ⟨0, 0, 2⟩ ⟨1, 1, -10⟩ 0 floor.toFace (1 / 5) := by
    refine ⟨by simp [faces], by norm_num, ?_, ?_⟩
    · rw [hat1]
      refine ⟨17 / 50, 17 / 50, by norm_num, by norm_num, by norm_num, ?_⟩
      apply V3.ext <;> simp [Shape.bary, floor] <;> norm_num
    · intro g hg u hu hh
      have h : g = floor.toFace ∨ g = ceiling.toFace := by simpa [faces] using hg
      rcases h with rfl | rfl
      · have := has_z (x := floor) (z := 0) rfl rfl rfl hh
        simp only [rayAt] at this; linarith
      · have := has_z (x := ceiling) (z := 5) rfl rfl rfl hh
        simp only [rayAt] at this; linarith
  have hf2 : FirstFrom (faces [floor, ceiling]) ⟨1 / 5, 1 / 5, 0⟩ ⟨1, 1, 10⟩ (1 / 5 / 1000) ceiling.toFace (1 / 2) := by
    refine ⟨by simp [faces], by norm_num, ?_, ?_⟩
    · rw [hat2]
      refine ⟨107 / 300, 107 / 300, by norm_num, by norm_num, by norm_num, ?_⟩
      apply V3.ext <;> simp [Shape.bary, ceiling] <;> norm_num
    · intro g hg u hu hh
      have h : g = floor.toFace ∨ g = ceiling.toFace := by simpa [faces] using hg
      rcases h with rfl | rfl
      · have := has_z (x := floor) (z := 0) rfl rfl rfl hh
        simp only [rayAt] at this; norm_num at this; norm_num at hu; linarith
      · have := has_z (x := ceiling) (z := 5) rfl rfl rfl hh
        simp only [rayAt] at this; linarith
  constructor
  · show Fine _ _ 1 _ _ _
    refine ⟨plain_ex (by norm_num) (by norm_num) (by norm_num) (by norm_num) (by norm_num), fun x hx t hf => ?_⟩
    have ht : t = 1 / 5 := le_antisymm (hf.2.2.2 _ hf1.1 _ hf1.2.1.le hf1.2.2.1) (hf1.2.2.2 _ hf.1 _ hf.2.1.le hf.2.2.1)
    subst ht
    have hxf : x = floor := by
      have h : x = floor ∨ x = ceiling := by simpa using hx
      refine h.resolve_right ?_
      rintro rfl
      have := has_z (x := ceiling) (z := 5) rfl rfl rfl hf.2.2.1
      simp only [rayAt] at this; norm_num at this
    subst hxf
    refine ⟨fun h => absurd h (by simp [floor]), fun _ => ?_⟩
    simp only []
    rw [hback, hat1]
    refine ⟨plain_ex (by norm_num) (by norm_num) (by norm_num) (by norm_num) (by norm_num), fun x hx t hf => ⟨fun _ l hl => ?_, fun _ => trivial⟩⟩
    have ht : t = 1 / 2 := le_antisymm (hf.2.2.2 _ hf2.1 _ hf2.2.1.le hf2.2.2.1) (hf2.2.2.2 _ hf.1 _ hf.2.1.le hf.2.2.1)
    subst ht
    rw [hat2]
    obtain rfl := List.mem_singleton.1 (show l ∈ [(⟨⟨2, 3, 1⟩, fun _ => 100⟩ : PLight)] from hl)
    have e : ((⟨2, 3, 1⟩ : V3 ℝ) - ⟨7 / 10, 7 / 10, 5⟩) = ⟨13 / 10, 23 / 10, -4⟩ := by apply V3.ext <;> simp <;> norm_num
    simp only [e]
    have hne : (⟨13 / 10, 23 / 10, -4⟩ : V3 ℝ) ≠ 0 := by intro h; have := congrArg V3.x h; norm_num at this
    obtain ⟨n1, h2, h3⟩ := (Geom.C06_normalize (⟨13 / 10, 23 / 10, -4⟩ : V3 ℝ)).1 hne
    have hx := congrArg V3.x h2
    have hy := congrArg V3.y h2
    have hz := congrArg V3.z h2
    simp only [smul_x, smul_y, smul_z] at hx hy hz
    have nz : (Geom.normalize (⟨13 / 10, 23 / 10, -4⟩ : V3 ℝ)).z < 0 := by
      by_contra h
      have := mul_nonneg h3.le (not_lt.1 h)
      linarith
    have n1' : (Geom.normalize (⟨13 / 10, 23 / 10, -4⟩ : V3 ℝ)).z ^ 2 ≤ 1 := by
      have n1 : sqLength (Geom.normalize (⟨13 / 10, 23 / 10, -4⟩ : V3 ℝ)) = 1 := by rw [Geom.length, Real.sqrt_eq_one] at n1; exact n1
      simp only [sqLength] at n1
      nlinarith [mul_self_nonneg (Geom.normalize (⟨13 / 10, 23 / 10, -4⟩ : V3 ℝ)).x, mul_self_nonneg (Geom.normalize (⟨13 / 10, 23 / 10, -4⟩ : V3 ℝ)).y]
    refine plain_ex (by intro h; rw [h] at hx; norm_num at hx) (by intro h; rw [h] at hy; norm_num at hy) nz.ne ?_ ?_
    · simp only []; nlinarith
    · simp only []; intro h; linarith
  · have h2 : Sees [floor, ceiling] exMirrors.lights 0 ⟨1 / 5, 1 / 5, 0⟩ ⟨1, 1, 10⟩ (1 / 5 / 1000)
        (lambert (faces [floor, ceiling]) exMirrors.lights ceiling.toFace (1 / 2 / 1000) (rayAt ⟨1 / 5, 1 / 5, 0⟩ ⟨1, 1, 10⟩ (1 / 2)) (-⟨1, 1, 10⟩)) :=
      Sees.matte _ _ _ _ ceiling _ (by simp) hf2 rfl
    rw [hat2, show (-⟨1, 1, 10⟩ : V3 ℝ) = ⟨-1, -1, -10⟩ by ext <;> simp] at h2
    rw [← hat1, ← hback] at h2
    refine Sees.mirror _ _ _ _ floor _ _ (by simp) hf1 rfl ?_ h2
    have hN : floor.normal = ⟨0, 0, 600⟩ := by apply V3.ext <;> simp [Face.normal, floor, cross]; norm_num
    have hl : Geom.length (⟨0, 0, 600⟩ : V3 ℝ) = 600 := by
      simp only [Geom.length, sqLength]
      rw [Real.sqrt_eq_iff_eq_sq] <;> norm_num
    refine ⟨⟨0, by norm_num [floor]⟩, 0, ?_⟩
    rw [hN, hl]
    norm_num [floor, dot]

end Verif.Mirrors
