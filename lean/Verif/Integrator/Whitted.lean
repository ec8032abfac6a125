import Verif.Material.Material
import Verif.Light.Light
import Verif.Integrator.Specular
import Verif.Integrator.Direct

/-!
# The light a surface sends to the viewer (C163, C164)

Models `WhittedIntegrator.li` (`pytracer/integrator/surface/whitted.py:30-59`) and `DirectLightingIntegrator.li` (`pytracer/integrator/surface/direct.py:70-105`) with the material
(`Material/Material.lean`), the lights (`Light/Light.lean`) and the specular rays (`Integrator/Specular.lean`) they use.  Exact real arithmetic, spectra of three coefficients.
`renderer.li` for the specular rays is an arbitrary function; the answers of the visibility test and the transmittance are parameters of the general theorem and computed from a scene of
triangles in `C163_matte`.
-/
namespace Verif.Whitted
open Verif V3 Verif.Geom Verif.DiffG Verif.Bsdf Verif.Refl Verif.Mat Verif.Light Verif.Integrator

/-- what `light.sample_l` returned for one light (`whitted.py:44`), with the answers of `vis.unoccluded(scene)` and `vis.transmittance(...)` -/
structure Lit where
  s : LSample (Fin 3)
  unocc : Bool
  T : Spec

/-- `bsdf.f(wo, wi)` (`whitted.py:49`), all three coefficients -/
noncomputable def value (r : Made) (wo wi : V3 ℝ) (fl : Flags) : Spec := fun i => (r.bsdf i).f wo wi fl

open Classical in
/-- emission and the loop over the lights (`whitted.py:34-51`); `le` is `isect.le` -/
noncomputable def direct (r : Made) (le : V3 ℝ → Spec) (d : V3 ℝ) (ls : List Lit) : Spec :=
  let wo := -d
  let n := r.dgs.nn
  ls.foldl (fun L l =>
    if black l.s.radiance ∨ l.s.pdf = 0 then L
    else
      let f := value r wo l.s.wi ALL
      if ¬ black f ∧ l.unocc = true then fun c => L c + f c * l.s.radiance c * absDot l.s.wi n * l.T c / l.s.pdf else L)
    (fun c => 0 + le wo c)

/-- `bsdf.sample_f(wo, BSDFSample.from_rand(rng), flags)` (`integrator/utility.py:128, 164`): the density and the direction are those of the chosen component, whose type
is the same for the three coefficients; `u` are the random numbers.  `none` is an exception. -/
noncomputable def specSample (r : Made) (wo : V3 ℝ) (u : ℝ × ℝ × ℝ) (fl : Flags) : Option (Spec.Smp (Fin 3)) :=
  ((r.bsdf 0).sampleF wo u.1 u.2.1 u.2.2 fl).bind fun o0 => ((r.bsdf 1).sampleF wo u.1 u.2.1 u.2.2 fl).bind fun o1 =>
    ((r.bsdf 2).sampleF wo u.1 u.2.1 u.2.2 fl).bind fun o2 => some ⟨o0.pdf, o0.wi.getD 0, ![o0.f, o1.f, o2.f]⟩

/-- the end of both `li` methods (`whitted.py:53-59`, `direct.py:99-105`): the specular rays within the depth limit -/
noncomputable def specular (rli : Spec.Li (Fin 3)) (maxDepth : ℕ) (ray : Spec.RayD) (i : Spec.Isect) (r : Made) (ur ut : ℝ × ℝ × ℝ) (L : Spec) : Option Spec :=
  if ray.depth + 1 < maxDepth then
    (specSample r (-ray.d) ur (REFLECTION ||| SPECULAR)).bind fun sr =>
      (specSample r (-ray.d) ut (TRANSMISSION ||| SPECULAR)).bind fun st =>
        some fun c => L c + (Spec.bounces rli maxDepth ray ⟨r.dgs, r.eta⟩ i sr st).1 c
  else some L

/-- `WhittedIntegrator.li` (`whitted.py:30-59`); `lights` gives for the shaded point what each light of the scene answers, in the order of the scene; `dgg`, `dgs` are the geometries handed to the
material (`aggregate/primitive.py`). -/
noncomputable def whittedLi (rli : Spec.Li (Fin 3)) (maxDepth : ℕ) (ray : Spec.RayD) (i : Spec.Isect) (m : Material) (dgg dgs : DiffGeom) (le : V3 ℝ → Spec) (lights : V3 ℝ → List Lit)
    (ur ut : ℝ × ℝ × ℝ) : Option Spec :=
  (m.getBsdf dgg dgs).bind fun r => specular rli maxDepth ray i r ur ut (direct r le ray.d (lights r.dgs.p))

/-! ### Specification -/

open Classical in
/-- the light one light source adds: reflection times radiance times cosine times transmittance over the density, if the source is seen from the point; sources whose light or whose reflection is
below `1/100000` in every channel do not count -/
noncomputable def adds (r : Made) (wo : V3 ℝ) (l : Lit) (c : Fin 3) : ℝ :=
  if Visible l.s.radiance ∧ l.s.pdf ≠ 0 ∧ Visible (value r wo l.s.wi ALL) ∧ l.unocc = true then
    value r wo l.s.wi ALL c * l.s.radiance c * |dot l.s.wi r.dgs.nn| * l.T c / l.s.pdf
  else 0

open Classical in
theorem direct_eq (r : Made) (le : V3 ℝ → Spec) (d : V3 ℝ) (ls : List Lit) (c : Fin 3) : direct r le d ls c = le (-d) c + (ls.map fun l => adds r (-d) l c).sum := by
  have key : ∀ (ls : List Lit) (L : Spec), (ls.foldl (fun L l =>
    if black l.s.radiance ∨ l.s.pdf = 0 then L
    else
      let f := value r (-d) l.s.wi ALL
      if ¬ black f ∧ l.unocc = true then fun c => L c + f c * l.s.radiance c * absDot l.s.wi r.dgs.nn * l.T c / l.s.pdf else L) L) c = L c + (ls.map fun l => adds r (-d) l c).sum := by
    intro ls
    induction ls with
    | nil => intro L; simp
    | cons l ls ih =>
      intro L
      rw [List.foldl_cons, ih, List.map_cons, List.sum_cons, ← add_assoc]
      congr 1
      by_cases h1 : black l.s.radiance ∨ l.s.pdf = 0
      · rw [if_pos h1, adds, if_neg, add_zero]
        rintro ⟨a, b, -⟩
        rcases h1 with h1 | h1
        · exact (not_black_iff _).2 a h1
        · exact b h1
      · rw [if_neg h1]
        rw [not_or, not_black_iff] at h1
        by_cases h2 : ¬ black (value r (-d) l.s.wi ALL) ∧ l.unocc = true
        · rw [if_pos h2, adds, if_pos ⟨h1.1, h1.2, (not_black_iff _).1 h2.1, h2.2⟩]
          rfl
        · rw [if_neg h2, adds, if_neg, add_zero]
          rintro ⟨-, -, a, b⟩
          exact h2 ⟨(not_black_iff _).2 a, b⟩
  have h := key ls (fun c => 0 + le (-d) c)
  simp only [zero_add] at h
  simp only [direct, zero_add]
  exact h

/-- a list of components with no specular one -/
def NoSpecular (l : List Comp) : Prop := ∀ c ∈ l, (∀ R fr, c ≠ .refl R fr) ∧ ∀ T a b, c ≠ .trans T a b

theorem matching_noSpecular (r : Made) (h : NoSpecular r.comps) (i : Fin 3) (t : Flags) (ht : t = REFLECTION ||| SPECULAR ∨ t = TRANSMISSION ||| SPECULAR) : matching (r.bsdf i) t = [] := by
  rw [matching, List.filter_eq_nil_iff]
  intro d hd
  rw [made_bdfs, List.mem_map] at hd
  obtain ⟨c, hc, rfl⟩ := hd
  obtain ⟨h1, h2⟩ := h c hc
  rw [decide_eq_true_iff]
  cases c with
  | lambert R =>
    intro hcon
    have := hcon 2 (by norm_num) (by show ((REFLECTION ||| DIFFUSE).getLsbD 2) = true; decide)
    rcases ht with rfl | rfl <;> exact absurd this (by decide)
  | orenNayar R s =>
    intro hcon
    have := hcon 2 (by norm_num) (by show ((REFLECTION ||| DIFFUSE).getLsbD 2) = true; decide)
    rcases ht with rfl | rfl <;> exact absurd this (by decide)
  | micro R fr e =>
    intro hcon
    have := hcon 3 (by norm_num) (by show ((REFLECTION ||| GLOSSY).getLsbD 3) = true; decide)
    rcases ht with rfl | rfl <;> exact absurd this (by decide)
  | refl R fr => exact absurd rfl (h1 R fr)
  | trans T a b => exact absurd rfl (h2 T a b)
  | measured t' =>
    intro hcon
    have := hcon 3 (by norm_num) (by show ((REFLECTION ||| GLOSSY).getLsbD 3) = true; decide)
    rcases ht with rfl | rfl <;> exact absurd this (by decide)

theorem specSample_none (r : Made) (h : NoSpecular r.comps) (wo : V3 ℝ) (u : ℝ × ℝ × ℝ) (t : Flags) (ht : t = REFLECTION ||| SPECULAR ∨ t = TRANSMISSION ||| SPECULAR) :
    specSample r wo u t = some ⟨0, 0, ![0, 0, 0]⟩ := by
  have e := fun i => (C45_none (r.bsdf i) wo wo u.1 u.2.1 u.2.2 t (matching_noSpecular r h i t ht)).2.2.2
  simp only [specSample, e, Option.bind_some, Option.getD_none]

theorem specular_none (rli : Spec.Li (Fin 3)) (maxDepth : ℕ) (ray : Spec.RayD) (i : Spec.Isect) (r : Made) (h : NoSpecular r.comps) (ur ut : ℝ × ℝ × ℝ) (L : Spec) :
    specular rli maxDepth ray i r ur ut L = some L := by
  simp only [specular]
  split_ifs with hd
  · rw [specSample_none r h _ _ _ (Or.inl rfl), specSample_none r h _ _ _ (Or.inr rfl)]
    simp only [Option.bind_some, Option.some.injEq]
    funext c
    rw [Spec.C148_both_partial rli maxDepth ray ⟨r.dgs, r.eta⟩ i _ _ hd (Or.inl (fun ht => absurd ht.1 (lt_irrefl _)))]
    simp [Spec.contrib]
  · rfl

/-- **C163** For every material whose geometry is evaluated without exception, every viewing direction and every list of lights: beyond the depth limit, or when no component is specular, the integrator returns the surface's own
emission towards the viewer plus what each light adds — whatever the renderer would answer, and whatever the random numbers.  (The specular rays: `C148_*`.) -/
theorem C163_li (rli : Spec.Li (Fin 3)) (maxDepth : ℕ) (ray : Spec.RayD) (i : Spec.Isect) (m : Material) (dgg dgs : DiffGeom) (le : V3 ℝ → Spec) (lights : V3 ℝ → List Lit) (ur ut : ℝ × ℝ × ℝ)
    (r : Made) (hr : m.getBsdf dgg dgs = some r) (h : maxDepth ≤ ray.depth + 1 ∨ NoSpecular r.comps) :
    whittedLi rli maxDepth ray i m dgg dgs le lights ur ut = some fun c => le (-ray.d) c + ((lights r.dgs.p).map fun l => adds r (-ray.d) l c).sum := by
  simp only [whittedLi, hr, Option.bind_some]
  have e : direct r le ray.d (lights r.dgs.p) = fun c => le (-ray.d) c + ((lights r.dgs.p).map fun l => adds r (-ray.d) l c).sum := funext fun c => direct_eq _ _ _ _ _
  rcases h with h | h
  · rw [specular, if_neg (not_lt.2 h), e]
  · rw [specular_none _ _ _ _ _ h, e]

/-- the two specular samples taken and no exception: the light of the two specular rays is added -/
theorem C163_specular (rli : Spec.Li (Fin 3)) (maxDepth : ℕ) (ray : Spec.RayD) (i : Spec.Isect) (m : Material) (dgg dgs : DiffGeom) (le : V3 ℝ → Spec) (lights : V3 ℝ → List Lit) (ur ut : ℝ × ℝ × ℝ)
    (hm : (∃ Kr bm, m = .mirror Kr bm) ∨ (∃ Kr Kt i bm, m = .glass Kr Kt i bm)) (L : Spec)
    (hL : whittedLi rli maxDepth ray i m dgg dgs le lights ur ut = some L) (hd : ray.depth + 1 < maxDepth) :
    ∃ r sr st, m.getBsdf dgg dgs = some r ∧ specSample r (-ray.d) ur (REFLECTION ||| SPECULAR) = some sr ∧ specSample r (-ray.d) ut (TRANSMISSION ||| SPECULAR) = some st ∧
      ∀ c, L c = le (-ray.d) c + (Spec.bounces rli maxDepth ray ⟨r.dgs, r.eta⟩ i sr st).1 c := by
  simp only [whittedLi, Option.bind_eq_some_iff] at hL
  obtain ⟨r, hr, hL⟩ := hL
  simp only [specular, hd, if_true, Option.bind_eq_some_iff, Option.some.injEq] at hL
  obtain ⟨sr, hsr, st, hst, rfl⟩ := hL
  refine ⟨r, sr, st, hr, hsr, hst, fun c => ?_⟩
  simp only []
  rw [direct_eq]
  congr 1
  have : ∀ l ∈ (lights r.dgs.p).map fun l => adds r (-ray.d) l c, l = 0 := by
    intro x hx
    rw [List.mem_map] at hx
    obtain ⟨l, -, rfl⟩ := hx
    rw [adds, if_neg]
    rintro ⟨-, -, ⟨j, hj⟩, -⟩
    rw [value, (C131_specular m hm dgg dgs r hr j).1] at hj
    norm_num at hj
  rw [List.sum_eq_zero this, add_zero]

/-! ### A matte surface under point lights -/

/-- a point light: where it is and how bright -/
structure PLight where
  pos : V3 ℝ
  I : Spec

open Classical in
/-- what the point lights answer at `p` in a scene of triangles without media (`light.py:129-135`, `renderer.py:77-82` without volume integrator) -/
noncomputable def litBy (frame : V3 ℝ → V3 ℝ × V3 ℝ) (scene : Tris) (rEps : ℝ) (ls : List PLight) (p : V3 ℝ) : List Lit :=
  ls.map fun l => let s := pointSample l.pos l.I p rEps; ⟨s, unoccluded frame scene s.vis, fun _ => 1⟩

/-- specification: the light is seen from `p`: no triangle has a point on the segment from `p` (from distance `rEps` on) to the light -/
def Seen (vs : Shape.Mesh ℝ × ℕ → V3 ℝ × V3 ℝ × V3 ℝ) (scene : Tris) (rEps : ℝ) (p pos : V3 ℝ) : Prop :=
  ∀ t ∈ scene, ∀ s, rEps / Geom.length (pos - p) ≤ s → s ≤ 1 → ¬ Shape.InTriangle (vs t).1 (vs t).2.1 (vs t).2.2 (p + s * (pos - p))

/-- specification: viewer (in direction `wo`) and light are on the same side of the surface -/
def SameSide (wo ng p pos : V3 ℝ) : Prop := 0 < dot (pos - p) ng * dot wo ng

/-- specification: what a point light contributes to a surface of reflectance `R` at `p` with normal `n`: reflectance over `π` times intensity over squared distance times cosine -/
noncomputable def lambertTerm (R : Spec) (n p : V3 ℝ) (l : PLight) (c : Fin 3) : ℝ :=
  R c / Real.pi * (l.I c / Geom.length (l.pos - p) ^ 2) * (|dot (l.pos - p) n| / Geom.length (l.pos - p))

theorem made_ng (r : Made) (i : Fin 3) : (r.bsdf i).ng = r.ng := by
  unfold Made.bsdf
  rw [(foldl_pushBack r.comps i _).2.1]; rfl

open Classical in
theorem value_lambert (r : Made) (R : Spec) (hr : r.comps = [.lambert R]) (wo wi : V3 ℝ) :
    value r wo wi ALL = if 0 < dot wi r.ng * dot wo r.ng then fun c => R c / Real.pi else fun _ => 0 := by
  funext c
  have hm : matching (r.bsdf c) ALL = [lambertian (R c)] := by
    rw [matching, made_bdfs, hr]
    simp only [List.map_cons, List.map_nil, Comp.bdf]
    rw [List.filter_cons_of_pos]
    · rfl
    · show decide (Contained (REFLECTION ||| DIFFUSE) ALL) = true
      decide
  have ht : ¬ transmits (lambertian (R c)).type := by
    show ¬ transmits (REFLECTION ||| DIFFUSE)
    decide
  have hrf : reflects (lambertian (R c)).type := by
    show reflects (REFLECTION ||| DIFFUSE)
    decide
  rw [value, C45_f, hm, made_ng]
  by_cases h : 0 < dot wi r.ng * dot wo r.ng
  · simp only [gt_iff_lt, h, if_true]
    rw [List.filter_cons_of_pos (by simpa using ht)]
    simp [lambertian, baseBdf, MC.invPi]
    ring
  · simp only [gt_iff_lt, h, if_false]
    rw [List.filter_cons_of_neg (by simpa using hrf)]
    simp

theorem dot_normalize {p pos : V3 ℝ} (h : p ≠ pos) (n : V3 ℝ) : dot (normalize (pos - p)) n = dot (pos - p) n / Geom.length (pos - p) := by
  rw [normalize_eq h.symm]
  simp only [dot, sub_x, sub_y, sub_z]
  ring

/-- the surface meets its hypotheses: every triangle is well formed and no shadow ray runs inside the plane of a triangle -/
def GoodScene (vs : Shape.Mesh ℝ × ℕ → V3 ℝ × V3 ℝ × V3 ℝ) (scene : Tris) (rEps : ℝ) (ls : List PLight) (p : V3 ℝ) : Prop :=
  ∀ l ∈ ls, p ≠ l.pos ∧ ∀ t ∈ scene, Good (setSegment p rEps l.pos 0) t (vs t).1 (vs t).2.1 (vs t).2.2

open Classical in
/-- **C163** a matte surface without roughness under any point lights in any scene of triangles: the radiance towards the viewer is the surface's own emission plus, for every light that is seen from the point and on the
viewer's side of the surface, (reflectance / π) · (intensity / distance²) · |cosine| — where lights with less than `1/100000` arriving in every channel, and reflectances below `π / 100000` in every channel, count as black.  No
other ray is traced.  (The normal is that of the copy of the shading geometry the material makes.) -/
theorem C163_matte (rli : Spec.Li (Fin 3)) (maxDepth : ℕ) (ray : Spec.RayD) (i : Spec.Isect) (Kd : STex) (sigma : FTex) (dgg dgs : DiffGeom) (le : V3 ℝ → Spec) (ls : List PLight) (scene : Tris)
    (frame : V3 ℝ → V3 ℝ × V3 ℝ) (vs : Shape.Mesh ℝ × ℕ → V3 ℝ × V3 ℝ × V3 ℝ) (ur ut : ℝ × ℝ × ℝ) (hs : sigma dgs.copy ≤ 0) (hg : GoodScene vs scene i.rEps ls dgs.p) :
    whittedLi rli maxDepth ray i (.matte Kd sigma none) dgg dgs le (litBy frame scene i.rEps ls) ur ut = some fun c =>
      le (-ray.d) c + (ls.map fun l =>
        if Seen vs scene i.rEps dgs.p l.pos ∧ SameSide (-ray.d) dgg.nn dgs.p l.pos ∧ Visible (fun c => l.I c / Geom.length (l.pos - dgs.p) ^ 2) ∧ Visible (fun c => clip (Kd dgs.copy) c / Real.pi) then
          lambertTerm (clip (Kd dgs.copy)) dgs.copy.nn dgs.p l c
        else 0).sum := by
  obtain ⟨r, hr, hc, -, -⟩ := C131_matte Kd sigma dgg dgs
  obtain ⟨r', hr', hdgs, hng⟩ := C131_total (.matte Kd sigma none) (by simp [Material.bumped]) (by simp) (by simp) dgg dgs
  obtain rfl : r = r' := Option.some.inj (hr.symm.trans hr')
  have hc := hc hs
  have hp : r.dgs.p = dgs.p := by rw [hdgs]; rfl
  have hn : r.dgs.nn = dgs.copy.nn := by rw [hdgs]
  rw [C163_li rli maxDepth ray i _ dgg dgs le _ ur ut r hr (Or.inr (by
    intro c hcm
    rw [hc, List.mem_singleton] at hcm
    subst hcm
    exact ⟨by simp, by simp⟩))]
  congr 1
  funext c
  congr 1
  rw [litBy, List.map_map, hp]
  congr 1
  apply List.map_congr_left
  intro l hl
  obtain ⟨hne, hgt⟩ := hg l hl
  have hlen : 0 < Geom.length (l.pos - dgs.p) := length_sub_pos hne.symm
  have hun := C54_unoccluded frame scene dgs.p l.pos i.rEps 0 hne vs hgt
  have hsq : sqLength (l.pos - dgs.p) = Geom.length (l.pos - dgs.p) ^ 2 := (length_sq _).symm
  have hside : (0 < dot (normalize (l.pos - dgs.p)) r.ng * dot (-ray.d) r.ng) ↔ SameSide (-ray.d) dgg.nn dgs.p l.pos := by
    rw [dot_normalize hne, hng, SameSide, div_mul_eq_mul_div]
    exact div_pos_iff_of_pos_right hlen
  simp only [Function.comp_apply, adds, value_lambert r _ hc, pointSample, hsq, hn]
  have e1 : (unoccluded frame scene (setSegment dgs.p i.rEps l.pos 0) = true) ↔ Seen vs scene i.rEps dgs.p l.pos := by
    rw [hun, Seen]; simp only [sub_zero]
  by_cases h1 : SameSide (-ray.d) dgg.nn dgs.p l.pos
  · have h1' := hside.2 h1
    simp only [h1', if_true, e1, h1, true_and]
    by_cases h2 : Seen vs scene i.rEps dgs.p l.pos ∧ Visible (fun c => l.I c / Geom.length (l.pos - dgs.p) ^ 2) ∧ Visible (fun c => clip (Kd dgs.copy) c / Real.pi)
    · rw [if_pos ⟨h2.2.1, one_ne_zero, h2.2.2, h2.1⟩, if_pos h2, lambertTerm, dot_normalize hne, abs_div, abs_of_pos hlen]
      ring
    · rw [if_neg (fun h => h2 ⟨h.2.2.2, h.1, h.2.2.1⟩), if_neg h2]
  · have h1' := fun h => h1 (hside.1 h)
    rw [if_neg (c := 0 < dot (normalize (l.pos - dgs.p)) r.ng * dot (-ray.d) r.ng) h1']
    rw [if_neg, if_neg (fun h => h1 h.2.1)]
    rintro ⟨-, -, ⟨j, hj⟩, -⟩
    revert hj; norm_num

open Classical in
/-- specification: the exact light of all lights that are seen from the point on the viewer's side -/
noncomputable def exact (vs : Shape.Mesh ℝ × ℕ → V3 ℝ × V3 ℝ × V3 ℝ) (scene : Tris) (rEps : ℝ) (wo ng n p : V3 ℝ) (R : Spec) (ls : List PLight) (c : Fin 3) : ℝ :=
  (ls.map fun l => if Seen vs scene rEps p l.pos ∧ SameSide wo ng p l.pos then lambertTerm R n p l c else 0).sum

theorem abs_dot_le (v n : V3 ℝ) (hn : sqLength n = 1) : |dot v n| ≤ Geom.length v := by
  rw [Geom.length]
  apply Real.abs_le_sqrt
  have : dot v n ^ 2 ≤ sqLength v * sqLength n := by
    simp only [dot, sqLength]
    nlinarith [sq_nonneg (v.x * n.y - v.y * n.x), sq_nonneg (v.x * n.z - v.z * n.x), sq_nonneg (v.y * n.z - v.z * n.y)]
  rwa [hn, mul_one] at this

theorem sum_close {α : Type*} (l : List α) (f g b : α → ℝ) (h : ∀ x ∈ l, f x ≤ g x ∧ g x - f x ≤ b x) : (l.map f).sum ≤ (l.map g).sum ∧ (l.map g).sum - (l.map f).sum ≤ (l.map b).sum := by
  induction l with
  | nil => simp
  | cons a l ih =>
    obtain ⟨h1, h2⟩ := ih fun x hx => h x (List.mem_cons_of_mem _ hx)
    obtain ⟨h3, h4⟩ := h a List.mem_cons_self
    simp only [List.map_cons, List.sum_cons]
    constructor <;> linarith

/-- **C163** hence the radiance is never more than the exact one, and less by at most `1/100000` of the larger of reflectance over `π` and arriving light for every light. -/
theorem C163_matte_close (rli : Spec.Li (Fin 3)) (maxDepth : ℕ) (ray : Spec.RayD) (i : Spec.Isect) (Kd : STex) (sigma : FTex) (dgg dgs : DiffGeom) (le : V3 ℝ → Spec) (ls : List PLight) (scene : Tris)
    (frame : V3 ℝ → V3 ℝ × V3 ℝ) (vs : Shape.Mesh ℝ × ℕ → V3 ℝ × V3 ℝ × V3 ℝ) (ur ut : ℝ × ℝ × ℝ) (hs : sigma dgs.copy ≤ 0) (hg : GoodScene vs scene i.rEps ls dgs.p)
    (hI : ∀ l ∈ ls, ∀ c, 0 ≤ l.I c) (hn : sqLength dgs.copy.nn = 1) :
    ∃ L, whittedLi rli maxDepth ray i (.matte Kd sigma none) dgg dgs le (litBy frame scene i.rEps ls) ur ut = some L ∧ ∀ c,
      let E := le (-ray.d) c + exact vs scene i.rEps (-ray.d) dgg.nn dgs.copy.nn dgs.p (clip (Kd dgs.copy)) ls c
      L c ≤ E ∧ E - L c ≤ (ls.map fun l => 1 / 100000 * max (clip (Kd dgs.copy) c / Real.pi) (l.I c / Geom.length (l.pos - dgs.p) ^ 2)).sum := by
  classical
  refine ⟨_, C163_matte rli maxDepth ray i Kd sigma dgg dgs le ls scene frame vs ur ut hs hg, fun c => ?_⟩
  simp only [exact, add_sub_add_left_eq_sub, add_le_add_iff_left]
  apply sum_close
  intro l hl
  have hne := (hg l hl).1
  have hlen : 0 < Geom.length (l.pos - dgs.p) := length_sub_pos hne.symm
  have hR : ∀ c, 0 ≤ clip (Kd dgs.copy) c / Real.pi := fun c => div_nonneg (clip_nonneg _ _) Real.pi_pos.le
  have hA : ∀ c, 0 ≤ l.I c / Geom.length (l.pos - dgs.p) ^ 2 := fun c => div_nonneg (hI l hl c) (by positivity)
  have hcos0 : 0 ≤ |dot (l.pos - dgs.p) dgs.copy.nn| / Geom.length (l.pos - dgs.p) := by positivity
  have hcos1 : |dot (l.pos - dgs.p) dgs.copy.nn| / Geom.length (l.pos - dgs.p) ≤ 1 := (div_le_one hlen).2 (abs_dot_le _ _ hn)
  have hT : 0 ≤ lambertTerm (clip (Kd dgs.copy)) dgs.copy.nn dgs.p l c := mul_nonneg (mul_nonneg (hR c) (hA c)) hcos0
  have hmax : (0 : ℝ) ≤ 1 / 100000 * max (clip (Kd dgs.copy) c / Real.pi) (l.I c / Geom.length (l.pos - dgs.p) ^ 2) := mul_nonneg (by norm_num) (le_max_of_le_left (hR c))
  by_cases h1 : Seen vs scene i.rEps dgs.p l.pos ∧ SameSide (-ray.d) dgg.nn dgs.p l.pos
  · rw [if_pos h1]
    by_cases h2 : Visible (fun c => l.I c / Geom.length (l.pos - dgs.p) ^ 2) ∧ Visible (fun c => clip (Kd dgs.copy) c / Real.pi)
    · rw [if_pos ⟨h1.1, h1.2, h2⟩]
      exact ⟨le_refl _, by simpa using hmax⟩
    · rw [if_neg (fun h => h2 h.2.2)]
      refine ⟨hT, ?_⟩
      rw [sub_zero]
      have hle : lambertTerm (clip (Kd dgs.copy)) dgs.copy.nn dgs.p l c ≤ clip (Kd dgs.copy) c / Real.pi * (l.I c / Geom.length (l.pos - dgs.p) ^ 2) :=
        mul_le_of_le_one_right (mul_nonneg (hR c) (hA c)) hcos1
      refine hle.trans ?_
      rw [not_and_or] at h2
      rcases h2 with h2 | h2
      · have : l.I c / Geom.length (l.pos - dgs.p) ^ 2 < 1 / 100000 := by
          by_contra hcon
          exact h2 ⟨c, not_lt.1 hcon⟩
        rw [mul_comm]
        exact mul_le_mul this.le (le_max_left _ _) (hR c) (by norm_num)
      · have : clip (Kd dgs.copy) c / Real.pi < 1 / 100000 := by
          by_contra hcon
          exact h2 ⟨c, not_lt.1 hcon⟩
        exact mul_le_mul this.le (le_max_right _ _) (hA c) (by norm_num)
  · rw [if_neg h1, if_neg (fun h => h1 ⟨h.1, h.2.1⟩)]
    exact ⟨le_refl _, by simpa using hmax⟩

/-- a scene that meets the hypotheses: a triangle between the point and one light, a second light on the other side of the plane -/
example : GoodScene (fun _ => (⟨-1, -1, 1⟩, ⟨1, -1, 1⟩, ⟨0, 1, 1⟩)) [(exMesh, 0)] (1 / 1000) [⟨⟨0, 0, 2⟩, fun _ => 3⟩, ⟨⟨0, 0, -2⟩, fun _ => 5⟩] ⟨0, 0, 0⟩ := by
  have hl : Geom.length ((⟨0, 0, 0⟩ : V3 ℝ) - ⟨0, 0, 2⟩) = 2 := by
    unfold Geom.length; rw [Real.sqrt_eq_iff_eq_sq] <;> norm_num [sqLength]
  have hl' : Geom.length ((⟨0, 0, 0⟩ : V3 ℝ) - ⟨0, 0, -2⟩) = 2 := by
    unfold Geom.length; rw [Real.sqrt_eq_iff_eq_sq] <;> norm_num [sqLength]
  intro l hl0
  have hl1 : l = ⟨⟨0, 0, 2⟩, fun _ => 3⟩ ∨ l = ⟨⟨0, 0, -2⟩, fun _ => 5⟩ := by simpa using hl0
  rcases hl1 with rfl | rfl
  · refine ⟨fun h => by have := congrArg V3.z h; norm_num at this, fun t ht => ?_⟩
    obtain rfl := List.mem_singleton.1 ht
    refine ⟨by simp [exMesh, Shape.Mesh.vertex, Shape.pyGet], by simp [exMesh, Shape.Mesh.vertex, Shape.pyGet],
      by simp [exMesh, Shape.Mesh.vertex, Shape.pyGet], by simp [exMesh, Shape.Mesh.getUvs], rfl, ?_⟩
    simp only [Shape.Transversal, setSegment, hl]
    norm_num [dot, cross]
  · refine ⟨fun h => by have := congrArg V3.z h; norm_num at this, fun t ht => ?_⟩
    obtain rfl := List.mem_singleton.1 ht
    refine ⟨by simp [exMesh, Shape.Mesh.vertex, Shape.pyGet], by simp [exMesh, Shape.Mesh.vertex, Shape.pyGet],
      by simp [exMesh, Shape.Mesh.vertex, Shape.pyGet], by simp [exMesh, Shape.Mesh.getUvs], rfl, ?_⟩
    simp only [Shape.Transversal, setSegment, hl']
    norm_num [dot, cross]

/-! ### C164: the two integrators agree on lights with a delta distribution -/

open Classical in
/-- `util.is_black` of a spectrum (`utility/utility.py:119-123`) is `Mat.blackAbs`; `estimate_direct` for a light with a delta distribution (`integrator/utility.py:211-224, 232`) -/
noncomputable def estimateDelta (r : Made) (wo : V3 ℝ) (l : Lit) : Spec :=
  if l.s.pdf > 0 ∧ ¬ blackAbs l.s.radiance then
    let f := value r wo l.s.wi directFlags
    if ¬ blackAbs f ∧ l.unocc = true then
      let Li := fun c => l.s.radiance c * l.T c
      fun c => 0 + f c * Li c * (absDot l.s.wi r.dgs.nn / l.s.pdf)
    else fun _ => 0
  else fun _ => 0

/-- `uniform_sample_all_lights` (`integrator/utility.py:59-78`) for lights with delta distributions: the samples of one light differ only in random numbers such lights ignore.  `ns` is the number of
samples of each light. -/
noncomputable def allDelta (r : Made) (wo : V3 ℝ) (ls : List (Lit × ℕ)) : Spec :=
  ls.foldl (fun L l => fun c => L c + (((List.range l.2).foldl (fun Ld _ => fun c => Ld c + estimateDelta r wo l.1 c) (fun _ => 0)) c) / l.2) (fun _ => 0)

/-- `DirectLightingIntegrator.li` (`direct.py:70-105`) with `SAMPLE_ALL_UNIFORM`, for lights with delta distributions -/
noncomputable def directLi (rli : Spec.Li (Fin 3)) (maxDepth : ℕ) (ray : Spec.RayD) (i : Spec.Isect) (m : Material) (dgg dgs : DiffGeom) (le : V3 ℝ → Spec) (lights : V3 ℝ → List (Lit × ℕ))
    (ur ut : ℝ × ℝ × ℝ) : Option Spec :=
  (m.getBsdf dgg dgs).bind fun r =>
    let L : Spec := fun c => 0 + le (-ray.d) c
    let L : Spec := if (lights r.dgs.p).length > 0 then fun c => L c + allDelta r (-ray.d) (lights r.dgs.p) c else L
    specular rli maxDepth ray i r ur ut L

theorem value_directFlags (r : Made) (wo wi : V3 ℝ) : value r wo wi directFlags = value r wo wi ALL := by
  funext i
  simp only [value]
  rw [C45_f, C45_f, matching, matching, made_bdfs]
  generalize (fun d : Bdf ℝ => if dot wi (r.bsdf i).ng * dot wo (r.bsdf i).ng > 0 then decide (¬ transmits d.type) else decide (¬ reflects d.type)) = g
  generalize r.comps = l
  induction l with
  | nil => rfl
  | cons c l ih =>
    have drop : ∀ (d : Bdf ℝ) (t : Bdf ℝ → Bool) (L : List (Bdf ℝ)), d.f ((r.bsdf i).w2l wo) ((r.bsdf i).w2l wi) = 0 →
        (((List.filter g (List.filter t (d :: L)))).map fun d => d.f ((r.bsdf i).w2l wo) ((r.bsdf i).w2l wi)).sum =
        (((List.filter g (List.filter t L))).map fun d => d.f ((r.bsdf i).w2l wo) ((r.bsdf i).w2l wi)).sum := by
      intro d t L h0
      by_cases ht : t d
      · rw [List.filter_cons_of_pos ht]
        by_cases hg : g d
        · rw [List.filter_cons_of_pos hg]; simp [h0]
        · rw [List.filter_cons_of_neg hg]
      · rw [List.filter_cons_of_neg ht]
    have both : ∀ (d : Bdf ℝ) (L : List (Bdf ℝ)), Contained d.type directFlags → Contained d.type ALL →
        (((List.filter g (List.filter (fun d => decide (Contained d.type directFlags)) L))).map fun d => d.f ((r.bsdf i).w2l wo) ((r.bsdf i).w2l wi)).sum =
        (((List.filter g (List.filter (fun d => decide (Contained d.type ALL)) L))).map fun d => d.f ((r.bsdf i).w2l wo) ((r.bsdf i).w2l wi)).sum →
        (((List.filter g (List.filter (fun d => decide (Contained d.type directFlags)) (d :: L)))).map fun d => d.f ((r.bsdf i).w2l wo) ((r.bsdf i).w2l wi)).sum =
        (((List.filter g (List.filter (fun d => decide (Contained d.type ALL)) (d :: L)))).map fun d => d.f ((r.bsdf i).w2l wo) ((r.bsdf i).w2l wi)).sum := by
      intro d L h1 h2 h
      rw [List.filter_cons_of_pos (p := fun d : Bdf ℝ => decide (Contained d.type directFlags)) (by simpa using h1),
        List.filter_cons_of_pos (p := fun d : Bdf ℝ => decide (Contained d.type ALL)) (by simpa using h2)]
      by_cases hg : g d
      · rw [List.filter_cons_of_pos hg, List.filter_cons_of_pos hg, List.map_cons, List.map_cons, List.sum_cons, List.sum_cons, h]
      · rw [List.filter_cons_of_neg hg, List.filter_cons_of_neg hg, h]
    rw [List.map_cons]
    cases c with
    | refl R fr => rw [drop _ _ _ rfl, drop _ _ _ rfl]; exact ih
    | trans T a b => rw [drop _ _ _ rfl, drop _ _ _ rfl]; exact ih
    | lambert R => exact both _ _ (by show Contained (REFLECTION ||| DIFFUSE) _; decide) (by show Contained (REFLECTION ||| DIFFUSE) _; decide) ih
    | orenNayar R s => exact both _ _ (by show Contained (REFLECTION ||| DIFFUSE) _; decide) (by show Contained (REFLECTION ||| DIFFUSE) _; decide) ih
    | micro R fr e => exact both _ _ (by show Contained (REFLECTION ||| GLOSSY) _; decide) (by show Contained (REFLECTION ||| GLOSSY) _; decide) ih
    | measured t => exact both _ _ (by show Contained (REFLECTION ||| GLOSSY) _; decide) (by show Contained (REFLECTION ||| GLOSSY) _; decide) ih

theorem blackAbs_iff (s : Spec) (h : ∀ c, 0 ≤ s c) : ¬ blackAbs s ↔ Visible s := by
  rw [← not_black_iff]
  simp only [blackAbs, black, sub_zero]
  exact not_congr (forall_congr' fun i => by rw [abs_of_nonneg (h i)])

theorem estimateDelta_eq (r : Made) (wo : V3 ℝ) (l : Lit) (h1 : ∀ c, 0 ≤ l.s.radiance c) (h2 : ∀ c, 0 ≤ value r wo l.s.wi ALL c) (h3 : 0 ≤ l.s.pdf) (c : Fin 3) :
    estimateDelta r wo l c = adds r wo l c := by
  have hf : ∀ c, 0 ≤ value r wo l.s.wi directFlags c := by rw [value_directFlags]; exact h2
  rw [adds, ← value_directFlags]
  simp only [estimateDelta]
  by_cases ha : l.s.pdf > 0 ∧ ¬ blackAbs l.s.radiance
  · rw [if_pos ha]
    by_cases hb : ¬ blackAbs (value r wo l.s.wi directFlags) ∧ l.unocc = true
    · rw [if_pos hb, if_pos ⟨(blackAbs_iff _ h1).1 ha.2, ha.1.ne', (blackAbs_iff _ hf).1 hb.1, hb.2⟩]
      simp only [absDot]
      ring
    · rw [if_neg hb, if_neg (fun h => hb ⟨(blackAbs_iff _ hf).2 h.2.2.1, h.2.2.2⟩)]
  · rw [if_neg ha, if_neg]
    rintro ⟨a, b, -⟩
    exact ha ⟨lt_of_le_of_ne h3 (Ne.symm b), (blackAbs_iff _ h1).2 a⟩

theorem allDelta_eq (r : Made) (wo : V3 ℝ) (ls : List (Lit × ℕ)) (hn : ∀ l ∈ ls, 0 < l.2) (c : Fin 3) : allDelta r wo ls c = (ls.map fun l => estimateDelta r wo l.1 c).sum := by
  have e1 : ∀ (n : ℕ) (x : Spec) (y : Spec), ((List.range n).foldl (fun Ld _ => fun c => Ld c + x c) y) c = y c + n * x c := by
    intro n x y
    induction n with
    | zero => simp
    | succ n ih => rw [List.range_succ, List.foldl_append, List.foldl_cons, List.foldl_nil, ih]; push_cast; ring
  have e2 : ∀ (ls : List (Lit × ℕ)) (y : Spec), (∀ l ∈ ls, 0 < l.2) →
      (ls.foldl (fun L l => fun c => L c + (((List.range l.2).foldl (fun Ld _ => fun c => Ld c + estimateDelta r wo l.1 c) (fun _ => 0)) c) / l.2) y) c =
        y c + (ls.map fun l => estimateDelta r wo l.1 c).sum := by
    intro ls
    induction ls with
    | nil => intro y _; simp
    | cons l ls ih =>
      intro y hn
      rw [List.foldl_cons, ih _ fun k hk => hn k (List.mem_cons_of_mem _ hk), e1, List.map_cons, List.sum_cons]
      have h0 : (l.2 : ℝ) ≠ 0 := Nat.cast_ne_zero.2 (hn l List.mem_cons_self).ne'
      rw [zero_add, mul_comm, mul_div_assoc, div_self h0]
      ring
  rw [allDelta, e2 ls _ hn, zero_add]

/-- **C164** For every material, every point and viewing direction, and lights with delta distributions (point lights, ...), sampled any positive number of times each, neither arriving light nor reflection negative: the direct
lighting integrator sampling all lights returns exactly what the Whitted integrator returns, raising when it raises. -/
theorem C164_agree (rli : Spec.Li (Fin 3)) (maxDepth : ℕ) (ray : Spec.RayD) (i : Spec.Isect) (m : Material) (dgg dgs : DiffGeom) (le : V3 ℝ → Spec) (lights : V3 ℝ → List (Lit × ℕ)) (ur ut : ℝ × ℝ × ℝ)
    (h : ∀ p, ∀ l ∈ lights p, 0 < l.2 ∧ 0 ≤ l.1.s.pdf ∧ (∀ c, 0 ≤ l.1.s.radiance c) ∧ ∀ r, m.getBsdf dgg dgs = some r → ∀ c, 0 ≤ value r (-ray.d) l.1.s.wi ALL c) :
    directLi rli maxDepth ray i m dgg dgs le lights ur ut = whittedLi rli maxDepth ray i m dgg dgs le (fun p => (lights p).map Prod.fst) ur ut := by
  simp only [directLi, whittedLi]
  cases hr : m.getBsdf dgg dgs with
  | none => rfl
  | some r =>
    simp only [Option.bind_some]
    congr 1
    funext c
    rw [direct_eq, List.map_map]
    have e : allDelta r (-ray.d) (lights r.dgs.p) c = ((lights r.dgs.p).map ((fun l => adds r (-ray.d) l c) ∘ Prod.fst)).sum := by
      rw [allDelta_eq _ _ _ (fun l hl => (h _ l hl).1)]
      congr 1
      apply List.map_congr_left
      intro l hl
      obtain ⟨-, h1, h2, h3⟩ := h _ l hl
      exact estimateDelta_eq r _ l.1 h2 (h3 r hr) h1 c
    by_cases h0 : (lights r.dgs.p).length > 0
    · rw [if_pos h0, e, zero_add]
    · have : lights r.dgs.p = [] := List.length_eq_zero_iff.1 (by omega)
      simp [this]

/-- point lights of non-negative intensity and matte surfaces meet the hypotheses -/
example (frame : V3 ℝ → V3 ℝ × V3 ℝ) (scene : Tris) (e : ℝ) (ls : List PLight) (hI : ∀ l ∈ ls, ∀ c, 0 ≤ l.I c) (Kd : STex) (dgg dgs : DiffGeom) (wo : V3 ℝ) :
    ∀ p, ∀ l ∈ (litBy frame scene e ls p).map (fun l => (l, 4)), 0 < l.2 ∧ 0 ≤ l.1.s.pdf ∧ (∀ c, 0 ≤ l.1.s.radiance c) ∧
      ∀ r, (Material.matte Kd (fun _ => 0) none).getBsdf dgg dgs = some r → ∀ c, 0 ≤ value r wo l.1.s.wi ALL c := by
  intro p l hl
  obtain ⟨l', hl', rfl⟩ := List.mem_map.1 hl
  obtain ⟨l0, h0, rfl⟩ := List.mem_map.1 hl'
  refine ⟨by norm_num, by simp [pointSample], fun c => div_nonneg (hI l0 h0 c) (sqLength_nonneg _), fun r hr c => ?_⟩
  obtain ⟨r', hr', hc, -, -⟩ := C131_matte Kd (fun _ => 0) dgg dgs
  obtain rfl : r = r' := Option.some.inj (hr.symm.trans hr')
  rw [value_lambert r _ (hc le_rfl)]
  split_ifs
  · exact div_nonneg (clip_nonneg _ _) Real.pi_pos.le
  · exact le_rfl

end Verif.Whitted
