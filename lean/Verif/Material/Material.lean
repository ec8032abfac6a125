import Verif.Geom.DiffGeom
import Verif.Reflection.Bsdf
import Verif.Reflection.Fresnel
import Verif.Reflection.Diffuse
import Verif.Reflection.Microfacet
import Verif.Reflection.Measured

/-!
# Materials (C129–C133)

Models `pytracer/material/material.py`.  Exact real arithmetic; a spectrum is its three coefficients (`RGBSpectrum`, the `Spectrum` of the
package); a texture is a function of the differential geometry that returns a value for every point.  `none` is a Python exception.
-/
namespace Verif.Mat
open Verif V3 Verif.Geom Verif.DiffG Verif.Bsdf Verif.Refl

/-- `RGBSpectrum` -/
abbrev Spec := Fin 3 → ℝ
/-- a `FLOAT` texture -/
abbrev FTex := DiffGeom → ℝ
/-- a `Spectrum` texture -/
abbrev STex := DiffGeom → Spec

/-- `CoefficientSpectrum.clip()` (`spectral/spectrum.py:219-220`) and `util.clip` of a spectrum (`utility/utility.py:110-116`) -/
noncomputable def clip (s : Spec) : Spec := fun i => max (s i) 0

/-- `EPS` (`pytracer/__init__.py:23`) -/
noncomputable def EPS : ℝ := 1 / 100000

/-- `CoefficientSpectrum.is_black` (`spectral/spectrum.py:182-187`) -/
def black (s : Spec) : Prop := ∀ i, s i < EPS

/-- `util.is_black` of a spectrum (`utility/utility.py:119-124`) -/
def blackAbs (s : Spec) : Prop := ∀ i, |s i - 0| < EPS

/-- the Fresnel objects materials make (`reflection/fresnel.py:30-83`) -/
inductive Fr
  | diel (ei et : ℝ)
  | cond (eta k : Spec)
  | full

/-- the value of a Fresnel object for one spectral coefficient -/
noncomputable def Fr.eval (i : Fin 3) : Fr → ℝ → ℝ
  | .diel ei et => dielectric ei et
  | .cond eta k => conductor (eta i) (k i)
  | .full => fullReflect

/-- what `MeasuredMaterial` hands to `IrIsotropicBRDF`: the points of the tree and the samples (`None` or a list) -/
structure Table where
  tree : List (V3 ℝ)
  samples : Option (List (V3 ℝ × Spec))

/-- the components materials push, with their constructor arguments -/
inductive Comp
  | lambert (R : Spec)
  | orenNayar (R : Spec) (sigma : ℝ)
  | micro (R : Spec) (fr : Fr) (e : ℝ)
  | refl (R : Spec) (fr : Fr)
  | trans (T : Spec) (ei et : ℝ)
  | measured (t : Table)

/-- one spectral coefficient of a component as a `Bdf` of the container.  The value of Oren-Nayar where the code divides by zero is taken as 0;
of the measured component only type, density and sampled direction are used here (its value is modelled in `Reflection/Measured.lean`). -/
noncomputable def Comp.bdf (i : Fin 3) : Comp → Bdf ℝ
  | .lambert R => lambertian (R i)
  | .orenNayar R s => baseBdf (REFLECTION ||| DIFFUSE) (fun wo wi => ((ON.init (R i) s).f wo wi).getD 0)
  | .micro R fr e => microfacet (R i) (fr.eval i) (blinn e)
  | .refl R fr => specularReflection (R i) (fr.eval i)
  | .trans T ei et => specularTransmission (T i) ei et
  | .measured _ => baseBdf (REFLECTION ||| GLOSSY) (fun _ _ => 0)

/-- the colour coefficient of a component (1 for measured data, which have none) -/
def Comp.coef : Comp → Spec
  | .lambert R => R
  | .orenNayar R _ => R
  | .micro R _ _ => R
  | .refl R _ => R
  | .trans T _ _ => T
  | .measured _ => fun _ => 1

/-- a `BSDF` object as `get_bsdf` returns it (`reflection/bsdf.py:78-94`) -/
structure Made where
  dgs : DiffGeom
  ng : V3 ℝ
  eta : ℝ
  comps : List Comp

/-- the container of one spectral coefficient: `push_back` of the components in order -/
noncomputable def Made.bsdf (r : Made) (i : Fin 3) : BSDF ℝ :=
  r.comps.foldl (fun b c => b.pushBack (c.bdf i)) (BSDF.init r.dgs.nn r.dgs.dpdu r.ng)

/-- the class attribute `geo.Vector.fromNormal` (used at `material.py:90-91`): `Vector` has no such attribute (`geometry/__init__.py` defines `from_arr`
only), so looking it up raises `AttributeError` -/
def vectorFromNormal : Option (V3 ℝ → V3 ℝ) := none

/-- `Material.bump` (`material.py:53-99`); the call of `face_forward` with a normal as second argument (line 97) would raise, too -/
noncomputable def bump (d : FTex) (dgg dgs : DiffGeom) : Option DiffGeom :=
  let du0 := 1 / 2 * (|dgs.dudx| + |dgs.dudy|)
  let du := if du0 = 0 then 1 / 100 else du0
  let gu : DiffGeom := { dgs.copy with p := dgs.p + du * dgs.dpdu, u := dgs.u + du, nn := Geom.normalize (cross dgs.dpdu dgs.dpdv + du * dgs.dndu) }
  let dv0 := 1 / 2 * (|dgs.dvdx| + |dgs.dvdy|)
  let dv := if dv0 = 1 / 10 then 1 / 100 else dv0
  let gv : DiffGeom := { dgs.copy with p := dgs.p + dv * dgs.dpdv, v := dgs.v + dv, nn := Geom.normalize (cross dgs.dpdu dgs.dpdv + dv * dgs.dndv) }
  let disp := d dgs
  vectorFromNormal.bind fun conv =>
    let pu := dgs.dpdu + ((d gu - disp) / du) * dgs.nn + disp * conv dgs.dndu
    let pv := dgs.dpdv + ((d gv - disp) / dv) * dgs.nn + disp * conv dgs.dndv
    let n := Geom.normalize (cross pu pv)
    let n := if dgs.flip then (-1 : ℝ) * n else n
    (faceForward .normal .normal n dgg.nn).map fun n => { dgs.copy with dpdu := pu, dpdv := pv, nn := n }

/-- the geometry to shade with: bump mapped or a copy (e.g. `material.py:125-128`) -/
noncomputable def shading (bm : Option FTex) (dgg dgs : DiffGeom) : Option DiffGeom :=
  match bm with
  | some d => bump d dgg dgs
  | none => some dgs.copy

/-- the materials (`material.py:102-609`) with their textures -/
inductive Material
  | matte (Kd : STex) (sigma : FTex) (bm : Option FTex)
  | plastic (Kd Ks : STex) (rough : FTex) (bm : Option FTex)
  | mirror (Kr : STex) (bm : Option FTex)
  | metal (eta k : STex) (rough : FTex) (bm : Option FTex)
  | glass (Kr Kt : STex) (index : FTex) (bm : Option FTex)
  | uber (Kd Ks Kr Kt : STex) (rough : FTex) (opacity : STex) (eta : FTex) (bm : Option FTex)
  | mix (m1 m2 : Material) (scale : STex)
  | measured (t : Option Table) (bm : Option FTex)
  | subsurface (scale : ℝ) (kr sigmaA sigmaS : STex) (eta : FTex) (bm : Option FTex)
  | kdSubsurface (kd kr : STex) (mfp eta : FTex) (bm : Option FTex)

open Classical in
/-- `get_bsdf` of every material.  A reciprocal roughness `1. / rough` is taken in the reals (roughness 0 is infinity or an exception in the code). -/
noncomputable def Material.getBsdf : Material → DiffGeom → DiffGeom → Option Made
  -- `MatteMaterial.get_bsdf` (`material.py:122-141`)
  | .matte Kd sigma bm, dgg, dg => (shading bm dgg dg).bind fun dgs =>
      let r := clip (Kd dgs)
      let s := min (max (sigma dgs) 0) 90
      some ⟨dgs, dgg.nn, 1, if s = 0 then [.lambert r] else [.orenNayar r s]⟩
  -- `PlasticMaterial.get_bsdf` (`material.py:166-189`)
  | .plastic Kd Ks rough bm, dgg, dg => (shading bm dgg dg).bind fun dgs =>
      some ⟨dgs, dgg.nn, 1, [.lambert (clip (Kd dgs)), .micro (clip (Ks dgs)) (.diel (3 / 2) 1) (1 / rough dgs)]⟩
  -- `MirrorMaterial.get_bsdf` (`material.py:208-222`)
  | .mirror Kr bm, dgg, dg => (shading bm dgg dg).bind fun dgs =>
      let r := clip (Kr dgs)
      some ⟨dgs, dgg.nn, 1, if ¬ black r then [.refl r .full] else []⟩
  -- `MetalMaterial.get_bsdf` (`material.py:242-258`)
  | .metal eta k rough bm, dgg, dg => (shading bm dgg dg).bind fun dgs =>
      some ⟨dgs, dgg.nn, 1, [.micro (fun _ => 1) (.cond (eta dgs) (k dgs)) (1 / rough dgs)]⟩
  -- `GlassMaterial.get_bsdf` (`material.py:280-299`)
  | .glass Kr Kt index bm, dgg, dg => (shading bm dgg dg).bind fun dgs =>
      let ior := index dgs
      let R := clip (Kr dgs)
      let T := clip (Kt dgs)
      some ⟨dgs, dgg.nn, ior, (if ¬ black R then [.refl R (.diel 1 ior)] else []) ++ (if ¬ black T then [.trans T 1 ior] else [])⟩
  -- `UberMaterial.get_bsdf` (`material.py:329-364`)
  | .uber Kd Ks Kr Kt rough opacity eta bm, dgg, dg => (shading bm dgg dg).bind fun dgs =>
      let op := clip (opacity dgs)
      let kd := op * clip (Kd dgs)
      let e := eta dgs
      let ks := op * clip (Ks dgs)
      let kr := op * clip (Kr dgs)
      let kt := op * clip (Kt dgs)
      some ⟨dgs, dgg.nn, 1,
        (if ¬ op = (fun _ => 1) then [.trans (fun i => 1 - op i) 1 1] else []) ++
        (if ¬ black kd then [.lambert kd] else []) ++
        (if ¬ black ks then [.micro ks (.diel e 1) (1 / rough dgs)] else []) ++
        (if ¬ black kr then [.refl kr (.diel e 1)] else []) ++
        (if ¬ black kt then [.trans kt e 1] else [])⟩
  -- `MixMaterial.get_bsdf` (`material.py:383-400`): `for i, b in bdfs` unpacks a component object, which raises `TypeError`; only empty lists pass
  | .mix m1 m2 _scale, dgg, dg => (m1.getBsdf dgg dg).bind fun b1 => (m2.getBsdf dgg dg).bind fun b2 =>
      match b1.comps, b2.comps with
      | [], [] => some b1
      | _, _ => none
  -- `MeasuredMaterial.get_bsdf` (`material.py:504-524`)
  | .measured t bm, dgg, dg => (shading bm dgg dg).bind fun dgs =>
      some ⟨dgs, dgg.nn, 1, match t with | some t => [.measured t] | none => []⟩
  -- `SubsurfaceMaterial.get_bsdf` (`material.py:542-555`): `util.clip(R = ...)` raises `TypeError` (its parameter is called `x`)
  | .subsurface .., _, _ => none
  -- `KdSubsurfaceMaterial.get_bsdf` (`material.py:582-596`)
  | .kdSubsurface _ kr _ eta bm, dgg, dg => (shading bm dgg dg).bind fun dgs =>
      let R := clip (kr dgs)
      some ⟨dgs, dgg.nn, 1, if ¬ blackAbs R then [.refl R (.diel 1 (eta dgs))] else []⟩

/-- `BSSRDF` (`volume/bssrdf.py:25-44`): the object and its three properties -/
structure BSSRDF where
  sigmaA : Spec
  sigmaPrimeS : Spec
  eta : ℝ

/-- `subsurface_from_diffuse` (`volume/utility.py:56-63`): the body is `pass`, the result `None`, so unpacking it raises -/
def subsurfaceFromDiffuse (_kd : Spec) (_mfp _eta : ℝ) : Option (Spec × Spec) := none

/-- `get_bssrdf` (`material.py:42-50, 557-565, 598-609`): outer `none` is an exception, `some none` the Python value `None` -/
noncomputable def Material.getBssrdf : Material → DiffGeom → DiffGeom → Option (Option BSSRDF)
  | .subsurface scale _ sa ss eta _, _, dg => some (some ⟨fun i => scale * sa dg i, fun i => scale * ss dg i, eta dg⟩)
  | .kdSubsurface kd _ mfp eta _, _, dg => (subsurfaceFromDiffuse (clip (kd dg)) (mfp dg) (eta dg)).map fun s => some ⟨s.1, s.2, eta dg⟩
  | _, _, _ => some none

/-! ### Specification -/

/-- the material has a bump map of its own -/
def Material.bumped : Material → Prop
  | .matte _ _ bm => bm ≠ none
  | .plastic _ _ _ bm => bm ≠ none
  | .mirror _ bm => bm ≠ none
  | .metal _ _ _ bm => bm ≠ none
  | .glass _ _ _ bm => bm ≠ none
  | .uber _ _ _ _ _ _ _ bm => bm ≠ none
  | .mix m1 m2 _ => m1.bumped ∨ m2.bumped
  | .measured _ bm => bm ≠ none
  | .subsurface _ _ _ _ _ bm => bm ≠ none
  | .kdSubsurface _ _ _ _ bm => bm ≠ none

/-- opacities of the material stay at most one at every point -/
def Material.opacityOk : Material → Prop
  | .uber _ _ _ _ _ op _ _ => ∀ g i, op g i ≤ 1
  | .mix m1 m2 _ => m1.opacityOk ∧ m2.opacityOk
  | _ => True

/-- sum of the colour coefficients of a list of components in channel `i` -/
noncomputable def total (l : List Comp) (i : Fin 3) : ℝ := (l.map (fun c => c.coef i)).sum

/-! ### C129 -/

/-- **C129 fails**: bump mapping raises for every texture and surface point, and so does `get_bsdf` of every material with a bump map, also inside a mixture -/
theorem C129_bump_false (dgg dgs : DiffGeom) : (∀ d, bump d dgg dgs = none) ∧ ∀ m : Material, m.bumped → m.getBsdf dgg dgs = none := by
  have hb : ∀ d, bump d dgg dgs = none := fun d => rfl
  have hs : ∀ bm : Option FTex, bm ≠ none → shading bm dgg dgs = none := by
    intro bm h; cases bm with
    | none => exact absurd rfl h
    | some d => rfl
  refine ⟨hb, fun m => ?_⟩
  induction m with
  | mix m1 m2 sc h1 h2 =>
    rintro (h | h)
    · simp only [Material.getBsdf, h1 h, Option.bind_none]
    · simp only [Material.getBsdf, h2 h, Option.bind_none]
      cases m1.getBsdf dgg dgs <;> rfl
  | subsurface => intro _; rfl
  | _ => intro h; simp only [Material.getBsdf, hs _ h, Option.bind_none]

example : (Material.mirror (fun _ _ => 1) (some fun _ => 0)).bumped := by simp [Material.bumped]

/-! ### C130 -/

theorem clip_nonneg (s : Spec) (i : Fin 3) : 0 ≤ clip s i := le_max_right _ _

/-- **C130 (part)** for every material whose opacities are at most one, all texture values and surface points, the colour coefficients of all components of the BSDF
are non-negative.  Missing: opacities above one (`C130_nonneg_false`) -/
theorem C130_nonneg_partial (m : Material) (hm : m.opacityOk) (dgg dgs : DiffGeom) (r : Made) (hr : m.getBsdf dgg dgs = some r) : ∀ c ∈ r.comps, ∀ i, 0 ≤ c.coef i := by
  induction m generalizing r with
  | mix m1 m2 sc h1 h2 =>
    simp only [Material.getBsdf, Option.bind_eq_some_iff] at hr
    obtain ⟨b1, e1, b2, e2, h⟩ := hr
    split at h
    · cases h; exact h1 hm.1 _ e1
    · cases h
  | subsurface => cases hr
  | matte Kd sigma bm =>
    simp only [Material.getBsdf, Option.bind_eq_some_iff, Option.some.injEq] at hr
    obtain ⟨g, -, rfl⟩ := hr
    intro c hc i
    split_ifs at hc <;> simp only [List.mem_singleton] at hc <;> subst hc <;> exact clip_nonneg _ _
  | plastic Kd Ks rough bm =>
    simp only [Material.getBsdf, Option.bind_eq_some_iff, Option.some.injEq] at hr
    obtain ⟨g, -, rfl⟩ := hr
    intro c hc i
    simp only [List.mem_cons, List.not_mem_nil, or_false] at hc
    rcases hc with rfl | rfl <;> exact clip_nonneg _ _
  | metal eta k rough bm =>
    simp only [Material.getBsdf, Option.bind_eq_some_iff, Option.some.injEq] at hr
    obtain ⟨g, -, rfl⟩ := hr
    intro c hc i
    simp only [List.mem_singleton] at hc
    subst hc; exact zero_le_one
  | mirror Kr bm =>
    simp only [Material.getBsdf, Option.bind_eq_some_iff, Option.some.injEq] at hr
    obtain ⟨g, -, rfl⟩ := hr
    intro c hc i
    split_ifs at hc <;> simp only [List.mem_singleton, List.not_mem_nil] at hc; subst hc; exact clip_nonneg _ _
  | glass Kr Kt index bm =>
    simp only [Material.getBsdf, Option.bind_eq_some_iff, Option.some.injEq] at hr
    obtain ⟨g, -, rfl⟩ := hr
    intro c hc i
    rw [List.mem_append] at hc
    rcases hc with hc | hc <;> split_ifs at hc <;> simp only [List.mem_singleton, List.not_mem_nil] at hc <;> subst hc <;> exact clip_nonneg _ _
  | measured t bm =>
    simp only [Material.getBsdf, Option.bind_eq_some_iff, Option.some.injEq] at hr
    obtain ⟨g, -, rfl⟩ := hr
    intro c hc i
    cases t with
    | none => cases hc
    | some t => simp only [List.mem_singleton] at hc; subst hc; exact zero_le_one
  | kdSubsurface kd kr mfp eta bm =>
    simp only [Material.getBsdf, Option.bind_eq_some_iff, Option.some.injEq] at hr
    obtain ⟨g, -, rfl⟩ := hr
    intro c hc i
    split_ifs at hc <;> simp only [List.mem_singleton, List.not_mem_nil] at hc; subst hc; exact clip_nonneg _ _
  | uber Kd Ks Kr Kt rough op eta bm =>
    simp only [Material.getBsdf, Option.bind_eq_some_iff, Option.some.injEq] at hr
    obtain ⟨g, -, rfl⟩ := hr
    intro c hc i
    simp only [List.mem_append] at hc
    rcases hc with (((hc | hc) | hc) | hc) | hc <;> split_ifs at hc <;> simp only [List.mem_singleton, List.not_mem_nil] at hc <;> subst hc
    · show 0 ≤ 1 - max (op g i) 0
      have := hm g i
      have : max (op g i) 0 ≤ 1 := max_le this zero_le_one
      linarith
    all_goals exact mul_nonneg (clip_nonneg _ _) (clip_nonneg _ _)

/-- a plain surface point: the xy plane -/
noncomputable def exGeom : DiffGeom := .init 0 ⟨1, 0, 0⟩ ⟨0, 1, 0⟩ 0 0 0 0 false

/-- a case the theorem applies to: glass has components and opacity is no issue -/
example : ∃ r, (Material.glass (fun _ _ => 1) (fun _ _ => 1 / 2) (fun _ => 3 / 2) none).getBsdf exGeom exGeom = some r ∧ r.comps.length = 2 := by
  refine ⟨_, by simp only [Material.getBsdf, shading, Option.bind_some]; rfl, ?_⟩
  have h (x : ℝ) (hx : 1 / 2 ≤ x) : ¬ black (clip (fun _ => x)) := by
    intro h
    have := h 0
    simp only [clip, EPS] at this
    rw [max_eq_left (by linarith)] at this
    linarith
  rw [if_pos (h 1 (by norm_num)), if_pos (h (1 / 2) le_rfl)]
  rfl

/-- **C130 fails** for opacities above one: opacity 2 gives a component with coefficient −1, and a sampled value that is negative: light is subtracted -/
theorem C130_nonneg_false : ∃ (m : Material) (r : Made), m.getBsdf exGeom exGeom = some r ∧ (∃ c ∈ r.comps, ∀ i, c.coef i < 0) ∧
    ∀ i u1 u2, ∃ wi v, ((r.bsdf i).bdfs.head?.map fun b => b.sample up u1 u2) = some ⟨1, some (wi, v)⟩ ∧ v < 0 := by
  refine ⟨.uber (fun _ _ => 0) (fun _ _ => 0) (fun _ _ => 0) (fun _ _ => 0) (fun _ => 1) (fun _ _ => 2) (fun _ => 1) none, ⟨exGeom.copy, exGeom.nn, 1, [.trans (fun _ => -1) 1 1]⟩, ?_, ?_, ?_⟩
  · simp only [Material.getBsdf, shading, Option.bind_some]
    have hb : black (clip (fun _ => 2) * clip (fun _ => 0)) := by
      intro i; simp [clip, EPS]
    have ho : ¬ (clip (fun _ => 2) = fun _ => 1) := by
      intro h; have := congrFun h 0; simp [clip] at this
    have e : (fun i => 1 - clip (fun _ => 2) i) = fun _ : Fin 3 => (-1 : ℝ) := by
      funext i; simp [clip]; norm_num
    rw [if_pos ho, if_neg (not_not.2 hb), if_neg (not_not.2 hb), if_neg (not_not.2 hb), if_neg (not_not.2 hb), e]
    rfl
  · exact ⟨_, List.mem_singleton.2 rfl, fun i => by simp [Comp.coef]⟩
  · intro i u1 u2
    have hs : sinThetaSq up = 0 := by simp [sinThetaSq, up]
    have hF : dielectric 1 1 (cosTheta up) = 0 := by
      simp [dielectric, cosTheta, up, clip1, frDiel]
    refine ⟨⟨1 * -up.x, 1 * -up.y, -√(max 0 (1 - 0))⟩, -1, ?_, by norm_num⟩
    simp only [Made.bsdf, List.foldl, BSDF.pushBack, BSDF.init, List.nil_append, List.head?_cons, Option.map_some, Comp.bdf, specularTransmission, hs, hF]
    simp [cosTheta, up, absCosTheta]

/-! ### C131 -/

theorem foldl_pushBack (l : List Comp) (i : Fin 3) (b : BSDF ℝ) : (l.foldl (fun b c => b.pushBack (c.bdf i)) b).bdfs = b.bdfs ++ l.map (Comp.bdf i) ∧
    (l.foldl (fun b c => b.pushBack (c.bdf i)) b).ng = b.ng ∧ (l.foldl (fun b c => b.pushBack (c.bdf i)) b).nn = b.nn := by
  induction l generalizing b with
  | nil => simp
  | cons c l ih =>
    simp only [List.foldl_cons]
    obtain ⟨h1, h2, h3⟩ := ih (b.pushBack (c.bdf i))
    refine ⟨?_, by rw [h2]; rfl, by rw [h3]; rfl⟩
    rw [h1]; simp [BSDF.pushBack]

theorem made_bdfs (r : Made) (i : Fin 3) : (r.bsdf i).bdfs = r.comps.map (Comp.bdf i) := by
  unfold Made.bsdf
  rw [(foldl_pushBack r.comps i _).1]; rfl

/-- some coefficient of the spectrum is visible -/
def Visible (s : Spec) : Prop := ∃ i, 1 / 100000 ≤ s i

theorem not_black_iff (s : Spec) : ¬ black s ↔ Visible s := by
  simp [black, Visible, EPS]

theorem visible_clip (s : Spec) : Visible (clip s) ↔ Visible s := by
  have he : 0 < EPS := by unfold EPS; norm_num
  constructor
  · rintro ⟨i, h⟩
    refine ⟨i, ?_⟩
    rcases le_max_iff.1 h with h | h
    · exact h
    · linarith
  · rintro ⟨i, h⟩
    exact ⟨i, h.trans (le_max_left _ _)⟩

theorem black_clip (s : Spec) : black (clip s) ↔ ¬ Visible s := by
  rw [← visible_clip, ← not_black_iff, not_not]

/-- **C131** for every mirror without bump map and every point the BSDF is made; it consists of one perfect reflection, coloured by the non-negative part of `Kr`, if some
channel of `Kr` is visible, and of nothing otherwise -/
theorem C131_mirror (Kr : STex) (dgg dgs : DiffGeom) : ∃ r, (Material.mirror Kr none).getBsdf dgg dgs = some r ∧ r.eta = 1 ∧
    (Visible (Kr dgs.copy) → r.comps = [.refl (clip (Kr dgs.copy)) .full]) ∧ (¬ Visible (Kr dgs.copy) → r.comps = []) := by
  refine ⟨_, by simp only [Material.getBsdf, shading, Option.bind_some]; rfl, rfl, fun h => ?_, fun h => ?_⟩
  · simp only []
    rw [if_pos ((not_black_iff _).2 ((visible_clip _).2 h))]
  · simp only []
    rw [if_neg (fun hb => h ((visible_clip _).1 ((not_black_iff _).1 hb)))]

/-- **C131** glass: a reflection if some channel of `Kr` is visible and a transmission if some channel of `Kt` is, in this order, with the index of refraction of the texture -/
theorem C131_glass (Kr Kt : STex) (index : FTex) (dgg dgs : DiffGeom) : ∃ r, (Material.glass Kr Kt index none).getBsdf dgg dgs = some r ∧ r.eta = index dgs.copy ∧
    (∀ c, c ∈ r.comps ↔ (Visible (Kr dgs.copy) ∧ c = .refl (clip (Kr dgs.copy)) (.diel 1 (index dgs.copy))) ∨ (Visible (Kt dgs.copy) ∧ c = .trans (clip (Kt dgs.copy)) 1 (index dgs.copy))) ∧
    r.comps.length ≤ 2 := by
  refine ⟨_, by simp only [Material.getBsdf, shading, Option.bind_some]; rfl, rfl, fun c => ?_, ?_⟩
  · by_cases h1 : Visible (Kr dgs.copy) <;> by_cases h2 : Visible (Kt dgs.copy) <;> simp [black_clip, h1, h2]
  · simp only [List.length_append]
    split_ifs <;> simp

/-- **C131** matte: exactly one diffuse component with the non-negative part of `Kd`; Lambertian for every roughness that is not positive, Oren–Nayar with the
roughness limited to 90 degrees otherwise -/
theorem C131_matte (Kd : STex) (sigma : FTex) (dgg dgs : DiffGeom) : ∃ r, (Material.matte Kd sigma none).getBsdf dgg dgs = some r ∧
    (sigma dgs.copy ≤ 0 → r.comps = [.lambert (clip (Kd dgs.copy))]) ∧
    (0 < sigma dgs.copy → sigma dgs.copy ≤ 90 → r.comps = [.orenNayar (clip (Kd dgs.copy)) (sigma dgs.copy)]) ∧
    (90 ≤ sigma dgs.copy → r.comps = [.orenNayar (clip (Kd dgs.copy)) 90]) := by
  refine ⟨_, by simp only [Material.getBsdf, shading, Option.bind_some]; rfl, fun h => ?_, fun h h' => ?_, fun h => ?_⟩ <;> simp only []
  · rw [max_eq_right h, min_eq_left (by norm_num), if_pos rfl]
  · rw [max_eq_left h.le, min_eq_left h', if_neg h.ne']
  · rw [max_eq_left (by linarith), min_eq_right h, if_neg (by norm_num)]

/-- **C131** a subsurface material of the second kind (colours and free path): one Fresnel reflection with the non-negative part of `Kr` if some channel of `Kr` is visible, nothing otherwise -/
theorem C131_kdSubsurface (kd kr : STex) (mfp : FTex) (eta : FTex) (dgg dgs : DiffGeom) : ∃ r, (Material.kdSubsurface kd kr mfp eta none).getBsdf dgg dgs = some r ∧ r.eta = 1 ∧
    (Visible (kr dgs.copy) → r.comps = [.refl (clip (kr dgs.copy)) (.diel 1 (eta dgs.copy))]) ∧ (¬ Visible (kr dgs.copy) → r.comps = []) := by
  have hb : blackAbs (clip (kr dgs.copy)) ↔ black (clip (kr dgs.copy)) := by
    simp only [blackAbs, black, sub_zero]
    exact forall_congr' fun i => by rw [abs_of_nonneg (clip_nonneg _ _)]
  refine ⟨_, by simp only [Material.getBsdf, shading, Option.bind_some]; rfl, rfl, fun h => ?_, fun h => ?_⟩ <;> simp only []
  · rw [if_pos (fun hc => (not_black_iff _).2 ((visible_clip _).2 h) (hb.1 hc))]
  · rw [if_neg (fun hc => h ((visible_clip _).1 ((not_black_iff _).1 (fun e => hc (hb.2 e)))))]

/-- **C131** no material without a bump map raises in `get_bsdf`, apart from mixtures (C133) and subsurface materials (C136) -/
theorem C131_total (m : Material) (hb : ¬ m.bumped) (h1 : ∀ a b c, m ≠ .mix a b c) (h2 : ∀ a b c d e f, m ≠ .subsurface a b c d e f) (dgg dgs : DiffGeom) :
    ∃ r, m.getBsdf dgg dgs = some r ∧ r.dgs = dgs.copy ∧ r.ng = dgg.nn := by
  cases m with
  | mix a b c => exact absurd rfl (h1 a b c)
  | subsurface a b c d e f => exact absurd rfl (h2 a b c d e f)
  | _ =>
    simp only [Material.bumped, not_not] at hb
    subst hb
    exact ⟨_, by simp only [Material.getBsdf, shading, Option.bind_some]; rfl, rfl, rfl⟩

/-- **C131** mirrors and glass are black under `BSDF.f` for all pairs of directions and flags, and have no component without the specular flag: integrators see
them through sampling only -/
theorem C131_specular (m : Material) (hm : (∃ Kr bm, m = .mirror Kr bm) ∨ (∃ Kr Kt i bm, m = .glass Kr Kt i bm)) (dgg dgs : DiffGeom) (r : Made)
    (hr : m.getBsdf dgg dgs = some r) (i : Fin 3) : (∀ wo wi fl, (r.bsdf i).f wo wi fl = 0) ∧ (∀ fl, fl.getLsbD 4 = false → (r.bsdf i).nComponents fl = 0) := by
  have hc : ∀ c ∈ r.comps, (∃ R fr, c = .refl R fr) ∨ (∃ T a b, c = .trans T a b) := by
    rcases hm with ⟨Kr, bm, rfl⟩ | ⟨Kr, Kt, ix, bm, rfl⟩
    · simp only [Material.getBsdf, Option.bind_eq_some_iff, Option.some.injEq] at hr
      obtain ⟨g, -, rfl⟩ := hr
      intro c hc
      split_ifs at hc <;> simp only [List.mem_singleton, List.not_mem_nil] at hc; subst hc; exact Or.inl ⟨_, _, rfl⟩
    · simp only [Material.getBsdf, Option.bind_eq_some_iff, Option.some.injEq] at hr
      obtain ⟨g, -, rfl⟩ := hr
      intro c hc
      rw [List.mem_append] at hc
      rcases hc with hc | hc <;> split_ifs at hc <;> simp only [List.mem_singleton, List.not_mem_nil] at hc <;> subst hc
      · exact Or.inl ⟨_, _, rfl⟩
      · exact Or.inr ⟨_, _, _, rfl⟩
  constructor
  · intro wo wi fl
    rw [C45_f]
    apply List.sum_eq_zero
    intro x hx
    rw [List.mem_map] at hx
    obtain ⟨d, hd, rfl⟩ := hx
    have hd := List.mem_of_mem_filter (List.mem_of_mem_filter hd)
    rw [made_bdfs, List.mem_map] at hd
    obtain ⟨c, hcm, rfl⟩ := hd
    rcases hc c hcm with ⟨R, fr, rfl⟩ | ⟨T, a, b, rfl⟩ <;> rfl
  · intro fl hf
    rw [C45_count, List.length_eq_zero_iff, matching, List.filter_eq_nil_iff]
    intro d hd
    rw [made_bdfs, List.mem_map] at hd
    obtain ⟨c, hcm, rfl⟩ := hd
    rw [decide_eq_true_iff]
    intro hcon
    have := hcon 4 (by norm_num)
    rw [hf] at this
    rcases hc c hcm with ⟨R, fr, rfl⟩ | ⟨T, a, b, rfl⟩
    · exact absurd (this (by simp only [Comp.bdf, specularReflection]; decide)) (by decide)
    · exact absurd (this (by simp only [Comp.bdf, specularTransmission]; decide)) (by decide)

example : (∃ r, (Material.mirror (fun _ _ => 1) none).getBsdf exGeom exGeom = some r) ∧ (REFLECTION ||| DIFFUSE : Flags).getLsbD 4 = false :=
  ⟨⟨_, by simp only [Material.getBsdf, shading, Option.bind_some]; rfl⟩, by decide⟩

/-! ### C132 -/

theorem total_append (a b : List Comp) (i : Fin 3) : total (a ++ b) i = total a i + total b i := by
  simp [total]

theorem total_ite (p : Prop) [Decidable p] (c : Comp) (i : Fin 3) : total (if p then [c] else []) i = if p then c.coef i else 0 := by
  split_ifs <;> simp [total]

/-- **C132** an uber material whose four colours add to at most one, at an opacity between zero and one, passes on at most all light: in every channel the coefficients
of its components add to at most one, whichever of them are left out -/
theorem C132_energy (Kd Ks Kr Kt : STex) (rough : FTex) (op : STex) (eta : FTex) (dgg dgs : DiffGeom) (r : Made)
    (hr : (Material.uber Kd Ks Kr Kt rough op eta none).getBsdf dgg dgs = some r) (i : Fin 3) (h1 : op dgs.copy i ≤ 1)
    (hs : clip (Kd dgs.copy) i + clip (Ks dgs.copy) i + clip (Kr dgs.copy) i + clip (Kt dgs.copy) i ≤ 1) : total r.comps i ≤ 1 := by
  simp only [Material.getBsdf, shading, Option.bind_some, Option.some.injEq] at hr
  subst hr
  simp only [total_append, total_ite, Comp.coef, Pi.mul_apply]
  classical
  set o := clip (op dgs.copy) with ho
  have o0 : 0 ≤ o i := clip_nonneg _ _
  have o1 : o i ≤ 1 := max_le h1 zero_le_one
  have k (s : STex) (p : Prop) [Decidable p] : (if p then o i * clip (s dgs.copy) i else 0) ≤ o i * clip (s dgs.copy) i := by
    split_ifs
    · exact le_rfl
    · exact mul_nonneg o0 (clip_nonneg _ _)
  have k0 : (if ¬ o = (fun _ => 1) then 1 - o i else 0) ≤ 1 - o i := by
    split_ifs with h
    · rw [h]; simp
    · exact le_rfl
  have e1 := k Kd (¬ black (o * clip (Kd dgs.copy)))
  have e2 := k Ks (¬ black (o * clip (Ks dgs.copy)))
  have e3 := k Kr (¬ black (o * clip (Kr dgs.copy)))
  have e4 := k Kt (¬ black (o * clip (Kt dgs.copy)))
  have := mul_le_mul_of_nonneg_left hs o0
  linarith

/-- **C132** a fully opaque uber material has no pass-through component: all its components come from `Kd`, `Ks`, `Kr` and `Kt` -/
theorem C132_opaque (Kd Ks Kr Kt : STex) (rough : FTex) (op : STex) (eta : FTex) (dgg dgs : DiffGeom) (hop : ∀ i, op dgs.copy i = 1) :
    ∃ r, (Material.uber Kd Ks Kr Kt rough op eta none).getBsdf dgg dgs = some r ∧
      (∀ c, c ∈ r.comps ↔ (Visible (Kd dgs.copy) ∧ c = .lambert (clip (Kd dgs.copy))) ∨ (Visible (Ks dgs.copy) ∧ c = .micro (clip (Ks dgs.copy)) (.diel (eta dgs.copy) 1) (1 / rough dgs.copy)) ∨
        (Visible (Kr dgs.copy) ∧ c = .refl (clip (Kr dgs.copy)) (.diel (eta dgs.copy) 1)) ∨ (Visible (Kt dgs.copy) ∧ c = .trans (clip (Kt dgs.copy)) (eta dgs.copy) 1)) := by
  refine ⟨_, by simp only [Material.getBsdf, shading, Option.bind_some]; rfl, fun c => ?_⟩
  have ho : clip (op dgs.copy) = (fun _ => 1) := by funext i; simp [clip, hop]
  have ho' (s : Spec) : (fun _ => 1) * s = s := by funext i; simp
  have hb (t : Spec) : black (clip (op dgs.copy) * clip t) ↔ ¬ Visible t := by rw [ho, ho', black_clip]
  have hm (t : Spec) : clip (op dgs.copy) * t = t := by rw [ho, ho']
  simp only [List.mem_append]
  by_cases a1 : Visible (Kd dgs.copy) <;> by_cases a2 : Visible (Ks dgs.copy) <;> by_cases a3 : Visible (Kr dgs.copy) <;> by_cases a4 : Visible (Kt dgs.copy) <;>
    simp [ho, ho', black_clip, a1, a2, a3, a4, or_assoc]

/-- **C132** a fully transparent uber material lets all light through undeflected and does nothing else -/
theorem C132_transparent (Kd Ks Kr Kt : STex) (rough : FTex) (op : STex) (eta : FTex) (dgg dgs : DiffGeom) (hop : ∀ i, op dgs.copy i ≤ 0) :
    ∃ r, (Material.uber Kd Ks Kr Kt rough op eta none).getBsdf dgg dgs = some r ∧ r.comps = [.trans (fun _ => 1) 1 1] ∧
      ∀ i (wo : V3 ℝ) u1 u2, sqLength wo = 1 → wo.z ≠ 0 → ∃ v, (((Comp.trans (fun _ => 1) 1 1).bdf i).sample wo u1 u2) = ⟨1, some (-wo, v)⟩ ∧ v * |wo.z| = 1 := by
  refine ⟨_, by simp only [Material.getBsdf, shading, Option.bind_some]; rfl, ?_, ?_⟩
  · have ho : clip (op dgs.copy) = 0 := by funext i; simp [clip, hop]
    have hb : black 0 := by intro i; simp [EPS]
    have h1 : ¬ ((0 : Spec) = fun _ => 1) := by intro h; have := congrFun h 0; simp at this
    simp only [ho, zero_mul, hb, not_true_eq_false, if_false, h1, not_false_eq_true, if_true, List.append_nil]
    simp
  · intro i wo u1 u2 hu hz
    have hzz : 0 < wo.z * wo.z := mul_self_pos.2 hz
    have hz1 : wo.z * wo.z ≤ 1 := by unfold sqLength at hu; nlinarith [mul_self_nonneg wo.x, mul_self_nonneg wo.y]
    have hs : sinThetaSq wo = 1 - wo.z * wo.z := sinThetaSq_unit hu
    have hc1 : -1 ≤ wo.z ∧ wo.z ≤ 1 := by constructor <;> nlinarith
    have hF : dielectric 1 1 (cosTheta wo) = 0 := by
      have hcl : clip1 wo.z = wo.z := clip1_of_mem hc1.1 hc1.2
      have hm : max 0 (1 - wo.z * wo.z) = 1 - wo.z * wo.z := max_eq_right (by linarith)
      show dielectric 1 1 wo.z = 0
      simp only [dielectric, hcl, ite_self, div_one, one_mul, hm]
      have hlt : √(1 - wo.z * wo.z) < 1 := by
        rw [Real.sqrt_lt' one_pos]; linarith
      rw [if_neg (not_le.2 hlt), Real.mul_self_sqrt (by linarith)]
      have : max 0 (1 - (1 - wo.z * wo.z)) = wo.z * wo.z := by rw [max_eq_right] <;> [ring; linarith]
      rw [this, Real.sqrt_mul_self_eq_abs]
      simp [frDiel]
    have hst : ¬ ((1 : ℝ) / 1 * (1 / 1) * sinThetaSq wo ≥ 1) := by rw [hs]; norm_num; exact hzz.ne' ∘ (by intro h; nlinarith) 
    have hsq : √(max 0 (1 - (1 : ℝ) / 1 * (1 / 1) * sinThetaSq wo)) = |wo.z| := by
      rw [hs, max_eq_right (by linarith)]
      rw [show 1 - (1 : ℝ) / 1 * (1 / 1) * (1 - wo.z * wo.z) = wo.z * wo.z by ring, Real.sqrt_mul_self_eq_abs]
    have hdir : (if cosTheta wo > 0 then -|wo.z| else |wo.z|) = -wo.z := by
      unfold cosTheta
      split_ifs with h
      · rw [abs_of_pos h]
      · rw [abs_of_nonpos (not_lt.1 h)]
    refine ⟨1 / |wo.z|, ?_, by field_simp⟩
    simp only [Comp.bdf, specularTransmission, ite_self]
    rw [if_neg hst, hsq, hdir, hF]
    have : (⟨1 / 1 * -wo.x, 1 / 1 * -wo.y, -wo.z⟩ : V3 ℝ) = -wo := by ext <;> simp
    rw [this]
    simp [absCosTheta]

example : sqLength (⟨3 / 5, 0, 4 / 5⟩ : V3 ℝ) = 1 := by norm_num [sqLength]

/-! ### C133 -/

/-- **C133 fails**: `get_bsdf` of a mixture raises whenever the BSDF of one of the two materials has a component; it returns a BSDF (with no components)
exactly if both are empty, whatever the mixing texture says -/
theorem C133_mix_false (m1 m2 : Material) (sc : STex) (dgg dgs : DiffGeom) (b1 b2 : Made) (h1 : m1.getBsdf dgg dgs = some b1) (h2 : m2.getBsdf dgg dgs = some b2) :
    (b1.comps ≠ [] ∨ b2.comps ≠ [] → (Material.mix m1 m2 sc).getBsdf dgg dgs = none) ∧
    (∀ r, (Material.mix m1 m2 sc).getBsdf dgg dgs = some r → r.comps = []) := by
  have e : (Material.mix m1 m2 sc).getBsdf dgg dgs = match b1.comps, b2.comps with
      | [], [] => some b1
      | _, _ => none := by
    simp only [Material.getBsdf, h1, h2, Option.bind_some]
  rw [e]
  constructor
  · rintro h
    split
    · rename_i e1 e2; simp [e1, e2] at h
    · rfl
  · intro r h
    split at h
    · rename_i e1 _; cases h; exact e1
    · cases h

/-- a case: mixing two matte materials -/
example : ∃ b1 b2, (Material.matte (fun _ _ => 1) (fun _ => 0) none).getBsdf exGeom exGeom = some b1 ∧ (Material.mirror (fun _ _ => 1) none).getBsdf exGeom exGeom = some b2 ∧ b1.comps ≠ [] := by
  refine ⟨_, _, by simp only [Material.getBsdf, shading, Option.bind_some]; rfl, by simp only [Material.getBsdf, shading, Option.bind_some]; rfl, ?_⟩
  simp

/-! ### C136 -/

/-- **C136 (part)** the subsurface material's BSSRDF carries absorption and reduced scattering scaled by `scale` and the index of refraction, for every point;
materials that are not translucent return `None`.  Missing: the two statements refuted by `C136_subsurface_false`. -/
theorem C136_bssrdf_partial (scale : ℝ) (kr sa ss : STex) (eta : FTex) (bm : Option FTex) (dgg dgs : DiffGeom) :
    (∃ b, (Material.subsurface scale kr sa ss eta bm).getBssrdf dgg dgs = some (some b) ∧ (∀ i, b.sigmaA i = scale * sa dgs i) ∧ (∀ i, b.sigmaPrimeS i = scale * ss dgs i) ∧ b.eta = eta dgs) ∧
    ∀ m : Material, (∀ a b c d e f, m ≠ .subsurface a b c d e f) → (∀ a b c d e, m ≠ .kdSubsurface a b c d e) → m.getBssrdf dgg dgs = some none := by
  refine ⟨⟨_, rfl, fun _ => rfl, fun _ => rfl, rfl⟩, fun m h1 h2 => ?_⟩
  cases m with
  | subsurface a b c d e f => exact absurd rfl (h1 a b c d e f)
  | kdSubsurface a b c d e => exact absurd rfl (h2 a b c d e)
  | _ => rfl

/-- **C136 fails**: the subsurface material's `get_bsdf` raises at every point, and so does `get_bssrdf` of the material given by diffuse reflectance and mean free path -/
theorem C136_subsurface_false (dgg dgs : DiffGeom) : (∀ scale kr sa ss eta bm, (Material.subsurface scale kr sa ss eta bm).getBsdf dgg dgs = none) ∧
    (∀ kd kr mfp eta bm, (Material.kdSubsurface kd kr mfp eta bm).getBssrdf dgg dgs = none) :=
  ⟨fun _ _ _ _ _ _ => rfl, fun _ _ _ _ _ => rfl⟩

end Verif.Mat
