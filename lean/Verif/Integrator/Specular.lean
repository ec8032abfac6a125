import Verif.Geom.DiffGeom
import Verif.Shape.Disk
import Verif.Reflection.Fresnel
import Mathlib.Analysis.SpecialFunctions.Sqrt

/-!
# Specular rays (`specular_reflect`, `specular_transmit`, `pytracer/integrator/utility.py:120-200`): properties C146, C147

The two functions ask the BSDF for a specular direction, build the child ray with its differentials, and hand it to `renderer.li` together with the caller's intersection record, which `renderer.li` overwrites
(`renderer.py:64`, `aggregate/primitive.py:97-103`).  What the BSDF returns and what `renderer.li` computes are parameters here; they are modelled in `Reflection/*` and `Render/Recursion.lean`.
Real arithmetic; a spectrum is a real-valued function of the channel.
-/
namespace Verif.Integrator.Spec
open Verif V3 Xform DiffG Verif.Shape

variable {ι : Type*}

/-- a ray with differentials; `maxt` may be infinite -/
abbrev RayD := RayDiff ℝ (WithTop ℝ)

/-- the fields of an `Intersection` that the two functions read (`aggregate/intersection.py:20-28`) -/
structure Isect where
  dg : DiffGeom
  rEps : ℝ

/-- the fields of a `BSDF` that the two functions read (`bsdf.py:84-86`) -/
structure Surf where
  dgs : DiffGeom
  eta : ℝ

/-- `RayDifferential.from_parent` (`geometry/__init__.py:344-350`) with the constructor (`334-342`) -/
noncomputable def fromParent (o d : V3 ℝ) (r : RayD) (mint : ℝ) : RayD :=
  { o := o, d := d, mint := (mint : WithTop ℝ), maxt := ⊤, depth := r.depth + 1, time := r.time, hasDiff := false, rxO := 0, ryO := 0, rxD := 0, ryD := 0 }

/-- the child ray of `specular_reflect` (`utility.py:124-150`) for the sampled direction `wi` -/
noncomputable def reflectRay (ray : RayD) (b : Surf) (i : Isect) (wi : V3 ℝ) : RayD :=
  let wo := -ray.d
  let p := b.dgs.p
  let n := b.dgs.nn
  let rd := fromParent p wi ray i.rEps
  if ray.hasDiff then
    let dndx := b.dgs.dudx * b.dgs.dndu + b.dgs.dvdx * b.dgs.dndv
    let dndy := b.dgs.dudy * b.dgs.dndu + b.dgs.dvdy * b.dgs.dndv
    let dwodx := -ray.rxD - wo
    let dwody := -ray.ryD - wo
    let dDNdx := dot dwodx n + dot wo dndx
    let dDNdy := dot dwody n + dot wo dndy
    { rd with
      hasDiff := true
      rxO := p + i.dg.dpdx
      ryO := p + i.dg.dpdy
      rxD := wi - dwodx + (2 : ℝ) * (dot wo n * dndx + dDNdx * n)
      ryD := wi - dwody + (2 : ℝ) * (dot wo n * dndy + dDNdy * n) }
  else rd

/-- the ratio of the indices `specular_transmit` takes (`utility.py:174-177`) -/
noncomputable def ratio (b : Surf) (wo : V3 ℝ) : ℝ := if dot wo b.dgs.nn < 0 then 1 / b.eta else b.eta

/-- the child ray of `specular_transmit` (`utility.py:161-195`) for the sampled direction `wi` -/
noncomputable def transmitRay (ray : RayD) (b : Surf) (i : Isect) (wi : V3 ℝ) : RayD :=
  let wo := -ray.d
  let p := b.dgs.p
  let n := b.dgs.nn
  let rd := fromParent p wi ray i.rEps
  if ray.hasDiff then
    let eta := ratio b wo
    let w := -wo
    let dndx := b.dgs.dudx * b.dgs.dndu + b.dgs.dvdx * b.dgs.dndv
    let dndy := b.dgs.dudy * b.dgs.dndu + b.dgs.dvdy * b.dgs.dndv
    let dwodx := -ray.rxD - wo
    let dwody := -ray.ryD - wo
    let dDNdx := dot dwodx n + dot wo dndx
    let dDNdy := dot dwody n + dot wo dndy
    let mu := eta * dot w n - dot wi n
    let dmudx := (eta - eta * eta * dot w n / dot wi n) * dDNdx
    let dmudy := (eta - eta * eta * dot w n / dot wi n) * dDNdy
    { rd with
      hasDiff := true
      rxO := p + i.dg.dpdx
      ryO := p + i.dg.dpdy
      rxD := wi + eta * dwodx - (mu * dndx + dmudx * n)
      ryD := wi + eta * dwody - (mu * dndy + dmudy * n) }
  else rd

/-- what `bsdf.sample_f` returns (`bsdf.py:100-154`), direction and value only where it has them -/
structure Smp (ι : Type*) where
  pdf : ℝ
  wi : V3 ℝ
  f : ι → ℝ

/-- `util.is_black` of a spectrum (`utility/utility.py:119-123`); `1e-5` is `EPS` -/
def black (s : ι → ℝ) : Prop := ∀ c, |s c| < 1e-5

/-- `renderer.li` (`renderer.py:58-75`): the pair it returns and the intersection record as it leaves it -/
abbrev Li (ι : Type*) := RayD → Isect → ((ι → ℝ) × (ι → ℝ)) × Isect

open Classical in
/-- `specular_reflect` (`utility.py:120-155`): the radiance and the intersection record afterwards -/
noncomputable def specularReflect (li : Li ι) (ray : RayD) (b : Surf) (i : Isect) (s : Smp ι) : (ι → ℝ) × Isect :=
  if s.pdf > 0 ∧ ¬ black s.f ∧ |dot s.wi b.dgs.nn| ≠ 0 then
    let r := li (reflectRay ray b i s.wi) i
    (fun c => s.f c * r.1.1 c * |dot s.wi b.dgs.nn| / s.pdf, r.2)
  else (fun _ => 0, i)

open Classical in
/-- `specular_transmit` (`utility.py:158-200`); line 197 takes the second component of what `renderer.li` returns -/
noncomputable def specularTransmit (li : Li ι) (ray : RayD) (b : Surf) (i : Isect) (s : Smp ι) : (ι → ℝ) × Isect :=
  if s.pdf > 0 ∧ ¬ black s.f ∧ |dot s.wi b.dgs.nn| ≠ 0 then
    let r := li (transmitRay ray b i s.wi) i
    (fun c => s.f c * r.1.2 c * |dot s.wi b.dgs.nn| / s.pdf, r.2)
  else (fun _ => 0, i)

/-- the end of `WhittedIntegrator.li` (`whitted.py:53-59`; also `direct.py:99-103`): reflection, then transmission with the same record -/
noncomputable def bounces (li : Li ι) (maxDepth : ℕ) (ray : RayD) (b : Surf) (i : Isect) (sr st : Smp ι) : (ι → ℝ) × Isect :=
  if ray.depth + 1 < maxDepth then
    let r := specularReflect li ray b i sr
    let t := specularTransmit li ray b r.2 st
    (fun c => r.1 c + t.1 c, t.2)
  else (fun _ => 0, i)

/-! ## Specification -/

/-- the mirror image of `wo` about the normal -/
noncomputable def mirror (wo n : V3 ℝ) : V3 ℝ := (2 * dot wo n : ℝ) * n - wo

open Classical in
/-- refraction of the ray direction `w` at a surface with normal `n`, where `eta` is the ratio of the sines: the tangential part is scaled by `eta`, the normal part keeps its side and completes a unit vector -/
noncomputable def refract (eta : ℝ) (w n : V3 ℝ) : V3 ℝ :=
  eta * (w - dot w n * n) + ((if dot w n < 0 then -1 else 1) * √(1 - eta ^ 2 * (1 - (dot w n) ^ 2))) * n

/-- the surroundings of the hit, one pixel step away in `x`: directions towards the viewer and normals along a curve with the differentials of the ray and of the surface as its derivatives -/
def AlongX (ray : RayD) (g : DiffGeom) (wo n : ℝ → V3 ℝ) : Prop :=
  wo 0 = -ray.d ∧ n 0 = g.nn ∧ HasDerivAt3 wo (ray.d - ray.rxD) 0 ∧ HasDerivAt3 n (g.dudx * g.dndu + g.dvdx * g.dndv) 0

/-- the same in `y` -/
def AlongY (ray : RayD) (g : DiffGeom) (wo n : ℝ → V3 ℝ) : Prop :=
  wo 0 = -ray.d ∧ n 0 = g.nn ∧ HasDerivAt3 wo (ray.d - ray.ryD) 0 ∧ HasDerivAt3 n (g.dudy * g.dndu + g.dvdy * g.dndv) 0

/-! ## Derivatives -/

theorem d3_dot {a b : ℝ → V3 ℝ} {a' b' : V3 ℝ} {x : ℝ} (ha : HasDerivAt3 a a' x) (hb : HasDerivAt3 b b' x) :
    HasDerivAt (fun t => dot (a t) (b t)) (dot a' (b x) + dot (a x) b') x := by
  have := ((ha.1.mul hb.1).add (ha.2.1.mul hb.2.1)).add (ha.2.2.mul hb.2.2)
  exact this.congr_deriv (by simp only [dot]; ring)

theorem d3_smul {k : ℝ → ℝ} {a : ℝ → V3 ℝ} {k' : ℝ} {a' : V3 ℝ} {x : ℝ} (hk : HasDerivAt k k' x) (ha : HasDerivAt3 a a' x) :
    HasDerivAt3 (fun t => k t * a t) (k' * a x + k x * a') x :=
  ⟨hk.mul ha.1, hk.mul ha.2.1, hk.mul ha.2.2⟩

theorem d3_sub {a b : ℝ → V3 ℝ} {a' b' : V3 ℝ} {x : ℝ} (ha : HasDerivAt3 a a' x) (hb : HasDerivAt3 b b' x) :
    HasDerivAt3 (fun t => a t - b t) (a' - b') x :=
  ⟨ha.1.sub hb.1, ha.2.1.sub hb.2.1, ha.2.2.sub hb.2.2⟩

theorem d3_add {a b : ℝ → V3 ℝ} {a' b' : V3 ℝ} {x : ℝ} (ha : HasDerivAt3 a a' x) (hb : HasDerivAt3 b b' x) :
    HasDerivAt3 (fun t => a t + b t) (a' + b') x :=
  ⟨ha.1.add hb.1, ha.2.1.add hb.2.1, ha.2.2.add hb.2.2⟩

theorem d3_neg {a : ℝ → V3 ℝ} {a' : V3 ℝ} {x : ℝ} (ha : HasDerivAt3 a a' x) : HasDerivAt3 (fun t => -a t) (-a') x :=
  ⟨ha.1.neg, ha.2.1.neg, ha.2.2.neg⟩

theorem d3_const (a : V3 ℝ) (x : ℝ) : HasDerivAt3 (fun _ => a) 0 x := ⟨hasDerivAt_const _ _, hasDerivAt_const _ _, hasDerivAt_const _ _⟩

theorem mirror_deriv {wo n : ℝ → V3 ℝ} {dw dn : V3 ℝ} (hw : HasDerivAt3 wo dw 0) (hn : HasDerivAt3 n dn 0) :
    HasDerivAt3 (fun x => mirror (wo x) (n x)) ((2 : ℝ) * (dot (wo 0) (n 0) * dn + (dot dw (n 0) + dot (wo 0) dn) * n 0) - dw) 0 := by
  have h := d3_sub (d3_smul ((d3_dot hw hn).const_mul 2) hn) hw
  simp only [mirror]
  convert h using 1
  ext <;> simp <;> ring

/-! ## C146: reflection -/

/-- **C146** the child ray of `specular_reflect` starts at the shading point in the sampled direction, at the minimum distance of the hit, one level deeper, at the same time, unbounded; it has differentials exactly when its
parent has, and its offset origins are the shading point moved by the differentials of the hit point -/
theorem C146_ray (ray : RayD) (b : Surf) (i : Isect) (wi : V3 ℝ) :
    (reflectRay ray b i wi).o = b.dgs.p ∧ (reflectRay ray b i wi).d = wi ∧ (reflectRay ray b i wi).mint = (i.rEps : WithTop ℝ) ∧ (reflectRay ray b i wi).maxt = ⊤ ∧
    (reflectRay ray b i wi).depth = ray.depth + 1 ∧ (reflectRay ray b i wi).time = ray.time ∧ (reflectRay ray b i wi).hasDiff = ray.hasDiff ∧
    (ray.hasDiff = true → (reflectRay ray b i wi).rxO = b.dgs.p + i.dg.dpdx ∧ (reflectRay ray b i wi).ryO = b.dgs.p + i.dg.dpdy) := by
  cases h : ray.hasDiff <;> simp [reflectRay, fromParent, h]

/-- **C146 (part)** the offset directions of a mirror ray are right to first order: along every curve of viewer directions and normals whose derivatives are the differentials of the parent ray and of the shading normal, the
mirror image of the viewer direction changes at the rate by which the offset directions differ from the direction.  Missing: the shading geometry that materials use never has differentials of its own, so the normal's part is
lost (`C146_curved_false`). -/
theorem C146_directions_partial (ray : RayD) (b : Surf) (i : Isect) (hd : ray.hasDiff = true) (wo n : ℝ → V3 ℝ) :
    let r := reflectRay ray b i (mirror (-ray.d) b.dgs.nn)
    (AlongX ray b.dgs wo n → mirror (wo 0) (n 0) = r.d ∧ HasDerivAt3 (fun x => mirror (wo x) (n x)) (r.rxD - r.d) 0) ∧
    (AlongY ray b.dgs wo n → mirror (wo 0) (n 0) = r.d ∧ HasDerivAt3 (fun x => mirror (wo x) (n x)) (r.ryD - r.d) 0) := by
  refine ⟨fun ⟨h1, h2, h3, h4⟩ => ?_, fun ⟨h1, h2, h3, h4⟩ => ?_⟩
  all_goals
    refine ⟨by simp [h1, h2, reflectRay, hd, fromParent], ?_⟩
    have h := mirror_deriv h3 h4
    rw [h1, h2] at h
    convert h using 1
    simp only [reflectRay, hd, if_true, fromParent]
    ext <;> simp [dot] <;> ring

/-- **C146 (part)** for a flat mirror (the normal does not change along the surface) with any material: the bsdf's geometry is a copy (`material.py`), and the offset directions are the mirror images of the parent's offset
directions, exactly -/
theorem C146_flat_partial (ray : RayD) (g : DiffGeom) (eta : ℝ) (i : Isect) (hd : ray.hasDiff = true) :
    let r := reflectRay ray ⟨g.copy, eta⟩ i (mirror (-ray.d) g.copy.nn)
    r.rxD = mirror (-ray.rxD) g.copy.nn ∧ r.ryD = mirror (-ray.ryD) g.copy.nn := by
  have e1 : g.copy.dudx = 0 := rfl
  have e2 : g.copy.dvdx = 0 := rfl
  have e3 : g.copy.dudy = 0 := rfl
  have e4 : g.copy.dvdy = 0 := rfl
  simp only [reflectRay, hd, if_true, fromParent, e1, e2, e3, e4, mirror]
  constructor <;> ext <;> simp [dot] <;> ring

/-- a geometry on a surface curved along `u`, with the differentials of a pixel -/
noncomputable def curved : DiffGeom :=
  { DiffGeom.init 0 ⟨1, 0, 0⟩ ⟨0, 1, 0⟩ ⟨1, 0, 0⟩ ⟨0, 0, 0⟩ 0 0 false with dudx := 1, dpdx := ⟨1, 0, 0⟩ }

/-- the ray that meets it straight on, with parallel offset rays (an orthographic camera) -/
noncomputable def straight : RayD :=
  { o := ⟨0, 0, 1⟩, d := ⟨0, 0, -1⟩, mint := 0, maxt := ⊤, depth := 0, time := 0, hasDiff := true, rxO := ⟨1, 0, 1⟩, ryO := ⟨0, 1, 1⟩, rxD := ⟨0, 0, -1⟩, ryD := ⟨0, 0, -1⟩ }

theorem init_nn : (DiffGeom.init 0 ⟨1, 0, 0⟩ ⟨0, 1, 0⟩ ⟨1, 0, 0⟩ ⟨0, 0, 0⟩ 0 0 false : DiffGeom).nn = ⟨0, 0, 1⟩ := by
  simp [DiffGeom.init, cross, Geom.normalize, Geom.length, sqLength]

theorem curved_nn : curved.nn = ⟨0, 0, 1⟩ := init_nn
theorem curved_copy_nn : curved.copy.nn = ⟨0, 0, 1⟩ := init_nn

/-- **C146 fails** for curved mirrors: the normal turns by `(1, 0, 0)` per pixel, so the mirror image turns by `(2, 0, 0)`; but the bsdf of any material holds a copy of the geometry, which has lost its differentials
(`C127_copy_false`), and the offset direction equals the direction -/
theorem C146_curved_false : ∃ (ray : RayD) (g : DiffGeom), ray.hasDiff = true ∧
    (∃ wo n, AlongX ray g wo n ∧ HasDerivAt3 (fun x => mirror (wo x) (n x)) ⟨2, 0, 0⟩ 0) ∧
    (reflectRay ray ⟨g, 1⟩ ⟨g, 0⟩ (mirror (-ray.d) g.nn)).rxD - mirror (-ray.d) g.nn = ⟨2, 0, 0⟩ ∧
    (reflectRay ray ⟨g.copy, 1⟩ ⟨g, 0⟩ (mirror (-ray.d) g.copy.nn)).rxD - mirror (-ray.d) g.nn = 0 := by
  have hn : HasDerivAt3 (fun x : ℝ => (⟨x, 0, 1⟩ : V3 ℝ)) ⟨1, 0, 0⟩ 0 := ⟨hasDerivAt_id _, hasDerivAt_const _ _, hasDerivAt_const _ _⟩
  have ha : AlongX straight curved (fun _ => ⟨0, 0, 1⟩) (fun x => ⟨x, 0, 1⟩) := by
    refine ⟨by simp only [straight]; ext <;> simp, by rw [curved_nn], ?_, ?_⟩
    · convert d3_const _ _ using 1
      simp only [straight]; ext <;> simp
    · convert hn using 1
      simp only [curved, DiffGeom.init]; ext <;> simp
  refine ⟨straight, curved, rfl, ⟨_, _, ha, ?_⟩, ?_, ?_⟩
  · have h := mirror_deriv ha.2.2.1 hn
    convert h using 1
    simp only [straight]; ext <;> simp [dot]
  · have e1 : curved.dudx = 1 := rfl
    have e2 : curved.dvdx = 0 := rfl
    have e3 : curved.dndu = ⟨1, 0, 0⟩ := rfl
    have e4 : curved.dndv = ⟨0, 0, 0⟩ := rfl
    simp only [reflectRay, curved_nn, mirror, e1, e2, e3, e4]
    ext <;> simp [straight, dot, fromParent]
  · rw [(C146_flat_partial straight curved 1 ⟨curved, 0⟩ rfl).1, curved_copy_nn, curved_nn]
    ext <;> simp [straight, mirror, dot]

/-- the hypotheses of `C146_directions_partial` are met by a moving viewer direction and a turning normal -/
example : ∃ (ray : RayD) (b : Surf) (wo n : ℝ → V3 ℝ), ray.hasDiff = true ∧ AlongX ray b.dgs wo n ∧ ray.rxD ≠ ray.d := by
  refine ⟨{ straight with rxD := ⟨1, 0, -1⟩ }, ⟨curved, 1⟩, fun x => ⟨-x, 0, 1⟩, fun x => ⟨x, 0, 1⟩, rfl, ⟨?_, ?_, ?_, ?_⟩, ?_⟩
  · simp only [straight]; ext <;> simp
  · rw [curved_nn]
  · exact ⟨(hasDerivAt_id (0 : ℝ)).neg.congr_deriv (by simp [straight]), (hasDerivAt_const (0 : ℝ) (0 : ℝ)).congr_deriv (by simp [straight]),
      (hasDerivAt_const (0 : ℝ) (1 : ℝ)).congr_deriv (by simp [straight])⟩
  · exact ⟨(hasDerivAt_id (0 : ℝ)).congr_deriv (by simp [curved, DiffGeom.init]), (hasDerivAt_const (0 : ℝ) (0 : ℝ)).congr_deriv (by simp [curved, DiffGeom.init]),
      (hasDerivAt_const (0 : ℝ) (1 : ℝ)).congr_deriv (by simp [curved, DiffGeom.init])⟩
  · simp [straight]

/-! ## C147: transmission -/

theorem refract_deriv {eta : ℝ} {w n : ℝ → V3 ℝ} {dw dn : V3 ℝ} (hw : HasDerivAt3 w dw 0) (hn : HasDerivAt3 n dn 0) (hc : dot (w 0) (n 0) ≠ 0) (hs : 0 < 1 - eta ^ 2 * (1 - dot (w 0) (n 0) ^ 2)) :
    let c := dot (w 0) (n 0)
    let dc := dot dw (n 0) + dot (w 0) dn
    let ct := (if c < 0 then -1 else 1) * √(1 - eta ^ 2 * (1 - c ^ 2))
    HasDerivAt3 (fun x => refract eta (w x) (n x)) (eta * dw - ((eta * c - ct) * dn + ((eta - eta ^ 2 * c / ct) * dc) * n 0)) 0 := by
  intro c dc ct
  have hd : HasDerivAt (fun x => dot (w x) (n x)) dc 0 := d3_dot hw hn
  set σ : ℝ := if c < 0 then -1 else 1 with hσ
  have hσ2 : σ * σ = 1 := by rw [hσ]; split_ifs <;> norm_num
  -- near 0 the side does not change
  have hside : ∀ᶠ x in nhds (0 : ℝ), (if dot (w x) (n x) < 0 then (-1 : ℝ) else 1) = σ := by
    rcases lt_or_gt_of_ne hc with h | h
    · filter_upwards [hd.continuousAt.eventually (eventually_lt_nhds h)] with x hx
      rw [if_pos hx, hσ, if_pos h]
    · filter_upwards [hd.continuousAt.eventually (eventually_gt_nhds h)] with x hx
      rw [if_neg (not_lt.2 hx.le), hσ, if_neg (not_lt.2 h.le)]
  have hr : HasDerivAt (fun x => 1 - eta ^ 2 * (1 - dot (w x) (n x) ^ 2)) (eta ^ 2 * (2 * c * dc)) 0 := by
    exact (((hd.pow 2).const_sub 1).const_mul (eta ^ 2)).const_sub 1 |>.congr_deriv (by simp only [c]; ring)
  have hq := hr.sqrt hs.ne'
  have hqpos : 0 < √(1 - eta ^ 2 * (1 - c ^ 2)) := Real.sqrt_pos.2 hs
  have hmain : HasDerivAt3 (fun x => eta * (w x - dot (w x) (n x) * n x) + (σ * √(1 - eta ^ 2 * (1 - dot (w x) (n x) ^ 2))) * n x)
      (eta * dw - ((eta * c - ct) * dn + ((eta - eta ^ 2 * c / ct) * dc) * n 0)) 0 := by
    have h1 := d3_smul (hasDerivAt_const (0 : ℝ) eta) (d3_sub hw (d3_smul hd hn))
    have h2 := d3_smul (hq.const_mul σ) hn
    convert d3_add h1 h2 using 1
    have hct : ct = σ * √(1 - eta ^ 2 * (1 - c ^ 2)) := rfl
    have hk : eta ^ 2 * c / ct * dc = σ * (eta ^ 2 * (2 * c * dc) / (2 * √(1 - eta ^ 2 * (1 - c ^ 2)))) := by
      rw [hct]
      have hσ0 : σ ≠ 0 := fun h => by rw [h] at hσ2; norm_num at hσ2
      field_simp
      rw [pow_two σ, hσ2, mul_one]
    rw [hct] at *
    ext
    · simp; linear_combination (n 0).x * hk
    · simp; linear_combination (n 0).y * hk
    · simp; linear_combination (n 0).z * hk
  refine ⟨hmain.1.congr_of_eventuallyEq ?_, hmain.2.1.congr_of_eventuallyEq ?_, hmain.2.2.congr_of_eventuallyEq ?_⟩
  all_goals
    filter_upwards [hside] with x hx
    simp only [refract, hx]

theorem dot_refract (eta : ℝ) (w n : V3 ℝ) (hn : sqLength n = 1) : dot (refract eta w n) n = (if dot w n < 0 then -1 else 1) * √(1 - eta ^ 2 * (1 - dot w n ^ 2)) := by
  have h : n.x * n.x + n.y * n.y + n.z * n.z = 1 := hn
  have e : dot (refract eta w n) n = eta * (dot w n - dot w n * (n.x * n.x + n.y * n.y + n.z * n.z)) +
      ((if dot w n < 0 then -1 else 1) * √(1 - eta ^ 2 * (1 - dot w n ^ 2))) * (n.x * n.x + n.y * n.y + n.z * n.z) := by
    simp only [refract]
    generalize ((if dot w n < 0 then (-1 : ℝ) else 1) * √(1 - eta ^ 2 * (1 - dot w n ^ 2))) = k
    simp only [dot, add_x, add_y, add_z, smul_x, smul_y, smul_z, sub_x, sub_y, sub_z]
    ring
  rw [e, h]; ring

/-- refraction gives a unit vector on the other side of the surface (that is, on the side of `w`), and the tangential part is `eta` times that of `w` -/
theorem refract_spec (eta : ℝ) (w n : V3 ℝ) (hn : sqLength n = 1) (hw : sqLength w = 1) (hs : 0 < 1 - eta ^ 2 * (1 - dot w n ^ 2)) (hc : dot w n ≠ 0) :
    sqLength (refract eta w n) = 1 ∧ 0 < dot (refract eta w n) n * dot w n ∧ refract eta w n - dot (refract eta w n) n * n = eta * (w - dot w n * n) := by
  have hq := Real.sqrt_pos.2 hs
  have hqq := Real.sq_sqrt hs.le
  have h : n.x * n.x + n.y * n.y + n.z * n.z = 1 := hn
  have h' : w.x * w.x + w.y * w.y + w.z * w.z = 1 := hw
  refine ⟨?_, ?_, ?_⟩
  · have hσ : (if dot w n < 0 then (-1 : ℝ) else 1) ^ 2 = 1 := by split_ifs <;> norm_num
    simp only [refract, sqLength, add_x, add_y, add_z, smul_x, smul_y, smul_z, sub_x, sub_y, sub_z]
    have hd : w.x * n.x + w.y * n.y + w.z * n.z = dot w n := rfl
    generalize (if dot w n < 0 then (-1 : ℝ) else 1) = σ at *
    generalize √(1 - eta ^ 2 * (1 - dot w n ^ 2)) = q at *
    generalize dot w n = c at *
    linear_combination (eta ^ 2) * h' + (eta ^ 2 * c ^ 2 - 2 * eta * σ * q * c + σ ^ 2 * q ^ 2) * h + (-2 * eta ^ 2 * c + 2 * eta * σ * q) * hd + σ ^ 2 * hqq + (1 - eta ^ 2 * (1 - c ^ 2)) * hσ
  · rw [dot_refract _ _ _ hn]
    split_ifs with hlt
    · nlinarith
    · have : 0 < dot w n := lt_of_le_of_ne (not_lt.1 hlt) (Ne.symm hc)
      nlinarith
  · rw [dot_refract _ _ _ hn]
    simp only [refract]
    ext <;> simp

/-- **C147** the child ray of `specular_transmit` starts at the shading point in the sampled direction, at the minimum distance of the record it is given, one level deeper, at the same time, unbounded; it has differentials
exactly when its parent has, and its offset origins are the shading point moved by the differentials in the record -/
theorem C147_ray (ray : RayD) (b : Surf) (i : Isect) (wi : V3 ℝ) :
    (transmitRay ray b i wi).o = b.dgs.p ∧ (transmitRay ray b i wi).d = wi ∧ (transmitRay ray b i wi).mint = (i.rEps : WithTop ℝ) ∧ (transmitRay ray b i wi).maxt = ⊤ ∧
    (transmitRay ray b i wi).depth = ray.depth + 1 ∧ (transmitRay ray b i wi).time = ray.time ∧ (transmitRay ray b i wi).hasDiff = ray.hasDiff ∧
    (ray.hasDiff = true → (transmitRay ray b i wi).rxO = b.dgs.p + i.dg.dpdx ∧ (transmitRay ray b i wi).ryO = b.dgs.p + i.dg.dpdy) := by
  cases h : ray.hasDiff <;> simp [transmitRay, fromParent, h]

open Classical in
theorem ratio_eq (ray : RayD) (b : Surf) (hc : dot ray.d b.dgs.nn ≠ 0) : ratio b (-ray.d) = if dot ray.d b.dgs.nn < 0 then b.eta else 1 / b.eta := by
  have e : dot (-ray.d) b.dgs.nn = -dot ray.d b.dgs.nn := by simp only [dot, V3.neg_x, V3.neg_y, V3.neg_z]; ring
  simp only [ratio, e, Left.neg_neg_iff]
  rcases lt_or_gt_of_ne hc with h | h
  · rw [if_neg (not_lt.2 h.le), if_pos h]
  · rw [if_pos h, if_neg (not_lt.2 h.le)]

/-- **C147** the refracted direction of the theorems below is the one that is traced: the direction sampled by the transmission of glass (`GlassMaterial`, index `ior` inside and 1 outside, which is also the index of its bsdf) is, in
the frame of the surface, the refraction of the ray with the ratio `ior` where the ray comes from the side of the normal and `1 / ior` where it comes from the other side -/
theorem C147_sampled (T ior : ℝ) (wo : V3 ℝ) (u1 u2 : ℝ) (hu : sqLength wo = 1) (hz : wo.z ≠ 0)
    (hs : 0 < 1 - (if dot (-wo) Refl.up < 0 then ior else 1 / ior) ^ 2 * (1 - dot (-wo) Refl.up ^ 2)) :
    ∃ v, (Refl.specularTransmission T 1 ior).sample wo u1 u2 = ⟨1, some (refract (if dot (-wo) Refl.up < 0 then ior else 1 / ior) (-wo) Refl.up, v)⟩ := by
  have e : dot (-wo) Refl.up = -wo.z := by simp [dot, Refl.up]
  rw [e] at hs ⊢
  simp only [Left.neg_neg_iff] at hs ⊢
  simp only [Refl.specularTransmission, Refl.cosTheta, Refl.sinThetaSq_unit hu, refract, e, Left.neg_neg_iff]
  rcases lt_or_gt_of_ne hz with h | h
  · simp only [gt_iff_lt, not_lt.2 h.le, if_false] at hs ⊢
    rw [if_neg (by nlinarith)]
    rw [max_eq_right (by nlinarith)]
    generalize hw : (⟨_, _, _⟩ : V3 ℝ) = W
    refine ⟨_, congrArg (fun w => (⟨1, some (w, _)⟩ : Bsdf.Smp ℝ)) ?_⟩
    rw [← hw]
    ext <;> simp [Refl.up]
    ring_nf
  · simp only [gt_iff_lt, h, if_true] at hs ⊢
    rw [if_neg (by rw [div_one]; nlinarith)]
    rw [max_eq_right (by rw [div_one]; nlinarith)]
    generalize hw : (⟨_, _, _⟩ : V3 ℝ) = W
    refine ⟨_, congrArg (fun w => (⟨1, some (w, _)⟩ : Bsdf.Smp ℝ)) ?_⟩
    rw [← hw]
    ext <;> simp [Refl.up]
    ring_nf

open Classical in
/-- **C147 (part)** along every curve of viewer directions and normals with the right derivatives, the refracted direction changes at a rate of which the program's offset is the exact negative, up to the term with the change of
the normal (zero on flat surfaces, and always zero for the copies materials make): the size of the footprint is right there.  Missing: the sign (`C147_direction_false`) and the normal's term. -/
theorem C147_directions_partial (ray : RayD) (b : Surf) (i : Isect) (hd : ray.hasDiff = true) (hn : sqLength b.dgs.nn = 1) (hc : dot ray.d b.dgs.nn ≠ 0)
    (hs : 0 < 1 - (if dot ray.d b.dgs.nn < 0 then b.eta else 1 / b.eta) ^ 2 * (1 - dot ray.d b.dgs.nn ^ 2)) (wo n : ℝ → V3 ℝ) :
    let eta := if dot ray.d b.dgs.nn < 0 then b.eta else 1 / b.eta
    let wi := refract eta ray.d b.dgs.nn
    let mu := eta * dot ray.d b.dgs.nn - dot wi b.dgs.nn
    let r := transmitRay ray b i wi
    (AlongX ray b.dgs wo n → HasDerivAt3 (fun x => refract eta (-(wo x)) (n x)) (-((r.rxD - r.d) + (2 * mu) * (b.dgs.dudx * b.dgs.dndu + b.dgs.dvdx * b.dgs.dndv))) 0) ∧
    (AlongY ray b.dgs wo n → HasDerivAt3 (fun x => refract eta (-(wo x)) (n x)) (-((r.ryD - r.d) + (2 * mu) * (b.dgs.dudy * b.dgs.dndu + b.dgs.dvdy * b.dgs.dndv))) 0) := by
  intro eta wi mu r
  have hnn : -(-ray.d) = ray.d := by ext <;> simp
  refine ⟨fun ⟨h1, h2, h3, h4⟩ => ?_, fun ⟨h1, h2, h3, h4⟩ => ?_⟩
  all_goals
    have h := refract_deriv (eta := eta) (d3_neg h3) h4 (by rw [h1, h2, hnn]; exact hc) (by rw [h1, h2, hnn]; exact hs)
    simp only [h1, h2, hnn, ← dot_refract eta ray.d b.dgs.nn hn] at h
    have hwi : dot wi b.dgs.nn = dot (refract eta ray.d b.dgs.nn) b.dgs.nn := rfl
    convert h using 1
    simp only [r, mu, transmitRay, hd, if_true, fromParent, hnn]
    rw [hwi]
    generalize dot (refract eta ray.d b.dgs.nn) b.dgs.nn = ct
    have he : ratio b (-ray.d) = eta := ratio_eq ray b hc
    rw [he]
    generalize wi = W
    ext <;> simp [dot] <;> ring

/-- directions and an index `C147_sampled` applies to: a ray that leans by 3/5 meets glass of index 3/2 from the side of the normal -/
example : sqLength (⟨3 / 5, 0, 4 / 5⟩ : V3 ℝ) = 1 ∧ (0 : ℝ) < 1 - (3 / 2) ^ 2 * (1 - (4 / 5) ^ 2) := by
  constructor
  · simp only [sqLength]; norm_num
  · norm_num

/-- **C147 fails**: a camera ray that leans to `+x` by one per pixel meets a flat pane of equal indices straight on; the refracted direction leans to `+x` too, the offset direction of the child ray leans to `-x` -/
theorem C147_direction_false : ∃ (ray : RayD) (b : Surf) (wo n : ℝ → V3 ℝ) (i : Isect), ray.hasDiff = true ∧ b.eta = 1 ∧ AlongX ray b.dgs wo n ∧
    refract 1 ray.d b.dgs.nn = ray.d ∧ HasDerivAt3 (fun x => refract 1 (-(wo x)) (n x)) ⟨1, 0, 0⟩ 0 ∧
    (transmitRay ray b i ray.d).rxD - (transmitRay ray b i ray.d).d = ⟨-1, 0, 0⟩ := by
  have hc : (DiffGeom.init 0 ⟨1, 0, 0⟩ ⟨0, 1, 0⟩ 0 0 0 0 false : DiffGeom).nn = ⟨0, 0, 1⟩ := by
    simp [DiffGeom.init, cross, Geom.normalize, Geom.length, sqLength]
  set g : DiffGeom := .init 0 ⟨1, 0, 0⟩ ⟨0, 1, 0⟩ 0 0 0 0 false with hg
  set ray : RayD := { straight with rxD := ⟨1, 0, -1⟩ } with hr
  have hrd : ray.d = ⟨0, 0, -1⟩ := rfl
  have hrx : ray.rxD = ⟨1, 0, -1⟩ := rfl
  have e1 : g.dudx = 0 := rfl
  have e2 : g.dvdx = 0 := rfl
  have e3 : g.dndu = 0 := rfl
  have e4 : g.dndv = 0 := rfl
  have ha : AlongX ray (⟨g, 1⟩ : Surf).dgs (fun x => ⟨-x, 0, 1⟩) (fun _ => ⟨0, 0, 1⟩) := by
    refine ⟨by simp only [hrd]; ext <;> simp, hc.symm, ?_, ?_⟩
    · rw [hrd, hrx]
      exact ⟨(hasDerivAt_id (0 : ℝ)).neg.congr_deriv (by simp), (hasDerivAt_const (0 : ℝ) (0 : ℝ)).congr_deriv (by simp), (hasDerivAt_const (0 : ℝ) (1 : ℝ)).congr_deriv (by simp)⟩
    · simp only [e1, e2, e3, e4]
      convert d3_const _ _ using 1
      ext <;> simp
  have hw : refract 1 ray.d g.nn = ray.d := by
    rw [hc, hrd]; ext <;> simp [refract, dot]
  have hrat : ratio ⟨g, 1⟩ (-ray.d) = 1 := by simp [ratio]
  have hoff : (transmitRay ray ⟨g, 1⟩ ⟨g, 0⟩ ray.d).rxD - (transmitRay ray ⟨g, 1⟩ ⟨g, 0⟩ ray.d).d = ⟨-1, 0, 0⟩ := by
    have hh : ray.hasDiff = true := rfl
    simp only [transmitRay, hh, if_true, fromParent, hrat, e1, e2, e3, e4, hc]
    rw [hrd, hrx]
    ext <;> simp [dot]
  refine ⟨ray, ⟨g, 1⟩, _, _, ⟨g, 0⟩, rfl, rfl, ha, hw, ?_, hoff⟩
  have h := (C147_directions_partial ray ⟨g, 1⟩ ⟨g, 0⟩ rfl (by simp only [hc]; simp [sqLength]) (by simp only [hc, hrd]; simp [dot]) (by simp only [hc, hrd]; simp [dot]) _ _).1 ha
  simp only [div_one, ite_self] at h
  rw [hw, hoff] at h
  simp only [e1, e2, e3, e4] at h
  convert h using 1
  ext <;> simp

/-! ## C148: both rays leave from the hit -/

open Classical in
/-- specification: the contribution of one specular ray, made from the record `i` of the hit -/
noncomputable def contrib (s : Smp ι) (n : V3 ℝ) (L : ι → ℝ) (c : ι) : ℝ :=
  if s.pdf > 0 ∧ ¬ black s.f ∧ dot s.wi n ≠ 0 then s.f c * L c * |dot s.wi n| / s.pdf else 0

/-- the reflection is traced -/
def Traced (b : Surf) (s : Smp ι) : Prop := s.pdf > 0 ∧ ¬ black s.f ∧ dot s.wi b.dgs.nn ≠ 0

/-- **C148** the reflected light is the bsdf value times the radiance along the mirror ray times the cosine over the density, and nothing where the bsdf offers no direction; the mirror ray is made from the record of the hit -/
theorem C148_reflection (li : Li ι) (ray : RayD) (b : Surf) (i : Isect) (s : Smp ι) :
    (specularReflect li ray b i s).1 = contrib s b.dgs.nn (li (reflectRay ray b i s.wi) i).1.1 := by
  funext c
  by_cases h : s.pdf > 0 ∧ ¬ black s.f ∧ dot s.wi b.dgs.nn ≠ 0
  · simp only [specularReflect, contrib]; rw [if_pos h, if_pos ⟨h.1, h.2.1, abs_ne_zero.2 h.2.2⟩]
  · simp only [specularReflect, contrib, abs_ne_zero, h, if_false]

/-- **C148 (part)** when no reflection is traced at the hit, or when tracing it leaves the record alone, and the bounces are within the depth limit, the light of the two specular rays is the sum of the two contributions, both
made from the record of the hit — except that the second takes the second output of `renderer.li`.  Missing: the record is overwritten when the reflected ray hits something (`C148_record_false`), and the second output is the
transmittance, not the radiance (`C70_transmission_lost_false`). -/
theorem C148_both_partial (li : Li ι) (maxDepth : ℕ) (ray : RayD) (b : Surf) (i : Isect) (sr st : Smp ι) (hd : ray.depth + 1 < maxDepth)
    (h : ¬ Traced b sr ∨ (li (reflectRay ray b i sr.wi) i).2 = i) (c : ι) :
    (bounces li maxDepth ray b i sr st).1 c =
      contrib sr b.dgs.nn (li (reflectRay ray b i sr.wi) i).1.1 c + contrib st b.dgs.nn (li (transmitRay ray b i st.wi) i).1.2 c := by
  have hrec : (specularReflect li ray b i sr).2 = i := by
    by_cases ht : sr.pdf > 0 ∧ ¬ black sr.f ∧ |dot sr.wi b.dgs.nn| ≠ 0
    · simp only [specularReflect]
      rw [if_pos ht]
      rcases h with h | h
      · exact absurd ⟨ht.1, ht.2.1, abs_ne_zero.1 ht.2.2⟩ h
      · exact h
    · simp only [specularReflect]
      rw [if_neg ht]
  simp only [bounces, hd, if_true, C148_reflection, hrec]
  congr 1
  by_cases h : st.pdf > 0 ∧ ¬ black st.f ∧ dot st.wi b.dgs.nn ≠ 0
  · simp only [specularTransmit, contrib]; rw [if_pos h, if_pos ⟨h.1, h.2.1, abs_ne_zero.2 h.2.2⟩]
  · simp only [specularTransmit, contrib, abs_ne_zero, h, if_false]

/-- **C148** beyond the depth limit neither ray is traced -/
theorem C148_limit (li : Li ι) (maxDepth : ℕ) (ray : RayD) (b : Surf) (i : Isect) (sr st : Smp ι) (hd : maxDepth ≤ ray.depth + 1) :
    bounces li maxDepth ray b i sr st = (fun _ => 0, i) := by
  simp only [bounces, not_lt.2 hd, if_false]

/-- **C148 fails**: whatever record the reflected ray leaves behind (`scene.intersect` writes the new hit into the object it is given), the refracted ray of the first hit starts at that record's minimum distance, and its offset
origins are moved by that record's differentials -/
theorem C148_record_false (ray : RayD) (b : Surf) (i j : Isect) (sr st : Smp ι) (hd : ray.hasDiff = true) (hr : Traced b sr) (ht : Traced b st) (L : RayD → (ι → ℝ) × (ι → ℝ)) (maxDepth : ℕ) (h : ray.depth + 1 < maxDepth) :
    let li : Li ι := fun r _ => (L r, j)
    ∃ r : RayD, (∀ c, (bounces li maxDepth ray b i sr st).1 c = contrib sr b.dgs.nn (L (reflectRay ray b i sr.wi)).1 c + contrib st b.dgs.nn (L r).2 c) ∧
      r.o = b.dgs.p ∧ r.d = st.wi ∧ r.mint = (j.rEps : WithTop ℝ) ∧ r.rxO = b.dgs.p + j.dg.dpdx ∧ r.ryO = b.dgs.p + j.dg.dpdy := by
  intro li
  have hr' : sr.pdf > 0 ∧ ¬ black sr.f ∧ |dot sr.wi b.dgs.nn| ≠ 0 := ⟨hr.1, hr.2.1, abs_ne_zero.2 hr.2.2⟩
  have ht' : st.pdf > 0 ∧ ¬ black st.f ∧ |dot st.wi b.dgs.nn| ≠ 0 := ⟨ht.1, ht.2.1, abs_ne_zero.2 ht.2.2⟩
  obtain ⟨h1, h2, h3, -, -, -, -, h4⟩ := C147_ray ray b j st.wi
  refine ⟨transmitRay ray b j st.wi, fun c => ?_, h1, h2, h3, (h4 hd).1, (h4 hd).2⟩
  simp only [bounces, h, if_true, specularReflect, specularTransmit, contrib]
  rw [if_pos hr', if_pos ht', if_pos (show _ ∧ _ ∧ _ from hr), if_pos (show _ ∧ _ ∧ _ from ht)]

/-- both rays can be traced at one hit (glass) -/
example : Traced (⟨curved, 1⟩ : Surf) (⟨1, ⟨0, 0, 1⟩, fun _ => 1⟩ : Smp (Fin 3)) ∧ Traced (⟨curved, 1⟩ : Surf) (⟨1, ⟨0, 0, -1⟩, fun _ => 1⟩ : Smp (Fin 3)) := by
  refine ⟨⟨by norm_num, fun h => ?_, ?_⟩, ⟨by norm_num, fun h => ?_, ?_⟩⟩
  · have := h 0; norm_num at this
  · simp only [curved_nn]; simp [dot]
  · have := h 0; norm_num at this
  · simp only [curved_nn]; simp [dot]

end Verif.Integrator.Spec
