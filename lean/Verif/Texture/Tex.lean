import Verif.Geom.Props
import Verif.Xform.Props
import Verif.Texture.MipMap
import Mathlib.Analysis.Convex.Basic

/-!
# Texture mappings and textures (C118, C119, C120)

Models `pytracer/texture/texturemap/__init__.py`, `pytracer/texture/texture/__init__.py` and the cache and conversion of
`pytracer/texture/texture/image.py`.  Exact arithmetic; texture values are elements of a real vector space.  Not modelled because they raise on
every call: `CylindricalMapping2D` (`self.arctan2`, texturemap line 107), `DotsTexture` (`noise` called with two arguments, line 220),
`ImageTexture.__call__` (`isinstance(texel, 'RGBSpectrum')`, image.py line 112), and the one-valued map for unreadable files (`self.power`, image.py line 152).
-/
namespace Verif.Texture
open Verif V3 Verif.Geom Verif.Xform

/-! ### Mappings: model -/

/-- the fields of `DifferentialGeometry` used by the mappings -/
structure DG where
  p : V3 ℝ
  dpdx : V3 ℝ
  dpdy : V3 ℝ
  u : ℝ
  v : ℝ
  dudx : ℝ
  dvdx : ℝ
  dudy : ℝ
  dvdy : ℝ

/-- the list returned by a 2D mapping -/
structure ST where
  s : ℝ
  t : ℝ
  dsdx : ℝ
  dtdx : ℝ
  dsdy : ℝ
  dtdy : ℝ

/-- `UVMapping2D` (texturemap 38-52) -/
def uvMap (su sv du dv : ℝ) (dg : DG) : ST :=
  ⟨su * dg.u + du, sv * dg.v + dv, su * dg.dudx, sv * dg.dvdx, su * dg.dudy, sv * dg.dvdy⟩

/-- `PlannarMapping2D` (texturemap 135-149) -/
noncomputable def planarMap (vs vt : V3 ℝ) (ds dt : ℝ) (dg : DG) : ST :=
  ⟨ds + dot dg.p vs, dt + dot dg.p vt, dot dg.dpdx vs, dot dg.dpdx vt, dot dg.dpdy vs, dot dg.dpdy vt⟩

/-- `SphericalMapping2D.__sphere` (texturemap 59-68) -/
noncomputable def sphPt (w2t : Transform ℝ) (p : V3 ℝ) : ℝ × ℝ :=
  let v := Geom.normalize (w2t.pt p)
  (sphericalTheta v * (1 / Real.pi), sphericalPhi v * (1 / (2 * Real.pi)))

/-- the correction for the seam (texturemap 80-83, 88-91) -/
noncomputable def seam (d : ℝ) : ℝ := if d > 0.5 then 1 - d else if d < -0.5 then -(d + 1) else d

/-- `SphericalMapping2D.__call__` (texturemap 70-93): line 87 subtracts `s` from `ty` -/
noncomputable def sphMap (w2t : Transform ℝ) (dg : DG) : ST :=
  let delta : ℝ := 0.1
  let st := sphPt w2t dg.p
  let x := sphPt w2t (dg.p + delta * dg.dpdx)
  let y := sphPt w2t (dg.p + delta * dg.dpdy)
  ⟨st.1, st.2, (x.1 - st.1) / delta, seam ((x.2 - st.2) / delta), (y.1 - st.1) / delta, seam ((y.2 - st.1) / delta)⟩

/-- `IdentityMapping3D` (texturemap 175-180) -/
noncomputable def idMap (w2t : Transform ℝ) (dg : DG) : V3 ℝ × V3 ℝ × V3 ℝ := (w2t.pt dg.p, w2t.vec dg.dpdx, w2t.vec dg.dpdy)

/-! ### C118 -/

/-- the surface point and parameters moved by `h` pixels in x -/
noncomputable def DG.moveX (dg : DG) (h : ℝ) : DG := { dg with p := dg.p + h * dg.dpdx, u := dg.u + h * dg.dudx, v := dg.v + h * dg.dvdx }
/-- the same in y -/
noncomputable def DG.moveY (dg : DG) (h : ℝ) : DG := { dg with p := dg.p + h * dg.dpdy, u := dg.u + h * dg.dudy, v := dg.v + h * dg.dvdy }

/-- the differentials of `st` are the exact rates of change of its coordinates under a motion of `h` pixels, for the mapping `f` -/
def ExactDiff (f : DG → ST) : Prop :=
  ∀ (dg : DG) (h : ℝ), (f (dg.moveX h)).s = (f dg).s + h * (f dg).dsdx ∧ (f (dg.moveX h)).t = (f dg).t + h * (f dg).dtdx ∧
    (f (dg.moveY h)).s = (f dg).s + h * (f dg).dsdy ∧ (f (dg.moveY h)).t = (f dg).t + h * (f dg).dtdy

/-- **C118** the `uv` mapping scales and shifts `(u, v)` and its differentials are exact -/
theorem C118_uv (su sv du dv : ℝ) : ExactDiff (uvMap su sv du dv) ∧ ∀ dg, (uvMap su sv du dv dg).s = su * dg.u + du ∧ (uvMap su sv du dv dg).t = sv * dg.v + dv := by
  refine ⟨fun dg h => ?_, fun dg => ⟨rfl, rfl⟩⟩
  simp only [uvMap, DG.moveX, DG.moveY]
  refine ⟨?_, ?_, ?_, ?_⟩ <;> ring

/-- **C118** the planar mapping measures along its two vectors and its differentials are exact -/
theorem C118_planar (vs vt : V3 ℝ) (ds dt : ℝ) : ExactDiff (planarMap vs vt ds dt) ∧
    ∀ dg, (planarMap vs vt ds dt dg).s = ds + dot dg.p vs ∧ (planarMap vs vt ds dt dg).t = dt + dot dg.p vt := by
  refine ⟨fun dg h => ?_, fun dg => ⟨rfl, rfl⟩⟩
  simp only [planarMap, DG.moveX, DG.moveY, dot, add_x, add_y, add_z, smul_x, smul_y, smul_z]
  refine ⟨?_, ?_, ?_, ?_⟩ <;> ring

/-- **C118** the 3D mapping takes point and differentials to texture space consistently: moving by `h` pixels moves the mapped point by `h` times the
mapped differential, for every affine transform -/
theorem C118_identity3d (w2t : Transform ℝ) (h : AffineM w2t.m) (dg : DG) (k : ℝ) :
    (idMap w2t (dg.moveX k)).1 = (idMap w2t dg).1 + k * (idMap w2t dg).2.1 ∧ (idMap w2t (dg.moveY k)).1 = (idMap w2t dg).1 + k * (idMap w2t dg).2.2 := by
  simp only [idMap, DG.moveX, DG.moveY, pt_affine w2t h]
  constructor <;> ext <;> simp [Transform.vec, homog] <;> ring

theorem length_normalize (v : V3 ℝ) (h : v ≠ 0) : Geom.length (Geom.normalize v) = 1 :=
  ((C06_normalize v).1 h).1

/-- **C118** the spherical mapping gives `s` in `[0, 1]` (polar angle over `π`) and `t` in `(0, 1]` (azimuth over `2π`), and the two determine the direction
of the point in texture space -/
theorem C118_spherical (w2t : Transform ℝ) (dg : DG) (h : w2t.pt dg.p ≠ 0) :
    (0 ≤ (sphMap w2t dg).s ∧ (sphMap w2t dg).s ≤ 1) ∧ (0 < (sphMap w2t dg).t ∧ (sphMap w2t dg).t ≤ 1) ∧
      sphericalDirection (Real.sin (Real.pi * (sphMap w2t dg).s)) (Real.cos (Real.pi * (sphMap w2t dg).s)) (2 * Real.pi * (sphMap w2t dg).t) = Geom.normalize (w2t.pt dg.p) := by
  have hp := Real.pi_pos
  have h1 := length_normalize _ h
  obtain ⟨a1, a2, -⟩ := C60_spherical_theta _ h1
  obtain ⟨b1, b2, -⟩ := C60_spherical_phi (Geom.normalize (w2t.pt dg.p))
  have r := C60_spherical_round_trip _ h1
  simp only [sphMap, sphPt]
  have e1 : Real.pi * (sphericalTheta (Geom.normalize (w2t.pt dg.p)) * (1 / Real.pi)) = sphericalTheta (Geom.normalize (w2t.pt dg.p)) := by field_simp
  have e2 : 2 * Real.pi * (sphericalPhi (Geom.normalize (w2t.pt dg.p)) * (1 / (2 * Real.pi))) = sphericalPhi (Geom.normalize (w2t.pt dg.p)) := by field_simp
  refine ⟨⟨by positivity, ?_⟩, ⟨by positivity, ?_⟩, ?_⟩
  · rw [mul_one_div, div_le_one hp]; exact a2
  · rw [mul_one_div, div_le_one (by positivity)]; exact b2
  · rw [e1, e2]; exact r

/-- **C118 (part)** the differentials of `s`, and of `t` in x, vanish when the point does not move.  Missing: the one of `t` in y
(`C118_spherical_false`). -/
theorem C118_spherical_still_partial (w2t : Transform ℝ) (dg : DG) (hx : dg.dpdx = 0) (hy : dg.dpdy = 0) :
    (sphMap w2t dg).dsdx = 0 ∧ (sphMap w2t dg).dtdx = 0 ∧ (sphMap w2t dg).dsdy = 0 := by
  have e : dg.p + (0.1 : ℝ) * (0 : V3 ℝ) = dg.p := by ext <;> simp
  simp only [sphMap, hx, hy, e]
  refine ⟨by simp, ?_, by simp⟩
  simp only [sub_self, zero_div, seam]
  norm_num

theorem sph_example : ∀ w2t : Transform ℝ, w2t.pt ⟨1, 0, 0⟩ = ⟨1, 0, 0⟩ → sphPt w2t ⟨1, 0, 0⟩ = (1 / 2, 1) := by
  intro w2t hw
  have hn : Geom.normalize (⟨1, 0, 0⟩ : V3 ℝ) = ⟨1, 0, 0⟩ := by
    have hl : Geom.length (⟨1, 0, 0⟩ : V3 ℝ) = 1 := by simp [Geom.length, sqLength]
    ext <;> simp [Geom.normalize, hl]
  have ht : sphericalTheta (⟨1, 0, 0⟩ : V3 ℝ) = Real.pi / 2 := by simp [sphericalTheta]
  have hph : sphericalPhi (⟨1, 0, 0⟩ : V3 ℝ) = 2 * Real.pi := by
    have : (⟨1, 0⟩ : ℂ) = 1 := by apply Complex.ext <;> simp
    simp [sphericalPhi, this]
  have hp := Real.pi_pos
  simp only [sphPt, hw, hn, ht, hph]
  refine Prod.ext ?_ ?_ <;> simp only <;> field_simp

/-- **C118 fails**: line 87 (and 126) subtracts `s` where `t` is meant, so at `(1, 0, 0)` with a point that does not move the differential of `t` in y is
-4 instead of 0 -/
theorem C118_spherical_false : ∃ w2t : Transform ℝ, ∃ dg : DG, dg.dpdx = 0 ∧ dg.dpdy = 0 ∧ w2t.pt dg.p = dg.p ∧ (sphMap w2t dg).dtdy = -4 := by
  have hid : (⟨1, 1⟩ : Transform ℝ).pt ⟨1, 0, 0⟩ = ⟨1, 0, 0⟩ := by
    simp [Transform.pt, homog, Matrix.one_apply, neUnity, EPS]
  refine ⟨⟨1, 1⟩, ⟨⟨1, 0, 0⟩, 0, 0, 0, 0, 0, 0, 0, 0⟩, rfl, rfl, hid, ?_⟩
  have e : (⟨1, 0, 0⟩ : V3 ℝ) + (0.1 : ℝ) * (0 : V3 ℝ) = ⟨1, 0, 0⟩ := by ext <;> simp
  simp only [sphMap, e, sph_example _ hid]
  norm_num [seam]

/-! ### Textures: model -/

variable {V : Type} [AddCommGroup V] [Module ℝ V]

/-- `MixTexture.__call__` (texture 80-82) -/
def mixTex (a b : V) (t : ℝ) : V := (1 - t) • a + t • b

/-- `BilerpTexture.__call__` (texture 101-104) -/
def bilerpTex (v00 v01 v10 v11 : V) (st : ST) : V :=
  ((1 - st.s) * (1 - st.t)) • v00 + ((1 - st.s) * st.t) • v01 + ((1 - st.t) * st.s) • v10 + (st.s * st.t) • v11

/-- the colour of `UVTexture.__call__` (texture 114-116) before conversion to a spectrum -/
noncomputable def uvTex (st : ST) : V3 ℝ := ⟨st.s - ⌊st.s⌋, st.t - ⌊st.t⌋, 0⟩

/-- `Chekcerboard2DTexture` without anti-aliasing (texture 148-152) -/
noncomputable def checkPoint (s t : ℝ) (tex1 tex2 : V) : V := if (⌊s⌋ + ⌊t⌋) % 2 = 0 then tex1 else tex2

/-- the bracket of lines 170-175 -/
noncomputable def bumpInt (x : ℝ) : ℝ := ⌊x / 2⌋ + 2 * max (x / 2 - ⌊x / 2⌋ - 0.5) 0

/-- `Chekcerboard2DTexture` with the closed form (texture 154-179) for textures with values in `ℝ`; `none` stands for a value that is not a number
(division of zero by zero) -/
noncomputable def checkAA (st : ST) (tex1 tex2 : ℝ) : Option ℝ :=
  let ds := max |st.dsdx| |st.dsdy|
  let dt := max |st.dtdx| |st.dtdy|
  let s0 := st.s - ds
  let s1 := st.s + ds
  let t0 := st.t - dt
  let t1 := st.t + dt
  if ⌊s0⌋ = ⌊s1⌋ ∧ ⌊t0⌋ = ⌊t1⌋ then some (checkPoint st.s st.t tex1 tex2)
  else
    let si := (bumpInt s1 - bumpInt s0) / (2 * ds)
    let ti := (bumpInt t1 - bumpInt t0) / (2 * dt)
    if ds > 1 ∨ dt > 1 then some ((1 - 0.5 * tex1) + 0.5 * tex2)
    else if ds = 0 ∨ dt = 0 then none
    else
      let area := si * ti - 2 * si * ti
      some ((1 - area * tex1) + area * tex2)

/-- `Checkboard3DTexture.__call__` (texture 191-196) -/
noncomputable def check3 (p : V3 ℝ) (tex1 tex2 : V) : V := if (⌊p.x⌋ + ⌊p.y⌋ + ⌊p.z⌋) % 2 = 0 then tex1 else tex2

/-! ### C119 -/

/-- **C119** a mix is the first texture at amount 0, the second at amount 1, and for amounts between a weighted mean of the two (inside every convex set
containing both) -/
theorem C119_mix (a b : V) (t : ℝ) : mixTex a b 0 = a ∧ mixTex a b 1 = b ∧
    (0 ≤ t → t ≤ 1 → ∀ C : Set V, Convex ℝ C → a ∈ C → b ∈ C → mixTex a b t ∈ C) := by
  refine ⟨by simp [mixTex], by simp [mixTex], fun h0 h1 C hC ha hb => hC ha hb (by linarith) h0 (by ring)⟩

/-- **C119** the bilinear texture takes its four values at the four corners, is affine along both axes and a weighted mean of the four inside the unit
square -/
theorem C119_bilerp (v00 v01 v10 v11 : V) (st : ST) :
    (st.s = 0 → st.t = 0 → bilerpTex v00 v01 v10 v11 st = v00) ∧ (st.s = 0 → st.t = 1 → bilerpTex v00 v01 v10 v11 st = v01) ∧
    (st.s = 1 → st.t = 0 → bilerpTex v00 v01 v10 v11 st = v10) ∧ (st.s = 1 → st.t = 1 → bilerpTex v00 v01 v10 v11 st = v11) ∧
    (0 ≤ st.s → st.s ≤ 1 → 0 ≤ st.t → st.t ≤ 1 → ∀ C : Set V, Convex ℝ C → v00 ∈ C → v01 ∈ C → v10 ∈ C → v11 ∈ C → bilerpTex v00 v01 v10 v11 st ∈ C) := by
  refine ⟨fun h1 h2 => ?_, fun h1 h2 => ?_, fun h1 h2 => ?_, fun h1 h2 => ?_, fun a b c d C hC h00 h01 h10 h11 => ?_⟩
  · simp [bilerpTex, h1, h2]
  · simp [bilerpTex, h1, h2]
  · simp [bilerpTex, h1, h2]
  · simp [bilerpTex, h1, h2]
  · have := convex4 C hC v00 v01 v10 v11 h00 h01 h10 h11 st.s st.t ⟨a, b⟩ ⟨c, d⟩
    have e : bilerpTex v00 v01 v10 v11 st = ((1 - st.s) * (1 - st.t)) • v00 + ((1 - st.s) * st.t) • v01 + (st.s * (1 - st.t)) • v10 + (st.s * st.t) • v11 := by
      simp only [bilerpTex, mul_comm st.s (1 - st.t)]
    rw [e]
    exact this

/-- **C119** the `uv` texture shows the fractional parts: red and green in `[0, 1)`, repeating with period 1, no blue -/
theorem C119_uv (st st' : ST) (m n : ℤ) (hs : st'.s = st.s + m) (ht : st'.t = st.t + n) :
    (0 ≤ (uvTex st).x ∧ (uvTex st).x < 1) ∧ (0 ≤ (uvTex st).y ∧ (uvTex st).y < 1) ∧ (uvTex st).z = 0 ∧ uvTex st' = uvTex st := by
  have f (x : ℝ) : 0 ≤ x - ⌊x⌋ ∧ x - ⌊x⌋ < 1 := ⟨by linarith [Int.floor_le x], by linarith [Int.lt_floor_add_one x]⟩
  refine ⟨f _, f _, rfl, ?_⟩
  simp only [uvTex, hs, ht, Int.floor_add_intCast]
  push_cast
  ext <;> simp only <;> ring

/-- **C119** without anti-aliasing the checkerboard takes one texture on each unit square and the other on the four squares next to it -/
theorem C119_checker_point (s t : ℝ) (tex1 tex2 : V) :
    checkPoint (s + 1) t tex1 tex2 = checkPoint s t tex2 tex1 ∧ checkPoint s (t + 1) tex1 tex2 = checkPoint s t tex2 tex1 ∧
    (∀ s' t', ⌊s'⌋ = ⌊s⌋ → ⌊t'⌋ = ⌊t⌋ → checkPoint s' t' tex1 tex2 = checkPoint s t tex1 tex2) ∧ (checkPoint (1 / 2) (1 / 2) tex1 tex2 = tex1) := by
  refine ⟨?_, ?_, fun s' t' h1 h2 => by simp only [checkPoint, h1, h2], ?_⟩
  · simp only [checkPoint, Int.floor_add_one]
    split_ifs with h1 h2 <;> first | rfl | omega
  · simp only [checkPoint, Int.floor_add_one]
    split_ifs with h1 h2 <;> first | rfl | omega
  · have f : ⌊(1 / 2 : ℝ)⌋ = 0 := by rw [Int.floor_eq_iff]; norm_num
    simp only [checkPoint, f]
    rfl

omit [AddCommGroup V] [Module ℝ V] in
/-- **C119** the 3D checkerboard alternates along all three axes -/
theorem C119_checker_3d (p : V3 ℝ) (tex1 tex2 : V) :
    check3 ⟨p.x + 1, p.y, p.z⟩ tex1 tex2 = check3 p tex2 tex1 ∧ check3 ⟨p.x, p.y + 1, p.z⟩ tex1 tex2 = check3 p tex2 tex1 ∧
    check3 ⟨p.x, p.y, p.z + 1⟩ tex1 tex2 = check3 p tex2 tex1 := by
  refine ⟨?_, ?_, ?_⟩ <;> simp only [check3, Int.floor_add_one] <;> split_ifs with h1 h2 <;> first | rfl | omega

/-- **C119 (part)** with anti-aliasing the value is the point sample when the filter lies inside one check.  Missing: filters over several checks
(`C119_checker_aa_false`). -/
theorem C119_checker_aa_partial (st : ST) (tex1 tex2 : ℝ) (m n : ℤ)
    (hs : m ≤ st.s - max |st.dsdx| |st.dsdy| ∧ st.s + max |st.dsdx| |st.dsdy| < m + 1) (ht : n ≤ st.t - max |st.dtdx| |st.dtdy| ∧ st.t + max |st.dtdx| |st.dtdy| < n + 1) :
    checkAA st tex1 tex2 = some (if (m + n) % 2 = 0 then tex1 else tex2) := by
  have d0 : 0 ≤ max |st.dsdx| |st.dsdy| := le_max_of_le_left (abs_nonneg _)
  have e0 : 0 ≤ max |st.dtdx| |st.dtdy| := le_max_of_le_left (abs_nonneg _)
  have fl (x : ℝ) (k : ℤ) (h1 : (k : ℝ) ≤ x) (h2 : x < k + 1) : ⌊x⌋ = k := Int.floor_eq_iff.2 ⟨h1, h2⟩
  have a1 := fl (st.s - max |st.dsdx| |st.dsdy|) m hs.1 (by linarith [hs.2])
  have a2 := fl (st.s + max |st.dsdx| |st.dsdy|) m (by linarith [hs.1]) hs.2
  have a3 := fl st.s m (by linarith [hs.1]) (by linarith [hs.2])
  have b1 := fl (st.t - max |st.dtdx| |st.dtdy|) n ht.1 (by linarith [ht.2])
  have b2 := fl (st.t + max |st.dtdx| |st.dtdy|) n (by linarith [ht.1]) ht.2
  have b3 := fl st.t n (by linarith [ht.1]) (by linarith [ht.2])
  simp only [checkAA, a1, a2, b1, b2, and_self, if_true, checkPoint, a3, b3]

/-- **C119 fails** for filters over several checks: wherever the anti-aliased checkerboard of two equal textures of value `c` is filtered, its value is 1 (or not
a number) instead of `c`; for instance `c = 1/4` at `(1, 1/2)` with differentials 1/4 -/
theorem C119_checker_aa_false :
    (∀ (st : ST) (c : ℝ), (⌊st.s - max |st.dsdx| |st.dsdy|⌋ ≠ ⌊st.s + max |st.dsdx| |st.dsdy|⌋) → checkAA st c c = some 1 ∨ checkAA st c c = none) ∧
    checkAA ⟨1, 1 / 2, 1 / 4, 1 / 4, 0, 0⟩ (1 / 4) (1 / 4) = some 1 := by
  have g : ∀ (st : ST) (c : ℝ), (⌊st.s - max |st.dsdx| |st.dsdy|⌋ ≠ ⌊st.s + max |st.dsdx| |st.dsdy|⌋) → checkAA st c c = some 1 ∨ checkAA st c c = none := by
    intro st c h
    simp only [checkAA]
    rw [if_neg (fun hc => h hc.1)]
    split_ifs
    · left; congr 1; ring
    · right; rfl
    · left; congr 1; ring
  refine ⟨g, ?_⟩
  have m1 : max |(1 / 4 : ℝ)| |0| = 1 / 4 := by norm_num
  have f1 : ⌊(1 : ℝ) - 1 / 4⌋ = 0 := by rw [Int.floor_eq_iff]; norm_num
  have f2 : ⌊(1 : ℝ) + 1 / 4⌋ = 1 := by rw [Int.floor_eq_iff]; norm_num
  rcases g ⟨1, 1 / 2, 1 / 4, 1 / 4, 0, 0⟩ (1 / 4) (by simp only [m1, f1, f2]; norm_num) with h | h
  · exact h
  · exfalso
    simp only [checkAA, m1, f1, f2] at h
    rw [if_neg (by norm_num), if_neg (by norm_num), if_neg (by norm_num)] at h
    exact absurd h (by simp)

/-! ### Image textures: the cache and the conversion of the file (C120) -/

/-- `TexInfo` (image.py 33-67): the key of the cache; equality compares all six fields and the hash is taken over the same six, so dictionary lookup is
lookup by equality -/
structure TexInfo where
  filename : String
  trilinear : Bool
  maxAniso : ℚ
  wrap : Wrap
  scale : ℚ
  gamma : ℚ
  deriving DecidableEq

/-- storage types -/
inductive MemType
  | rgb
  | float
  deriving DecidableEq

/-- the cache `ImageTexture.textures` (image.py 69-70) -/
abbrev Cache (M : Type) := List (TexInfo × M)

/-- `get_texture` (image.py 126-156): `make` stands for reading the file, converting it to the storage type and building the map (lines 133-148), `none` for an
exception on the way, which leaves the cache as it was -/
def getTexture {M : Type} (make : MemType → TexInfo → Option M) (cache : Cache M) (tm : MemType) (info : TexInfo) : Option M × Cache M :=
  match cache.find? (fun e => e.1 = info) with
  | some e => (some e.2, cache)
  | none =>
    match make tm info with
    | none => (none, cache)
    | some m => (some m, (info, m) :: cache)

/-- a history of constructions of image textures, starting from an empty cache; the results in order -/
def history {M : Type} (make : MemType → TexInfo → Option M) : Cache M → List (MemType × TexInfo) → List (Option M)
  | _, [] => []
  | c, (tm, i) :: r => let x := getTexture make c tm i; x.1 :: history make x.2 r

theorem history_eq {M : Type} (make : MemType → TexInfo → Option M) (tm : MemType) (c : Cache M) (hc : ∀ e ∈ c, make tm e.1 = some e.2)
    (reqs : List (MemType × TexInfo)) (h : ∀ q ∈ reqs, q.1 = tm) : history make c reqs = reqs.map fun q => make tm q.2 := by
  induction reqs generalizing c with
  | nil => rfl
  | cons q r ih =>
    obtain ⟨t, i⟩ := q
    have ht : t = tm := h (t, i) (by simp)
    subst ht
    simp only [history, List.map_cons]
    cases hf : c.find? (fun e => e.1 = i) with
    | some e =>
      have h1 := List.mem_of_find?_eq_some hf
      have h2 := List.find?_some hf
      simp only [decide_eq_true_eq] at h2
      simp only [getTexture, hf]
      rw [ih c hc (fun q hq => h q (by simp [hq])), ← hc e h1, h2]
    | none =>
      cases hm : make t i with
      | none =>
        simp only [getTexture, hf, hm]
        rw [ih c hc (fun q hq => h q (by simp [hq]))]
      | some m =>
        simp only [getTexture, hf, hm]
        rw [ih ((i, m) :: c) (by
          intro e he
          rcases List.mem_cons.1 he with rfl | he
          · exact hm
          · exact hc e he) (fun q hq => h q (by simp [hq]))]

/-- **C120 (part)** for any history of textures of one storage type the cache is invisible: every texture gets the map its own parameters describe.  Missing:
histories that mix storage types (`C120_cache_false`). -/
theorem C120_cache_partial {M : Type} (make : MemType → TexInfo → Option M) (tm : MemType) (reqs : List (MemType × TexInfo)) (h : ∀ q ∈ reqs, q.1 = tm) :
    history make [] reqs = reqs.map fun q => make q.1 q.2 := by
  rw [history_eq make tm [] (by simp) reqs h]
  exact List.map_congr_left fun q hq => by rw [h q hq]

/-- **C120 fails** for mixed storage types: the key leaves the storage type out, so the second of two textures of the same file with different storage types
gets the map of the first, for every way of making maps that distinguishes the types -/
theorem C120_cache_false {M : Type} (make : MemType → TexInfo → Option M) (i : TexInfo) (m1 m2 : M) (h1 : make .rgb i = some m1) (_h2 : make .float i = some m2) (hne : m1 ≠ m2) :
    history make [] [(.rgb, i), (.float, i)] = [some m1, some m1] ∧ history make [] [(.rgb, i), (.float, i)] ≠ [make .rgb i, make .float i] := by
  have e : history make [] [(.rgb, i), (.float, i)] = [some m1, some m1] := by simp [history, getTexture, h1]
  refine ⟨e, ?_⟩
  rw [e, h1, _h2]
  simp [hne]

open Classical in
/-- the conversion loop (image.py 135, 142-146): `width, height = texels.shape[0:2]`, the new array has shape `(height, width)` and its entry `[t, s]` is converted
from `texels[t, s]` -/
noncomputable def convLoop {W : Type} (conv : W → V) (file : Level W) : Option (Level V) :=
  if ∀ t < file.v, ∀ s < file.u, (file.get t s).isSome then some ⟨file.v, file.u, fun t s => ((file.get t s).map conv).getD 0⟩ else none

omit [Module ℝ V] in
/-- **C120 (part)** a square image file is converted texel by texel, in place.  Missing: other images (`C120_nonsquare_false`). -/
theorem C120_convert_partial {W : Type} (conv : W → V) (file : Level W) (h : file.u = file.v) :
    ∃ l, convLoop conv file = some l ∧ l.u = file.u ∧ l.v = file.v ∧ ∀ s < file.u, ∀ t < file.v, l.a s t = conv (file.a s t) := by
  have g (t s : ℕ) (ht : t < file.u) (hs : s < file.v) : file.get t s = some (file.a t s) := by
    have := get_eq (V := W) file t s ⟨by omega, by omega⟩ ⟨by omega, by omega⟩
    simpa using this
  refine ⟨⟨file.v, file.u, fun t s => ((file.get t s).map conv).getD 0⟩, ?_, h.symm, h, fun s hs t ht => ?_⟩
  · simp only [convLoop]
    rw [if_pos]
    intro t ht s hs
    rw [g t s (by omega) (by omega)]
    rfl
  · simp only [g s t hs ht]
    rfl

omit [Module ℝ V] in
/-- **C120 fails** for images that are not square: the conversion reads beyond the array and raises, for every image with two different non-zero sides -/
theorem C120_nonsquare_false {W : Type} (conv : W → V) (file : Level W) (hu : 0 < file.u) (hv : 0 < file.v) (h : file.u ≠ file.v) : convLoop conv file = none := by
  simp only [convLoop]
  rw [if_neg]
  intro hall
  have := hall (file.v - 1) (by omega) (file.u - 1) (by omega)
  have e : file.get ((file.v - 1 : ℕ) : ℤ) ((file.u - 1 : ℕ) : ℤ) = none := by
    rw [Level.get]
    rcases Nat.lt_or_gt_of_ne h with hlt | hlt
    · have h2 : npIx file.u ((file.v - 1 : ℕ) : ℤ) = none := by
        simp only [npIx]
        rw [if_neg (by omega), if_neg (by omega)]
      rw [h2]; rfl
    · have h2 : npIx file.v ((file.u - 1 : ℕ) : ℤ) = none := by
        simp only [npIx]
        rw [if_neg (by omega), if_neg (by omega)]
      rw [h2]
      cases npIx file.u ((file.v - 1 : ℕ) : ℤ) <;> rfl
  rw [e] at this
  simp at this

/-- a history the theorems apply to: two different files and one repeated -/
example : history (fun _ i => some i.filename) [] [(.rgb, ⟨"a", false, 8, .rep, 1, 1⟩), (.rgb, ⟨"b", false, 8, .rep, 1, 1⟩), (.rgb, ⟨"a", false, 8, .rep, 1, 1⟩)] =
    [some "a", some "b", some "a"] := by
  decide +kernel

end Verif.Texture
