import Verif.Camera.Rounded
import Verif.Light.ShadowRounded
import Verif.Render.FirstRounded

/-!
# Point lights on matte surfaces in rounded arithmetic (C188)

The loop over the lights in `WhittedIntegrator.li` (`pytracer/integrator/surface/whitted.py:41-50`) with `PointLight.sample_l` (`pytracer/light/light.py:129-135`),
`BSDF.f` (`pytracer/reflection/bsdf.py:207-224`) and `Lambertian.f` (`pytracer/reflection/bdf/bdf.py:327-332`), every operation rounded to binary64.
Overflow is not modelled.  There is no participating medium (`transmittance` is 1, `pytracer/renderer/renderer.py:77-82`).
-/
set_option linter.unusedSectionVars false

namespace Verif.MatteR
open V3 Verif.Rnd Verif.XformR Verif.GeomR Verif.CamR
open Verif.Shape (subR)
open Verif.ShadowR (EPS segR)
open Verif.BVH
open Verif.TriScene (Tri ClearHit C181_scene)
open Verif.FirstR (Beyond C186_miss)

variable {ι : Type*}

/-! ### Model -/

/-- `PointLight` (`light/light.py:118-127`): position in the world and intensity -/
structure PLight (ι : Type*) where
  pos : V3 ℝ
  I : ι → ℝ

/-- the radiance `PointLight.sample_l` returns (`light/light.py:135`) -/
noncomputable def PLight.li (l : PLight ι) (p : V3 ℝ) (k : ι) : ℝ := double (l.I k / sqLengthR (subR ieee l.pos p))

/-- the direction it returns (`light/light.py:131`) -/
noncomputable def PLight.wi (l : PLight ι) (p : V3 ℝ) : V3 ℝ := normalizeR (subR ieee l.pos p)

/-- `Spectrum.is_black` (`spectral/spectrum.py:182-187`) -/
def BlackR (c : ι → ℝ) : Prop := ∀ k, c k < EPS

/-- `INV_PI` (`pytracer/__init__.py:25-26`); `np.pi` is the float nearest to π -/
noncomputable def INVPI : ℝ := double (1 / double Real.pi)

open Classical in
/-- `BSDF.f` (`reflection/bsdf.py:207-224`) of a surface that has one Lambertian component (`reflection/bdf/bdf.py:327-332`), for the geometric normal `ng` -/
def MatteF (R : ι → ℝ) (ng wo wi : V3 ℝ) (f : ι → ℝ) : Prop :=
  ∃ a b, DotR wi.get ng.get [0, 1, 2] a ∧ DotR wo.get ng.get [0, 1, 2] b ∧ f = if double (a * b) > 0 then fun k => double (0 + double (INVPI * R k)) else fun _ => 0

/-- what the integrator knows about the point it shades: the point, the shading and the geometric normal, the direction it is seen from and the reflectance -/
structure Spot (ι : Type*) where
  p : V3 ℝ
  n : V3 ℝ
  ng : V3 ℝ
  wo : V3 ℝ
  R : ι → ℝ

open Classical in
/-- one turn of the loop over the lights (`integrator/surface/whitted.py:42-50`): `L` before, `L'` after; `vis` is the answer of `vis.unoccluded(scene)` -/
def TurnR (s : Spot ι) (l : PLight ι) (vis : Prop) (L L' : ι → ℝ) : Prop :=
  ∃ f a, MatteF s.R s.ng s.wo (l.wi s.p) f ∧ DotR (l.wi s.p).get s.n.get [0, 1, 2] a ∧
    L' = if BlackR (l.li s.p) then L
      else if ¬ BlackR f ∧ vis then fun k => double (L k + double (double (double (double (f k * l.li s.p k) * |a|) * 1) / 1))
      else L

/-- the loop over the lights (`integrator/surface/whitted.py:41-50`) -/
inductive LoopR (s : Spot ι) (vis : PLight ι → Prop) : List (PLight ι) → (ι → ℝ) → (ι → ℝ) → Prop
  | nil (L : ι → ℝ) : LoopR s vis [] L L
  | cons (l : PLight ι) (ls : List (PLight ι)) (L L' L'' : ι → ℝ) : TurnR s l (vis l) L L' → LoopR s vis ls L' L'' → LoopR s vis (l :: ls) L L''

/-- one component of `(a * p - b * q) * c` and of `(a * p + b * q) * c` (`shape/triangle.py:224-225`) -/
noncomputable def combSub (a p b q c : ℝ) : ℝ := double (double (double (a * p) - double (b * q)) * c)
noncomputable def combAdd (a p b q c : ℝ) : ℝ := double (double (double (a * p) + double (b * q)) * c)

/-- `dpdu` and `dpdv` of a triangle without texture coordinates (`shape/triangle.py:125-127, 209-225`): the coordinates are (0, 0), (1, 0), (1, 1) -/
noncomputable def derivs (p1 p2 p3 : V3 ℝ) : V3 ℝ × V3 ℝ :=
  let du1 := double (0 - 1)
  let du2 := double (1 - 1)
  let dv1 := double (0 - 1)
  let dv2 := double (0 - 1)
  let dp1 := subR ieee p1 p3
  let dp2 := subR ieee p2 p3
  let det := double (double (du1 * dv2) - double (du2 * dv1))
  let inv := double (1 / det)
  (⟨combSub dv2 dp1.x dv1 dp2.x inv, combSub dv2 dp1.y dv1 dp2.y inv, combSub dv2 dp1.z dv1 dp2.z inv⟩,
   ⟨combAdd (-du2) dp1.x du1 dp2.x inv, combAdd (-du2) dp1.y du1 dp2.y inv, combAdd (-du2) dp1.z du1 dp2.z inv⟩)

/-- `DifferentialGeometry.nn` (`geometry/diffgeom.py:30-38`); `flip` is `shape.ro ^ shape.transform_swaps_handedness` -/
noncomputable def nnR (p1 p2 p3 : V3 ℝ) (flip : Bool) : V3 ℝ :=
  let n := normalizeR (crossR (derivs p1 p2 p3).1 (derivs p1 p2 p3).2)
  if flip then ⟨double (n.x * -1), double (n.y * -1), double (n.z * -1)⟩ else n

/-- the shadow ray of a point light (`light/light.py:134`, `light/utility.py:34-42`): from `p`, starting at `eps`, to the light, not shortened there -/
noncomputable def shadowRay (p : V3 ℝ) (eps : ℝ) (l : PLight ι) : FRay ℝ :=
  let r := segR p eps l.pos 0
  ⟨r.o, ⟨⟨r.d.x, false⟩, ⟨r.d.y, false⟩, ⟨r.d.z, false⟩⟩, .fin r.mint, .fin (double (lengthR (subR ieee p l.pos) * double (1 - 0)))⟩

/-! ### Specification -/

/-- the normal of the triangle -/
noncomputable def trueNormal (p1 p2 p3 : V3 ℝ) : V3 ℝ := Geom.normalize (cross (p1 - p3) (p2 - p3))

/-- the same spot with the normal `N` for both normals -/
def Spot.facing (s : Spot ι) (N : V3 ℝ) : Spot ι := { s with n := N, ng := N }

/-- the light that arrives from `l` at `p` on a surface that faces it, in channel `k` -/
noncomputable def arriving (l : PLight ι) (p : V3 ℝ) (k : ι) : ℝ := l.I k / sqLength (l.pos - p)

/-- the cosine of the angle between `n` and the direction to the light (times the length of `n`) -/
noncomputable def cosAt (n : V3 ℝ) (l : PLight ι) (p : V3 ℝ) : ℝ := dot (l.pos - p) n / Geom.length (l.pos - p)

/-- a light the integrator does not skip: a channel of what arrives reaches `EPS` -/
def Bright (l : PLight ι) (p : V3 ℝ) : Prop := ∃ k, EPS ≤ arriving l p k

open Classical in
/-- Lambert's law with the inverse square: what a light adds to the radiance of the spot in channel `k` -/
noncomputable def lambertOf (p n ng wo : V3 ℝ) (R : ι → ℝ) (vis : PLight ι → Prop) (l : PLight ι) (k : ι) : ℝ :=
  if vis l ∧ Bright l p ∧ 0 < dot (l.pos - p) ng * dot wo ng then R k / Real.pi * arriving l p k * |cosAt n l p| else 0

noncomputable def lambert (s : Spot ι) : (PLight ι → Prop) → PLight ι → ι → ℝ := lambertOf s.p s.n s.ng s.wo s.R

/-- twice what the light adds when the surface faces it -/
noncomputable def bound (s : Spot ι) (l : PLight ι) (k : ι) : ℝ := s.R k / Real.pi * arriving l s.p k * 2

/-- a position: a multiple of `2^-100`, at most `2^50` in each coordinate -/
def Place (v : V3 ℝ) : Prop := ∀ i, Grid (-100) (v.get i) ∧ |v.get i| ≤ 2 ^ (50 : ℤ)

/-- a reflectance or an intensity: zero or at least `2^-60` -/
def Strength (x : ℝ) : Prop := 0 ≤ x ∧ Big (-60) x

/-- a normal: not longer than 2, no tiny components (what `normalize` returns, C183) -/
def NormalV (n : V3 ℝ) : Prop := BigV (-400) n ∧ sqLength n ≤ 4

/-- the spot is in the ranges, it is not black, and it is seen from a direction that is clearly on one side of the surface -/
structure Spot.Ok (s : Spot ι) : Prop where
  p : Place s.p
  n : NormalV s.n
  ng : NormalV s.ng
  wo : BigV (-400) s.wo
  R : ∀ k, Strength (s.R k)
  paint : ∃ k, EPS * (1 + 2 ^ (-40 : ℤ)) ≤ s.R k / Real.pi
  side : 2 ^ (-49 : ℤ) * (|s.wo.x| * |s.ng.x| + |s.wo.y| * |s.ng.y| + |s.wo.z| * |s.ng.z|) ≤ |dot s.wo s.ng|
  front : 2 ^ (-60 : ℤ) ≤ |dot s.wo s.ng|

/-- the light is in the ranges, not at the spot, not at the limit of what counts as black, and where the two normals of the spot differ it is clearly on one side of the surface -/
structure LightOk (s : Spot ι) (l : PLight ι) : Prop where
  pos : Place l.pos
  apart : l.pos ≠ s.p
  I : ∀ k, Strength (l.I k)
  limit : (∃ k, EPS * (1 + 2 ^ (-40 : ℤ)) ≤ arriving l s.p k) ∨ ∀ k, arriving l s.p k ≤ EPS * (1 - 2 ^ (-40 : ℤ))
  clear : s.n = s.ng ∨ 2 ^ (-46 : ℤ) < |cosAt s.ng l s.p|

/-- the segment from `p` to the light clearly misses all triangles … -/
def Free (tris : List (Tri ℝ)) (p : V3 ℝ) (eps : ℝ) (l : PLight ι) : Prop := ∀ c ∈ tris, Beyond (shadowRay p eps l) eps c (shadowRay p eps l).maxt

/-- … or clearly meets one -/
def Blocked (tris : List (Tri ℝ)) (p : V3 ℝ) (eps : ℝ) (l : PLight ι) : Prop :=
  ∃ A ∈ tris, ∃ t slack, ClearHit (shadowRay p eps l) eps A t slack ∧ F.lt (.fin (t + slack)) (shadowRay p eps l).maxt = true

/-! ### Proofs -/

theorem sub_get (a b : V3 ℝ) (i : Fin 3) : (subR ieee a b).get i = double (a.get i - b.get i) := by fin_cases i <;> rfl
theorem sub_get' (a b : V3 ℝ) (i : Fin 3) : (a - b).get i = a.get i - b.get i := by fin_cases i <;> rfl

section light
variable {s : Spot ι} {l : PLight ι}

theorem diff_flt (hp : Place s.p) (hl : Place l.pos) (i : Fin 3) :
    Flt 1 (-100) ((subR ieee l.pos s.p).get i) ((l.pos - s.p).get i) |(l.pos - s.p).get i| := by
  rw [sub_get, sub_get']
  exact Flt.diff (by norm_num) (hl i).1 (hp i).1

theorem diff_le (hp : Place s.p) (hl : Place l.pos) (i : Fin 3) : |(l.pos - s.p).get i| ≤ 2 ^ (51 : ℤ) := by
  rw [sub_get']
  have a := (hp i).2; have b := (hl i).2
  have := abs_sub (l.pos.get i) (s.p.get i)
  rw [show (51 : ℤ) = 50 + 1 by norm_num, zpow_add₀ two_ne_zero, zpow_one]
  linarith

theorem sqLen_flt (hp : Place s.p) (hl : Place l.pos) : Flt 5 (-200) (sqLengthR (subR ieee l.pos s.p)) (sqLength (l.pos - s.p)) (sqLength (l.pos - s.p)) := by
  have q : ∀ i, Flt 3 (-200) (double ((subR ieee l.pos s.p).get i * (subR ieee l.pos s.p).get i)) ((l.pos - s.p).get i * (l.pos - s.p).get i) ((l.pos - s.p).get i * (l.pos - s.p).get i) := fun i => by
    have f := diff_flt hp hl i
    have := f.rmul (by norm_num) f
    rwa [abs_mul_abs_self] at this
  exact ((q 0).radd (by norm_num) (q 1)).radd (by norm_num) ((q 2).mono (by norm_num) le_rfl)

theorem sqLen_bounds (hp : Place s.p) (hl : Place l.pos) (h0 : l.pos ≠ s.p) : 2 ^ (-200 : ℤ) ≤ sqLength (l.pos - s.p) ∧ sqLength (l.pos - s.p) ≤ 2 ^ (104 : ℤ) := by
  have d : ∀ i, Grid (-100) ((l.pos - s.p).get i) := fun i => by rw [sub_get']; exact (hl i).1.sub (hp i).1
  have g : Grid (-200) (sqLength (l.pos - s.p)) := (((d 0).mul (d 0)).add ((d 1).mul (d 1))).add ((d 2).mul (d 2))
  have b := fun i => diff_le hp hl i
  have sq : ∀ i, (l.pos - s.p).get i * (l.pos - s.p).get i ≤ 2 ^ (102 : ℤ) := fun i => by
    rw [← abs_mul_abs_self, show (102 : ℤ) = 51 + 51 by norm_num, zpow_add₀ two_ne_zero]
    exact mul_le_mul (b i) (b i) (abs_nonneg _) (two_zpow_pos _).le
  have e : sqLength (l.pos - s.p) = (l.pos - s.p).get 0 * (l.pos - s.p).get 0 + (l.pos - s.p).get 1 * (l.pos - s.p).get 1 + (l.pos - s.p).get 2 * (l.pos - s.p).get 2 := rfl
  have nn : 0 ≤ sqLength (l.pos - s.p) := by
    rw [e]; nlinarith [mul_self_nonneg ((l.pos - s.p).get 0), mul_self_nonneg ((l.pos - s.p).get 1), mul_self_nonneg ((l.pos - s.p).get 2)]
  constructor
  · rcases g.zero_or with h | h
    · exfalso
      apply h0
      rw [e] at h
      have z : ∀ i, (l.pos - s.p).get i = 0 := by
        have a := mul_self_nonneg ((l.pos - s.p).get 0); have b := mul_self_nonneg ((l.pos - s.p).get 1); have c := mul_self_nonneg ((l.pos - s.p).get 2)
        intro i
        fin_cases i <;> refine mul_self_eq_zero.1 ?_
        · change (l.pos - s.p).get 0 * (l.pos - s.p).get 0 = 0; linarith
        · change (l.pos - s.p).get 1 * (l.pos - s.p).get 1 = 0; linarith
        · change (l.pos - s.p).get 2 * (l.pos - s.p).get 2 = 0; linarith
      have z' : ∀ i, l.pos.get i = s.p.get i := fun i => by have := z i; rw [sub_get'] at this; linarith
      exact V3.ext (z' 0) (z' 1) (z' 2)
    · rwa [abs_of_nonneg nn] at h
  · rw [e, show (104 : ℤ) = 2 + 102 by norm_num, zpow_add₀ two_ne_zero]
    have := sq 0; have := sq 1; have := sq 2
    have := two_zpow_pos (K := ℝ) 102
    norm_num only
    linarith

/-- a quotient of two numbers with relative errors -/
theorem li_flt (hp : Place s.p) (h : LightOk s l) (k : ι) : Flt 11 (-218) (l.li s.p k) (arriving l s.p k) (arriving l s.p k) ∧ 0 ≤ arriving l s.p k := by
  obtain ⟨b1, b2⟩ := sqLen_bounds hp h.pos h.apart
  have f := sqLen_flt hp h.pos
  have s0 : 0 < sqLength (l.pos - s.p) := (two_zpow_pos _).trans_le b1
  have i0 := (h.I k).1
  have a0 : 0 ≤ arriving l s.p k := div_nonneg i0 s0.le
  refine ⟨?_, a0⟩
  have e1 := err_inv (by rw [abs_of_pos s0]; exact f.err) s0.ne' (pow_half 5 (by norm_num))
  have e2 := (Err.refl (l.I k)).mul e1
  rw [← abs_mul, mul_one_div, mul_one_div] at e2
  change Err (0 + 2 * 5) (l.I k / sqLengthR (subR ieee l.pos s.p)) (arriving l s.p k) |arriving l s.p k| at e2
  rcases (h.I k).2.2 with h0 | h0
  · have z : arriving l s.p k = 0 := by rw [arriving, h0, zero_div]
    have z' : l.li s.p k = 0 := by rw [PLight.li, h0, zero_div, double_zero]
    rw [z, z']
    exact ⟨Err.zero _, 0, by simp⟩
  · have m : (2 : ℝ) ^ (-164 : ℤ) ≤ |arriving l s.p k| := by
      rw [arriving, abs_div, abs_of_pos s0, le_div_iff₀ s0]
      calc (2 : ℝ) ^ (-164 : ℤ) * sqLength (l.pos - s.p) ≤ 2 ^ (-164 : ℤ) * 2 ^ (104 : ℤ) := mul_le_mul_of_nonneg_left b2 (two_zpow_pos _).le
        _ = 2 ^ (-60 : ℤ) := by rw [← zpow_add₀ two_ne_zero]; norm_num
        _ ≤ |l.I k| := h0
    have e3 := e2.round (normal_of (l := -164 - 1) (by norm_num) (big_of (by norm_num) e2 m))
    have b := big_of (by norm_num) e3 m
    rw [abs_of_nonneg a0] at e3
    exact ⟨e3, (grid_of (isDouble_double _) b).mono (by norm_num)⟩

theorem length_flt (hp : Place s.p) (h : LightOk s l) :
    Err 6 (lengthR (subR ieee l.pos s.p)) (Geom.length (l.pos - s.p)) (Geom.length (l.pos - s.p)) ∧ 0 < Geom.length (l.pos - s.p) ∧ Geom.length (l.pos - s.p) ≤ 2 ^ (52 : ℤ) := by
  obtain ⟨b1, b2⟩ := sqLen_bounds hp h.pos h.apart
  have s0 : 0 < sqLength (l.pos - s.p) := (two_zpow_pos _).trans_le b1
  have f := sqLen_flt hp h.pos
  refine ⟨root (by norm_num) ⟨f.err, f.grid.mono (by norm_num)⟩ s0, Real.sqrt_pos.2 s0, ?_⟩
  rw [Geom.length, Real.sqrt_le_left (two_zpow_pos _).le, ← zpow_natCast, ← zpow_mul]
  exact b2

theorem wi_flt (hp : Place s.p) (h : LightOk s l) (i : Fin 3) :
    Flt 14 (-206) ((l.wi s.p).get i) ((l.pos - s.p).get i / Geom.length (l.pos - s.p)) |(l.pos - s.p).get i / Geom.length (l.pos - s.p)| := by
  obtain ⟨e, p0, le⟩ := length_flt hp h
  obtain ⟨b1, b2⟩ := err_pos (by norm_num) e p0
  have lp : 0 < lengthR (subR ieee l.pos s.p) := by linarith
  have f := diff_flt hp h.pos i
  have hn : (l.wi s.p).get i = double ((subR ieee l.pos s.p).get i / lengthR (subR ieee l.pos s.p)) := by
    simp only [PLight.wi, normalizeR, if_pos lp.ne']
    fin_cases i <;> rfl
  have hi := err_inv (by rw [abs_of_pos p0]; exact e) p0.ne' (pow_half 6 (by norm_num))
  have e2 := f.err.mul hi
  rw [← abs_mul, mul_one_div, mul_one_div] at e2
  rw [hn]
  rcases f.grid.zero_or with h0 | h0
  · have z : (l.pos - s.p).get i = 0 := by
      have := (mag (by norm_num) f.err).1
      rw [h0, abs_zero] at this
      exact abs_nonpos_iff.1 (by linarith)
    rw [h0, z, zero_div, zero_div, double_zero, abs_zero]
    exact ⟨Err.zero _, 0, by simp⟩
  · have le2 : lengthR (subR ieee l.pos s.p) ≤ 2 ^ (53 : ℤ) := by
      rw [show (53 : ℤ) = 1 + 52 by norm_num, zpow_add₀ two_ne_zero, zpow_one]; linarith
    have m : (2 : ℝ) ^ (-153 : ℤ) ≤ |(subR ieee l.pos s.p).get i / lengthR (subR ieee l.pos s.p)| := by
      rw [abs_div, abs_of_pos lp, le_div_iff₀ lp]
      calc (2 : ℝ) ^ (-153 : ℤ) * lengthR (subR ieee l.pos s.p) ≤ 2 ^ (-153 : ℤ) * 2 ^ (53 : ℤ) := mul_le_mul_of_nonneg_left le2 (two_zpow_pos _).le
        _ = 2 ^ (-100 : ℤ) := by rw [← zpow_add₀ two_ne_zero]; norm_num
        _ ≤ _ := h0
    have nrm := normal_of (l := -153) (by norm_num) m
    refine ⟨e2.round nrm, ?_⟩
    have hd : IsDouble ((2 : ℝ) ^ (-153 : ℤ)) := ⟨1, -153, by norm_num, by norm_num, by simp⟩
    refine grid_of (l := -153) (isDouble_double _) ?_
    rcases le_abs.1 m with h | h
    · have := double_mono h
      rw [double_of_isDouble hd] at this
      exact this.trans (le_abs_self _)
    · have := double_mono h
      rw [double_of_isDouble hd, double_neg] at this
      exact this.trans (neg_le_abs _)

theorem cauchy (a b : V3 ℝ) : (|a.x| * |b.x| + |a.y| * |b.y| + |a.z| * |b.z|) ^ 2 ≤ sqLength a * sqLength b := by
  have e : ∀ x : ℝ, |x| * |x| = x * x := abs_mul_abs_self
  simp only [sqLength]
  rw [← e a.x, ← e a.y, ← e a.z, ← e b.x, ← e b.y, ← e b.z]
  nlinarith [sq_nonneg (|a.x| * |b.y| - |a.y| * |b.x|), sq_nonneg (|a.x| * |b.z| - |a.z| * |b.x|), sq_nonneg (|a.y| * |b.z| - |a.z| * |b.y|)]

theorem big_get {m : ℤ} {v : V3 ℝ} (h : BigV m v) (i : Fin 3) : Big m (v.get i) := by fin_cases i; exacts [h.1, h.2.1, h.2.2]

theorem cos_flt (hp : Place s.p) (h : LightOk s l) {n : V3 ℝ} (hn : NormalV n) {a : ℝ} (ha : DotR (l.wi s.p).get n.get [0, 1, 2] a) : Flt 17 (-659) a (cosAt n l s.p) 2 := by
  obtain ⟨-, p0, -⟩ := length_flt hp h
  set len := Geom.length (l.pos - s.p) with hlen
  have t : ∀ i ∈ [(0 : Fin 3), 1, 2], Flt 14 (-659) ((l.wi s.p).get i * n.get i) ((l.pos - s.p).get i / len * n.get i) (|(l.pos - s.p).get i / len| * |n.get i|) := fun i _ => by
    have f := wi_flt hp h i
    have g := (big_get hn.1 i).grid
    exact ⟨by simpa using f.err.mul (Err.refl (n.get i)), (f.grid.mul g).mono (by norm_num)⟩
  have f := ha.flt (by norm_num) t
  simp only [List.map_cons, List.map_nil, List.sum_cons, List.sum_nil, add_zero, List.length_cons, List.length_nil] at f
  have e : (l.pos - s.p).get 0 / len * n.get 0 + ((l.pos - s.p).get 1 / len * n.get 1 + (l.pos - s.p).get 2 / len * n.get 2) = cosAt n l s.p := by
    rw [cosAt, dot, ← hlen]; simp only [V3.get]; ring
  rw [e] at f
  refine f.mono (by norm_num) ?_
  set w : V3 ℝ := ⟨(l.pos - s.p).get 0 / len, (l.pos - s.p).get 1 / len, (l.pos - s.p).get 2 / len⟩ with hw
  have c := cauchy w n
  have u : sqLength w = 1 := by
    have h2 : len * len = sqLength (l.pos - s.p) := Real.mul_self_sqrt (by simp only [sqLength]; nlinarith [mul_self_nonneg (l.pos - s.p).x, mul_self_nonneg (l.pos - s.p).y, mul_self_nonneg (l.pos - s.p).z])
    have : sqLength w = sqLength (l.pos - s.p) / (len * len) := by simp only [sqLength, hw, V3.get]; ring
    rw [this, ← h2, div_self (mul_pos p0 p0).ne']
  rw [u, one_mul] at c
  have c2 := c.trans hn.2
  have k : |w.x| * |n.x| + |w.y| * |n.y| + |w.z| * |n.z| ≤ 2 := abs_le_of_sq_le_sq' (by linarith) (by norm_num) |>.2
  calc _ = |w.x| * |n.x| + |w.y| * |n.y| + |w.z| * |n.z| := by simp only [hw, V3.get]; ring
    _ ≤ 2 := k

end light

theorem invpi_err : Err 3 INVPI (1 / Real.pi) (1 / Real.pi) ∧ 2 ^ (-2 : ℤ) ≤ 1 / Real.pi := by
  have p3 := Real.two_le_pi
  have p4 := Real.pi_le_four
  have e : Err 1 (double Real.pi) Real.pi |Real.pi| := (Err.refl Real.pi).round (normal_of (l := 0) (by norm_num) (by rw [abs_of_pos Real.pi_pos]; norm_num; linarith))
  obtain ⟨e1, b, -⟩ := recip (by norm_num) (l := 2) (by norm_num) (by norm_num) e (by rw [abs_of_pos Real.pi_pos]; norm_num; linarith) (by rw [abs_of_pos Real.pi_pos]; norm_num; exact p4)
  have q : 0 < 1 / Real.pi := by positivity
  rw [abs_of_pos q] at e1 b
  exact ⟨e1, b⟩

theorem paint_flt {r : ℝ} (hr : Strength r) : Flt 4 (-116) (double (0 + double (INVPI * r))) (r / Real.pi) (r / Real.pi) ∧ 0 ≤ r / Real.pi := by
  have n : 0 ≤ r / Real.pi := div_nonneg hr.1 Real.pi_pos.le
  refine ⟨?_, n⟩
  rw [zero_add, double_of_isDouble (isDouble_double _)]
  obtain ⟨e, b⟩ := invpi_err
  have q : 0 < 1 / Real.pi := by positivity
  have e2 := e.mul (Err.refl r)
  rw [abs_of_nonneg hr.1, one_div_mul_eq_div] at e2
  rcases hr.2.2 with rfl | h
  · rw [mul_zero, double_zero, zero_div]; exact ⟨Err.zero _, 0, by simp⟩
  have m : (2 : ℝ) ^ (-62 : ℤ) ≤ |r / Real.pi| := by
    have := abs_mul_pow (l := -2) (m := -60) (by rwa [abs_of_pos q]) h
    rwa [one_div_mul_eq_div] at this
  have e2' : Err (3 + 0) (INVPI * r) (r / Real.pi) |r / Real.pi| := by rw [abs_of_nonneg n]; exact e2
  have e3 := e2'.round (normal_of (l := -62 - 1) (by norm_num) (big_of (by norm_num) e2' m))
  have b := big_of (by norm_num) e3 m
  rw [abs_of_nonneg n] at e3
  exact ⟨e3, grid_of (isDouble_double _) b⟩

theorem pow40 (k : ℕ) (hk : k ≤ 100) : (1 + uu : ℝ) ^ k - 1 ≤ 2 ^ (-41 : ℤ) := by
  have := pow_small k hk
  have : (2 : ℝ) ^ (-45 : ℤ) ≤ 2 ^ (-41 : ℤ) := z2 (by norm_num)
  linarith

theorem eps_pos : (0 : ℝ) < EPS := by
  have : (2 : ℝ) ^ (-20 : ℤ) ≤ EPS := by
    have h : (2 : ℝ) ^ (-20 : ℤ) ≤ 1 / 100000 := by norm_num
    have := double_mono h
    rwa [double_of_isDouble ⟨1, -20, by norm_num, by norm_num, by simp⟩] at this
  exact (two_zpow_pos _).trans_le this

/-- the test for black is right, except at the limit -/
theorem above {k : ℕ} (hk : k ≤ 100) {xc x : ℝ} (h : Err k xc x x) (hx : EPS * (1 + 2 ^ (-40 : ℤ)) ≤ x) : ¬ xc < EPS := by
  have e := abs_le.1 h.1
  have p := pow40 k hk
  have x0 : 0 ≤ x := h.nonneg
  have m := mul_le_mul_of_nonneg_right p x0
  have ep := eps_pos
  have h40 : (2 : ℝ) ^ (-40 : ℤ) = 2 * 2 ^ (-41 : ℤ) := by rw [show (-40 : ℤ) = 1 + -41 by norm_num, zpow_add₀ two_ne_zero, zpow_one]
  rw [h40] at hx
  have t0 : (0 : ℝ) < 2 ^ (-41 : ℤ) := two_zpow_pos _
  have t1 : (2 : ℝ) ^ (-41 : ℤ) ≤ 1 / 4 := by norm_num
  generalize (2 : ℝ) ^ (-41 : ℤ) = t at *
  rw [not_lt]
  have : EPS * (1 + 2 * t) * (1 - t) ≤ x * (1 - t) := mul_le_mul_of_nonneg_right hx (by linarith)
  have : EPS ≤ EPS * (1 + 2 * t) * (1 - t) := by
    have : 0 ≤ EPS * (t * (1 - 2 * t)) := mul_nonneg ep.le (mul_nonneg t0.le (by linarith))
    linarith
  linarith

theorem below {k : ℕ} (hk : k ≤ 100) {xc x : ℝ} (h : Err k xc x x) (hx : x ≤ EPS * (1 - 2 ^ (-40 : ℤ))) : xc < EPS := by
  have e := abs_le.1 h.1
  have p := pow40 k hk
  have x0 : 0 ≤ x := h.nonneg
  have m := mul_le_mul_of_nonneg_right p x0
  have ep := eps_pos
  have h40 : (2 : ℝ) ^ (-40 : ℤ) = 2 * 2 ^ (-41 : ℤ) := by rw [show (-40 : ℤ) = 1 + -41 by norm_num, zpow_add₀ two_ne_zero, zpow_one]
  rw [h40] at hx
  have t0 : (0 : ℝ) < 2 ^ (-41 : ℤ) := two_zpow_pos _
  generalize (2 : ℝ) ^ (-41 : ℤ) = t at *
  have : x * (1 + t) ≤ EPS * (1 - 2 * t) * (1 + t) := mul_le_mul_of_nonneg_right hx (by linarith)
  have : EPS * (1 - 2 * t) * (1 + t) < EPS := by
    have : 0 < EPS * (t * (1 + 2 * t)) := mul_pos ep (mul_pos t0 (by linarith))
    linarith
  linarith

/-- the decision which side the light is on: right, or the light is at the horizon -/
theorem side {s : Spot ι} (hs : s.Ok) {l : PLight ι} (h : LightOk s l) {a b : ℝ} (ha : DotR (l.wi s.p).get s.ng.get [0, 1, 2] a) (hb : DotR s.wo.get s.ng.get [0, 1, 2] b) :
    (double (a * b) > 0 ↔ 0 < dot (l.pos - s.p) s.ng * dot s.wo s.ng) ∨ s.n = s.ng ∧ |cosAt s.ng l s.p| ≤ ((1 + uu) ^ 17 - 1) * 2 := by
  have fa := cos_flt hs.p h hs.ng ha
  obtain ⟨-, p0, -⟩ := length_flt hs.p h
  have fb : Flt 3 (-906) b (dot s.wo s.ng) (|s.wo.x| * |s.ng.x| + |s.wo.y| * |s.ng.y| + |s.wo.z| * |s.ng.z|) := by
    have t : ∀ i ∈ [(0 : Fin 3), 1, 2], Flt 0 (-906) (s.wo.get i * s.ng.get i) (s.wo.get i * s.ng.get i) (|s.wo.get i| * |s.ng.get i|) := fun i _ =>
      ⟨(Err.refl _).mul (Err.refl _), (big_get hs.wo i).grid.mul (big_get hs.ng.1 i).grid⟩
    have f := hb.flt (by norm_num) t
    simp only [List.map_cons, List.map_nil, List.sum_cons, List.sum_nil, add_zero, List.length_cons, List.length_nil, zero_add] at f
    rw [← add_assoc, ← add_assoc] at f
    exact f
  have sb : |b - dot s.wo s.ng| ≤ |dot s.wo s.ng| / 2 := by
    refine (fb.err.1.trans (mul_le_mul_of_nonneg_right g3 fb.err.nonneg)).trans ?_
    have := hs.side
    rw [show (-49 : ℤ) = 1 + -50 by norm_num, zpow_add₀ two_ne_zero, zpow_one] at this
    generalize (2 : ℝ) ^ (-50 : ℤ) = z at *
    linarith
  have b0 : (2 : ℝ) ^ (-61 : ℤ) ≤ |b| := by
    have := abs_sub_abs_le_abs_sub (dot s.wo s.ng) b
    rw [abs_sub_comm] at this
    have := hs.front
    rw [show (-61 : ℤ) = -60 - 1 by norm_num, ← half_pow]
    generalize (2 : ℝ) ^ (-60 : ℤ) = z at *
    linarith
  have bs : (0 < b ↔ 0 < dot s.wo s.ng) ∧ dot s.wo s.ng ≠ 0 := by
    have w0 : 0 < |dot s.wo s.ng| := (two_zpow_pos _).trans_le hs.front
    refine ⟨?_, abs_pos.1 w0⟩
    rcases lt_or_gt_of_ne (abs_pos.1 w0) with hw | hw
    · rw [abs_of_neg hw] at sb
      have := abs_le.1 sb
      constructor <;> intro <;> linarith
    · rw [abs_of_pos hw] at sb
      have := abs_le.1 sb
      constructor <;> intro <;> linarith
  have bn : b ≠ 0 := abs_pos.1 ((two_zpow_pos _).trans_le b0)
  have ab : double (a * b) > 0 ↔ 0 < a * b := by
    rcases fa.grid.zero_or with h0 | h0
    · rw [h0, zero_mul, double_zero]
    · have m : (2 : ℝ) ^ (-720 : ℤ) ≤ |a * b| := abs_mul_pow (l := -659) (m := -61) h0 b0
      have hd : IsDouble ((2 : ℝ) ^ (-720 : ℤ)) := ⟨1, -720, by norm_num, by norm_num, by simp⟩
      have z := two_zpow_pos (K := ℝ) (-720)
      constructor
      · intro hpos
        by_contra hneg
        rw [abs_of_nonpos (not_lt.1 hneg)] at m
        have := double_mono m
        rw [double_of_isDouble hd, double_neg] at this
        linarith
      · intro hpos
        rw [abs_of_pos hpos] at m
        have := double_mono m
        rw [double_of_isDouble hd] at this
        linarith
  have ec : dot (l.pos - s.p) s.ng = cosAt s.ng l s.p * Geom.length (l.pos - s.p) := by rw [cosAt, div_mul_cancel₀ _ p0.ne']
  have goal : |cosAt s.ng l s.p| ≤ ((1 + uu) ^ 17 - 1) * 2 ∨ (0 < a * b ↔ 0 < dot (l.pos - s.p) s.ng * dot s.wo s.ng) := by
    by_cases hc : |cosAt s.ng l s.p| ≤ ((1 + uu) ^ 17 - 1) * 2
    · exact Or.inl hc
    · right
      have hc := lt_of_le_of_lt fa.err.1 (not_le.1 hc)
      have as : (0 < a ↔ 0 < cosAt s.ng l s.p) ∧ a ≠ 0 ∧ cosAt s.ng l s.p ≠ 0 := by
        rcases lt_trichotomy (cosAt s.ng l s.p) 0 with hw | hw | hw
        · rw [abs_of_neg hw] at hc
          have := abs_lt.1 hc
          exact ⟨by constructor <;> intro <;> linarith, by intro h; rw [h] at this; linarith [this.2], hw.ne⟩
        · rw [hw, abs_zero] at hc
          exact absurd hc (not_lt.2 (abs_nonneg _))
        · rw [abs_of_pos hw] at hc
          have := abs_lt.1 hc
          exact ⟨by constructor <;> intro <;> linarith, by intro h; rw [h] at this; linarith [this.1], hw.ne'⟩
      rw [ec]
      obtain ⟨a1, a2, a3⟩ := as
      obtain ⟨b1, b2⟩ := bs
      have sg : ∀ x y : ℝ, x ≠ 0 → y ≠ 0 → (0 < x * y ↔ (0 < x ↔ 0 < y)) := fun x y hx hy => by
        rcases lt_or_gt_of_ne hx with h | h <;> rcases lt_or_gt_of_ne hy with h' | h'
        · exact ⟨fun _ => ⟨fun k => absurd k h.not_gt, fun k => absurd k h'.not_gt⟩, fun _ => mul_pos_of_neg_of_neg h h'⟩
        · exact ⟨fun k => absurd k (mul_neg_of_neg_of_pos h h').not_gt, fun k => absurd (k.2 h') h.not_gt⟩
        · exact ⟨fun k => absurd k (mul_neg_of_pos_of_neg h h').not_gt, fun k => absurd (k.1 h) h'.not_gt⟩
        · exact ⟨fun _ => ⟨fun _ => h', fun _ => h⟩, fun _ => mul_pos h h'⟩
      have a4 : 0 < cosAt s.ng l s.p * Geom.length (l.pos - s.p) ↔ 0 < cosAt s.ng l s.p := mul_pos_iff_of_pos_right p0
      rw [sg _ _ a2 bn, sg _ _ (mul_ne_zero a3 p0.ne') b2, a4, a1, b1]
  rw [ab]
  rcases h.clear with hc | hc
  · exact goal.symm.imp_right fun g => ⟨hc, g⟩
  · refine Or.inl (goal.resolve_left fun g => ?_)
    have : ((1 + uu : ℝ) ^ 17 - 1) * 2 ≤ 2 ^ (-46 : ℤ) := by
      have := g_le (K := ℝ) 17 (by norm_num)
      rw [uu] at this ⊢
      rw [show (-46 : ℤ) = 7 + -53 by norm_num, zpow_add₀ two_ne_zero]
      have := two_zpow_pos (K := ℝ) (-53)
      norm_num at *
    linarith

/-- what one light adds when it is not skipped -/
theorem term_flt {s : Spot ι} (hs : s.Ok) {l : PLight ι} (h : LightOk s l) {a : ℝ} (ha : DotR (l.wi s.p).get s.n.get [0, 1, 2] a) (k : ι) :
    Flt 34 (-993) (double (double (double (double (double (0 + double (INVPI * s.R k)) * l.li s.p k) * |a|) * 1) / 1))
      (s.R k / Real.pi * arriving l s.p k * |cosAt s.n l s.p|) (bound s l k) := by
  rw [mul_one, div_one, double_of_isDouble (isDouble_double _), double_of_isDouble (isDouble_double _)]
  have f1 := (paint_flt (hs.R k)).1.rmul (by norm_num) (li_flt hs.p h k).1
  have fa := cos_flt hs.p h hs.n ha
  have fb : Flt 17 (-659) |a| |cosAt s.n l s.p| 2 := by
    refine ⟨⟨(abs_abs_sub_abs_le _ _).trans fa.err.1, by rw [abs_abs]; exact fa.err.2⟩, ?_⟩
    rcases abs_choice a with e | e <;> rw [e]
    · exact fa.grid
    · exact fa.grid.neg
  exact f1.rmul (by norm_num) fb

theorem turn_flt {s : Spot ι} (hs : s.Ok) {l : PLight ι} (h : LightOk s l) (vis : PLight ι → Prop) {L L' : ι → ℝ} (ht : TurnR s l (vis l) L L') (k : ι) {m : ℕ} (hm : 52 ≤ m)
    {X B : ℝ} (hL : Flt m (-993) (L k) X B) (hd : IsDouble (L k)) : Flt (m + 1) (-993) (L' k) (X + lambert s vis l k) (B + bound s l k) ∧ IsDouble (L' k) := by
  classical
  obtain ⟨f, a, ⟨c, d, hc, hd', rfl⟩, ha, rfl⟩ := ht
  have t := term_flt hs h ha k
  have li := li_flt hs.p h
  have e0 : 0 ≤ s.R k / Real.pi * arriving l s.p k := mul_nonneg (paint_flt (hs.R k)).2 (li k).2
  have b0 : 0 ≤ bound s l k := mul_nonneg e0 (by norm_num)
  -- nothing is added
  have none : Flt m (-993) 0 (lambert s vis l k) (bound s l k) → Flt (m + 1) (-993) (L k) (X + lambert s vis l k) (B + bound s l k) := fun z => by
    have := hL.radd (by norm_num) z
    rwa [add_zero, double_of_isDouble hd] at this
  have zero : lambert s vis l k = 0 → Flt m (-993) 0 (lambert s vis l k) (bound s l k) := fun z => by
    rw [z]; exact ⟨⟨by simpa using mul_nonneg (by have := one_le_g (K := ℝ) m; linarith) b0, by simpa using b0⟩, 0, by simp⟩
  by_cases hbl : BlackR (l.li s.p)
  · simp only [if_pos hbl]
    refine ⟨none (zero ?_), hd⟩
    rw [lambert, lambertOf, if_neg]
    rintro ⟨-, ⟨j, hj⟩, -⟩
    rcases h.limit with ⟨i, hi⟩ | hall
    · exact above (by norm_num) (li i).1.err hi (hbl i)
    · have := hall j
      have := mul_pos eps_pos (two_zpow_pos (K := ℝ) (-40))
      linarith
  simp only [if_neg hbl]
  have bright : Bright l s.p := by
    rcases h.limit with ⟨i, hi⟩ | hall
    · exact ⟨i, by have := mul_pos eps_pos (two_zpow_pos (K := ℝ) (-40)); linarith⟩
    · exact absurd (fun i => below (by norm_num) (li i).1.err (hall i)) hbl
  by_cases hv : vis l
  swap
  · simp only [hv, and_false, if_false]
    refine ⟨none (zero ?_), hd⟩
    rw [lambert, lambertOf, if_neg (fun h => hv h.1)]
  by_cases hside : double (c * d) > 0
  · have nb : ¬ BlackR (fun k => double (0 + double (INVPI * s.R k))) := by
      obtain ⟨i, hi⟩ := hs.paint
      exact fun hb => above (by norm_num) (paint_flt (hs.R i)).1.err hi (hb i)
    simp only [if_pos hside, nb, not_false_eq_true, hv, and_self, if_true]
    refine ⟨?_, isDouble_double _⟩
    have key : Flt 52 (-993) (double (double (double (double (double (0 + double (INVPI * s.R k)) * l.li s.p k) * |a|) * 1) / 1)) (lambert s vis l k) (bound s l k) := by
      by_cases hx : 0 < dot (l.pos - s.p) s.ng * dot s.wo s.ng
      · rw [lambert, lambertOf, if_pos ⟨hv, bright, hx⟩]
        exact t.mono (by norm_num) le_rfl
      · rw [lambert, lambertOf, if_neg (fun h => hx h.2.2)]
        obtain ⟨en, hh⟩ := (side hs h hc hd').resolve_left (fun iff => hx (iff.1 hside))
        refine ⟨⟨?_, by simpa using b0⟩, t.grid⟩
        have e1 := t.err.1
        rw [en] at e1
        have e2 : s.R k / Real.pi * arriving l s.p k * |cosAt s.ng l s.p| ≤ ((1 + uu) ^ 17 - 1) * bound s l k := by
          rw [bound]
          refine (mul_le_mul_of_nonneg_left hh e0).trans (le_of_eq (by ring))
        have e3 : (0 : ℝ) ≤ s.R k / Real.pi * arriving l s.p k * |cosAt s.ng l s.p| := mul_nonneg e0 (abs_nonneg _)
        have e4 : ((1 + uu : ℝ) ^ 34 - 1) + ((1 + uu) ^ 17 - 1) ≤ (1 + uu) ^ 52 - 1 := by
          have p34 := one_le_g (K := ℝ) 34
          have p18 := one_le_g (K := ℝ) 18
          have p17 : (1 + uu : ℝ) ^ 17 ≤ (1 + uu) ^ 18 := pow_le_pow_right₀ (by have := uu_pos (K := ℝ); linarith) (by norm_num)
          rw [show 52 = 34 + 18 by norm_num, pow_add]
          nlinarith
        have e5 := mul_le_mul_of_nonneg_right e4 b0
        have a1 := abs_le.1 e1
        rw [sub_zero, abs_le]
        constructor <;> linarith
    exact hL.radd (by norm_num) (key.mono hm le_rfl)
  · have bb : BlackR (fun _ : ι => (0 : ℝ)) := fun _ => eps_pos
    simp only [if_neg hside, bb, not_true_eq_false, false_and, if_false]
    refine ⟨none ?_, hd⟩
    by_cases hx : 0 < dot (l.pos - s.p) s.ng * dot s.wo s.ng
    · rw [lambert, lambertOf, if_pos ⟨hv, bright, hx⟩]
      obtain ⟨en, hh⟩ := (side hs h hc hd').resolve_left (fun iff => hside (iff.2 hx))
      have e2 : s.R k / Real.pi * arriving l s.p k * |cosAt s.ng l s.p| ≤ ((1 + uu) ^ 17 - 1) * bound s l k := by
        rw [bound]
        refine (mul_le_mul_of_nonneg_left hh e0).trans (le_of_eq (by ring))
      have e3 : (0 : ℝ) ≤ s.R k / Real.pi * arriving l s.p k * |cosAt s.ng l s.p| := mul_nonneg e0 (abs_nonneg _)
      rw [en]
      refine ⟨⟨?_, ?_⟩, 0, by simp⟩
      · rw [zero_sub, abs_neg, abs_of_nonneg e3]
        refine e2.trans (mul_le_mul_of_nonneg_right ?_ b0)
        have : (1 + uu : ℝ) ^ 17 ≤ (1 + uu) ^ m := pow_le_pow_right₀ (by have := uu_pos (K := ℝ); linarith) (by omega)
        linarith
      · have := t.err.2
        rwa [en] at this
    · exact zero (by rw [lambert, lambertOf, if_neg (fun h => hx h.2.2)])

theorem loop_flt {s : Spot ι} (hs : s.Ok) (vis : PLight ι → Prop) (k : ι) : ∀ (ls : List (PLight ι)) (L L' : ι → ℝ), (∀ l ∈ ls, LightOk s l) → LoopR s vis ls L L' →
    ∀ (m : ℕ) (X B : ℝ), 52 ≤ m → Flt m (-993) (L k) X B → IsDouble (L k) →
      Flt (m + ls.length) (-993) (L' k) (X + (ls.map fun l => lambert s vis l k).sum) (B + (ls.map fun l => bound s l k).sum) ∧ IsDouble (L' k) := by
  intro ls
  induction ls with
  | nil =>
    intro L L' _ h m X B _ hL hd
    cases h
    simpa using ⟨hL, hd⟩
  | cons l ls ih =>
    intro L L' hl h m X B hm hL hd
    cases h with
    | cons _ _ _ L1 _ h1 h2 =>
      obtain ⟨f, d⟩ := turn_flt hs (hl l (by simp)) vis h1 k hm hL hd
      have := ih L1 L' (fun l' h' => hl l' (by simp [h'])) h2 (m + 1) _ _ (by omega) f d
      simp only [List.map_cons, List.sum_cons, List.length_cons]
      rw [← add_assoc X, ← add_assoc B, show m + (ls.length + 1) = m + 1 + ls.length by ring]
      exact this

/-- **C188** The radiance that the loop over the lights gives a matte spot is, in every channel, what Lambert's law with the inverse square gives for the lights that are not
occluded, on the side of the viewer and not too dim, up to `N + 52` units of `2^-52` of what these lights could add at most, for `N` lights. -/
theorem C188_lambert (s : Spot ι) (hs : s.Ok) (vis : PLight ι → Prop) (lights : List (PLight ι)) (hn : lights.length ≤ 2 ^ 50) (hl : ∀ l ∈ lights, LightOk s l) (L : ι → ℝ)
    (h : LoopR s vis lights (fun _ => 0) L) (k : ι) :
    |L k - (lights.map fun l => lambert s vis l k).sum| ≤ (lights.length + 52) * 2 ^ (-52 : ℤ) * (lights.map fun l => 2 * (s.R k / Real.pi * arriving l s.p k)).sum := by
  have z : Flt 52 (-993) (0 : ℝ) 0 0 := ⟨Err.zero _, 0, by simp⟩
  have f := (loop_flt hs vis k lights _ L hl h 52 0 0 le_rfl z isDouble_zero).1.err.rel (by omega)
  rw [zero_add, zero_add] at f
  have e : (lights.map fun l => bound s l k) = lights.map fun l => 2 * (s.R k / Real.pi * arriving l s.p k) := by
    congr 1; funext l; rw [bound]; ring
  rw [e] at f
  push_cast at f
  rw [add_comm (52 : ℝ)] at f
  exact f


/-! ### The normal of a triangle -/

theorem isDouble_neg_one : IsDouble (-1 : ℝ) := ⟨-1, 0, by norm_num, by norm_num, by norm_num⟩

theorem derivs_eq (p1 p2 p3 : V3 ℝ) : derivs p1 p2 p3 = (subR ieee (subR ieee p2 p3) (subR ieee p1 p3), -subR ieee p2 p3) := by
  have h1 : double (-1 : ℝ) = -1 := double_of_isDouble isDouble_neg_one
  have h2 : double (1 : ℝ) = 1 := double_of_isDouble isDouble_one
  have n1 : ∀ x y : ℝ, double (-double (x - y)) = -double (x - y) := fun x y => by rw [double_neg, double_of_isDouble (isDouble_double _)]
  have a : ∀ x y z : ℝ, combSub (-1) (double (x - z)) (-1) (double (y - z)) 1 = double (double (y - z) - double (x - z)) := fun x y z => by
    simp only [combSub, neg_mul, one_mul, mul_one, n1]
    rw [double_of_isDouble (isDouble_double _)]
    congr 1; ring
  have b : ∀ x y z : ℝ, combAdd 0 (double (x - z)) (-1) (double (y - z)) 1 = -double (y - z) := fun x y z => by
    simp only [combAdd, neg_mul, one_mul, mul_one, zero_mul, n1, double_zero, zero_add]
  have e1 : double (0 - 1 : ℝ) = -1 := by rw [zero_sub, h1]
  have e2 : double (1 - 1 : ℝ) = 0 := by rw [sub_self, double_zero]
  have e3 : double (double (-1 * -1 : ℝ) - double (0 * -1)) = 1 := by norm_num [double_zero, h2]
  have e4 : double (1 / 1 : ℝ) = 1 := by norm_num [h2]
  simp only [derivs, e1, e2, e3, e4, neg_zero]
  refine Prod.ext ?_ ?_
  · exact V3.ext (a _ _ _) (a _ _ _) (a _ _ _)
  · exact V3.ext (b _ _ _) (b _ _ _) (b _ _ _)

theorem dot_le (w v : V3 ℝ) {ε : ℝ} (h : ∀ i, |v.get i| ≤ ε) : |dot w v| ≤ (|w.x| + |w.y| + |w.z|) * ε := by
  have a := mul_le_mul_of_nonneg_left (h 0) (abs_nonneg w.x)
  have b := mul_le_mul_of_nonneg_left (h 1) (abs_nonneg w.y)
  have c := mul_le_mul_of_nonneg_left (h 2) (abs_nonneg w.z)
  refine (abs_add_three _ _ _).trans ?_
  rw [abs_mul, abs_mul, abs_mul]
  simp only [V3.get] at a b c
  linarith

/-- a triangle in the ranges: corners, the sides from the third corner at most `E` in each coordinate, and `G` bounds how thin it is -/
structure TriOk (p1 p2 p3 : V3 ℝ) (E G : ℝ) : Prop where
  c1 : Place p1
  c2 : Place p2
  c3 : Place p3
  e1 : ∀ i, |(p1 - p3).get i| ≤ E
  e2 : ∀ i, |(p2 - p3).get i| ≤ E
  pos : 0 < E
  wide : E * E ≤ G * Geom.length (cross (p1 - p3) (p2 - p3))
  thin : G ≤ 2 ^ (40 : ℤ)

section triangle
variable {p1 p2 p3 : V3 ℝ} {E G : ℝ}

theorem place_diff {a b : V3 ℝ} (ha : Place a) (hb : Place b) (i : Fin 3) : Flt 1 (-100) ((subR ieee a b).get i) ((a - b).get i) |(a - b).get i| := by
  rw [sub_get, sub_get']
  exact Flt.diff (by norm_num) (ha i).1 (hb i).1

theorem cross_err (h : TriOk p1 p2 p3 E G) (i : Fin 3) :
    Flt 5 (-200) ((crossR (derivs p1 p2 p3).1 (derivs p1 p2 p3).2).get i) ((cross (p1 - p3) (p2 - p3)).get i) (4 * (E * E)) ∧
    IsDouble ((crossR (derivs p1 p2 p3).1 (derivs p1 p2 p3).2).get i) := by
  rw [derivs_eq]
  set A := p1 - p3 with hA
  set B := p2 - p3 with hB
  have fA := fun i => place_diff h.c1 h.c3 i
  have fB := fun i => place_diff h.c2 h.c3 i
  have fu : ∀ i, Flt 2 (-100) ((subR ieee (subR ieee p2 p3) (subR ieee p1 p3)).get i) (B.get i - A.get i) (E + E) := fun i => by
    rw [sub_get]
    exact (((fB i).rsub (by norm_num) (fA i))).mono le_rfl (add_le_add (h.e2 i) (h.e1 i))
  have fv : ∀ i, Flt 1 (-100) ((-subR ieee p2 p3).get i) (-B.get i) E := fun i => by
    have e : (-subR ieee p2 p3).get i = -(subR ieee p2 p3).get i := by fin_cases i <;> rfl
    rw [e]
    exact ⟨(fB i).err.neg.mono le_rfl (h.e2 i), (fB i).grid.neg⟩
  have m : ∀ i j, Flt 4 (-200) (double ((subR ieee (subR ieee p2 p3) (subR ieee p1 p3)).get i * (-subR ieee p2 p3).get j)) ((B.get i - A.get i) * -B.get j) ((E + E) * E) := fun i j =>
    (fu i).rmul (by norm_num) (fv j)
  have d : ∀ i j i' j' (c : ℝ), (B.get i - A.get i) * -B.get j - (B.get i' - A.get i') * -B.get j' = c →
      Flt 5 (-200) (double (double ((subR ieee (subR ieee p2 p3) (subR ieee p1 p3)).get i * (-subR ieee p2 p3).get j) - double ((subR ieee (subR ieee p2 p3) (subR ieee p1 p3)).get i' * (-subR ieee p2 p3).get j'))) c (4 * (E * E)) := fun i j i' j' c hc => by
    have := (m i j).rsub (by norm_num) (m i' j')
    rw [hc] at this
    exact this.mono le_rfl (le_of_eq (by ring))
  refine ⟨?_, by fin_cases i <;> exact isDouble_double _⟩
  fin_cases i
  · refine d 1 2 2 1 _ ?_; simp only [cross, V3.get]; ring
  · refine d 2 0 0 2 _ ?_; simp only [cross, V3.get]; ring
  · refine d 0 1 1 0 _ ?_; simp only [cross, V3.get]; ring

theorem len_close {a b : V3 ℝ} {δ : ℝ} (h : ∀ i, |a.get i - b.get i| ≤ δ) : |Geom.length a - Geom.length b| ≤ 2 * δ := by
  have d0 : 0 ≤ δ := (abs_nonneg _).trans (h 0)
  have key : ∀ a b : V3 ℝ, (∀ i, |a.get i - b.get i| ≤ δ) → Geom.length a - Geom.length b ≤ 2 * δ := fun a b h => by
    have t := Geom.C06_length_triangle b (a - b)
    have e : b + (a - b) = a := V3.ext (by simp) (by simp) (by simp)
    rw [e] at t
    have s : Geom.length (a - b) ≤ 2 * δ := by
      rw [Geom.length]
      refine Real.sqrt_le_iff.2 ⟨by linarith, ?_⟩
      have q : ∀ i, (a.get i - b.get i) * (a.get i - b.get i) ≤ δ * δ := fun i => by
        rw [← abs_mul_abs_self]; exact mul_le_mul (h i) (h i) (abs_nonneg _) d0
      have q0 := q 0; have q1 := q 1; have q2 := q 2
      simp only [V3.get] at q0 q1 q2
      simp only [sqLength, V3.sub_x, V3.sub_y, V3.sub_z]
      nlinarith
    linarith
  have k1 := key a b h
  have k2 := key b a (fun i => by rw [abs_sub_comm]; exact h i)
  rw [abs_le]
  constructor <;> linarith

/-- the computed normal is within `2^-45 G` of the normal or its opposite, depending on the orientation, and in the ranges -/
theorem nn_close (h : TriOk p1 p2 p3 E G) (flip : Bool) :
    NormalV (nnR p1 p2 p3 flip) ∧ (1 / 3 : ℝ) ≤ G ∧ 0 < Geom.length (cross (p1 - p3) (p2 - p3)) ∧
    ∀ i, |(nnR p1 p2 p3 flip).get i - (if flip then -trueNormal p1 p2 p3 else trueNormal p1 p2 p3).get i| ≤ 2 ^ (-45 : ℤ) * G := by
  set c := crossR (derivs p1 p2 p3).1 (derivs p1 p2 p3).2 with hc
  set C := cross (p1 - p3) (p2 - p3) with hC
  have f := fun i => cross_err h i
  rw [← hc, ← hC] at f
  have EE : 0 < E * E := mul_pos h.pos h.pos
  have len0 : 0 ≤ Geom.length C := Real.sqrt_nonneg _
  have lp : 0 < Geom.length C := by
    rcases eq_or_lt_of_le len0 with e | e
    · have := h.wide; rw [← hC, ← e, mul_zero] at this; linarith
    · exact e
  have G0 : 0 < G := by
    by_contra hg
    have := mul_nonpos_of_nonpos_of_nonneg (not_lt.1 hg) len0
    have := h.wide
    linarith
  set δ : ℝ := 40 * uu * (E * E) with hδ
  have u0 := uu_pos (K := ℝ)
  have cl : ∀ i, |c.get i - C.get i| ≤ δ := fun i => by
    have := (f i).1.err.1
    have g := g_le (K := ℝ) 5 (by norm_num)
    refine this.trans ((mul_le_mul_of_nonneg_right g (by positivity)).trans (le_of_eq ?_))
    rw [hδ]; push_cast; ring
  have δG : δ ≤ 40 * uu * G * Geom.length C := by
    rw [hδ, mul_assoc _ G]
    exact mul_le_mul_of_nonneg_left h.wide (by positivity)
  have uG : 40 * uu * G ≤ 1 / 8 := by
    have : (uu : ℝ) * 2 ^ (40 : ℤ) = 2 ^ (-13 : ℤ) := by rw [uu, ← zpow_add₀ two_ne_zero]; norm_num
    have t := mul_le_mul_of_nonneg_left h.thin u0.le
    rw [this] at t
    norm_num at t ⊢
    linarith
  have δ8 : δ ≤ Geom.length C / 8 := by
    refine δG.trans ?_
    have := mul_le_mul_of_nonneg_right uG len0
    linarith
  have lc := abs_le.1 (len_close cl)
  have lcp : 0 < Geom.length c := by linarith
  have c0 : c ≠ 0 := by
    intro h0
    rw [h0] at lcp
    simp [Geom.length, sqLength] at lcp
  have big : ∀ i, Big (-200) (c.get i) := fun i => ⟨(f i).2, (f i).1.grid.zero_or⟩
  have Cle : ∀ i, |C.get i| ≤ 2 ^ (104 : ℤ) := by
    have b : ∀ {a : V3 ℝ}, Place a → ∀ i, |(a - p3).get i| ≤ 2 ^ (51 : ℤ) := fun {a} ha i => by
      rw [sub_get', show (51 : ℤ) = 50 + 1 by norm_num, zpow_add₀ two_ne_zero, zpow_one]
      have x := (ha i).2; have y := (h.c3 i).2
      have := abs_sub (a.get i) (p3.get i)
      linarith
    have m : ∀ i j, |(p1 - p3).get i * (p2 - p3).get j| ≤ 2 ^ (102 : ℤ) := fun i j => by
      rw [abs_mul, show (102 : ℤ) = 51 + 51 by norm_num, zpow_add₀ two_ne_zero]
      exact mul_le_mul (b h.c1 i) (b h.c2 j) (abs_nonneg _) (two_zpow_pos _).le
    have q : ∀ i j i' j', |(p1 - p3).get i * (p2 - p3).get j - (p1 - p3).get i' * (p2 - p3).get j'| ≤ 2 ^ (104 : ℤ) := fun i j i' j' => by
      have x := m i j; have y := m i' j'
      have := abs_sub ((p1 - p3).get i * (p2 - p3).get j) ((p1 - p3).get i' * (p2 - p3).get j')
      rw [show (104 : ℤ) = 2 + 102 by norm_num, zpow_add₀ two_ne_zero]
      have := two_zpow_pos (K := ℝ) 102
      norm_num only
      linarith
    intro i
    fin_cases i
    · exact q 1 2 2 1
    · exact q 2 0 0 2
    · exact q 0 1 1 0
  have small : SmallV c := by
    have k : ∀ i, |c.get i| ≤ 2 ^ (150 : ℤ) := fun i => by
      have a := abs_sub_abs_le_abs_sub (c.get i) (C.get i)
      have b := Cle i
      have d := cl i
      have lC2 : Geom.length C ≤ 4 * 2 ^ (104 : ℤ) := by
        rw [Geom.length]
        refine Real.sqrt_le_iff.2 ⟨by positivity, ?_⟩
        have q : ∀ i, C.get i * C.get i ≤ 2 ^ (104 : ℤ) * 2 ^ (104 : ℤ) := fun i => by
          rw [← abs_mul_abs_self]; exact mul_le_mul (Cle i) (Cle i) (abs_nonneg _) (two_zpow_pos _).le
        have q0 := q 0; have q1 := q 1; have q2 := q 2
        simp only [V3.get] at q0 q1 q2
        simp only [sqLength]
        nlinarith [mul_pos (two_zpow_pos (K := ℝ) 104) (two_zpow_pos (K := ℝ) 104)]
      have : (2 : ℝ) ^ (150 : ℤ) = 2 ^ (46 : ℤ) * 2 ^ (104 : ℤ) := by rw [← zpow_add₀ two_ne_zero]; norm_num
      rw [this]
      have := two_zpow_pos (K := ℝ) 104
      norm_num only
      linarith
    exact ⟨k 0, k 1, k 2⟩
  have bigV : BigV (-200) c := ⟨big 0, big 1, big 2⟩
  have nc := fun i => normalize_err bigV small c0 i
  have unit := C183_unit c bigV small c0
  have tn : ∀ i, (trueNormal p1 p2 p3).get i = C.get i / Geom.length C := fun i => by
    simp only [trueNormal, Geom.normalize, ← hC, if_pos lp.ne']
    fin_cases i <;> rfl
  -- the sides bound the area
  have G3 : (1 / 3 : ℝ) ≤ G := by
    have ca : ∀ i, |C.get i| ≤ 2 * (E * E) := by
      have m : ∀ i j, |(p1 - p3).get i * (p2 - p3).get j| ≤ E * E := fun i j => by
        rw [abs_mul]; exact mul_le_mul (h.e1 i) (h.e2 j) (abs_nonneg _) h.pos.le
      have q : ∀ i j i' j', |(p1 - p3).get i * (p2 - p3).get j - (p1 - p3).get i' * (p2 - p3).get j'| ≤ 2 * (E * E) := fun i j i' j' => by
        have x := m i j; have y := m i' j'
        have := abs_sub ((p1 - p3).get i * (p2 - p3).get j) ((p1 - p3).get i' * (p2 - p3).get j')
        linarith
      intro i
      fin_cases i
      · exact q 1 2 2 1
      · exact q 2 0 0 2
      · exact q 0 1 1 0
    have lagr : sqLength C ≤ 9 * ((E * E) * (E * E)) := by
      have : sqLength C ≤ sqLength (p1 - p3) * sqLength (p2 - p3) := by
        have : sqLength C = sqLength (p1 - p3) * sqLength (p2 - p3) - dot (p1 - p3) (p2 - p3) * dot (p1 - p3) (p2 - p3) := by
          rw [hC]; simp only [sqLength, cross, dot]; ring
        rw [this]; nlinarith [mul_self_nonneg (dot (p1 - p3) (p2 - p3))]
      have s : ∀ {a : V3 ℝ}, (∀ i, |a.get i| ≤ E) → sqLength a ≤ 3 * (E * E) := fun {a} ha => by
        have q : ∀ i, a.get i * a.get i ≤ E * E := fun i => by
          rw [← abs_mul_abs_self]; exact mul_le_mul (ha i) (ha i) (abs_nonneg _) h.pos.le
        have q0 := q 0; have q1 := q 1; have q2 := q 2
        simp only [V3.get] at q0 q1 q2
        simp only [sqLength]
        linarith
      refine this.trans ((mul_le_mul (s h.e1) (s h.e2) ?_ (by positivity)).trans (le_of_eq (by ring)))
      simp only [sqLength]; nlinarith [mul_self_nonneg (p2 - p3).x, mul_self_nonneg (p2 - p3).y, mul_self_nonneg (p2 - p3).z]
    have lC3 : Geom.length C ≤ 3 * (E * E) := by
      rw [Geom.length]
      refine Real.sqrt_le_iff.2 ⟨by positivity, lagr.trans (le_of_eq (by ring))⟩
    have w := h.wide
    rw [← hC] at w
    by_contra hg
    have hg := not_le.1 hg
    have : G * Geom.length C ≤ G * (3 * (E * E)) := mul_le_mul_of_nonneg_left lC3 G0.le
    nlinarith
  have close : ∀ i, |(normalizeR c).get i - (trueNormal p1 p2 p3).get i| ≤ 2 ^ (-45 : ℤ) * G := fun i => by
    rw [tn i]
    have n1 := (nc i).1.1
    have g9 := g_le (K := ℝ) 9 (by norm_num)
    have ci : |c.get i / Geom.length c| ≤ 1 := by
      rw [abs_div, abs_of_pos lcp, div_le_one lcp]
      rw [Geom.length]
      apply Real.le_sqrt_of_sq_le
      rw [sq_abs]
      simp only [sqLength]
      fin_cases i <;> simp only [V3.get] <;> nlinarith [mul_self_nonneg c.x, mul_self_nonneg c.y, mul_self_nonneg c.z]
    have n2 : |(normalizeR c).get i - c.get i / Geom.length c| ≤ 18 * uu := by
      refine n1.trans ((mul_le_mul g9 ci (abs_nonneg _) (by positivity)).trans (le_of_eq ?_))
      push_cast; ring
    have n3 : |c.get i / Geom.length c - C.get i / Geom.length C| ≤ 120 * uu * G := by
      have e : c.get i / Geom.length c - C.get i / Geom.length C = ((c.get i - C.get i) + c.get i / Geom.length c * (Geom.length C - Geom.length c)) / Geom.length C := by
        field_simp; ring
      rw [e, abs_div, abs_of_pos lp, div_le_iff₀ lp]
      refine (abs_add_le _ _).trans ?_
      rw [abs_mul]
      have l2 := len_close cl
      rw [abs_sub_comm] at l2
      have m := mul_le_mul ci l2 (abs_nonneg _) (by norm_num)
      have := cl i
      linarith
    have t : |(normalizeR c).get i - C.get i / Geom.length C| ≤ 18 * uu + 120 * uu * G := by
      have := abs_add_le ((normalizeR c).get i - c.get i / Geom.length c) (c.get i / Geom.length c - C.get i / Geom.length C)
      rw [sub_add_sub_cancel] at this
      linarith
    refine t.trans ?_
    have : (2 : ℝ) ^ (-45 : ℤ) = 256 * uu := by rw [uu, show (-45 : ℤ) = 8 + -53 by norm_num, zpow_add₀ two_ne_zero]; norm_num
    rw [this]
    nlinarith
  have unit4 : sqLength (normalizeR c) ≤ 4 := by
    have := (abs_le.1 unit).2
    have : (2 : ℝ) ^ (-46 : ℤ) ≤ 1 := zpow_le_one_of_nonpos₀ one_le_two (by norm_num)
    linarith
  refine ⟨?_, G3, lp, ?_⟩
  · cases flip
    · exact ⟨⟨(nc 0).2, (nc 1).2, (nc 2).2⟩, unit4⟩
    · have e : nnR p1 p2 p3 true = -normalizeR c := by
        simp only [nnR, ← hc, if_true]
        refine V3.ext ?_ ?_ ?_ <;> simp only [mul_neg, mul_one, V3.neg_x, V3.neg_y, V3.neg_z, double_neg, neg_inj] <;> refine double_of_isDouble ?_
        · exact (nc 0).2.1
        · exact (nc 1).2.1
        · exact (nc 2).2.1
      rw [e]
      refine ⟨⟨big_neg (nc 0).2, big_neg (nc 1).2, big_neg (nc 2).2⟩, ?_⟩
      have : sqLength (-normalizeR c) = sqLength (normalizeR c) := by simp [sqLength]
      rw [this]; exact unit4
  · cases flip
    · simpa [nnR, ← hc] using close
    · intro i
      have e : (nnR p1 p2 p3 true).get i = -(normalizeR c).get i := by
        simp only [nnR, ← hc, if_true]
        fin_cases i <;> simp only [V3.get, mul_neg, mul_one, double_neg, neg_inj] <;> refine double_of_isDouble ?_
        · exact (nc 0).2.1
        · exact (nc 1).2.1
        · exact (nc 2).2.1
      have e' : (-trueNormal p1 p2 p3).get i = -(trueNormal p1 p2 p3).get i := by fin_cases i <;> rfl
      rw [e, if_pos rfl, e', neg_sub_neg, abs_sub_comm]
      exact close i

end triangle

/-- **C188** The normal of a triangle, as it is computed, is that of the triangle (or its opposite if the orientation is reversed) up to `2^-45` times the shape factor of the
triangle, and has length one up to that. -/
theorem C188_normal (p1 p2 p3 : V3 ℝ) (E G : ℝ) (h : TriOk p1 p2 p3 E G) (flip : Bool) (i : Fin 3) :
    |(nnR p1 p2 p3 flip).get i - (if flip then -trueNormal p1 p2 p3 else trueNormal p1 p2 p3).get i| ≤ 2 ^ (-45 : ℤ) * G := (nn_close h flip).2.2.2 i

/-- the spot is on a triangle without normals of its own, in the ranges, not black, and seen from a direction that is clearly on one side -/
structure OnTri (s : Spot ι) (p1 p2 p3 : V3 ℝ) (E G : ℝ) : Prop where
  tri : TriOk p1 p2 p3 E G
  n : ∃ flip, s.n = nnR p1 p2 p3 flip ∧ s.ng = nnR p1 p2 p3 flip
  p : Place s.p
  wo : BigV (-400) s.wo
  R : ∀ k, Strength (s.R k)
  paint : ∃ k, EPS * (1 + 2 ^ (-40 : ℤ)) ≤ s.R k / Real.pi
  side : 2 ^ (-40 : ℤ) * G * (|s.wo.x| + |s.wo.y| + |s.wo.z|) ≤ |dot s.wo (trueNormal p1 p2 p3)|
  front : 2 ^ (-59 : ℤ) ≤ |dot s.wo (trueNormal p1 p2 p3)|

theorem cosAt_sub (l : PLight ι) (p a b : V3 ℝ) {ε : ℝ} (h : ∀ i, |a.get i - b.get i| ≤ ε) : |cosAt a l p - cosAt b l p| ≤ 2 * ε := by
  have e0 : 0 ≤ ε := (abs_nonneg _).trans (h 0)
  set D := l.pos - p with hD
  have hl0 : 0 ≤ Geom.length D := Real.sqrt_nonneg _
  rcases eq_or_lt_of_le hl0 with hz | hp
  · have : ∀ n, cosAt n l p = 0 := fun n => by rw [cosAt, ← hD, ← hz, div_zero]
    rw [this, this, sub_zero, abs_zero]; linarith
  rw [cosAt, cosAt, ← hD, ← sub_div, abs_div, abs_of_pos hp, div_le_iff₀ hp]
  have e : dot D a - dot D b = dot D (a - b) := by simp only [dot, V3.sub_x, V3.sub_y, V3.sub_z]; ring
  rw [e]
  refine (dot_le D (a - b) (fun i => by rw [sub_get']; exact h i)).trans ?_
  have k : |D.x| + |D.y| + |D.z| ≤ 2 * Geom.length D := by
    have h2 : Geom.length D * Geom.length D = sqLength D := Real.mul_self_sqrt (by simp only [sqLength]; nlinarith [mul_self_nonneg D.x, mul_self_nonneg D.y, mul_self_nonneg D.z])
    apply abs_le_of_sq_le_sq' _ (by linarith) |>.2
    have : (2 * Geom.length D) ^ 2 = 4 * sqLength D := by rw [← h2]; ring
    rw [this]
    simp only [sqLength]
    rw [← abs_mul_abs_self D.x, ← abs_mul_abs_self D.y, ← abs_mul_abs_self D.z]
    nlinarith [sq_nonneg (|D.x| - |D.y|), sq_nonneg (|D.x| - |D.z|), sq_nonneg (|D.y| - |D.z|), sq_nonneg |D.x|, sq_nonneg |D.y|, sq_nonneg |D.z|]
  have := mul_le_mul_of_nonneg_right k e0
  linarith

theorem lambert_neg (s : Spot ι) (N : V3 ℝ) (vis : PLight ι → Prop) (l : PLight ι) (k : ι) : lambert (s.facing (-N)) vis l k = lambert (s.facing N) vis l k := by
  have a : ∀ v : V3 ℝ, dot v (-N) = -dot v N := fun v => by simp only [dot, V3.neg_x, V3.neg_y, V3.neg_z]; ring
  change lambertOf s.p (-N) (-N) s.wo s.R vis l k = lambertOf s.p N N s.wo s.R vis l k
  classical
  simp only [lambertOf]
  refine if_congr (by rw [a, a, neg_mul_neg]) ?_ rfl
  rw [cosAt, cosAt, a, neg_div, abs_neg]

theorem lambert_congr (s : Spot ι) (vis vis' : PLight ι → Prop) (l : PLight ι) (k : ι) (h : vis l ↔ vis' l) : lambert s vis l k = lambert s vis' l k := by
  classical
  exact if_congr (and_congr_left' h) rfl rfl

/-- a normal that is nearly `N` gives nearly what `N` gives -/
theorem lambert_close (s : Spot ι) (hR : ∀ k, Strength (s.R k)) (n N : V3 ℝ) (hn : s.n = n ∧ s.ng = n) {ε : ℝ} (h : ∀ i, |n.get i - N.get i| ≤ ε)
    (hw : (|s.wo.x| + |s.wo.y| + |s.wo.z|) * ε < |dot s.wo N|) (vis : PLight ι → Prop) (l : PLight ι) (hI : ∀ k, 0 ≤ arriving l s.p k) (hl : 0 < Geom.length (l.pos - s.p)) (k : ι) :
    |lambert s vis l k - lambert (s.facing N) vis l k| ≤ ε * (2 * (s.R k / Real.pi * arriving l s.p k)) := by
  classical
  have e0 : 0 ≤ s.R k / Real.pi * arriving l s.p k := mul_nonneg (paint_flt (hR k)).2 (hI k)
  have ep : 0 ≤ ε := (abs_nonneg _).trans (h 0)
  have cd := cosAt_sub l s.p n N h
  have dw : |dot s.wo n - dot s.wo N| < |dot s.wo N| := by
    have e : dot s.wo n - dot s.wo N = dot s.wo (n - N) := by simp only [dot, V3.sub_x, V3.sub_y, V3.sub_z]; ring
    rw [e]
    exact (dot_le s.wo (n - N) (fun i => by rw [sub_get']; exact h i)).trans_lt hw
  have sgn : ∀ {x y : ℝ}, |x - y| < |y| → (0 < x ∧ 0 < y) ∨ (x < 0 ∧ y < 0) := fun {x y} hxy => by
    rcases lt_trichotomy y 0 with hy | hy | hy
    · rw [abs_of_neg hy] at hxy
      have := abs_lt.1 hxy
      exact Or.inr ⟨by linarith, hy⟩
    · rw [hy, abs_zero] at hxy
      exact absurd hxy (not_lt.2 (abs_nonneg _))
    · rw [abs_of_pos hy] at hxy
      have := abs_lt.1 hxy
      exact Or.inl ⟨by linarith, hy⟩
  have ec : ∀ v, dot (l.pos - s.p) v = cosAt v l s.p * Geom.length (l.pos - s.p) := fun v => by rw [cosAt, div_mul_cancel₀ _ hl.ne']
  have up : ε * (2 * (s.R k / Real.pi * arriving l s.p k)) = s.R k / Real.pi * arriving l s.p k * (2 * ε) := by ring
  rw [up]
  rw [lambert, hn.1, hn.2]
  change |lambertOf s.p n n s.wo s.R vis l k - lambertOf s.p N N s.wo s.R vis l k| ≤ _
  simp only [lambertOf]
  by_cases hv : vis l ∧ Bright l s.p
  swap
  · rw [if_neg (fun h => hv ⟨h.1, h.2.1⟩), if_neg (fun h => hv ⟨h.1, h.2.1⟩), sub_zero, abs_zero]
    positivity
  simp only [hv.1, hv.2, true_and]
  set M := s.R k / Real.pi * arriving l s.p k
  have near : ∀ {x y : ℝ}, |x - y| ≤ 2 * ε → abs (M * |x| - M * |y|) ≤ M * (2 * ε) := fun {x y} hxy => by
    rw [← mul_sub, abs_mul, abs_of_nonneg e0]
    exact mul_le_mul_of_nonneg_left ((abs_abs_sub_abs_le _ _).trans hxy) e0
  have wo := sgn dw
  have pl : ∀ v, 0 < dot (l.pos - s.p) v * dot s.wo v ↔ 0 < cosAt v l s.p * dot s.wo v := fun v => by
    rw [ec v, mul_right_comm]; exact mul_pos_iff_of_pos_right hl
  simp only [pl]
  -- opposite signs of the two cosines: both are tiny
  have opp : ∀ {x y : ℝ}, |x - y| ≤ 2 * ε → x * y ≤ 0 → |x| ≤ 2 * ε ∧ |y| ≤ 2 * ε := fun {x y} hxy hs => by
    have := abs_le.1 hxy
    constructor
    · rw [abs_le]
      rcases le_or_gt 0 x with hx | hx
      · refine ⟨by linarith, ?_⟩
        rcases eq_or_lt_of_le hx with hx0 | hx0
        · linarith
        · have : y ≤ 0 := by by_contra hy; exact absurd hs (not_le.2 (mul_pos hx0 (not_le.1 hy)))
          linarith
      · refine ⟨?_, by linarith⟩
        have : 0 ≤ y := by by_contra hy; exact absurd hs (not_le.2 (mul_pos_of_neg_of_neg hx (not_le.1 hy)))
        linarith
    · rw [abs_le]
      rcases le_or_gt 0 y with hy | hy
      · refine ⟨by linarith, ?_⟩
        rcases eq_or_lt_of_le hy with hy0 | hy0
        · linarith
        · have : x ≤ 0 := by by_contra hx; exact absurd hs (not_le.2 (mul_pos (not_le.1 hx) hy0))
          linarith
      · refine ⟨?_, by linarith⟩
        have : 0 ≤ x := by by_contra hx; exact absurd hs (not_le.2 (mul_pos_of_neg_of_neg (not_le.1 hx) hy))
        linarith
  by_cases h1 : 0 < cosAt n l s.p * dot s.wo n <;> by_cases h2 : 0 < cosAt N l s.p * dot s.wo N
  · rw [if_pos h1, if_pos h2]
    exact near cd
  · rw [if_pos h1, if_neg h2, sub_zero, abs_mul, abs_of_nonneg e0, abs_abs]
    refine mul_le_mul_of_nonneg_left (opp cd ?_).1 e0
    rcases wo with ⟨a, b⟩ | ⟨a, b⟩
    · have x := (mul_pos_iff_of_pos_right a).1 h1
      have y : cosAt N l s.p ≤ 0 := by by_contra hy; exact h2 (mul_pos (not_le.1 hy) b)
      exact mul_nonpos_of_nonneg_of_nonpos x.le y
    · have x : cosAt n l s.p < 0 := by by_contra hx; exact absurd h1 (not_lt.2 (mul_nonpos_of_nonneg_of_nonpos (not_lt.1 hx) a.le))
      have y : 0 ≤ cosAt N l s.p := by by_contra hy; exact h2 (mul_pos_of_neg_of_neg (not_le.1 hy) b)
      exact mul_nonpos_of_nonpos_of_nonneg x.le y
  · rw [if_neg h1, if_pos h2, zero_sub, abs_neg, abs_mul, abs_of_nonneg e0, abs_abs]
    refine mul_le_mul_of_nonneg_left (opp cd ?_).2 e0
    rcases wo with ⟨a, b⟩ | ⟨a, b⟩
    · have x := (mul_pos_iff_of_pos_right b).1 h2
      have y : cosAt n l s.p ≤ 0 := by by_contra hy; exact h1 (mul_pos (not_le.1 hy) a)
      exact mul_nonpos_of_nonpos_of_nonneg y x.le
    · have x : cosAt N l s.p < 0 := by by_contra hx; exact absurd h2 (not_lt.2 (mul_nonpos_of_nonneg_of_nonpos (not_lt.1 hx) b.le))
      have y : 0 ≤ cosAt n l s.p := by by_contra hy; exact h1 (mul_pos_of_neg_of_neg (not_le.1 hy) a)
      exact mul_nonpos_of_nonneg_of_nonpos y x.le
  · rw [if_neg h1, if_neg h2, sub_zero, abs_zero]
    positivity

theorem onTri_ok {s : Spot ι} {p1 p2 p3 : V3 ℝ} {E G : ℝ} (h : OnTri s p1 p2 p3 E G) : s.Ok ∧ s.n = s.ng ∧ ∃ N, (N = trueNormal p1 p2 p3 ∨ N = -trueNormal p1 p2 p3) ∧
    (∀ i, |s.n.get i - N.get i| ≤ 2 ^ (-45 : ℤ) * G) ∧ (|s.wo.x| + |s.wo.y| + |s.wo.z|) * (2 ^ (-45 : ℤ) * G) < |dot s.wo N| := by
  obtain ⟨flip, e1, e2⟩ := h.n
  obtain ⟨nv, G3, lp, cl⟩ := nn_close h.tri flip
  set N := (if flip then -trueNormal p1 p2 p3 else trueNormal p1 p2 p3) with hN
  have hN' : N = trueNormal p1 p2 p3 ∨ N = -trueNormal p1 p2 p3 := by rw [hN]; cases flip <;> simp
  have ab : |dot s.wo N| = |dot s.wo (trueNormal p1 p2 p3)| := by
    rcases hN' with e | e
    · rw [e]
    · have : dot s.wo N = -dot s.wo (trueNormal p1 p2 p3) := by rw [e]; simp only [dot, V3.neg_x, V3.neg_y, V3.neg_z]; ring
      rw [this, abs_neg]
  have f0 : 0 < |dot s.wo N| := by rw [ab]; exact (two_zpow_pos _).trans_le h.front
  set W := |s.wo.x| + |s.wo.y| + |s.wo.z| with hW
  have W0 : 0 ≤ W := by positivity
  have z40 : (2 : ℝ) ^ (-40 : ℤ) = 32 * 2 ^ (-45 : ℤ) := by rw [show (-40 : ℤ) = 5 + -45 by norm_num, zpow_add₀ two_ne_zero]; norm_num
  have z45 : (2 : ℝ) ^ (-45 : ℤ) = 16 * 2 ^ (-49 : ℤ) := by rw [show (-45 : ℤ) = 4 + -49 by norm_num, zpow_add₀ two_ne_zero]; norm_num
  have t0 : (0 : ℝ) < 2 ^ (-45 : ℤ) := two_zpow_pos _
  have sd := h.side
  rw [← hW, ← ab, z40] at sd
  have GW : 0 ≤ G * W := mul_nonneg (by linarith) W0
  have w32 : 32 * (W * (2 ^ (-45 : ℤ) * G)) ≤ |dot s.wo N| := by
    calc 32 * (W * (2 ^ (-45 : ℤ) * G)) = 32 * 2 ^ (-45 : ℤ) * G * W := by ring
      _ ≤ _ := sd
  have hw : W * (2 ^ (-45 : ℤ) * G) < |dot s.wo N| := by
    have : 0 ≤ W * (2 ^ (-45 : ℤ) * G) := by positivity
    rcases eq_or_lt_of_le this with e | e
    · rw [← e]; exact f0
    · linarith
  have dn : |dot s.wo s.ng - dot s.wo N| ≤ W * (2 ^ (-45 : ℤ) * G) := by
    have e : dot s.wo s.ng - dot s.wo N = dot s.wo (s.ng - N) := by simp only [dot, V3.sub_x, V3.sub_y, V3.sub_z]; ring
    rw [e]
    exact dot_le s.wo (s.ng - N) (fun i => by rw [sub_get', e2]; exact cl i)
  have lo : |dot s.wo N| / 2 ≤ |dot s.wo s.ng| := by
    have := abs_sub_abs_le_abs_sub (dot s.wo N) (dot s.wo s.ng)
    rw [abs_sub_comm] at this
    linarith
  refine ⟨⟨h.p, by rw [e1]; exact nv, by rw [e2]; exact nv, h.wo, h.R, h.paint, ?_, ?_⟩, e1.trans e2.symm, N, hN', by rw [e1]; exact cl, hw⟩
  · have nb : ∀ i, |s.ng.get i| ≤ 2 := by rw [e2]; exact comp_le (by linarith [nv.2]) (by norm_num)
    have a := mul_le_mul_of_nonneg_left (nb 0) (abs_nonneg s.wo.x)
    have b := mul_le_mul_of_nonneg_left (nb 1) (abs_nonneg s.wo.y)
    have c := mul_le_mul_of_nonneg_left (nb 2) (abs_nonneg s.wo.z)
    simp only [V3.get] at a b c
    have t : |s.wo.x| * |s.ng.x| + |s.wo.y| * |s.ng.y| + |s.wo.z| * |s.ng.z| ≤ 2 * W := by rw [hW]; linarith
    have t1 : (0 : ℝ) < 2 ^ (-49 : ℤ) := two_zpow_pos _
    rw [z45] at w32
    have m := mul_le_mul_of_nonneg_left t t1.le
    have gw : W / 3 ≤ W * G := by nlinarith
    have m2 := mul_le_mul_of_nonneg_left gw t1.le
    have e : 32 * (W * (16 * 2 ^ (-49 : ℤ) * G)) = 512 * (2 ^ (-49 : ℤ) * (W * G)) := by ring
    rw [e] at w32
    generalize (2 : ℝ) ^ (-49 : ℤ) = z at *
    have : 0 ≤ z * W := by positivity
    linarith
  · have := h.front
    rw [← ab] at this
    rw [show (-60 : ℤ) = -59 - 1 by norm_num, ← half_pow]
    generalize (2 : ℝ) ^ (-59 : ℤ) = z at *
    linarith

/-- what is asked of a light at a spot on a triangle -/
structure LampOk (p : V3 ℝ) (l : PLight ι) : Prop where
  pos : Place l.pos
  apart : l.pos ≠ p
  I : ∀ k, Strength (l.I k)
  limit : (∃ k, EPS * (1 + 2 ^ (-40 : ℤ)) ≤ arriving l p k) ∨ ∀ k, arriving l p k ≤ EPS * (1 - 2 ^ (-40 : ℤ))

theorem lamp_ok {s : Spot ι} (e : s.n = s.ng) {l : PLight ι} (h : LampOk s.p l) : LightOk s l := ⟨h.pos, h.apart, h.I, h.limit, Or.inl e⟩

theorem sum_close {α : Type*} (ls : List α) (f g B : α → ℝ) (c : ℝ) (h : ∀ a ∈ ls, |f a - g a| ≤ c * B a) : |(ls.map f).sum - (ls.map g).sum| ≤ c * (ls.map B).sum := by
  induction ls with
  | nil => simp
  | cons a ls ih =>
    have := ih fun b hb => h b (by simp [hb])
    have ha := h a (by simp)
    simp only [List.map_cons, List.sum_cons]
    rw [show f a + (ls.map f).sum - (g a + (ls.map g).sum) = (f a - g a) + ((ls.map f).sum - (ls.map g).sum) by ring]
    refine (abs_add_le _ _).trans ?_
    linarith

/-- **C188** A spot on a matte triangle, with the normal that the program computes for the triangle: the radiance is what Lambert's law gives for the true normal of the triangle, up
to `N + 52` units of `2^-52` and `2^-45` times the shape factor of the triangle. -/
theorem C188_triangle (s : Spot ι) (p1 p2 p3 : V3 ℝ) (E G : ℝ) (hs : OnTri s p1 p2 p3 E G) (vis : PLight ι → Prop) (lights : List (PLight ι)) (hn : lights.length ≤ 2 ^ 50)
    (hl : ∀ l ∈ lights, LampOk s.p l) (L : ι → ℝ) (h : LoopR s vis lights (fun _ => 0) L) (k : ι) :
    |L k - (lights.map fun l => lambert (s.facing (trueNormal p1 p2 p3)) vis l k).sum| ≤
      ((lights.length + 52) * 2 ^ (-52 : ℤ) + 2 ^ (-45 : ℤ) * G) * (lights.map fun l => 2 * (s.R k / Real.pi * arriving l s.p k)).sum := by
  obtain ⟨ok, en, N, hN, cl, hw⟩ := onTri_ok hs
  have a := C188_lambert s ok vis lights hn (fun l hm => lamp_ok en (hl l hm)) L h k
  have b := sum_close lights (fun l => lambert s vis l k) (fun l => lambert (s.facing N) vis l k) (fun l => 2 * (s.R k / Real.pi * arriving l s.p k)) (2 ^ (-45 : ℤ) * G)
    (fun l hm => lambert_close s hs.R s.n N ⟨rfl, en.symm⟩ cl hw vis l (fun k => (li_flt hs.p (lamp_ok en (hl l hm)) k).2) (length_flt hs.p (lamp_ok en (hl l hm))).2.1 k)
  have e : ∀ l, lambert (s.facing N) vis l k = lambert (s.facing (trueNormal p1 p2 p3)) vis l k := fun l => by
    rcases hN with e | e
    · rw [e]
    · rw [e, lambert_neg]
  simp only [e] at b
  have c := abs_add_le (L k - (lights.map fun l => lambert s vis l k).sum) ((lights.map fun l => lambert s vis l k).sum - (lights.map fun l => lambert (s.facing (trueNormal p1 p2 p3)) vis l k).sum)
  rw [sub_add_sub_cancel] at c
  rw [add_mul]
  linarith

theorem len_symm (p q : V3 ℝ) : lengthR (subR ieee p q) = lengthR (subR ieee q p) := by
  have e : ∀ a b : ℝ, ieee.sub' a b * ieee.sub' a b = ieee.sub' b a * ieee.sub' b a := fun a b => by
    change double (a - b) * double (a - b) = double (b - a) * double (b - a)
    rw [← neg_sub b a, double_neg, neg_mul_neg]
  simp only [lengthR, sqLengthR, subR, e p.x, e p.y, e p.z]

/-- **C188** The shadow ray of the model is the segment to the light: it starts at the spot, its points divide the segment from the spot to the light in the ratio of the parameters, and
the last one is the light, up to `2^-47` of the distance in each coordinate. -/
theorem C188_shadow (p : V3 ℝ) (hp : Place p) (eps : ℝ) (l : PLight ι) (h : LampOk p l) :
    (shadowRay p eps l).o = p ∧ (shadowRay p eps l).mint = .fin eps ∧ ∃ m, 0 < m ∧ (shadowRay p eps l).maxt = .fin m ∧ |m - Geom.length (l.pos - p)| ≤ 2 ^ (-49 : ℤ) * Geom.length (l.pos - p) ∧
      ∀ t, 0 ≤ t → t ≤ m → ∀ i : Fin 3, |(V3.rayAt p (rayDir (shadowRay p eps l)) t).get i - (p.get i + t / m * (l.pos.get i - p.get i))| ≤ 2 ^ (-47 : ℤ) * |l.pos.get i - p.get i| := by
  let s : Spot ι := ⟨p, ⟨0, 0, 0⟩, ⟨0, 0, 0⟩, ⟨0, 0, 0⟩, fun _ => 0⟩
  have ok : LightOk s l := ⟨h.pos, h.apart, h.I, h.limit, Or.inl rfl⟩
  obtain ⟨e, p0, -⟩ := length_flt (s := s) hp ok
  obtain ⟨b1, -⟩ := err_pos (by norm_num) e p0
  change Err 6 (lengthR (subR ieee l.pos p)) (Geom.length (l.pos - p)) _ at e
  change 0 < Geom.length (l.pos - p) at p0
  change Geom.length (l.pos - p) / 2 ≤ lengthR (subR ieee l.pos p) at b1
  have lp : 0 < lengthR (subR ieee l.pos p) := by linarith
  refine ⟨rfl, rfl, lengthR (subR ieee l.pos p), lp, ?_, ?_, ?_⟩
  · change F.fin (double (lengthR (subR ieee p l.pos) * double (1 - 0))) = _
    rw [sub_zero, double_of_isDouble isDouble_one, mul_one, show double (lengthR (subR ieee p l.pos)) = _ from double_of_isDouble (isDouble_double _), len_symm]
  · have := e.rel (by norm_num)
    refine this.trans (mul_le_mul_of_nonneg_right ?_ p0.le)
    norm_num
  · intro t t0 t1 i
    have w := wi_flt (s := s) hp ok i
    change Flt 14 (-206) ((l.wi p).get i) ((l.pos - p).get i / Geom.length (l.pos - p)) |(l.pos - p).get i / Geom.length (l.pos - p)| at w
    have d : (V3.rayAt p (rayDir (shadowRay p eps l)) t).get i = p.get i + (l.wi p).get i * t := by
      simp only [shadowRay, segR, rayDir, PLight.wi, normalizeR, if_pos lp.ne', len_symm p l.pos]
      fin_cases i <;> rfl
    have pr := w.err.mul e
    have a : |(l.pos - p).get i / Geom.length (l.pos - p)| * Geom.length (l.pos - p) = |(l.pos - p).get i| := by
      rw [abs_div, abs_of_pos p0, div_mul_cancel₀ _ p0.ne']
    rw [div_mul_cancel₀ _ p0.ne', a] at pr
    have r := pr.rel (by norm_num)
    rw [sub_get'] at r
    generalize lengthR (subR ieee l.pos p) = m at *
    rw [d, show p.get i + (l.wi p).get i * t - (p.get i + t / m * (l.pos.get i - p.get i)) = t / m * ((l.wi p).get i * m - (l.pos.get i - p.get i)) by field_simp; ring, abs_mul,
      abs_of_nonneg (div_nonneg t0 lp.le)]
    have q : t / m ≤ 1 := (div_le_one lp).2 t1
    calc t / m * |(l.wi p).get i * m - (l.pos.get i - p.get i)| ≤ 1 * |(l.wi p).get i * m - (l.pos.get i - p.get i)| := mul_le_mul_of_nonneg_right q (abs_nonneg _)
      _ = _ := one_mul _
      _ ≤ _ := r
      _ ≤ _ := mul_le_mul_of_nonneg_right (by norm_num) (abs_nonneg _)

/-- **C188** The same with the shadows: in a scene of triangles under the hierarchy, where the segment to every light clearly misses all triangles or clearly meets one, exactly the
lights whose segment is free count.  `eps` is where the shadow rays start (`1e-3` of the distance of the hit, C184). -/
theorem C188_scene (cfg : Config ℝ) (tris : List (Tri ℝ)) (hne : tris ≠ []) (node : Node ℝ) (ordered : List (Tri ℝ)) (total : ℕ)
    (hb : buildG (decideR ieee cfg) tris tris.length (buildData Tri.bound tris) [] 0 = .ok (node, ordered, total)) (hh : node.height ≤ 64)
    (s : Spot ι) (p1 p2 p3 : V3 ℝ) (E G : ℝ) (hs : OnTri s p1 p2 p3 E G) (eps : ℝ) (lights : List (PLight ι)) (hn : lights.length ≤ 2 ^ 50)
    (hl : ∀ l ∈ lights, LampOk s.p l) (hsh : ∀ l ∈ lights, Free tris s.p eps l ∨ Blocked tris s.p eps l) :
    ∃ bvh, mkR ieee cfg Tri.bound tris = .ok bvh ∧ ∀ fuel ≥ total, ∀ L : ι → ℝ,
      LoopR s (fun l => bvh.intersectPR ieee (TriScene.dist (shadowRay s.p eps l) eps) (shadowRay s.p eps l) fuel = .ok false) lights (fun _ => 0) L → ∀ k,
        |L k - (lights.map fun l => lambert (s.facing (trueNormal p1 p2 p3)) (Free tris s.p eps) l k).sum| ≤
          ((lights.length + 52) * 2 ^ (-52 : ℤ) + 2 ^ (-45 : ℤ) * G) * (lights.map fun l => 2 * (s.R k / Real.pi * arriving l s.p k)).sum := by
  have nz : ∀ l : PLight ι, NoNegZero (shadowRay s.p eps l) := fun l => ⟨Or.inr rfl, Or.inr rfl, Or.inr rfl⟩
  have mt : ∀ l : PLight ι, (shadowRay s.p eps l).mint = .fin eps := fun l => rfl
  obtain ⟨bvh, -, -, hbvh, -⟩ := C181_scene cfg tris hne (shadowRay s.p eps (⟨s.p, s.R⟩ : PLight ι)) eps rfl (nz _) node ordered total hb hh
  refine ⟨bvh, hbvh, fun fuel hf L hL k => ?_⟩
  have vis : ∀ l ∈ lights, (bvh.intersectPR ieee (TriScene.dist (shadowRay s.p eps l) eps) (shadowRay s.p eps l) fuel = .ok false) ↔ Free tris s.p eps l := fun l hm => by
    constructor
    · intro hv
      refine (hsh l hm).resolve_right ?_
      rintro ⟨A, hA, t, slack, hc, hlt⟩
      obtain ⟨bvh', acc, res, h1, h2, -, -, -, h6⟩ := C181_scene cfg tris hne (shadowRay s.p eps l) eps (mt l) (nz l) node ordered total hb hh
      rw [hbvh] at h1
      cases h1
      have := (h2 fuel hf).2
      rw [hv, h6 A hA t slack hc hlt] at this
      cases this
    · intro hfree
      obtain ⟨bvh', h1, h2⟩ := C186_miss cfg tris hne (shadowRay s.p eps l) eps (mt l) (nz l) node ordered total hb hh hfree
      rw [hbvh] at h1
      cases h1
      exact (h2 fuel hf).2
  have t := C188_triangle s p1 p2 p3 E G hs _ lights hn hl L hL k
  have e : (lights.map fun l => lambert (s.facing (trueNormal p1 p2 p3)) (fun l => bvh.intersectPR ieee (TriScene.dist (shadowRay s.p eps l) eps) (shadowRay s.p eps l) fuel = .ok false) l k) =
      lights.map fun l => lambert (s.facing (trueNormal p1 p2 p3)) (Free tris s.p eps) l k := by
    refine List.map_congr_left fun l hm => ?_
    exact lambert_congr _ _ _ l k (vis l hm)
  rw [e] at t
  exact t

/-- **C188** A surface whose reflectance counts as black, or a scene without lights: nothing is added. -/
theorem C188_black (s : Spot ι) (hR : ∀ k, Strength (s.R k)) (dark : ∀ k, s.R k / Real.pi ≤ EPS * (1 - 2 ^ (-40 : ℤ))) (vis : PLight ι → Prop) (lights : List (PLight ι)) (L L' : ι → ℝ)
    (h : LoopR s vis lights L L') : L' = L := by
  classical
  induction h with
  | nil => rfl
  | cons l ls L L' L'' ht _ ih =>
    rw [ih]
    obtain ⟨f, a, ⟨c, d, -, -, rfl⟩, -, rfl⟩ := ht
    have bb : BlackR (fun _ : ι => (0 : ℝ)) := fun _ => eps_pos
    have bp : BlackR (fun k => double (0 + double (INVPI * s.R k))) := fun k => below (by norm_num) (paint_flt (hR k)).1.err (dark k)
    split_ifs <;> simp_all

/-- **C188** the loop always has an outcome: the relations of the model are not empty -/
theorem C188_total (s : Spot ι) (vis : PLight ι → Prop) : ∀ (lights : List (PLight ι)) (L : ι → ℝ), ∃ L', LoopR s vis lights L L'
  | [], L => ⟨L, .nil L⟩
  | l :: ls, L => by
    obtain ⟨a, ha⟩ := DotR.total (l.wi s.p).get s.ng.get [0, 1, 2]
    obtain ⟨b, hb⟩ := DotR.total s.wo.get s.ng.get [0, 1, 2]
    obtain ⟨c, hc⟩ := DotR.total (l.wi s.p).get s.n.get [0, 1, 2]
    obtain ⟨L', h⟩ := C188_total s vis ls _
    exact ⟨L', .cons l ls L _ L' ⟨_, c, ⟨a, b, ha, hb, rfl⟩, hc, rfl⟩ h⟩


/-- a concrete case: a spot of a triangle in the plane `z = 0`, seen from above, and a lamp two units above it -/
theorem place_of {x y z : ℝ} (hx : Grid (-100) x ∧ |x| ≤ 2 ^ (50 : ℤ)) (hy : Grid (-100) y ∧ |y| ≤ 2 ^ (50 : ℤ)) (hz : Grid (-100) z ∧ |z| ≤ 2 ^ (50 : ℤ)) : Place ⟨x, y, z⟩ := fun i => by
  fin_cases i; exacts [hx, hy, hz]

theorem quarter_grid (k : ℤ) (hk : |(k : ℝ) / 4| ≤ 2 ^ (50 : ℤ)) : Grid (-100) ((k : ℝ) / 4) ∧ |(k : ℝ) / 4| ≤ 2 ^ (50 : ℤ) := by
  refine ⟨Grid.mono (g := -2) (by norm_num) ⟨k, ?_⟩, hk⟩
  rw [zpow_neg]; norm_num; ring

noncomputable def demoSpot : Spot (Fin 3) := ⟨⟨1 / 4, 1 / 4, 0⟩, nnR ⟨1, 0, 0⟩ ⟨0, 1, 0⟩ ⟨0, 0, 0⟩ false, nnR ⟨1, 0, 0⟩ ⟨0, 1, 0⟩ ⟨0, 0, 0⟩ false, ⟨0, 0, 1⟩, fun _ => 1 / 2⟩
noncomputable def demoLamp : PLight (Fin 3) := ⟨⟨1 / 4, 1 / 4, 2⟩, fun _ => 8⟩

theorem big_of_double {x : ℝ} {l : ℤ} (h : IsDouble x) (hx : x = 0 ∨ 1 / 2 ≤ |x|) (hl : l ≤ -1) : Big l x := by
  refine ⟨h, hx.imp_right fun h => le_trans ?_ h⟩
  rw [show (1 / 2 : ℝ) = 2 ^ (-1 : ℤ) by norm_num]
  exact z2 hl

theorem eps_small : (EPS : ℝ) * (1 + 2 ^ (-40 : ℤ)) ≤ 1 / 10 := by
  have h : (EPS : ℝ) ≤ 1 / 32 := by
    have h : (1 / 100000 : ℝ) ≤ 1 / 32 := by norm_num
    have := double_mono h
    rwa [double_of_isDouble (x := 1 / 32) ⟨1, -5, by norm_num, by norm_num, by norm_num⟩] at this
  have := eps_pos
  have t : (1 + (2 : ℝ) ^ (-40 : ℤ)) ≤ 2 := by norm_num
  nlinarith

theorem demo_ok : OnTri demoSpot ⟨1, 0, 0⟩ ⟨0, 1, 0⟩ ⟨0, 0, 0⟩ 1 1 ∧ LampOk demoSpot.p demoLamp ∧ ∀ k, lambert (demoSpot.facing (trueNormal ⟨1, 0, 0⟩ ⟨0, 1, 0⟩ ⟨0, 0, 0⟩)) (fun _ => True) demoLamp k = 1 / Real.pi := by
  have q := fun k => quarter_grid k
  have b : ∀ x : ℝ, |x| ≤ 8 → |x| ≤ 2 ^ (50 : ℤ) := fun x h => h.trans (by norm_num)
  have g0 : Grid (-100) (0 : ℝ) ∧ |(0 : ℝ)| ≤ 2 ^ (50 : ℤ) := by simpa using q 0 (b _ (by norm_num))
  have g1 : Grid (-100) (1 : ℝ) ∧ |(1 : ℝ)| ≤ 2 ^ (50 : ℤ) := by have := q 4 (b _ (by norm_num)); norm_num at this ⊢; exact this
  have g2 : Grid (-100) (2 : ℝ) ∧ |(2 : ℝ)| ≤ 2 ^ (50 : ℤ) := by have := q 8 (b _ (by norm_num)); norm_num at this ⊢; exact this
  have g4 : Grid (-100) (1 / 4 : ℝ) ∧ |(1 / 4 : ℝ)| ≤ 2 ^ (50 : ℤ) := by have := q 1 (b _ (by norm_num)); norm_num at this ⊢; exact this
  have C : cross ((⟨1, 0, 0⟩ : V3 ℝ) - ⟨0, 0, 0⟩) (⟨0, 1, 0⟩ - ⟨0, 0, 0⟩) = ⟨0, 0, 1⟩ := by simp [cross]
  have lC : Geom.length (⟨0, 0, 1⟩ : V3 ℝ) = 1 := by simp [Geom.length, sqLength]
  have tn : trueNormal ⟨1, 0, 0⟩ ⟨0, 1, 0⟩ ⟨0, 0, 0⟩ = ⟨0, 0, 1⟩ := by
    rw [trueNormal, C, Geom.normalize]; simp [lC]
  have arr : ∀ k, arriving demoLamp demoSpot.p k = 2 := fun k => by simp [arriving, demoLamp, demoSpot, sqLength]; norm_num
  have len2 : Geom.length (demoLamp.pos - demoSpot.p) = 2 := by
    simp [demoLamp, demoSpot, Geom.length, sqLength]
  have str : ∀ x : ℝ, IsDouble x → 1 / 2 ≤ x → Strength x := fun x h hx => ⟨by linarith, big_of_double h (Or.inr (by rwa [abs_of_nonneg (by linarith)])) (by norm_num)⟩
  refine ⟨⟨⟨place_of g1 g0 g0, place_of g0 g1 g0, place_of g0 g0 g0, ?_, ?_, one_pos, ?_, ?_⟩, ⟨false, rfl, rfl⟩, place_of g4 g4 g0, ?_, ?_, ⟨0, ?_⟩, ?_, ?_⟩, ⟨place_of g4 g4 g2, ?_, ?_, ?_⟩, ?_⟩
  · intro i; fin_cases i <;> simp [V3.get]
  · intro i; fin_cases i <;> simp [V3.get]
  · rw [C, lC]
  · norm_num
  · exact ⟨big_of_double isDouble_zero (Or.inl rfl) (by norm_num), big_of_double isDouble_zero (Or.inl rfl) (by norm_num), big_of_double isDouble_one (Or.inr (by norm_num [demoSpot])) (by norm_num)⟩
  · intro k; exact str _ ⟨1, -1, by norm_num, by norm_num, by norm_num [demoSpot]⟩ le_rfl
  · have := eps_small
    have p4 := Real.pi_le_four
    refine this.trans ?_
    rw [le_div_iff₀ Real.pi_pos]
    change 1 / 10 * Real.pi ≤ 1 / 2
    linarith
  · rw [tn]; simp [demoSpot, dot]; norm_num
  · rw [tn]; simp [demoSpot, dot]; norm_num
  · intro h; have := congrArg V3.z h; simp [demoLamp, demoSpot] at this
  · intro k; exact str _ ⟨8, 0, by norm_num, by norm_num, by norm_num [demoLamp]⟩ (by norm_num [demoLamp])
  · refine Or.inl ⟨0, ?_⟩
    rw [arr]; exact eps_small.trans (by norm_num)
  · intro k
    have br : Bright demoLamp demoSpot.p := ⟨0, by rw [arr]; have := eps_small; have := mul_pos eps_pos (two_zpow_pos (K := ℝ) (-40)); linarith⟩
    rw [tn]
    change lambertOf demoSpot.p ⟨0, 0, 1⟩ ⟨0, 0, 1⟩ demoSpot.wo demoSpot.R (fun _ => True) demoLamp k = _
    rw [lambertOf, if_pos ⟨trivial, br, by simp [demoLamp, demoSpot, dot]⟩, arr, cosAt, len2]
    simp [demoLamp, demoSpot, dot]
    ring

/-- the shadow ray from that spot to that lamp -/
theorem demo_ray (e : ℝ) : shadowRay demoSpot.p e demoLamp = ⟨⟨1 / 4, 1 / 4, 0⟩, ⟨⟨0, false⟩, ⟨0, false⟩, ⟨1, false⟩⟩, .fin e, .fin 2⟩ := by
  have dd : ∀ (n : ℤ), |n| ≤ 2 ^ 53 → double (n : ℝ) = n := fun n h => double_of_isDouble ⟨n, 0, h, by norm_num, by simp⟩
  have d0 : double (0 : ℝ) = 0 := double_zero
  have d1 : double (1 : ℝ) = 1 := by simpa using dd 1 (by norm_num)
  have d2 : double (2 : ℝ) = 2 := by simpa using dd 2 (by norm_num)
  have d4 : double (4 : ℝ) = 4 := by simpa using dd 4 (by norm_num)
  have s1 : subR ieee demoSpot.p demoLamp.pos = ⟨0, 0, -2⟩ := by
    refine V3.ext ?_ ?_ ?_ <;> simp only [subR, demoSpot, demoLamp] <;> change double _ = _
    · rw [sub_self, d0]
    · rw [sub_self, d0]
    · rw [zero_sub, double_neg, d2]
  have s2 : subR ieee demoLamp.pos demoSpot.p = ⟨0, 0, 2⟩ := by
    refine V3.ext ?_ ?_ ?_ <;> simp only [subR, demoSpot, demoLamp] <;> change double _ = _
    · rw [sub_self, d0]
    · rw [sub_self, d0]
    · rw [sub_zero, d2]
  have sq : √(4 : ℝ) = 2 := by rw [show (4 : ℝ) = 2 ^ 2 by norm_num]; exact Real.sqrt_sq (by norm_num)
  have len : lengthR ⟨0, 0, -2⟩ = 2 := by
    simp only [lengthR, sqLengthR, mul_zero, d0, add_zero, zero_add]
    norm_num [d4, sq, d2]
  simp only [shadowRay, segR, s1, s2, len, zero_div, d0, sub_zero, d1, mul_one, d2, div_self (two_ne_zero' ℝ)]
  rfl

/-- the segment from that spot to that lamp is free: the triangle does not shadow itself -/
theorem demo_free {e : ℝ} (he : 1 / 1024 ≤ e) : Free [⟨⟨1, 0, 0⟩, ⟨0, 1, 0⟩, ⟨0, 0, 0⟩⟩] demoSpot.p e demoLamp := by
  have sr := demo_ray e
  intro c hc
  simp only [List.mem_singleton] at hc
  subst hc
  rw [sr]
  have g : ∀ {n : ℤ} {x : ℝ}, x = n * 2 ^ (-2 : ℤ) → Grid (-200) x := fun {n x} h => Grid.mono (show (-200 : ℤ) ≤ -2 by norm_num) ⟨n, h⟩
  have g0 : Grid (-200) (0 : ℝ) := g (n := 0) (by simp)
  have g1 : Grid (-200) (1 : ℝ) := g (n := 4) (by norm_num)
  have gq : Grid (-200) (1 / 4 : ℝ) := g (n := 1) (by norm_num)
  have tl : Shape.tol (⟨1, 0, 0⟩ : V3 ℝ) ⟨0, 1, 0⟩ ⟨0, 0, 0⟩ (TriScene.openRay ⟨⟨1 / 4, 1 / 4, 0⟩, ⟨⟨0, false⟩, ⟨0, false⟩, ⟨1, false⟩⟩, .fin e, .fin 2⟩ e) 1 1 = 2 ^ (-45 : ℤ) := by
    simp [Shape.tol, TriScene.openRay, rayDir, dot, cross]
  refine ⟨1, 1, 2 ^ (-45 : ℤ), 0, 1 / 4, 1 / 2, ⟨by norm_num, by norm_num, ⟨⟨g1, g0, g0⟩, ⟨g0, g1, g0⟩, ⟨g0, g0, g0⟩, ⟨gq, gq, g0⟩, ⟨g0, g0, g1⟩⟩, ?_, ?_, ?_, ?_⟩, ?_, tl.symm, by norm_num, ?_, Or.inr (Or.inl ?_)⟩
  · simp [Shape.Within]
  · simp [Shape.Within]
  · simp [Shape.Within, TriScene.openRay]; norm_num
  · simp [Shape.Within, TriScene.openRay, rayDir]
  · simp [Shape.Transversal, rayDir, dot, cross]
  · refine V3.ext ?_ ?_ ?_ <;> norm_num [V3.rayAt, Shape.bary, rayDir]
  · norm_num; norm_num at he; linarith

end Verif.MatteR
