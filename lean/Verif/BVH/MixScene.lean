import Verif.BVH.TriScene
import Verif.Shape.SphereParts

/-!
# Scenes of triangles, spheres and disks in rounded arithmetic (C196)

`BVH` over a mixture of triangles, spheres and disks: construction and queries as in `BVH/Rounded.lean` (C175), the tests of the objects as in `Shape/TriRounded.lean` (C180), `Shape/SphereRounded.lean`,
`Shape/SphereParts.lean` (C191, C194) and `Shape/DiskRounded.lean` (C190), the boxes as in `Xform/Rounded.lean` (C182), every operation rounded to binary64, with every order of summation in `numpy.dot`.
-/

namespace Verif.MixScene
open V3 BBox Verif.Rnd Verif.BVH Verif.XformR
open Verif.Xform (Transform M4 homog)
open Verif.Shape (Sphere Disk)
open Verif.TriScene (Tri openRay dist)
open Verif.DiskR (RayR Arctan2 lin_le homog_le vec_get pt_get)
open Verif.SphereR (RootsOk Res HitR)

/-! ### Model -/

/-- an object of the scene, with its `o2w` and `w2o` (`shape/__init__.py` 30-45) -/
inductive Obj
  | tri (q : Tri ℝ)
  | sphere (s : Sphere) (o2w w2o : Transform ℝ)
  | disk (s : Disk) (o2w w2o : Transform ℝ)

/-- `world_bound()` of an object may be `b` (`shape/triangle.py` 140-144, `shape/__init__.py` 63-64) -/
def BoundR : Obj → BBox ℝ → Prop
  | .tri q, b => b = q.bound
  | .sphere s o2w _, b => BoxR o2w s.objectBound b
  | .disk s o2w _, b => BoxR o2w s.objectBound b

/-- the outcome of `intersect` as far as the hierarchy sees it (`aggregate/primitive.py` 89-108) -/
def found : Res → Option ℝ
  | .hit t _ => some t
  | _ => none

/-- `intersect(r)` of an object may find the distance `x`, for a ray without an upper limit (see `C196_limit_*` for the limit); no `TypeError` from the roots -/
def DistR (at2 : ℝ → ℝ → ℝ) (roots : ℝ → ℝ → ℝ → Option (ℝ × ℝ)) (r : FRay ℝ) (mint : ℝ) : Obj → Option ℝ → Prop
  | .tri q, x => x = dist r mint q
  | .sphere s _ w2o, x => ∃ y, HitR at2 roots s w2o (openRay r mint) y ∧ y ≠ .typeError ∧ x = found y
  | .disk s _ w2o, x => ∃ q, RayR w2o (openRay r mint) q ∧ x = (DiskR.hitObjR at2 s q).map (·.1)

/-! ### Specification -/

/-- size of the terms in the corners of a transformed box -/
noncomputable def boxSize (m : M4 ℝ) (b : BBox ℝ) (i : Fin 4) : ℝ :=
  size m b.pMin i + (|m i 0| * |b.pMax.x - b.pMin.x| + |m i 1| * |b.pMax.y - b.pMin.y| + |m i 2| * |b.pMax.z - b.pMin.z|)

/-- the ray is between the planes `lo` and `hi` at the parameter `t`, by the margin -/
def ClearAxis (lo hi o d t slack L : ℝ) : Prop := 2 ^ (-48 : ℤ) * L + slack * |d| ≤ o + t * d - lo ∧ 2 ^ (-48 : ℤ) * L + slack * |d| ≤ hi - (o + t * d)

/-- the ray crosses the planes, which may coincide, at the parameter `t`, not too flatly -/
def ThinAxis (lo hi o d t slack L : ℝ) : Prop := lo ≤ o + t * d ∧ o + t * d ≤ hi ∧ d ≠ 0 ∧ 2 ^ (-48 : ℤ) * L ≤ slack * |d|

/-- the ray meets the box of an object, the images of whose corners are `o2w(b.pMin)` and `o2w(b.pMax)`, at the parameter `t`; `L` is a bound for the sizes of all numbers.  It is away from the faces, except
that the box may be flat in one direction -/
structure MeetsBox (o2w : Transform ℝ) (b : BBox ℝ) (r : FRay ℝ) (t slack L : ℝ) : Prop where
  affine : Affine o2w.m
  m : ∀ i j, Grid (-100) (o2w.m i j)
  pMin : ∀ i, Grid (-100) (b.pMin.get i)
  pMax : ∀ i, Grid (-100) (b.pMax.get i)
  order : b.pMin.x ≤ b.pMax.x ∧ b.pMin.y ≤ b.pMax.y ∧ b.pMin.z ≤ b.pMax.z
  o : ∀ i, Grid (-200) (r.o.get i)
  d : ∀ i, |(rayDir r).get i| ≤ 2 ^ (100 : ℤ)
  L0 : 0 < L
  size : ∀ i : Fin 3, boxSize o2w.m b i.castSucc ≤ L
  near : ∀ i, |(o2w.pt b.pMin).get i - r.o.get i| ≤ L ∧ |(o2w.pt b.pMax).get i - r.o.get i| ≤ L
  slack0 : 0 ≤ slack
  meets : (∀ i, ClearAxis ((o2w.pt b.pMin).get i) ((o2w.pt b.pMax).get i) (r.o.get i) ((rayDir r).get i) t slack L) ∨
    ∃ k : Fin 3, (∀ j : Fin 3, 0 ≤ o2w.m k.castSucc j.castSucc) ∧ ThinAxis ((o2w.pt b.pMin).get k) ((o2w.pt b.pMax).get k) (r.o.get k) ((rayDir r).get k) t slack L ∧
      ∀ i, i ≠ k → ClearAxis ((o2w.pt b.pMin).get i) ((o2w.pt b.pMax).get i) (r.o.get i) ((rayDir r).get i) t slack L

/-- the ray clearly hits a sphere, or the part of one, not after the parameter `e` (the conditions of C194); and it meets its box before `e` -/
structure ClearSphere (s : Sphere) (o2w w2o : Transform ℝ) (ε : ℝ) (r : FRay ℝ) (mint e : ℝ) : Prop where
  ex : ∃ τ0 τ1 κ σ δ t slack L, SphereR.RayOk w2o (openRay r mint) s.radius ∧ SphereR.Passes s w2o (openRay r mint) τ0 τ1 κ ε σ ∧
    SphereR.Place w2o (openRay r mint) τ0 σ δ ∧ SphereR.Place w2o (openRay r mint) τ1 σ δ ∧
    ((mint + σ ≤ τ0 ∧ SphereParts.Inside s (w2o.pt ((openRay r mint).pos τ0)) δ ∧ τ0 + σ ≤ e) ∨
     ((τ0 + σ < mint ∨ (mint + σ ≤ τ0 ∧ SphereParts.Outside s (w2o.pt ((openRay r mint).pos τ0)) δ)) ∧ mint + σ ≤ τ1 ∧ SphereParts.Inside s (w2o.pt ((openRay r mint).pos τ1)) δ ∧ τ1 + σ ≤ e)) ∧
    MeetsBox o2w s.objectBound r t slack L ∧ mint < t - slack ∧ t + slack ≤ e

/-- the ray clearly hits a disk not after the parameter `e` (the conditions of C190); and it meets its box before `e` -/
structure ClearDisk (s : Disk) (o2w w2o : Transform ℝ) (r : FRay ℝ) (mint e : ℝ) : Prop where
  ex : ∃ t σ δ slack L, DiskR.RayOk w2o (openRay r mint) ∧ DiskR.Crosses s w2o (openRay r mint) t σ δ ∧ mint + σ ≤ t ∧ DiskR.Inside s (w2o.pt ((openRay r mint).pos t)) δ ∧ 0 ≤ s.inner ∧ t + σ ≤ e ∧
    MeetsBox o2w s.objectBound r t slack L ∧ mint < t - slack ∧ t + slack ≤ e

/-- the ray clearly hits an object, not after the parameter `e` -/
def ClearHit (ε : ℝ) (r : FRay ℝ) (mint : ℝ) : Obj → ℝ → Prop
  | .tri q, e => ∃ t slack, TriScene.ClearHit r mint q t slack ∧ t + slack = e
  | .sphere s o2w w2o, e => ClearSphere s o2w w2o ε r mint e
  | .disk s o2w w2o, e => ClearDisk s o2w w2o r mint e

/-! ### Boxes -/

theorem box_flt {o2w : Transform ℝ} {b c : BBox ℝ} (ha : Affine o2w.m) (hm : ∀ i j, Grid (-100) (o2w.m i j)) (h1 : ∀ i, Grid (-100) (b.pMin.get i)) (h2 : ∀ i, Grid (-100) (b.pMax.get i))
    (h : BoxR o2w b c) (i : Fin 3) :
    Flt 4 (-200) (c.pMin.get i) ((o2w.pt b.pMin).get i) (boxSize o2w.m b i.castSucc) ∧ Flt 7 (-200) (c.pMax.get i) ((o2w.pt b.pMax).get i) (boxSize o2w.m b i.castSucc) := by
  obtain ⟨x, y, z, hp, hx, hy, hz, hc⟩ := h
  have g0 : Grid (-100) (0 : ℝ) := ⟨0, by simp⟩
  have fm : ∀ j, Flt 0 (-100) (o2w.m i.castSucc j) (o2w.m i.castSucc j) |o2w.m i.castSucc j| := fun j => Flt.refl (hm _ j)
  have k1 : Flt 4 (-200) (c.pMin.get i) (homog o2w.m b.pMin i.castSucc) (size o2w.m b.pMin i.castSucc) :=
    homog_flt (k := 0) (k' := 0) (g := -100) (g' := -100) (by norm_num) (by norm_num) (affine_pt ha hp i) (M := o2w.m) (N := fun i j => |o2w.m i j|)
      fm (x := b.pMin) (A := ⟨|b.pMin.x|, |b.pMin.y|, |b.pMin.z|⟩) (fun j => by rw [← abs_get]; exact Flt.refl (h1 j))
  have vec : ∀ {v w V : V3 ℝ} (_ : VecR o2w v w) (_ : ∀ j, Flt 1 (-100) (v.get j) (V.get j) |V.get j|),
      Flt 4 (-200) (w.get i) (o2w.m i.castSucc 0 * V.x + o2w.m i.castSucc 1 * V.y + o2w.m i.castSucc 2 * V.z)
        (|o2w.m i.castSucc 0| * |V.x| + |o2w.m i.castSucc 1| * |V.y| + |o2w.m i.castSucc 2| * |V.z|) := by
    intro v w V hv hV
    have := (hv i).flt (k := 1) (g := -200) (by norm_num) (x := fun j => o2w.m i.castSucc j.castSucc * V.get j) (A := fun j => |o2w.m i.castSucc j.castSucc| * |V.get j|)
      fun j _ => ⟨by have := (fm j.castSucc).err.mul (hV j).err; simpa using this, (hm _ _).mul (hV j).grid⟩
    simpa [V3.get, add_assoc] using this
  have dx := Flt.diff (g := -100) (by norm_num) (h2 0) (h1 0)
  have dy := Flt.diff (g := -100) (by norm_num) (h2 1) (h1 1)
  have dz := Flt.diff (g := -100) (by norm_num) (h2 2) (h1 2)
  change Flt 1 (-100) (double (b.pMax.x - b.pMin.x)) _ |b.pMax.x - b.pMin.x| at dx
  change Flt 1 (-100) (double (b.pMax.y - b.pMin.y)) _ |b.pMax.y - b.pMin.y| at dy
  change Flt 1 (-100) (double (b.pMax.z - b.pMin.z)) _ |b.pMax.z - b.pMin.z| at dz
  have z0 : Flt 1 (-100) (0 : ℝ) 0 |0| := (Flt.refl g0).mono (by norm_num) le_rfl
  have fx := vec (V := ⟨b.pMax.x - b.pMin.x, 0, 0⟩) hx fun j => by fin_cases j <;> [exact dx; exact z0; exact z0]
  have fy := vec (V := ⟨0, b.pMax.y - b.pMin.y, 0⟩) hy fun j => by fin_cases j <;> [exact z0; exact dy; exact z0]
  have fz := vec (V := ⟨0, 0, b.pMax.z - b.pMin.z⟩) hz fun j => by fin_cases j <;> [exact z0; exact z0; exact dz]
  simp only [mul_zero, abs_zero, add_zero, zero_add] at fx fy fz
  have fs := (k1.mono (show 4 ≤ 6 by norm_num) le_rfl).radd (by norm_num) ((fx.radd (by norm_num) fy).radd (by norm_num) (fz.mono (show 4 ≤ 5 by norm_num) le_rfl))
  rw [← hc i] at fs
  constructor
  · rw [pt_get ha]
    refine k1.mono le_rfl ?_
    simp only [boxSize]
    have := abs_nonneg (o2w.m i.castSucc 0)
    have := abs_nonneg (o2w.m i.castSucc 1)
    have := abs_nonneg (o2w.m i.castSucc 2)
    have : 0 ≤ |o2w.m i.castSucc 0| * |b.pMax.x - b.pMin.x| + |o2w.m i.castSucc 1| * |b.pMax.y - b.pMin.y| + |o2w.m i.castSucc 2| * |b.pMax.z - b.pMin.z| := by positivity
    linarith
  · rw [pt_get ha]
    have e : homog o2w.m b.pMax i.castSucc = homog o2w.m b.pMin i.castSucc + (o2w.m i.castSucc 0 * (b.pMax.x - b.pMin.x) + o2w.m i.castSucc 1 * (b.pMax.y - b.pMin.y) + o2w.m i.castSucc 2 * (b.pMax.z - b.pMin.z)) := by
      simp only [homog]; ring
    rw [e]
    exact fs

theorem box_order {o2w : Transform ℝ} {b c : BBox ℝ} (ha : Affine o2w.m) (ho : b.pMin.x ≤ b.pMax.x ∧ b.pMin.y ≤ b.pMax.y ∧ b.pMin.z ≤ b.pMax.z) (h : BoxR o2w b c) {k : Fin 3}
    (hk : ∀ j : Fin 3, 0 ≤ o2w.m k.castSucc j.castSucc) : c.pMin.get k ≤ c.pMax.get k := by
  obtain ⟨x, y, z, hp, hx, hy, hz, hc⟩ := h
  have nn : ∀ {v : ℝ}, 0 ≤ v → 0 ≤ double v := fun {v} hv => by have := double_mono hv; rwa [double_zero] at this
  have hf : double (c.pMin.get k) = c.pMin.get k := by
    obtain ⟨s, -, e⟩ := affine_pt ha hp k
    rw [e]; exact double_of_isDouble (isDouble_double _)
  have ex : x.get k = double (o2w.m k.castSucc 0 * double (b.pMax.x - b.pMin.x)) :=
    (hx k).single 0 (by decide) (by decide) fun i _ hi => by fin_cases i <;> simp_all [V3.get]
  have ey : y.get k = double (o2w.m k.castSucc 1 * double (b.pMax.y - b.pMin.y)) :=
    (hy k).single 1 (by decide) (by decide) fun i _ hi => by fin_cases i <;> simp_all [V3.get]
  have ez : z.get k = double (o2w.m k.castSucc 2 * double (b.pMax.z - b.pMin.z)) :=
    (hz k).single 2 (by decide) (by decide) fun i _ hi => by fin_cases i <;> simp_all [V3.get]
  have nx : 0 ≤ x.get k := by rw [ex]; exact nn (mul_nonneg (hk 0) (nn (by linarith [ho.1])))
  have ny : 0 ≤ y.get k := by rw [ey]; exact nn (mul_nonneg (hk 1) (nn (by linarith [ho.2.1])))
  have nz : 0 ≤ z.get k := by rw [ez]; exact nn (mul_nonneg (hk 2) (nn (by linarith [ho.2.2])))
  have ns : 0 ≤ double (double (x.get k + y.get k) + z.get k) := nn (add_nonneg (nn (add_nonneg nx ny)) nz)
  rw [hc k, ← hf]
  conv_rhs => rw [hf]
  exact double_mono (by linarith)

/-- a slab that the ray crosses, up to `η`, at the parameter `t`: the test passes at a parameter near `t` -/
theorem axis_near {lo hi o t L η : ℝ} {d : Dir ℝ} (h : TriScene.Axis lo hi o d L) (hL : 0 < L) (η0 : 0 ≤ η) (h0 : d.val ≠ 0) (hle : lo ≤ hi) (h1 : lo - η ≤ o + t * d.val) (h2 : o + t * d.val ≤ hi + η) :
    ∃ τ, |τ - t| * |d.val| ≤ 2 ^ (-50 : ℤ) * L + η ∧ TriScene.Passes lo hi o d τ := by
  have k0 : 0 < (2 : ℝ) ^ (-50 : ℤ) * L := mul_pos (two_zpow_pos _) hL
  obtain ⟨a, b, e, hab, hc⟩ := TriScene.slab_planes h hle h0
  generalize (2 : ℝ) ^ (-50 : ℤ) * L = u at *
  have ea : (a - t) * |d.val| ≤ u + η := by
    rcases hc with ⟨hs, ha, hb⟩ | ⟨hs, ha, hb⟩
    · rw [abs_of_pos hs]; linarith [(abs_le.1 ha).2]
    · rw [abs_of_neg hs]; linarith [(abs_le.1 ha).1]
  have eb : (t - b) * |d.val| ≤ u + η := by
    rcases hc with ⟨hs, ha, hb⟩ | ⟨hs, ha, hb⟩
    · rw [abs_of_pos hs]; linarith [(abs_le.1 hb).1]
    · rw [abs_of_neg hs]; linarith [(abs_le.1 hb).2]
  have ok : ∀ τ, a ≤ τ → τ ≤ b → TriScene.Passes lo hi o d τ := by
    intro τ q1 q2
    rw [TriScene.Passes, e]
    exact ⟨⟨Or.inr (Or.inr ⟨a, q1, rfl⟩), Or.inr (Or.inr ⟨b, q2, rfl⟩)⟩, by simp, by simp⟩
  rcases le_total a t with h3 | h3
  · rcases le_total t b with h4 | h4
    · exact ⟨t, by simpa using by linarith, ok t h3 h4⟩
    · exact ⟨b, by rwa [abs_sub_comm, abs_of_nonneg (by linarith)], ok b hab le_rfl⟩
  · exact ⟨a, by rwa [abs_of_nonneg (by linarith)], ok a le_rfl hab⟩

theorem g7 : (1 + uu : ℝ) ^ 7 - 1 ≤ 2 ^ (-49 : ℤ) :=
  (sub_le_sub_right (pow_le_pow_right₀ (by have := uu_pos (K := ℝ); linarith) (show 7 ≤ 8 by norm_num)) 1).trans g8

/-- the computed box of an object is met near `t` -/
theorem meets_passes {o2w : Transform ℝ} {b c : BBox ℝ} {r : FRay ℝ} {t slack L : ℝ} (hr : NoNegZero r) (h : MeetsBox o2w b r t slack L) (hc : BoxR o2w b c) :
    ∃ τ, |τ - t| ≤ slack ∧ ∀ i, TriScene.Passes (c.pMin.get i) (c.pMax.get i) (r.o.get i) (r.d.get i) τ := by
  have L0 := h.L0
  have v : ∀ i, (r.d.get i).val = (rayDir r).get i := fun i => by fin_cases i <;> rfl
  have e49 : (2 : ℝ) ^ (-49 : ℤ) = 2 * 2 ^ (-50 : ℤ) := by norm_num
  have e48 : (2 : ℝ) ^ (-48 : ℤ) = 4 * 2 ^ (-50 : ℤ) := by norm_num
  have u0 : 0 < (2 : ℝ) ^ (-50 : ℤ) := two_zpow_pos _
  have u1 : (2 : ℝ) ^ (-50 : ℤ) ≤ 1 / 2 := by norm_num
  have eL : 0 < (2 : ℝ) ^ (-50 : ℤ) * L := by positivity
  have eL1 : (2 : ℝ) ^ (-50 : ℤ) * L ≤ 1 / 2 * L := mul_le_mul_of_nonneg_right u1 L0.le
  have eL2 : 2 * ((2 : ℝ) ^ (-50 : ℤ) * L) ≤ L := (mul_le_mul_of_nonneg_left eL1 zero_le_two).trans (le_of_eq (by ring))
  have err : ∀ i, |c.pMin.get i - (o2w.pt b.pMin).get i| ≤ 2 * (2 ^ (-50 : ℤ) * L) ∧ |c.pMax.get i - (o2w.pt b.pMax).get i| ≤ 2 * (2 ^ (-50 : ℤ) * L) := fun i => by
    obtain ⟨f1, f2⟩ := box_flt h.affine h.m h.pMin h.pMax hc i
    have f1 := f1.mono (show 4 ≤ 7 by norm_num) le_rfl
    have B : (2 : ℝ) ^ (-49 : ℤ) * boxSize o2w.m b i.castSucc ≤ 2 * (2 ^ (-50 : ℤ) * L) := by
      rw [e49, mul_assoc]
      exact mul_le_mul_of_nonneg_left (mul_le_mul_of_nonneg_left (h.size i) u0.le) (by norm_num)
    exact ⟨(f1.err.1.trans (mul_le_mul_of_nonneg_right g7 f1.err.nonneg)).trans B, (f2.err.1.trans (mul_le_mul_of_nonneg_right g7 f2.err.nonneg)).trans B⟩
  have ax : ∀ i, TriScene.Axis (c.pMin.get i) (c.pMax.get i) (r.o.get i) (r.d.get i) L := fun i => by
    obtain ⟨f1, f2⟩ := box_flt h.affine h.m h.pMin h.pMax hc i
    obtain ⟨n1, n2⟩ := h.near i
    refine ⟨f1.grid, f2.grid, h.o i, by rw [v]; exact h.d i, ?_, ?_, ?_⟩
    · fin_cases i
      · exact hr.1
      · exact hr.2.1
      · exact hr.2.2
    · have := abs_sub_le (c.pMin.get i) ((o2w.pt b.pMin).get i) (r.o.get i)
      exact this.trans ((add_le_add ((err i).1.trans eL2) n1).trans (le_of_eq (two_mul L).symm))
    · have := abs_sub_le (c.pMax.get i) ((o2w.pt b.pMax).get i) (r.o.get i)
      exact this.trans ((add_le_add ((err i).2.trans eL2) n2).trans (le_of_eq (two_mul L).symm))
  have clear : ∀ τ, |τ - t| ≤ slack → ∀ i, ClearAxis ((o2w.pt b.pMin).get i) ((o2w.pt b.pMax).get i) (r.o.get i) ((rayDir r).get i) t slack L →
      TriScene.Passes (c.pMin.get i) (c.pMax.get i) (r.o.get i) (r.d.get i) τ := fun τ hτ i hc => by
    obtain ⟨c1, c2⟩ := hc
    obtain ⟨r1, r2⟩ := err i
    have r1 := (abs_le.1 r1).2
    have r2 := (abs_le.1 r2).1
    have := mul_le_mul_of_nonneg_right hτ (abs_nonneg ((rayDir r).get i))
    rw [e48, mul_assoc] at c1 c2
    refine TriScene.axis_clear (t := t) (ax i) L0 ?_ ?_ <;> rw [v] <;> linarith
  rcases h.meets with hm | ⟨k, hk, ⟨t1, t2, t3, t4⟩, hm⟩
  · exact ⟨t, by simpa using h.slack0, fun i => clear t (by simpa using h.slack0) i (hm i)⟩
  · obtain ⟨r1, r2⟩ := err k
    have r1 := (abs_le.1 r1).2
    have r2 := (abs_le.1 r2).1
    have dk : 0 < |(rayDir r).get k| := abs_pos.2 t3
    obtain ⟨τ, hτ, hp⟩ := axis_near (t := t) (η := 2 * (2 ^ (-50 : ℤ) * L)) (ax k) L0 (by positivity) (by rw [v]; exact t3) (box_order h.affine h.order hc hk) (by rw [v]; linarith) (by rw [v]; linarith)
    rw [v] at hτ
    rw [e48, mul_assoc] at t4
    have hs : |τ - t| ≤ slack := le_of_mul_le_mul_right (by linarith) dk
    refine ⟨τ, hs, fun i => ?_⟩
    by_cases e : i = k
    · rw [e]; exact hp
    · exact clear τ hs i (hm i e)

/-- … and the box test passes -/
theorem meets_admits {o2w : Transform ℝ} {b c : BBox ℝ} {r : FRay ℝ} {mint t slack L e : ℝ} (hr : NoNegZero r) (hmint : r.mint = .fin mint) (h : MeetsBox o2w b r t slack L) (hc : BoxR o2w b c)
    (h1 : mint < t - slack) (h2 : t + slack ≤ e) (maxt : F ℝ) (hlt : F.lt (.fin e) maxt = true) : boxHitR ieee c { r with maxt := maxt } = true := by
  obtain ⟨τ, hτ, hp⟩ := meets_passes hr h hc
  obtain ⟨a1, a2⟩ := abs_le.1 hτ
  have px := hp 0
  have py := hp 1
  have pz := hp 2
  refine boxHitR_of_bounds ieee c { r with maxt := maxt } τ px.1 px.2 py.1 pz.1 ?_ ?_
  · change F.lt r.mint (.fin τ) = true
    rw [hmint]
    simp only [F.lt, decide_eq_true_eq]
    linarith
  · change F.lt (.fin τ) maxt = true
    exact TriScene.lt_of_le_lt (by linarith) hlt

/-! ### Objects -/

section
variable {at2 : ℝ → ℝ → ℝ} {roots : ℝ → ℝ → ℝ → Option (ℝ × ℝ)} {ε : ℝ} {r : FRay ℝ} {mint e : ℝ}

/-- an object that the ray clearly hits: its own test finds it, and the test of its box passes -/
theorem seen (h2 : Arctan2 at2) (hroots : RootsOk ε roots) (ε0 : 0 ≤ ε) (hr : NoNegZero r) (hmint : r.mint = .fin mint) {q : Obj} {b : BBox ℝ} {x : Option ℝ} (hb : BoundR q b)
    (hx : DistR at2 roots r mint q x) (h : ClearHit ε r mint q e) :
    (∃ s, x = some s ∧ s ≤ e) ∧ ∀ maxt, F.lt (.fin e) maxt = true → boxHitR ieee b { r with maxt := maxt } = true := by
  cases q with
  | tri q =>
    obtain ⟨t, slack, hc, rfl⟩ := h
    obtain ⟨s, hs, hst⟩ := TriScene.dist_clear hc
    have hb : b = q.bound := hb
    have hx : x = dist r mint q := hx
    subst hb hx
    exact ⟨⟨s, hs, by linarith [(abs_le.1 hst).2]⟩, fun maxt hm => TriScene.box_admits hr hmint hc maxt hm⟩
  | sphere s o2w w2o =>
    obtain ⟨τ0, τ1, κ, σ, δ, t, slack, L, ok, hp, p0, p1, hit, hm, m1, m2⟩ := h.ex
    obtain ⟨y, hy, -, rfl⟩ := hx
    refine ⟨?_, meets_admits hr hmint hm hb m1 m2⟩
    rcases hit with ⟨lo, hin, he⟩ | ⟨h0, lo, hin, he⟩
    · obtain ⟨t', p, p', rfl, -, ht, -⟩ := SphereParts.C194_near h2 hroots ε0 ok hp p0 ⟨lo, le_top⟩ hin y hy
      exact ⟨t', rfl, by linarith [(abs_le.1 ht).2]⟩
    · obtain ⟨t', p, p', rfl, -, ht, -⟩ := SphereParts.C194_far h2 hroots ε0 ok hp p0 p1 (h0.imp id fun h => ⟨⟨h.1, le_top⟩, h.2⟩) ⟨lo, le_top⟩ hin y hy
      exact ⟨t', rfl, by linarith [(abs_le.1 ht).2]⟩
  | disk s o2w w2o =>
    obtain ⟨t, σ, δ, slack, L, ok, hc, lo, hin, ri, he, hm, m1, m2⟩ := h.ex
    obtain ⟨q, hq, rfl⟩ := hx
    refine ⟨?_, meets_admits hr hmint hm hb m1 m2⟩
    obtain ⟨t', p, e', ht, -⟩ := DiskR.C190_hit h2 ok hq hc lo le_top hin ri
    exact ⟨t', by rw [e']; rfl, by linarith [(abs_le.1 ht).2]⟩

end

/-! ### Theorems -/

/-- **C196** a limit on the ray has no other effect on the test of an object than to drop a hit beyond it: so the hierarchy may keep the nearest distance in the ray.  Triangles … -/
theorem C196_limit_triangle (p1 p2 p3 : V3 ℝ) (ray : Shape.Ray ℝ) (m : WithTop ℝ) :
    Shape.coreR ieee p1 p2 p3 { ray with maxt := m } = (Shape.coreR ieee p1 p2 p3 { ray with maxt := ⊤ }).filter fun x => (x.1 : WithTop ℝ) ≤ m := by
  simp only [Shape.coreR]
  split_ifs with h1 h2 h3 h4 h5 h6
  · rfl
  · rfl
  · rfl
  · rfl
  · rw [Option.filter_some, if_neg]
    have := h4.resolve_left fun h => h5 (Or.inl h)
    simpa using this
  · exact absurd h6 (not_or.2 ⟨fun h => h4 (Or.inl h), not_top_lt⟩)
  · rw [Option.filter_some, if_pos]
    have := (not_or.1 h4).2
    simpa using this

/-- … spheres … -/
theorem C196_limit_sphere (at2 : ℝ → ℝ → ℝ) (roots : ℝ → ℝ → ℝ → Option (ℝ × ℝ)) (s : Sphere) (ray : Shape.Ray ℝ) (dot : ℝ) (m : WithTop ℝ) :
    SphereR.hitObjR at2 roots s { ray with maxt := m } dot = match SphereR.hitObjR at2 roots s { ray with maxt := ⊤ } dot with
      | .hit t p => if (t : WithTop ℝ) ≤ m then .hit t p else .miss
      | x => x := by
  have key : ∀ t0 t1 : ℝ, t0 ≤ t1 → SphereR.chooseR at2 s { ray with maxt := m } t0 t1 = match SphereR.chooseR at2 s { ray with maxt := ⊤ } t0 t1 with
      | .hit t p => if (t : WithTop ℝ) ≤ m then .hit t p else .miss
      | x => x := fun t0 t1 h01 => by
    have hc : (t0 : WithTop ℝ) ≤ t1 := WithTop.coe_le_coe.2 h01
    have n0 : ¬ (t0 : WithTop ℝ) > ⊤ := not_top_lt
    have n1 : ¬ (t1 : WithTop ℝ) > ⊤ := not_top_lt
    by_cases l1 : t1 < ray.mint
    · simp only [SphereR.chooseR]
      rw [if_pos (Or.inr l1), if_pos (Or.inr l1)]
    simp only [SphereR.chooseR]
    generalize hth : (if t0 < ray.mint then t1 else t0) = th
    rw [if_neg (not_or.2 ⟨n0, l1⟩ : ¬ ((t0 : WithTop ℝ) > ⊤ ∨ t1 < ray.mint)), if_neg (fun h => n1 h.2 : ¬ (t0 < ray.mint ∧ (t1 : WithTop ℝ) > ⊤))]
    by_cases l0 : t0 < ray.mint
    · rw [if_pos l0] at hth
      subst hth
      by_cases c : SphereR.ClippedR at2 s (SphereR.nudgeR s (atR ray.o ray.d t1))
      · rw [if_pos c, if_pos c, if_pos (Or.inl rfl), if_pos (Or.inl rfl)]
        split_ifs <;> rfl
      · rw [if_neg c, if_neg c]
        simp only
        by_cases k1 : (t1 : WithTop ℝ) ≤ m
        · rw [if_pos k1, if_neg (not_or.2 ⟨not_lt.2 (hc.trans k1), l1⟩), if_neg (fun h => not_lt.2 k1 h.2)]
        · rw [if_neg k1, if_pos (⟨l0, not_le.1 k1⟩ : t0 < ray.mint ∧ (t1 : WithTop ℝ) > m)]
          split_ifs <;> rfl
    · rw [if_neg l0] at hth
      subst hth
      rw [if_neg (fun h => l0 h.1 : ¬ (t0 < ray.mint ∧ (t1 : WithTop ℝ) > m))]
      by_cases c : SphereR.ClippedR at2 s (SphereR.nudgeR s (atR ray.o ray.d t0))
      · rw [if_pos c, if_pos c]
        by_cases e : t0 = t1
        · rw [if_pos (Or.inl e), if_pos (Or.inl e)]
          split_ifs <;> rfl
        rw [if_neg (not_or.2 ⟨e, n1⟩ : ¬ (t0 = t1 ∨ (t1 : WithTop ℝ) > ⊤))]
        by_cases c' : SphereR.ClippedR at2 s (SphereR.nudgeR s (atR ray.o ray.d t1))
        · rw [if_pos c']
          split_ifs <;> rfl
        · rw [if_neg c']
          simp only
          by_cases k1 : (t1 : WithTop ℝ) ≤ m
          · rw [if_pos k1, if_neg (not_or.2 ⟨not_lt.2 (hc.trans k1), l1⟩), if_neg (not_or.2 ⟨e, not_lt.2 k1⟩)]
          · rw [if_neg k1, if_pos (Or.inr (not_le.1 k1))]
            split_ifs <;> rfl
      · rw [if_neg c, if_neg c]
        simp only
        by_cases k0 : (t0 : WithTop ℝ) ≤ m
        · rw [if_pos k0, if_neg (not_or.2 ⟨not_lt.2 k0, l1⟩)]
        · rw [if_neg k0, if_pos (Or.inl (not_le.1 k0))]
  simp only [SphereR.hitObjR]
  split_ifs
  · rfl
  · rcases roots (SphereR.sqLenR ray.d) (double (2 * dot)) (double (SphereR.sqLenR ray.o - double (s.radius * s.radius))) with _ | ⟨t0, t1⟩
    · rfl
    · simp only
      by_cases hc : t0 > t1
      · rw [if_pos hc, if_pos hc]; exact key _ _ hc.le
      · rw [if_neg hc, if_neg hc]; exact key _ _ (not_lt.1 hc)

/-- … and disks. -/
theorem C196_limit_disk (at2 : ℝ → ℝ → ℝ) (s : Disk) (ray : Shape.Ray ℝ) (m : WithTop ℝ) :
    DiskR.hitObjR at2 s { ray with maxt := m } = (DiskR.hitObjR at2 s { ray with maxt := ⊤ }).filter fun x => (x.1 : WithTop ℝ) ≤ m := by
  simp only [DiskR.hitObjR]
  generalize double (double (s.height - ray.o.z) / ray.d.z) = t
  have nt : ¬ (t : WithTop ℝ) > ⊤ := not_top_lt
  by_cases h0 : |ray.d.z| < ShadowR.EPS
  · rw [if_pos h0, if_pos h0]; rfl
  rw [if_neg h0, if_neg h0]
  by_cases h1 : t < ray.mint
  · rw [if_pos (Or.inl h1), if_pos (Or.inl h1)]; rfl
  rw [if_neg (not_or.2 ⟨h1, nt⟩ : ¬ (t < ray.mint ∨ (t : WithTop ℝ) > ⊤))]
  by_cases hm : (t : WithTop ℝ) ≤ m
  · rw [if_neg (not_or.2 ⟨h1, not_lt.2 hm⟩ : ¬ (t < ray.mint ∨ (t : WithTop ℝ) > m))]
    split_ifs
    · rfl
    · rfl
    · rw [Option.filter_some, if_pos (by simpa using hm)]
  · rw [if_pos (Or.inr (not_le.1 hm) : t < ray.mint ∨ (t : WithTop ℝ) > m)]
    split_ifs
    · rfl
    · rfl
    · rw [Option.filter_some, if_neg (by simpa using hm)]

/-- **C196** a scene of triangles, spheres and disks in binary64: the boxes of the objects, the construction of the hierarchy, the box tests and the tests of the objects rounded, each sum of `numpy.dot` in any
order.  Let the hierarchy be built and be at most 64 levels high (otherwise see C38), let no component of the direction be `-0.0`, and let no roots raise `TypeError`.  Then the nearest-hit query does not fail.
If it reports a hit, the test of the reported object gave that distance, in the range of the ray.  Every object that the ray clearly hits before the end of its range is seen: a hit is reported, not farther than
that.  The any-hit query answers yes only if the test of some object does, and it does so whenever some object is clearly hit. -/
theorem C196_scene (at2 : ℝ → ℝ → ℝ) (h2 : Arctan2 at2) (roots : ℝ → ℝ → ℝ → Option (ℝ × ℝ)) (ε : ℝ) (hroots : RootsOk ε roots) (ε0 : 0 ≤ ε) (cfg : Config ℝ) (objs : List Obj) (hne : objs ≠ [])
    (wb : Obj → BBox ℝ) (hwb : ∀ q ∈ objs, BoundR q (wb q)) (r : FRay ℝ) (mint : ℝ) (hmint : r.mint = .fin mint) (hr : NoNegZero r)
    (d : Obj → Option ℝ) (hd : ∀ q ∈ objs, DistR at2 roots r mint q (d q)) (node : Node ℝ) (ordered : List Obj) (total : ℕ)
    (h : buildG (decideR ieee cfg) objs objs.length (buildData wb objs) [] 0 = .ok (node, ordered, total)) (hh : node.height ≤ 64) :
    ∃ bvh acc res, mkR ieee cfg wb objs = .ok bvh ∧
      (∀ fuel ≥ total, bvh.intersectR ieee d r fuel = .ok acc ∧ bvh.intersectPR ieee d r fuel = .ok res) ∧
      (acc = ⟨r.maxt, none, false⟩ ∨ ∃ q ∈ objs, ∃ s, DistR at2 roots r mint q (some s) ∧ acc = ⟨.fin s, some q, true⟩ ∧ F.le (.fin s) r.maxt = true) ∧
      (∀ q ∈ objs, ∀ e, ClearHit ε r mint q e → F.lt (.fin e) r.maxt = true → ∃ s p, acc = ⟨.fin s, some p, true⟩ ∧ s ≤ e) ∧
      (res = true → ∃ q ∈ objs, ∃ s, DistR at2 roots r mint q (some s) ∧ F.le (.fin s) r.maxt = true) ∧
      (∀ q ∈ objs, ∀ e, ClearHit ε r mint q e → F.lt (.fin e) r.maxt = true → res = true) := by
  obtain ⟨hperm, hpart, htight, htot⟩ := buildR_correct ieee cfg wb objs node ordered total h
  have hmono : MonoTest (boxHitR ieee) r := fun b b' maxt hs hb => C175_box_test ieee b b' { r with maxt := maxt } hr hs hb
  have hl' : objs.length ≠ 0 := by simpa using hne
  have hsl : slice ordered 0 ordered.length = ordered := by simp [slice]
  have hlow : Lower ordered d ⟨r.maxt, none, false⟩ (traverseG (boxHitR ieee) ordered d r node ⟨r.maxt, none, false⟩) :=
    TriScene.traverseG_lower _ _ _ _ _ _
  refine ⟨⟨ordered, some (preorder node 0)⟩, traverseG (boxHitR ieee) ordered d r node ⟨r.maxt, none, false⟩, traversePG (boxHitR ieee) ordered d r node, ?_, ?_, ?_, ?_, ?_, ?_⟩
  · simp only [mkR, hl', if_false, h, htot, C37_flatten_is_preorder node hpart.nonEmpty]
  · intro fuel hf
    constructor
    · obtain ⟨n, hn, hl⟩ := loopG_traverse (boxHitR ieee) (preorder node 0) ordered d r node 0 0 ordered.length (C37_layout node) hpart [] (by simpa using hh) ⟨r.maxt, none, false⟩
      have := hl (fuel - n)
      rw [show fuel - n + n = fuel by omega] at this
      simpa [Bvh.intersectR, contG] using this
    · obtain ⟨n, hn, hl⟩ := loopPG_traverse (boxHitR ieee) (preorder node 0) ordered d r node 0 0 ordered.length (C37_layout node) hpart [] (by simpa using hh)
      have := hl (fuel - n)
      rw [show fuel - n + n = fuel by omega] at this
      cases hres : traversePG (boxHitR ieee) ordered d r node <;> rw [hres] at this <;> simpa [Bvh.intersectPR, contPG] using this
  · rcases hlow with e | ⟨q, hq, s, hs, e, hle⟩
    · exact Or.inl e
    · have hq := hperm.mem_iff.1 hq
      exact Or.inr ⟨q, hq, s, hs ▸ hd q hq, e, hle⟩
  · intro q hq e hc hlt
    obtain ⟨⟨s, hs, hse⟩, hb⟩ := seen h2 hroots ε0 hr hmint (hwb q hq) (hd q hq) hc
    obtain ⟨-, k2⟩ := TriScene.traverseG_one (boxHitR ieee) wb ordered d r hmono q s e hs hse hb
      node 0 ordered.length hpart htight ⟨r.maxt, none, false⟩
    have k2 := k2 (by rw [hsl]; exact hperm.mem_iff.2 hq)
    rcases hlow with e' | ⟨p, hp, s', hs', e', hle⟩
    · rw [e'] at k2; rw [hlt] at k2; cases k2
    · rw [e'] at k2 ⊢
      refine ⟨s', p, rfl, ?_⟩
      simpa [F.lt] using k2
  · intro hres
    obtain ⟨q, hq, s, hs, hle⟩ := traversePG_sound _ ordered d r node hres
    have hq := hperm.mem_iff.1 hq
    exact ⟨q, hq, s, hs ▸ hd q hq, hle⟩
  · intro q hq e hc hlt
    obtain ⟨⟨s, hs, hse⟩, hb⟩ := seen h2 hroots ε0 hr hmint (hwb q hq) (hd q hq) hc
    refine TriScene.traversePG_one _ wb ordered d r hmono node 0 ordered.length hpart htight q (by rw [hsl]; exact hperm.mem_iff.2 hq) s hs ?_ (hb r.maxt hlt)
    generalize r.maxt = m at hlt
    cases m <;> simp_all [F.lt, F.le]
    linarith

/-- **C196** no hypothesis on the hierarchy: with at most 65 objects, the surface-area method and at most four objects per node it is always built, and is low enough -/
theorem C196_small_scene (at2 : ℝ → ℝ → ℝ) (h2 : Arctan2 at2) (roots : ℝ → ℝ → ℝ → Option (ℝ × ℝ)) (ε : ℝ) (hroots : RootsOk ε roots) (ε0 : 0 ≤ ε) (cfg : Config ℝ) (hm : cfg.middle = false) (hmax : cfg.maxPrim ≤ 4)
    (objs : List Obj) (hne : objs ≠ []) (hsmall : objs.length ≤ 65)
    (wb : Obj → BBox ℝ) (hwb : ∀ q ∈ objs, BoundR q (wb q)) (r : FRay ℝ) (mint : ℝ) (hmint : r.mint = .fin mint) (hr : NoNegZero r)
    (d : Obj → Option ℝ) (hd : ∀ q ∈ objs, DistR at2 roots r mint q (d q)) :
    ∃ bvh acc res total, mkR ieee cfg wb objs = .ok bvh ∧
      (∀ fuel ≥ total, bvh.intersectR ieee d r fuel = .ok acc ∧ bvh.intersectPR ieee d r fuel = .ok res) ∧
      (acc = ⟨r.maxt, none, false⟩ ∨ ∃ q ∈ objs, ∃ s, DistR at2 roots r mint q (some s) ∧ acc = ⟨.fin s, some q, true⟩ ∧ F.le (.fin s) r.maxt = true) ∧
      (∀ q ∈ objs, ∀ e, ClearHit ε r mint q e → F.lt (.fin e) r.maxt = true → ∃ s p, acc = ⟨.fin s, some p, true⟩ ∧ s ≤ e) ∧
      (res = true → ∃ q ∈ objs, ∃ s, DistR at2 roots r mint q (some s) ∧ F.le (.fin s) r.maxt = true) ∧
      (∀ q ∈ objs, ∀ e, ClearHit ε r mint q e → F.lt (.fin e) r.maxt = true → res = true) := by
  obtain ⟨hc, -, hl⟩ := buildData_consistent wb objs
  obtain ⟨⟨node, ordered, total⟩, h⟩ := buildG_ok (decideR ieee cfg) (fun d ds => by
      obtain ⟨r, hr⟩ := decideR_ok ieee cfg hm hmax d ds
      rcases r with _ | ⟨dim, l, mid⟩
      · exact Or.inl hr
      · exact Or.inr ⟨dim, l, mid, hr, decideR_spec ieee cfg d ds dim l mid hr⟩) wb objs objs.length (buildData wb objs) [] 0
    (by intro h; rw [h] at hl; exact hne (List.length_eq_zero_iff.1 hl.symm)) (by rw [hl]) hc
  have hh : node.height ≤ 64 := by
    obtain ⟨hperm, hpart, -, -⟩ := buildR_correct ieee cfg wb objs node ordered total h
    have h1 := hpart.count
    have h2 := height_lt_count hpart
    have := hperm.length_eq
    omega
  obtain ⟨bvh, acc, res, a⟩ := C196_scene at2 h2 roots ε hroots ε0 cfg objs hne wb hwb r mint hmint hr d hd node ordered total h hh
  exact ⟨bvh, acc, res, total, a⟩

/-- **C196** every object has a box, and (where the roots do not raise `TypeError`) an answer -/
theorem C196_total (at2 : ℝ → ℝ → ℝ) (roots : ℝ → ℝ → ℝ → Option (ℝ × ℝ)) (hroots : ∀ A B C, roots A B C ≠ none) (r : FRay ℝ) (mint : ℝ) (q : Obj) : (∃ b, BoundR q b) ∧ ∃ x, DistR at2 roots r mint q x := by
  have box : ∀ (t : Transform ℝ) (b : BBox ℝ), ∃ c, BoxR t b c := fun t b => by
    obtain ⟨⟨p, hp⟩, -⟩ := C182_total t t b.pMin
    obtain ⟨-, ⟨x, hx⟩, -⟩ := C182_total t t ⟨double (b.pMax.x - b.pMin.x), 0, 0⟩
    obtain ⟨-, ⟨y, hy⟩, -⟩ := C182_total t t ⟨0, double (b.pMax.y - b.pMin.y), 0⟩
    obtain ⟨-, ⟨z, hz⟩, -⟩ := C182_total t t ⟨0, 0, double (b.pMax.z - b.pMin.z)⟩
    refine ⟨⟨p, ⟨double (p.x + double (double (x.x + y.x) + z.x)), double (p.y + double (double (x.y + y.y) + z.y)), double (p.z + double (double (x.z + y.z) + z.z))⟩⟩, x, y, z, hp, hx, hy, hz, fun i => ?_⟩
    fin_cases i <;> rfl
  have ray : ∀ (t : Transform ℝ) (ray : Shape.Ray ℝ), ∃ q, RayR t ray q := fun t ray => by
    obtain ⟨⟨o, ho⟩, -⟩ := C182_total t t ray.o
    obtain ⟨-, ⟨d, hd⟩, -⟩ := C182_total t t ray.d
    exact ⟨⟨o, d, ray.mint, ray.maxt⟩, ho, hd, rfl, rfl⟩
  cases q with
  | tri q => exact ⟨⟨_, rfl⟩, _, rfl⟩
  | disk s o2w w2o =>
    obtain ⟨q, hq⟩ := ray w2o (openRay r mint)
    exact ⟨box o2w _, _, q, hq, rfl⟩
  | sphere s o2w w2o =>
    obtain ⟨q, hq⟩ := ray w2o (openRay r mint)
    obtain ⟨v, hv⟩ := DotR.total q.d.get q.o.get [0, 1, 2]
    refine ⟨box o2w _, _, _, ⟨q, v, hq, hv, rfl⟩, ?_, rfl⟩
    have ch : ∀ t0 t1, SphereR.chooseR at2 s q t0 t1 ≠ .typeError := fun t0 t1 => by
      simp only [SphereR.chooseR]
      generalize (if t0 < q.mint then t1 else t0) = th
      split_ifs <;> simp
    simp only [SphereR.hitObjR]
    have hn := hroots (SphereR.sqLenR q.d) (double (2 * v)) (double (SphereR.sqLenR q.o - double (s.radius * s.radius)))
    split_ifs
    · simp
    · rcases hroot : roots (SphereR.sqLenR q.d) (double (2 * v)) (double (SphereR.sqLenR q.o - double (s.radius * s.radius))) with _ | ⟨t0, t1⟩
      · exact absurd hroot hn
      · simp only
        split_ifs
        · exact ch _ _
        · exact ch _ _

/-! ### Concrete case -/

theorem ident_ok : Affine (Xform.ident : Transform ℝ).m ∧ ∀ i j, Grid (-100) ((Xform.ident : Transform ℝ).m i j) := by
  refine ⟨by simp [Affine, Xform.ident], fun i j => ?_⟩
  have : (Xform.ident : Transform ℝ).m i j = if i = j then 1 else 0 := by
    fin_cases i <;> fin_cases j <;> simp [Xform.ident]
  rw [this]
  split_ifs
  · exact Grid.mono (show (-100 : ℤ) ≤ 0 by norm_num) ⟨1, by norm_num⟩
  · exact ⟨0, by simp⟩

/-- a ray that looks down on a sphere, and a disk behind it -/
noncomputable def rayDown : FRay ℝ := ⟨⟨0, 0, 4⟩, ⟨⟨0, false⟩, ⟨0, false⟩, ⟨-1, false⟩⟩, .fin 0, .pinf⟩
noncomputable def plate : Disk := ⟨-3, 2, 0, DiskR.twoPi⟩

theorem ball_box : SphereR.ball.objectBound = ⟨⟨-1, -1, -1⟩, ⟨1, 1, 1⟩⟩ := by
  simp [Sphere.objectBound, SphereR.ball, BBox.ofPoints]

theorem plate_box : plate.objectBound = ⟨⟨-2, -2, -3⟩, ⟨2, 2, -3⟩⟩ := by
  simp [Disk.objectBound, plate, BBox.ofPoints]

theorem ident_pt (p : V3 ℝ) (i : Fin 3) : ((Xform.ident : Transform ℝ).pt p).get i = p.get i := by
  rw [pt_get ident_ok.1]
  fin_cases i <;> simp [homog, Xform.ident, V3.get]

/-- the sphere is clearly hit at the distance 3, the disk, whose box has no thickness, at 7 -/
theorem rayDown_clear : NoNegZero rayDown ∧ ClearHit 0 rayDown 0 (.sphere SphereR.ball Xform.ident Xform.ident) (3 + 2 ^ (-33 : ℤ)) ∧ ClearHit 0 rayDown 0 (.disk plate Xform.ident Xform.ident) (7 + 2 ^ (-33 : ℤ)) := by
  have g : ∀ {n : ℤ} {x : ℝ} {h : ℤ}, h ≤ 0 → x = n → Grid h x := fun {n x h} hh e => Grid.mono hh ⟨n, by rw [e]; norm_num⟩
  have e : openRay rayDown 0 = SphereR.downRay := rfl
  have tiny' : (2 : ℝ) ^ (-500 : ℤ) ≤ 2 ^ (-60 : ℤ) := zpow_le_zpow_right₀ (by norm_num) (by norm_num)
  have go : ∀ i, Grid (-200) (rayDown.o.get i) := fun i => by
    fin_cases i <;> [exact g (n := 0) (by norm_num) (by simp [rayDown, V3.get]); exact g (n := 0) (by norm_num) (by simp [rayDown, V3.get]); exact g (n := 4) (by norm_num) (by simp [rayDown, V3.get])]
  have gd : ∀ i, |(rayDir rayDown).get i| ≤ 2 ^ (100 : ℤ) := fun i => by fin_cases i <;> norm_num [rayDown, rayDir, V3.get]
  refine ⟨by simp [NoNegZero, rayDown], ⟨3, 5, 1, 2 ^ (-35 : ℤ), 2 ^ (-33 : ℤ), 3 + 2 ^ (-34 : ℤ), 0, 64, ?_, ?_, ?_, ?_, Or.inl ⟨?_, ?_, ?_⟩, ?_, ?_, ?_⟩, ⟨7, 2 ^ (-40 : ℤ), 2 ^ (-38 : ℤ), 2 ^ (-36 : ℤ), 64, ?_, ?_, ?_, ?_, ?_, ?_, ?_, ?_, ?_⟩⟩
  · rw [e]; exact SphereR.down_ok
  · rw [e]; exact SphereR.down_passes
  · rw [e]
    intro i
    generalize (2 : ℝ) ^ (-500 : ℤ) = e at *
    fin_cases i <;> simp [Xform.ident, sizeVec, size, SphereR.downRay] <;> norm_num at tiny' ⊢ <;> linarith
  · rw [e]
    intro i
    generalize (2 : ℝ) ^ (-500 : ℤ) = e at *
    fin_cases i <;> simp [Xform.ident, sizeVec, size, SphereR.downRay] <;> norm_num at tiny' ⊢ <;> linarith
  · norm_num
  · exact ⟨Or.inl le_rfl, Or.inl le_rfl, Or.inl rfl⟩
  · norm_num
  · rw [ball_box]
    refine ⟨ident_ok.1, ident_ok.2, fun i => ?_, fun i => ?_, by norm_num, go, gd, by norm_num, fun i => ?_, fun i => ?_, le_rfl, Or.inl fun i => ?_⟩
    · fin_cases i <;> exact g (n := -1) (by norm_num) (by simp [V3.get])
    · fin_cases i <;> exact g (n := 1) (by norm_num) (by simp [V3.get])
    · fin_cases i <;> simp [boxSize, size, Xform.ident] <;> norm_num
    · rw [ident_pt, ident_pt]
      fin_cases i <;> simp [V3.get, rayDown] <;> norm_num
    · rw [ident_pt, ident_pt]
      (fin_cases i <;> simp [ClearAxis, V3.get, rayDown, rayDir]) <;> norm_num
  · norm_num
  · norm_num
  · exact ⟨SphereR.down_ok.affine, fun i j => (SphereR.down_ok.m i j).mono (by norm_num), fun i => (SphereR.down_ok.o i).mono (by norm_num), fun i => (SphereR.down_ok.d i).mono (by norm_num)⟩
  · rw [e]
    have e1 : ShadowR.EPS ≤ 1 / 32 := by
      have := double_mono (show (1 / 100000 : ℝ) ≤ 1 / 32 by norm_num)
      rwa [show double (1 / 32 : ℝ) = 1 / 32 from double_of_isDouble ⟨1, -5, by norm_num, by norm_num, by norm_num⟩] at this
    have tiny2 : (2 : ℝ) ^ (-1050 : ℤ) ≤ 2 ^ (-60 : ℤ) := zpow_le_zpow_right₀ (by norm_num) (by norm_num)
    refine ⟨?_, ?_, ?_, ?_, fun i => ?_⟩
    · simp [Xform.ident, Transform.pt, homog, Shape.Ray.pos, V3.rayAt, SphereR.downRay, plate]; norm_num
    · simp [Xform.ident, Transform.vec, SphereR.downRay, sizeVec]; norm_num; linarith
    · simp [Xform.ident, Transform.vec, SphereR.downRay, sizeVec]; norm_num
    · generalize (2 : ℝ) ^ (-1050 : ℤ) = e at *
      simp [Xform.ident, Transform.vec, SphereR.downRay, sizeVec, size]
      norm_num at tiny2 ⊢
      linarith
    · generalize (2 : ℝ) ^ (-500 : ℤ) = e at *
      fin_cases i <;> simp [Xform.ident, sizeVec, size, SphereR.downRay] <;> norm_num at tiny' ⊢ <;> linarith
  · norm_num
  · have ap : ((Xform.ident : Transform ℝ).pt ((openRay rayDown 0).pos 7)).x = 0 ∧ ((Xform.ident : Transform ℝ).pt ((openRay rayDown 0).pos 7)).y = 0 := by
      rw [e]
      constructor <;> simp [Xform.ident, Transform.pt, homog, Shape.Ray.pos, V3.rayAt, SphereR.downRay]
    refine ⟨?_, Or.inl rfl, Or.inl rfl⟩
    rw [DiskR.axisDist, ap.1, ap.2]
    simp [plate]
    norm_num
  · simp [plate]
  · norm_num
  · rw [plate_box]
    refine ⟨ident_ok.1, ident_ok.2, fun i => ?_, fun i => ?_, by norm_num, go, gd, by norm_num, fun i => ?_, fun i => ?_, by norm_num, Or.inr ⟨2, fun j => ?_, ?_, fun i hi => ?_⟩⟩
    · fin_cases i <;> [exact g (n := -2) (by norm_num) (by simp [V3.get]); exact g (n := -2) (by norm_num) (by simp [V3.get]); exact g (n := -3) (by norm_num) (by simp [V3.get])]
    · fin_cases i <;> [exact g (n := 2) (by norm_num) (by simp [V3.get]); exact g (n := 2) (by norm_num) (by simp [V3.get]); exact g (n := -3) (by norm_num) (by simp [V3.get])]
    · fin_cases i <;> simp [boxSize, size, Xform.ident] <;> norm_num
    · rw [ident_pt, ident_pt]
      fin_cases i <;> simp [V3.get, rayDown] <;> norm_num
    · fin_cases j <;> simp [Xform.ident]
    · rw [ident_pt, ident_pt]
      simp [ThinAxis, V3.get, rayDown, rayDir]; norm_num
    · rw [ident_pt, ident_pt]
      fin_cases i <;> simp [ClearAxis, V3.get, rayDown, rayDir] at hi ⊢ <;> norm_num
  · norm_num
  · norm_num

end Verif.MixScene
