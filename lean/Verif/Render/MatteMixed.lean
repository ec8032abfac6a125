import Verif.Render.MatteRounded
import Verif.Render.FirstMixed

/-!
# The picture of matte triangles among spheres and disks under point lights in rounded arithmetic (C204)

C189 for the mixed scenes of C196: the triangles that are seen are matte; triangles, spheres (complete or parts) and disks, with their transforms, hide each other and cast shadows.  Every operation of the
hierarchy, of the tests of all objects, of the shading, the sampler and the film is rounded to binary64.  The answers of the objects' tests are given by a function `d` that satisfies the model `DistR` of the
tests; it stands for the order of the sums in `numpy.dot` and for `np.roots`.  What is computed for a ray that meets a sphere or a disk first is left open here (C197 bounds it).
-/
set_option linter.unusedSectionVars false

namespace Verif.MatteM
open V3 BBox Verif.Rnd Verif.BVH Verif.XformR Verif.GeomR Verif.CamR Verif.MatteR Verif.MatteP
open Verif.SelfHit (rEps)
open Verif.ShadowR (EPS)
open Verif.TriScene (Tri)
open Verif.MixScene (Obj DistR BoundR)
open Verif.DiskR (Arctan2)
open Verif.SphereR (RootsOk)
open Verif.Xform (Transform)

variable {ι : Type*} {at2 : ℝ → ℝ → ℝ} {roots : ℝ → ℝ → ℝ → Option (ℝ × ℝ)} {ε : ℝ}

/-! ### Model -/

/-- the answers of the tests of the objects, for each ray and its near end -/
abbrev Answers := FRay ℝ → ℝ → Obj → Option ℝ

/-- `vis.unoccluded(scene)` (`light/utility.py:53-59`) -/
def UnoccludedM (bvh : Bvh ℝ Obj) (fuel : ℕ) (d : Answers) (p : V3 ℝ) (eps : ℝ) (l : PLight ι) : Prop :=
  bvh.intersectPR ieee (d (shadowRay p eps l) eps) (shadowRay p eps l) fuel = .ok false

/-- `renderer.li` (`renderer/renderer.py:58-75`, `integrator/surface/whitted.py:26-60`) may return `L` for the camera ray `r`, as in `Verif.MatteP.RadR`; any `L` if a sphere or a disk is met -/
def RadM (bvh : Bvh ℝ Obj) (fuel : ℕ) (d : Answers) (mint : ℝ) (w : World ι) (r : FRay ℝ) (L : ι → ℝ) : Prop :=
  match bvh.intersectR ieee (d r mint) r fuel with
  | .ok ⟨.fin s, some (.tri A), true⟩ => LoopR (w.spot r A s) (fun l => UnoccludedM bvh fuel d (w.spot r A s).p (rEps s) l) w.lights (fun _ => 0) L
  | .ok ⟨.fin _, some _, true⟩ => True
  | .ok ⟨_, _, false⟩ => L = fun _ => 0
  | _ => False

/-! ### Specification -/

/-- the segment from `p` to the light clearly misses all objects … -/
def FreeM (ε : ℝ) (objs : List Obj) (p : V3 ℝ) (eps : ℝ) (l : PLight ι) : Prop := ∀ c ∈ objs, FirstMixed.Beyond ε (shadowRay p eps l) eps c (shadowRay p eps l).maxt

/-- … or clearly meets one -/
def BlockedM (ε : ℝ) (objs : List Obj) (p : V3 ℝ) (eps : ℝ) (l : PLight ι) : Prop :=
  ∃ A ∈ objs, ∃ e, MixScene.ClearHit ε (shadowRay p eps l) eps A e ∧ F.lt (.fin e) (shadowRay p eps l).maxt = true

/-- `d` is what the tests of the objects may answer for this ray, none of them raising an exception -/
def Tested (at2 : ℝ → ℝ → ℝ) (roots : ℝ → ℝ → ℝ → Option (ℝ × ℝ)) (objs : List Obj) (d : Answers) (r : FRay ℝ) (mint : ℝ) : Prop := ∀ q ∈ objs, DistR at2 roots r mint q (d r mint q)

/-- the ray clearly meets the triangle `A` first, at the distance `t` (up to `slack`), the numbers are in the ranges, and each light is clearly seen or clearly hidden by an object, also from the point at
the distance that the test reports -/
structure ShotM (at2 : ℝ → ℝ → ℝ) (roots : ℝ → ℝ → ℝ → Option (ℝ × ℝ)) (d : Answers) (ε : ℝ) (objs : List Obj) (w : World ι) (r : FRay ℝ) (mint : ℝ) (A : Tri ℝ) (t slack δ κ E G : ℝ) (vis : PLight ι → Prop) : Prop where
  tested : Tested at2 roots objs d r mint
  mem : .tri A ∈ objs
  hit : TriScene.ClearHit r mint A t slack
  range : F.lt (.fin (t + slack)) r.maxt = true
  first : ∀ c ∈ objs, c = .tri A ∨ FirstMixed.Beyond ε r mint c (.fin (t + slack))
  ray : RayOk r t slack
  surf : SurfOk A (w.kd A) (rayDir r) E G
  err : ∀ i, |(rayDir r).get i| * slack + 2 ^ (-51 : ℤ) * (|r.o.get i| + |(rayDir r).get i * t|) ≤ δ
  small : κ ≤ 1 / 64
  lights : ∀ l ∈ w.lights, LitOk (rayAt r.o (rayDir r) t) δ κ l
  shadow : ∀ s, |s - t| ≤ slack → TriScene.dist r mint A = some s → ∀ l ∈ w.lights, Tested at2 roots objs d (shadowRay (atR r.o (rayDir r) s) (rEps s) l) (rEps s) ∧
    ((vis l ∧ FreeM ε objs (atR r.o (rayDir r) s) (rEps s) l) ∨ (¬ vis l ∧ BlockedM ε objs (atR r.o (rayDir r) s) (rEps s) l))

/-! ### Theorems -/

/-- what is known of the scene and of its hierarchy -/
structure Built (at2 : ℝ → ℝ → ℝ) (roots : ℝ → ℝ → ℝ → Option (ℝ × ℝ)) (ε : ℝ) (cfg : Config ℝ) (objs : List Obj) (wb : Obj → BBox ℝ) (bvh : Bvh ℝ Obj) (fuel : ℕ) : Prop where
  arctan : Arctan2 at2
  rootsOk : RootsOk ε roots
  ε0 : 0 ≤ ε
  boxes : ∀ q ∈ objs, BoundR q (wb q)
  tree : ∃ node ordered total, buildG (decideR ieee cfg) objs objs.length (buildData wb objs) [] 0 = .ok (node, ordered, total) ∧ node.height ≤ 64 ∧ fuel ≥ total
  bvh : mkR ieee cfg wb objs = .ok bvh

variable {cfg : Config ℝ} {objs : List Obj} {wb : Obj → BBox ℝ} {d : Answers} {bvh : Bvh ℝ Obj} {fuel : ℕ}

/-- **C204** the shadow test: true exactly for the lights whose segment is free -/
theorem C204_shadow (b : Built at2 roots ε cfg objs wb bvh fuel) (hne : objs ≠ []) (p : V3 ℝ) (eps : ℝ) (l : PLight ι) (ht : Tested at2 roots objs d (shadowRay p eps l) eps) :
    (FreeM ε objs p eps l → UnoccludedM bvh fuel d p eps l) ∧ (BlockedM ε objs p eps l → bvh.intersectPR ieee (d (shadowRay p eps l) eps) (shadowRay p eps l) fuel = .ok true) := by
  have nz : NoNegZero (shadowRay p eps l) := ⟨Or.inr rfl, Or.inr rfl, Or.inr rfl⟩
  obtain ⟨node, ordered, total, hb, hh, hf⟩ := b.tree
  constructor
  · intro hfree
    obtain ⟨bvh', h1, h2⟩ := FirstMixed.C197_miss b.arctan b.rootsOk b.ε0 cfg objs hne wb b.boxes (r := shadowRay p eps l) (mint := eps) rfl nz (d (shadowRay p eps l) eps) ht node ordered total hb hh hfree
    rw [b.bvh] at h1
    cases h1
    exact (h2 fuel hf).2
  · rintro ⟨A, hA, e, hc, hlt⟩
    obtain ⟨bvh', acc, res, h1, h2, -, -, -, h6⟩ := MixScene.C196_scene at2 b.arctan roots ε b.rootsOk b.ε0 cfg objs hne wb b.boxes (shadowRay p eps l) eps rfl nz (d (shadowRay p eps l) eps) ht node ordered total hb hh
    rw [b.bvh] at h1
    cases h1
    have := (h2 fuel hf).2
    rwa [h6 A hA e hc hlt] at this

/-- **C204** One camera ray that clearly meets a matte triangle first, in a scene of triangles, spheres and disks: the radiance the program returns is what Lambert's law gives at the point where the ray meets
the triangle, with the normal of the triangle and the lights that are not hidden by any object. -/
theorem C204_ray (b : Built at2 roots ε cfg objs wb bvh fuel) (w : World ι) (hn : w.lights.length ≤ 2 ^ 50) (r : FRay ℝ) (mint : ℝ) (hmint : r.mint = .fin mint) (hz : NoNegZero r)
    (A : Tri ℝ) (t slack δ κ E G : ℝ) (vis : PLight ι → Prop) (h : ShotM at2 roots d ε objs w r mint A t slack δ κ E G vis) (L : ι → ℝ) (hL : RadM bvh fuel d mint w r L) (k : ι) :
    |L k - w.radiance A (rayAt r.o (rayDir r) t) (rayDir r) vis k| ≤ (4 * ((w.lights.length + 52) * 2 ^ (-52 : ℤ) + 2 ^ (-45 : ℤ) * G) + 12 * κ) * w.most A (rayAt r.o (rayDir r) t) k := by
  have hne : objs ≠ [] := List.ne_nil_of_mem h.mem
  obtain ⟨node, ordered, total, hb, hh, hf⟩ := b.tree
  obtain ⟨bvh', s, e1, -, hd, e2⟩ := FirstMixed.C197_first b.arctan b.rootsOk b.ε0 cfg objs wb b.boxes hmint hz (d r mint) h.tested node ordered total hb hh (.tri A) h.mem (t + slack) ⟨t, slack, h.hit, rfl⟩ h.range h.first
  rw [b.bvh] at e1
  cases e1
  have hd' : TriScene.dist r mint A = some s := hd.symm
  have hs : |s - t| ≤ slack := by
    obtain ⟨s', e, hs⟩ := TriScene.dist_clear h.hit
    rw [hd', Option.some.injEq] at e
    rwa [e]
  simp only [RadM, (e2 fuel hf).1] at hL
  refine ray_core w hn r A t slack δ κ E G s vis _ h.ray h.surf h.err h.small h.lights hs (fun l hl => ?_) L hL k
  obtain ⟨k1, k2⟩ := C204_shadow b hne (w.spot r A s).p (rEps s) l (h.shadow s hs hd' l hl).1
  rcases (h.shadow s hs hd' l hl).2 with ⟨hv, hfree⟩ | ⟨hv, hbl⟩
  · exact ⟨fun _ => hv, fun _ => k1 hfree⟩
  · refine ⟨fun hu => ?_, fun h => absurd h hv⟩
    rw [UnoccludedM, k2 hbl] at hu
    cases hu

/-- **C204** A camera ray that clearly meets nothing: black. -/
theorem C204_background (b : Built at2 roots ε cfg objs wb bvh fuel) (hne : objs ≠ []) (w : World ι) (r : FRay ℝ) (mint : ℝ) (hmint : r.mint = .fin mint) (hz : NoNegZero r)
    (ht : Tested at2 roots objs d r mint) (h : FirstMixed.Sees ε r mint objs none) (L : ι → ℝ) (hL : RadM bvh fuel d mint w r L) : L = fun _ => 0 := by
  obtain ⟨node, ordered, total, hb, hh, hf⟩ := b.tree
  obtain ⟨bvh', e1, e2⟩ := FirstMixed.C197_miss b.arctan b.rootsOk b.ε0 cfg objs hne wb b.boxes hmint hz (d r mint) ht node ordered total hb hh h
  rw [b.bvh] at e1
  cases e1
  simp only [RadM, (e2 fuel hf).1] at hL
  exact hL

section
open Verif.FullR Verif.Sampler
open Verif.Film (Vec Film reach Covers sumW)

variable {S : Type*}

/-- `X` is the radiance that belongs to the ray: Lambert's law at the point of the triangle that is clearly met first, the numbers being such that the program is within `η` of it; or black if clearly nothing
is met -/
def ShowsM (at2 : ℝ → ℝ → ℝ) (roots : ℝ → ℝ → ℝ → Option (ℝ × ℝ)) (d : Answers) (ε : ℝ) (objs : List Obj) (w : World (Fin 3)) (r : FRay ℝ) (mint η : ℝ) (X : Fin 3 → ℝ) : Prop :=
  (∃ (A : Tri ℝ) (t slack δ κ E G : ℝ) (vis : PLight (Fin 3) → Prop), ShotM at2 roots d ε objs w r mint A t slack δ κ E G vis ∧ X = w.radiance A (rayAt r.o (rayDir r) t) (rayDir r) vis ∧
    ∀ k, (4 * ((w.lights.length + 52) * 2 ^ (-52 : ℤ) + 2 ^ (-45 : ℤ) * G) + 12 * κ) * w.most A (rayAt r.o (rayDir r) t) k ≤ η) ∨
  (Tested at2 roots objs d r mint ∧ FirstMixed.Sees ε r mint objs none ∧ X = fun _ => 0)

/-- **C204** The whole rendering in binary64 of a scene of triangles, spheres and disks under point lights.  The rendering ends without an exception, and for every pixel for which the rays of all samples that
reach it clearly meet a matte triangle or clearly nothing, each channel of the pixel is the weighted average, with the weights of the filter, of the radiances that Lambert's law gives for the points that the rays
meet, with the shadows of all objects, up to `η` and the error of the film. -/
theorem C204_picture (b : Built at2 roots ε cfg objs wb bvh fuel) (hne : objs ≠ []) (w : World (Fin 3)) (hn : w.lights.length ≤ 2 ^ 50)
    (mint : ℝ) (ray : Sample ℝ → FRay ℝ) (hmint : ∀ smp, (ray smp).mint = .fin mint) (hz : ∀ smp, NoNegZero (ray smp))
    (rad : S → Sample ℝ → Vec ℝ × S) (hrad : ∀ e smp, RadM bvh fuel d mint w (ray smp) (rad e smp).1)
    (M : ℝ) (hM : ∀ e smp k, Film.Low (-500) ((rad e smp).1 k) ∧ (rad e smp).1 k ≤ M)
    (r : Rand ℝ) (hr : UnitDraws r) (hs : Shuffles r) (x0 y0 : ℤ) (wd ht : ℕ) (hw : 0 < wd) (xst yst : ℕ) (hcnt : max xst 1 * max yst 1 ≤ 2 ^ 53)
    (jitter : Bool) (sOpen sClose : ℝ) (n1 n2 : List ℕ) (h1 : ∀ n ∈ n1, n ≤ 2 ^ 53) (h2 : ∀ n ∈ n2, n ≤ 2 ^ 53) (st : RS) (e : S) (f0 : Film ℝ)
    (hf : Ready f0 x0 y0 wd ht (max xst 1 * max yst 1)) :
    ∃ s1 log, renderR ieee rad r n1 n2 (wd * ht + 1) ⟨sampler x0 y0 wd ht xst yst jitter sOpen sClose, st, e, f0⟩ = some (s1, log) ∧
      ∀ i < f0.xCnt, ∀ j < f0.yCnt, ∀ (η : ℝ) (X : Sample ℝ → Vec ℝ),
        (∀ q ∈ log, Covers ieee f0 q.1.imageX q.1.imageY i j → ShowsM at2 roots d ε objs w (ray q.1) mint η (X q.1)) → 0 ≤ η →
        let l := reach ieee f0 i j (calls (log.map fun q => (q.1, X q.1)))
        max xst 1 * max yst 1 ≤ l.length ∧ (∀ s ∈ l, 0 < s.1) ∧
        ∀ k, |pictureR ieee s1.film j i k - (l.map (fun s => s.1 * s.2 k)).sum / sumW l| ≤ η + (3 / 1000000 * M + ((l.length + 9) * 2 ^ (-47 : ℤ) * M + 2 ^ (-1075 : ℤ))) := by
  obtain ⟨s1, log, e1, e2⟩ := picture_core rad M hM r hr hs x0 y0 wd ht hw xst yst hcnt jitter sOpen sClose n1 n2 h1 h2 st e f0 hf
  refine ⟨s1, log, e1, fun i hi j hj η X hX η0 => e2 i hi j hj η X fun q hq hc e' k => ?_⟩
  have hL := hrad e' q.1
  rcases hX q hq hc with ⟨A, t, slack, δ, κ, E, G, vis, sh, ex, hη⟩ | ⟨hte, hsee, ex⟩
  · rw [ex]
    exact (C204_ray b w hn (ray q.1) mint (hmint _) (hz _) A t slack δ κ E G vis sh _ hL k).trans (hη k)
  · rw [ex, C204_background b hne w (ray q.1) mint (hmint _) (hz _) hte hsee _ hL, sub_zero, abs_zero]
    exact η0

end

/-! ### Concrete case -/

/-- a sphere far beside the triangle of C189 -/
noncomputable def beside : Obj := .sphere SphereR.ball FirstMixed.aside (Xform.translate ⟨-8, 0, 0⟩)

/-- rays along the axis `z` near the origin pass by it -/
theorem beside_beyond (r : FRay ℝ) (mint : ℝ) (T : F ℝ) (hz : ∃ n : ℤ, r.o.z = n) (hx : r.o.x = 1 / 4) (hy : r.o.y = 1 / 4) (hd : rayDir r = ⟨0, 0, -1⟩ ∨ rayDir r = ⟨0, 0, 1⟩)
    (h4 : |r.o.z| ≤ 4) :
    FirstMixed.Beyond 0 r mint beside T ∧ DistR at2 roots r mint beside none := by
  have e0 : 0 ≤ EPS := by
    have := double_mono (show (0 : ℝ) ≤ 1 / 100000 by norm_num)
    rwa [double_zero] at this
  have g : ∀ {n : ℤ} {x : ℝ}, x = n * 2 ^ (-2 : ℤ) → Grid (-120) x := fun {n x} h => Grid.mono (show (-120 : ℤ) ≤ -2 by norm_num) ⟨n, h⟩
  obtain ⟨n, hn⟩ := hz
  suffices h : SphereR.RayOk (Xform.translate ⟨-8, 0, 0⟩) (TriScene.openRay r mint) SphereR.ball.radius ∧ SphereR.disc (Xform.translate ⟨-8, 0, 0⟩) (TriScene.openRay r mint) SphereR.ball.radius +
      2 ^ (-45 : ℤ) * SphereR.sizeD (Xform.translate ⟨-8, 0, 0⟩ : Transform ℝ).m (TriScene.openRay r mint) SphereR.ball.radius ≤ EPS by
    refine ⟨⟨h.1, Or.inl h.2⟩, ?_⟩
    obtain ⟨⟨o, ho⟩, -⟩ := C182_total (Xform.translate ⟨-8, 0, 0⟩ : Transform ℝ) (Xform.translate ⟨-8, 0, 0⟩) (TriScene.openRay r mint).o
    obtain ⟨-, ⟨d, hd⟩, -⟩ := C182_total (Xform.translate ⟨-8, 0, 0⟩ : Transform ℝ) (Xform.translate ⟨-8, 0, 0⟩) (TriScene.openRay r mint).d
    obtain ⟨v, hv⟩ := DotR.total d.get o.get [0, 1, 2]
    have hy : SphereR.HitR at2 roots SphereR.ball (Xform.translate ⟨-8, 0, 0⟩) (TriScene.openRay r mint) _ := ⟨⟨o, d, _, _⟩, v, ⟨ho, hd, rfl, rfl⟩, hv, rfl⟩
    have e := SphereR.C191_passes_by h.1 h.2 _ hy
    exact ⟨_, hy, by rw [e]; simp, by rw [e]; rfl⟩
  refine ⟨⟨?_, fun i j => ?_, fun i => ?_, fun i => ?_, SphereR.down_ok.R⟩, le_trans ?_ e0⟩
  · simp [Affine, Xform.translate]
  · have : ∃ n : ℤ, (Xform.translate ⟨-8, 0, 0⟩ : Transform ℝ).m i j = n := by
      refine ⟨if i = j then 1 else if i = 0 ∧ j = 3 then -8 else 0, ?_⟩
      fin_cases i <;> fin_cases j <;> simp [Xform.translate]
    obtain ⟨n, hn⟩ := this
    rw [hn]
    exact Grid.mono (show (-120 : ℤ) ≤ 0 by norm_num) ⟨n, by norm_num⟩
  · fin_cases i
    · exact g (n := 1) (by show r.o.x = _; rw [hx]; norm_num)
    · exact g (n := 1) (by show r.o.y = _; rw [hy]; norm_num)
    · exact g (n := 4 * n) (by show r.o.z = _; rw [hn]; norm_num; ring)
  · show Grid (-120) ((rayDir r).get i)
    rcases hd with h | h <;> rw [h] <;> fin_cases i
    · exact g (n := 0) (by simp [V3.get])
    · exact g (n := 0) (by simp [V3.get])
    · exact g (n := -4) (by norm_num [V3.get])
    · exact g (n := 0) (by simp [V3.get])
    · exact g (n := 0) (by simp [V3.get])
    · exact g (n := 4) (by norm_num [V3.get])
  · have s2 : r.o.z ^ 2 ≤ 16 := by nlinarith [abs_le.1 h4, sq_abs r.o.z, abs_nonneg r.o.z]
    have s1 := abs_nonneg r.o.z
    rcases hd with h | h <;>
    · simp [SphereR.disc, SphereR.sizeD, SphereR.sizeA, SphereR.sizeB, SphereR.sizeC, Xform.translate, Transform.vec, Transform.pt, Xform.homog, sizeVec, size, TriScene.openRay, h, hx, hy,
        SphereR.ball, V3.dot, V3.sqLength]
      generalize |r.o.z| = a at *
      norm_num
      nlinarith

/-- the triangle of C189 is seen and lit beside the sphere -/
example : ShotM (fun y x => double (Complex.arg ⟨x, y⟩)) SphereR.exactRoots (fun r mint q => match q with | .tri q => TriScene.dist r mint q | _ => none) 0 [beside, .tri demoTri] demoWorld demoRay 0
    demoTri 4 (2 ^ (-38 : ℤ)) (2 ^ (-37 : ℤ)) (2 ^ (-38 : ℤ)) 1 1 (fun _ => True) := by
  have s := demo_shot.1
  have b1 := fun T => beside_beyond (at2 := fun y x => double (Complex.arg ⟨x, y⟩)) (roots := SphereR.exactRoots) demoRay 0 T ⟨4, by norm_num [demoRay]⟩ rfl rfl (Or.inl (by simp [demoRay, rayDir])) (by norm_num [demoRay])
  have b2 := fun e T => beside_beyond (at2 := fun y x => double (Complex.arg ⟨x, y⟩)) (roots := SphereR.exactRoots) (shadowRay demoSpot.p e demoLamp) e T (by rw [demo_ray]; exact ⟨0, by simp⟩)
    (by rw [demo_ray]) (by rw [demo_ray]) (Or.inr (by rw [demo_ray]; simp [rayDir])) (by rw [demo_ray]; simp)
  refine ⟨fun q hq => ?_, by simp, s.hit, s.range, fun c hc => ?_, s.ray, s.surf, s.err, s.small, s.lights, fun u hu hd l hl => ?_⟩
  · simp only [List.mem_cons, List.not_mem_nil, or_false] at hq
    rcases hq with rfl | rfl
    · exact (b1 .pinf).2
    · rfl
  · simp only [List.mem_cons, List.not_mem_nil, or_false] at hc
    rcases hc with rfl | rfl
    · exact Or.inr (b1 _).1
    · left; rfl
  · simp only [demoWorld, List.mem_singleton] at hl
    subst hl
    rw [demo_dist hd, demo_at]
    refine ⟨fun q hq => ?_, Or.inl ⟨trivial, fun c hc => ?_⟩⟩
    · simp only [List.mem_cons, List.not_mem_nil, or_false] at hq
      rcases hq with rfl | rfl
      · exact (b2 _ .pinf).2
      · rfl
    · simp only [List.mem_cons, List.not_mem_nil, or_false] at hc
      rcases hc with rfl | rfl
      · exact (b2 _ _).1
      · have re := SelfHit.rEps_ge (t := (4 : ℝ)) ((zpow_le_one_of_nonpos₀ (by norm_num : (1 : ℝ) ≤ 2) (by norm_num)).trans (by norm_num))
        exact demo_free (by linarith) _ (List.mem_singleton_self _)

end Verif.MatteM
