import Verif.BVH.MixScene
import Verif.Render.FirstRounded

/-!
# The picture shows what is in front: scenes of triangles, spheres and disks in rounded arithmetic (C197)

C186 for the mixed scenes of C196: whole renderings (C178), every operation of the hierarchy, the transforms, the box tests, the tests of the objects, the sampler and the film rounded to binary64.  Camera
and shading are arbitrary functions.
-/
set_option linter.unusedSectionVars false

namespace Verif.FirstMixed
open V3 BBox Verif.Rnd Verif.BVH Verif.XformR Verif.MixScene
open Verif.Xform (Transform)
open Verif.Shape (Sphere Disk)
open Verif.TriScene (Tri openRay dist)
open Verif.DiskR (RayR Arctan2)
open Verif.SphereR (RootsOk)
open Verif.ShadowR (EPS)

/-! ### Specification -/

/-- the parameter `t` is before the near end of the ray, or behind `T`, by the margin `σ` -/
def Off (mint : ℝ) (T : F ℝ) (t σ : ℝ) : Prop := t + σ < mint ∨ F.lt T (.fin (t - σ)) = true

/-- the ray passes by the sphere; or each of the two points where it passes through the surface is behind `T`, or before the near end of the ray, or on a part of the surface that is cut away -/
def BeyondSphere (ε : ℝ) (s : Sphere) (w2o : Transform ℝ) (r : FRay ℝ) (mint : ℝ) (T : F ℝ) : Prop :=
  SphereR.RayOk w2o (openRay r mint) s.radius ∧
  (SphereR.disc w2o (openRay r mint) s.radius + 2 ^ (-45 : ℤ) * SphereR.sizeD w2o.m (openRay r mint) s.radius ≤ EPS ∨
   ∃ τ0 τ1 κ σ δ, SphereR.Passes s w2o (openRay r mint) τ0 τ1 κ ε σ ∧ SphereR.Place w2o (openRay r mint) τ0 σ δ ∧ SphereR.Place w2o (openRay r mint) τ1 σ δ ∧
     (Off mint T τ0 σ ∨ SphereParts.Outside s (w2o.pt ((openRay r mint).pos τ0)) δ) ∧ (Off mint T τ1 σ ∨ SphereParts.Outside s (w2o.pt ((openRay r mint).pos τ1)) δ))

/-- the ray is parallel to the disk; or the point where it crosses its plane is behind `T`, or before the near end of the ray, or off the disk -/
def BeyondDisk (s : Disk) (w2o : Transform ℝ) (r : FRay ℝ) (mint : ℝ) (T : F ℝ) : Prop :=
  DiskR.RayOk w2o (openRay r mint) ∧
  (|(w2o.vec (rayDir r)).z| + 2 ^ (-50 : ℤ) * sizeVec w2o.m (rayDir r) 2 < EPS ∨
   ∃ t σ δ, DiskR.Crosses s w2o (openRay r mint) t σ δ ∧ 0 ≤ s.radius ∧ (Off mint T t σ ∨ DiskR.Outside s (w2o.pt ((openRay r mint).pos t)) δ))

/-- the ray does not meet the object in its range up to `T` -/
def Beyond (ε : ℝ) (r : FRay ℝ) (mint : ℝ) : Obj → F ℝ → Prop
  | .tri q, T => FirstR.Beyond r mint q T
  | .sphere s _ w2o, T => BeyondSphere ε s w2o r mint T
  | .disk s _ w2o, T => BeyondDisk s w2o r mint T

/-- along the ray the given object is clearly in front of all others, or nothing is met within the range of the ray -/
def Sees (ε : ℝ) (r : FRay ℝ) (mint : ℝ) (objs : List Obj) : Option Obj → Prop
  | some A => A ∈ objs ∧ ∃ e, ClearHit ε r mint A e ∧ F.lt (.fin e) r.maxt = true ∧ ∀ c ∈ objs, c = A ∨ Beyond ε r mint c (.fin e)
  | none => ∀ c ∈ objs, Beyond ε r mint c r.maxt

/-! ### Lemmas -/

/-- the limit of a ray that ends at `T` -/
def limit : F ℝ → WithTop ℝ
  | .fin x => x
  | _ => ⊤

theorem off_limit {mint : ℝ} {T : F ℝ} {t σ : ℝ} (hT : T ≠ .ninf) (h : Off mint T t σ) : t + σ < mint ∨ limit T < ((t - σ : ℝ) : WithTop ℝ) := by
  refine h.imp id fun h => ?_
  cases T with
  | fin x => exact WithTop.coe_lt_coe.2 (by simpa [F.lt] using h)
  | pinf => simp [F.lt] at h
  | ninf => exact absurd rfl hT
  | nan => simp [F.lt] at h

theorem limit_lt {T : F ℝ} {s : ℝ} (h : limit T < (s : WithTop ℝ)) : F.lt T (.fin s) = true := by
  cases T with
  | fin x => simpa [F.lt, limit, WithTop.coe_lt_coe] using h
  | pinf => simp [limit] at h
  | ninf => rfl
  | nan => simp [limit] at h

section
variable {at2 : ℝ → ℝ → ℝ} {roots : ℝ → ℝ → ℝ → Option (ℝ × ℝ)} {ε : ℝ} {r : FRay ℝ} {mint : ℝ}

/-- whatever the test reports for an object that is beyond `T` is behind `T` -/
theorem beyond_reported (h2 : Arctan2 at2) (hroots : RootsOk ε roots) (ε0 : 0 ≤ ε) {c : Obj} {T : F ℝ} (h : Beyond ε r mint c T) {s : ℝ} (hs : DistR at2 roots r mint c (some s)) :
    F.lt T (.fin s) = true := by
  by_cases hT : T = .ninf
  · rw [hT]; rfl
  cases c with
  | tri q =>
    have hs : some s = dist r mint q := hs
    rw [TriScene.dist] at hs
    obtain ⟨⟨s', b1, b2⟩, e, rfl⟩ := Option.map_eq_some_iff.1 hs.symm
    exact FirstR.beyond_reported h e
  | sphere S o2w w2o =>
    obtain ⟨ok, h⟩ := h
    obtain ⟨y, hy, -, e⟩ := hs
    rcases h with h | ⟨τ0, τ1, κ, σ, δ, hp, p0, p1, k0, k1⟩
    · rw [SphereR.C191_passes_by ok h y hy] at e; cases e
    · obtain ⟨q, dt, hq, hd, rfl⟩ := hy
      have hq' : RayR w2o { openRay r mint with maxt := limit T } { q with maxt := limit T } := ⟨hq.1, hq.2.1, hq.2.2.1, rfl⟩
      have ok' : SphereR.RayOk w2o { openRay r mint with maxt := limit T } S.radius := ⟨ok.affine, ok.m, ok.o, ok.d, ok.R⟩
      have hp' : SphereR.Passes S w2o { openRay r mint with maxt := limit T } τ0 τ1 κ ε σ := ⟨hp.lt, hp.enters, hp.leaves, hp.A, hp.condA, hp.condB, hp.condC, hp.small, hp.time, hp.apart, hp.deep⟩
      have cv : ∀ τ, (Off mint T τ σ ∨ SphereParts.Outside S (w2o.pt ((openRay r mint).pos τ)) δ) →
          CylR.Before { openRay r mint with maxt := limit T } τ σ ∨ CylR.After { openRay r mint with maxt := limit T } τ σ ∨
            SphereParts.Outside S (w2o.pt (({ openRay r mint with maxt := limit T } : Shape.Ray ℝ).pos τ)) δ := fun τ h => by
        rcases h with h | h
        · rcases off_limit hT h with h | h
          · exact Or.inl h
          · exact Or.inr (Or.inl h)
        · exact Or.inr (Or.inr h)
      have m := SphereParts.C194_neither (r := { openRay r mint with maxt := limit T }) h2 hroots ε0 ok' hp' p0 p1 (cv τ0 k0) (cv τ1 k1) _ ⟨_, dt, hq', hd, rfl⟩
      have hqt : ({ q with maxt := ⊤ } : Shape.Ray ℝ) = q := by
        have : q.maxt = ⊤ := hq.2.2.2
        rw [← this]
      rw [C196_limit_sphere, hqt] at m
      generalize SphereR.hitObjR at2 roots S q dt = y at m e
      cases y with
      | typeError => cases m
      | miss => cases e
      | hit t p =>
        simp only at m
        have e : some s = some t := e
        injection e with e
        subst e
        by_cases hle : (s : WithTop ℝ) ≤ limit T
        · rw [if_pos hle] at m; cases m
        · exact limit_lt (not_le.1 hle)
  | disk S o2w w2o =>
    obtain ⟨ok, h⟩ := h
    obtain ⟨q, hq, e⟩ := hs
    rcases h with h | ⟨t, σ, δ, hc, rad, k⟩
    · rw [DiskR.C190_parallel ok hq h] at e; cases e
    · have hq' : RayR w2o { openRay r mint with maxt := limit T } { q with maxt := limit T } := ⟨hq.1, hq.2.1, hq.2.2.1, rfl⟩
      have ok' : DiskR.RayOk w2o { openRay r mint with maxt := limit T } := ⟨ok.affine, ok.m, ok.o, ok.d⟩
      have hc' : DiskR.Crosses S w2o { openRay r mint with maxt := limit T } t σ δ := ⟨hc.plane, hc.steep, hc.sharp, hc.time, hc.place⟩
      have m := DiskR.C190_miss (r := { openRay r mint with maxt := limit T }) h2 ok' hq' hc' rad (by
        rcases k with k | k
        · rcases off_limit hT k with k | k
          · exact Or.inl k
          · exact Or.inr (Or.inl k)
        · exact Or.inr (Or.inr k))
      have hqt : ({ q with maxt := ⊤ } : Shape.Ray ℝ) = q := by
        have : q.maxt = ⊤ := hq.2.2.2
        rw [← this]
      rw [C196_limit_disk, hqt] at m
      obtain ⟨⟨t', p⟩, e', rfl⟩ := Option.map_eq_some_iff.1 e.symm
      rw [e', Option.filter_eq_none_iff] at m
      have := m _ rfl
      exact limit_lt (by simpa using this)

/-! ### Theorems: one ray -/

/-- **C197** an object that is clearly in front is the one the scene reports, at the distance its own test gives, and the any-hit query answers yes. -/
theorem C197_first (h2 : Arctan2 at2) (hroots : RootsOk ε roots) (ε0 : 0 ≤ ε) (cfg : Config ℝ) (objs : List Obj) (wb : Obj → BBox ℝ) (hwb : ∀ q ∈ objs, BoundR q (wb q))
    (hmint : r.mint = .fin mint) (hr : NoNegZero r) (d : Obj → Option ℝ) (hd : ∀ q ∈ objs, DistR at2 roots r mint q (d q)) (node : Node ℝ) (ordered : List Obj) (total : ℕ)
    (h : buildG (decideR ieee cfg) objs objs.length (buildData wb objs) [] 0 = .ok (node, ordered, total)) (hh : node.height ≤ 64)
    (A : Obj) (hA : A ∈ objs) (e : ℝ) (hc : ClearHit ε r mint A e) (hlt : F.lt (.fin e) r.maxt = true) (hb : ∀ c ∈ objs, c = A ∨ Beyond ε r mint c (.fin e)) :
    ∃ bvh s, mkR ieee cfg wb objs = .ok bvh ∧ s ≤ e ∧ DistR at2 roots r mint A (some s) ∧
      ∀ fuel ≥ total, bvh.intersectR ieee d r fuel = .ok ⟨.fin s, some A, true⟩ ∧ bvh.intersectPR ieee d r fuel = .ok true := by
  obtain ⟨bvh, acc, res, a1, a2, a3, a4, -, a6⟩ := C196_scene at2 h2 roots ε hroots ε0 cfg objs (List.ne_nil_of_mem hA) wb hwb r mint hmint hr d hd node ordered total h hh
  obtain rfl := a6 A hA e hc hlt
  obtain ⟨s, p, ep, hle⟩ := a4 A hA e hc hlt
  rcases a3 with e' | ⟨q, hq, s', hs', e', -⟩
  · rw [e'] at ep; injection ep with _ ep; cases ep
  · rw [e'] at ep
    have e1 := congrArg Acc.maxt ep
    have e2 := congrArg Acc.isect ep
    simp only [F.fin.injEq, Option.some.injEq] at e1 e2
    subst e1; subst e2
    obtain rfl : q = A := by
      rcases hb q hq with h | h
      · exact h
      · have := beyond_reported h2 hroots ε0 h hs'
        simp only [F.lt, decide_eq_true_eq] at this
        linarith
    refine ⟨bvh, s', a1, hle, hs', fun fuel hf => ?_⟩
    rw [← e']; exact a2 fuel hf

/-- **C197** a ray that clearly passes all objects meets nothing. -/
theorem C197_miss (h2 : Arctan2 at2) (hroots : RootsOk ε roots) (ε0 : 0 ≤ ε) (cfg : Config ℝ) (objs : List Obj) (hne : objs ≠ []) (wb : Obj → BBox ℝ) (hwb : ∀ q ∈ objs, BoundR q (wb q))
    (hmint : r.mint = .fin mint) (hr : NoNegZero r) (d : Obj → Option ℝ) (hd : ∀ q ∈ objs, DistR at2 roots r mint q (d q)) (node : Node ℝ) (ordered : List Obj) (total : ℕ)
    (h : buildG (decideR ieee cfg) objs objs.length (buildData wb objs) [] 0 = .ok (node, ordered, total)) (hh : node.height ≤ 64)
    (hb : ∀ c ∈ objs, Beyond ε r mint c r.maxt) :
    ∃ bvh, mkR ieee cfg wb objs = .ok bvh ∧
      ∀ fuel ≥ total, bvh.intersectR ieee d r fuel = .ok ⟨r.maxt, none, false⟩ ∧ bvh.intersectPR ieee d r fuel = .ok false := by
  obtain ⟨bvh, acc, res, a1, a2, a3, -, a5, -⟩ := C196_scene at2 h2 roots ε hroots ε0 cfg objs hne wb hwb r mint hmint hr d hd node ordered total h hh
  refine ⟨bvh, a1, fun fuel hf => ?_⟩
  have hacc : acc = ⟨r.maxt, none, false⟩ := by
    rcases a3 with e | ⟨q, hq, s, hs, -, hle⟩
    · exact e
    · exact absurd hle (FirstR.not_le_of_lt (beyond_reported h2 hroots ε0 (hb q hq) hs))
  have hres : res = false := by
    cases hr : res with
    | false => rfl
    | true =>
      obtain ⟨q, hq, s, hs, hle⟩ := a5 hr
      exact absurd hle (FirstR.not_le_of_lt (beyond_reported h2 hroots ε0 (hb q hq) hs))
  rw [← hacc, ← hres]; exact a2 fuel hf

end

/-! ### Theorems: the picture -/

section
open Verif.FullR Verif.Sampler
open Verif.Film (Vec Film reach Covers sumW)

variable {E : Type*} {at2 : ℝ → ℝ → ℝ} {roots : ℝ → ℝ → ℝ → Option (ℝ × ℝ)} {ε : ℝ}

/-- what the integrator finds along a camera ray: `scene.intersect(ray)` (`integrator/surface/*.py`, `scene/scene.py:35-37`), the object of the nearest hit; `d` is what the tests of the objects return for that
ray -/
noncomputable def foundIn (bvh : Bvh ℝ Obj) (fuel : ℕ) (d : Obj → Option ℝ) (r : FRay ℝ) : Option Obj :=
  match bvh.intersectR ieee d r fuel with
  | .ok acc => acc.isect
  | .error _ => none

/-- one sample of the rendering loop (`renderer.py:162-193`): camera ray, nearest hit, and then whatever the integrators make of it -/
noncomputable def radFound (bvh : Bvh ℝ Obj) (fuel : ℕ) (ray : Sample ℝ → FRay ℝ) (d : Sample ℝ → Obj → Option ℝ) (shade : E → Option Obj → Sample ℝ → Vec ℝ × E) (e : E) (smp : Sample ℝ) : Vec ℝ × E :=
  shade e (foundIn bvh fuel (d smp) (ray smp)) smp

theorem found_sees (h2 : Arctan2 at2) (hroots : RootsOk ε roots) (ε0 : 0 ≤ ε) (cfg : Config ℝ) (objs : List Obj) (hne : objs ≠ []) (wb : Obj → BBox ℝ) (hwb : ∀ q ∈ objs, BoundR q (wb q))
    (r : FRay ℝ) (mint : ℝ) (hmint : r.mint = .fin mint) (hr : NoNegZero r) (d : Obj → Option ℝ) (hd : ∀ q ∈ objs, DistR at2 roots r mint q (d q)) (node : Node ℝ) (ordered : List Obj) (total : ℕ)
    (h : buildG (decideR ieee cfg) objs objs.length (buildData wb objs) [] 0 = .ok (node, ordered, total)) (hh : node.height ≤ 64)
    (bvh : Bvh ℝ Obj) (hb : mkR ieee cfg wb objs = .ok bvh) (fuel : ℕ) (hf : fuel ≥ total) (o : Option Obj) (ho : Sees ε r mint objs o) :
    foundIn bvh fuel d r = o ∧ bvh.intersectPR ieee d r fuel = .ok o.isSome := by
  cases o with
  | some A =>
    obtain ⟨hA, e, hc, hlt, hbe⟩ := ho
    obtain ⟨bvh', s, e1, -, -, e2⟩ := C197_first h2 hroots ε0 cfg objs wb hwb hmint hr d hd node ordered total h hh A hA e hc hlt hbe
    obtain rfl : bvh = bvh' := by rw [hb] at e1; injection e1
    refine ⟨?_, (e2 fuel hf).2⟩
    rw [foundIn, (e2 fuel hf).1]
  | none =>
    obtain ⟨bvh', e1, e2⟩ := C197_miss h2 hroots ε0 cfg objs hne wb hwb hmint hr d hd node ordered total h hh ho
    obtain rfl : bvh = bvh' := by rw [hb] at e1; injection e1
    refine ⟨?_, (e2 fuel hf).2⟩
    rw [foundIn, (e2 fuel hf).1]

/-- **C197** the whole rendering of a scene of triangles, spheres and disks in binary64, for every camera whose rays start at `mint` and have no component `-0.0`, and for every shading of the nearest hit with
finite radiances that are not negative: the rendering ends without an exception, and if along the rays of all samples that reach a pixel one and the same object is clearly in front (or clearly nothing is met),
then each channel of the pixel is between the darkest and the brightest radiance that shading gives *that object* (or the background), up to the rounding error of the film. -/
theorem C197_picture (h2 : Arctan2 at2) (hroots : RootsOk ε roots) (ε0 : 0 ≤ ε) (cfg : Config ℝ) (objs : List Obj) (hne : objs ≠ []) (wb : Obj → BBox ℝ) (hwb : ∀ q ∈ objs, BoundR q (wb q))
    (node : Node ℝ) (ordered : List Obj) (total : ℕ)
    (hbuild : buildG (decideR ieee cfg) objs objs.length (buildData wb objs) [] 0 = .ok (node, ordered, total)) (hh : node.height ≤ 64)
    (mint : ℝ) (ray : Sample ℝ → FRay ℝ) (hmint : ∀ smp, (ray smp).mint = .fin mint) (hz : ∀ smp, NoNegZero (ray smp))
    (d : Sample ℝ → Obj → Option ℝ) (hd : ∀ smp, ∀ q ∈ objs, DistR at2 roots (ray smp) mint q (d smp q))
    (shade : E → Option Obj → Sample ℝ → Vec ℝ × E) (M : ℝ) (hM : ∀ e q smp k, Film.Low (-500) ((shade e q smp).1 k) ∧ (shade e q smp).1 k ≤ M)
    (r : Rand ℝ) (hr : UnitDraws r) (hs : Shuffles r) (x0 y0 : ℤ) (w h : ℕ) (hw : 0 < w) (xst yst : ℕ) (hcnt : max xst 1 * max yst 1 ≤ 2 ^ 53)
    (jitter : Bool) (sOpen sClose : ℝ) (n1 n2 : List ℕ) (h1 : ∀ n ∈ n1, n ≤ 2 ^ 53) (h2' : ∀ n ∈ n2, n ≤ 2 ^ 53) (st : RS) (e : E) (f0 : Film ℝ)
    (hf : Ready f0 x0 y0 w h (max xst 1 * max yst 1)) :
    ∃ bvh, mkR ieee cfg wb objs = .ok bvh ∧ ∀ fuel ≥ total,
      ∃ s1 log, renderR ieee (radFound bvh fuel ray d shade) r n1 n2 (w * h + 1) ⟨sampler x0 y0 w h xst yst jitter sOpen sClose, st, e, f0⟩ = some (s1, log) ∧
        ∀ i < f0.xCnt, ∀ j < f0.yCnt, ∀ o : Option Obj, (∀ q ∈ log, Covers ieee f0 q.1.imageX q.1.imageY i j → Sees ε (ray q.1) mint objs o) →
          ∀ lo hi : Vec ℝ, (∀ e smp k, lo k ≤ (shade e o smp).1 k ∧ (shade e o smp).1 k ≤ hi k) →
          let n := (reach ieee f0 i j (calls log)).length
          let err : ℝ := 3 / 1000000 * M + ((n + 9) * 2 ^ (-47 : ℤ) * M + 2 ^ (-1075 : ℤ))
          0 < n ∧ ∀ k, lo k - err ≤ pictureR ieee s1.film j i k ∧ pictureR ieee s1.film j i k ≤ hi k + err := by
  obtain ⟨hperm, hpart, -, htot⟩ := buildR_correct ieee cfg wb objs node ordered total hbuild
  have hl' : objs.length ≠ 0 := by simpa using hne
  have hmk : mkR ieee cfg wb objs = .ok ⟨ordered, some (preorder node 0)⟩ := by simp only [mkR, hl', if_false, hbuild, htot, C37_flatten_is_preorder node hpart.nonEmpty]
  refine ⟨⟨ordered, some (preorder node 0)⟩, hmk, fun fuel hfuel => ?_⟩
  obtain ⟨s1, log, e1, e2, e3⟩ := C178_picture r hr hs x0 y0 w h hw xst yst hcnt jitter sOpen sClose (radFound ⟨ordered, some (preorder node 0)⟩ fuel ray d shade) M
    (fun e smp k => hM e _ smp k) n1 n2 h1 h2' st e f0 hf
  refine ⟨s1, log, e1, fun i hi' j hj o ho lo hi hlo => ?_⟩
  intro n err
  obtain ⟨a1, a2, -, a4⟩ := e3 i hi' j hj
  have hS0 : 0 < max xst 1 * max yst 1 := Nat.mul_pos (by omega) (by omega)
  have hn : 0 < n := lt_of_lt_of_le hS0 a1
  refine ⟨hn, fun k => ?_⟩
  have hb := avg_between (reach ieee f0 i j (calls log)) k (lo k) (hi k) a2 (List.length_pos_iff.1 hn) (fun s hs => by
    obtain ⟨q, hq, hq2, hcov⟩ := FirstR.reach_covers ieee f0 i j _ s hs
    obtain ⟨p, hp, rfl⟩ := List.mem_map.1 hq
    obtain ⟨e', he⟩ := e2 p hp
    change s.2 = p.2 at hq2
    have hsee := (found_sees h2 hroots ε0 cfg objs hne wb hwb (ray p.1) mint (hmint p.1) (hz p.1) (d p.1) (hd p.1) node ordered total hbuild hh _ hmk fuel hfuel o (ho p hp hcov)).1
    rw [hq2, he, radFound, hsee]; exact hlo e' p.1 k)
  have he : |pictureR ieee s1.film j i k - ((reach ieee f0 i j (calls log)).map (fun s => s.1 * s.2 k)).sum / sumW (reach ieee f0 i j (calls log))| ≤ err := a4 k
  clear_value err
  have := abs_le.1 he
  exact ⟨by linarith [this.1, hb.1], by linarith [this.2, hb.2]⟩

theorem small_built (cfg : Config ℝ) (hm : cfg.middle = false) (hmax : cfg.maxPrim ≤ 4) (wb : Obj → BBox ℝ) (objs : List Obj) (hne : objs ≠ []) (hsmall : objs.length ≤ 65) :
    ∃ node ordered total, buildG (decideR ieee cfg) objs objs.length (buildData wb objs) [] 0 = .ok (node, ordered, total) ∧ node.height ≤ 64 := by
  obtain ⟨hc, -, hl⟩ := buildData_consistent wb objs
  obtain ⟨⟨node, ordered, total⟩, h⟩ := buildG_ok (decideR ieee cfg) (fun d ds => by
      obtain ⟨r, hr⟩ := decideR_ok ieee cfg hm hmax d ds
      rcases r with _ | ⟨dim, l, mid⟩
      · exact Or.inl hr
      · exact Or.inr ⟨dim, l, mid, hr, decideR_spec ieee cfg d ds dim l mid hr⟩) wb objs objs.length (buildData wb objs) [] 0
    (by intro h; rw [h] at hl; exact hne (List.length_eq_zero_iff.1 hl.symm)) (by rw [hl]) hc
  refine ⟨node, ordered, total, h, ?_⟩
  obtain ⟨hperm, hpart, -, -⟩ := buildR_correct ieee cfg wb objs node ordered total h
  have h1 := hpart.count
  have h2 := height_lt_count hpart
  have := hperm.length_eq
  omega

/-- **C197** no hypothesis on the hierarchy: at most 65 objects, the surface-area method and at most four objects per node -/
theorem C197_small_scene (h2 : Arctan2 at2) (hroots : RootsOk ε roots) (ε0 : 0 ≤ ε) (cfg : Config ℝ) (hm : cfg.middle = false) (hmax : cfg.maxPrim ≤ 4) (objs : List Obj) (hne : objs ≠ []) (hsmall : objs.length ≤ 65)
    (wb : Obj → BBox ℝ) (hwb : ∀ q ∈ objs, BoundR q (wb q)) :
    ∃ bvh total, mkR ieee cfg wb objs = .ok bvh ∧ ∀ (r : FRay ℝ) (mint : ℝ), r.mint = .fin mint → NoNegZero r → ∀ d : Obj → Option ℝ, (∀ q ∈ objs, DistR at2 roots r mint q (d q)) →
      ∀ fuel ≥ total, ∀ o, Sees ε r mint objs o → foundIn bvh fuel d r = o ∧ bvh.intersectPR ieee d r fuel = .ok o.isSome := by
  obtain ⟨node, ordered, total, h, hh⟩ := small_built cfg hm hmax wb objs hne hsmall
  obtain ⟨hperm, hpart, -, htot⟩ := buildR_correct ieee cfg wb objs node ordered total h
  have hl' : objs.length ≠ 0 := by simpa using hne
  have hmk : mkR ieee cfg wb objs = .ok ⟨ordered, some (preorder node 0)⟩ := by simp only [mkR, hl', if_false, h, htot, C37_flatten_is_preorder node hpart.nonEmpty]
  exact ⟨_, total, hmk, fun r mint hmint hr d hd fuel hf o ho => found_sees h2 hroots ε0 cfg objs hne wb hwb r mint hmint hr d hd node ordered total h hh _ hmk fuel hf o ho⟩
end

/-! ### Concrete case -/

/-- a sphere beside the ray of C196 -/
noncomputable def aside : Transform ℝ := Xform.translate ⟨8, 0, 0⟩

theorem plate_crosses : DiskR.RayOk Xform.ident (openRay rayDown 0) ∧ DiskR.Crosses plate Xform.ident (openRay rayDown 0) 7 (2 ^ (-40 : ℤ)) (2 ^ (-38 : ℤ)) := by
  have tiny' : (2 : ℝ) ^ (-500 : ℤ) ≤ 2 ^ (-60 : ℤ) := zpow_le_zpow_right₀ (by norm_num) (by norm_num)
  have e : openRay rayDown 0 = SphereR.downRay := rfl
  refine ⟨⟨SphereR.down_ok.affine, fun i j => (SphereR.down_ok.m i j).mono (by norm_num), fun i => (SphereR.down_ok.o i).mono (by norm_num), fun i => (SphereR.down_ok.d i).mono (by norm_num)⟩, ?_⟩
  rw [e]
  have e1 : ShadowR.EPS ≤ 1 / 32 := by
    have := double_mono (show (1 / 100000 : ℝ) ≤ 1 / 32 by norm_num)
    rwa [show double (1 / 32 : ℝ) = 1 / 32 from double_of_isDouble ⟨1, -5, by norm_num, by norm_num, by norm_num⟩] at this
  have tiny2 : (2 : ℝ) ^ (-1050 : ℤ) ≤ 2 ^ (-60 : ℤ) := zpow_le_zpow_right₀ (by norm_num) (by norm_num)
  refine ⟨?_, ?_, ?_, ?_, fun i => ?_⟩
  · simp [Xform.ident, Transform.pt, Xform.homog, Shape.Ray.pos, V3.rayAt, SphereR.downRay, plate]; norm_num
  · simp [Xform.ident, Transform.vec, SphereR.downRay, sizeVec]; norm_num; linarith
  · simp [Xform.ident, Transform.vec, SphereR.downRay, sizeVec]; norm_num
  · generalize (2 : ℝ) ^ (-1050 : ℤ) = e at *
    simp [Xform.ident, Transform.vec, SphereR.downRay, sizeVec, size]
    norm_num at tiny2 ⊢
    linarith
  · generalize (2 : ℝ) ^ (-500 : ℤ) = e at *
    fin_cases i <;> simp [Xform.ident, sizeVec, size, SphereR.downRay] <;> norm_num at tiny' ⊢ <;> linarith

/-- the sphere is seen, the disk being behind it and the other sphere beside the ray -/
example : Sees 0 rayDown 0 [.disk plate Xform.ident Xform.ident, .sphere SphereR.ball aside (Xform.translate ⟨-8, 0, 0⟩), .sphere SphereR.ball Xform.ident Xform.ident] (some (.sphere SphereR.ball Xform.ident Xform.ident)) := by
  refine ⟨by simp, _, rayDown_clear.2.1, rfl, fun c hc => ?_⟩
  simp only [List.mem_cons, List.not_mem_nil, or_false] at hc
  rcases hc with rfl | rfl | rfl
  · right
    refine ⟨plate_crosses.1, Or.inr ⟨_, _, _, plate_crosses.2, by simp [plate], Or.inl (Or.inr ?_)⟩⟩
    simp only [F.lt, decide_eq_true_eq]; norm_num
  · right
    have e0 : 0 ≤ EPS := by
      have := double_mono (show (0 : ℝ) ≤ 1 / 100000 by norm_num)
      rwa [double_zero] at this
    refine ⟨⟨?_, fun i j => ?_, fun i => SphereR.down_ok.o i, fun i => SphereR.down_ok.d i, ?_⟩, Or.inl (le_trans ?_ e0)⟩
    · simp [Affine, Xform.translate]
    · have : ∃ n : ℤ, (Xform.translate ⟨-8, 0, 0⟩ : Transform ℝ).m i j = n := by
        refine ⟨if i = j then 1 else if i = 0 ∧ j = 3 then -8 else 0, ?_⟩
        fin_cases i <;> fin_cases j <;> simp [Xform.translate]
      obtain ⟨n, hn⟩ := this
      rw [hn]
      exact Grid.mono (show (-120 : ℤ) ≤ 0 by norm_num) ⟨n, by norm_num⟩
    · exact SphereR.down_ok.R
    · simp [SphereR.disc, SphereR.sizeD, SphereR.sizeA, SphereR.sizeB, SphereR.sizeC, Xform.translate, Transform.vec, Transform.pt, Xform.homog, sizeVec, size, openRay, rayDown, rayDir,
        SphereR.ball, V3.dot, V3.sqLength]
      norm_num
  · left; rfl

end Verif.FirstMixed
