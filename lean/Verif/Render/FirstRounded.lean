import Verif.BVH.TriScene
import Verif.Render.Rounded

/-!
# The picture shows what is in front, in rounded arithmetic (C186)

Scenes of triangles under a `BVH` (C181), and whole renderings (C178), every operation of the hierarchy, the box tests, the triangle tests, the sampler and the film rounded to
binary64.  Camera and shading are arbitrary functions.
-/
set_option linter.unusedSectionVars false

namespace Verif.FirstR
open BBox Verif.Rnd Verif.BVH Verif.Shape Verif.TriScene V3

variable {K : Type*} [Field K] [LinearOrder K] [IsStrictOrderedRing K] [FloorRing K]

/-! ### Specification -/

/-- the ray crosses the plane of the triangle, by more than the tolerance of the test, behind `T`, or before the near end of the ray, or outside the triangle -/
def Beyond (r : FRay K) (mint : K) (c : Tri K) (T : F K) : Prop :=
  ∃ L G ε t b1 b2 : K, Sized c.p1 c.p2 c.p3 (openRay r mint) L G ∧ Transversal c.p1 c.p2 c.p3 (rayDir r) ∧ ε = tol c.p1 c.p2 c.p3 (openRay r mint) L G ∧ ε ≤ 1 / 8 ∧
    rayAt r.o (rayDir r) t = bary c.p1 c.p2 c.p3 b1 b2 ∧
    (F.lt T (.fin (t - ε * (L / G + |t|))) = true ∨ t + ε * (L / G + |t|) < mint ∨ b1 < -(2 * ε) ∨ b2 < -(2 * ε) ∨ 1 + 5 * ε < b1 + b2)

/-- along the ray the given triangle is clearly in front of all others, or nothing is met within the range of the ray -/
def Sees (r : FRay K) (mint : K) (tris : List (Tri K)) : Option (Tri K) → Prop
  | some A => A ∈ tris ∧ ∃ t slack, ClearHit r mint A t slack ∧ F.lt (.fin (t + slack)) r.maxt = true ∧ ∀ c ∈ tris, c = A ∨ Beyond r mint c (.fin (t + slack))
  | none => ∀ c ∈ tris, Beyond r mint c r.maxt

/-! ### Lemmas -/

/-- whatever the test reports for a triangle that is beyond `T` is behind `T` -/
theorem beyond_reported {r : FRay K} {mint : K} {c : Tri K} {T : F K} (h : Beyond r mint c T) {s b1 b2 : K}
    (hs : coreR ieee c.p1 c.p2 c.p3 (openRay r mint) = some (s, b1, b2)) : F.lt T (.fin s) = true := by
  obtain ⟨L, G, ε, t, β1, β2, hS, h0, hε, he, hit, hcase⟩ := h
  obtain ⟨t', γ1, γ2, hit', g1, g2, g3, gt, -, -, hin⟩ := C180_reported c.p1 c.p2 c.p3 (openRay r mint) L G hS h0 ε hε he s b1 b2 hs
  have hD0 : dot (cross (rayDir r) (c.p3 - c.p1)) (c.p2 - c.p1) ≠ 0 := by rw [Shape.div_eq, neg_ne_zero]; exact h0
  have u := (cramer c.p1 c.p2 c.p3 r.o (rayDir r) hD0 t β1 β2).1 hit
  have v := (cramer c.p1 c.p2 c.p3 r.o (rayDir r) hD0 t' γ1 γ2).1 hit'
  obtain rfl : t = t' := by rw [u.1, v.1]
  obtain rfl : β1 = γ1 := by rw [u.2.1, v.2.1]
  obtain rfl : β2 = γ2 := by rw [u.2.2, v.2.2]
  have a := abs_le.1 gt
  rcases hcase with k | k | k | k | k
  · cases T <;> simp_all [F.lt]
    linarith
  · have : mint ≤ s := hin.1
    linarith
  · linarith
  · linarith
  · linarith

theorem not_le_of_lt {T : F K} {s : K} (h : F.lt T (.fin s) = true) : F.le (.fin s) T ≠ true := by
  cases T <;> simp_all [F.lt, F.le]

theorem small_built (cfg : Config K) (hm : cfg.middle = false) (hmax : cfg.maxPrim ≤ 4) (tris : List (Tri K)) (hne : tris ≠ []) (hsmall : tris.length ≤ 65) :
    ∃ node ordered total, buildG (decideR ieee cfg) tris tris.length (buildData Tri.bound tris) [] 0 = .ok (node, ordered, total) ∧ node.height ≤ 64 := by
  obtain ⟨hc, -, hl⟩ := buildData_consistent Tri.bound tris
  obtain ⟨⟨node, ordered, total⟩, h⟩ := buildG_ok (decideR ieee cfg) (fun d ds => by
      obtain ⟨r, hr⟩ := decideR_ok ieee cfg hm hmax d ds
      rcases r with _ | ⟨dim, l, mid⟩
      · exact Or.inl hr
      · exact Or.inr ⟨dim, l, mid, hr, decideR_spec ieee cfg d ds dim l mid hr⟩) Tri.bound tris tris.length (buildData Tri.bound tris) [] 0
    (by intro h; rw [h] at hl; exact hne (List.length_eq_zero_iff.1 hl.symm)) (by rw [hl]) hc
  refine ⟨node, ordered, total, h, ?_⟩
  obtain ⟨hperm, hpart, -, -⟩ := buildR_correct ieee cfg Tri.bound tris node ordered total h
  have h1 := hpart.count
  have h2 := height_lt_count hpart
  have := hperm.length_eq
  omega

/-! ### Theorems: one ray -/

/-- **C186** a triangle that is clearly in front is the one the scene reports, at its distance up to the tolerance, and the any-hit query answers yes. -/
theorem C186_first (cfg : Config K) (tris : List (Tri K)) (r : FRay K) (mint : K) (hmint : r.mint = .fin mint) (hr : NoNegZero r)
    (node : Node K) (ordered : List (Tri K)) (total : ℕ)
    (h : buildG (decideR ieee cfg) tris tris.length (buildData Tri.bound tris) [] 0 = .ok (node, ordered, total)) (hh : node.height ≤ 64)
    (A : Tri K) (hA : A ∈ tris) (t slack : K) (hc : ClearHit r mint A t slack) (hlt : F.lt (.fin (t + slack)) r.maxt = true)
    (hb : ∀ c ∈ tris, c = A ∨ Beyond r mint c (.fin (t + slack))) :
    ∃ bvh s, mkR ieee cfg Tri.bound tris = .ok bvh ∧ |s - t| ≤ slack ∧
      ∀ fuel ≥ total, bvh.intersectR ieee (dist r mint) r fuel = .ok ⟨.fin s, some A, true⟩ ∧ bvh.intersectPR ieee (dist r mint) r fuel = .ok true := by
  have hne : tris ≠ [] := List.ne_nil_of_mem hA
  obtain ⟨bvh, acc, res, a1, a2, a3, a4, -, a6⟩ := C181_scene cfg tris hne r mint hmint hr node ordered total h hh
  obtain rfl := a6 A hA t slack hc hlt
  obtain ⟨s, p, e, hle⟩ := a4 A hA t slack hc hlt
  rcases a3 with e' | ⟨q, hq, s', b1, b2, hs', e', -⟩
  · rw [e'] at e; injection e with _ e; cases e
  · rw [e'] at e
    have e1 := congrArg Acc.maxt e
    have e2 := congrArg Acc.isect e
    simp only [F.fin.injEq, Option.some.injEq] at e1 e2
    subst e1; subst e2
    obtain rfl : q = A := by
      rcases hb q hq with h | h
      · exact h
      · have := beyond_reported h hs'
        simp only [F.lt, decide_eq_true_eq] at this
        linarith
    obtain ⟨s, hs, hst⟩ := dist_clear hc
    rw [TriScene.dist, hs', Option.map_some, Option.some.injEq] at hs
    change s' = s at hs
    subst hs
    refine ⟨bvh, s', a1, hst, fun fuel hf => ?_⟩
    rw [← e']; exact a2 fuel hf

/-- **C186** a ray that clearly passes all triangles meets nothing. -/
theorem C186_miss (cfg : Config K) (tris : List (Tri K)) (hne : tris ≠ []) (r : FRay K) (mint : K) (hmint : r.mint = .fin mint) (hr : NoNegZero r)
    (node : Node K) (ordered : List (Tri K)) (total : ℕ)
    (h : buildG (decideR ieee cfg) tris tris.length (buildData Tri.bound tris) [] 0 = .ok (node, ordered, total)) (hh : node.height ≤ 64)
    (hb : ∀ c ∈ tris, Beyond r mint c r.maxt) :
    ∃ bvh, mkR ieee cfg Tri.bound tris = .ok bvh ∧
      ∀ fuel ≥ total, bvh.intersectR ieee (dist r mint) r fuel = .ok ⟨r.maxt, none, false⟩ ∧ bvh.intersectPR ieee (dist r mint) r fuel = .ok false := by
  obtain ⟨bvh, acc, res, a1, a2, a3, -, a5, -⟩ := C181_scene cfg tris hne r mint hmint hr node ordered total h hh
  refine ⟨bvh, a1, fun fuel hf => ?_⟩
  have hacc : acc = ⟨r.maxt, none, false⟩ := by
    rcases a3 with e | ⟨q, hq, s, b1, b2, hs, -, hle⟩
    · exact e
    · exact absurd hle (not_le_of_lt (beyond_reported (hb q hq) hs))
  have hres : res = false := by
    cases hr : res with
    | false => rfl
    | true =>
      obtain ⟨q, hq, s, b1, b2, hs, hle⟩ := a5 hr
      exact absurd hle (not_le_of_lt (beyond_reported (hb q hq) hs))
  rw [← hacc, ← hres]; exact a2 fuel hf

/-! ### Theorems: the picture -/

section
open Verif.FullR Verif.Sampler
open Verif.Film (Vec Film reach Covers sumW)

variable {E : Type*}

/-- what the integrator finds along a camera ray: `scene.intersect(ray)` (`integrator/surface/*.py`, `scene/scene.py:35-37`), the triangle of the nearest hit -/
def found (bvh : Bvh K (Tri K)) (fuel : ℕ) (mint : K) (r : FRay K) : Option (Tri K) :=
  match bvh.intersectR ieee (dist r mint) r fuel with
  | .ok acc => acc.isect
  | .error _ => none

/-- one sample of the rendering loop (`renderer.py:162-193`): camera ray, nearest hit, and then whatever the integrators make of it -/
def radFound (bvh : Bvh K (Tri K)) (fuel : ℕ) (mint : K) (ray : Sample K → FRay K) (shade : E → Option (Tri K) → Sample K → Vec K × E) (e : E) (smp : Sample K) : Vec K × E :=
  shade e (found bvh fuel mint (ray smp)) smp

theorem reach_covers (R : Rounding K) (f : Film K) (i j : ℕ) (es : List (K × K × Vec K)) (s : K × Vec K) (hs : s ∈ reach R f i j es) :
    ∃ e ∈ es, s.2 = e.2.2 ∧ Covers R f e.1 e.2.1 i j := by
  induction es with
  | nil => simp [reach] at hs
  | cons e es ih =>
    obtain ⟨X, Y, L⟩ := e
    simp only [reach] at hs
    split_ifs at hs with hc
    · rcases List.mem_cons.1 hs with rfl | hs
      · exact ⟨(X, Y, L), by simp, rfl, hc⟩
      · obtain ⟨e, he, h⟩ := ih hs
        exact ⟨e, by simp [he], h⟩
    · obtain ⟨e, he, h⟩ := ih hs
      exact ⟨e, by simp [he], h⟩

theorem found_sees (cfg : Config K) (tris : List (Tri K)) (hne : tris ≠ []) (r : FRay K) (mint : K) (hmint : r.mint = .fin mint) (hr : NoNegZero r)
    (node : Node K) (ordered : List (Tri K)) (total : ℕ)
    (h : buildG (decideR ieee cfg) tris tris.length (buildData Tri.bound tris) [] 0 = .ok (node, ordered, total)) (hh : node.height ≤ 64)
    (bvh : Bvh K (Tri K)) (hb : mkR ieee cfg Tri.bound tris = .ok bvh) (fuel : ℕ) (hf : fuel ≥ total) (o : Option (Tri K)) (ho : Sees r mint tris o) :
    found bvh fuel mint r = o := by
  cases o with
  | some A =>
    obtain ⟨hA, t, slack, hc, hlt, hbe⟩ := ho
    obtain ⟨bvh', s, e1, -, e2⟩ := C186_first cfg tris r mint hmint hr node ordered total h hh A hA t slack hc hlt hbe
    obtain rfl : bvh = bvh' := by rw [hb] at e1; injection e1
    rw [found, (e2 fuel hf).1]
  | none =>
    obtain ⟨bvh', e1, e2⟩ := C186_miss cfg tris hne r mint hmint hr node ordered total h hh ho
    obtain rfl : bvh = bvh' := by rw [hb] at e1; injection e1
    rw [found, (e2 fuel hf).1]

/-- **C186** the whole rendering of a scene of triangles in binary64, for every camera whose rays start at `mint` and have no component `-0.0`, and for every shading of the
nearest hit with finite radiances that are not negative: the rendering ends without an exception, and if along the rays of all samples that reach a pixel one and the same
triangle is clearly in front (or clearly nothing is met), then each channel of the pixel is between the darkest and the brightest radiance that shading gives *that triangle*
(or the background), up to the rounding error of the film. -/
theorem C186_picture (cfg : Config K) (tris : List (Tri K)) (hne : tris ≠ []) (node : Node K) (ordered : List (Tri K)) (total : ℕ)
    (hbuild : buildG (decideR ieee cfg) tris tris.length (buildData Tri.bound tris) [] 0 = .ok (node, ordered, total)) (hh : node.height ≤ 64)
    (mint : K) (ray : Sample K → FRay K) (hmint : ∀ smp, (ray smp).mint = .fin mint) (hz : ∀ smp, NoNegZero (ray smp))
    (shade : E → Option (Tri K) → Sample K → Vec K × E) (M : K) (hM : ∀ e q smp k, Film.Low (-500) ((shade e q smp).1 k) ∧ (shade e q smp).1 k ≤ M)
    (r : Rand K) (hr : UnitDraws r) (hs : Shuffles r) (x0 y0 : ℤ) (w h : ℕ) (hw : 0 < w) (xst yst : ℕ) (hcnt : max xst 1 * max yst 1 ≤ 2 ^ 53)
    (jitter : Bool) (sOpen sClose : K) (n1 n2 : List ℕ) (h1 : ∀ n ∈ n1, n ≤ 2 ^ 53) (h2 : ∀ n ∈ n2, n ≤ 2 ^ 53) (st : RS) (e : E) (f0 : Film K)
    (hf : Ready f0 x0 y0 w h (max xst 1 * max yst 1)) :
    ∃ bvh, mkR ieee cfg Tri.bound tris = .ok bvh ∧ ∀ fuel ≥ total,
      ∃ s1 log, renderR ieee (radFound bvh fuel mint ray shade) r n1 n2 (w * h + 1) ⟨sampler x0 y0 w h xst yst jitter sOpen sClose, st, e, f0⟩ = some (s1, log) ∧
        ∀ i < f0.xCnt, ∀ j < f0.yCnt, ∀ o : Option (Tri K), (∀ q ∈ log, Covers ieee f0 q.1.imageX q.1.imageY i j → Sees (ray q.1) mint tris o) →
          ∀ lo hi : Vec K, (∀ e smp k, lo k ≤ (shade e o smp).1 k ∧ (shade e o smp).1 k ≤ hi k) →
          let n := (reach ieee f0 i j (calls log)).length
          let err : K := 3 / 1000000 * M + ((n + 9) * 2 ^ (-47 : ℤ) * M + 2 ^ (-1075 : ℤ))
          0 < n ∧ ∀ k, lo k - err ≤ pictureR ieee s1.film j i k ∧ pictureR ieee s1.film j i k ≤ hi k + err := by
  obtain ⟨hperm, hpart, -, htot⟩ := buildR_correct ieee cfg Tri.bound tris node ordered total hbuild
  have hl' : tris.length ≠ 0 := by simpa using hne
  refine ⟨⟨ordered, some (preorder node 0)⟩, by simp only [mkR, hl', if_false, hbuild, htot, C37_flatten_is_preorder node hpart.nonEmpty], fun fuel hfuel => ?_⟩
  have hmk : mkR ieee cfg Tri.bound tris = .ok ⟨ordered, some (preorder node 0)⟩ := by simp only [mkR, hl', if_false, hbuild, htot, C37_flatten_is_preorder node hpart.nonEmpty]
  obtain ⟨s1, log, e1, e2, e3⟩ := C178_picture r hr hs x0 y0 w h hw xst yst hcnt jitter sOpen sClose (radFound ⟨ordered, some (preorder node 0)⟩ fuel mint ray shade) M
    (fun e smp k => hM e _ smp k) n1 n2 h1 h2 st e f0 hf
  refine ⟨s1, log, e1, fun i hi' j hj o ho lo hi hlo => ?_⟩
  intro n err
  obtain ⟨a1, a2, -, a4⟩ := e3 i hi' j hj
  have hS0 : 0 < max xst 1 * max yst 1 := Nat.mul_pos (by omega) (by omega)
  have hn : 0 < n := lt_of_lt_of_le hS0 a1
  refine ⟨hn, fun k => ?_⟩
  have hb := avg_between (reach ieee f0 i j (calls log)) k (lo k) (hi k) a2 (List.length_pos_iff.1 hn) (fun s hs => by
    obtain ⟨q, hq, hq2, hcov⟩ := reach_covers ieee f0 i j _ s hs
    obtain ⟨p, hp, rfl⟩ := List.mem_map.1 hq
    obtain ⟨e', he⟩ := e2 p hp
    change s.2 = p.2 at hq2
    have hsee := found_sees cfg tris hne (ray p.1) mint (hmint p.1) (hz p.1) node ordered total hbuild hh _ hmk fuel hfuel o (ho p hp hcov)
    rw [hq2, he, radFound, hsee]; exact hlo e' p.1 k)
  have he : |pictureR ieee s1.film j i k - ((reach ieee f0 i j (calls log)).map (fun s => s.1 * s.2 k)).sum / sumW (reach ieee f0 i j (calls log))| ≤ err := a4 k
  clear_value err
  have := abs_le.1 he
  exact ⟨by linarith [this.1, hb.1], by linarith [this.2, hb.2]⟩

/-- **C186** no hypothesis on the hierarchy: at most 65 triangles, the surface-area method and at most four triangles per node -/
theorem C186_small_scene (cfg : Config K) (hm : cfg.middle = false) (hmax : cfg.maxPrim ≤ 4) (tris : List (Tri K)) (hne : tris ≠ []) (hsmall : tris.length ≤ 65)
    (r : FRay K) (mint : K) (hmint : r.mint = .fin mint) (hr : NoNegZero r) :
    ∃ bvh total, mkR ieee cfg Tri.bound tris = .ok bvh ∧ ∀ fuel ≥ total, ∀ o, Sees r mint tris o → found bvh fuel mint r = o ∧ bvh.intersectPR ieee (dist r mint) r fuel = .ok o.isSome := by
  obtain ⟨node, ordered, total, h, hh⟩ := small_built cfg hm hmax tris hne hsmall
  obtain ⟨bvh, -, -, a1, -⟩ := C181_scene cfg tris hne r mint hmint hr node ordered total h hh
  refine ⟨bvh, total, a1, fun fuel hf o ho => ⟨found_sees cfg tris hne r mint hmint hr node ordered total h hh bvh a1 fuel hf o ho, ?_⟩⟩
  cases o with
  | some A =>
    obtain ⟨hA, t, slack, hc, hlt, hbe⟩ := ho
    obtain ⟨bvh', s, e1, -, e2⟩ := C186_first cfg tris r mint hmint hr node ordered total h hh A hA t slack hc hlt hbe
    obtain rfl : bvh = bvh' := by rw [a1] at e1; injection e1
    exact (e2 fuel hf).2
  | none =>
    obtain ⟨bvh', e1, e2⟩ := C186_miss cfg tris hne r mint hmint hr node ordered total h hh ho
    obtain rfl : bvh = bvh' := by rw [a1] at e1; injection e1
    exact (e2 fuel hf).2
end

/-! ### Concrete case -/

/-- a triangle beside the ray -/
def triC : Tri ℚ := ⟨⟨-8, 0, 4⟩, ⟨-1, 0, 4⟩, ⟨-8, 8, 4⟩⟩

/-- of three triangles the slanted one is seen, the flat one being behind it and the third beside the ray; a ray the other way sees nothing -/
example : Sees rayAB 0 [triB, triC, triA] (some triA) ∧ Sees { rayAB with d := ⟨⟨1 / 8, false⟩, ⟨0, false⟩, ⟨1, false⟩⟩ } 0 [triB, triC, triA] none := by
  have g : ∀ {n : ℤ} {x : ℚ}, x = n * 2 ^ (-3 : ℤ) → Grid (-200) x := fun {n x} h => Grid.mono (show (-200 : ℤ) ≤ -3 by norm_num) ⟨n, h⟩
  have cA : Coarse triA.p1 ∧ Coarse triA.p2 ∧ Coarse triA.p3 :=
    ⟨⟨g (n := 8) (by decide +kernel), g (n := 8) (by decide +kernel), g (n := 0) (by decide +kernel)⟩, ⟨g (n := 32) (by decide +kernel), g (n := 8) (by decide +kernel), g (n := 8) (by decide +kernel)⟩,
      g (n := 8) (by decide +kernel), g (n := 32) (by decide +kernel), g (n := 8) (by decide +kernel)⟩
  have cB : Coarse triB.p1 ∧ Coarse triB.p2 ∧ Coarse triB.p3 :=
    ⟨⟨g (n := 0) (by decide +kernel), g (n := 0) (by decide +kernel), g (n := -16) (by decide +kernel)⟩, ⟨g (n := 64) (by decide +kernel), g (n := 0) (by decide +kernel), g (n := -16) (by decide +kernel)⟩,
      g (n := 0) (by decide +kernel), g (n := 64) (by decide +kernel), g (n := -16) (by decide +kernel)⟩
  have cC : Coarse triC.p1 ∧ Coarse triC.p2 ∧ Coarse triC.p3 :=
    ⟨⟨g (n := -64) (by decide +kernel), g (n := 0) (by decide +kernel), g (n := 32) (by decide +kernel)⟩, ⟨g (n := -8) (by decide +kernel), g (n := 0) (by decide +kernel), g (n := 32) (by decide +kernel)⟩,
      g (n := -64) (by decide +kernel), g (n := 64) (by decide +kernel), g (n := 32) (by decide +kernel)⟩
  have cR : Coarse (openRay rayAB 0).o ∧ Coarse (openRay rayAB 0).d :=
    ⟨⟨g (n := 16) (by decide +kernel), g (n := 16) (by decide +kernel), g (n := 40) (by decide +kernel)⟩, g (n := 1) (by decide +kernel), g (n := 0) (by decide +kernel), g (n := -8) (by decide +kernel)⟩
  have cR' : Coarse (⟨1 / 8, 0, 1⟩ : V3 ℚ) := ⟨g (n := 1) (by decide +kernel), g (n := 0) (by decide +kernel), g (n := 8) (by decide +kernel)⟩
  have sized : ∀ (q : Tri ℚ) (d : V3 ℚ) (L : ℚ), Coarse q.p1 ∧ Coarse q.p2 ∧ Coarse q.p3 → Coarse d → 0 < L ∧ L ≤ 2 ^ (100 : ℤ) → Within L (q.p2 - q.p1) → Within L (q.p3 - q.p1) → Within L (rayAB.o - q.p1) →
      Within 1 d → Sized q.p1 q.p2 q.p3 ⟨rayAB.o, d, 0, ⊤⟩ L 1 := fun q d L h1 h2 h3 h4 h5 h6 h7 =>
    ⟨h3, ⟨by norm_num, by norm_num⟩, ⟨h1.1, h1.2.1, h1.2.2, cR.1, h2⟩, h4, h5, h6, h7⟩
  refine ⟨⟨by simp, 104 / 25, _, ⟨5, 1, _, 38 / 75, 1 / 3, sized triA ⟨1 / 8, 0, -1⟩ 5 cA cR.2 ?_ ?_ ?_ ?_ ?_, ?_, rfl, ?_, ?_, ?_, ?_, ?_, rfl, ?_⟩, rfl, ?_⟩, ?_⟩
  case refine_13 =>
    intro c hc
    simp only [List.mem_cons, List.not_mem_nil, or_false] at hc
    rcases hc with rfl | rfl | rfl
    · right
      refine ⟨8, 1, _, 7, 23 / 64, 1 / 4, sized triB ⟨1 / 8, 0, -1⟩ 8 cB cR.2 ?_ ?_ ?_ ?_ ?_, ?_, rfl, ?_, ?_, Or.inl ?_⟩
      all_goals first | decide +kernel | (simp only [Transversal]; decide +kernel) | (simp only [Within]; decide +kernel)
    · right
      refine ⟨16, 1, _, 1, 81 / 56, 1 / 4, sized triC ⟨1 / 8, 0, -1⟩ 16 cC cR.2 ?_ ?_ ?_ ?_ ?_, ?_, rfl, ?_, ?_, Or.inr (Or.inr (Or.inr (Or.inr ?_)))⟩
      all_goals first | decide +kernel | (simp only [Transversal]; decide +kernel) | (simp only [Within]; decide +kernel)
    · left; rfl
  case refine_14 =>
    intro c hc
    simp only [List.mem_cons, List.not_mem_nil, or_false] at hc
    rcases hc with rfl | rfl | rfl
    · refine ⟨8, 1, _, -7, 9 / 64, 1 / 4, sized triB ⟨1 / 8, 0, 1⟩ 8 cB cR' ?_ ?_ ?_ ?_ ?_, ?_, rfl, ?_, ?_, Or.inr (Or.inl ?_)⟩
      all_goals first | decide +kernel | (simp only [Transversal]; decide +kernel) | (simp only [Within]; decide +kernel)
    · refine ⟨16, 1, _, -1, 79 / 56, 1 / 4, sized triC ⟨1 / 8, 0, 1⟩ 16 cC cR' ?_ ?_ ?_ ?_ ?_, ?_, rfl, ?_, ?_, Or.inr (Or.inl ?_)⟩
      all_goals first | decide +kernel | (simp only [Transversal]; decide +kernel) | (simp only [Within]; decide +kernel)
    · refine ⟨5, 1, _, -104 / 23, 10 / 69, 1 / 3, sized triA ⟨1 / 8, 0, 1⟩ 5 cA cR' ?_ ?_ ?_ ?_ ?_, ?_, rfl, ?_, ?_, Or.inr (Or.inl ?_)⟩
      all_goals first | decide +kernel | (simp only [Transversal]; decide +kernel) | (simp only [Within]; decide +kernel)
  all_goals first | decide +kernel | (simp only [Transversal]; decide +kernel) | (simp only [Within]; decide +kernel)

end Verif.FirstR
