import Verif.Light.Light
import Verif.Dist.Props

/-!
# Area lights (C98, C99)

Models `pytracer/light/utility.py` `ShapeSet` 72-138, `pytracer/light/light.py` `DiffuseAreaLight` 492-521 and 538, `InfiniteAreaLight.sample_l` 603-629 and
`InfiniteAreaLight.pdf` 631-639, and `SamplerRenderer.li` for a ray that hits nothing (`renderer/renderer.py` 63-68), over the real numbers.
Not modelled: `sample_r` (raises for every light), the warning of utility.py 88-91, building the environment map (light.py 563-592; the image `img` is given).
-/
namespace Verif.Light
open V3 Verif.Geom

/-! ### Sets of shapes -/

/-- what a `ShapeSet` needs of a shape: `area()`, `sample_p(p, u0, u1)` (point and normal) and `pdf_p(p, wi)`; `pdf(p)` is `1 / area()` (`shape/__init__.py` 120) -/
structure Emitter where
  area : ℝ
  sampleP : V3 ℝ → ℝ → ℝ → V3 ℝ × V3 ℝ
  pdfP : V3 ℝ → V3 ℝ → ℝ

/-- the loop of `ShapeSet.__init__` (utility.py 79-86): `tmp` is the work list, popped at its end; `none`: fuel ran out (shown not to happen) -/
def collect {S : Type*} : ℕ → List (Agg.Shape S) → List S → Option (List S)
  | 0, _, _ => none
  | fuel + 1, tmp, out =>
    match tmp.getLast? with
    | none => some out
    | some (.simple s) => collect fuel tmp.dropLast (out ++ [s])
    | some (.compound _ parts) => collect fuel (tmp.dropLast ++ parts) out

/-- `ShapeSet` attributes -/
structure ShapeSet where
  shapes : List Emitter
  areas : List ℝ
  sumArea : ℝ
  dist : Dist.D1 ℝ

/-- `ShapeSet.__init__` after refinement (utility.py 92-99) -/
noncomputable def ShapeSet.mk' (shapes : List Emitter) : ShapeSet :=
  let acc := shapes.foldl (fun (s : List ℝ × ℝ) sh => (s.1 ++ [sh.area], s.2 + sh.area)) ([], 0)
  ⟨shapes, acc.1, acc.2, Dist.D1.mk' acc.1⟩

/-- the index chosen in `sample_p` (utility.py 105) -/
noncomputable def ShapeSet.choose (s : ShapeSet) (uCom : ℝ) : Except Dist.Err ℕ := (s.dist.sampleDis uCom).map Prod.fst

/-- `ShapeSet.sample_p` (utility.py 104-108) -/
noncomputable def ShapeSet.sampleP (s : ShapeSet) (p : V3 ℝ) (u0 u1 uCom : ℝ) : Except Dist.Err (V3 ℝ × V3 ℝ) := do
  let sn ← s.choose uCom
  let sh ← Dist.get s.shapes sn
  return sh.sampleP p u0 u1

/-- the loop `for i, sh in enumerate(self.shapes): pdf += self.areas[i] * g(sh)` (utility.py 129-131, 135-137), for a list of shapes with areas of the same length -/
noncomputable def wsum (g : Emitter → ℝ) (areas : List ℝ) (shapes : List Emitter) : ℝ :=
  (areas.zip shapes).foldl (fun acc a => acc + a.1 * g a.2) 0

/-- `ShapeSet.pdf` (utility.py 128-132) -/
noncomputable def ShapeSet.pdf (s : ShapeSet) (p wi : V3 ℝ) : ℝ := wsum (fun sh => sh.pdfP p wi) s.areas s.shapes / s.sumArea

/-- `ShapeSet.pdf_p` (utility.py 134-138) -/
noncomputable def ShapeSet.pdfPt (s : ShapeSet) : ℝ := wsum (fun sh => 1 / sh.area) s.areas s.shapes / (s.sumArea * s.shapes.length)

theorem foldl_acc (shapes : List Emitter) (l : List ℝ) (x : ℝ) :
    shapes.foldl (fun (s : List ℝ × ℝ) sh => (s.1 ++ [sh.area], s.2 + sh.area)) (l, x)
      = (l ++ shapes.map Emitter.area, x + (shapes.map Emitter.area).sum) := by
  induction shapes generalizing l x with
  | nil => simp
  | cons a t ih => simp [ih, add_assoc]

theorem mk'_eq (shapes : List Emitter) : ShapeSet.mk' shapes =
    ⟨shapes, shapes.map Emitter.area, (shapes.map Emitter.area).sum, Dist.D1.mk' (shapes.map Emitter.area)⟩ := by
  simp [ShapeSet.mk', foldl_acc]

theorem wsum_eq (g : Emitter → ℝ) (shapes : List Emitter) :
    wsum g (shapes.map Emitter.area) shapes = (shapes.map fun sh => sh.area * g sh).sum := by
  have : ∀ (l : List Emitter) (x : ℝ), ((l.map Emitter.area).zip l).foldl (fun acc a => acc + a.1 * g a.2) x = x + (l.map fun sh => sh.area * g sh).sum := by
    intro l
    induction l with
    | nil => simp
    | cons a t ih => intro x; simp [ih, add_assoc]
  simp [wsum, this]

/-- rounds needed for a work list -/
theorem collect_spec {S : Type*} (fuel : ℕ) (tmp : List (Agg.Shape S)) (out : List S) (h : (tmp.map Agg.Shape.rounds).sum < fuel) :
    collect fuel tmp out = some (out ++ (tmp.flatMap Agg.Shape.leaves).reverse) := by
  induction fuel generalizing tmp out with
  | zero => omega
  | succ fuel ih =>
    rcases List.eq_nil_or_concat tmp with rfl | ⟨rest, p, rfl⟩
    · simp [collect]
    · simp only [List.concat_eq_append] at *
      cases p with
      | simple s =>
        simp only [collect, List.getLast?_append, List.getLast?_singleton, Option.some_or, List.dropLast_concat]
        rw [ih _ _ (by simp [Agg.Shape.rounds] at h ⊢; omega)]
        simp [Agg.Shape.leaves, List.flatMap_append]
      | compound s parts =>
        simp only [collect, List.getLast?_append, List.getLast?_singleton, Option.some_or, List.dropLast_concat]
        rw [ih _ _ (by simp [Agg.Shape.rounds_compound] at h ⊢; omega)]
        simp [Agg.Shape.leaves_compound, List.flatMap_append]

/-- **C98** the constructor's loop ends and collects every intersectable part of the shape exactly once. -/
theorem C98_collects_all {S : Type*} (sh : Agg.Shape S) (fuel : ℕ) (h : sh.rounds < fuel) :
    ∃ out, collect fuel [sh] [] = some out ∧ out.Perm sh.leaves := by
  refine ⟨_, collect_spec fuel [sh] [] (by simpa using h), ?_⟩
  simp

/-- the integral over the unit interval of a step function of the discrete choice -/
theorem integral_choose (a : List ℝ) (ha : ∀ x ∈ a, 0 ≤ x) (hs : 0 < a.sum) (g : ℕ → ℝ) (idx : ℝ → ℕ)
    (hidx : ∀ u, 0 < u → u ≤ 1 → ∃ p, (Dist.D1.mk' a).sampleDis u = .ok (idx u, p)) :
    ∫ u in (0:ℝ)..1, g (idx u) = ∑ k ∈ Finset.range a.length, a.getD k 0 / a.sum * g k := by
  set b : ℕ → ℝ := fun k => (a.take k).sum / a.sum with hb
  have hpart : ∀ k < a.length, b (k + 1) - b k = a.getD k 0 / a.sum := by
    intro k hk
    have := (Dist.C18_interval a ha hs 1 one_pos le_rfl k hk).2
    rw [hb]; simp only; rw [this]
    simp [hk]
  have hmono : ∀ k < a.length, b k ≤ b (k + 1) := by
    intro k hk
    have : 0 ≤ a.getD k 0 / a.sum := by
      apply div_nonneg _ hs.le
      simp only [List.getD_eq_getElem?_getD, List.getElem?_eq_getElem hk, Option.getD_some]
      exact ha _ (List.getElem_mem hk)
    have := hpart k hk
    linarith
  have hb0 : b 0 = 0 := by simp [hb]
  have hbn : b a.length = 1 := by simp [hb, hs.ne']
  have hnn : ∀ k ≤ a.length, 0 ≤ b k := by
    intro k
    induction k with
    | zero => intro _; rw [hb0]
    | succ k ih => intro hk; exact (ih (by omega)).trans (hmono k (by omega))
  have hle : ∀ k ≤ a.length, b k ≤ 1 := by
    intro k hk
    induction hk using Nat.decreasingInduction with
    | self => rw [hbn]
    | of_succ k hk ih => exact (hmono k hk).trans ih
  have hconst : ∀ k < a.length, ∀ u ∈ Set.Ioc (b k) (b (k + 1)), g (idx u) = g k := by
    intro k hk u hu
    have h0 : 0 < u := lt_of_le_of_lt (hnn k hk.le) hu.1
    have h1 : u ≤ 1 := hu.2.trans (hle _ hk)
    obtain ⟨p, hp⟩ := hidx u h0 h1
    obtain ⟨q, hq⟩ := ((Dist.C18_interval a ha hs u h0 h1 k hk).1).2 hu
    rw [hp] at hq
    injection hq with hq
    rw [(Prod.mk.inj hq).1]
  have hint : ∀ k < a.length, IntervalIntegrable (fun u => g (idx u)) MeasureTheory.volume (b k) (b (k + 1)) := by
    intro k hk
    refine (intervalIntegrable_const (c := g k)).congr ?_
    rw [Set.uIoc_of_le (hmono k hk)]
    exact fun u hu => (hconst k hk u hu).symm
  have := intervalIntegral.sum_integral_adjacent_intervals (f := fun u => g (idx u)) (a := b) (n := a.length) hint
  rw [hb0, hbn] at this
  rw [← this]
  apply Finset.sum_congr rfl
  intro k hk
  have hk' := Finset.mem_range.1 hk
  have e : ∫ u in b k..b (k + 1), g (idx u) = ∫ _u in b k..b (k + 1), g k := by
    apply intervalIntegral.integral_congr_ae
    rw [Set.uIoc_of_le (hmono k hk')]
    exact Filter.Eventually.of_forall (fun u hu => hconst k hk' u hu)
  rw [e, intervalIntegral.integral_const, smul_eq_mul, hpart k hk']

theorem sum_getD (shapes : List Emitter) (g : Emitter → ℝ) :
    (shapes.map fun sh => sh.area * g sh).sum =
      ∑ k ∈ Finset.range shapes.length, (shapes.map Emitter.area).getD k 0 * ((shapes[k]?).map g).getD 0 := by
  induction shapes with
  | nil => simp
  | cons a t ih =>
    rw [List.length_cons, Finset.sum_range_succ']
    simp only [List.map_cons, List.sum_cons, List.getD_cons_succ, List.getElem?_cons_succ, List.getD_cons_zero, List.getElem?_cons_zero, Option.map_some,
      Option.getD_some]
    rw [ih]; ring

/-- **C98** the density `pdf(p, wi)` of a set of shapes is the density of the shape `sample_p` chooses, averaged over the component sample that
chooses it; the chosen shape exists and has positive area. -/
theorem C98_pdf_is_mixture (shapes : List Emitter) (ha : ∀ sh ∈ shapes, 0 ≤ sh.area) (hs : 0 < (shapes.map Emitter.area).sum) :
    ∃ idx : ℝ → ℕ,
      (∀ u, 0 < u → u ≤ 1 → (ShapeSet.mk' shapes).choose u = .ok (idx u) ∧ ∃ sh, shapes[idx u]? = some sh ∧ 0 < sh.area ∧
        ∀ p u0 u1, (ShapeSet.mk' shapes).sampleP p u0 u1 u = .ok (sh.sampleP p u0 u1)) ∧
      ∀ p wi, (ShapeSet.mk' shapes).pdf p wi = ∫ u in (0:ℝ)..1, ((shapes[idx u]?).map fun sh => sh.pdfP p wi).getD 0 := by
  have ha' : ∀ x ∈ shapes.map Emitter.area, 0 ≤ x := by
    intro x hx
    obtain ⟨sh, h1, rfl⟩ := List.mem_map.1 hx
    exact ha sh h1
  refine ⟨fun u => (Dist.D1.mk' (shapes.map Emitter.area)).off u, ?_, ?_⟩
  · intro u h0 h1
    obtain ⟨k, hk, he, hp⟩ := Dist.C18_sample_dis _ hs u h0 h1
    obtain ⟨hl, -, -⟩ := Dist.off_spec _ hs u h0 h1
    have e := Dist.sampleDis_eq _ hs u h0 h1 _ rfl hl
    rw [he] at e
    injection e with e
    have hk' : k = (Dist.D1.mk' (shapes.map Emitter.area)).off u := (Prod.mk.inj e).1
    beta_reduce
    rw [← hk']
    have hc : (ShapeSet.mk' shapes).choose u = .ok k := by
      rw [mk'_eq]
      simp only [ShapeSet.choose, he]
      rfl
    have hk2 : k < shapes.length := by simpa using hk
    refine ⟨hc, shapes[k], by simp [hk2], by simpa using hp, ?_⟩
    intro p u0 u1
    unfold ShapeSet.sampleP
    rw [hc]
    have hsh : (ShapeSet.mk' shapes).shapes = shapes := by rw [mk'_eq]
    rw [hsh]
    simp only [Dist.get, List.getElem?_eq_getElem hk2, bind, Except.bind, pure, Except.pure]
  · intro p wi
    rw [integral_choose _ ha' hs (fun k => ((shapes[k]?).map fun sh => sh.pdfP p wi).getD 0)]
    · rw [mk'_eq]
      simp only [ShapeSet.pdf, wsum_eq, sum_getD, List.length_map, Finset.sum_div]
      apply Finset.sum_congr rfl
      intro k _
      ring
    · intro u h0 h1
      obtain ⟨hl, -, -⟩ := Dist.off_spec _ hs u h0 h1
      exact ⟨_, Dist.sampleDis_eq _ hs u h0 h1 _ rfl hl⟩

/-- **C98** `pdf_p` is one over the total area, the density per unit area of choosing a shape by area and then a point uniformly on it. -/
theorem C98_pdf_p (shapes : List Emitter) (ha : ∀ sh ∈ shapes, 0 < sh.area) (hne : shapes ≠ []) :
    (ShapeSet.mk' shapes).pdfPt = 1 / (shapes.map Emitter.area).sum := by
  rw [mk'_eq]
  simp only [ShapeSet.pdfPt, wsum_eq]
  have : (shapes.map fun sh => sh.area * (1 / sh.area)) = shapes.map fun _ => (1:ℝ) := by
    apply List.map_congr_left
    intro sh h
    exact mul_one_div_cancel (ha sh h).ne'
  rw [this]
  have hl : (shapes.length : ℝ) ≠ 0 := by
    simpa using hne
  simp only [List.map_const', List.sum_replicate, nsmul_eq_mul, mul_one]
  rw [mul_comm, ← div_div, div_self hl]

/-- two shapes, one three times the size of the other -/
def exShapes : List Emitter := [⟨1, fun p _ _ => (p, p), fun _ _ => 1⟩, ⟨3, fun p _ _ => (p, p), fun _ _ => 5⟩]

example : (∀ sh ∈ exShapes, 0 < sh.area) ∧ 0 < (exShapes.map Emitter.area).sum ∧ exShapes ≠ [] := by
  refine ⟨?_, ?_, ?_⟩ <;> simp [exShapes]; norm_num

/-! ### Diffuse area lights -/

open Classical in
/-- `DiffuseAreaLight.l` (light.py 507-508) -/
noncomputable def areaL {ι : Type*} (emit : ι → ℝ) (n w : V3 ℝ) : ι → ℝ := if dot n w > 0 then emit else fun _ => 0

/-- `EPS` (`pytracer/__init__.py` 23) -/
noncomputable def eps : ℝ := 1 / 100000

/-- `DiffuseAreaLight.sample_l` (light.py 514-521) -/
noncomputable def areaSample {ι : Type} (emit : ι → ℝ) (s : ShapeSet) (p : V3 ℝ) (pEps u0 u1 uCom : ℝ) : Except Dist.Err (LSample ι) := do
  let (ps, ns) ← s.sampleP p u0 u1 uCom
  let wi := normalize (ps - p)
  return ⟨areaL emit ns (-wi), wi, s.pdf p wi, setSegment p pEps ps eps⟩

/-- `DiffuseAreaLight.pdf` (light.py 538) -/
noncomputable def areaPdf (s : ShapeSet) (p wi : V3 ℝ) : ℝ := s.pdf p wi

/-- **C99** sampling a diffuse area light: the sample is at the end of a unit direction, the light is one-sided (it emits its radiance
exactly to points on the side its normal points to), the density is the one `pdf` reports for that direction, and the shadow ray covers neither end point. -/
theorem C99_area_sample {ι : Type} (emit : ι → ℝ) (s : ShapeSet) (p : V3 ℝ) (pEps u0 u1 uCom : ℝ) (ps ns : V3 ℝ)
    (h : s.sampleP p u0 u1 uCom = .ok (ps, ns)) (hne : p ≠ ps) (he : 0 < pEps) :
    ∃ r, areaSample emit s p pEps u0 u1 uCom = .ok r ∧ Geom.length r.wi = 1 ∧ ps = p + Geom.length (ps - p) * r.wi ∧
      r.pdf = areaPdf s p r.wi ∧ (0 < dot ns (p - ps) → r.radiance = emit) ∧ (dot ns (p - ps) ≤ 0 → r.radiance = fun _ => 0) ∧
      ¬ Covers r.vis p ∧ ¬ Covers r.vis ps ∧ ∀ x, Covers r.vis x → ∃ t : ℝ, 0 < t ∧ t < 1 ∧ x = p + t * (ps - p) := by
  have hd : 0 < Geom.length (ps - p) := length_sub_pos hne.symm
  have hdot : dot ns (-(normalize (ps - p))) = dot ns (p - ps) / Geom.length (ps - p) := by
    rw [normalize_eq hne.symm]
    simp only [dot, neg_x, neg_y, neg_z, sub_x, sub_y, sub_z]
    field_simp
    ring
  refine ⟨_, by simp only [areaSample, h, bind, Except.bind, pure, Except.pure]; rfl, ?_, ?_, rfl, ?_, ?_, ?_, ?_, ?_⟩
  · show Geom.length (normalize (ps - p)) = 1
    rw [normalize_eq hne.symm]
    exact unit_dir hne _ (length_sub_comm _ _)
  · show ps = p + Geom.length (ps - p) * normalize (ps - p)
    rw [normalize_eq hne.symm]
    apply V3.ext <;> simp only [add_x, add_y, add_z, smul_x, smul_y, smul_z] <;> field_simp <;> ring
  · intro h0
    show areaL emit ns (-(normalize (ps - p))) = emit
    rw [areaL, if_pos]
    rw [hdot]; exact div_pos h0 hd
  · intro h0
    show areaL emit ns (-(normalize (ps - p))) = fun _ => 0
    rw [areaL, if_neg]
    rw [hdot, gt_iff_lt, not_lt]
    exact div_nonpos_of_nonpos_of_nonneg h0 hd.le
  · rw [(C54_end_points p ps pEps eps hne).1]
    intro h; linarith [h.1]
  · rw [(C54_end_points p ps pEps eps hne).2]
    intro h; have := h.2; norm_num [eps] at this
  · intro x hx
    obtain ⟨t, h1, h2, rfl⟩ := (C54_segment_points p ps pEps eps hne x).1 hx
    refine ⟨t, lt_of_lt_of_le (div_pos he hd) h1, lt_of_le_of_lt h2 (by norm_num [eps]), rfl⟩

/-- a light source as `SamplerRenderer.li` sees it for a ray that hits nothing: `Light.le` (light.py 108-115) returns zero, `DiffuseAreaLight.le` (504-505) its radiance,
an environment light what its map says -/
inductive Src (ι : Type*)
  | delta
  | area (emit : ι → ℝ)
  | env (le : V3 ℝ → ι → ℝ)

/-- `light.le(ray)`; only the direction of the ray matters -/
def Src.le {ι : Type*} : Src ι → V3 ℝ → ι → ℝ
  | .delta, _ => fun _ => 0
  | .area e, _ => e
  | .env f, d => f d

/-- the `else` branch of `SamplerRenderer.li` (renderer.py 63, 67-68): the radiance of a ray that leaves the scene -/
noncomputable def background {ι : Type*} (lights : List (Src ι)) (d : V3 ℝ) : ι → ℝ :=
  lights.foldl (fun acc l => fun c => acc c + l.le d c) (fun _ => 0)

/-- the environment's share -/
noncomputable def envSum {ι : Type*} (lights : List (Src ι)) (d : V3 ℝ) (c : ι) : ℝ :=
  (lights.map fun l => match l with | .env f => f d c | _ => 0).sum

/-- the area lights' total -/
noncomputable def areaSum {ι : Type*} (lights : List (Src ι)) (c : ι) : ℝ :=
  (lights.map fun l => match l with | .area e => e c | _ => 0).sum

/-- **C102** a ray that hits nothing gets, besides the environment, the full radiance of every area light in the scene. -/
theorem C102_background {ι : Type*} (lights : List (Src ι)) (d : V3 ℝ) (c : ι) : background lights d c = envSum lights d c + areaSum lights c := by
  have : ∀ (l : List (Src ι)) (f : ι → ℝ), l.foldl (fun acc l => fun c => acc c + l.le d c) f c = f c + (envSum l d c + areaSum l c) := by
    intro l
    induction l with
    | nil => intro f; simp [envSum, areaSum]
    | cons a t ih =>
      intro f
      rw [List.foldl_cons, ih]
      cases a <;> simp [Src.le, envSum, areaSum] <;> ring
  simp [background, this]

/-- **C102** so a ray that leaves a scene without environment light is not always black: one area light suffices. -/
theorem C102_background_false : ¬ ∀ (lights : List (Src Unit)) (d : V3 ℝ) (c : Unit), background lights d c = envSum lights d c := by
  intro h
  have := h [.area fun _ => 1] ⟨0, 0, 1⟩ ()
  rw [C102_background] at this
  simp [areaSum] at this

/-- **C102** it holds for scenes without emitting area lights. -/
theorem C102_background_partial {ι : Type*} (lights : List (Src ι)) (h : ∀ e, Src.area e ∈ lights → ∀ c, e c = 0) (d : V3 ℝ) (c : ι) :
    background lights d c = envSum lights d c := by
  rw [C102_background]
  have : areaSum lights c = 0 := by
    apply List.sum_eq_zero
    intro x hx
    obtain ⟨l, hl, rfl⟩ := List.mem_map.1 hx
    cases l with
    | area e => exact h e hl c
    | _ => rfl
  rw [this, add_zero]

/-! ### Environment lights -/

/-- `InfiniteAreaLight.sample_l` (light.py 605-621): direction in light space (before `l2w`) and density; `none` for the density is `0 / 0`.
As in line 606 and `Distribution2D.sample_cont`, `uv[1]` is a row number. -/
noncomputable def envSample (dist : Dist.D2 ℝ) (u0 u1 : ℝ) : Except Dist.Err (V3 ℝ × Option ℝ) := do
  let (uv, pdf) ← dist.sampleCont u0 u1
  let theta := (uv.2 : ℝ) * Real.pi
  let phi := uv.1 * 2 * Real.pi
  let st := Real.sin theta
  let d : V3 ℝ := ⟨st * Real.cos phi, st * Real.sin phi, Real.cos theta⟩
  let pdf := if st = 0 then 0 else pdf
  return (d, MC.qdiv pdf (2 * Real.pi * Real.pi * st))

/-- `InfiniteAreaLight.pdf` (light.py 632-639) for the direction `wi = w2l(w)` -/
noncomputable def envPdf (dist : Dist.D2 ℝ) (wi : V3 ℝ) : Except Dist.Err ℝ :=
  let theta := sphericalTheta wi
  let phi := sphericalPhi wi
  let st := Real.sin theta
  if st = 0 then .ok 0
  else dist.pdf (phi * MC.inv2Pi) (theta * MC.invPi / (2 * Real.pi * Real.pi * st))

/-- **C103** every direction `sample_l` of an environment light produces is the pole (0,0,1) or (0,0,-1) of the map, and its density is `0 / 0`. -/
theorem C103_only_poles (dist : Dist.D2 ℝ) (u0 u1 : ℝ) (d : V3 ℝ) (p : Option ℝ) (h : envSample dist u0 u1 = .ok (d, p)) :
    (d = ⟨0, 0, 1⟩ ∨ d = ⟨0, 0, -1⟩) ∧ p = none := by
  simp only [envSample, bind, Except.bind, pure, Except.pure] at h
  cases hs : dist.sampleCont u0 u1 with
  | error e => simp [hs] at h
  | ok v =>
    obtain ⟨⟨u, vi⟩, pdf⟩ := v
    simp only [hs, Except.ok.injEq, Prod.mk.injEq] at h
    have hsin : Real.sin (vi * Real.pi) = 0 := Real.sin_nat_mul_pi vi
    rw [hsin] at h
    obtain ⟨rfl, rfl⟩ := h
    refine ⟨?_, by simp [MC.qdiv]⟩
    simp only [zero_mul]
    rcases Nat.even_or_odd vi with ⟨k, rfl⟩ | ⟨k, rfl⟩
    · left
      have : Real.cos (((k + k : ℕ) : ℝ) * Real.pi) = 1 := by
        push_cast
        rw [← two_mul, mul_comm (2:ℝ) (k:ℝ), mul_assoc]
        exact Real.cos_nat_mul_two_pi k
      rw [this]
    · right
      have : Real.cos (((2 * k + 1 : ℕ) : ℝ) * Real.pi) = -1 := by
        push_cast
        rw [show (2 * (k:ℝ) + 1) * Real.pi = k * (2 * Real.pi) + Real.pi by ring, Real.cos_nat_mul_two_pi_add_pi]
      rw [this]

/-- **C103** hence a constant environment is never sampled with a usable density: whatever the sample, no direction with a density comes out. -/
theorem C103_sample_false : ¬ ∃ u0 u1 d p, envSample (Dist.D2.mk' [[(1:ℝ)]]) u0 u1 = .ok (d, some p) := by
  rintro ⟨u0, u1, d, p, h⟩
  have := (C103_only_poles _ _ _ _ _ h).2
  cases this

theorem pdf_const (Y u v : ℝ) (hY : Y ≠ 0) : (Dist.D2.mk' [[Y]]).pdf u v = .ok 1 := by
  have c0 : ∀ x : ℝ, Dist.cell x 1 = 0 := by
    intro x; unfold Dist.cell; simp
  have hY2 : Y * Y ≠ 0 := mul_ne_zero hY hY
  simp [Dist.D2.mk', Dist.D2.pdf, Dist.D1.mk', Dist.accum, Dist.get, bind, Except.bind, c0, hY, Dist.fdiv]

/-- **C103** the density reported for a direction of a constant environment is 1 for every direction off the poles, so it integrates to `4π` over the sphere. -/
theorem C103_const_pdf (Y θ φ : ℝ) (hY : Y ≠ 0) (h0 : 0 < θ) (hπ : θ < Real.pi) :
    envPdf (Dist.D2.mk' [[Y]]) (sphericalDirection (Real.sin θ) (Real.cos θ) φ) = .ok 1 := by
  have hth : sphericalTheta (sphericalDirection (Real.sin θ) (Real.cos θ) φ) = θ := by
    simp only [sphericalTheta, sphericalDirection]
    rw [min_eq_left (Real.cos_le_one θ), max_eq_right (Real.neg_one_le_cos θ), Real.arccos_cos h0.le hπ.le]
  have hs : Real.sin θ ≠ 0 := (Real.sin_pos_of_pos_of_lt_pi h0 hπ).ne'
  simp only [envPdf, hth, hs, if_false]
  exact pdf_const Y _ _ hY

/-- the value of a computation that may fail -/
noncomputable def valOr0 (e : Except Dist.Err ℝ) : ℝ := match e with | .ok x => x | .error _ => 0

/-- **C103** `pdf` is not a density over directions: for a constant environment its integral over the sphere is `4π`. -/
theorem C103_pdf_false (Y : ℝ) (hY : Y ≠ 0) :
    (∫ θ in (0:ℝ)..Real.pi, ∫ φ in (0:ℝ)..(2 * Real.pi),
      valOr0 (envPdf (Dist.D2.mk' [[Y]]) (sphericalDirection (Real.sin θ) (Real.cos θ) φ)) * Real.sin θ) = 4 * Real.pi := by
  have e : ∀ θ ∈ Set.uIcc (0:ℝ) Real.pi, (∫ φ in (0:ℝ)..(2 * Real.pi),
      valOr0 (envPdf (Dist.D2.mk' [[Y]]) (sphericalDirection (Real.sin θ) (Real.cos θ) φ)) * Real.sin θ) = 2 * Real.pi * Real.sin θ := by
    intro θ hθ
    rw [Set.uIcc_of_le Real.pi_pos.le] at hθ
    by_cases hs : Real.sin θ = 0
    · simp [hs]
    · have h0 : 0 < θ := lt_of_le_of_ne hθ.1 (fun h => hs (by rw [← h, Real.sin_zero]))
      have h1 : θ < Real.pi := lt_of_le_of_ne hθ.2 (fun h => hs (by rw [h, Real.sin_pi]))
      simp only [C103_const_pdf Y θ _ hY h0 h1, valOr0]
      rw [intervalIntegral.integral_const, smul_eq_mul]
      ring
  rw [intervalIntegral.integral_congr e, intervalIntegral.integral_const_mul, integral_sin]
  simp; ring

end Verif.Light
