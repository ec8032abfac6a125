import Verif.Agg.Refine
import Verif.Agg.Simple
import Verif.BVH.TraverseProps
import Verif.Light.Area

/-!
# What is seen at a hit (`pytracer/aggregate/intersection.py:33-52`, `primitive.py:119-133`): property C158

The primitives given to an aggregate are refined, the ray is traced through the aggregate, and the emitted light and the BSDF
are asked from the record of the hit.  Shapes are described by bound, first hit and the geometry they compute there; all of
these are arbitrary.
-/
set_option linter.unusedSectionVars false

namespace Verif.Emit
open Verif V3 BBox BVH Agg

/-! ### Model -/

/-- a scene's shapes: their bounds (`shape.world_bound()`), what `shape.intersect` computes: the first hit parameter and the
`DifferentialGeometry` there, `get_shading_geometry` (`shape/__init__.py:86-88`), and the normal `dg.nn` -/
structure Shapes (S D : Type*) where
  bound : S → BBox ℝ
  first : S → Option ℝ
  geometry : S → ℝ → D
  shading : S → D → D
  nn : D → V3 ℝ

variable {S D B ι : Type*}

/-- the user's primitives: shape, material (`material.get_bsdf(dg, dgs)`), area light (by its `emit`, `None` for no light) -/
abbrev Prim (S D B ι : Type*) := GPrim S (D → D → B) (Option (ι → ℝ))

/-- `for prim in p: prim.full_refine(self.primitives)` (`bvh.py:72-73`, `aggregate.py:44-45`) -/
def refineAll (fuel : ℕ) : List (Prim S D B ι) → List (Prim S D B ι) → ℕ → Option (List (Prim S D B ι) × ℕ)
  | [], refined, next => some (refined, next)
  | p :: ps, refined, next =>
    match fullRefine fuel p refined next with
    | none => none
    | some (refined, next) => refineAll fuel ps refined next

/-- the shape of an intersectable primitive; the refined ones all have one -/
def leafShape (p : Prim S D B ι) : Option S :=
  match p.shape with
  | .simple s => some s
  | .compound _ _ => none

/-- `prim.world_bound()` (`primitive.py:113-114`); the box of a compound primitive is not asked for -/
def boundOf (sh : Shapes S D) (p : Prim S D B ι) : BBox ℝ :=
  match leafShape p with
  | some s => sh.bound s
  | none => ⟨⟨0, 0, 0⟩, ⟨0, 0, 0⟩⟩

/-- `prim.intersect` (`primitive.py:89-108`) as a first hit -/
def firstOf (sh : Shapes S D) (p : Prim S D B ι) : Option ℝ := (leafShape p).bind sh.first

/-- the record left by the primitive hit last at `t` (`primitive.py:97-103`): geometry and primitive -/
structure Record (S D B ι : Type*) where
  dg : D
  primitive : Prim S D B ι

/-- the record after a search that ended with `ray.maxt = t` and the primitive `p`; `none`: nothing was hit.
`thit` is the parameter at which the shape was hit, which `ray.maxt` is set to (`primitive.py:107`). -/
def record (sh : Shapes S D) (acc : Acc ℝ (Prim S D B ι)) : Option (Record S D B ι) :=
  match acc.isect, acc.maxt with
  | some p, .fin t => (leafShape p).map fun s => ⟨sh.geometry s t, p⟩
  | _, _ => none

/-- `Intersection.le(w)` (`intersection.py:41-52`): `get_area_light` is `primitive.py:124-125`, `area.l` is `areaL` -/
noncomputable def Record.le (sh : Shapes S D) (i : Record S D B ι) (w : V3 ℝ) : ι → ℝ :=
  match i.primitive.areaLight with
  | none => fun _ => 0
  | some emit => Light.areaL emit (sh.nn i.dg) w

/-- `Intersection.get_bsdf(ray)` (`intersection.py:33-35`) with `GeometricPrimitive.get_bsdf` (`primitive.py:127-129`);
`diff` is `dg.compute_differential(ray)` -/
def Record.bsdf (sh : Shapes S D) (diff : D → D) (i : Record S D B ι) : Option B :=
  (leafShape i.primitive).map fun s => i.primitive.material (diff i.dg) (sh.shading s (diff i.dg))

/-! ### Specification -/

/-- the user's primitive `p` has the shape `s` among its parts, hit first at `t` -/
def HasHit (sh : Shapes S D) (p : Prim S D B ι) (s : S) (t : ℝ) : Prop := s ∈ p.shape.leaves ∧ sh.first s = some t

/-- `p` emits `L` in direction `w` where the normal is `n`: its light's radiance on the side of the normal, else nothing -/
def Emits (p : Prim S D B ι) (n w : V3 ℝ) (L : ι → ℝ) : Prop :=
  (∀ emit, p.areaLight = some emit → 0 < dot n w → L = emit) ∧
  ((p.areaLight = none ∨ dot n w ≤ 0) → L = fun _ => 0)

/-! ### Proofs -/

theorem refineAll_spec (prims : List (Prim S D B ι)) : ∀ (refined : List (Prim S D B ι)) (next : ℕ),
    ((refined ++ prims).map GPrim.id).Nodup → (∀ q ∈ refined ++ prims, q.id < next) →
    ∃ out next' n0, (∀ fuel ≥ n0, refineAll fuel prims refined next = some (refined ++ out, next')) ∧
      (∀ q ∈ out, ∃ p ∈ prims, ∃ s ∈ p.shape.leaves, IsLeaf q s p.material p.areaLight) ∧
      (∀ p ∈ prims, ∀ s ∈ p.shape.leaves, ∃ q ∈ out, IsLeaf q s p.material p.areaLight) := by
  induction prims with
  | nil => intro refined next _ _; exact ⟨[], next, 0, fun _ _ => by simp [refineAll], by simp, by simp⟩
  | cons p ps ih =>
    intro refined next hid hlt
    have h1 : ((p :: refined).map GPrim.id).Nodup := by
      have : (refined ++ p :: ps).Perm (p :: refined ++ ps) := by
        simp [List.perm_middle]
      have h := (this.map GPrim.id).nodup_iff.1 hid
      rw [List.map_append] at h
      exact (List.nodup_append.1 h).1
    obtain ⟨new, next1, e1, e2, e3, e4, e5, e6⟩ := C33_full_refine p refined next h1 (fun q hq => hlt q (by
      rcases List.mem_cons.1 hq with rfl | hq
      · simp
      · simp [hq]))
    obtain ⟨out, next2, n0, f1, f2, f3⟩ := ih (refined ++ new) next1 (by
      rw [List.map_append, List.nodup_append]
      refine ⟨e3, ?_, ?_⟩
      · rw [List.map_append, List.map_cons, List.nodup_append, List.nodup_cons] at hid
        exact hid.2.1.2
      · intro a ha b hb hab
        subst hab
        obtain ⟨q, hq, rfl⟩ := List.mem_map.1 ha
        obtain ⟨q', hq', hqq⟩ := List.mem_map.1 hb
        have hl := hlt q' (by simp [hq'])
        rcases List.mem_append.1 hq with hq | hq
        · rw [List.map_append, List.nodup_append] at hid
          exact hid.2.2 q.id (List.mem_map_of_mem hq) q'.id (List.mem_map_of_mem (by simp [hq'])) hqq.symm
        · rcases e6 q hq with rfl | h
          · rw [List.map_append, List.map_cons, List.nodup_append, List.nodup_cons] at hid
            exact hid.2.1.1 (hqq ▸ List.mem_map_of_mem hq')
          · omega) (by
      intro q hq
      rcases List.mem_append.1 hq with hq | hq
      · exact e5 q hq
      · exact lt_of_lt_of_le (hlt q (by simp [hq])) e4)
    refine ⟨new ++ out, next2, max n0 (p.shape.rounds + 1), ?_, ?_, ?_⟩
    · intro fuel hf
      simp only [refineAll, e1 fuel (by omega), f1 fuel (by omega), List.append_assoc]
    · intro q hq
      rcases List.mem_append.1 hq with hq | hq
      · obtain ⟨i, hi, rfl⟩ := List.getElem_of_mem hq
        have hi' : i < p.shape.leaves.reverse.length := by rw [← e2.length_eq]; exact hi
        exact ⟨p, by simp, p.shape.leaves.reverse[i], by rw [← List.mem_reverse]; exact List.getElem_mem hi', e2.get hi hi'⟩
      · obtain ⟨p', hp', h⟩ := f2 q hq
        exact ⟨p', by simp [hp'], h⟩
    · intro p' hp' s hs
      rcases List.mem_cons.1 hp' with rfl | hp'
      · rw [← List.mem_reverse] at hs
        obtain ⟨i, hi, rfl⟩ := List.getElem_of_mem hs
        have hi' : i < new.length := by rw [e2.length_eq]; exact hi
        exact ⟨new[i], by simp, e2.get hi' hi⟩
      · obtain ⟨q, hq, h⟩ := f3 p' hp' s hs
        exact ⟨q, by simp [hq], h⟩

theorem leafShape_of {q : Prim S D B ι} {s : S} {m : D → D → B} {a : Option (ι → ℝ)} (h : IsLeaf q s m a) : leafShape q = some s := by
  simp only [leafShape, h.1]

theorem emits_le (sh : Shapes S D) (p q : Prim S D B ι) (s : S) (h : IsLeaf q s p.material p.areaLight) (dg : D) (w : V3 ℝ) :
    Emits p (sh.nn dg) w (Record.le sh ⟨dg, q⟩ w) := by
  constructor
  · intro emit he hw
    simp only [Record.le, h.2.2, he, Light.areaL, if_pos (show dot (sh.nn dg) w > 0 from hw)]
  · rintro (hn | hw)
    · simp only [Record.le, h.2.2, hn]
    · simp only [Record.le]
      cases hq : q.areaLight with
      | none => rfl
      | some emit => simp only [Light.areaL, if_neg (not_lt.2 hw)]

/-- **C158** what a ray sees at its hit.  Give primitives with distinct ids to the BVH (compound shapes are refined).  If the tree
is built and the ray is not one of the special cases of C38, then tracing the ray either finds nothing, and then no part of any
given primitive is met before the end of the ray's range; or there are a given primitive `p` and a part `s` of it, the nearest of all
parts of all given primitives, such that the light seen towards any `w` is what `p`'s area light emits there, on the side of the normal
of `s` at the hit, and the BSDF is made by `p`'s material at that hit with the shading geometry of `s`.  Missing: what is missing in C38
(deep trees, special rays). -/
theorem C158_seen_partial (sh : Shapes S D) (cfg : Config ℝ) (prims : List (Prim S D B ι)) (next : ℕ)
    (hids : (prims.map GPrim.id).Nodup) (hlt : ∀ q ∈ prims, q.id < next) (r : FRay ℝ)
    (hc : ∀ p ∈ prims, ∀ s ∈ p.shape.leaves, ∀ t, sh.first s = some t → F.lt r.mint (.fin t) = true ∧ Mem (rayAt r.o (rayDir r) t) (sh.bound s))
    (hr : ∀ p ∈ prims, ∀ s ∈ p.shape.leaves, RayOk r (sh.bound s)) :
    ∃ leaves next' n0, (∀ fuel ≥ n0, refineAll fuel prims [] next = some (leaves, next')) ∧
      ∀ (t : Node ℝ) (ordered : List (Prim S D B ι)) (total : ℕ), leaves ≠ [] →
        build cfg leaves leaves.length (buildData (boundOf sh) leaves) [] 0 = .ok (t, ordered, total) → t.height ≤ 64 →
        ∃ bvh acc, BVH.mk cfg (boundOf sh) leaves = .ok bvh ∧ (∀ fuel ≥ total, bvh.intersect (firstOf sh) r fuel = .ok acc) ∧
          ((record sh acc = none ∧ acc.hit = false ∧ ∀ p ∈ prims, ∀ s u, HasHit sh p s u → F.lt (.fin u) r.maxt = false) ∨
           ∃ p ∈ prims, ∃ s u i, HasHit sh p s u ∧ record sh acc = some i ∧ acc.hit = true ∧ acc.maxt = .fin u ∧
             (∀ p' ∈ prims, ∀ s' u', HasHit sh p' s' u' → u ≤ u') ∧
             (∀ w, Emits p (sh.nn (sh.geometry s u)) w (i.le sh w)) ∧
             ∀ diff, i.bsdf sh diff = some (p.material (diff (sh.geometry s u)) (sh.shading s (diff (sh.geometry s u))))) := by
  obtain ⟨leaves, next', n0, e1, e2, e3⟩ := refineAll_spec prims [] next (by simpa using hids) (by simpa using hlt)
  simp only [List.nil_append] at e1
  refine ⟨leaves, next', n0, e1, ?_⟩
  intro t ordered total hne hb hh
  have hcon : ∀ q ∈ leaves, Contract (boundOf sh) (firstOf sh) r q := by
    intro q hq u hu
    obtain ⟨p, hp, s, hs, hl⟩ := e2 q hq
    simp only [firstOf, boundOf, leafShape_of hl, Option.bind_some] at hu ⊢
    exact hc p hp s hs u hu
  have hfine : RayFine (boundOf sh) leaves r := by
    intro q hq
    obtain ⟨p, hp, s, hs, hl⟩ := e2 q hq
    simp only [boundOf, leafShape_of hl]
    exact hr p hp s hs
  obtain ⟨bvh, acc, h1, h2, h3⟩ := C38_intersect_nearest_partial cfg (boundOf sh) leaves hne (firstOf sh) r hcon hfine t ordered total hb hh
  refine ⟨bvh, acc, h1, h2, ?_⟩
  rcases h3 with ⟨rfl, h⟩ | ⟨q, hq, u, hu, rfl, hle, hmin⟩
  · left
    refine ⟨rfl, rfl, ?_⟩
    rintro p hp s u ⟨hs, hf⟩
    obtain ⟨q, hq, hl⟩ := e3 p hp s hs
    exact h q hq u (by simp only [firstOf, leafShape_of hl, Option.bind_some, hf])
  · right
    obtain ⟨p, hp, s, hs, hl⟩ := e2 q hq
    simp only [firstOf, leafShape_of hl, Option.bind_some] at hu
    refine ⟨p, hp, s, u, ⟨sh.geometry s u, q⟩, ⟨hs, hu⟩, by simp only [record, leafShape_of hl, Option.map_some], rfl, rfl, ?_, ?_, ?_⟩
    · rintro p' hp' s' u' ⟨hs', hf'⟩
      obtain ⟨q', hq', hl'⟩ := e3 p' hp' s' hs'
      exact hmin q' hq' u' (by simp only [firstOf, leafShape_of hl', Option.bind_some, hf'])
    · intro w
      exact emits_le sh p q s hl _ w
    · intro diff
      simp only [Record.bsdf, leafShape_of hl, Option.map_some, hl.2.1]

/-- non-vacuity: a compound shape with two square parts in the planes `z = 1` and `z = 2`, and a single one at `z = 3`; the ray goes up the axis -/
noncomputable def exShapes : Shapes ℕ ℕ :=
  ⟨fun n => ⟨⟨-1, -1, n⟩, ⟨1, 1, n⟩⟩, fun n => some n, fun n _ => n, fun _ d => d, fun _ => ⟨0, 0, -1⟩⟩

def exPrims : List (Prim ℕ ℕ ℕ (Fin 3)) :=
  [⟨1, .compound 0 [.simple 1, .simple 2], fun a _ => a, some fun _ => 5⟩, ⟨2, .simple 3, fun a _ => a + 1, none⟩]

noncomputable def exRay : FRay ℝ := ⟨⟨0, 0, 0⟩, ⟨⟨0, false⟩, ⟨0, false⟩, ⟨1, false⟩⟩, .fin 0, .pinf⟩

example : (exPrims.map GPrim.id).Nodup ∧ (∀ q ∈ exPrims, q.id < 3) ∧
    (∀ p ∈ exPrims, ∀ s ∈ p.shape.leaves, ∀ t, exShapes.first s = some t → F.lt exRay.mint (.fin t) = true ∧ Mem (rayAt exRay.o (rayDir exRay) t) (exShapes.bound s)) ∧
    (∀ p ∈ exPrims, ∀ s ∈ p.shape.leaves, RayOk exRay (exShapes.bound s)) ∧
    HasHit exShapes exPrims[0] 1 1 := by
  have h : ∀ p ∈ exPrims, ∀ s ∈ p.shape.leaves, 1 ≤ s := by
    intro p hp s hs
    simp only [exPrims, List.mem_cons, List.not_mem_nil, or_false] at hp
    rcases hp with rfl | rfl <;> simp [Shape.leaves_compound, Shape.leaves] at hs <;> omega
  refine ⟨by simp [exPrims], by simp [exPrims], ?_, ?_, ?_⟩
  · intro p hp s hs t ht
    have h1 : (1 : ℝ) ≤ s := by exact_mod_cast h p hp s hs
    simp only [exShapes, Option.some.injEq] at ht
    subst ht
    constructor
    · simp only [exRay, F.lt, decide_eq_true_eq]; linarith
    · simp [Mem, rayAt, rayDir, exRay, exShapes]
  · intro p hp s hs
    simp [RayOk, exRay, exShapes]
  · simp [HasHit, exPrims, exShapes, Shape.leaves_compound, Shape.leaves]

end Verif.Emit
