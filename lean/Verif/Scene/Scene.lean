import Verif.Agg.GridWalk
import Verif.BVH.TraverseProps

/-!
# `Scene` (`pytracer/scene/scene.py:17-42`): property C143

`world_bound()` of every aggregate returns the aggregate's own box object (`aggregate.py:56-57, 244-245`, `bvh.py:412-415`), and `BBox.union` changes the box it is called on (`geometry/__init__.py:466-492`).  So building a
scene with a volume enlarges the bounds which the aggregate itself tests rays against.  Here an aggregate's box is a cell; the constructor maps its contents before to its contents after, and `Scene.world_bound` reads
the cell.
-/

namespace Verif.Scene
open Verif BBox BVH Agg
set_option linter.unusedSectionVars false

section Model
variable {K : Type*} [Field K] [LinearOrder K]

/-- `self.bounds.union(other)` on a box that may be the empty `BBox()` (`geometry/__init__.py:481-487`); `min(a, b)` and `max(a, b)` are Python's -/
def unionF (b : BBox (F K)) (v : BBox K) : BBox (F K) :=
  ⟨⟨pyMin b.pMin.x (.fin v.pMin.x), pyMin b.pMin.y (.fin v.pMin.y), pyMin b.pMin.z (.fin v.pMin.z)⟩,
   ⟨pyMax b.pMax.x (.fin v.pMax.x), pyMax b.pMax.y (.fin v.pMax.y), pyMax b.pMax.z (.fin v.pMax.z)⟩⟩

/-- `Scene.__init__` (`scene.py:21-29`): contents of the aggregate's box after it; `vr` is the world bound of the volume, if there is one -/
def sceneInit (cell : BBox (F K)) (vr : Option (BBox K)) : BBox (F K) :=
  match vr with
  | none => cell
  | some v => unionF cell v

/-- several scenes built one after another on the same aggregate; `world_bound()` of each of them (`scene.py:41-42`) is this box -/
def scenesInit (cell : BBox (F K)) (vrs : List (Option (BBox K))) : BBox (F K) := vrs.foldl sceneInit cell

/-- `SimpleAggregate.intersect` with its bounds in `cell` (`aggregate.py:72-93`) -/
def simpleIntersectIn {P : Type*} (cell : BBox (F K)) (first : P → Option K) (prims : List P) (r : FRay K) : Bool × Option P × F K :=
  match intersectP cell r with
  | none => (false, none, r.maxt)
  | some (t0, t1) =>
    let s := prims.foldl (sStep first) ⟨t0, t1, .pinf, r.maxt, none, false⟩
    (s.anyHit, s.isect, s.maxt)

/-- `SimpleAggregate.intersect_p` with its bounds in `cell` (`aggregate.py:95-105`) -/
def simpleIntersectPIn {P : Type*} (cell : BBox (F K)) (first : P → Option K) (prims : List P) (r : FRay K) : Bool :=
  match intersectP cell r with
  | none => false
  | some _ => prims.any (hitP first r.maxt)

/-- a `BVH` whose `nodes[0].bounds` has been changed to its union with `v` (`scene.py:27-29`, `bvh.py:412-414`); with no primitive `world_bound` returns a fresh box and nothing changes -/
def bvhScene {P : Type*} (b : Bvh K P) (v : BBox K) : Bvh K P :=
  { b with nodes := b.nodes.map fun ns => ns.modify 0 fun n => { n with bounds := n.bounds.map (·.unionBox v) } }

/-- a `GridAccel` whose `bounds` has been changed to its union with `v`; the number of voxels, their width and the voxels stay (`aggregate.py:183-226, 244-245`) -/
def gridScene (g : GridGeom K) (v : BBox K) : GridGeom K := { g with bounds := g.bounds.unionBox v }

/-- the model of `SimpleAggregate` used for C34 is the one with its own bounds in the cell -/
theorem simpleIntersect_eq {P : Type*} (wb : P → BBox K) (first : P → Option K) (prims : List P) (r : FRay K) :
    simpleIntersect wb first prims r = simpleIntersectIn (simpleBounds wb prims) first prims r ∧ simpleIntersectP wb first prims r = simpleIntersectPIn (simpleBounds wb prims) first prims r := ⟨rfl, rfl⟩

end Model

/-! ## Specification -/

section
variable {K : Type*} [Field K] [LinearOrder K] [IsStrictOrderedRing K]

/-- `b` lies in the finite box `c` -/
def FSub (b : BBox (F K)) (c : BBox K) : Prop :=
  (F.le (.fin c.pMin.x) b.pMin.x = true ∧ F.le b.pMax.x (.fin c.pMax.x) = true) ∧ (F.le (.fin c.pMin.y) b.pMin.y = true ∧ F.le b.pMax.y (.fin c.pMax.y) = true) ∧
  F.le (.fin c.pMin.z) b.pMin.z = true ∧ F.le b.pMax.z (.fin c.pMax.z) = true

/-! ## Proofs -/

theorem le_pyMin (c v : K) (b : F K) : F.le (.fin c) (pyMin b (.fin v)) = true ↔ F.le (.fin c) b = true ∧ c ≤ v := by
  cases b with
  | fin b =>
    simp only [pyMin, F.lt, F.le, decide_eq_true_eq]
    split_ifs with h
    · simp only [decide_eq_true_eq]; exact ⟨fun e => ⟨e.trans h.le, e⟩, fun e => e.2⟩
    · simp only [decide_eq_true_eq]; exact ⟨fun e => ⟨e, e.trans (not_lt.1 h)⟩, fun e => e.1⟩
  | pinf => simp [pyMin, F.lt, F.le]
  | ninf => simp [pyMin, F.lt, F.le]
  | nan => simp [pyMin, F.lt, F.le]

theorem pyMax_le (c v : K) (b : F K) : F.le (pyMax b (.fin v)) (.fin c) = true ↔ F.le b (.fin c) = true ∧ v ≤ c := by
  cases b with
  | fin b =>
    simp only [pyMax, F.gt, F.lt, F.le, decide_eq_true_eq]
    split_ifs with h
    · simp only [decide_eq_true_eq]; exact ⟨fun e => ⟨h.le.trans e, e⟩, fun e => e.2⟩
    · simp only [decide_eq_true_eq]; exact ⟨fun e => ⟨e, (not_lt.1 h).trans e⟩, fun e => e.1⟩
  | pinf => simp [pyMax, F.gt, F.lt, F.le]
  | ninf => simp [pyMax, F.gt, F.lt, F.le]
  | nan => simp [pyMax, F.gt, F.lt, F.le]

theorem fsub_union (b : BBox (F K)) (v c : BBox K) : FSub (unionF b v) c ↔ FSub b c ∧ Sub v c := by
  simp only [FSub, unionF, le_pyMin, pyMax_le, BBox.Sub]
  tauto

theorem fsub_scenes (vrs : List (Option (BBox K))) (b : BBox (F K)) (c : BBox K) : FSub (scenesInit b vrs) c ↔ FSub b c ∧ ∀ v, some v ∈ vrs → Sub v c := by
  induction vrs generalizing b with
  | nil => simp [scenesInit]
  | cons o vrs ih =>
    rw [show scenesInit b (o :: vrs) = scenesInit (sceneInit b o) vrs from rfl, ih]
    cases o with
    | none => simp [sceneInit]
    | some v =>
      simp only [sceneInit, fsub_union, List.mem_cons, Option.some.injEq, forall_eq_or_imp]
      tauto

theorem fsub_simple {P : Type*} (wb : P → BBox K) (prims : List P) (c : BBox K) : FSub (simpleBounds wb prims) c ↔ ∀ p ∈ prims, Sub (wb p) c := by
  cases prims with
  | nil => simp [simpleBounds, FSub, F.le]
  | cons p ps =>
    have : ∀ (ps : List P) (b : BBox K), FSub (finBox (ps.foldl (fun b q => b.unionBox (wb q)) b)) c ↔ Sub b c ∧ ∀ q ∈ ps, Sub (wb q) c := by
      intro ps
      induction ps with
      | nil => intro b; simp [FSub, finBox, F.le, BBox.Sub]
      | cons q qs ih =>
        intro b
        rw [List.foldl_cons, ih, unionBox_sub_iff]
        simp only [List.mem_cons, forall_eq_or_imp]
        tauto
    rw [simpleBounds, this]
    simp

/-- a cell at least as large as `b`: what is in `b` is in it -/
def Covers (cell b : BBox (F K)) : Prop := ∀ x : V3 K, InBox b x → InBox cell x

theorem covers_union (b : BBox (F K)) (v : BBox K) : Covers (unionF b v) b := by
  have e1 : ∀ (x v : K) (b : F K), F.le b (.fin x) = true → F.le (pyMin b (.fin v)) (.fin x) = true := by
    intro x v b h
    unfold pyMin
    split_ifs with hl
    · cases b <;> simp_all [F.le, F.lt]
      linarith
    · exact h
  have e2 : ∀ (x v : K) (b : F K), F.le (.fin x) b = true → F.le (.fin x) (pyMax b (.fin v)) = true := by
    intro x v b h
    unfold pyMax
    split_ifs with hl
    · cases b <;> simp_all [F.le, F.lt, F.gt]
      linarith
    · exact h
  rintro x ⟨⟨a1, a2⟩, ⟨a3, a4⟩, a5, a6⟩
  exact ⟨⟨e1 _ _ _ a1, e2 _ _ _ a2⟩, ⟨e1 _ _ _ a3, e2 _ _ _ a4⟩, e1 _ _ _ a5, e2 _ _ _ a6⟩

theorem covers_scenes (vrs : List (Option (BBox K))) (b : BBox (F K)) : Covers (scenesInit b vrs) b := by
  induction vrs generalizing b with
  | nil => exact fun _ h => h
  | cons o vrs ih =>
    intro x h
    apply ih
    cases o with
    | none => exact h
    | some v => exact covers_union b v x h

theorem proper_union (b : BBox (F K)) (v : BBox K) (hv : v.pMin.x ≤ v.pMax.x ∧ v.pMin.y ≤ v.pMax.y ∧ v.pMin.z ≤ v.pMax.z)
    (hb : FProper b) : FProper (unionF b v) := by
  have e : ∀ (a b : F K) (u v : K), u ≤ v → F.le a b = true → F.le (pyMin a (.fin u)) (pyMax b (.fin v)) = true := by
    intro a b u v h hab
    unfold pyMin pyMax
    cases a <;> cases b <;> simp_all [F.le, F.lt, F.gt] <;> split_ifs <;> simp_all <;> order
  obtain ⟨h1, h2, h3⟩ := hb
  exact ⟨e _ _ _ _ hv.1 h1, e _ _ _ _ hv.2.1 h2, e _ _ _ _ hv.2.2 h3⟩

theorem proper_scenes (vrs : List (Option (BBox K))) (hv : ∀ v, some v ∈ vrs → v.pMin.x ≤ v.pMax.x ∧ v.pMin.y ≤ v.pMax.y ∧ v.pMin.z ≤ v.pMax.z)
    (b : BBox (F K)) (hb : FProper b) : FProper (scenesInit b vrs) := by
  induction vrs generalizing b with
  | nil => exact hb
  | cons o vrs ih =>
    apply ih (fun v h => hv v (by simp [h]))
    cases o with
    | none => exact hb
    | some v => exact proper_union b v (hv v (by simp)) hb

theorem mem_at_cell {P : Type*} (wb : P → BBox K) (first : P → Option K) (prims : List P) (r : FRay K) (cell : BBox (F K)) (hp : prims ≠ [] → FProper cell) (hcov : Covers cell (simpleBounds wb prims))
    (hc : ∀ p ∈ prims, SContract wb first r p) (h0 : r.mint ≠ .nan) (h1 : r.maxt ≠ .nan) (hg : NoGraze cell r) :
    match intersectP cell r with
    | none => ∀ p ∈ prims, ∀ s, ¬ HitAt first r p s
    | some (t0, t1) => ∀ p ∈ prims, ∀ s, HitAt first r p s → In t0 t1 s := by
  by_cases hne : prims = []
  · subst hne; split <;> simp
  have hex := C02_slab_exact_partial cell r (hp hne) h0 h1 hg
  unfold SlabExact at hex
  split
  · rename_i h; rw [h] at hex
    intro p hp s ⟨hs, hle⟩
    obtain ⟨a, b⟩ := (hc p hp).2.2.2 s hs
    exact hex s ⟨a, hle⟩ (hcov _ (simpleBounds_mem wb prims p hp _ b))
  · rename_i t0 t1 h; rw [h] at hex
    intro p hp s ⟨hs, hle⟩
    obtain ⟨a, b⟩ := (hc p hp).2.2.2 s hs
    exact (hex s).2 ⟨⟨a, hle⟩, hcov _ (simpleBounds_mem wb prims p hp _ b)⟩

/-- the answer of `SimpleAggregate` does not depend on which box it tests first, as long as that box holds its primitives -/
theorem simple_det {P : Type*} (wb : P → BBox K) (first : P → Option K) (prims : List P) (r : FRay K) (cell : BBox (F K)) (hp : prims ≠ [] → FProper cell) (hcov : Covers cell (simpleBounds wb prims))
    (hc : ∀ p ∈ prims, SContract wb first r p) (h0 : r.mint ≠ .nan) (h1 : r.maxt ≠ .nan) (hg : NoGraze cell r) (hg' : NoGraze (simpleBounds wb prims) r) :
    simpleIntersectIn cell first prims r = simpleIntersect wb first prims r ∧ simpleIntersectPIn cell first prims r = simpleIntersectP wb first prims r := by
  have key : ∀ (A B : Bool × Option P × F K),
      ((A = (false, none, r.maxt) ∧ ∀ p ∈ prims, ∀ s, ¬ HitAt first r p s) ∨
        ∃ pre p0 post s0 u, prims = pre ++ p0 :: post ∧ (∀ q ∈ pre, ∀ v, ¬ HitAt first r q v) ∧ HitAt first r p0 s0 ∧ A = (true, some p0, .fin u) ∧
          (∃ p ∈ prims, HitAt first r p u) ∧ ∀ p ∈ prims, ∀ v, HitAt first r p v → u ≤ v) →
      ((B = (false, none, r.maxt) ∧ ∀ p ∈ prims, ∀ s, ¬ HitAt first r p s) ∨
        ∃ pre p0 post s0 u, prims = pre ++ p0 :: post ∧ (∀ q ∈ pre, ∀ v, ¬ HitAt first r q v) ∧ HitAt first r p0 s0 ∧ B = (true, some p0, .fin u) ∧
          (∃ p ∈ prims, HitAt first r p u) ∧ ∀ p ∈ prims, ∀ v, HitAt first r p v → u ≤ v) → A = B := by
    rintro A B (⟨e, h⟩ | ⟨pre, p0, post, s0, u, a1, a2, a3, a4, a5, a6⟩) (⟨e', h'⟩ | ⟨pre', p0', post', s0', u', b1, b2, b3, b4, b5, b6⟩)
    · rw [e, e']
    · exact absurd b3 (h p0' (by rw [b1]; simp) s0')
    · exact absurd a3 (h' p0 (by rw [a1]; simp) s0)
    · have hu : u = u' := by
        obtain ⟨q, hq, hqu⟩ := a5
        obtain ⟨q', hq', hqu'⟩ := b5
        exact le_antisymm (a6 q' hq' u' hqu') (b6 q hq u hqu)
      have hpp : p0 = p0' := by
        rw [a1] at b1
        rcases List.append_eq_append_iff.1 b1 with ⟨l, e1, e2⟩ | ⟨l, e1, e2⟩
        · cases l with
          | nil => simp at e2; exact e2.1
          | cons x l => simp at e2; exact absurd (e2.1 ▸ a3) (b2 x (by rw [e1]; simp) s0)
        · cases l with
          | nil => simp at e2; exact e2.1.symm
          | cons x l => simp at e2; exact absurd (e2.1 ▸ b3) (a2 x (by rw [e1]; simp) s0')
      rw [a4, b4, hu, hpp]
  have hb := mem_at_cell wb first prims r cell hp hcov hc h0 h1 hg
  have hA : (simpleIntersectIn cell first prims r = (false, none, r.maxt) ∧ ∀ p ∈ prims, ∀ s, ¬ HitAt first r p s) ∨
        ∃ pre p0 post s0 u, prims = pre ++ p0 :: post ∧ (∀ q ∈ pre, ∀ v, ¬ HitAt first r q v) ∧ HitAt first r p0 s0 ∧ simpleIntersectIn cell first prims r = (true, some p0, .fin u) ∧
          (∃ p ∈ prims, HitAt first r p u) ∧ ∀ p ∈ prims, ∀ v, HitAt first r p v → u ≤ v := by
    unfold simpleIntersectIn
    split at hb
    · exact Or.inl ⟨rfl, hb⟩
    · rename_i t0 t1 h
      rcases foldl_simple first prims t0 t1 r.maxt (fun p hp s hs hle => hb p hp s ⟨hs, hle⟩) with ⟨h1, h2⟩ | ⟨pre, p0, post, s0, u, a1, a2, a3, a4, a5, a6, a7⟩
      · left
        refine ⟨by simp only [h2], ?_⟩
        rintro p hp s ⟨hs, hle⟩
        rw [h1 p hp s hs] at hle; cases hle
      · right
        refine ⟨pre, p0, post, s0, u, a1, ?_, ⟨a3, a4⟩, by simp only [a5.2], ?_, fun p hp v hv => a7 p hp v hv.1⟩
        · rintro q hq v ⟨hv, hle⟩
          rw [a2 q hq v hv] at hle; cases hle
        · obtain ⟨p, hp, hu⟩ := a6
          refine ⟨p, hp, hu, ?_⟩
          have := a5.1
          rcases fle_cases a4 with h | ⟨w, h, hw⟩
          · rw [h]; simp [F.le]
          · rw [h]; simp only [F.le, decide_eq_true_eq]; order
  refine ⟨key _ _ hA (C34_intersect_partial wb first prims r hc h0 h1 hg'), ?_⟩
  have k2 := (C34_intersect_p wb first prims r hc h0 h1 hg').1
  rw [Bool.eq_iff_iff, k2]
  unfold simpleIntersectPIn
  split at hb
  · rename_i h
    simp only [h, Bool.false_eq_true, false_iff]
    rintro ⟨p, hp, s, hs⟩; exact hb p hp s hs
  · rename_i t0 t1 h
    simp only [h, List.any_eq_true]
    constructor
    · rintro ⟨p, hp, hh⟩
      unfold hitP at hh
      cases hf : first p with
      | none => simp [hf] at hh
      | some s => simp only [hf] at hh; exact ⟨p, hp, s, hf, hh⟩
    · rintro ⟨p, hp, s, hs, hle⟩
      exact ⟨p, hp, by simp [hitP, hs, hle]⟩

/-! ## C143 -/

/-- `world_bound()` of a scene over a brute-force aggregate is the smallest box that holds all primitives and the volumes of all scenes built on the aggregate. -/
theorem C143_bound {P : Type*} (wb : P → BBox K) (prims : List P) (vrs : List (Option (BBox K))) (c : BBox K) :
    FSub (scenesInit (simpleBounds wb prims) vrs) c ↔ (∀ p ∈ prims, Sub (wb p) c) ∧ ∀ v, some v ∈ vrs → Sub v c := by
  rw [fsub_scenes, fsub_simple]

/-- Building scenes with volumes on a brute-force aggregate changes none of its answers, for rays that keep the box test out of its special case (a `-0.0` component on a face plane, see C02). -/
theorem C143_simple_answers_partial {P : Type*} (wb : P → BBox K) (first : P → Option K) (prims : List P) (vrs : List (Option (BBox K)))
    (hv : ∀ v, some v ∈ vrs → v.pMin.x ≤ v.pMax.x ∧ v.pMin.y ≤ v.pMax.y ∧ v.pMin.z ≤ v.pMax.z) (r : FRay K)
    (hc : ∀ p ∈ prims, SContract wb first r p) (h0 : r.mint ≠ .nan) (h1 : r.maxt ≠ .nan)
    (hg : NoGraze (simpleBounds wb prims) r) (hg' : NoGraze (scenesInit (simpleBounds wb prims) vrs) r) :
    simpleIntersectIn (scenesInit (simpleBounds wb prims) vrs) first prims r = simpleIntersect wb first prims r ∧
    simpleIntersectPIn (scenesInit (simpleBounds wb prims) vrs) first prims r = simpleIntersectP wb first prims r := by
  refine simple_det wb first prims r _ (fun hne => ?_) (covers_scenes vrs _) hc h0 h1 hg' hg
  exact proper_scenes vrs hv _ (simpleBounds_proper wb prims hne fun p hp => ⟨(hc p hp).1, (hc p hp).2.1, (hc p hp).2.2.1⟩)

/-! ### BVH -/

/-- the tree with its root box replaced -/
def setBounds (b : BBox K) : Node K → Node K
  | .leaf f n _ => .leaf f n b
  | .inter a c0 c1 _ => .inter a c0 c1 b

theorem preorder_setBounds (t : Node K) (v : BBox K) (i : ℕ) :
    preorder (setBounds (t.bounds.unionBox v) t) i = (preorder t i).modify 0 fun n => { n with bounds := n.bounds.map (·.unionBox v) } := by
  cases t <;> simp [setBounds, preorder, Node.bounds]

theorem setBounds_partitions {P : Type*} (o : List P) (t : Node K) (b : BBox K) (lo hi : ℕ) (h : Partitions o t lo hi) : Partitions o (setBounds b t) lo hi := by
  cases t <;> exact h

theorem setBounds_height (t : Node K) (b : BBox K) : (setBounds b t).height = t.height := by cases t <;> rfl

theorem sub_union_left (a v : BBox K) : Sub a (a.unionBox v) := ((unionBox_sub_iff a v _).1 (Sub.refl _)).1

theorem traverse_root {P : Type*} (wb : P → BBox K) (prims : List P) (first : P → Option K) (r : FRay K) (hc : ∀ p ∈ prims, Contract wb first r p) (hr : RayFine wb prims r)
    (t : Node K) (hp : Partitions prims t 0 prims.length) (ht : AllNodes (TightBox wb prims) t 0) (v : BBox K) (hok : RayOk r (t.bounds.unionBox v)) (acc : Acc K P) :
    Lower prims first acc (traverse prims first r (setBounds (t.bounds.unionBox v) t) acc) ∧
    ∀ p ∈ prims, ∀ s, first p = some s → F.lt (.fin s) (traverse prims first r (setBounds (t.bounds.unionBox v) t) acc).maxt = false := by
  have hs : slice prims 0 prims.length = prims := by simp [slice]
  have hroot : ∀ acc' : Acc K P, boxHit (t.bounds.unionBox v) { r with maxt := acc'.maxt } = false → ∀ p ∈ prims, ∀ s, first p = some s → F.lt (.fin s) acc'.maxt = false := by
    intro acc' hb p hpm s hs'
    by_contra hlt
    obtain ⟨h1, h2⟩ := hc p hpm s hs'
    have htb : Sub (wb p) t.bounds := by
      have hcnt := hp.count
      have : TightBox wb prims t 0 := by cases t with
        | leaf f n b => exact ht
        | inter a c0 c1 b => exact ht.1
      refine (this t.bounds).1 (Sub.refl _) p ?_
      rw [← hcnt, hs]; exact hpm
    have := boxHit_of_mem (t.bounds.unionBox v) { r with maxt := acc'.maxt } s hok (mem_sub (mem_sub h2 htb) (sub_union_left _ _)) h1 (by simpa using hlt)
    rw [this] at hb; cases hb
  cases t with
  | leaf f n b =>
    obtain ⟨rfl, h0, hn, hle⟩ := hp
    simp only [setBounds, BVH.traverse]
    split_ifs with hb
    · have := foldl_spec prims first ((prims.drop 0).take n) (fun p hp => List.mem_of_mem_drop (List.mem_of_mem_take hp)) acc
      rw [List.drop_zero, List.take_of_length_le (by omega)] at this ⊢
      exact this
    · exact ⟨Or.inl rfl, hroot acc (by simpa using hb)⟩
  | inter axis c0 c1 b =>
    obtain ⟨mid, p0, p1⟩ := hp
    obtain ⟨hq, a0, a1⟩ := ht
    have k0 := p0.count
    have b0 := p0.bounds
    have b1 := p1.bounds
    rw [← k0] at a1
    simp only [setBounds, BVH.traverse]
    split_ifs with hb hneg
    · obtain ⟨s1, s2⟩ := traverse_spec wb prims first r hc hr c1 mid prims.length p1 a1 acc
      obtain ⟨u1, u2⟩ := traverse_spec wb prims first r hc hr c0 0 mid p0 a0 (traverse prims first r c1 acc)
      refine ⟨s1.trans u1, fun p hp s hs' => ?_⟩
      rw [← hs, slice_split prims 0 mid _ b0.1.le b1.1.le] at hp
      rcases List.mem_append.1 hp with hp | hp
      · exact u2 p hp s hs'
      · exact u1.keep (s2 p hp s hs')
    · obtain ⟨s1, s2⟩ := traverse_spec wb prims first r hc hr c0 0 mid p0 a0 acc
      obtain ⟨u1, u2⟩ := traverse_spec wb prims first r hc hr c1 mid prims.length p1 a1 (traverse prims first r c0 acc)
      refine ⟨s1.trans u1, fun p hp s hs' => ?_⟩
      rw [← hs, slice_split prims 0 mid _ b0.1.le b1.1.le] at hp
      rcases List.mem_append.1 hp with hp | hp
      · exact u1.keep (s2 p hp s hs')
      · exact u2 p hp s hs'
    · exact ⟨Or.inl rfl, hroot acc (by simpa using hb)⟩

variable [FloorRing K]

/-- A `BVH` in a scene with a volume still gives a correct nearest-hit answer over the original primitives, and the scene's bound is the smallest box that holds the primitives and the volume.  (The conditions are
those of C38, and that the ray is not special for the enlarged root box either.) -/
theorem C143_bvh_answers_partial {P : Type*} (cfg : Config K) (wb : P → BBox K) (prims : List P) (hne : prims ≠ []) (first : P → Option K) (r : FRay K)
    (hc : ∀ p ∈ prims, Contract wb first r p) (hr : RayFine wb prims r) (t : Node K) (ordered : List P) (total : ℕ)
    (h : build cfg prims prims.length (buildData wb prims) [] 0 = .ok (t, ordered, total)) (hh : t.height ≤ 64) (v : BBox K) (hok : RayOk r (t.bounds.unionBox v)) :
    ∃ bvh acc, mk cfg wb prims = .ok bvh ∧ (∀ fuel ≥ total, (bvhScene bvh v).intersect first r fuel = .ok acc) ∧ NearestAnswer prims first r.maxt acc ∧
      ∃ b, (bvhScene bvh v).worldBound? = some b ∧ ∀ c, Sub b c ↔ (∀ p ∈ prims, Sub (wb p) c) ∧ Sub v c := by
  obtain ⟨hperm, hpart, htight, htot⟩ := build_correct cfg wb prims t ordered total h
  obtain ⟨hmk, -⟩ := C37_constructor cfg wb prims hne t ordered total h
  have hc' : ∀ p ∈ ordered, Contract wb first r p := fun p hp => hc p (hperm.mem_iff.1 hp)
  have hr' : RayFine wb ordered r := fun p hp => hr p (hperm.mem_iff.1 hp)
  have hnodes : (bvhScene (⟨ordered, some (preorder t 0)⟩ : Bvh K P) v) = ⟨ordered, some (preorder (setBounds (t.bounds.unionBox v) t) 0)⟩ := by
    simp only [bvhScene, Option.map_some, preorder_setBounds]
  refine ⟨_, traverse ordered first r (setBounds (t.bounds.unionBox v) t) ⟨r.maxt, none, false⟩, hmk, ?_, ?_, ?_⟩
  · intro fuel hf
    rw [hnodes]
    have hsz : (setBounds (t.bounds.unionBox v) t).size = t.size := by cases t <;> rfl
    obtain ⟨n, hn, hl⟩ := loop_traverse (preorder (setBounds (t.bounds.unionBox v) t) 0) ordered first r (setBounds (t.bounds.unionBox v) t) 0 0 ordered.length (C37_layout _)
      (setBounds_partitions _ _ _ _ _ hpart) [] (by rw [setBounds_height]; simpa using hh) ⟨r.maxt, none, false⟩
    rw [hsz] at hn
    have := hl (fuel - n)
    rw [show fuel - n + n = fuel by omega] at this
    simpa [Bvh.intersect, cont] using this
  · obtain ⟨h1, h2⟩ := traverse_root wb ordered first r hc' hr' t hpart htight v hok ⟨r.maxt, none, false⟩
    rcases h1 with h | ⟨p, hp, s, hs, h, hle⟩
    · rw [h] at h2 ⊢
      exact Or.inl ⟨rfl, fun p hp => h2 p (hperm.mem_iff.2 hp)⟩
    · rw [h] at h2 ⊢
      refine Or.inr ⟨p, hperm.mem_iff.1 hp, s, hs, rfl, hle, fun q hq u hu => ?_⟩
      have := h2 q (hperm.mem_iff.2 hq) u hu
      simpa [F.lt] using this
  · refine ⟨t.bounds.unionBox v, ?_, fun c => ?_⟩
    · rw [hnodes]; cases t <;> simp [Bvh.worldBound?, preorder, setBounds]
    · rw [unionBox_sub_iff]
      have htb : TightBox wb ordered t 0 := by cases t with
        | leaf f n b => exact htight
        | inter a c0 c1 b => exact htight.1
      have hcnt := hpart.count
      have := htb c
      rw [← hcnt, show slice ordered 0 ordered.length = ordered by simp [slice]] at this
      rw [this]
      exact and_congr_left fun _ => ⟨fun e p hp => e p (hperm.mem_iff.2 hp), fun e p hp => e p (hperm.mem_iff.1 hp)⟩

end

/-! ### Violations and non-vacuity -/

/-- **C143 is violated** for the grid: a volume that reaches beyond the primitives moves the origin of the voxels but not the primitives stored in them, and a ray that finds its box without the volume misses it with the volume. -/
theorem C143_grid_false :
    let v : BBox ℚ := ⟨⟨-8, -8, -8⟩, ⟨1, 1, 1⟩⟩
    let r : FRay ℚ := ⟨⟨0, 0, 0⟩, ⟨⟨1, false⟩, ⟨1, false⟩, ⟨1, false⟩⟩, .fin 0, .pinf⟩
    let first : BBox ℚ → Option ℚ := fun b => if b = gb0 then some (1/2) else none
    Mem (FRay.at r (1/2)) gb0 ∧ hitFlag (gridIntersect gg gvox first r 0 20) = some true ∧ hitFlag (gridIntersect (gridScene gg v) gvox first r 0 20) = some false := by
  refine ⟨by norm_num [Mem, FRay.at, gb0], by decide +kernel, by decide +kernel⟩

/-- **C143 is violated** when an aggregate is shared: the bound of a scene without a volume grows when a second scene with a volume is built on the same aggregate. -/
theorem C143_shared_false :
    let b := simpleBounds id [plate 1]
    scenesInit b [none] = b ∧ scenesInit b [none, some (plate 5)] ≠ b := by
  refine ⟨rfl, by decide +kernel⟩

/-- the hypotheses hold for two plates and a volume -/
example : (∀ p ∈ [plate 5, plate 1], SContract id plateFirst zray p) ∧ NoGraze (simpleBounds id [plate 5, plate 1]) zray ∧ NoGraze (scenesInit (simpleBounds id [plate 5, plate 1]) [some (plate 9), none]) zray ∧
    simpleIntersectPIn (scenesInit (simpleBounds id [plate 5, plate 1]) [some (plate 9), none]) plateFirst [plate 5, plate 1] zray = true := by
  refine ⟨?_, by simp [NoGraze, GrazesNegZero, zray], by simp [NoGraze, GrazesNegZero, zray], by decide +kernel⟩
  intro p hp
  simp only [List.mem_cons, List.not_mem_nil, or_false] at hp
  rcases hp with rfl | rfl <;> norm_num [SContract, plate, plateFirst, zray, Mem, FRay.at, F.le]

end Verif.Scene
