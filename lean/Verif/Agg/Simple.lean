import Verif.BVH.BuildLemmas
import Verif.BBox.SlabProps
import Verif.BBox.Props

/-!
# Brute-force aggregate (`SimpleAggregate`, `pytracer/aggregate/aggregate.py:39-105`): property C34
-/

namespace Verif.Agg
open Verif BBox BVH

set_option linter.unusedSectionVars false

section Model
variable {K : Type*} [Field K] [LinearOrder K]

/-- a box with finite sides as a float box -/
def finBox (b : BBox K) : BBox (F K) :=
  ⟨⟨.fin b.pMin.x, .fin b.pMin.y, .fin b.pMin.z⟩, ⟨.fin b.pMax.x, .fin b.pMax.y, .fin b.pMax.z⟩⟩

/-- `self.bounds` (`aggregate.py:49-51`): the union of the world bounds, starting from the empty box
`BBox()`, which is the identity of `union` (C01). -/
def simpleBounds {P : Type*} (wb : P → BBox K) : List P → BBox (F K)
  | [] => ⟨⟨.pinf, .pinf, .pinf⟩, ⟨.ninf, .ninf, .ninf⟩⟩
  | p :: ps => finBox (ps.foldl (fun b q => b.unionBox (wb q)) (wb p))

/-- Python `max(a, b)`: the second argument only if it is larger. -/
def pyMax (a b : F K) : F K := if F.gt b a then b else a
/-- Python `min(a, b)`: the second argument only if it is smaller. -/
def pyMin (a b : F K) : F K := if F.lt b a then b else a

/-- the local variables of `SimpleAggregate.intersect`, the caller's `isect.primitive`, and
`ray.maxt`. -/
structure SState (K P : Type*) where
  t0 : F K
  t1 : F K
  mint : F K
  maxt : F K
  isect : Option P
  anyHit : Bool

/-- one round of the loop (`aggregate.py:82-91`); a primitive is described by its first hit parameter
at or after `ray.mint` as in the BVH model (`hitOne`). -/
def sStep {P : Type*} (first : P → Option K) (s : SState K P) (p : P) : SState K P :=
  match first p with
  | none => s
  | some t =>
    if F.le (.fin t) s.maxt then
      let s := { s with maxt := .fin t }
      let s := { s with t0 := pyMax s.t0 s.maxt }
      let s := { s with t1 := pyMin s.t1 s.maxt }
      if F.gt s.t0 s.t1 then s
      else
        let s := { s with anyHit := true }
        if F.lt s.maxt s.mint then { s with mint := s.maxt, isect := some p } else s
    else s

/-- `SimpleAggregate.intersect` (`aggregate.py:72-93`): hit flag, `isect.primitive`, `ray.maxt`. -/
def simpleIntersect {P : Type*} (wb : P → BBox K) (first : P → Option K) (prims : List P) (r : FRay K) :
    Bool × Option P × F K :=
  match intersectP (simpleBounds wb prims) r with
  | none => (false, none, r.maxt)
  | some (t0, t1) =>
    let s := prims.foldl (sStep first) ⟨t0, t1, .pinf, r.maxt, none, false⟩
    (s.anyHit, s.isect, s.maxt)

/-- `SimpleAggregate.intersect_p` (`aggregate.py:95-105`). -/
def simpleIntersectP {P : Type*} (wb : P → BBox K) (first : P → Option K) (prims : List P) (r : FRay K) : Bool :=
  match intersectP (simpleBounds wb prims) r with
  | none => false
  | some _ => prims.any (hitP first r.maxt)

end Model

/-! ## Specification -/

section
variable {K : Type*} [Field K] [LinearOrder K] [IsStrictOrderedRing K]

/-- primitive `p` is hit at `s` inside the ray's range -/
def HitAt {P : Type*} (first : P → Option K) (r : FRay K) (p : P) (s : K) : Prop :=
  first p = some s ∧ F.le (.fin s) r.maxt = true

/-- contract of a primitive: its bound is a proper box, and its first hit is not before `mint` and lies in the bound -/
def SContract {P : Type*} (wb : P → BBox K) (first : P → Option K) (r : FRay K) (p : P) : Prop :=
  (wb p).pMin.x ≤ (wb p).pMax.x ∧ (wb p).pMin.y ≤ (wb p).pMax.y ∧ (wb p).pMin.z ≤ (wb p).pMax.z ∧
  ∀ s, first p = some s → F.le r.mint (.fin s) = true ∧ Mem (FRay.at r s) (wb p)

/-! ## Proofs -/

theorem foldl_union_sub {P : Type*} (wb : P → BBox K) (ps : List P) (b : BBox K) :
    Sub b (ps.foldl (fun b q => b.unionBox (wb q)) b) ∧
    ∀ q ∈ ps, Sub (wb q) (ps.foldl (fun b q => b.unionBox (wb q)) b) := by
  induction ps generalizing b with
  | nil => exact ⟨Sub.refl _, by simp⟩
  | cons p ps ih =>
    obtain ⟨h1, h2⟩ := ih (b.unionBox (wb p))
    have h3 := (unionBox_sub_iff b (wb p) _).1 h1
    refine ⟨h3.1, ?_⟩
    intro q hq
    rcases List.mem_cons.1 hq with rfl | hq
    · exact h3.2
    · exact h2 q hq

theorem simpleBounds_mem {P : Type*} (wb : P → BBox K) (prims : List P) (p : P) (hp : p ∈ prims) (x : V3 K)
    (hx : Mem x (wb p)) : InBox (simpleBounds wb prims) x := by
  cases prims with
  | nil => simp at hp
  | cons q qs =>
    obtain ⟨h1, h2⟩ := foldl_union_sub wb qs (wb q)
    have : Sub (wb p) (qs.foldl (fun b q => b.unionBox (wb q)) (wb q)) := by
      rcases List.mem_cons.1 hp with rfl | h
      · exact h1
      · exact h2 p h
    obtain ⟨⟨a1, a2⟩, ⟨a3, a4⟩, a5, a6⟩ := this
    obtain ⟨⟨b1, b2⟩, ⟨b3, b4⟩, b5, b6⟩ := hx
    simp only [simpleBounds, finBox, InBox, F.le, decide_eq_true_eq]
    exact ⟨⟨by order, by order⟩, ⟨by order, by order⟩, ⟨by order, by order⟩⟩

theorem simpleBounds_proper {P : Type*} (wb : P → BBox K) (prims : List P) (hne : prims ≠ [])
    (h : ∀ p ∈ prims, (wb p).pMin.x ≤ (wb p).pMax.x ∧ (wb p).pMin.y ≤ (wb p).pMax.y ∧ (wb p).pMin.z ≤ (wb p).pMax.z) :
    FProper (simpleBounds wb prims) := by
  cases prims with
  | nil => exact absurd rfl hne
  | cons q qs =>
    obtain ⟨⟨⟨a1, a2⟩, ⟨a3, a4⟩, a5, a6⟩, -⟩ := foldl_union_sub wb qs (wb q)
    obtain ⟨b1, b2, b3⟩ := h q (by simp)
    simp only [simpleBounds, finBox, FProper, F.le, decide_eq_true_eq]
    exact ⟨by order, by order, by order⟩

theorem fle_cases {s : K} {m : F K} (h : F.le (.fin s) m = true) : m = .pinf ∨ ∃ u, m = .fin u ∧ s ≤ u := by
  cases m <;> simp_all [F.le]

theorem fle_cases' {s : K} {m : F K} (h : F.le m (.fin s) = true) : m = .ninf ∨ ∃ u, m = .fin u ∧ u ≤ s := by
  cases m <;> simp_all [F.le]

/-- the state after the first accepted hit `(p0, s0)`: `isect` is frozen at `p0`, only `ray.maxt` (and
`t1`, equal to it) still shrinks -/
def Frozen {P : Type*} (p0 : P) (s0 : K) (s : SState K P) (u : K) : Prop :=
  u ≤ s0 ∧ s = ⟨.fin s0, .fin u, .fin s0, .fin u, some p0, true⟩

theorem sStep_frozen {P : Type*} (first : P → Option K) (p0 : P) (s0 u : K) (s : SState K P)
    (h : Frozen p0 s0 s u) (p : P) :
    ∃ u', Frozen p0 s0 (sStep first s p) u' ∧ u' ≤ u ∧ (u' = u ∨ first p = some u') ∧
      ∀ t, first p = some t → u' ≤ t := by
  obtain ⟨hu, rfl⟩ := h
  unfold sStep
  cases hf : first p with
  | none => exact ⟨u, ⟨hu, rfl⟩, le_rfl, Or.inl rfl, by simp⟩
  | some t =>
    by_cases htu : t ≤ u
    · refine ⟨t, ⟨htu.trans hu, ?_⟩, htu, Or.inr rfl, by simp⟩
      have h1 : pyMax (F.fin s0) (F.fin t) = F.fin s0 := by
        simp [pyMax, F.gt, F.lt, not_lt.2 (htu.trans hu)]
      have h2 : pyMin (F.fin u) (F.fin t) = F.fin t := by
        unfold pyMin; simp only [F.lt, decide_eq_true_eq]; split_ifs with h
        · rfl
        · rw [le_antisymm htu (not_lt.1 h)]
      have h3 : ¬ (s0 < t) := not_lt.2 (htu.trans hu)
      by_cases hlt : t < s0
      · simp [F.le, htu, h1, h2, F.gt, F.lt, hlt]
      · simp [F.le, htu, h1, h2, F.gt, F.lt, hlt]
    · refine ⟨u, ⟨hu, by simp [F.le, htu]⟩, le_rfl, Or.inl rfl, ?_⟩
      intro v hv
      obtain rfl : t = v := by simpa using hv
      exact (not_le.1 htu).le

theorem foldl_frozen {P : Type*} (first : P → Option K) (p0 : P) (s0 : K) (ps : List P) (s : SState K P) (u : K)
    (h : Frozen p0 s0 s u) :
    ∃ u', Frozen p0 s0 (ps.foldl (sStep first) s) u' ∧ u' ≤ u ∧ (u' = u ∨ ∃ p ∈ ps, first p = some u') ∧
      ∀ p ∈ ps, ∀ t, first p = some t → u' ≤ t := by
  induction ps generalizing s u with
  | nil => exact ⟨u, h, le_rfl, Or.inl rfl, by simp⟩
  | cons p ps ih =>
    obtain ⟨u1, a1, a2, a3, a4⟩ := sStep_frozen first p0 s0 u s h p
    obtain ⟨u2, b1, b2, b3, b4⟩ := ih _ u1 a1
    refine ⟨u2, b1, b2.trans a2, ?_, ?_⟩
    · rcases b3 with rfl | ⟨q, hq, hq'⟩
      · rcases a3 with rfl | h3
        · exact Or.inl rfl
        · exact Or.inr ⟨p, by simp, h3⟩
      · exact Or.inr ⟨q, by simp [hq], hq'⟩
    · intro q hq t ht
      rcases List.mem_cons.1 hq with rfl | hq
      · exact b2.trans (a4 t ht)
      · exact b4 q hq t ht

theorem foldl_simple {P : Type*} (first : P → Option K) (ps : List P) (t0 t1 maxt : F K)
    (hin : ∀ p ∈ ps, ∀ s, first p = some s → F.le (.fin s) maxt = true → In t0 t1 s) :
    let s := ps.foldl (sStep first) ⟨t0, t1, .pinf, maxt, none, false⟩
    ((∀ p ∈ ps, ∀ u, first p = some u → F.le (.fin u) maxt = false) ∧ s = ⟨t0, t1, .pinf, maxt, none, false⟩) ∨
    ∃ pre p0 post s0 u, ps = pre ++ p0 :: post ∧ (∀ q ∈ pre, ∀ v, first q = some v → F.le (.fin v) maxt = false) ∧
      first p0 = some s0 ∧ F.le (.fin s0) maxt = true ∧ Frozen p0 s0 s u ∧
      (∃ p ∈ ps, first p = some u) ∧ ∀ p ∈ ps, ∀ v, first p = some v → u ≤ v := by
  induction ps with
  | nil => left; simp
  | cons p ps ih =>
    by_cases hhit : ∃ s0, first p = some s0 ∧ F.le (.fin s0) maxt = true
    · right
      obtain ⟨s0, hs, hle⟩ := hhit
      have hstep : Frozen p s0 (sStep first ⟨t0, t1, .pinf, maxt, none, false⟩ p) s0 := by
        obtain ⟨i0, i1⟩ := hin p (by simp) s0 hs hle
        refine ⟨le_rfl, ?_⟩
        have e0 : pyMax t0 (F.fin s0) = F.fin s0 := by
          rcases fle_cases' i0 with rfl | ⟨u, rfl, hu⟩
          · simp [pyMax, F.gt, F.lt]
          · unfold pyMax; simp only [F.gt, F.lt, decide_eq_true_eq]; split_ifs with h
            · rfl
            · rw [le_antisymm hu (not_lt.1 h)]
        have e1 : pyMin t1 (F.fin s0) = F.fin s0 := by
          rcases fle_cases i1 with rfl | ⟨u, rfl, hu⟩
          · simp [pyMin, F.lt]
          · unfold pyMin; simp only [F.lt, decide_eq_true_eq]; split_ifs with h
            · rfl
            · rw [le_antisymm (not_lt.1 h) hu]
        simp [sStep, hs, hle, e0, e1, F.gt, F.lt]
      obtain ⟨u, b1, b2, b3, b4⟩ := foldl_frozen first p s0 ps _ s0 hstep
      refine ⟨[], p, ps, s0, u, rfl, by simp, hs, hle, b1, ?_, ?_⟩
      · rcases b3 with rfl | ⟨q, hq, hq'⟩
        · exact ⟨p, by simp, hs⟩
        · exact ⟨q, by simp [hq], hq'⟩
      · intro q hq v hv
        rcases List.mem_cons.1 hq with rfl | hq
        · rw [hs] at hv; obtain rfl : s0 = v := by simpa using hv
          exact b2
        · exact b4 q hq v hv
    · have hno : ∀ v, first p = some v → F.le (.fin v) maxt = false := by
        intro v hv
        by_contra hc
        exact hhit ⟨v, hv, by simpa using hc⟩
      have hstep : sStep first ⟨t0, t1, .pinf, maxt, none, false⟩ p = ⟨t0, t1, .pinf, maxt, none, false⟩ := by
        unfold sStep
        cases hf : first p with
        | none => rfl
        | some v => simp [hno v hf]
      simp only [List.foldl_cons, hstep]
      rcases ih (fun q hq => hin q (by simp [hq])) with ⟨h1, h2⟩ | ⟨pre, p0, post, s0, u, h1, h2, h3, h4, h5, h6, h7⟩
      · left
        refine ⟨?_, h2⟩
        intro q hq v hv
        rcases List.mem_cons.1 hq with rfl | hq
        · exact hno v hv
        · exact h1 q hq v hv
      · right
        refine ⟨p :: pre, p0, post, s0, u, by rw [h1]; rfl, ?_, h3, h4, h5, ?_, ?_⟩
        · intro q hq v hv
          rcases List.mem_cons.1 hq with rfl | hq
          · exact hno v hv
          · exact h2 q hq v hv
        · obtain ⟨q, hq, hq'⟩ := h6; exact ⟨q, by simp [hq], hq'⟩
        · intro q hq v hv
          rcases List.mem_cons.1 hq with rfl | hq
          · -- a first parameter that is not within `maxt` is beyond it
            obtain ⟨q0, hq0, hu⟩ := h6
            have hv' := hno v hv
            have hsu := h5.1
            by_contra hc
            have : F.le (.fin v) maxt = true := by
              rcases fle_cases h4 with rfl | ⟨w, rfl, hw⟩
              · simp [F.le]
              · simp only [F.le, decide_eq_true_eq]; order
            simp [this] at hv'
          · exact h7 q hq v hv

theorem mem_at_bounds {P : Type*} (wb : P → BBox K) (first : P → Option K) (prims : List P) (r : FRay K)
    (hc : ∀ p ∈ prims, SContract wb first r p) (h0 : r.mint ≠ .nan) (h1 : r.maxt ≠ .nan)
    (hg : NoGraze (simpleBounds wb prims) r) :
    match intersectP (simpleBounds wb prims) r with
    | none => ∀ p ∈ prims, ∀ s, ¬ HitAt first r p s
    | some (t0, t1) => ∀ p ∈ prims, ∀ s, HitAt first r p s → In t0 t1 s := by
  by_cases hne : prims = []
  · subst hne; split <;> simp
  have hex := C02_slab_exact_partial (simpleBounds wb prims) r
    (simpleBounds_proper wb prims hne (fun p hp => ⟨(hc p hp).1, (hc p hp).2.1, (hc p hp).2.2.1⟩)) h0 h1 hg
  unfold SlabExact at hex
  split
  · rename_i h; rw [h] at hex
    intro p hp s ⟨hs, hle⟩
    obtain ⟨a, b⟩ := (hc p hp).2.2.2 s hs
    exact hex s ⟨a, hle⟩ (simpleBounds_mem wb prims p hp _ b)
  · rename_i t0 t1 h; rw [h] at hex
    intro p hp s ⟨hs, hle⟩
    obtain ⟨a, b⟩ := (hc p hp).2.2.2 s hs
    exact (hex s).2 ⟨⟨a, hle⟩, simpleBounds_mem wb prims p hp _ b⟩

/-- **C34 (what holds)**: `SimpleAggregate.intersect` reports a hit exactly when some primitive is hit
inside `[mint, maxt]`; `ray.maxt` then is the nearest hit parameter; but the recorded intersection is
that of the *first primitive in list order* that is hit, not the nearest one.  Missing from the full
statement: `isect` belongs to a primitive hit at `ray.maxt` (false, see `C34_isect_not_nearest_false`).
Also excluded: `-0.0` directions along a face plane (as in C02). -/
theorem C34_intersect_partial {P : Type*} (wb : P → BBox K) (first : P → Option K) (prims : List P) (r : FRay K)
    (hc : ∀ p ∈ prims, SContract wb first r p) (h0 : r.mint ≠ .nan) (h1 : r.maxt ≠ .nan)
    (hg : NoGraze (simpleBounds wb prims) r) :
    (simpleIntersect wb first prims r = (false, none, r.maxt) ∧ ∀ p ∈ prims, ∀ s, ¬ HitAt first r p s) ∨
    ∃ pre p0 post s0 u, prims = pre ++ p0 :: post ∧ (∀ q ∈ pre, ∀ v, ¬ HitAt first r q v) ∧ HitAt first r p0 s0 ∧
      simpleIntersect wb first prims r = (true, some p0, .fin u) ∧
      (∃ p ∈ prims, HitAt first r p u) ∧ ∀ p ∈ prims, ∀ v, HitAt first r p v → u ≤ v := by
  have hb := mem_at_bounds wb first prims r hc h0 h1 hg
  unfold simpleIntersect
  split at hb
  · exact Or.inl ⟨rfl, hb⟩
  · rename_i t0 t1 h
    rcases foldl_simple first prims t0 t1 r.maxt (fun p hp s hs hle => hb p hp s ⟨hs, hle⟩) with
      ⟨h1, h2⟩ | ⟨pre, p0, post, s0, u, a1, a2, a3, a4, a5, a6, a7⟩
    · left
      refine ⟨by simp only [h2], ?_⟩
      rintro p hp s ⟨hs, hle⟩
      rw [h1 p hp s hs] at hle; cases hle
    · right
      refine ⟨pre, p0, post, s0, u, a1, ?_, ⟨a3, a4⟩, by simp only [a5.2], ?_, fun p hp v hv => a7 p hp v hv.1⟩
      · rintro q hq v ⟨hv, hle⟩
        rw [a2 q hq v hv] at hle; cases hle
      · obtain ⟨p, hp, hu⟩ := a6
        refine ⟨p, hp, hu, ?_⟩
        have := a5.1
        rcases fle_cases a4 with h | ⟨w, h, hw⟩
        · rw [h]; simp [F.le]
        · rw [h]; simp only [F.le, decide_eq_true_eq]; order

/-- **C34** when the first primitive that is hit is also the nearest one (in particular with at most
one primitive hit), the answer is the right one. -/
theorem C34_intersect_nearest_partial {P : Type*} (wb : P → BBox K) (first : P → Option K) (prims : List P)
    (r : FRay K) (hc : ∀ p ∈ prims, SContract wb first r p) (h0 : r.mint ≠ .nan) (h1 : r.maxt ≠ .nan)
    (hg : NoGraze (simpleBounds wb prims) r) (p : P) (s : K) (pre post : List P)
    (hsplit : prims = pre ++ p :: post) (hpre : ∀ q ∈ pre, ∀ v, ¬ HitAt first r q v) (hp : HitAt first r p s)
    (hnear : ∀ q ∈ prims, ∀ v, HitAt first r q v → s ≤ v) :
    simpleIntersect wb first prims r = (true, some p, .fin s) := by
  rcases C34_intersect_partial wb first prims r hc h0 h1 hg with ⟨-, h⟩ | ⟨pre', p0, post', s0, u, a1, a2, a3, a4, a5, a6⟩
  · exact absurd hp (h p (by rw [hsplit]; simp) s)
  · have hu : u = s := by
      obtain ⟨q, hq, hqu⟩ := a5
      exact le_antisymm (a6 p (by rw [hsplit]; simp) s hp) (hnear q hq u hqu)
    have hpp : p0 = p := by
      rw [hsplit] at a1
      rcases List.append_eq_append_iff.1 a1 with ⟨l, e1, e2⟩ | ⟨l, e1, e2⟩
      · cases l with
        | nil => simp at e2; exact e2.1.symm
        | cons x l =>
          simp at e2
          exact absurd (e2.1 ▸ hp) (a2 x (by rw [e1]; simp) s)
      · cases l with
        | nil => simp at e2; exact e2.1
        | cons x l =>
          simp at e2
          exact absurd (e2.1 ▸ a3) (hpre x (by rw [e1]; simp) s0)
    rw [a4, hu, hpp]

/-- **C34** `intersect_p` answers `True` exactly when some primitive is hit in the range, hence agrees
with the flag of `intersect`. -/
theorem C34_intersect_p {P : Type*} (wb : P → BBox K) (first : P → Option K) (prims : List P) (r : FRay K)
    (hc : ∀ p ∈ prims, SContract wb first r p) (h0 : r.mint ≠ .nan) (h1 : r.maxt ≠ .nan)
    (hg : NoGraze (simpleBounds wb prims) r) :
    (simpleIntersectP wb first prims r = true ↔ ∃ p ∈ prims, ∃ s, HitAt first r p s) ∧
    simpleIntersectP wb first prims r = (simpleIntersect wb first prims r).1 := by
  have key : simpleIntersectP wb first prims r = true ↔ ∃ p ∈ prims, ∃ s, HitAt first r p s := by
    have hb := mem_at_bounds wb first prims r hc h0 h1 hg
    unfold simpleIntersectP
    split at hb
    · rename_i h
      simp only [h, Bool.false_eq_true, false_iff]
      rintro ⟨p, hp, s, hs⟩; exact hb p hp s hs
    · rename_i t0 t1 h
      simp only [h, List.any_eq_true]
      constructor
      · rintro ⟨p, hp, hh⟩
        unfold hitP at hh
        cases hf : first p with
        | none => simp [hf] at hh
        | some s => simp only [hf] at hh; exact ⟨p, hp, s, hf, hh⟩
      · rintro ⟨p, hp, s, hs, hle⟩
        exact ⟨p, hp, by simp [hitP, hs, hle]⟩
  refine ⟨key, ?_⟩
  rcases C34_intersect_partial wb first prims r hc h0 h1 hg with ⟨e, h⟩ | ⟨pre, p0, post, s0, u, a1, a2, a3, a4, a5, a6⟩
  · rw [e]
    by_contra hx
    have : simpleIntersectP wb first prims r = true := by simpa using hx
    obtain ⟨p, hp, s, hs⟩ := key.1 this
    exact h p hp s hs
  · rw [a4]
    exact key.2 ⟨p0, by rw [a1]; simp, s0, a3⟩

end

/-! ### Violation and non-vacuity -/

/-- two unit-thick plates across the ray -/
def plate (z : ℚ) : BBox ℚ := ⟨⟨-1, -1, z⟩, ⟨1, 1, z + 1⟩⟩
/-- a ray along +z -/
def zray : FRay ℚ := ⟨⟨0, 0, 0⟩, ⟨⟨0, false⟩, ⟨0, false⟩, ⟨1, false⟩⟩, .fin 0, .pinf⟩
/-- each plate is first hit on its near face -/
def plateFirst (b : BBox ℚ) : Option ℚ := some b.pMin.z

/-- **C34 is violated**: with the farther plate listed first, `ray.maxt` is 1 (the nearer plate) but
the intersection handed back is that of the farther plate. -/
theorem C34_isect_not_nearest_false :
    simpleIntersect id plateFirst [plate 5, plate 1] zray = (true, some (plate 5), .fin 1) ∧
    plateFirst (plate 1) = some 1 ∧ plateFirst (plate 5) = some 5 := by
  refine ⟨by decide +kernel, by decide +kernel, by decide +kernel⟩

example : (∀ p ∈ [plate 5, plate 1], SContract id plateFirst zray p) ∧ zray.mint ≠ .nan ∧ zray.maxt ≠ .nan ∧
    NoGraze (simpleBounds id [plate 5, plate 1]) zray := by
  refine ⟨?_, by simp [zray], by simp [zray], by simp [NoGraze, GrazesNegZero, zray]⟩
  intro p hp
  simp only [List.mem_cons, List.not_mem_nil, or_false] at hp
  rcases hp with rfl | rfl <;>
    norm_num [SContract, plate, plateFirst, zray, Mem, FRay.at, F.le]

end Verif.Agg
