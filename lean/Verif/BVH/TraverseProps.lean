import Verif.BVH.TraverseLemmas
import Verif.BVH.BuildProps2

/-! # BVH traversal agrees with brute force (C38) -/

namespace Verif.BVH
open BBox
set_option linter.unusedSectionVars false

section
variable {K : Type*} [Field K] [LinearOrder K] [IsStrictOrderedRing K]

/-! ### Specification -/

/-- `acc` is a correct answer to "nearest hit of the ray among `prims`", the ray's upper limit being
`maxt0`: either nothing is hit strictly before the limit and nothing was changed, or the recorded
primitive is one of them, is hit at the recorded parameter, and no primitive is hit earlier. -/
def NearestAnswer {P : Type*} (prims : List P) (first : P → Option K) (maxt0 : F K) (acc : Acc K P) : Prop :=
  (acc = ⟨maxt0, none, false⟩ ∧ ∀ p ∈ prims, ∀ s, first p = some s → F.lt (.fin s) maxt0 = false) ∨
  (∃ p ∈ prims, ∃ s, first p = some s ∧ acc = ⟨.fin s, some p, true⟩ ∧ F.le (.fin s) maxt0 = true ∧
    ∀ q ∈ prims, ∀ u, first q = some u → s ≤ u)

/-- the contract of a primitive: its first hit is after `mint` and lies inside its world bound -/
def Contract {P : Type*} (wb : P → BBox K) (first : P → Option K) (r : FRay K) (p : P) : Prop :=
  ∀ s, first p = some s → F.lt r.mint (.fin s) = true ∧ Mem (V3.rayAt r.o (rayDir r) s) (wb p)

/-- the ray is not one of the special cases the box test mishandles (`-0.0` components; zero x
component with the origin on a primitive's x face) -/
def RayFine {P : Type*} (wb : P → BBox K) (prims : List P) (r : FRay K) : Prop :=
  ∀ p ∈ prims, RayOk r (wb p)

/-! ### Invariants -/

/-- progress relation between accumulators -/
def Lower {P : Type*} (prims : List P) (first : P → Option K) (a b : Acc K P) : Prop :=
  b = a ∨ ∃ p ∈ prims, ∃ s, first p = some s ∧ b = ⟨.fin s, some p, true⟩ ∧ F.le (.fin s) a.maxt = true

theorem lt_false_of_le {s t : K} {m : F K} (h : F.lt (.fin s) m = false) (hle : F.le (.fin t) m = true) :
    F.lt (.fin s) (.fin t) = false := by
  cases m <;> simp_all [F.lt, F.le]
  linarith

theorem le_trans_fin {s t : K} {m : F K} (h : F.le (.fin s) (.fin t) = true) (hle : F.le (.fin t) m = true) :
    F.le (.fin s) m = true := by
  cases m <;> simp_all [F.le]
  linarith

theorem Lower.trans {P : Type*} {prims : List P} {first : P → Option K} {a b c : Acc K P}
    (h1 : Lower prims first a b) (h2 : Lower prims first b c) : Lower prims first a c := by
  rcases h2 with rfl | ⟨p, hp, s, hs, rfl, hle⟩
  · exact h1
  · rcases h1 with rfl | ⟨q, hq, u, hu, rfl, hle'⟩
    · exact Or.inr ⟨p, hp, s, hs, rfl, hle⟩
    · exact Or.inr ⟨p, hp, s, hs, rfl, le_trans_fin hle hle'⟩

theorem Lower.keep {P : Type*} {prims : List P} {first : P → Option K} {a b : Acc K P}
    (h : Lower prims first a b) {s : K} (hs : F.lt (.fin s) a.maxt = false) : F.lt (.fin s) b.maxt = false := by
  rcases h with rfl | ⟨p, hp, u, hu, rfl, hle⟩
  · exact hs
  · exact lt_false_of_le hs hle

theorem hitOne_spec {P : Type*} (prims : List P) (first : P → Option K) (a : Acc K P) (p : P) (hp : p ∈ prims) :
    Lower prims first a (hitOne first a p) ∧
    ∀ s, first p = some s → F.lt (.fin s) (hitOne first a p).maxt = false := by
  unfold hitOne
  cases h : first p with
  | none => exact ⟨Or.inl rfl, by simp⟩
  | some t =>
    simp only
    split_ifs with hle
    · refine ⟨Or.inr ⟨p, hp, t, h, rfl, hle⟩, ?_⟩
      intro s hs; cases hs; simp [F.lt]
    · refine ⟨Or.inl rfl, ?_⟩
      intro s hs; cases hs
      generalize a.maxt = m at hle ⊢
      cases m <;> simp_all [F.lt, F.le]
      linarith

theorem foldl_spec {P : Type*} (prims : List P) (first : P → Option K) (ps : List P) (hps : ∀ p ∈ ps, p ∈ prims)
    (a : Acc K P) :
    Lower prims first a (ps.foldl (hitOne first) a) ∧
    ∀ p ∈ ps, ∀ s, first p = some s → F.lt (.fin s) (ps.foldl (hitOne first) a).maxt = false := by
  induction ps generalizing a with
  | nil => exact ⟨Or.inl rfl, by simp⟩
  | cons p ps ih =>
    obtain ⟨h1, h2⟩ := hitOne_spec prims first a p (hps p (by simp))
    obtain ⟨g1, g2⟩ := ih (fun q hq => hps q (by simp [hq])) (hitOne first a p)
    simp only [List.foldl_cons]
    refine ⟨h1.trans g1, ?_⟩
    intro q hq s hs
    rcases List.mem_cons.1 hq with rfl | hq
    · exact g1.keep (h2 s hs)
    · exact g2 q hq s hs

theorem mem_slice {P : Type*} {l : List P} {lo hi : ℕ} {p : P} (h : p ∈ slice l lo hi) : p ∈ l :=
  List.mem_of_mem_drop (List.mem_of_mem_take h)

theorem mem_sub {p : V3 K} {a b : BBox K} (h : Mem p a) (hs : Sub a b) : Mem p b := by
  obtain ⟨⟨h1, h2⟩, ⟨h3, h4⟩, h5, h6⟩ := h
  obtain ⟨⟨g1, g2⟩, ⟨g3, g4⟩, g5, g6⟩ := hs
  exact ⟨⟨g1.trans h1, h2.trans g2⟩, ⟨g3.trans h3, h4.trans g4⟩, g5.trans h5, h6.trans g6⟩

theorem exists_min {P : Type*} (f : P → K) (l : List P) (h : l ≠ []) : ∃ p ∈ l, ∀ q ∈ l, f p ≤ f q := by
  induction l with
  | nil => exact absurd rfl h
  | cons a l ih =>
    by_cases hl : l = []
    · subst hl; exact ⟨a, by simp, by simp⟩
    · obtain ⟨p, hp, hmin⟩ := ih hl
      rcases le_total (f a) (f p) with hle | hle
      · refine ⟨a, by simp, ?_⟩
        intro q hq; rcases List.mem_cons.1 hq with rfl | hq
        · exact le_refl _
        · exact hle.trans (hmin q hq)
      · refine ⟨p, by simp [hp], ?_⟩
        intro q hq; rcases List.mem_cons.1 hq with rfl | hq
        · exact hle
        · exact hmin q hq

/-- the x faces of a tight box are faces of one of its primitives' boxes -/
theorem tight_faces {P : Type*} {wb : P → BBox K} {l : List P} (hne : l ≠ []) {b : BBox K}
    (h : ∀ c : BBox K, Sub b c ↔ ∀ p ∈ l, Sub (wb p) c) :
    (∃ p ∈ l, (wb p).pMin.x = b.pMin.x) ∧ ∃ p ∈ l, (wb p).pMax.x = b.pMax.x := by
  have hin := (h b).1 (Sub.refl b)
  constructor
  · obtain ⟨p, hp, hmin⟩ := exists_min (fun q => (wb q).pMin.x) l hne
    refine ⟨p, hp, le_antisymm ?_ (hin p hp).1.1⟩
    have := (h ⟨⟨(wb p).pMin.x, b.pMin.y, b.pMin.z⟩, b.pMax⟩).2 (fun q hq => by
      obtain ⟨⟨g1, g2⟩, ⟨g3, g4⟩, g5, g6⟩ := hin q hq
      exact ⟨⟨hmin q hq, g2⟩, ⟨g3, g4⟩, g5, g6⟩)
    exact this.1.1
  · obtain ⟨p, hp, hmin⟩ := exists_min (fun q => -(wb q).pMax.x) l hne
    refine ⟨p, hp, le_antisymm (hin p hp).1.2 ?_⟩
    have := (h ⟨b.pMin, ⟨(wb p).pMax.x, b.pMax.y, b.pMax.z⟩⟩).2 (fun q hq => by
      obtain ⟨⟨g1, g2⟩, ⟨g3, g4⟩, g5, g6⟩ := hin q hq
      exact ⟨⟨g1, by have := hmin q hq; simp only at this ⊢; linarith⟩, ⟨g3, g4⟩, g5, g6⟩)
    exact this.1.2

theorem rayOk_node {P : Type*} {wb : P → BBox K} {prims : List P} {r : FRay K} {t : Node K} {lo hi : ℕ}
    (hr : RayFine wb prims r) (hlt : lo < hi) (hhi : hi ≤ prims.length)
    (ht : TightBox wb prims t lo) (hcount : hi = lo + t.count) : RayOk r t.bounds := by
  have hne : slice prims lo hi ≠ [] := by
    intro h; have := congrArg List.length h; simp [slice] at this; omega
  subst hcount
  obtain ⟨⟨p, hp, e1⟩, q, hq, e2⟩ := tight_faces hne ht
  obtain ⟨px, py, pz⟩ := hr p (mem_slice hp)
  obtain ⟨qx, -, -⟩ := hr q (mem_slice hq)
  refine ⟨?_, py, pz⟩
  rcases px with h | ⟨h1, h2, h3⟩
  · exact Or.inl h
  · rcases qx with h | ⟨h4, h5, h6⟩
    · exact Or.inl h
    · exact Or.inr ⟨h1, by rw [← e1]; exact h2, by rw [← e2]; exact h6⟩

theorem traverse_spec {P : Type*} (wb : P → BBox K) (prims : List P) (first : P → Option K) (r : FRay K)
    (hc : ∀ p ∈ prims, Contract wb first r p) (hr : RayFine wb prims r)
    (t : Node K) (lo hi : ℕ) (hp : Partitions prims t lo hi) (ht : AllNodes (TightBox wb prims) t lo)
    (acc : Acc K P) :
    Lower prims first acc (traverse prims first r t acc) ∧
    ∀ p ∈ slice prims lo hi, ∀ s, first p = some s →
      F.lt (.fin s) (traverse prims first r t acc).maxt = false := by
  induction t generalizing lo hi acc with
  | leaf f n b =>
    obtain ⟨rfl, rfl, hn, hle⟩ := hp
    have hsl : slice prims f (f + n) = (prims.drop f).take n := by simp [slice]
    simp only [traverse]
    split_ifs with hb
    · rw [hsl]
      exact foldl_spec prims first _ (fun p hp => List.mem_of_mem_drop (List.mem_of_mem_take hp)) acc
    · refine ⟨Or.inl rfl, ?_⟩
      intro p hp s hs
      by_contra hlt
      apply hb
      obtain ⟨h1, h2⟩ := hc p (mem_slice hp) s hs
      have hok : RayOk r b := rayOk_node hr (t := .leaf f n b) (lo := f) (hi := f + n) (by omega) hle ht rfl
      exact boxHit_of_mem b _ s hok (mem_sub h2 ((ht b).1 (Sub.refl _) p hp)) h1 (by simpa using hlt)
  | inter axis c0 c1 b ih0 ih1 =>
    have hB := hp.bounds
    have hcnt := hp.count
    obtain ⟨mid, p0, p1⟩ := hp
    obtain ⟨hq, a0, a1⟩ := ht
    have k0 := p0.count
    have b0 := p0.bounds
    have b1 := p1.bounds
    rw [← k0] at a1
    simp only [traverse]
    split_ifs with hb hneg
    · obtain ⟨s1, s2⟩ := ih1 mid hi p1 a1 acc
      obtain ⟨u1, u2⟩ := ih0 lo mid p0 a0 (traverse prims first r c1 acc)
      refine ⟨s1.trans u1, ?_⟩
      intro p hp s hs
      rw [slice_split prims lo mid hi b0.1.le b1.1.le] at hp
      rcases List.mem_append.1 hp with hp | hp
      · exact u2 p hp s hs
      · exact u1.keep (s2 p hp s hs)
    · obtain ⟨s1, s2⟩ := ih0 lo mid p0 a0 acc
      obtain ⟨u1, u2⟩ := ih1 mid hi p1 a1 (traverse prims first r c0 acc)
      refine ⟨s1.trans u1, ?_⟩
      intro p hp s hs
      rw [slice_split prims lo mid hi b0.1.le b1.1.le] at hp
      rcases List.mem_append.1 hp with hp | hp
      · exact u1.keep (s2 p hp s hs)
      · exact u2 p hp s hs
    · refine ⟨Or.inl rfl, ?_⟩
      intro p hp s hs
      by_contra hlt
      apply hb
      obtain ⟨h1, h2⟩ := hc p (mem_slice hp) s hs
      have hok : RayOk r b := rayOk_node hr (t := .inter axis c0 c1 b) hB.1 hB.2 hq hcnt
      rw [hcnt] at hp
      exact boxHit_of_mem b _ s hok (mem_sub h2 ((hq b).1 (Sub.refl _) p hp)) h1 (by simpa using hlt)

theorem traverse_nearest {P : Type*} (wb : P → BBox K) (prims : List P) (first : P → Option K) (r : FRay K)
    (hc : ∀ p ∈ prims, Contract wb first r p) (hr : RayFine wb prims r)
    (t : Node K) (hp : Partitions prims t 0 prims.length) (ht : AllNodes (TightBox wb prims) t 0) :
    NearestAnswer prims first r.maxt (traverse prims first r t ⟨r.maxt, none, false⟩) := by
  obtain ⟨h1, h2⟩ := traverse_spec wb prims first r hc hr t 0 prims.length hp ht ⟨r.maxt, none, false⟩
  have hs : slice prims 0 prims.length = prims := by simp [slice]
  rw [hs] at h2
  rcases h1 with h | ⟨p, hp, s, hs, h, hle⟩
  · rw [h] at h2 ⊢; exact Or.inl ⟨rfl, h2⟩
  · rw [h] at h2 ⊢
    refine Or.inr ⟨p, hp, s, hs, rfl, hle, ?_⟩
    intro q hq u hu
    have := h2 q hq u hu
    simpa [F.lt] using this

theorem traverseP_sound {P : Type*} (prims : List P) (first : P → Option K) (r : FRay K) (t : Node K)
    (h : traverseP prims first r t = true) : ∃ p ∈ prims, ∃ s, first p = some s ∧ F.le (.fin s) r.maxt = true := by
  induction t with
  | leaf f n b =>
    simp only [traverseP, Bool.and_eq_true, List.any_eq_true] at h
    obtain ⟨-, p, hp, hh⟩ := h
    refine ⟨p, List.mem_of_mem_drop (List.mem_of_mem_take hp), ?_⟩
    unfold hitP at hh
    cases hf : first p with
    | none => rw [hf] at hh; simp at hh
    | some s => rw [hf] at hh; exact ⟨s, rfl, hh⟩
  | inter axis c0 c1 b ih0 ih1 =>
    simp only [traverseP, Bool.and_eq_true] at h
    obtain ⟨-, h⟩ := h
    split_ifs at h <;> simp only [Bool.or_eq_true] at h <;> rcases h with h | h
    · exact ih1 h
    · exact ih0 h
    · exact ih0 h
    · exact ih1 h

theorem traverseP_complete {P : Type*} (wb : P → BBox K) (prims : List P) (first : P → Option K) (r : FRay K)
    (hc : ∀ p ∈ prims, Contract wb first r p) (hr : RayFine wb prims r)
    (t : Node K) (lo hi : ℕ) (hp : Partitions prims t lo hi) (ht : AllNodes (TightBox wb prims) t lo)
    (p : P) (hmem : p ∈ slice prims lo hi) (s : K) (hs : first p = some s) (hlt : F.lt (.fin s) r.maxt = true) :
    traverseP prims first r t = true := by
  have hle : F.le (.fin s) r.maxt = true := by
    generalize r.maxt = m at hlt; cases m <;> simp_all [F.lt, F.le]; linarith
  obtain ⟨h1, h2⟩ := hc p (mem_slice hmem) s hs
  induction t generalizing lo hi with
  | leaf f n b =>
    obtain ⟨rfl, rfl, hn, hle'⟩ := hp
    have hsl : slice prims f (f + n) = (prims.drop f).take n := by simp [slice]
    have hok : RayOk r b := rayOk_node hr (t := .leaf f n b) (lo := f) (hi := f + n) (by omega) hle' ht rfl
    have hb : boxHit b r = true :=
      boxHit_of_mem b _ s hok (mem_sub h2 ((ht b).1 (Sub.refl _) p hmem)) h1 hlt
    simp only [traverseP, hb, Bool.true_and, List.any_eq_true]
    exact ⟨p, by rw [← hsl]; exact hmem, by simp only [hitP, hs]; exact hle⟩
  | inter axis c0 c1 b ih0 ih1 =>
    have hB := hp.bounds
    have hcnt := hp.count
    obtain ⟨mid, p0, p1⟩ := hp
    obtain ⟨hq, a0, a1⟩ := ht
    have k0 := p0.count
    have b0 := p0.bounds
    have b1 := p1.bounds
    rw [← k0] at a1
    have hok : RayOk r b := rayOk_node hr (t := .inter axis c0 c1 b) hB.1 hB.2 hq hcnt
    have hb : boxHit b r = true := by
      have hm' := hmem
      rw [hcnt] at hm'
      exact boxHit_of_mem b _ s hok (mem_sub h2 ((hq b).1 (Sub.refl _) p hm')) h1 hlt
    rw [slice_split prims lo mid hi b0.1.le b1.1.le] at hmem
    simp only [traverseP, hb, Bool.true_and]
    rcases List.mem_append.1 hmem with hm | hm
    · rw [ih0 lo mid p0 a0 hm]; simp
    · rw [ih1 mid hi p1 a1 hm]; simp

/-! ### C38 -/

variable [FloorRing K]

/-- **C38** nearest hit.  For every list of primitives, every cost function, node size and split
method for which construction succeeds, every tree at most 64 levels high and every ray that is not
one of the special cases, `BVH.intersect` terminates without error (within one loop round per node)
and gives a correct nearest-hit answer over the *original* primitives.
Full statement: also for rays with `-0.0` components, hits exactly at the ray's limits, and deeper
trees; these are false, see the `_false` theorems. -/
theorem C38_intersect_nearest_partial {P : Type*} (cfg : Config K) (wb : P → BBox K) (prims : List P)
    (hne : prims ≠ []) (first : P → Option K) (r : FRay K)
    (hc : ∀ p ∈ prims, Contract wb first r p) (hr : RayFine wb prims r)
    (t : Node K) (ordered : List P) (total : ℕ)
    (h : build cfg prims prims.length (buildData wb prims) [] 0 = .ok (t, ordered, total))
    (hh : t.height ≤ 64) :
    ∃ bvh acc, mk cfg wb prims = .ok bvh ∧ (∀ fuel ≥ total, bvh.intersect first r fuel = .ok acc) ∧
      NearestAnswer prims first r.maxt acc := by
  obtain ⟨hperm, hpart, htight, htot⟩ := build_correct cfg wb prims t ordered total h
  obtain ⟨hmk, -⟩ := C37_constructor cfg wb prims hne t ordered total h
  have hc' : ∀ p ∈ ordered, Contract wb first r p := fun p hp => hc p (hperm.mem_iff.1 hp)
  have hr' : RayFine wb ordered r := fun p hp => hr p (hperm.mem_iff.1 hp)
  refine ⟨_, traverse ordered first r t ⟨r.maxt, none, false⟩, hmk, ?_, ?_⟩
  · intro fuel hf
    obtain ⟨n, hn, hl⟩ := loop_traverse (preorder t 0) ordered first r t 0 0 ordered.length (C37_layout t)
      hpart [] (by simpa using hh) ⟨r.maxt, none, false⟩
    have := hl (fuel - n)
    rw [show fuel - n + n = fuel by omega] at this
    simpa [Bvh.intersect, cont] using this
  · have := traverse_nearest wb ordered first r hc' hr' t hpart htight
    rcases this with ⟨e, hA⟩ | ⟨p, hp, s, hs, e, hle, hA⟩
    · exact Or.inl ⟨e, fun p hp => hA p (hperm.mem_iff.2 hp)⟩
    · exact Or.inr ⟨p, hperm.mem_iff.1 hp, s, hs, e, hle, fun q hq => hA q (hperm.mem_iff.2 hq)⟩

/-- **C38** any-hit query: `intersect_p` answers `True` only if some primitive is hit within the
range, and does so whenever one is hit strictly before the ray's upper limit. -/
theorem C38_intersect_p_partial {P : Type*} (cfg : Config K) (wb : P → BBox K) (prims : List P)
    (hne : prims ≠ []) (first : P → Option K) (r : FRay K)
    (hc : ∀ p ∈ prims, Contract wb first r p) (hr : RayFine wb prims r)
    (t : Node K) (ordered : List P) (total : ℕ)
    (h : build cfg prims prims.length (buildData wb prims) [] 0 = .ok (t, ordered, total))
    (hh : t.height ≤ 64) :
    ∃ bvh res, mk cfg wb prims = .ok bvh ∧ (∀ fuel ≥ total, bvh.intersectP first r fuel = .ok res) ∧
      (res = true → ∃ p ∈ prims, ∃ s, first p = some s ∧ F.le (.fin s) r.maxt = true) ∧
      ((∃ p ∈ prims, ∃ s, first p = some s ∧ F.lt (.fin s) r.maxt = true) → res = true) := by
  obtain ⟨hperm, hpart, htight, htot⟩ := build_correct cfg wb prims t ordered total h
  obtain ⟨hmk, -⟩ := C37_constructor cfg wb prims hne t ordered total h
  have hc' : ∀ p ∈ ordered, Contract wb first r p := fun p hp => hc p (hperm.mem_iff.1 hp)
  have hr' : RayFine wb ordered r := fun p hp => hr p (hperm.mem_iff.1 hp)
  refine ⟨_, traverseP ordered first r t, hmk, ?_, ?_, ?_⟩
  · intro fuel hf
    obtain ⟨n, hn, hl⟩ := loopP_traverse (preorder t 0) ordered first r t 0 0 ordered.length (C37_layout t)
      hpart [] (by simpa using hh)
    have := hl (fuel - n)
    rw [show fuel - n + n = fuel by omega] at this
    cases hres : traverseP ordered first r t <;> rw [hres] at this <;>
      simpa [Bvh.intersectP, contP] using this
  · intro hres
    obtain ⟨p, hp, hs⟩ := traverseP_sound ordered first r t hres
    exact ⟨p, hperm.mem_iff.1 hp, hs⟩
  · rintro ⟨p, hp, s, hs, hlt⟩
    refine traverseP_complete wb ordered first r hc' hr' t 0 ordered.length hpart htight p ?_ s hs hlt
    have : slice ordered 0 ordered.length = ordered := by simp [slice]
    rw [this]; exact hperm.mem_iff.2 hp

theorem height_lt_count {P : Type*} {o : List P} {t : Node K} {lo hi : ℕ} (h : Partitions o t lo hi) :
    t.height < t.count := by
  induction t generalizing lo hi with
  | leaf f n b => exact h.2.2.1
  | inter a c0 c1 b ih0 ih1 =>
    obtain ⟨m, h0, h1⟩ := h
    have := ih0 h0; have := ih1 h1
    simp only [Node.height, Node.count]; omega

/-- **C38** the stack never overflows for scenes of at most 65 primitives. -/
theorem C38_small_scenes_fit_partial {P : Type*} (cfg : Config K) (wb : P → BBox K) (prims : List P)
    (t : Node K) (ordered : List P) (total : ℕ)
    (h : build cfg prims prims.length (buildData wb prims) [] 0 = .ok (t, ordered, total))
    (hsmall : prims.length ≤ 65) : t.height ≤ 64 := by
  obtain ⟨hperm, hpart, -, -⟩ := build_correct cfg wb prims t ordered total h
  have h1 := hpart.count
  have h2 := height_lt_count hpart
  have := hperm.length_eq
  omega

end

/-! ### Violations and non-vacuity -/

section Witness

/-- one primitive: the box itself, hit at parameter 1 -/
def oneFirst : BBox ℚ → Option ℚ := fun _ => some 1

/-- ray from `o` along `d` over `[mint, maxt]` -/
def mkRay (o : V3 ℚ) (d : V3 (Dir ℚ)) (mint maxt : F ℚ) : FRay ℚ := ⟨o, d, mint, maxt⟩

def resOf {α : Type*} (x : Except Err (Acc ℚ α)) : Option Bool :=
  match x with
  | .ok a => some a.hit
  | .error _ => none

def runOne (b : BBox ℚ) (r : FRay ℚ) : Option Bool :=
  match mk (codeConfig 4 false) id [b] with
  | .ok bvh => resOf (bvh.intersect oneFirst r 1)
  | .error _ => none

/-- **C38 is violated** for a direction with a `-0.0` component (as produced by negating a vector):
a box around the ray, hit at parameter 1 in `[0, inf)`, is missed. -/
theorem C38_negative_zero_false :
    let b := boxAt 0 1
    let r := mkRay ⟨0, 0, -1⟩ ⟨⟨0, true⟩, ⟨0, false⟩, ⟨1, false⟩⟩ (.fin 0) .pinf
    Mem (V3.rayAt r.o (rayDir r) 1) b ∧ runOne b r = some false ∧
    runOne b { r with d := ⟨⟨0, false⟩, ⟨0, false⟩, ⟨1, false⟩⟩ } = some true := by
  refine ⟨?_, by decide +kernel, by decide +kernel⟩
  simp [Mem, V3.rayAt, rayDir, mkRay, boxAt]

/-- **C38 is violated** for a hit exactly at the ray's upper limit on a flat box: a brute-force test
accepts `t = maxt`, the box test requires `tmin < maxt`. -/
theorem C38_hit_at_maxt_false :
    let b : BBox ℚ := ⟨⟨-1, -1, 0⟩, ⟨1, 1, 0⟩⟩
    let r := mkRay ⟨0, 0, -1⟩ ⟨⟨0, false⟩, ⟨0, false⟩, ⟨1, false⟩⟩ (.fin 0) (.fin 1)
    Mem (V3.rayAt r.o (rayDir r) 1) b ∧ hitP oneFirst r.maxt b = true ∧ runOne b r = some false := by
  refine ⟨?_, by decide +kernel, by decide +kernel⟩
  simp [Mem, V3.rayAt, rayDir, mkRay]

/-- **C38 is violated** for a ray parallel to the x planes whose origin lies on an x face: `0 * inf`
is NaN and the x slab then rejects; the same situation in y is accepted. -/
theorem C38_origin_on_x_face_false :
    let b := boxAt 0 1
    let r := mkRay ⟨1, 0, -1⟩ ⟨⟨0, false⟩, ⟨0, false⟩, ⟨1, false⟩⟩ (.fin 0) .pinf
    Mem (V3.rayAt r.o (rayDir r) 1) b ∧ runOne b r = some false ∧
    runOne b { r with o := ⟨0, 1, -1⟩ } = some true := by
  refine ⟨?_, by decide +kernel, by decide +kernel⟩
  simp [Mem, V3.rayAt, rayDir, mkRay, boxAt]

/-- non-vacuity of the hypotheses of C38: three primitives, an oblique ray with a `+0.0` component -/
example : ∃ (prims : List (BBox ℚ)) (first : BBox ℚ → Option ℚ) (r : FRay ℚ),
    prims.length = 3 ∧ (∀ p ∈ prims, Contract id first r p) ∧ RayFine id prims r ∧
    (∃ p ∈ prims, ∃ s, first p = some s) := by
  refine ⟨[boxAt 0 1, boxAt 4 1, boxAt 8 1],
    fun b => if b = boxAt 4 1 then some 4 else none,
    mkRay ⟨0, 0, 0⟩ ⟨⟨1, false⟩, ⟨0, false⟩, ⟨1/8, false⟩⟩ (.fin 0) .pinf, rfl, ?_, ?_, ?_⟩
  · intro p hp s hs
    simp only [Option.ite_none_right_eq_some, Option.some.injEq] at hs
    obtain ⟨rfl, rfl⟩ := hs
    refine ⟨by simp [mkRay, F.lt], ?_⟩
    simp [Mem, V3.rayAt, rayDir, mkRay, boxAt]; norm_num
  · intro p hp
    simp [RayOk, mkRay]
  · exact ⟨boxAt 4 1, by simp, 4, by simp⟩

end Witness
end Verif.BVH
