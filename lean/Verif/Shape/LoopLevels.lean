import Verif.Shape.LoopWalk
import Mathlib.Tactic.Ring
import Mathlib.Data.Fin.VecNotation
import Mathlib.Data.Fintype.Sum
import Mathlib.Data.Fintype.Prod

/-!
# Loop subdivision: the flags and the topology of every level

`LoopSubdiv.refine` does not recompute `boundary` and `regular` for the vertices of the next
level: children inherit them, edge vertices get `regular = True` and `boundary` from the edge
(`pytracer/shape/loopsubdiv.py:300-304, 335-339`).  Here these flags are compared with the ones
the constructor computes by walking around the vertex (231-247).
-/

namespace Verif.Loop

variable {V F : Type*} [DecidableEq V] [DecidableEq F]

/-- The `regular` flag as a function of `boundary` and the valence (`loopsubdiv.py:242-247`). -/
def regularFlag (b : Bool) (n : ℕ) : Bool :=
  if !b && n == 6 then true else if b && n == 4 then true else false

/-- The two flags the constructor stores for a vertex (`loopsubdiv.py:233-247`):
`(boundary, regular)`. -/
def ctorFlags (m : Mesh V F) (fuel : ℕ) (x : V) (start : F) : Option (Bool × Bool) :=
  (boundaryFlag m fuel x start).bind fun b =>
    (valence m fuel b x start).map fun n => (b, regularFlag b n)

/-- The `startFace` of an even child (`loopsubdiv.py:354-356`):
`vv.startFace.children[v_num]` with `v_num = vv.startFace.vnum(vv)`. -/
def childStart (m : Mesh V F) (x : V) (a : F) : Child F := .corner a ((vnum m a x).getD 0)

/-- Specification: the meshes the subdivision is meant for. -/
structure Manifold (m : Mesh V F) : Prop where
  wf : WF m
  oriented : Oriented m
  umbrella : ∀ x, Umbrella m x

section even
omit [DecidableEq F]
variable {m : Mesh V F} {x : V}

theorem childStart_of (hw : WF m) {a : F} {k : Fin 3} (h : m.v a k = x) :
    childStart m x a = .corner a k := by
  simp [childStart, (vnum_eq m a (hw.corners a) x k).2 h]

theorem on_even (hw : WF m) (c : Child F) :
    On (refine m) (.even x) c ↔ ∃ a, On m x a ∧ c = childStart m x a := by
  constructor
  · rintro ⟨l, hl⟩
    cases c with
    | mid a => exact absurd hl (by simp [refine])
    | corner a k =>
      obtain ⟨e0, e1, e2⟩ := refine_v_corner (m := m) a k
      rcases fin3_cases l k with rfl | rfl | rfl
      · rw [e0] at hl
        have h := Vert.even.inj hl
        exact ⟨a, ⟨l, h⟩, (childStart_of hw h).symm⟩
      · rw [e1] at hl; exact absurd hl (by simp)
      · rw [e2] at hl; exact absurd hl (by simp)
  · rintro ⟨a, ⟨k, hk⟩, rfl⟩
    rw [childStart_of hw hk]
    exact ⟨k, by rw [(refine_v_corner a k).1, hk]⟩

theorem nx_even (hw : WF m) {a : F} (ha : On m x a) :
    nx (refine m) (.even x) (childStart m x a) = (nx m x a).map (childStart m x) := by
  obtain ⟨k, hk⟩ := ha
  have hw' := C89_refine_wellformed hw
  have hv : (refine m).v (.corner a k) k = .even x := by rw [(refine_v_corner a k).1, hk]
  rw [childStart_of hw hk, nx, nextFace_of hw' hv, nx, nextFace_of hw hk, Option.join_some,
    Option.join_some, f_outer a k k (Or.inl rfl), hk]
  rfl

theorem walk_even (hw : WF m) (ho : Oriented m) {o : Option F} (hO : ∀ a, o = some a → On m x a)
    (n : ℕ) : walk (nx (refine m) (.even x)) n (o.map (childStart m x)) =
      (walk (nx m x) n o).map (childStart m x) := by
  induction n generalizing o with
  | zero => rfl
  | succ n ih =>
    rw [walk, walk]
    cases o with
    | none => simp [walk_none]
    | some a =>
      simp only [Option.map_some, Option.bind_some]
      rw [nx_even hw (hO a rfl)]
      exact ih (fun b hb => nx_on hw ho (hO a rfl) hb)

theorem childStart_inj {a b : F} (h : childStart m x a = childStart m x b) : a = b := by
  simp only [childStart, Child.corner.injEq] at h
  exact h.1

theorem degree_even [Fintype F] [Fintype (Child F)] (hw : WF m) :
    degree (refine m) (.even x) = degree m x := by
  classical
  unfold degree
  refine Finset.card_bij' (i := fun c _ => match c with | .corner a _ => a | .mid a => a)
    (j := fun a _ => childStart m x a) ?_ ?_ ?_ ?_
  · intro c hc
    simp only [Finset.mem_filter, Finset.mem_univ, true_and] at hc ⊢
    obtain ⟨a, ha, rfl⟩ := (on_even hw c).1 hc
    exact ha
  · intro a ha
    simp only [Finset.mem_filter, Finset.mem_univ, true_and] at ha ⊢
    exact (on_even hw _).2 ⟨a, ha, rfl⟩
  · intro c hc
    simp only [Finset.mem_filter, Finset.mem_univ, true_and] at hc
    obtain ⟨a, ha, rfl⟩ := (on_even hw c).1 hc
    rfl
  · intro a ha; rfl

theorem adj_even (hw : WF m) {a b : F} (h : AdjAt m x a b) :
    AdjAt (refine m) (.even x) (childStart m x a) (childStart m x b) := by
  obtain ⟨k, j, hm, hx⟩ := h
  have hxb : x ∈ edge m.v (b, j) := hm.2 ▸ hx
  rw [edge_mk, Sym2.mem_iff] at hx hxb
  obtain ⟨i, hi, hia⟩ : ∃ i, (i = k ∨ i = NEXT k) ∧ m.v a i = x := by
    rcases hx with e | e
    · exact ⟨k, Or.inl rfl, e.symm⟩
    · exact ⟨NEXT k, Or.inr rfl, e.symm⟩
  obtain ⟨i', hi', hib⟩ : ∃ i, (i = j ∨ i = NEXT j) ∧ m.v b i = x := by
    rcases hxb with e | e
    · exact ⟨j, Or.inl rfl, e.symm⟩
    · exact ⟨NEXT j, Or.inr rfl, e.symm⟩
  rw [childStart_of hw hia, childStart_of hw hib]
  refine ⟨k, j, ⟨?_, ?_⟩, ?_⟩
  · intro e
    simp only [Prod.mk.injEq, Child.corner.injEq] at e
    exact hm.1 (by rw [e.1.1, e.2])
  · rw [key_outer b i' j hi', key_outer a i k hi, hib, hia, hm.2]
  · rw [key_outer a i k hi, hia]; exact Sym2.mem_mk_left _ _

theorem umbrella_even (hw : WF m) (hu : Umbrella m x) : Umbrella (refine m) (.even x) := by
  intro c d hc hd
  obtain ⟨a, ha, rfl⟩ := (on_even hw c).1 hc
  obtain ⟨b, hb, rfl⟩ := (on_even hw d).1 hd
  have := hu a b ha hb
  clear ha hb hc hd
  induction this with
  | refl => exact Relation.ReflTransGen.refl
  | tail _ h ih => exact ih.tail (adj_even hw h)

end even

section odd
omit [DecidableEq F]
variable {m : Mesh V F}

theorem on_odd (hw : WF m) (e : Sym2 V) (c : Child F) :
    On (refine m) (.odd e) c ↔ ∃ a k, edge m.v (a, k) = e ∧
      (c = .mid a ∨ c = .corner a k ∨ c = .corner a (NEXT k)) := by
  constructor
  · rintro ⟨l, hl⟩
    cases c with
    | mid a => exact ⟨a, l, Vert.odd.inj hl, Or.inl rfl⟩
    | corner a k =>
      obtain ⟨e0, e1, e2⟩ := refine_v_corner (m := m) a k
      rcases fin3_cases l k with rfl | rfl | rfl
      · rw [e0] at hl; exact absurd hl (by simp)
      · rw [e1] at hl; exact ⟨a, k, Vert.odd.inj hl, Or.inr (Or.inl rfl)⟩
      · rw [e2] at hl
        exact ⟨a, NEXT (NEXT k), Vert.odd.inj hl, Or.inr (Or.inr (by rw [fin3_cycle]))⟩
  · rintro ⟨a, k, rfl, rfl | rfl | rfl⟩
    · exact ⟨k, rfl⟩
    · exact ⟨NEXT k, (refine_v_corner a k).2.1⟩
    · refine ⟨k, ?_⟩
      have := (refine_v_corner (m := m) a (NEXT k)).2.2
      rwa [fin3_cycle] at this

theorem nx_mid (hw : WF m) (a : F) (k : Fin 3) :
    nx (refine m) (.odd (edge m.v (a, k))) (.mid a) = some (.corner a (NEXT k)) := by
  have h : (refine m).v (.mid a) k = .odd (edge m.v (a, k)) := rfl
  rw [nx, nextFace_of (C89_refine_wellformed hw) h]; rfl

theorem nx_before (hw : WF m) (a : F) (k : Fin 3) :
    nx (refine m) (.odd (edge m.v (a, k))) (.corner a k) = some (.mid a) := by
  rw [nx, nextFace_of (C89_refine_wellformed hw) (refine_v_corner a k).2.1]
  simp [refine]

theorem nx_after (hw : WF m) (ho : Oriented m) (a : F) (k : Fin 3) :
    nx (refine m) (.odd (edge m.v (a, k))) (.corner a (NEXT k)) =
      (m.f a k).map fun g => .corner g ((vnum m g (m.v a (NEXT k))).getD 0) := by
  have h := (refine_v_corner (m := m) a (NEXT k)).2.2
  rw [fin3_cycle] at h
  rw [nx, nextFace_of (C89_refine_wellformed hw) h, Option.join_some,
    f_outer a (NEXT k) k (Or.inr rfl)]

/-- Crossing an edge: the mate and its position. -/
theorem mate_of (hw : WF m) (ho : Oriented m) {a g : F} {k : Fin 3} (h : m.f a k = some g) :
    ∃ j, Mate m.v (g, j) (a, k) ∧ m.f g j = some a ∧ g ≠ a ∧
      vnum m g (m.v a (NEXT k)) = some j ∧ vnum m a (m.v g (NEXT j)) = some k := by
  obtain ⟨j, hm⟩ := (hw.linked a k g).1 h
  obtain ⟨o1, o2⟩ := ho a k g j hm
  refine ⟨j, hm, (hw.linked g j a).2 ⟨k, fun e => hm.1 e.symm, hm.2.symm⟩, ?_, ?_, ?_⟩
  · rintro rfl
    have := edge_inj (hw.corners g) hm.2
    exact hm.1 (by rw [this])
  · exact (vnum_eq m g (hw.corners g) _ _).2 o1
  · exact (vnum_eq m a (hw.corners a) _ _).2 o2.symm

theorem walk_odd_open (hw : WF m) (ho : Oriented m) {a : F} {k : Fin 3} (h : m.f a k = none) :
    walk (nx (refine m) (.odd (edge m.v (a, k)))) 2 (some (.mid a)) = none := by
  simp only [walk, Option.bind_some]
  rw [nx_mid hw, Option.bind_some, nx_after hw ho, h]; rfl

theorem walk_odd_closed (hw : WF m) (ho : Oriented m) {a g : F} {k : Fin 3}
    (h : m.f a k = some g) :
    walk (nx (refine m) (.odd (edge m.v (a, k)))) 6 (some (.mid a)) = some (.mid a) := by
  obtain ⟨j, hm, hg, -, hv1, hv2⟩ := mate_of hw ho h
  simp only [walk, Option.bind_some]
  rw [nx_mid hw, Option.bind_some, nx_after hw ho, h, Option.map_some, Option.bind_some, hv1,
    Option.getD_some, ← hm.2, nx_before hw, Option.bind_some, nx_mid hw, Option.bind_some,
    nx_after hw ho, hg, Option.map_some, Option.bind_some, hv2, Option.getD_some, hm.2,
    nx_before hw]

theorem adj_odd_mid (hw : WF m) {e : Sym2 V} {a : F} {k : Fin 3} (he : edge m.v (a, k) = e)
    {c : Child F} (hc : c = .mid a ∨ c = .corner a k ∨ c = .corner a (NEXT k)) :
    Relation.ReflTransGen (AdjAt (refine m) (.odd e)) c (.mid a) ∧
    Relation.ReflTransGen (AdjAt (refine m) (.odd e)) (.mid a) c := by
  subst he
  have i1 := key_i1 m a k
  have i2 := key_i2 m a k
  have hk : NEXT (NEXT (NEXT k)) = k := fin3_cycle k
  have j1 := key_i1 m a (NEXT (NEXT k))
  have j2 := key_i2 m a (NEXT (NEXT k))
  rw [hk] at j1 j2
  rcases hc with rfl | rfl | rfl
  · exact ⟨.refl, .refl⟩
  · constructor
    · refine Relation.ReflTransGen.single ⟨NEXT k, NEXT (NEXT k), ⟨by simp, ?_⟩, ?_⟩
      · rw [j1, j2]
      · rw [j2]; exact Sym2.mem_mk_right _ _
    · refine Relation.ReflTransGen.single ⟨NEXT (NEXT k), NEXT k, ⟨by simp, ?_⟩, ?_⟩
      · rw [j1, j2]
      · rw [j1]; exact Sym2.mem_mk_right _ _
  · constructor
    · refine Relation.ReflTransGen.single ⟨NEXT (NEXT k), k, ⟨by simp, ?_⟩, ?_⟩
      · rw [i1, i2]
      · rw [i2]; exact Sym2.mem_mk_left _ _
    · refine Relation.ReflTransGen.single ⟨k, NEXT (NEXT k), ⟨by simp, ?_⟩, ?_⟩
      · rw [i1, i2]
      · rw [i1]; exact Sym2.mem_mk_left _ _

theorem adj_odd_across (hw : WF m) (ho : Oriented m) {a b : F} {k j : Fin 3}
    (hm : Mate m.v (b, j) (a, k)) :
    AdjAt (refine m) (.odd (edge m.v (a, k))) (.corner a k) (.corner b (NEXT j)) := by
  obtain ⟨o1, o2⟩ := ho a k b j hm
  refine ⟨k, j, ⟨?_, ?_⟩, ?_⟩
  · intro e
    simp only [Prod.mk.injEq, Child.corner.injEq] at e
    exact hm.1 (by rw [e.1.1, e.2])
  · rw [key_outer b (NEXT j) j (Or.inr rfl), key_outer a k k (Or.inl rfl), o2, hm.2]
  · rw [key_outer a k k (Or.inl rfl)]; exact Sym2.mem_mk_right _ _

theorem umbrella_odd (hw : WF m) (ho : Oriented m) (e : Sym2 V) :
    Umbrella (refine m) (.odd e) := by
  intro c d hc hd
  obtain ⟨a, k, he, hc⟩ := (on_odd hw e c).1 hc
  obtain ⟨b, j, he', hd⟩ := (on_odd hw e d).1 hd
  refine (adj_odd_mid hw he hc).1.trans (Relation.ReflTransGen.trans ?_ (adj_odd_mid hw he' hd).2)
  by_cases hab : (b, j) = (a, k)
  · simp only [Prod.mk.injEq] at hab; rw [hab.1]
  · have hm : Mate m.v (b, j) (a, k) := ⟨hab, he'.trans he.symm⟩
    have h := adj_odd_across hw ho hm
    rw [he] at h
    exact ((adj_odd_mid hw he (c := .corner a k) (by simp)).2.tail h).trans
      (adj_odd_mid hw he' (c := .corner b (NEXT j)) (by simp)).1

end odd

/-- C89: refinement turns a manifold mesh into a manifold mesh. -/
theorem C89_refine_manifold {m : Mesh V F} (h : Manifold m) : Manifold (refine m) where
  wf := C89_refine_wellformed h.wf
  oriented := C89_refine_oriented h.wf h.oriented
  umbrella := fun x => match x with
    | .even x => umbrella_even h.wf (h.umbrella x)
    | .odd e => umbrella_odd h.wf h.oriented e

/-- The child faces of a mesh, as corner children and middle children. -/
def childEquiv (F : Type*) : Child F ≃ (F × Fin 3) ⊕ F where
  toFun := fun c => match c with
    | .corner a k => Sum.inl (a, k)
    | .mid a => Sum.inr a
  invFun := fun c => match c with
    | .inl (a, k) => .corner a k
    | .inr a => .mid a
  left_inv := fun c => by cases c <;> rfl
  right_inv := fun c => by rcases c with ⟨a, k⟩ | a <;> rfl

instance [Fintype F] : Fintype (Child F) := Fintype.ofEquiv _ (childEquiv F).symm

section flags
variable [Fintype F] {m : Mesh V F}

omit [DecidableEq F] in
/-- C89: every level has four times the faces of the one before. -/
theorem C89_four_faces : Fintype.card (Child F) = 4 * Fintype.card F := by
  rw [Fintype.card_congr (childEquiv F)]
  simp only [Fintype.card_sum, Fintype.card_prod, Fintype.card_fin]
  omega

omit [DecidableEq F] in
theorem degree_eq_card {x : V} (s : Finset F) (h : ∀ a, On m x a ↔ a ∈ s) :
    degree m x = s.card := by
  classical
  unfold degree
  congr 1
  ext a
  simp [h a]

theorem degree_odd_open (hw : WF m) {a : F} {k : Fin 3} (h : m.f a k = none) :
    degree (refine m) (.odd (edge m.v (a, k))) = 3 := by
  rw [degree_eq_card {Child.mid a, .corner a k, .corner a (NEXT k)}]
  · have : k ≠ NEXT k := fun e => fin3_next k e.symm
    rw [Finset.card_insert_of_notMem (by simp), Finset.card_insert_of_notMem (by simp [this]),
      Finset.card_singleton]
  · intro c
    rw [on_odd hw]
    simp only [Finset.mem_insert, Finset.mem_singleton]
    constructor
    · rintro ⟨b, j, he, hc⟩
      by_cases hab : (b, j) = (a, k)
      · simp only [Prod.mk.injEq] at hab
        obtain ⟨rfl, rfl⟩ := hab
        exact hc
      · rw [(hw.linked a k b).2 ⟨j, hab, he⟩] at h
        exact absurd h (by simp)
    · intro hc
      exact ⟨a, k, rfl, hc⟩

theorem degree_odd_closed (hw : WF m) (ho : Oriented m) {a g : F} {k : Fin 3}
    (h : m.f a k = some g) : degree (refine m) (.odd (edge m.v (a, k))) = 6 := by
  obtain ⟨j, hm, hg, hga, -, -⟩ := mate_of hw ho h
  rw [degree_eq_card {Child.mid a, .corner a k, .corner a (NEXT k), .mid g, .corner g j,
    .corner g (NEXT j)}]
  · have h1 : k ≠ NEXT k := fun e => fin3_next k e.symm
    have h2 : j ≠ NEXT j := fun e => fin3_next j e.symm
    have h3 : a ≠ g := fun e => hga e.symm
    rw [Finset.card_insert_of_notMem (by simp [h3]),
      Finset.card_insert_of_notMem (by simp [h1, h3]),
      Finset.card_insert_of_notMem (by simp [h3]),
      Finset.card_insert_of_notMem (by simp),
      Finset.card_insert_of_notMem (by simp [h2]), Finset.card_singleton]
  · intro c
    rw [on_odd hw]
    simp only [Finset.mem_insert, Finset.mem_singleton]
    constructor
    · rintro ⟨b, i, he, hc⟩
      have := hw.two (a, k) (g, j) (b, i) hm.2.symm he.symm
      rcases this with e | e | e
      · exact absurd e.symm hm.1
      · simp only [Prod.mk.injEq] at e
        obtain ⟨rfl, rfl⟩ := e
        tauto
      · simp only [Prod.mk.injEq] at e
        obtain ⟨rfl, rfl⟩ := e
        tauto
    · intro hc
      rcases hc with hc | hc | hc | hc | hc | hc
      · exact ⟨a, k, rfl, Or.inl hc⟩
      · exact ⟨a, k, rfl, Or.inr (Or.inl hc)⟩
      · exact ⟨a, k, rfl, Or.inr (Or.inr hc)⟩
      · exact ⟨g, j, hm.2, Or.inl hc⟩
      · exact ⟨g, j, hm.2, Or.inr (Or.inl hc)⟩
      · exact ⟨g, j, hm.2, Or.inr (Or.inr hc)⟩

/-- C93: the flags an old vertex's child inherits (`loopsubdiv.py:302-303`) are the flags the
constructor would compute for it on the refined mesh, and it keeps its valence. -/
theorem C93_even_flags (h : Manifold m) {x : V} {a : F} (hx : On m x a) (fuel fuel' : ℕ)
    (hf : Fintype.card F ≤ fuel) (hf' : Fintype.card (Child F) ≤ fuel') :
    ctorFlags (refine m) fuel' (.even x) (childStart m x a) = ctorFlags m fuel x a ∧
      ∃ b n, ctorFlags m fuel x a = some (b, regularFlag b n) ∧
        valence m fuel b x a = some n ∧
        valence (refine m) fuel' b (.even x) (childStart m x a) = some n := by
  have h' := C89_refine_manifold h
  have hx' : On (refine m) (.even x) (childStart m x a) := (on_even h.wf _).2 ⟨a, hx, rfl⟩
  obtain ⟨b, hb, hbi⟩ := C90_boundary_search_terminates h.wf h.oriented hx fuel hf
  obtain ⟨b', hb', hbi'⟩ := C90_boundary_search_terminates h'.wf h'.oriented hx' fuel' hf'
  have hbb : b' = b := by
    rw [Bool.eq_iff_iff, hbi, hbi']
    have hk : ∀ n, walk (nx (refine m) (.even x)) n (some (childStart m x a)) = none ↔
        walk (nx m x) n (some a) = none := by
      intro n
      have := walk_even h.wf h.oriented (o := some a) (x := x)
        (fun c hc => Option.some.inj hc ▸ hx) n
      simp only [Option.map_some] at this
      rw [this, Option.map_eq_none_iff]
    simp only [hk]
  subst hbb
  have v1 := C91_valence_counts_edges h.wf h.oriented (h.umbrella x) hx fuel hf b' hb
  have v2 := C91_valence_counts_edges h'.wf h'.oriented (h'.umbrella _) hx' fuel' hf' b' hb'
  rw [degree_even h.wf] at v2
  constructor
  · simp only [ctorFlags, hb, hb', Option.bind_some, v1, v2]
  · refine ⟨b', _, ?_, v1, v2⟩
    simp only [ctorFlags, hb, Option.bind_some, v1, Option.map_some]

/-- C93: the flags `refine` gives a new edge vertex (`loopsubdiv.py:337-338`: `regular = True`,
`boundary` exactly on open edges) are the flags the constructor would compute for it. -/
theorem C93_odd_flags (h : Manifold m) (a : F) (k : Fin 3) (fuel : ℕ)
    (hf : Fintype.card (Child F) ≤ fuel) :
    ctorFlags (refine m) fuel (.odd (edge m.v (a, k))) (.mid a) =
      some ((m.f a k).isNone, true) := by
  have h' := C89_refine_manifold h
  have hx : On (refine m) (.odd (edge m.v (a, k))) (.mid a) := ⟨k, rfl⟩
  obtain ⟨b, hb, hbi⟩ := C90_boundary_search_terminates h'.wf h'.oriented hx fuel hf
  have v := C91_valence_counts_edges h'.wf h'.oriented (h'.umbrella _) hx fuel hf b hb
  cases hc : m.f a k with
  | none =>
    have hbt : b = true := hbi.2 ⟨2, walk_odd_open h.wf h.oriented hc⟩
    subst hbt
    rw [degree_odd_open h.wf hc] at v
    simp only [ctorFlags, hb, Option.bind_some, v]; rfl
  | some g =>
    have hbf : b = false := by
      cases b with
      | false => rfl
      | true =>
        obtain ⟨n, hn⟩ := hbi.1 rfl
        exact absurd hn (walk_no_end (by omega) (walk_odd_closed h.wf h.oriented hc) n)
    subst hbf
    rw [degree_odd_closed h.wf h.oriented hc] at v
    simp only [ctorFlags, hb, Option.bind_some, v]; rfl

end flags

/-! ## All levels -/

/-- Vertices after `n` rounds of the level loop (`loopsubdiv.py:296-384`). -/
def LV (V : Type) : ℕ → Type
  | 0 => V
  | n + 1 => Vert (LV V n)
/-- Faces after `n` rounds. -/
def LF (F : Type) : ℕ → Type
  | 0 => F
  | n + 1 => Child (LF F n)

instance instDecLV (V : Type) [DecidableEq V] : (n : ℕ) → DecidableEq (LV V n)
  | 0 => inferInstanceAs (DecidableEq V)
  | n + 1 => haveI := instDecLV V n; inferInstanceAs (DecidableEq (Vert (LV V n)))
instance instDecLF (F : Type) [DecidableEq F] : (n : ℕ) → DecidableEq (LF F n)
  | 0 => inferInstanceAs (DecidableEq F)
  | n + 1 => haveI := instDecLF F n; inferInstanceAs (DecidableEq (Child (LF F n)))
instance instFinLF (F : Type) [Fintype F] : (n : ℕ) → Fintype (LF F n)
  | 0 => inferInstanceAs (Fintype F)
  | n + 1 => haveI := instFinLF F n; inferInstanceAs (Fintype (Child (LF F n)))

/-- The mesh after `n` levels (`for i in range(self.nLevels)`, `loopsubdiv.py:296-384`). -/
def levels {V F : Type} [DecidableEq V] [DecidableEq F] (m : Mesh V F) :
    (n : ℕ) → Mesh (LV V n) (LF F n)
  | 0 => m
  | n + 1 => refine (levels m n)

/-- C89: after any number of levels the mesh is a manifold mesh with `4 ^ n` times the faces. -/
theorem C89_all_levels {V F : Type} [DecidableEq V] [DecidableEq F] [Fintype F] (m : Mesh V F)
    (h : Manifold m) (n : ℕ) :
    Manifold (levels m n) ∧ Fintype.card (LF F n) = 4 ^ n * Fintype.card F := by
  induction n with
  | zero => exact ⟨h, by simp [LF, instFinLF]; rfl⟩
  | succ n ih =>
    refine ⟨C89_refine_manifold ih.1, ?_⟩
    have : Fintype.card (LF F (n + 1)) = 4 * Fintype.card (LF F n) := C89_four_faces
    rw [this, ih.2, pow_succ]; ring

/-! ## The constructor's start faces, and concrete meshes -/

/-- `startFace` of a vertex after `loopsubdiv.py:204-210`: the last face listing the vertex
(every face overwrites the reference). -/
def startFace (v : F → Fin 3 → V) (faces : List F) (x : V) : Option F :=
  faces.foldl (fun acc a => if v a 0 = x ∨ v a 1 = x ∨ v a 2 = x then some a else acc) none

omit [DecidableEq F] in
theorem startFace_on (m : Mesh V F) (faces : List F) (x : V) (a : F)
    (h : startFace m.v faces x = some a) : On m x a ∧ a ∈ faces := by
  unfold startFace at h
  have key : ∀ (l : List F) (acc : Option F),
      l.foldl (fun acc a => if m.v a 0 = x ∨ m.v a 1 = x ∨ m.v a 2 = x then some a else acc)
        acc = some a → (On m x a ∧ a ∈ l) ∨ acc = some a := by
    intro l
    induction l with
    | nil => intro acc h; exact Or.inr h
    | cons b t ih =>
      intro acc h
      rcases ih _ h with h' | h'
      · exact Or.inl ⟨h'.1, by simp [h'.2]⟩
      · simp only at h'
        split_ifs at h' with hc
        · have : b = a := Option.some.inj h'
          subst this
          refine Or.inl ⟨?_, by simp⟩
          rcases hc with e | e | e
          · exact ⟨0, e⟩
          · exact ⟨1, e⟩
          · exact ⟨2, e⟩
        · exact Or.inr h'
  rcases key faces none h with h' | h'
  · exact h'
  · exact absurd h' (by simp)

/-- A triangle fan around vertex 0 whose middle triangle is listed the wrong way round. -/
def flippedFan : Fin 3 → Fin 3 → Fin 5 :=
  fun a => match a with
    | 0 => ![0, 2, 1]
    | 1 => ![0, 2, 3]
    | 2 => ![0, 1, 4]

/-- C90: consistent orientation is needed: for a mesh of three triangles around a vertex, one of
them listed the wrong way round, the constructor never returns — the search started at the last
face of the vertex goes on for ever between the two other faces. -/
theorem C90_flipped_face_hangs :
    (∀ a, Function.Injective (flippedFan a)) ∧ AtMostTwo flippedFan ∧
    startFace flippedFan [0, 1, 2] 0 = some 2 ∧
    ∀ fuel, boundaryFlag (link flippedFan [0, 1, 2]) fuel 0 2 = none := by
  have h2' : AtMostTwo flippedFan := by unfold AtMostTwo edge; decide
  refine ⟨by decide, h2', by decide, ?_⟩
  intro fuel
  have hl := C88_neighbours_linked flippedFan [0, 1, 2] (by decide) (by decide) h2'
  have hnf : ∀ a b, (∃ j, Mate flippedFan (b, j) (a, 0)) →
      nextFace (link flippedFan [0, 1, 2]) a 0 = some (some b) := by
    intro a b hm
    have hv : ∀ a, vnum (Mesh.mk flippedFan fun _ _ => none) a 0 = some 0 := by decide
    have hv' : vnum (link flippedFan [0, 1, 2]) a 0 = some 0 := hv a
    rw [nextFace, hv', Option.map_some, (hl a 0 b).2 hm]
  have h2 := hnf 2 0 (by unfold Mate edge; decide)
  have h0 := hnf 0 1 (by unfold Mate edge; decide)
  have h1 := hnf 1 0 (by unfold Mate edge; decide)
  have key : ∀ n, findEnd (link flippedFan [0, 1, 2]) 0 2 n (some 0) = none ∧
      findEnd (link flippedFan [0, 1, 2]) 0 2 n (some 1) = none := by
    intro n
    induction n with
    | zero => exact ⟨by simp [findEnd], by simp [findEnd]⟩
    | succ n ih =>
      constructor
      · rw [findEnd, if_neg (by decide), h0, Option.bind_some, ih.2]
      · rw [findEnd, if_neg (by decide), h1, Option.bind_some, ih.1]
  rw [boundaryFlag, h2, Option.bind_some, (key fuel).1]; rfl

/-- A tetrahedron, consistently oriented. -/
def tetra : Fin 4 → Fin 3 → Fin 4 :=
  fun a => match a with
    | 0 => ![0, 1, 2]
    | 1 => ![0, 2, 3]
    | 2 => ![0, 3, 1]
    | 3 => ![3, 2, 1]

/-- The hypotheses above are met: the constructor's mesh for a tetrahedron is a manifold mesh. -/
theorem tetra_manifold : Manifold (link tetra [0, 1, 2, 3]) := by
  have h2 : AtMostTwo tetra := by unfold AtMostTwo edge; decide +kernel
  have hw : WF (link tetra [0, 1, 2, 3]) := by
    refine ⟨?_, ?_, h2, C88_neighbours_linked tetra _ (by decide) (by decide) h2⟩
    · show ∀ a, Function.Injective (tetra a); decide
    · show ∀ a b, (∀ k, ∃ j, tetra b j = tetra a k) → a = b; decide
  refine ⟨hw, ?_, ?_⟩
  · show ∀ a k b j, ((b, j) ≠ (a, k) ∧ edge tetra (b, j) = edge tetra (a, k)) →
      tetra b j = tetra a (NEXT k) ∧ tetra b (NEXT j) = tetra a k
    unfold edge; decide
  · intro x a b ha hb
    by_cases hab : a = b
    · rw [hab]
    · refine Relation.ReflTransGen.single ?_
      have key : ∀ (x : Fin 4) (a b : Fin 4), (∃ k, tetra a k = x) → (∃ k, tetra b k = x) →
          a ≠ b → ∃ k j, ((b, j) ≠ (a, k) ∧ edge tetra (b, j) = edge tetra (a, k)) ∧
            (x = tetra a k ∨ x = tetra a (NEXT k)) := by
        unfold edge; decide
      obtain ⟨k, j, hm, hx⟩ := key x a b ha hb hab
      exact ⟨k, j, hm, Sym2.mem_iff.2 hx⟩

end Verif.Loop
