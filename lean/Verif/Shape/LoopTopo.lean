import Mathlib.Data.Sym.Sym2
import Mathlib.Data.Fintype.Basic
import Mathlib.Data.List.FinRange
import Mathlib.Tactic.Linarith
import Mathlib.Tactic.FinCases

/-!
# Loop subdivision: the face/vertex connectivity

Models the linking of neighbouring faces in `LoopSubdiv.__init__` and the topological part of
`LoopSubdiv.refine` (`pytracer/shape/loopsubdiv.py:79-247, 297-384`).

Vertices and faces are object identities in the code (`__eq__`, `__hash__`, `__lt__` compare
`id`), so the model takes arbitrary types `V` and `F` of identities with decidable equality.
-/

namespace Verif.Loop

variable {V F : Type*}

/-- `NEXT(i) = (i + 1) % 3` (`pytracer/shape/__init__.py:28-29`). -/
abbrev NEXT (k : Fin 3) : Fin 3 := k + 1
/-- `PREV(i) = (i + 2) % 3` (`pytracer/shape/__init__.py:32-33`). -/
abbrev PREV (k : Fin 3) : Fin 3 := k + 2

/-- The references held by all `SDFace` objects (`loopsubdiv.py:137-140`): `v a k` is
`a.v[k]` and `f a k` is `a.f[k]` (`none` is Python's `None`).  `children` is modelled by the
face type of the refined mesh, see `refine`. -/
structure Mesh (V F : Type*) where
  v : F → Fin 3 → V
  f : F → Fin 3 → Option F

/-- The key of an `SDEdge` (`loopsubdiv.py:176-193`): the constructor orders the two ends by
`id`, and equality and hash look at the ordered pair, so keys are equal exactly when the
unordered pairs of ends are. -/
def edge (v : F → Fin 3 → V) (h : F × Fin 3) : Sym2 V := s(v h.1 h.2, v h.1 (NEXT h.2))

/-! ## The constructor's neighbour links -/

/-- The state of the loop at `loopsubdiv.py:213-229`: the dictionary `edges`, which maps an edge
key to the half edge (`e.f[0]`, `e.f0edge_num`) that created it, and the `f` references. -/
structure LinkState (V F : Type*) where
  edges : Sym2 V → Option (F × Fin 3)
  f : F → Fin 3 → Option F

/-- One iteration (`loopsubdiv.py:217-229`) for face `h.1` and `edge_num = h.2`. -/
def linkStep [DecidableEq V] [DecidableEq F] (v : F → Fin 3 → V) (s : LinkState V F) (h : F × Fin 3) : LinkState V F :=
  match s.edges (edge v h) with
  | some g =>
    { edges := Function.update s.edges (edge v h) none
      f := fun a k =>
        if (a, k) = h then some g.1
        else if (a, k) = g then some h.1
        else s.f a k }
  | none =>
    { edges := Function.update s.edges (edge v h) (some h)
      f := s.f }

/-- `faces × range(3)` in the order of the loops at `loopsubdiv.py:214-216`. -/
def halfEdges (faces : List F) : List (F × Fin 3) :=
  faces.flatMap fun a => [(a, 0), (a, 1), (a, 2)]

/-- The whole linking loop (`loopsubdiv.py:213-229`), all `f` references being `None` before
(`SDFace.__init__`, line 139). -/
def link [DecidableEq V] [DecidableEq F] (v : F → Fin 3 → V) (faces : List F) : Mesh V F :=
  { v := v
    f := ((halfEdges faces).foldl (linkStep v) ⟨fun _ => none, fun _ _ => none⟩).f }

/-- Specification: two half edges are mates when they are different and have the same pair
of end points. -/
def Mate (v : F → Fin 3 → V) (g h : F × Fin 3) : Prop := g ≠ h ∧ edge v g = edge v h

/-- Specification: no edge belongs to more than two half edges ("by assumption, each edge
appears at most twice"). -/
def AtMostTwo (v : F → Fin 3 → V) : Prop :=
  ∀ h₁ h₂ h₃, edge v h₁ = edge v h₂ → edge v h₁ = edge v h₃ → h₁ = h₂ ∨ h₁ = h₃ ∨ h₂ = h₃

/-- Specification: `a.f[k]` is the face on the other side of edge `k`, `None` on the boundary. -/
def Linked (m : Mesh V F) : Prop :=
  ∀ a k b, m.f a k = some b ↔ ∃ j, Mate m.v (b, j) (a, k)

theorem mem_halfEdges (faces : List F) (h : F × Fin 3) :
    h ∈ halfEdges faces ↔ h.1 ∈ faces := by
  obtain ⟨a, k⟩ := h
  simp only [halfEdges, List.mem_flatMap]
  constructor
  · rintro ⟨b, hb, hk⟩
    simp only [List.mem_cons, Prod.mk.injEq, List.not_mem_nil, or_false] at hk
    rcases hk with ⟨rfl, _⟩ | ⟨rfl, _⟩ | ⟨rfl, _⟩ <;> exact hb
  · intro ha
    refine ⟨a, ha, ?_⟩
    fin_cases k <;> simp

theorem nodup_halfEdges (faces : List F) (hn : faces.Nodup) : (halfEdges faces).Nodup := by
  unfold halfEdges
  rw [List.nodup_flatMap]
  refine ⟨fun a _ => by simp, ?_⟩
  refine List.Pairwise.imp ?_ hn
  intro a b hab x hx hy
  simp only [List.mem_cons, List.not_mem_nil, or_false] at hx hy
  apply hab
  rcases hx with rfl | rfl | rfl <;> rcases hy with h | h | h <;> exact (Prod.mk.inj h).1

/-- Loop invariant of the linking loop after the half edges `ps`. -/
def LinkInv (v : F → Fin 3 → V) (ps : List (F × Fin 3)) (s : LinkState V F) : Prop :=
  (∀ e g, s.edges e = some g ↔ g ∈ ps ∧ edge v g = e ∧ ∀ h ∈ ps, edge v h = e → h = g) ∧
  (∀ a k b, s.f a k = some b ↔ (a, k) ∈ ps ∧ ∃ j, (b, j) ∈ ps ∧ Mate v (b, j) (a, k))

section linking
variable [DecidableEq V] [DecidableEq F]

theorem linkStep_inv (v : F → Fin 3 → V) (h2 : AtMostTwo v) (ps : List (F × Fin 3))
    (s : LinkState V F) (hs : LinkInv v ps s) (h : F × Fin 3) (hh : h ∉ ps) :
    LinkInv v (ps ++ [h]) (linkStep v s h) := by
  obtain ⟨hd, hf⟩ := hs
  unfold linkStep
  cases hc : s.edges (edge v h) with
  | some g =>
    have hg := (hd _ _).1 hc
    obtain ⟨hgp, hge, hgu⟩ := hg
    have hgh : g ≠ h := fun e => hh (e ▸ hgp)
    constructor
    · intro e g'
      by_cases he : e = edge v h
      · subst he
        simp only [Function.update_self]
        constructor
        · intro hx; exact absurd hx (by simp)
        · rintro ⟨hg', he', hu⟩
          exfalso
          have e1 := hu g (by simp [hgp]) hge
          have e2 := hu h (by simp) rfl
          exact hgh (e1.trans e2.symm)
      · simp only [Function.update_of_ne he]
        rw [hd]
        constructor
        · rintro ⟨a1, a2, a3⟩
          refine ⟨by simp [a1], a2, ?_⟩
          intro x hx hxe
          rcases List.mem_append.1 hx with hx | hx
          · exact a3 x hx hxe
          · have : x = h := by simpa using hx
            exact absurd (by rw [← hxe, this]) he
        · rintro ⟨a1, a2, a3⟩
          refine ⟨?_, a2, fun x hx => a3 x (by simp [hx])⟩
          rcases List.mem_append.1 a1 with hx | hx
          · exact hx
          · have : g' = h := by simpa using hx
            exact absurd (by rw [← a2, this]) he
    · intro a k b
      by_cases h1 : (a, k) = h
      · simp only [h1, if_true]
        constructor
        · intro hx
          have hb : g.1 = b := by simpa using hx
          refine ⟨by simp, g.2, ?_, ?_, ?_⟩
          · rw [← hb]; simp [hgp]
          · rw [← hb]; exact hgh
          · rw [← hb]; exact hge
        · rintro ⟨_, j, hj, hne, hee⟩
          have : (b, j) ∈ ps := by
            rcases List.mem_append.1 hj with hx | hx
            · exact hx
            · exact absurd (by simpa using hx) hne
          have := hgu _ this hee
          rw [← this]
      · by_cases h3 : (a, k) = g
        · simp only [if_false, h3, if_true, hgh]
          constructor
          · intro hx
            have hb : h.1 = b := by simpa using hx
            refine ⟨by simp [hgp], h.2, ?_, ?_, ?_⟩
            · rw [← hb]; simp
            · rw [← hb]; exact fun e => hgh e.symm
            · rw [← hb]; exact hge.symm
          · rintro ⟨_, j, hj, hne, hee⟩
            rcases List.mem_append.1 hj with hx | hx
            · exact absurd (hgu _ hx (hee.trans hge)) hne
            · have : (b, j) = h := by simpa using hx
              rw [← this]
        · simp only [h1, h3, if_false]
          rw [hf]
          constructor
          · rintro ⟨a1, j, a2, a3⟩
            exact ⟨by simp [a1], j, by simp [a2], a3⟩
          · rintro ⟨a1, j, a2, hne, hee⟩
            have m1 : (a, k) ∈ ps := by
              rcases List.mem_append.1 a1 with hx | hx
              · exact hx
              · exact absurd (by simpa using hx) h1
            refine ⟨m1, j, ?_, hne, hee⟩
            rcases List.mem_append.1 a2 with hx | hx
            · exact hx
            · have hj : (b, j) = h := by simpa using hx
              exfalso
              have := h2 (a, k) g h (by rw [← hee, hj, hge]) (by rw [← hee, hj])
              rcases this with e | e | e
              · exact h3 e
              · exact h1 e
              · exact hgh e
  | none =>
    have hno : ∀ g ∈ ps, edge v g = edge v h → ∃ g' ∈ ps, edge v g' = edge v h ∧ g' ≠ g := by
      intro g hg hge
      by_contra hcon
      push Not at hcon
      have : s.edges (edge v h) = some g := (hd _ _).2 ⟨hg, hge, fun x hx hxe => hcon x hx hxe⟩
      rw [hc] at this; exact absurd this (by simp)
    have hno' : ∀ g ∈ ps, edge v g ≠ edge v h := by
      intro g hg hge
      obtain ⟨g', hg', hge', hne⟩ := hno g hg hge
      rcases h2 h g g' hge.symm hge'.symm with e | e | e
      · exact hh (e ▸ hg)
      · exact hh (e ▸ hg')
      · exact hne e.symm
    constructor
    · intro e g'
      by_cases he : e = edge v h
      · subst he
        simp only [Function.update_self]
        constructor
        · intro hx
          have : h = g' := by simpa using hx
          subst this
          refine ⟨by simp, rfl, ?_⟩
          intro x hx hxe
          rcases List.mem_append.1 hx with hx | hx
          · exact absurd hxe (hno' x hx)
          · simpa using hx
        · rintro ⟨a1, a2, a3⟩
          rw [a3 h (by simp) rfl]
      · simp only [Function.update_of_ne he]
        rw [hd]
        constructor
        · rintro ⟨a1, a2, a3⟩
          refine ⟨by simp [a1], a2, ?_⟩
          intro x hx hxe
          rcases List.mem_append.1 hx with hx | hx
          · exact a3 x hx hxe
          · have : x = h := by simpa using hx
            exact absurd (by rw [← hxe, this]) he
        · rintro ⟨a1, a2, a3⟩
          refine ⟨?_, a2, fun x hx => a3 x (by simp [hx])⟩
          rcases List.mem_append.1 a1 with hx | hx
          · exact hx
          · have : g' = h := by simpa using hx
            exact absurd (by rw [← a2, this]) he
    · intro a k b
      simp only
      rw [hf]
      constructor
      · rintro ⟨a1, j, a2, a3⟩
        exact ⟨by simp [a1], j, by simp [a2], a3⟩
      · rintro ⟨a1, j, a2, hne, hee⟩
        rcases List.mem_append.1 a1 with hx | hx
        · refine ⟨hx, j, ?_, hne, hee⟩
          rcases List.mem_append.1 a2 with hy | hy
          · exact hy
          · have hj : (b, j) = h := by simpa using hy
            exact absurd (by rw [← hee, hj]) (hno' _ hx)
        · have hk : (a, k) = h := by simpa using hx
          rcases List.mem_append.1 a2 with hy | hy
          · exact absurd (by rw [hee, hk]) (hno' _ hy)
          · have hj : (b, j) = h := by simpa using hy
            exact absurd (hj.trans hk.symm) hne

theorem link_inv (v : F → Fin 3 → V) (h2 : AtMostTwo v) (hs ps : List (F × Fin 3))
    (s : LinkState V F) (hi : LinkInv v ps s) (hn : (ps ++ hs).Nodup) :
    LinkInv v (ps ++ hs) (hs.foldl (linkStep v) s) := by
  induction hs generalizing ps s with
  | nil => simpa using hi
  | cons h t ih =>
    have hh : h ∉ ps := by
      intro hx
      have := List.disjoint_of_nodup_append hn
      exact this hx (by simp)
    have := ih (ps ++ [h]) (linkStep v s h) (linkStep_inv v h2 ps s hi h hh) (by simpa using hn)
    simpa using this

/-- C88: whenever no edge is used by more than two triangle sides, the constructor links the two
triangles of every shared edge to each other and leaves `None` exactly at the open edges. -/
theorem C88_neighbours_linked (v : F → Fin 3 → V) (faces : List F) (hn : faces.Nodup)
    (hall : ∀ a, a ∈ faces) (h2 : AtMostTwo v) : Linked (link v faces) := by
  have h0 : LinkInv v [] ⟨fun _ => none, fun _ _ => none⟩ := by
    constructor <;> simp
  have := link_inv v h2 (halfEdges faces) [] _ h0 (by simpa using nodup_halfEdges faces hn)
  intro a k b
  have hk := this.2 a k b
  simp only [List.nil_append] at hk
  show ((halfEdges faces).foldl (linkStep v) _).f a k = some b ↔ _
  rw [hk]
  simp [mem_halfEdges, hall, link]

/-- C88: the neighbour relation the constructor builds is symmetric. -/
theorem C88_neighbours_symmetric (v : F → Fin 3 → V) (faces : List F) (hn : faces.Nodup)
    (hall : ∀ a, a ∈ faces) (h2 : AtMostTwo v) (a b : F) (k : Fin 3)
    (hab : (link v faces).f a k = some b) :
    ∃ j, (link v faces).f b j = some a ∧ edge v (b, j) = edge v (a, k) := by
  have hl := C88_neighbours_linked v faces hn hall h2
  obtain ⟨j, hne, he⟩ := (hl a k b).1 hab
  exact ⟨j, (hl b j a).2 ⟨k, fun e => hne e.symm, he.symm⟩, he⟩

/-- C88: the result does not depend on the order in which the triangles are listed. -/
theorem C88_face_order_irrelevant (v : F → Fin 3 → V) (l₁ l₂ : List F) (n₁ : l₁.Nodup)
    (n₂ : l₂.Nodup) (a₁ : ∀ a, a ∈ l₁) (a₂ : ∀ a, a ∈ l₂) (h2 : AtMostTwo v) :
    link v l₁ = link v l₂ := by
  have e1 := C88_neighbours_linked v l₁ n₁ a₁ h2
  have e2 := C88_neighbours_linked v l₂ n₂ a₂ h2
  have : (link v l₁).f = (link v l₂).f := by
    funext a k
    apply Option.ext
    intro b
    exact (e1 a k b).trans (e2 a k b).symm
  show Mesh.mk v _ = Mesh.mk v _
  exact congrArg (Mesh.mk v) this

end linking

/-! ## Well-formed meshes -/

/-- Specification: a mesh the subdivision can work on.  Corners of a face differ, no two faces
have the same three corners, an edge has at most two sides and neighbour links are right. -/
structure WF (m : Mesh V F) : Prop where
  corners : ∀ a, Function.Injective (m.v a)
  faces : ∀ a b, (∀ k, ∃ j, m.v b j = m.v a k) → a = b
  two : AtMostTwo m.v
  linked : Linked m

/-- Specification: neighbouring faces run along their common edge in opposite directions. -/
def Oriented (m : Mesh V F) : Prop :=
  ∀ a k b j, Mate m.v (b, j) (a, k) → m.v b j = m.v a (NEXT k) ∧ m.v b (NEXT j) = m.v a k

section navigation
variable [DecidableEq V]

/-- `SDFace.vnum` (`loopsubdiv.py:145-149`); `none` is the `RuntimeError`. -/
def vnum (m : Mesh V F) (a : F) (x : V) : Option (Fin 3) :=
  if m.v a 0 = x then some 0 else if m.v a 1 = x then some 1
  else if m.v a 2 = x then some 2 else none

/-- `SDFace.next_face` (`loopsubdiv.py:151-152`): the outer `none` is the `RuntimeError`. -/
def nextFace (m : Mesh V F) (a : F) (x : V) : Option (Option F) :=
  (vnum m a x).map fun k => m.f a k
/-- `SDFace.prev_face` (`loopsubdiv.py:154-155`). -/
def prevFace (m : Mesh V F) (a : F) (x : V) : Option (Option F) :=
  (vnum m a x).map fun k => m.f a (PREV k)
/-- `SDFace.next_vert` (`loopsubdiv.py:157-158`). -/
def nextVert (m : Mesh V F) (a : F) (x : V) : Option V :=
  (vnum m a x).map fun k => m.v a (NEXT k)
/-- `SDFace.prev_vert` (`loopsubdiv.py:160-161`). -/
def prevVert (m : Mesh V F) (a : F) (x : V) : Option V :=
  (vnum m a x).map fun k => m.v a (PREV k)
/-- `SDFace.other_vert` (`loopsubdiv.py:163-167`); `none` is the `RuntimeError`. -/
def otherVert (m : Mesh V F) (a : F) (x y : V) : Option V :=
  if m.v a 0 ≠ x ∧ m.v a 0 ≠ y then some (m.v a 0)
  else if m.v a 1 ≠ x ∧ m.v a 1 ≠ y then some (m.v a 1)
  else if m.v a 2 ≠ x ∧ m.v a 2 ≠ y then some (m.v a 2) else none

theorem vnum_eq (m : Mesh V F) (a : F) (hc : Function.Injective (m.v a)) (x : V) (k : Fin 3) :
    vnum m a x = some k ↔ m.v a k = x := by
  have h01 : m.v a 0 ≠ m.v a 1 := fun e => by simpa using hc e
  have h02 : m.v a 0 ≠ m.v a 2 := fun e => by simpa using hc e
  have h12 : m.v a 1 ≠ m.v a 2 := fun e => by simpa using hc e
  unfold vnum
  split_ifs with h0 h1 h2'
  · subst h0; fin_cases k <;> simp [h01.symm, h02.symm]
  · subst h1; fin_cases k <;> simp [h01, h12.symm]
  · subst h2'; fin_cases k <;> simp [h02, h12]
  · fin_cases k <;> simp [h0, h1, h2']

/-- `other_vert` returns the third corner. -/
theorem otherVert_eq (m : Mesh V F) (a : F) (hc : Function.Injective (m.v a)) (k : Fin 3)
    (x y : V) (h : s(x, y) = edge m.v (a, k)) : otherVert m a x y = some (m.v a (PREV k)) := by
  have h01 : m.v a 0 ≠ m.v a 1 := fun e => by simpa using hc e
  have h02 : m.v a 0 ≠ m.v a 2 := fun e => by simpa using hc e
  have h12 : m.v a 1 ≠ m.v a 2 := fun e => by simpa using hc e
  rcases Sym2.eq_iff.1 h with ⟨rfl, rfl⟩ | ⟨rfl, rfl⟩ <;> unfold otherVert <;>
    fin_cases k <;> simp [NEXT, PREV, h01, h02, h12, h01.symm, h02.symm, h12.symm]

end navigation

/-! ## One level of refinement -/

/-- The identity of a vertex of the next level (`loopsubdiv.py:300-304, 333-349`): the child of
an old ("even") vertex, or the new ("odd") vertex stored in `edge_verts` under an edge key. -/
inductive Vert (V : Type*) where
  | even (x : V)
  | odd (e : Sym2 V)
deriving DecidableEq

/-- The faces of the next level are `a.children[0..3]` (`loopsubdiv.py:306-309`):
`corner a k` is `a.children[k]` for `k < 3` and `mid a` is `a.children[3]`. -/
inductive Child (F : Type*) where
  | corner (a : F) (k : Fin 3)
  | mid (a : F)
deriving DecidableEq

/-- References of the next level after `loopsubdiv.py:351-380`.  Every slot is written once:
`children[3].f[k]` (362), `children[k].f[NEXT(k)]` (363), `children[k].f[k]` (366-367),
`children[k].f[PREV(k)]` (368-369), `children[k].v[k]` (375), `children[k].v[NEXT(k)]` (378),
`children[NEXT(k)].v[k]` (379) — the slot `PREV` of the child — and `children[3].v[k]` (380).
`vnum` raising `RuntimeError` is modelled by falling back to child 0; `C89_vnum_safe` shows it
does not happen on a well-formed mesh. -/
def refine [DecidableEq V] (m : Mesh V F) : Mesh (Vert V) (Child F) where
  v := fun c j =>
    match c with
    | .mid a => .odd (edge m.v (a, j))
    | .corner a k =>
      if j = k then .even (m.v a k)
      else if j = NEXT k then .odd (edge m.v (a, k))
      else .odd (edge m.v (a, PREV k))
  f := fun c j =>
    match c with
    | .mid a => some (.corner a (NEXT j))
    | .corner a k =>
      if j = NEXT k then some (.mid a)
      else if j = k then
        (m.f a k).map fun g => .corner g ((vnum m g (m.v a k)).getD 0)
      else
        (m.f a (PREV k)).map fun g => .corner g ((vnum m g (m.v a k)).getD 0)

theorem fin3_swap : ∀ j k : Fin 3, j = NEXT k → NEXT j = k → False := by decide
theorem fin3_cases : ∀ i k : Fin 3, i = k ∨ i = NEXT k ∨ i = NEXT (NEXT k) := by decide
theorem fin3_next : ∀ k : Fin 3, NEXT k ≠ k := by decide
theorem fin3_next2 : ∀ k : Fin 3, NEXT (NEXT k) ≠ k := by decide
theorem fin3_prev : ∀ k : Fin 3, PREV k = NEXT (NEXT k) := by decide
theorem fin3_cycle : ∀ k : Fin 3, NEXT (NEXT (NEXT k)) = k := by decide

section lemmas

theorem edge_mk (v : F → Fin 3 → V) (a : F) (k : Fin 3) :
    edge v (a, k) = s(v a k, v a (NEXT k)) := rfl

/-- the edges of a face differ. -/
theorem edge_inj {v : F → Fin 3 → V} {a : F} (hc : Function.Injective (v a)) {j k : Fin 3}
    (h : edge v (a, j) = edge v (a, k)) : j = k := by
  rw [edge_mk, edge_mk] at h
  rcases Sym2.eq_iff.1 h with ⟨h1, _⟩ | ⟨h1, h2⟩
  · exact hc h1
  · have e1 := hc h1; have e2 := hc h2
    exact (fin3_swap _ _ e1 e2).elim

/-- Faces sharing two edges are the same face. -/
theorem two_edges {m : Mesh V F} (hw : WF m) {a b : F} {k j j' : Fin 3}
    (h1 : edge m.v (a, k) = edge m.v (b, j))
    (h2 : edge m.v (a, NEXT k) = edge m.v (b, j')) : a = b := by
  apply hw.faces
  rw [edge_mk, edge_mk] at h1 h2
  have m1 : m.v a k ∈ s(m.v b j, m.v b (NEXT j)) := h1 ▸ Sym2.mem_mk_left _ _
  have m2 : m.v a (NEXT k) ∈ s(m.v b j, m.v b (NEXT j)) := h1 ▸ Sym2.mem_mk_right _ _
  have m3 : m.v a (NEXT (NEXT k)) ∈ s(m.v b j', m.v b (NEXT j')) := h2 ▸ Sym2.mem_mk_right _ _
  rw [Sym2.mem_iff] at m1 m2 m3
  intro i
  rcases fin3_cases i k with rfl | rfl | rfl
  · rcases m1 with e | e <;> exact ⟨_, e.symm⟩
  · rcases m2 with e | e <;> exact ⟨_, e.symm⟩
  · rcases m3 with e | e <;> exact ⟨_, e.symm⟩

/-- Every half edge of the refined mesh has one of four forms. -/
theorem child_half (h : Child F × Fin 3) : ∃ a k,
    h = (.corner a k, k) ∨ h = (.corner a (NEXT k), k) ∨
    h = (.mid a, k) ∨ h = (.corner a (NEXT k), NEXT (NEXT k)) := by
  obtain ⟨c, j⟩ := h
  cases c with
  | mid a => exact ⟨a, j, by simp⟩
  | corner a k =>
    have : j = k ∨ k = NEXT j ∨ j = NEXT k := by revert j k; decide
    rcases this with rfl | rfl | rfl
    · exact ⟨a, j, by simp⟩
    · exact ⟨a, j, by simp⟩
    · refine ⟨a, PREV k, Or.inr (Or.inr (Or.inr ?_))⟩
      have e1 : NEXT (PREV k) = k := by revert k; decide
      rw [e1]

theorem inj3 {W : Type*} (g : Fin 3 → W) (k : Fin 3) (h1 : g k ≠ g (NEXT k))
    (h2 : g k ≠ g (NEXT (NEXT k))) (h3 : g (NEXT k) ≠ g (NEXT (NEXT k))) :
    Function.Injective g := by
  intro i j h
  rcases fin3_cases i k with e | e | e <;> rcases fin3_cases j k with e' | e' | e' <;>
    rw [e, e'] at h <;>
    first
      | exact e.trans e'.symm
      | exact absurd h h1 | exact absurd h h2 | exact absurd h h3
      | exact absurd h.symm h1 | exact absurd h.symm h2 | exact absurd h.symm h3

section keys
variable [DecidableEq V] (m : Mesh V F)

theorem key_o1 (a : F) (k : Fin 3) :
    edge (refine m).v (.corner a k, k) = s(.even (m.v a k), .odd (edge m.v (a, k))) := by
  fin_cases k <;> rfl

theorem key_o2 (a : F) (k : Fin 3) : edge (refine m).v (.corner a (NEXT k), k) =
    s(.even (m.v a (NEXT k)), .odd (edge m.v (a, k))) := by
  rw [Sym2.eq_swap]; fin_cases k <;> rfl

theorem key_i1 (a : F) (k : Fin 3) : edge (refine m).v (.mid a, k) =
    s(.odd (edge m.v (a, k)), .odd (edge m.v (a, NEXT k))) := rfl

theorem key_i2 (a : F) (k : Fin 3) : edge (refine m).v (.corner a (NEXT k), NEXT (NEXT k)) =
    s(.odd (edge m.v (a, k)), .odd (edge m.v (a, NEXT k))) := by
  rw [Sym2.eq_swap]; fin_cases k <;> rfl

variable {m}

theorem outer_key_iff (x y : V) (e e' : Sym2 V) :
    (s(Vert.even x, Vert.odd e) : Sym2 (Vert V)) = s(.even y, .odd e') ↔ x = y ∧ e = e' := by
  simp [Sym2.eq_iff]

theorem outer_ne_inner (x : V) (e e' e'' : Sym2 V) :
    (s(Vert.even x, Vert.odd e) : Sym2 (Vert V)) ≠ s(.odd e', .odd e'') := by
  simp [Sym2.eq_iff]

theorem inner_key {a b : F} {k j : Fin 3} (hw : WF m)
    (h : (s(Vert.odd (edge m.v (a, k)), Vert.odd (edge m.v (a, NEXT k))) : Sym2 (Vert V)) =
      s(.odd (edge m.v (b, j)), .odd (edge m.v (b, NEXT j)))) : a = b ∧ k = j := by
  simp only [Sym2.eq_iff, Vert.odd.injEq] at h
  have hab : a = b := by
    rcases h with ⟨h1, h2⟩ | ⟨h1, h2⟩ <;> exact two_edges hw h1 h2
  subst hab
  refine ⟨rfl, ?_⟩
  rcases h with ⟨h1, h2⟩ | ⟨h1, h2⟩
  · exact edge_inj (hw.corners a) h1
  · exact (fin3_swap _ _ (edge_inj (hw.corners a) h1) (edge_inj (hw.corners a) h2)).elim

/-- Half edges of the refined mesh with a given key: the two sides of an inner edge. -/
theorem inner_mates (hw : WF m) (a : F) (k : Fin 3) (h : Child F × Fin 3)
    (hk : edge (refine m).v h =
      s(.odd (edge m.v (a, k)), .odd (edge m.v (a, NEXT k)))) :
    h = (.mid a, k) ∨ h = (.corner a (NEXT k), NEXT (NEXT k)) := by
  obtain ⟨b, j, rfl | rfl | rfl | rfl⟩ := child_half h
  · rw [key_o1] at hk; exact (outer_ne_inner _ _ _ _ hk).elim
  · rw [key_o2] at hk; exact (outer_ne_inner _ _ _ _ hk).elim
  · rw [key_i1] at hk; obtain ⟨rfl, rfl⟩ := inner_key hw hk; exact Or.inl rfl
  · rw [key_i2] at hk; obtain ⟨rfl, rfl⟩ := inner_key hw hk; exact Or.inr rfl

/-- Half edges of the refined mesh with a given key: the halves of an old edge. -/
theorem outer_mates (x : V) (e : Sym2 V) (h : Child F × Fin 3)
    (hk : edge (refine m).v h = s(.even x, .odd e)) :
    ∃ b j i, h = (.corner b i, j) ∧ edge m.v (b, j) = e ∧ m.v b i = x ∧ (i = j ∨ i = NEXT j) := by
  obtain ⟨b, j, rfl | rfl | rfl | rfl⟩ := child_half h
  · rw [key_o1, outer_key_iff] at hk; exact ⟨b, j, j, rfl, hk.2, hk.1, Or.inl rfl⟩
  · rw [key_o2, outer_key_iff] at hk; exact ⟨b, j, NEXT j, rfl, hk.2, hk.1, Or.inr rfl⟩
  · rw [key_i1] at hk; exact (outer_ne_inner _ _ _ _ hk.symm).elim
  · rw [key_i2] at hk; exact (outer_ne_inner _ _ _ _ hk.symm).elim

theorem key_outer (b : F) (i j : Fin 3) (hi : i = j ∨ i = NEXT j) :
    edge (refine m).v (.corner b i, j) = s(.even (m.v b i), .odd (edge m.v (b, j))) := by
  rcases hi with rfl | rfl
  · exact key_o1 m b i
  · exact key_o2 m b j

/-- Refinement keeps every edge at no more than two sides. -/
theorem refine_two (hw : WF m) : AtMostTwo (refine m).v := by
  intro h₁ h₂ h₃ e12 e13
  obtain ⟨a, k, hh⟩ := child_half h₁
  have inner : edge (refine m).v h₁ = s(.odd (edge m.v (a, k)), .odd (edge m.v (a, NEXT k))) →
      h₁ = h₂ ∨ h₁ = h₃ ∨ h₂ = h₃ := by
    intro hk
    have c1 := inner_mates hw a k h₁ hk
    have c2 := inner_mates hw a k h₂ (e12 ▸ hk)
    have c3 := inner_mates hw a k h₃ (e13 ▸ hk)
    rcases c1 with c1 | c1 <;> rcases c2 with c2 | c2 <;> rcases c3 with c3 | c3 <;>
      simp [c1, c2, c3]
  have outer : ∀ x e, edge (refine m).v h₁ = s(.even x, .odd e) →
      h₁ = h₂ ∨ h₁ = h₃ ∨ h₂ = h₃ := by
    intro x e hk
    obtain ⟨b₁, j₁, i₁, rfl, p₁, q₁, -⟩ := outer_mates x e h₁ hk
    obtain ⟨b₂, j₂, i₂, rfl, p₂, q₂, -⟩ := outer_mates x e h₂ (e12 ▸ hk)
    obtain ⟨b₃, j₃, i₃, rfl, p₃, q₃, -⟩ := outer_mates x e h₃ (e13 ▸ hk)
    have := hw.two (b₁, j₁) (b₂, j₂) (b₃, j₃) (p₁.trans p₂.symm) (p₁.trans p₃.symm)
    simp only [Prod.mk.injEq] at this
    rcases this with ⟨rfl, rfl⟩ | ⟨rfl, rfl⟩ | ⟨rfl, rfl⟩
    · have := hw.corners _ (q₁.trans q₂.symm); subst this; exact Or.inl rfl
    · have := hw.corners _ (q₁.trans q₃.symm); subst this; exact Or.inr (Or.inl rfl)
    · have := hw.corners _ (q₂.trans q₃.symm); subst this; exact Or.inr (Or.inr rfl)
  rcases hh with rfl | rfl | rfl | rfl
  · exact outer _ _ (key_o1 m a k)
  · exact outer _ _ (key_o2 m a k)
  · exact inner (key_i1 m a k)
  · exact inner (key_i2 m a k)

theorem f_i2 (a : F) (k : Fin 3) :
    (refine m).f (.corner a (NEXT k)) (NEXT (NEXT k)) = some (.mid a) := by
  simp [refine]

theorem f_outer (a : F) (i j : Fin 3) (hi : i = j ∨ i = NEXT j) :
    (refine m).f (.corner a i) j =
      (m.f a j).map fun g => .corner g ((vnum m g (m.v a i)).getD 0) := by
  rcases hi with rfl | rfl
  · simp only [refine]
    rw [if_neg (fun e => fin3_next _ e.symm)]; simp only [if_true]
  · simp only [refine]
    rw [if_neg (fun e => fin3_next2 _ e.symm), if_neg (fun e => fin3_next _ e.symm),
      fin3_prev, fin3_cycle]

/-- An end of an edge is a corner of the face, at one of the edge's two positions. -/
theorem end_corner {b : F} {j : Fin 3} {a : F} {i k : Fin 3} (hi : i = k ∨ i = NEXT k)
    (h : edge m.v (b, j) = edge m.v (a, k)) :
    ∃ l, (l = j ∨ l = NEXT j) ∧ m.v b l = m.v a i := by
  rw [edge_mk, edge_mk] at h
  rcases Sym2.eq_iff.1 h with ⟨h1, h2⟩ | ⟨h1, h2⟩ <;> rcases hi with rfl | rfl
  · exact ⟨j, Or.inl rfl, h1⟩
  · exact ⟨NEXT j, Or.inr rfl, h2⟩
  · exact ⟨NEXT j, Or.inr rfl, h2⟩
  · exact ⟨j, Or.inl rfl, h1⟩

theorem refine_linked (hw : WF m) : Linked (refine m) := by
  intro c l b
  have outer : ∀ a i j, (i = j ∨ i = NEXT j) → ((refine m).f (.corner a i) j = some b ↔
      ∃ l', Mate (refine m).v (b, l') (.corner a i, j)) := by
    intro a i j hi
    rw [f_outer a i j hi]
    constructor
    · intro h
      obtain ⟨g, hg, hb⟩ := Option.map_eq_some_iff.1 h
      obtain ⟨j', hne, he⟩ := (hw.linked a j g).1 hg
      obtain ⟨l', hl', hv⟩ := end_corner hi he
      have hn : vnum m g (m.v a i) = some l' := (vnum_eq m g (hw.corners g) _ _).2 hv
      rw [hn] at hb
      simp only [Option.getD_some] at hb
      subst hb
      refine ⟨j', ?_, ?_⟩
      · intro e
        simp only [Prod.mk.injEq, Child.corner.injEq] at e
        exact hne (by rw [e.1.1, e.2])
      · rw [key_outer g l' j' hl', key_outer a i j hi, hv, he]
    · rintro ⟨l', hne, he⟩
      rw [key_outer a i j hi] at he
      obtain ⟨g, j', i', hg, p, q, hi'⟩ := outer_mates _ _ _ he
      simp only [Prod.mk.injEq] at hg
      obtain ⟨rfl, rfl⟩ := hg
      have hgn : (g, l') ≠ (a, j) := by
        intro e
        simp only [Prod.mk.injEq] at e
        obtain ⟨rfl, rfl⟩ := e
        have := hw.corners _ q
        subst this
        exact hne rfl
      rw [(hw.linked a j g).2 ⟨l', hgn, p⟩]
      have hn : vnum m g (m.v a i) = some i' := (vnum_eq m g (hw.corners g) _ _).2 q
      simp [hn]
  obtain ⟨a, k, h⟩ := child_half (c, l)
  rcases h with h | h | h | h <;> simp only [Prod.mk.injEq] at h <;> obtain ⟨rfl, rfl⟩ := h
  · exact outer a l l (Or.inl rfl)
  · exact outer a (NEXT l) l (Or.inr rfl)
  · constructor
    · intro h
      have hb : Child.corner a (NEXT l) = b := by simpa [refine] using h
      subst hb
      exact ⟨NEXT (NEXT l), by simp, by rw [key_i2, key_i1]⟩
    · rintro ⟨j, hne, he⟩
      rcases inner_mates hw a l _ (he.trans (key_i1 m a l)) with e | e
      · exact absurd e hne
      · simp only [Prod.mk.injEq] at e; rw [e.1]; rfl
  · rw [f_i2]
    constructor
    · intro h
      have hb : Child.mid a = b := by simpa using h
      subst hb
      exact ⟨k, by simp, by rw [key_i2, key_i1]⟩
    · rintro ⟨j, hne, he⟩
      rcases inner_mates hw a k _ (he.trans (key_i2 m a k)) with e | e
      · simp only [Prod.mk.injEq] at e; rw [e.1]
      · exact absurd e hne

theorem refine_v_corner (a : F) (k : Fin 3) :
    (refine m).v (.corner a k) k = .even (m.v a k) ∧
    (refine m).v (.corner a k) (NEXT k) = .odd (edge m.v (a, k)) ∧
    (refine m).v (.corner a k) (NEXT (NEXT k)) = .odd (edge m.v (a, NEXT (NEXT k))) := by
  fin_cases k <;> exact ⟨rfl, rfl, rfl⟩

theorem refine_corners (hw : WF m) (c : Child F) : Function.Injective ((refine m).v c) := by
  cases c with
  | mid a =>
    intro j k h
    exact edge_inj (hw.corners a) (Vert.odd.inj h)
  | corner a k =>
    obtain ⟨e0, e1, e2⟩ := refine_v_corner (m := m) a k
    have hne : edge m.v (a, k) ≠ edge m.v (a, NEXT (NEXT k)) :=
      fun e => fin3_next2 k (edge_inj (hw.corners a) e).symm
    refine inj3 _ k ?_ ?_ ?_
    · rw [e0, e1]; simp
    · rw [e0, e2]; simp
    · rw [e1, e2]; simpa using hne

theorem refine_faces (hw : WF m) (c d : Child F)
    (h : ∀ k, ∃ j, (refine m).v d j = (refine m).v c k) : c = d := by
  have cornerV : ∀ (b : F) (i j : Fin 3) (w : Vert V), (refine m).v (.corner b i) j = w →
      w = .even (m.v b i) ∨ w = .odd (edge m.v (b, i)) ∨
        w = .odd (edge m.v (b, NEXT (NEXT i))) := by
    intro b i j w hj
    obtain ⟨e0, e1, e2⟩ := refine_v_corner (m := m) b i
    rcases fin3_cases j i with rfl | rfl | rfl
    · rw [e0] at hj; exact Or.inl hj.symm
    · rw [e1] at hj; exact Or.inr (Or.inl hj.symm)
    · rw [e2] at hj; exact Or.inr (Or.inr hj.symm)
  cases c with
  | mid a =>
    cases d with
    | mid b =>
      have h0 := h 0; have h1 := h 1
      obtain ⟨j0, h0⟩ := h0
      obtain ⟨j1, h1⟩ := h1
      have e0 : edge m.v (b, j0) = edge m.v (a, 0) := Vert.odd.inj h0
      have e1 : edge m.v (b, j1) = edge m.v (a, 1) := Vert.odd.inj h1
      rw [two_edges (k := 0) hw e0.symm e1.symm]
    | corner b i =>
      exfalso
      have hx : ∀ k, edge m.v (a, k) = edge m.v (b, i) ∨
          edge m.v (a, k) = edge m.v (b, NEXT (NEXT i)) := by
        intro k
        obtain ⟨j, hj⟩ := h k
        rcases cornerV b i j _ hj with e | e | e
        · exact absurd e (by simp [refine])
        · exact Or.inl (Vert.odd.inj e)
        · exact Or.inr (Vert.odd.inj e)
      have ne : ∀ k l, edge m.v (a, k) = edge m.v (a, l) → k = l :=
        fun k l e => edge_inj (hw.corners a) e
      have n01 : (0 : Fin 3) ≠ 1 := by decide
      have n02 : (0 : Fin 3) ≠ 2 := by decide
      have n12 : (1 : Fin 3) ≠ 2 := by decide
      rcases hx 0 with a0 | a0 <;> rcases hx 1 with a1 | a1 <;> rcases hx 2 with a2 | a2 <;>
        first
          | exact n01 (ne _ _ (a0.trans a1.symm))
          | exact n02 (ne _ _ (a0.trans a2.symm))
          | exact n12 (ne _ _ (a1.trans a2.symm))
  | corner a k =>
    obtain ⟨e0, e1, e2⟩ := refine_v_corner (m := m) a k
    cases d with
    | mid b =>
      exfalso
      obtain ⟨j, hj⟩ := h k
      rw [e0] at hj
      exact absurd hj (by simp [refine])
    | corner b i =>
      obtain ⟨j0, h0⟩ := h k
      obtain ⟨j1, h1⟩ := h (NEXT k)
      obtain ⟨j2, h2⟩ := h (NEXT (NEXT k))
      rw [e0] at h0; rw [e1] at h1; rw [e2] at h2
      have hv : m.v a k = m.v b i := by
        rcases cornerV b i j0 _ h0 with e | e | e
        · exact Vert.even.inj e
        · exact absurd e (by simp)
        · exact absurd e (by simp)
      have g1 : ∃ l, edge m.v (a, k) = edge m.v (b, l) := by
        rcases cornerV b i j1 _ h1 with e | e | e
        · exact absurd e (by simp)
        · exact ⟨_, Vert.odd.inj e⟩
        · exact ⟨_, Vert.odd.inj e⟩
      have g2 : ∃ l, edge m.v (a, NEXT (NEXT k)) = edge m.v (b, l) := by
        rcases cornerV b i j2 _ h2 with e | e | e
        · exact absurd e (by simp)
        · exact ⟨_, Vert.odd.inj e⟩
        · exact ⟨_, Vert.odd.inj e⟩
      obtain ⟨l1, g1⟩ := g1
      obtain ⟨l2, g2⟩ := g2
      have hab : a = b := two_edges (k := NEXT (NEXT k)) hw g2 (by rw [fin3_cycle]; exact g1)
      subst hab
      rw [hw.corners a hv]

/-- C89: one level of refinement turns a well-formed mesh into a well-formed mesh: the links
`refine` writes by hand are exactly the pairs of child faces sharing an edge. -/
theorem C89_refine_wellformed (hw : WF m) : WF (refine m) :=
  ⟨refine_corners hw, refine_faces hw, refine_two hw, refine_linked hw⟩

/-- C89: refinement keeps a consistent orientation. -/
theorem C89_refine_oriented (hw : WF m) (ho : Oriented m) : Oriented (refine m) := by
  intro c l d j hm
  have outer : ∀ a i k, (i = k ∨ i = NEXT k) → (c, l) = (Child.corner a i, k) →
      (refine m).v d j = (refine m).v c (NEXT l) ∧ (refine m).v d (NEXT j) = (refine m).v c l := by
    intro a i k hi hcl
    obtain ⟨hne, he⟩ := hm
    rw [hcl, key_outer a i k hi] at he
    obtain ⟨b, j', i', hd, p, q, hi'⟩ := outer_mates _ _ _ he
    simp only [Prod.mk.injEq] at hd hcl
    obtain ⟨rfl, rfl⟩ := hd
    obtain ⟨rfl, rfl⟩ := hcl
    have hbn : (b, j) ≠ (a, l) := by
      intro e
      simp only [Prod.mk.injEq] at e
      obtain ⟨rfl, rfl⟩ := e
      have := hw.corners _ q
      subst this
      exact hne rfl
    obtain ⟨o1, o2⟩ := ho a l b j ⟨hbn, p⟩
    rcases hi with rfl | rfl <;> rcases hi' with rfl | rfl
    · exfalso
      have := hw.corners a (q.symm.trans o1)
      exact fin3_next _ this.symm
    · obtain ⟨x0, x1, x2⟩ := refine_v_corner (m := m) a i
      obtain ⟨y0, y1, y2⟩ := refine_v_corner (m := m) b (NEXT j)
      rw [fin3_cycle] at y2
      exact ⟨by rw [y2, x1, p], by rw [y0, x0, o2]⟩
    · obtain ⟨x0, x1, x2⟩ := refine_v_corner (m := m) a (NEXT l)
      obtain ⟨y0, y1, y2⟩ := refine_v_corner (m := m) b i'
      rw [fin3_cycle] at x2
      exact ⟨by rw [y0, x0, o1], by rw [y1, x2, p]⟩
    · exfalso
      have := hw.corners a (q.symm.trans o2)
      exact fin3_next _ this
  obtain ⟨a, k, h | h | h | h⟩ := child_half (c, l)
  · exact outer a k k (Or.inl rfl) h
  · exact outer a (NEXT k) k (Or.inr rfl) h
  · rw [h] at hm
    simp only [Prod.mk.injEq] at h
    obtain ⟨rfl, rfl⟩ := h
    obtain ⟨hne, he⟩ := hm
    rcases inner_mates hw a l _ (he.trans (key_i1 m a l)) with e | e
    · exact absurd e hne
    · simp only [Prod.mk.injEq] at e
      obtain ⟨rfl, rfl⟩ := e
      obtain ⟨y0, y1, y2⟩ := refine_v_corner (m := m) a (NEXT l)
      rw [fin3_cycle] at y2
      refine ⟨?_, ?_⟩
      · rw [y1]; rfl
      · rw [fin3_cycle, y2]; rfl
  · rw [h] at hm
    simp only [Prod.mk.injEq] at h
    obtain ⟨rfl, rfl⟩ := h
    obtain ⟨hne, he⟩ := hm
    rcases inner_mates hw a k _ (he.trans (key_i2 m a k)) with e | e
    · simp only [Prod.mk.injEq] at e
      obtain ⟨rfl, rfl⟩ := e
      obtain ⟨y0, y1, y2⟩ := refine_v_corner (m := m) a (NEXT j)
      rw [fin3_cycle] at y2
      refine ⟨?_, ?_⟩
      · rw [fin3_cycle, y2]; rfl
      · rw [y1]; rfl
    · exact absurd e hne

/-- C89: the `vnum` lookups in `refine` (`loopsubdiv.py:367, 369`) never raise: the corner of a
face is a corner of the neighbour across either of the two edges meeting there. -/
theorem C89_vnum_safe (hw : WF m) (a g : F) (i j : Fin 3) (hi : i = j ∨ i = NEXT j)
    (hg : m.f a j = some g) : ∃ l, vnum m g (m.v a i) = some l := by
  obtain ⟨j', -, he⟩ := (hw.linked a j g).1 hg
  obtain ⟨l, -, hv⟩ := end_corner hi he
  exact ⟨l, (vnum_eq m g (hw.corners g) _ _).2 hv⟩

end keys

end lemmas

end Verif.Loop
