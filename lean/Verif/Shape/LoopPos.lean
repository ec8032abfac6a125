import Verif.Shape.LoopLevels
import Verif.Base.V3
import Mathlib.Data.Real.Basic
import Mathlib.Tactic.Positivity
import Mathlib.Tactic.FieldSimp
import Mathlib.Tactic.NormNum

/-!
# Loop subdivision: vertex positions

Models the numerical part of `LoopSubdiv` (`pytracer/shape/loopsubdiv.py:252-276, 297-395`).
Simplification: positions are real numbers, so float64 rounding is not modelled.
-/

namespace Verif.Loop

open V3

/-- `LoopSubdiv.beta` (`loopsubdiv.py:252-257`). -/
noncomputable def beta (n : ℕ) : ℝ := if n = 3 then 0.1875 else 3 / (8 * (n : ℝ))

/-- `LoopSubdiv.gamma` (`loopsubdiv.py:259-261`). -/
noncomputable def gamma (n : ℕ) : ℝ := 1 / ((n : ℝ) + 3 / (8 + beta n))

/-- `LoopSubdiv.weight_one_ring` (`loopsubdiv.py:263-269`); `n` is `vert.valence()`, `ring` the
positions of `vert.one_ring()`, `p` is `vert.P`. -/
noncomputable def weightOneRing (n : ℕ) (ring : List (V3 ℝ)) (b : ℝ) (p : V3 ℝ) : V3 ℝ :=
  ring.foldl (fun acc q => acc + b * q) ((1 - (n : ℝ) * b) * p)

/-- `LoopSubdiv.weight_boundary` (`loopsubdiv.py:271-276`).  `ring[0]` and `ring[-1]` on an empty
list would raise; the ring is never empty (`C92_one_ring_is_the_neighbours`). -/
noncomputable def weightBoundary (ring : List (V3 ℝ)) (b : ℝ) (p : V3 ℝ) : V3 ℝ :=
  (1 - 2 * b) * p + b * (ring.headD 0 + ring.getLastD 0)

/-- The data of one subdivision level: the lists `f` and `v` (`loopsubdiv.py:294-295, 383-384`)
with the attributes of their `SDFace` and `SDVertex` objects (56-65, 137-140). -/
structure SD (V F : Type*) where
  m : Mesh V F
  faces : List F
  verts : List V
  P : V → V3 ℝ
  start : V → Option F
  boundary : V → Bool
  regular : V → Bool

section step
variable {V F : Type*} [DecidableEq V] [DecidableEq F]

/-- The fuel for the walks: the number of faces; enough by `C90`–`C92`. -/
def SD.fuel (S : SD V F) : ℕ := S.faces.length

/-- `vv.valence()`; a walk that does not end or an exception gives the junk value 0 (does not
happen on the meshes of the theorems). -/
def SD.val (S : SD V F) (x : V) : ℕ :=
  ((S.start x).bind (valence S.m S.fuel (S.boundary x) x)).getD 0

/-- The vertices of `vv.one_ring()`; junk value `[]` as for `val`. -/
def SD.ringV (S : SD V F) (x : V) : List V :=
  ((S.start x).bind (oneRing S.m S.fuel (S.boundary x) x)).getD []

/-- `vv.one_ring()`. -/
def SD.ring (S : SD V F) (x : V) : List (V3 ℝ) := (S.ringV x).map S.P

/-- The position of the child of an old vertex (`loopsubdiv.py:313-324`). -/
noncomputable def SD.evenPos (S : SD V F) (x : V) : V3 ℝ :=
  if !S.boundary x then
    if S.regular x then weightOneRing (S.val x) (S.ring x) 0.0625 (S.P x)
    else weightOneRing (S.val x) (S.ring x) (beta (S.val x)) (S.P x)
  else weightBoundary (S.ring x) 0.125 (S.P x)

/-- `self.P` of `other_vert`, 0 standing for the `RuntimeError`. -/
noncomputable def SD.otherP (S : SD V F) (a : F) (x y : V) : V3 ℝ :=
  match otherVert S.m a x y with
  | some z => S.P z
  | none => 0

/-- The position of a new edge vertex made for side `h.2` of face `h.1`
(`loopsubdiv.py:341-348`).  Simplification: the two ends are taken in the order of the face
instead of the order of their `id`; the sum is symmetric. -/
noncomputable def SD.oddPos (S : SD V F) (h : F × Fin 3) : V3 ℝ :=
  let x := S.m.v h.1 h.2
  let y := S.m.v h.1 (NEXT h.2)
  match S.m.f h.1 h.2 with
  | none => (0.5 : ℝ) * S.P x + (0.5 : ℝ) * S.P y
  | some g => (0.375 : ℝ) * S.P x + (0.375 : ℝ) * S.P y + (0.125 : ℝ) * S.otherP h.1 x y +
      (0.125 : ℝ) * S.otherP g x y

/-- The side of a face at which the loop at `loopsubdiv.py:328-349` meets an edge for the first
time; there the edge vertex is made. -/
def SD.firstSide (S : SD V F) (e : Sym2 V) : Option (F × Fin 3) :=
  (halfEdges S.faces).find? fun h => edge S.m.v h = e

/-- One round of the level loop (`loopsubdiv.py:297-384`). -/
noncomputable def SD.step (S : SD V F) : SD (Vert V) (Child F) where
  m := refine S.m
  faces := S.faces.flatMap fun a => [.corner a 0, .corner a 1, .corner a 2, .mid a]
  verts := S.verts.map .even ++ ((halfEdges S.faces).map fun h => .odd (edge S.m.v h)).eraseDups
  P := fun w => match w with
    | .even x => S.evenPos x
    | .odd e => match S.firstSide e with
      | some h => S.oddPos h
      | none => 0
  start := fun w => match w with
    | .even x => (S.start x).map (childStart S.m x)
    | .odd e => (S.firstSide e).map fun h => .mid h.1
  boundary := fun w => match w with
    | .even x => S.boundary x
    | .odd e => match S.firstSide e with
      | some h => (S.m.f h.1 h.2).isNone
      | none => false
  regular := fun w => match w with
    | .even x => S.regular x
    | .odd _ => true

/-- The limit position of a vertex of the last level (`loopsubdiv.py:388-392`). -/
noncomputable def SD.limitPos (S : SD V F) (x : V) : V3 ℝ :=
  if S.boundary x then weightBoundary (S.ring x) 0.2 (S.P x)
  else weightOneRing (S.val x) (S.ring x) (gamma (S.val x)) (S.P x)

/-- The state after the constructor (`loopsubdiv.py:195-247`) for faces `v`, positions `P` and the
vertices `verts`. -/
def SD.init (v : F → Fin 3 → V) (faces : List F) (verts : List V) (P : V → V3 ℝ) : SD V F where
  m := link v faces
  faces := faces
  verts := verts
  P := P
  start := startFace v faces
  boundary := fun x =>
    (((startFace v faces x).bind (ctorFlags (link v faces) faces.length x)).getD (false, false)).1
  regular := fun x =>
    (((startFace v faces x).bind (ctorFlags (link v faces) faces.length x)).getD (false, false)).2

end step

/-! ## Invariant of the level loop -/

section good
variable {V F : Type*} [DecidableEq V] [DecidableEq F]

/-- Specification: a level in a sane state: manifold mesh, every face listed once, every listed
vertex has a start face containing it and the flags a fresh computation would give, and corners
of faces are listed vertices. -/
structure Good (S : SD V F) : Prop where
  manifold : Manifold S.m
  nodup : S.faces.Nodup
  all : ∀ a, a ∈ S.faces
  start : ∀ x ∈ S.verts, ∃ a, S.start x = some a ∧ On S.m x a ∧
    ctorFlags S.m S.fuel x a = some (S.boundary x, S.regular x)
  corners : ∀ a k, S.m.v a k ∈ S.verts

omit [DecidableEq F] in
theorem mem_childFaces (l : List F) (c : Child F) :
    (c ∈ l.flatMap fun a => [Child.corner a 0, .corner a 1, .corner a 2, .mid a]) ↔
      (match c with | .corner a _ => a | .mid a => a) ∈ l := by
  simp only [List.mem_flatMap, List.mem_cons, List.not_mem_nil, or_false]
  cases c with
  | mid a => simp
  | corner a k =>
    constructor
    · rintro ⟨b, hb, h | h | h | h⟩ <;> simp_all
    · intro h
      refine ⟨a, h, ?_⟩
      fin_cases k <;> simp

omit [DecidableEq F] in
theorem nodup_childFaces (l : List F) (hn : l.Nodup) :
    (l.flatMap fun a => [Child.corner a 0, .corner a 1, .corner a 2, .mid a]).Nodup := by
  rw [List.nodup_flatMap]
  refine ⟨fun a _ => by simp, ?_⟩
  refine List.Pairwise.imp ?_ hn
  intro a b hab x hx hy
  simp only [List.mem_cons, List.not_mem_nil, or_false] at hx hy
  apply hab
  rcases hx with rfl | rfl | rfl | rfl <;> rcases hy with h | h | h | h <;> simp_all

omit [DecidableEq F] in
theorem length_childFaces (l : List F) :
    (l.flatMap fun a => [Child.corner a 0, .corner a 1, .corner a 2, .mid a]).length =
      4 * l.length := by
  induction l with
  | nil => rfl
  | cons a t ih => simp only [List.flatMap_cons, List.length_append, ih, List.length_cons,
      List.length_nil]; omega

theorem card_eq_length [Fintype F] (l : List F) (hn : l.Nodup) (ha : ∀ a, a ∈ l) :
    Fintype.card F = l.length := by
  rw [← List.toFinset_card_of_nodup hn, ← Finset.card_univ]
  congr 1
  ext a; simp [ha a]

omit [DecidableEq F] in
theorem firstSide_some (S : SD V F) (e : Sym2 V) (h : F × Fin 3) (hh : S.firstSide e = some h) :
    edge S.m.v h = e := by
  have := List.find?_some hh
  simpa using this

theorem firstSide_exists {S : SD V F} (hg : Good S) (h : F × Fin 3) :
    ∃ h', S.firstSide (edge S.m.v h) = some h' ∧ edge S.m.v h' = edge S.m.v h := by
  have : (S.firstSide (edge S.m.v h)).isSome := by
    rw [SD.firstSide, List.find?_isSome]
    exact ⟨h, (mem_halfEdges _ _).2 (hg.all h.1), by simp⟩
  obtain ⟨h', hh'⟩ := Option.isSome_iff_exists.1 this
  exact ⟨h', hh', firstSide_some S _ _ hh'⟩

theorem mem_step_verts (S : SD V F) (w : Vert V) : w ∈ S.step.verts ↔
    (∃ x ∈ S.verts, w = .even x) ∨ ∃ h, h.1 ∈ S.faces ∧ w = .odd (edge S.m.v h) := by
  simp only [SD.step, List.mem_append, List.mem_map, List.mem_eraseDups, mem_halfEdges]
  constructor
  · rintro (⟨x, hx, rfl⟩ | ⟨h, hh, rfl⟩)
    · exact Or.inl ⟨x, hx, rfl⟩
    · exact Or.inr ⟨h, hh, rfl⟩
  · rintro (⟨x, hx, rfl⟩ | ⟨h, hh, rfl⟩)
    · exact Or.inl ⟨x, hx, rfl⟩
    · exact Or.inr ⟨h, hh, rfl⟩

/-- C93: after a level the flags, start faces and lists are what a fresh constructor call on the
refined mesh would compute; so every level is in a sane state. -/
theorem C93_step_good [Fintype F] {S : SD V F} (hg : Good S) : Good S.step := by
  have hcard : Fintype.card F = S.fuel := card_eq_length _ hg.nodup hg.all
  have hfuel : S.step.fuel = 4 * S.fuel := length_childFaces S.faces
  have hcard' : Fintype.card (Child F) ≤ S.step.fuel := by
    rw [C89_four_faces, hcard, hfuel]
  refine ⟨C89_refine_manifold hg.manifold, nodup_childFaces _ hg.nodup, ?_, ?_, ?_⟩
  · intro c
    exact (mem_childFaces _ c).2 (hg.all _)
  · intro w hw
    rcases (mem_step_verts S w).1 hw with ⟨x, hx, rfl⟩ | ⟨h, hh, rfl⟩
    · obtain ⟨a, ha, hon, hfl⟩ := hg.start x hx
      refine ⟨childStart S.m x a, ?_, (on_even hg.manifold.wf _).2 ⟨a, hon, rfl⟩, ?_⟩
      · simp [SD.step, ha]
      · have := (C93_even_flags hg.manifold hon S.fuel S.step.fuel hcard.le hcard').1
        show ctorFlags (refine S.m) S.step.fuel _ _ = _
        rw [this, hfl]; rfl
    · obtain ⟨h', hh', he⟩ := firstSide_exists hg h
      refine ⟨.mid h'.1, ?_, ?_, ?_⟩
      · simp [SD.step, hh']
      · exact ⟨h'.2, by rw [← he]; rfl⟩
      · have := C93_odd_flags hg.manifold h'.1 h'.2 S.step.fuel hcard'
        have he' : edge S.m.v (h'.1, h'.2) = edge S.m.v h := he
        rw [he'] at this
        show ctorFlags (refine S.m) S.step.fuel _ _ = _
        rw [this]
        simp [SD.step, hh']
  · intro c k
    rw [mem_step_verts]
    cases c with
    | mid a => exact Or.inr ⟨(a, k), hg.all a, rfl⟩
    | corner a i =>
      obtain ⟨e0, e1, e2⟩ := refine_v_corner (m := S.m) a i
      show (∃ x ∈ S.verts, (refine S.m).v (.corner a i) k = _) ∨
        ∃ h : F × Fin 3, h.1 ∈ S.faces ∧ (refine S.m).v (.corner a i) k = _
      rcases fin3_cases k i with rfl | rfl | rfl
      · exact Or.inl ⟨_, hg.corners a k, e0⟩
      · exact Or.inr ⟨(a, i), hg.all a, e1⟩
      · exact Or.inr ⟨(a, NEXT (NEXT i)), hg.all a, e2⟩

/-- C93: the constructor leaves a sane state for every manifold input mesh with no unused vertex. -/
theorem C93_init_good [Fintype F] (v : F → Fin 3 → V) (faces : List F) (verts : List V)
    (P : V → V3 ℝ) (hn : faces.Nodup) (ha : ∀ a, a ∈ faces) (hm : Manifold (link v faces))
    (hv : ∀ x, x ∈ verts ↔ ∃ a k, v a k = x) : Good (SD.init v faces verts P) := by
  refine ⟨hm, hn, ha, ?_, fun a k => (hv _).2 ⟨a, k, rfl⟩⟩
  intro x hx
  obtain ⟨a, k, hak⟩ := (hv x).1 hx
  have hs : ∃ b, startFace v faces x = some b := by
    unfold startFace
    have key : ∀ (l : List F) (acc : Option F), (a ∈ l ∨ acc.isSome) →
        ∃ b, l.foldl (fun acc a => if v a 0 = x ∨ v a 1 = x ∨ v a 2 = x then some a else acc)
          acc = some b := by
      intro l
      induction l with
      | nil =>
        intro acc h
        rcases h with h | h
        · exact absurd h (by simp)
        · exact Option.isSome_iff_exists.1 h
      | cons b t ih =>
        intro acc h
        simp only [List.foldl_cons]
        apply ih
        rcases h with h | h
        · rcases List.mem_cons.1 h with rfl | h
          · right
            rw [if_pos]
            · rfl
            · fin_cases k
              · exact Or.inl hak
              · exact Or.inr (Or.inl hak)
              · exact Or.inr (Or.inr hak)
          · exact Or.inl h
        · right; split_ifs
          · rfl
          · exact h
    exact key faces none (Or.inl (ha a))
  obtain ⟨b, hb⟩ := hs
  have hon := (startFace_on (link v faces) faces x b hb).1
  have hcard : Fintype.card F ≤ faces.length := (card_eq_length _ hn ha).le
  refine ⟨b, hb, hon, ?_⟩
  obtain ⟨c, n, hc, -, -⟩ := (C93_even_flags hm hon faces.length (4 * faces.length) hcard
    (by rw [C89_four_faces]; omega)).2
  show ctorFlags (link v faces) faces.length x b = _
  simp only [SD.init, hb, Option.bind_some, hc, Option.getD_some]

end good

end Verif.Loop
