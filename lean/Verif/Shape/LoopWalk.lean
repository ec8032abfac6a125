import Verif.Shape.LoopTopo
import Mathlib.Data.Fintype.Pigeonhole
import Mathlib.Logic.Function.Iterate
import Mathlib.Data.Fintype.Card
import Mathlib.Logic.Relation
import Mathlib.Data.Finset.Card
import Mathlib.Order.Basic

/-!
# Loop subdivision: walking around a vertex

Models the `while` loops of `SDVertex.valence`, `SDVertex.one_ring` and of the boundary
detection in `LoopSubdiv.__init__` (`pytracer/shape/loopsubdiv.py:79-128, 231-247`).

The loops may run forever, so each is given fuel: the result `none` means that the fuel ran out
or that an exception was raised, `some r` that the loop ended with `r`.  More fuel never changes
a `some`, so "terminates" is "`some` for some fuel" and "runs forever" is "`none` for all".
-/

namespace Verif.Loop

variable {V F : Type*} [DecidableEq V] [DecidableEq F]

/-- The loop `while f is not None and not f == v.startFace: f = f.next_face(v)`
(`loopsubdiv.py:236-237`); the result is `f` after the loop. -/
def findEnd (m : Mesh V F) (x : V) (start : F) : ℕ → Option F → Option (Option F)
  | _, none => some none
  | 0, some a => if a = start then some (some a) else none
  | n + 1, some a =>
    if a = start then some (some a) else (nextFace m a x).bind (findEnd m x start n)

/-- The `boundary` flag the constructor stores (`loopsubdiv.py:234-238`). -/
def boundaryFlag (m : Mesh V F) (fuel : ℕ) (x : V) (start : F) : Option Bool :=
  ((nextFace m start x).bind (findEnd m x start fuel)).map Option.isNone

/-- The loop `while f != self.startFace: nf += 1; f = f.next_face(self)` (`loopsubdiv.py:85-87`).
Calling `next_face` on `None` raises. -/
def countCycle (m : Mesh V F) (x : V) (start : F) : ℕ → Option F → ℕ → Option ℕ
  | _, none, _ => none
  | 0, some a, nf => if a = start then some nf else none
  | n + 1, some a, nf =>
    if a = start then some nf
    else (nextFace m a x).bind fun o => countCycle m x start n o (nf + 1)

/-- The loops `while f is not None: nf += 1; f = step(f)` (`loopsubdiv.py:93-95, 98-100`). -/
def countOut (step : F → Option (Option F)) : ℕ → Option F → ℕ → Option ℕ
  | _, none, nf => some nf
  | 0, some _, _ => none
  | n + 1, some a, nf => (step a).bind fun o => countOut step n o (nf + 1)

/-- `SDVertex.valence` (`loopsubdiv.py:79-101`). -/
def valence (m : Mesh V F) (fuel : ℕ) (boundary : Bool) (x : V) (start : F) : Option ℕ :=
  if boundary then
    (nextFace m start x).bind fun o =>
      (countOut (fun a => nextFace m a x) fuel o 1).bind fun nf =>
        (prevFace m start x).bind fun o' =>
          (countOut (fun a => prevFace m a x) fuel o' nf).map (· + 1)
  else
    (nextFace m start x).bind fun o => countCycle m x start fuel o 1

/-- The loop at `loopsubdiv.py:110-112`, appending `next_vert` of each face. -/
def ringCycle (m : Mesh V F) (x : V) (start : F) : ℕ → Option F → List V → Option (List V)
  | _, none, _ => none
  | 0, some a, P => if a = start then some P else none
  | n + 1, some a, P =>
    if a = start then some P
    else (nextVert m a x).bind fun y =>
      (nextFace m a x).bind fun o => ringCycle m x start n o (P ++ [y])

/-- The loop `while f2 is not None: f = f2; f2 = f.next_face(self)` (`loopsubdiv.py:117-119`). -/
def lastFace (m : Mesh V F) (x : V) : ℕ → F → Option F → Option F
  | _, f, none => some f
  | 0, _, some _ => none
  | n + 1, _, some f2 => (nextFace m f2 x).bind fun o => lastFace m x n f2 o

/-- The loop at `loopsubdiv.py:124-126`, appending `prev_vert` of each face. -/
def ringOut (m : Mesh V F) (x : V) : ℕ → Option F → List V → Option (List V)
  | _, none, P => some P
  | 0, some _, _ => none
  | n + 1, some a, P => (prevVert m a x).bind fun y =>
      (prevFace m a x).bind fun o => ringOut m x n o (P ++ [y])

/-- `SDVertex.one_ring` (`loopsubdiv.py:103-128`).  Simplification: the list of the vertices
is returned instead of the list of their positions `P`. -/
def oneRing (m : Mesh V F) (fuel : ℕ) (boundary : Bool) (x : V) (start : F) : Option (List V) :=
  if boundary then
    (nextFace m start x).bind fun o =>
      (lastFace m x fuel start o).bind fun f =>
        (nextVert m f x).bind fun y => (prevVert m f x).bind fun z =>
          (prevFace m f x).bind fun o' => ringOut m x fuel o' [y, z]
  else
    (nextVert m start x).bind fun y =>
      (nextFace m start x).bind fun o => ringCycle m x start fuel o [y]

/-! ## Specification -/

/-- Specification: `x` is a corner of face `a`. -/
def On (m : Mesh V F) (x : V) (a : F) : Prop := ∃ k, m.v a k = x

/-- Specification: the face reached from `a` by crossing the edge leaving `x`. -/
def nx (m : Mesh V F) (x : V) (a : F) : Option F := (nextFace m a x).join
/-- Specification: the face reached from `a` by crossing the edge arriving at `x`. -/
def pv (m : Mesh V F) (x : V) (a : F) : Option F := (prevFace m a x).join

/-- `n` steps of a partial walk. -/
def walk (s : F → Option F) : ℕ → Option F → Option F
  | 0, o => o
  | n + 1, o => walk s n (o.bind s)

section general
omit [DecidableEq V] [DecidableEq F]
variable (s : F → Option F)

theorem walk_none (n : ℕ) : walk s n none = none := by
  induction n with
  | zero => rfl
  | succ n ih => simpa [walk] using ih

theorem walk_succ' (n : ℕ) (o : Option F) : walk s (n + 1) o = (walk s n o).bind s := by
  induction n generalizing o with
  | zero => rfl
  | succ n ih => rw [walk, ih]; rfl

theorem walk_add (n k : ℕ) (o : Option F) : walk s (n + k) o = walk s k (walk s n o) := by
  induction n generalizing o with
  | zero => simp [walk]
  | succ n ih => rw [Nat.succ_add, walk, ih, walk]

theorem walk_none_mono {n k : ℕ} {o : Option F} (h : walk s n o = none) (hk : n ≤ k) :
    walk s k o = none := by
  obtain ⟨d, rfl⟩ := Nat.exists_eq_add_of_le hk
  rw [walk_add, h, walk_none]

/-- A partial injection: its walks can only repeat by returning to their start. -/
def PInj (P : F → Prop) (s : F → Option F) : Prop :=
  (∀ a b, P a → s a = some b → P b) ∧
  (∀ a a' b, P a → P a' → s a = some b → s a' = some b → a = a')

variable {s}

theorem walk_P {P : F → Prop} (hs : PInj P s) {n : ℕ} {a b : F} (ha : P a)
    (h : walk s n (some a) = some b) : P b := by
  induction n generalizing b with
  | zero => simp only [walk, Option.some.injEq] at h; exact h ▸ ha
  | succ n ih =>
    rw [walk_succ'] at h
    obtain ⟨c, hc, hb⟩ := Option.bind_eq_some_iff.1 h
    exact hs.1 c b (ih hc) hb

theorem walk_back {P : F → Prop} (hs : PInj P s) {a b : F} (ha : P a) :
    ∀ i d, walk s i (some a) = some b → walk s (i + d) (some a) = some b →
      walk s d (some a) = some a := by
  intro i
  induction i generalizing b with
  | zero =>
    intro d h0 h1
    simp only [walk, Option.some.injEq] at h0
    subst h0
    simpa using h1
  | succ i ih =>
    intro d h0 h1
    rw [walk_succ'] at h0
    rw [Nat.succ_add, walk_succ'] at h1
    obtain ⟨c, hc, hb⟩ := Option.bind_eq_some_iff.1 h0
    obtain ⟨c', hc', hb'⟩ := Option.bind_eq_some_iff.1 h1
    have : c = c' := hs.2 c c' b (walk_P hs ha hc) (walk_P hs ha hc') hb hb'
    subst this
    exact ih d hc hc'

theorem walk_period {a : F} {d : ℕ} (h : walk s d (some a) = some a) (k : ℕ) :
    walk s (k * d) (some a) = some a := by
  induction k with
  | zero => simp [walk]
  | succ k ih => rw [Nat.succ_mul, walk_add, ih, h]

theorem walk_no_end {a : F} {d : ℕ} (hd : 0 < d) (h : walk s d (some a) = some a) (n : ℕ) :
    walk s n (some a) ≠ none := by
  intro hn
  have := walk_none_mono s hn (Nat.le_mul_of_pos_right n hd)
  rw [walk_period h] at this
  exact absurd this (by simp)

/-- On a finite set a walk of a partial injection stops or comes back. -/
theorem walk_finite [Fintype F] {P : F → Prop} (hs : PInj P s) {a : F} (ha : P a) :
    ∃ d, 0 < d ∧ d ≤ Fintype.card F ∧
      (walk s d (some a) = none ∨ walk s d (some a) = some a) := by
  by_contra hcon
  push Not at hcon
  have hsome : ∀ n ≤ Fintype.card F, ∃ b, walk s n (some a) = some b := by
    intro n hn
    rcases Nat.eq_zero_or_pos n with rfl | hp
    · exact ⟨a, rfl⟩
    · exact Option.ne_none_iff_exists'.1 (hcon n hp hn).1
  haveI : Nonempty F := ⟨a⟩
  choose! g hg using hsome
  obtain ⟨i, j, hij, he⟩ := Fintype.exists_ne_map_eq_of_card_lt
    (fun i : Fin (Fintype.card F + 1) => g i) (by simp)
  have key : ∀ i j : Fin (Fintype.card F + 1), i < j → g i = g j → False := by
    intro i j hlt he
    have h1 := hg i (Nat.lt_succ_iff.1 i.2)
    have h2 := hg j (Nat.lt_succ_iff.1 j.2)
    obtain ⟨d, hd⟩ := Nat.exists_eq_add_of_lt (show i.1 < j.1 from hlt)
    rw [← he] at h2
    have hd' : j.1 = i.1 + (d + 1) := by omega
    rw [hd'] at h2
    have := walk_back hs ha i.1 (d + 1) h1 h2
    exact (hcon (d + 1) (by omega) (by have := j.2; omega)).2 this
  rcases lt_or_gt_of_ne hij with h | h
  · exact key i j h he
  · exact key j i h he.symm

end general

/-! ## Stepping around a vertex -/

section stepping
omit [DecidableEq F]
variable {m : Mesh V F} {x : V}

theorem nextFace_of (hw : WF m) {a : F} {k : Fin 3} (h : m.v a k = x) :
    nextFace m a x = some (m.f a k) := by
  simp [nextFace, (vnum_eq m a (hw.corners a) x k).2 h]
theorem prevFace_of (hw : WF m) {a : F} {k : Fin 3} (h : m.v a k = x) :
    prevFace m a x = some (m.f a (PREV k)) := by
  simp [prevFace, (vnum_eq m a (hw.corners a) x k).2 h]
theorem nextVert_of (hw : WF m) {a : F} {k : Fin 3} (h : m.v a k = x) :
    nextVert m a x = some (m.v a (NEXT k)) := by
  simp [nextVert, (vnum_eq m a (hw.corners a) x k).2 h]
theorem prevVert_of (hw : WF m) {a : F} {k : Fin 3} (h : m.v a k = x) :
    prevVert m a x = some (m.v a (PREV k)) := by
  simp [prevVert, (vnum_eq m a (hw.corners a) x k).2 h]

theorem nextFace_on (hw : WF m) {a : F} (h : On m x a) : nextFace m a x = some (nx m x a) := by
  obtain ⟨k, hk⟩ := h
  simp [nx, nextFace_of hw hk]
theorem prevFace_on (hw : WF m) {a : F} (h : On m x a) : prevFace m a x = some (pv m x a) := by
  obtain ⟨k, hk⟩ := h
  simp [pv, prevFace_of hw hk]

theorem nx_iff_pv (hw : WF m) (ho : Oriented m) {a b : F} (ha : On m x a) (hb : On m x b) :
    nx m x a = some b ↔ pv m x b = some a := by
  obtain ⟨k, hk⟩ := ha
  obtain ⟨l, hl⟩ := hb
  simp only [nx, pv, nextFace_of hw hk, prevFace_of hw hl, Option.join_some]
  constructor
  · intro h
    obtain ⟨j, hm⟩ := (hw.linked a k b).1 h
    obtain ⟨o1, o2⟩ := ho a k b j hm
    have : NEXT j = l := hw.corners b (by rw [o2, hk, hl])
    subst this
    rw [fin3_prev, fin3_cycle]
    exact (hw.linked b j a).2 ⟨k, fun e => hm.1 e.symm, hm.2.symm⟩
  · intro h
    obtain ⟨j, hm⟩ := (hw.linked b (PREV l) a).1 h
    obtain ⟨o1, o2⟩ := ho b (PREV l) a j hm
    rw [fin3_prev, fin3_cycle, hl] at o1
    have : j = k := hw.corners a (by rw [o1, hk])
    subst this
    exact (hw.linked a j b).2 ⟨PREV l, fun e => hm.1 e.symm, hm.2.symm⟩

theorem nx_on (hw : WF m) (ho : Oriented m) {a b : F} (ha : On m x a) (h : nx m x a = some b) :
    On m x b := by
  obtain ⟨k, hk⟩ := ha
  simp only [nx, nextFace_of hw hk, Option.join_some] at h
  obtain ⟨j, hm⟩ := (hw.linked a k b).1 h
  exact ⟨NEXT j, by rw [(ho a k b j hm).2, hk]⟩

theorem pv_on (hw : WF m) (ho : Oriented m) {a b : F} (ha : On m x a) (h : pv m x a = some b) :
    On m x b := by
  obtain ⟨k, hk⟩ := ha
  simp only [pv, prevFace_of hw hk, Option.join_some] at h
  obtain ⟨j, hm⟩ := (hw.linked a (PREV k) b).1 h
  have o1 := (ho a (PREV k) b j hm).1
  rw [fin3_prev, fin3_cycle, hk] at o1
  exact ⟨j, o1⟩

theorem nx_pinj (hw : WF m) (ho : Oriented m) : PInj (On m x) (nx m x) := by
  refine ⟨fun a b ha h => nx_on hw ho ha h, ?_⟩
  intro a a' b ha ha' h h'
  have hb := nx_on hw ho ha h
  have e1 := (nx_iff_pv hw ho ha hb).1 h
  have e2 := (nx_iff_pv hw ho ha' hb).1 h'
  rw [e1] at e2
  exact Option.some.inj e2

theorem pv_pinj (hw : WF m) (ho : Oriented m) : PInj (On m x) (pv m x) := by
  refine ⟨fun a b ha h => pv_on hw ho ha h, ?_⟩
  intro a a' b ha ha' h h'
  have hb := pv_on hw ho ha h
  have e1 := (nx_iff_pv hw ho hb ha).2 h
  have e2 := (nx_iff_pv hw ho hb ha').2 h'
  rw [e1] at e2
  exact Option.some.inj e2

/-- Walking `n` steps forward undoes walking `n` steps backward. -/
theorem walk_pv_nx (hw : WF m) (ho : Oriented m) {a b : F} (ha : On m x a) {n : ℕ}
    (h : walk (pv m x) n (some a) = some b) : walk (nx m x) n (some b) = some a := by
  induction n generalizing b with
  | zero => simp only [walk, Option.some.injEq] at h ⊢; exact h.symm
  | succ n ih =>
    rw [walk_succ'] at h
    obtain ⟨c, hc, hb⟩ := Option.bind_eq_some_iff.1 h
    have hcO := walk_P (pv_pinj hw ho) ha hc
    have hbO := pv_on hw ho hcO hb
    rw [walk, Option.bind_some, (nx_iff_pv hw ho hbO hcO).2 hb]
    exact ih hc

theorem walk_nx_pv (hw : WF m) (ho : Oriented m) {a b : F} (ha : On m x a) {n : ℕ}
    (h : walk (nx m x) n (some a) = some b) : walk (pv m x) n (some b) = some a := by
  induction n generalizing b with
  | zero => simp only [walk, Option.some.injEq] at h ⊢; exact h.symm
  | succ n ih =>
    rw [walk_succ'] at h
    obtain ⟨c, hc, hb⟩ := Option.bind_eq_some_iff.1 h
    have hcO := walk_P (nx_pinj hw ho) ha hc
    have hbO := nx_on hw ho hcO hb
    rw [walk, Option.bind_some, (nx_iff_pv hw ho hcO hbO).1 hb]
    exact ih hc

end stepping

/-! ## The loops compute walks -/

section loops
variable {m : Mesh V F} {x : V}

theorem findEnd_spec (hw : WF m) (ho : Oriented m) (start : F) (n : ℕ) :
    ∀ (fuel : ℕ) (o : Option F), (∀ a, o = some a → On m x a) → n ≤ fuel →
      (walk (nx m x) n o = none ∨ walk (nx m x) n o = some start) →
      (∀ i < n, walk (nx m x) i o ≠ none ∧ walk (nx m x) i o ≠ some start) →
      findEnd m x start fuel o = some (walk (nx m x) n o) := by
  induction n with
  | zero =>
    intro fuel o hO _ hend _
    simp only [walk] at hend ⊢
    cases o with
    | none => cases fuel <;> rfl
    | some a =>
      have : a = start := by simpa using hend
      subst this
      cases fuel <;> simp [findEnd]
  | succ n ih =>
    intro fuel o hO hf hend hmin
    have h0 := hmin 0 (Nat.succ_pos n)
    simp only [walk] at h0
    cases o with
    | none => exact absurd rfl h0.1
    | some a =>
      have ha : a ≠ start := fun e => h0.2 (by rw [e])
      cases fuel with
      | zero => omega
      | succ fuel =>
        simp only [findEnd, if_neg ha]
        rw [nextFace_on hw (hO a rfl), Option.bind_some]
        refine ih fuel _ (fun b hb => nx_on hw ho (hO a rfl) hb) (by omega) hend ?_
        intro i hi
        exact hmin (i + 1) (by omega)

theorem countCycle_spec (hw : WF m) (ho : Oriented m) (start : F) (n : ℕ) :
    ∀ (fuel : ℕ) (o : Option F) (nf : ℕ), (∀ a, o = some a → On m x a) → n ≤ fuel →
      walk (nx m x) n o = some start → (∀ i < n, walk (nx m x) i o ≠ some start) →
      countCycle m x start fuel o nf = some (nf + n) := by
  induction n with
  | zero =>
    intro fuel o nf hO _ hend _
    simp only [walk] at hend
    subst hend
    cases fuel <;> simp [countCycle]
  | succ n ih =>
    intro fuel o nf hO hf hend hmin
    have h0 := hmin 0 (Nat.succ_pos n)
    simp only [walk] at h0
    cases o with
    | none => rw [walk_none] at hend; exact absurd hend (by simp)
    | some a =>
      have ha : a ≠ start := fun e => h0 (by rw [e])
      cases fuel with
      | zero => omega
      | succ fuel =>
        simp only [countCycle, if_neg ha]
        rw [nextFace_on hw (hO a rfl), Option.bind_some]
        rw [ih fuel _ (nf + 1) (fun b hb => nx_on hw ho (hO a rfl) hb) (by omega) hend
          (fun i hi => hmin (i + 1) (by omega))]
        congr 1; omega

omit [DecidableEq F] [DecidableEq V] in
theorem countOut_spec {P : F → Prop} (step : F → Option (Option F)) (s : F → Option F)
    (hs : ∀ a, P a → step a = some (s a)) (hP : ∀ a b, P a → s a = some b → P b) (n : ℕ) :
    ∀ (fuel : ℕ) (o : Option F) (nf : ℕ), (∀ a, o = some a → P a) → n ≤ fuel →
      walk s n o = none → (∀ i < n, walk s i o ≠ none) →
      countOut step fuel o nf = some (nf + n) := by
  induction n with
  | zero =>
    intro fuel o nf hO _ hend _
    simp only [walk] at hend
    subst hend
    cases fuel <;> simp [countOut]
  | succ n ih =>
    intro fuel o nf hO hf hend hmin
    have h0 := hmin 0 (Nat.succ_pos n)
    simp only [walk] at h0
    cases o with
    | none => exact absurd rfl h0
    | some a =>
      cases fuel with
      | zero => omega
      | succ fuel =>
        simp only [countOut]
        rw [hs a (hO a rfl), Option.bind_some]
        rw [ih fuel _ (nf + 1) (fun b hb => hP a b (hO a rfl) hb) (by omega) hend
          (fun i hi => hmin (i + 1) (by omega))]
        congr 1; omega

end loops

/-! ## Termination and the boundary flag -/

section main
variable [Fintype F] {m : Mesh V F} {x : V}

/-- The first time a walk stops or comes back. -/
theorem first_stop (hw : WF m) (ho : Oriented m) {start : F} (hx : On m x start) :
    ∃ d, d < Fintype.card F ∧
      (walk (nx m x) d (nx m x start) = none ∨ walk (nx m x) d (nx m x start) = some start) ∧
      ∀ i < d, walk (nx m x) i (nx m x start) ≠ none ∧
        walk (nx m x) i (nx m x start) ≠ some start := by
  classical
  obtain ⟨d, hd, hc, hend⟩ := walk_finite (nx_pinj hw ho) hx
  have hex : ∃ d, walk (nx m x) d (nx m x start) = none ∨
      walk (nx m x) d (nx m x start) = some start := by
    refine ⟨d - 1, ?_⟩
    obtain ⟨e, rfl⟩ : ∃ e, d = e + 1 := ⟨d - 1, by omega⟩
    simpa [walk] using hend
  refine ⟨Nat.find hex, ?_, Nat.find_spec hex, ?_⟩
  · have : Nat.find hex ≤ d - 1 := by
      apply Nat.find_min'
      obtain ⟨e, rfl⟩ : ∃ e, d = e + 1 := ⟨d - 1, by omega⟩
      simpa [walk] using hend
    omega
  · intro i hi
    have := Nat.find_min hex hi
    push Not at this
    exact this

/-- C90: on a consistently oriented mesh the constructor's boundary search ends for every vertex,
after at most as many steps as there are faces, and the flag says whether walking across the
edges around the vertex runs into an open edge. -/
theorem C90_boundary_search_terminates (hw : WF m) (ho : Oriented m) {start : F}
    (hx : On m x start) (fuel : ℕ) (hf : Fintype.card F ≤ fuel) :
    ∃ b, boundaryFlag m fuel x start = some b ∧
      (b = true ↔ ∃ n, walk (nx m x) n (some start) = none) := by
  obtain ⟨d, hd, hend, hmin⟩ := first_stop hw ho hx
  have hO : ∀ a, nx m x start = some a → On m x a := fun a ha => nx_on hw ho hx ha
  have := findEnd_spec hw ho start d fuel (nx m x start) hO (by omega) hend hmin
  refine ⟨(walk (nx m x) d (nx m x start)).isNone, ?_, ?_⟩
  · rw [boundaryFlag, nextFace_on hw hx, Option.bind_some, this]; rfl
  · rcases hend with e | e
    · rw [e]
      simp only [Option.isNone_none, true_iff]
      exact ⟨d + 1, e⟩
    · rw [e]
      simp only [Option.isNone_some, Bool.false_eq_true, false_iff, not_exists]
      exact fun n => walk_no_end (d := d + 1) (by omega) e n

/-- The walk forward from a boundary vertex has a first end. -/
theorem first_end {s : F → Option F} {P : F → Prop} (hs : PInj P s) {start : F}
    (hx : P start) (hb : ∃ n, walk s n (some start) = none) :
    ∃ p, p < Fintype.card F ∧ walk s p (s start) = none ∧ ∀ i < p, walk s i (s start) ≠ none := by
  classical
  obtain ⟨n, hn⟩ := hb
  obtain ⟨d, hd, hc, hend⟩ := walk_finite hs hx
  have hend' : walk s d (some start) = none := by
    rcases hend with e | e
    · exact e
    · exact absurd hn (walk_no_end hd e n)
  have hex : ∃ d, walk s d (s start) = none := by
    refine ⟨d - 1, ?_⟩
    obtain ⟨e, rfl⟩ : ∃ e, d = e + 1 := ⟨d - 1, by omega⟩
    simpa [walk] using hend'
  refine ⟨Nat.find hex, ?_, Nat.find_spec hex, fun i hi => Nat.find_min hex hi⟩
  have : Nat.find hex ≤ d - 1 := by
    apply Nat.find_min'
    obtain ⟨e, rfl⟩ : ∃ e, d = e + 1 := ⟨d - 1, by omega⟩
    simpa [walk] using hend'
  omega

/-- From a boundary vertex the backward walk ends as well. -/
theorem back_end (hw : WF m) (ho : Oriented m) {start : F} (hx : On m x start)
    (hb : ∃ n, walk (nx m x) n (some start) = none) :
    ∃ n, walk (pv m x) n (some start) = none := by
  obtain ⟨d, hd, -, hend⟩ := walk_finite (pv_pinj hw ho) hx
  rcases hend with e | e
  · exact ⟨d, e⟩
  · obtain ⟨n, hn⟩ := hb
    exact absurd hn (walk_no_end hd (walk_pv_nx hw ho hx e) n)

/-- Specification: two faces are adjacent around `x` when they share an edge ending in `x`. -/
def AdjAt (m : Mesh V F) (x : V) (a b : F) : Prop :=
  ∃ k j, Mate m.v (b, j) (a, k) ∧ x ∈ edge m.v (a, k)

/-- Specification: `x` is a manifold vertex, i.e. all faces at `x` form a single fan. -/
def Umbrella (m : Mesh V F) (x : V) : Prop :=
  ∀ a b, On m x a → On m x b → Relation.ReflTransGen (AdjAt m x) a b

/-- Specification: the number of faces that have `x` as a corner. -/
noncomputable def degree (m : Mesh V F) (x : V) : ℕ :=
  haveI := Classical.decPred (On m x)
  (Finset.univ.filter (On m x)).card

omit [Fintype F] [DecidableEq F] in
theorem adjAt_step (hw : WF m) (ho : Oriented m) {a b : F}
    (h : AdjAt m x a b) : nx m x a = some b ∨ pv m x a = some b := by
  obtain ⟨k, j, hm, hx⟩ := h
  rw [edge_mk, Sym2.mem_iff] at hx
  rcases hx with e | e
  · left
    simp only [nx, nextFace_of hw e.symm, Option.join_some]
    exact (hw.linked a k b).2 ⟨j, hm⟩
  · right
    simp only [pv, prevFace_of hw e.symm, Option.join_some]
    rw [fin3_prev, fin3_cycle]
    exact (hw.linked a k b).2 ⟨j, hm⟩

omit [Fintype F] [DecidableEq F] in
theorem umbrella_walk (hw : WF m) (ho : Oriented m) (hu : Umbrella m x) {a b : F}
    (ha : On m x a) (hb : On m x b) :
    ∃ n, walk (nx m x) n (some a) = some b ∨ walk (pv m x) n (some a) = some b := by
  have h := hu a b ha hb
  clear hb
  induction h with
  | refl => exact ⟨0, Or.inl rfl⟩
  | tail hab hbc ih =>
    rename_i b c
    obtain ⟨n, hn⟩ := ih
    have hbO : On m x b := by
      rcases hn with e | e
      · exact walk_P (nx_pinj hw ho) ha e
      · exact walk_P (pv_pinj hw ho) ha e
    rcases adjAt_step hw ho hbc with e | e
    · rcases hn with hn | hn
      · exact ⟨n + 1, Or.inl (by rw [walk_succ', hn]; exact e)⟩
      · cases n with
        | zero => exact ⟨1, Or.inl (by
            simp only [walk, Option.some.injEq] at hn; subst hn; simpa [walk] using e)⟩
        | succ n =>
          rw [walk_succ'] at hn
          obtain ⟨d, hd, hdb⟩ := Option.bind_eq_some_iff.1 hn
          have hdO := walk_P (pv_pinj hw ho) ha hd
          have := (nx_iff_pv hw ho hbO hdO).2 hdb
          rw [e] at this
          exact ⟨n, Or.inr (by rw [hd, ← this])⟩
    · rcases hn with hn | hn
      · cases n with
        | zero => exact ⟨1, Or.inr (by
            simp only [walk, Option.some.injEq] at hn; subst hn; simpa [walk] using e)⟩
        | succ n =>
          rw [walk_succ'] at hn
          obtain ⟨d, hd, hdb⟩ := Option.bind_eq_some_iff.1 hn
          have hdO := walk_P (nx_pinj hw ho) ha hd
          have := (nx_iff_pv hw ho hdO hbO).1 hdb
          rw [e] at this
          exact ⟨n, Or.inl (by rw [hd, ← this])⟩
      · exact ⟨n + 1, Or.inr (by rw [walk_succ', hn]; exact e)⟩

omit [DecidableEq F] [DecidableEq V] in
/-- Counting: a list of distinct faces containing exactly the faces at `x` has `degree` many. -/
theorem degree_of_walk (n : ℕ) (g : ℕ → F) (hinj : ∀ i < n, ∀ j < n, g i = g j → i = j)
    (hon : ∀ i < n, On m x (g i)) (hall : ∀ b, On m x b → ∃ i < n, g i = b) :
    degree m x = n := by
  classical
  unfold degree
  have : (Finset.univ.filter (On m x)) = (Finset.range n).image g := by
    ext b
    simp only [Finset.mem_filter, Finset.mem_univ, true_and, Finset.mem_image, Finset.mem_range]
    constructor
    · exact hall b
    · rintro ⟨i, hi, rfl⟩; exact hon i hi
  rw [show (Finset.univ.filter (On m x)).card = ((Finset.range n).image g).card by
    rw [← this]]
  rw [Finset.card_image_of_injOn]
  · simp
  · intro i hi j hj h
    exact hinj i (by simpa using hi) j (by simpa using hj) h

section rings
omit [Fintype F]

/-- Specification: the corner after `x` in face `a`. -/
def nxv (m : Mesh V F) (x : V) (a : F) : V := (nextVert m a x).getD x
/-- Specification: the corner before `x` in face `a`. -/
def pvv (m : Mesh V F) (x : V) (a : F) : V := (prevVert m a x).getD x

omit [DecidableEq F]

theorem nxv_of (hw : WF m) {a : F} {k : Fin 3} (h : m.v a k = x) :
    nxv m x a = m.v a (NEXT k) := by simp [nxv, nextVert_of hw h]
theorem pvv_of (hw : WF m) {a : F} {k : Fin 3} (h : m.v a k = x) :
    pvv m x a = m.v a (PREV k) := by simp [pvv, prevVert_of hw h]
theorem nextVert_on (hw : WF m) {a : F} (h : On m x a) : nextVert m a x = some (nxv m x a) := by
  obtain ⟨k, hk⟩ := h; rw [nextVert_of hw hk, nxv_of hw hk]
theorem prevVert_on (hw : WF m) {a : F} (h : On m x a) : prevVert m a x = some (pvv m x a) := by
  obtain ⟨k, hk⟩ := h; rw [prevVert_of hw hk, pvv_of hw hk]

theorem nxv_inj (hw : WF m) (ho : Oriented m) {a b : F} (ha : On m x a) (hb : On m x b)
    (h : nxv m x a = nxv m x b) : a = b := by
  obtain ⟨k, hk⟩ := ha
  obtain ⟨l, hl⟩ := hb
  rw [nxv_of hw hk, nxv_of hw hl] at h
  by_contra hab
  have hm : Mate m.v (b, l) (a, k) := by
    refine ⟨fun e => hab (Prod.mk.inj e).1.symm, ?_⟩
    rw [edge_mk, edge_mk, hk, hl, h]
  have := (ho a k b l hm).1
  rw [hl, ← hk] at this
  exact fin3_next _ (hw.corners a this).symm

theorem pvv_inj (hw : WF m) (ho : Oriented m) {a b : F} (ha : On m x a) (hb : On m x b)
    (h : pvv m x a = pvv m x b) : a = b := by
  obtain ⟨k, hk⟩ := ha
  obtain ⟨l, hl⟩ := hb
  rw [pvv_of hw hk, pvv_of hw hl] at h
  by_contra hab
  have hm : Mate m.v (b, PREV l) (a, PREV k) := by
    refine ⟨fun e => hab (Prod.mk.inj e).1.symm, ?_⟩
    rw [edge_mk, edge_mk, fin3_prev, fin3_prev, fin3_cycle, fin3_cycle, hk, hl,
      ← fin3_prev, ← fin3_prev, h]
  have := (ho a (PREV k) b (PREV l) hm).1
  rw [← h, fin3_prev, fin3_cycle] at this
  exact fin3_next2 _ (hw.corners a this)

theorem pvv_nx (hw : WF m) (ho : Oriented m) {a b : F} (ha : On m x a) (h : nx m x a = some b) :
    pvv m x b = nxv m x a := by
  obtain ⟨k, hk⟩ := ha
  simp only [nx, nextFace_of hw hk, Option.join_some] at h
  obtain ⟨j, hm⟩ := (hw.linked a k b).1 h
  obtain ⟨o1, o2⟩ := ho a k b j hm
  rw [pvv_of hw (o2.trans hk), nxv_of hw hk, fin3_prev, fin3_cycle, o1]

theorem nxv_last (hw : WF m) {a b : F} (ha : On m x a) (hb : On m x b)
    (h : nx m x a = none) : nxv m x a ≠ pvv m x b := by
  obtain ⟨k, hk⟩ := ha
  obtain ⟨l, hl⟩ := hb
  simp only [nx, nextFace_of hw hk, Option.join_some] at h
  rw [nxv_of hw hk, pvv_of hw hl]
  intro e
  have hm : Mate m.v (b, PREV l) (a, k) := by
    constructor
    · intro e'
      simp only [Prod.mk.injEq] at e'
      obtain ⟨rfl, rfl⟩ := e'
      have := hw.corners b (hk.trans hl.symm)
      revert this
      rw [fin3_prev]
      exact fin3_next2 l
    · rw [edge_mk, edge_mk, fin3_prev, fin3_cycle, hk, hl, ← fin3_prev, e, Sym2.eq_swap]
  rw [(hw.linked a k b).2 ⟨_, hm⟩] at h
  exact absurd h (by simp)

/-- The other two corners. -/
theorem corner_cases (hw : WF m) {a : F} (ha : On m x a) (y : V) :
    On m y a ∧ y ≠ x ↔ y = nxv m x a ∨ y = pvv m x a := by
  obtain ⟨k, hk⟩ := ha
  rw [nxv_of hw hk, pvv_of hw hk, fin3_prev]
  constructor
  · rintro ⟨⟨l, hl⟩, hne⟩
    rcases fin3_cases l k with rfl | rfl | rfl
    · exact absurd (hl.symm.trans hk) hne
    · exact Or.inl hl.symm
    · exact Or.inr hl.symm
  · rintro (rfl | rfl)
    · exact ⟨⟨_, rfl⟩, fun e => fin3_next k (hw.corners a (e.trans hk.symm))⟩
    · exact ⟨⟨_, rfl⟩, fun e => fin3_next2 k (hw.corners a (e.trans hk.symm))⟩

end rings

section ringloops
omit [Fintype F]

theorem ringCycle_spec (hw : WF m) (ho : Oriented m) (start : F) (n : ℕ) :
    ∀ (fuel : ℕ) (o : Option F) (P : List V) (g : ℕ → F), (∀ a, o = some a → On m x a) →
      n ≤ fuel → walk (nx m x) n o = some start →
      (∀ i < n, walk (nx m x) i o = some (g i) ∧ g i ≠ start) →
      ringCycle m x start fuel o P = some (P ++ (List.range n).map fun i => nxv m x (g i)) := by
  induction n with
  | zero =>
    intro fuel o P g hO _ hend _
    simp only [walk] at hend
    subst hend
    cases fuel <;> simp [ringCycle]
  | succ n ih =>
    intro fuel o P g hO hf hend hg
    obtain ⟨h0, h0'⟩ := hg 0 (Nat.succ_pos n)
    simp only [walk] at h0
    subst h0
    cases fuel with
    | zero => omega
    | succ fuel =>
      simp only [ringCycle, if_neg h0']
      rw [nextVert_on hw (hO _ rfl), nextFace_on hw (hO _ rfl)]
      simp only [Option.bind_some]
      rw [ih fuel _ _ (fun i => g (i + 1)) (fun b hb => nx_on hw ho (hO _ rfl) hb) (by omega) hend
          (fun i hi => hg (i + 1) (by omega))]
      rw [List.range_succ_eq_map]
      simp [Function.comp_def]

omit [DecidableEq F] in
theorem ringOut_spec (hw : WF m) (ho : Oriented m) (n : ℕ) :
    ∀ (fuel : ℕ) (o : Option F) (P : List V) (g : ℕ → F), (∀ a, o = some a → On m x a) →
      n ≤ fuel → walk (pv m x) n o = none →
      (∀ i < n, walk (pv m x) i o = some (g i)) →
      ringOut m x fuel o P = some (P ++ (List.range n).map fun i => pvv m x (g i)) := by
  induction n with
  | zero =>
    intro fuel o P g hO _ hend _
    simp only [walk] at hend
    subst hend
    cases fuel <;> simp [ringOut]
  | succ n ih =>
    intro fuel o P g hO hf hend hg
    have h0 := hg 0 (Nat.succ_pos n)
    simp only [walk] at h0
    subst h0
    cases fuel with
    | zero => omega
    | succ fuel =>
      simp only [ringOut]
      rw [prevVert_on hw (hO _ rfl), prevFace_on hw (hO _ rfl)]
      simp only [Option.bind_some]
      rw [ih fuel _ _ (fun i => g (i + 1)) (fun b hb => pv_on hw ho (hO _ rfl) hb) (by omega) hend
          (fun i hi => hg (i + 1) (by omega))]
      rw [List.range_succ_eq_map]
      simp [Function.comp_def]

omit [DecidableEq F] in
theorem lastFace_spec (hw : WF m) (ho : Oriented m) (n : ℕ) :
    ∀ (fuel : ℕ) (f : F), On m x f → n ≤ fuel →
      walk (nx m x) n (nx m x f) = none → (∀ i < n, walk (nx m x) i (nx m x f) ≠ none) →
      ∃ l, lastFace m x fuel f (nx m x f) = some l ∧ walk (nx m x) n (some f) = some l := by
  induction n with
  | zero =>
    intro fuel f hf _ hend _
    simp only [walk] at hend
    rw [hend]
    cases fuel <;> exact ⟨f, by simp [lastFace], rfl⟩
  | succ n ih =>
    intro fuel f hf hfu hend hmin
    have h0 := hmin 0 (Nat.succ_pos n)
    simp only [walk] at h0
    obtain ⟨a, ha⟩ := Option.ne_none_iff_exists'.1 h0
    have hOa := nx_on hw ho hf ha
    cases fuel with
    | zero => omega
    | succ fuel =>
      rw [ha]
      simp only [lastFace, nextFace_on hw hOa, Option.bind_some]
      rw [ha] at hend
      obtain ⟨l, h1, h2⟩ := ih fuel a hOa (by omega) hend (fun i hi => by
        have := hmin (i + 1) (by omega); rw [ha] at this; exact this)
      exact ⟨l, h1, by rw [walk, Option.bind_some, ha]; exact h2⟩

end ringloops

/-- The faces around an interior vertex, in walking order. -/
theorem interior_fan (hw : WF m) (ho : Oriented m) (hu : Umbrella m x) {start : F}
    (hx : On m x start) (hni : ∀ n, walk (nx m x) n (some start) ≠ none) :
    ∃ (d : ℕ) (g : ℕ → F), d < Fintype.card F ∧ walk (nx m x) d (nx m x start) = some start ∧
      (∀ i < d, walk (nx m x) i (nx m x start) = some (g (i + 1)) ∧ g (i + 1) ≠ start) ∧
      g 0 = start ∧ (∀ i ≤ d, On m x (g i)) ∧
      (∀ i ≤ d, ∀ j ≤ d, g i = g j → i = j) ∧ (∀ b, On m x b → ∃ i ≤ d, g i = b) ∧
      (∀ b, On m x b → ∃ i ≤ d, nx m x (g i) = some b) := by
  obtain ⟨d, hd, hend, hmin⟩ := first_stop hw ho hx
  have hend' : walk (nx m x) d (nx m x start) = some start := by
    rcases hend with e | e
    · exact absurd e (hni (d + 1))
    · exact e
  have hs : ∀ n, ∃ b, walk (nx m x) n (some start) = some b :=
    fun n => Option.ne_none_iff_exists'.1 (hni n)
  choose g hg using hs
  have hper : walk (nx m x) (d + 1) (some start) = some start := hend'
  have hinj : ∀ i ≤ d, ∀ j ≤ d, i < j → g i ≠ g j := by
    intro i hi j hj hij e
    have h1 := hg i
    have h2 := hg j
    rw [← e, show j = i + (j - i) by omega] at h2
    have := walk_back (nx_pinj hw ho) hx i (j - i) h1 h2
    obtain ⟨c, hc⟩ : ∃ c, j - i = c + 1 := ⟨j - i - 1, by omega⟩
    rw [hc] at this
    exact (hmin c (by omega)).2 this
  have hall : ∀ b, On m x b → ∃ n, walk (nx m x) n (some start) = some b := by
    intro b hb
    obtain ⟨n, hn | hn⟩ := umbrella_walk hw ho hu hx hb
    · exact ⟨n, hn⟩
    · have hle : n ≤ n * (d + 1) := Nat.le_mul_of_pos_right n (by omega)
      refine ⟨n * (d + 1) - n, ?_⟩
      have h1 := walk_period hper n
      rw [show n * (d + 1) = (n * (d + 1) - n) + n by omega, walk_add, hg] at h1
      have h2 := walk_nx_pv hw ho (walk_P (nx_pinj hw ho) hx (hg _)) h1
      rw [hn] at h2
      rw [hg, Option.some.inj h2]
  have hmod : ∀ n, g n = g (n % (d + 1)) := by
    intro n
    have h1 := hg n
    rw [show n = (n / (d + 1)) * (d + 1) + n % (d + 1) by
      rw [Nat.mul_comm]; exact (Nat.div_add_mod n (d + 1)).symm, walk_add, walk_period hper, hg] at h1
    have h2 := Option.some.inj h1
    rw [← Nat.mul_comm, Nat.div_add_mod] at h2
    exact h2.symm
  refine ⟨d, g, hd, hend', ?_, ?_, ?_, ?_, ?_, ?_⟩
  · intro i hi
    have h1 : walk (nx m x) i (nx m x start) = some (g (i + 1)) := hg (i + 1)
    exact ⟨h1, fun e => (hmin i hi).2 (by rw [h1, e])⟩
  · have := hg 0; simp only [walk, Option.some.injEq] at this; exact this.symm
  · exact fun i _ => walk_P (nx_pinj hw ho) hx (hg i)
  · intro i hi j hj e
    rcases lt_trichotomy i j with h | h | h
    · exact absurd e (hinj i hi j hj h)
    · exact h
    · exact absurd e.symm (hinj j hj i hi h)
  · intro b hb
    obtain ⟨n, hn⟩ := hall b hb
    rw [hg] at hn
    refine ⟨n % (d + 1), by have := Nat.mod_lt n (show 0 < d + 1 by omega); omega, ?_⟩
    rw [← hmod, Option.some.inj hn]
  · intro b hb
    obtain ⟨n, hn⟩ := hall b hb
    have h1 : walk (nx m x) (n + d + 1) (some start) = some b := by
      rw [show n + d + 1 = (d + 1) + n by omega, walk_add, hper, hn]
    rw [walk_succ', hg, Option.bind_some] at h1
    refine ⟨(n + d) % (d + 1), by
      have := Nat.mod_lt (n + d) (show 0 < d + 1 by omega); omega, ?_⟩
    rw [← hmod, h1]

/-- The faces around a boundary vertex, in backward walking order from the last one. -/
theorem boundary_fan (hw : WF m) (ho : Oriented m) (hu : Umbrella m x) {start : F}
    (hx : On m x start) (hb : ∃ n, walk (nx m x) n (some start) = none) :
    ∃ (p q : ℕ) (g : ℕ → F), p < Fintype.card F ∧ q < Fintype.card F ∧
      (walk (nx m x) p (nx m x start) = none ∧ ∀ i < p, walk (nx m x) i (nx m x start) ≠ none) ∧
      (walk (pv m x) q (pv m x start) = none ∧ ∀ i < q, walk (pv m x) i (pv m x start) ≠ none) ∧
      p + q < Fintype.card F ∧
      walk (nx m x) p (some start) = some (g 0) ∧ nx m x (g 0) = none ∧
      (∀ i ≤ p + q, walk (pv m x) i (some (g 0)) = some (g i)) ∧
      walk (pv m x) (p + q + 1) (some (g 0)) = none ∧
      (∀ i ≤ p + q, On m x (g i)) ∧
      (∀ i ≤ p + q, ∀ j ≤ p + q, g i = g j → i = j) ∧
      (∀ b, On m x b → ∃ i ≤ p + q, g i = b) := by
  obtain ⟨p, hp, hpe, hpm⟩ := first_end (nx_pinj hw ho) hx hb
  obtain ⟨q, hq, hqe, hqm⟩ := first_end (pv_pinj hw ho) hx (back_end hw ho hx hb)
  have hlast : ∃ l, walk (nx m x) p (some start) = some l := by
    cases p with
    | zero => exact ⟨start, rfl⟩
    | succ p => exact Option.ne_none_iff_exists'.1 (hpm p (by omega))
  obtain ⟨l, hl⟩ := hlast
  have hlO := walk_P (nx_pinj hw ho) hx hl
  have hle : nx m x l = none := by
    have : walk (nx m x) (p + 1) (some start) = none := hpe
    rw [walk_succ', hl] at this
    exact this
  have hback := walk_nx_pv hw ho hx hl
  have hend : walk (pv m x) (p + q + 1) (some l) = none := by
    rw [Nat.add_assoc, walk_add, hback]; exact hqe
  have hne : ∀ i ≤ p + q, walk (pv m x) i (some l) ≠ none := by
    intro i hi he
    have := walk_none_mono _ he hi
    rw [walk_add, hback] at this
    cases q with
    | zero => simp [walk] at this
    | succ q => exact hqm q (by omega) this
  have hs : ∀ i ≤ p + q, ∃ b, walk (pv m x) i (some l) = some b :=
    fun i hi => Option.ne_none_iff_exists'.1 (hne i hi)
  have : Nonempty F := ⟨l⟩
  choose! g hg using hs
  have hg0 : g 0 = l := by
    have := hg 0 (by omega); simp only [walk, Option.some.injEq] at this; exact this.symm
  have hinj : ∀ i ≤ p + q, ∀ j ≤ p + q, i < j → g i ≠ g j := by
    intro i hi j hj hij e
    have h1 := hg i hi
    have h2 := hg j hj
    rw [← e, show j = i + (j - i) by omega] at h2
    have := walk_back (pv_pinj hw ho) hlO i (j - i) h1 h2
    exact walk_no_end (by omega) this _ hend
  have hinj' : ∀ i ≤ p + q, ∀ j ≤ p + q, g i = g j → i = j := by
    intro i hi j hj e
    rcases lt_trichotomy i j with h | h | h
    · exact absurd e (hinj i hi j hj h)
    · exact h
    · exact absurd e.symm (hinj j hj i hi h)
  refine ⟨p, q, g, hp, hq, ⟨hpe, hpm⟩, ⟨hqe, hqm⟩, ?_, ?_, ?_, ?_, ?_, ?_, hinj', ?_⟩
  · have : Fintype.card (Fin (p + q + 1)) ≤ Fintype.card F :=
      Fintype.card_le_of_injective (fun i : Fin (p + q + 1) => g i)
        (fun i j h => Fin.ext (hinj' i (by omega) j (by omega) h))
    rw [Fintype.card_fin] at this; omega
  · rw [hg0, hl]
  · rw [hg0, hle]
  · rw [hg0]; exact hg
  · rw [hg0]; exact hend
  · exact fun i hi => walk_P (pv_pinj hw ho) hlO (hg i hi)
  · intro b hbO
    obtain ⟨n, hn | hn⟩ := umbrella_walk hw ho hu hlO hbO
    · cases n with
      | zero =>
        simp only [walk, Option.some.injEq] at hn
        exact ⟨0, by omega, by rw [hg0, hn]⟩
      | succ n =>
        rw [walk, Option.bind_some, hle, walk_none] at hn
        exact absurd hn (by simp)
    · have hnle : n ≤ p + q := by
        by_contra hcon
        have := walk_none_mono _ hend (show p + q + 1 ≤ n by omega)
        rw [hn] at this
        exact absurd this (by simp)
      refine ⟨n, hnle, ?_⟩
      have := hg n hnle
      rw [hn] at this
      exact (Option.some.inj this).symm

/-- C91: at a manifold vertex of a consistently oriented mesh `valence()` ends and returns the
number of edges at the vertex: as many as faces in the interior, one more on the boundary. -/
theorem C91_valence_counts_edges (hw : WF m) (ho : Oriented m) (hu : Umbrella m x) {start : F}
    (hx : On m x start) (fuel : ℕ) (hf : Fintype.card F ≤ fuel) (b : Bool)
    (hb : boundaryFlag m fuel x start = some b) :
    valence m fuel b x start = some (if b then degree m x + 1 else degree m x) := by
  obtain ⟨b', hb', hiff⟩ := C90_boundary_search_terminates hw ho hx fuel hf
  rw [hb] at hb'
  have hbb := Option.some.inj hb'
  subst hbb
  cases b with
  | false =>
    have hni : ∀ n, walk (nx m x) n (some start) ≠ none := fun n e => by
      have := hiff.2 ⟨n, e⟩; exact absurd this (by simp)
    obtain ⟨d, g, hd, he, hstep, g0, hon, hinj, hall, -⟩ := interior_fan hw ho hu hx hni
    have hdeg : degree m x = d + 1 :=
      degree_of_walk (d + 1) g (fun i hi j hj => hinj i (by omega) j (by omega))
        (fun i hi => hon i (by omega)) (fun b hb => by
          obtain ⟨i, hi, e⟩ := hall b hb; exact ⟨i, by omega, e⟩)
    simp only [valence, Bool.false_eq_true, if_false]
    rw [nextFace_on hw hx, Option.bind_some,
      countCycle_spec hw ho start d fuel _ 1 (fun a ha => nx_on hw ho hx ha) (by omega) he
        (fun i hi => by rw [(hstep i hi).1]; simpa using (hstep i hi).2), hdeg]
    congr 1; omega
  | true =>
    obtain ⟨p, q, g, hp, hq, ⟨hpe, hpm⟩, ⟨hqe, hqm⟩, -, -, -, -, -, hon, hinj, hall⟩ :=
      boundary_fan hw ho hu hx (hiff.1 rfl)
    have hdeg : degree m x = p + q + 1 :=
      degree_of_walk (p + q + 1) g (fun i hi j hj => hinj i (by omega) j (by omega))
        (fun i hi => hon i (by omega)) (fun b hb => by
          obtain ⟨i, hi, e⟩ := hall b hb; exact ⟨i, by omega, e⟩)
    simp only [valence, if_true]
    rw [nextFace_on hw hx, Option.bind_some,
      countOut_spec (P := On m x) (fun a => nextFace m a x) (nx m x)
        (fun a ha => nextFace_on hw ha) (fun a b ha h => nx_on hw ho ha h) p fuel _ 1
        (fun a ha => nx_on hw ho hx ha) (by omega) hpe hpm, Option.bind_some,
      prevFace_on hw hx, Option.bind_some,
      countOut_spec (P := On m x) (fun a => prevFace m a x) (pv m x)
        (fun a ha => prevFace_on hw ha) (fun a b ha h => pv_on hw ho ha h) q fuel _ (1 + p)
        (fun a ha => pv_on hw ho hx ha) (by omega) hqe hqm, hdeg]
    simp only [Option.map_some]
    congr 1; omega

/-- C92: at a manifold vertex of a consistently oriented mesh `one_ring()` ends and returns every
neighbour of the vertex exactly once, and its length is the valence. -/
theorem C92_one_ring_is_the_neighbours (hw : WF m) (ho : Oriented m) (hu : Umbrella m x)
    {start : F} (hx : On m x start) (fuel : ℕ) (hf : Fintype.card F ≤ fuel) (b : Bool)
    (hb : boundaryFlag m fuel x start = some b) :
    ∃ ring, oneRing m fuel b x start = some ring ∧ ring.Nodup ∧
      valence m fuel b x start = some ring.length ∧
      ∀ y, y ∈ ring ↔ y ≠ x ∧ ∃ a, On m x a ∧ On m y a := by
  have hval := C91_valence_counts_edges hw ho hu hx fuel hf b hb
  obtain ⟨b', hb', hiff⟩ := C90_boundary_search_terminates hw ho hx fuel hf
  rw [hb] at hb'
  have hbb := Option.some.inj hb'
  subst hbb
  cases b with
  | false =>
    have hni : ∀ n, walk (nx m x) n (some start) ≠ none := fun n e => by
      have := hiff.2 ⟨n, e⟩; exact absurd this (by simp)
    obtain ⟨d, g, hd, he, hstep, g0, hon, hinj, hall, hpre⟩ := interior_fan hw ho hu hx hni
    have hdeg : degree m x = d + 1 :=
      degree_of_walk (d + 1) g (fun i hi j hj => hinj i (by omega) j (by omega))
        (fun i hi => hon i (by omega)) (fun b hb => by
          obtain ⟨i, hi, e⟩ := hall b hb; exact ⟨i, by omega, e⟩)
    refine ⟨(List.range (d + 1)).map fun i => nxv m x (g i), ?_, ?_, ?_, ?_⟩
    · simp only [oneRing, Bool.false_eq_true, if_false]
      rw [nextVert_on hw hx, Option.bind_some, nextFace_on hw hx, Option.bind_some,
        ringCycle_spec hw ho start d fuel _ _ (fun i => g (i + 1)) (fun a ha => nx_on hw ho hx ha)
          (by omega) he hstep, List.range_succ_eq_map]
      simp [Function.comp_def, g0]
    · refine List.Nodup.map_on ?_ List.nodup_range
      intro i hi j hj e
      have hi' : i ≤ d := by simpa [Nat.lt_succ_iff] using hi
      have hj' : j ≤ d := by simpa [Nat.lt_succ_iff] using hj
      exact hinj i hi' j hj' (nxv_inj hw ho (hon i hi') (hon j hj') e)
    · rw [hval, hdeg]; simp
    · intro y
      simp only [List.mem_map, List.mem_range]
      constructor
      · rintro ⟨i, hi, rfl⟩
        have hO := hon i (by omega)
        have := (corner_cases hw hO (nxv m x (g i))).2 (Or.inl rfl)
        exact ⟨this.2, g i, hO, this.1⟩
      · rintro ⟨hne, a, ha, hy⟩
        rcases (corner_cases hw ha y).1 ⟨hy, hne⟩ with e | e
        · obtain ⟨i, hi, rfl⟩ := hall a ha
          exact ⟨i, by omega, e.symm⟩
        · obtain ⟨i, hi, hg⟩ := hpre a ha
          exact ⟨i, by omega, by rw [e, pvv_nx hw ho (hon i hi) hg]⟩
  | true =>
    obtain ⟨p, q, g, hp, hq, ⟨hpe, hpm⟩, ⟨hqe, hqm⟩, hpq, hl, hln, hgi, hge, hon, hinj, hall⟩ :=
      boundary_fan hw ho hu hx (hiff.1 rfl)
    have hdeg : degree m x = p + q + 1 :=
      degree_of_walk (p + q + 1) g (fun i hi j hj => hinj i (by omega) j (by omega))
        (fun i hi => hon i (by omega)) (fun b hb => by
          obtain ⟨i, hi, e⟩ := hall b hb; exact ⟨i, by omega, e⟩)
    have h0 := hon 0 (by omega)
    refine ⟨nxv m x (g 0) :: (List.range (p + q + 1)).map fun i => pvv m x (g i), ?_, ?_, ?_, ?_⟩
    · simp only [oneRing, if_true]
      obtain ⟨l, hl1, hl2⟩ := lastFace_spec hw ho p fuel start hx (by omega) hpe hpm
      rw [hl] at hl2
      have := Option.some.inj hl2
      subst this
      rw [nextFace_on hw hx, Option.bind_some, hl1, Option.bind_some, nextVert_on hw h0,
        Option.bind_some, prevVert_on hw h0, Option.bind_some, prevFace_on hw h0,
        Option.bind_some,
        ringOut_spec hw ho (p + q) fuel _ _ (fun i => g (i + 1))
          (fun a ha => pv_on hw ho h0 ha) (by omega) hge (fun i hi => hgi (i + 1) (by omega)),
        List.range_succ_eq_map]
      simp [Function.comp_def]
    · rw [List.nodup_cons]
      constructor
      · simp only [List.mem_map, List.mem_range, not_exists, not_and]
        intro i hi e
        exact nxv_last hw h0 (hon i (by omega)) hln e.symm
      · refine List.Nodup.map_on ?_ List.nodup_range
        intro i hi j hj e
        have hi' : i ≤ p + q := by simpa [Nat.lt_succ_iff] using hi
        have hj' : j ≤ p + q := by simpa [Nat.lt_succ_iff] using hj
        exact hinj i hi' j hj' (pvv_inj hw ho (hon i hi') (hon j hj') e)
    · rw [hval, hdeg]; simp
    · intro y
      simp only [List.mem_cons, List.mem_map, List.mem_range]
      constructor
      · rintro (rfl | ⟨i, hi, rfl⟩)
        · have := (corner_cases hw h0 (nxv m x (g 0))).2 (Or.inl rfl)
          exact ⟨this.2, g 0, h0, this.1⟩
        · have hO := hon i (by omega)
          have := (corner_cases hw hO (pvv m x (g i))).2 (Or.inr rfl)
          exact ⟨this.2, g i, hO, this.1⟩
      · rintro ⟨hne, a, ha, hy⟩
        rcases (corner_cases hw ha y).1 ⟨hy, hne⟩ with e | e
        · obtain ⟨i, hi, rfl⟩ := hall a ha
          cases i with
          | zero => exact Or.inl e
          | succ i =>
            right
            have h1 := hgi (i + 1) hi
            rw [walk_succ', hgi i (by omega), Option.bind_some] at h1
            have h2 := (nx_iff_pv hw ho (hon _ hi) (hon i (by omega))).2 h1
            exact ⟨i, by omega, by rw [e, pvv_nx hw ho (hon _ hi) h2]⟩
        · obtain ⟨i, hi, rfl⟩ := hall a ha
          exact Or.inr ⟨i, by omega, e.symm⟩

end main

end Verif.Loop
