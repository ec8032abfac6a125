import Mathlib.Data.List.Nodup
import Mathlib.Data.List.Range
import Mathlib.Tactic.Linarith

/-!
# Refinement of primitives (`pytracer/aggregate/primitive.py`): property C33
-/

namespace Verif.Agg

/-! ## Model -/

/-- a shape seen through `can_intersect()` and `refine()` (`shape/shape.py`): either intersectable,
or refined into a list of shapes.  Every shape whose refinement is finite is such a tree. -/
inductive Shape (S : Type*) where
  | simple (s : S)
  | compound (s : S) (parts : List (Shape S))

/-- `shape.can_intersect()`. -/
def Shape.canIntersect {S : Type*} : Shape S → Bool
  | .simple _ => true
  | .compound _ _ => false

/-- `GeometricPrimitive` (`primitive.py:79-84`) with the id given by `Primitive.__init__` (28-30). -/
structure GPrim (S M A : Type*) where
  id : ℕ
  shape : Shape S
  material : M
  areaLight : A

/-- the loop of `GeometricPrimitive.refine` (`primitive.py:119-122`): one new primitive for each part,
each drawing the next id (`primitive.py:28-30`), appended in order. -/
def wrapParts {S M A : Type*} (m : M) (a : A) : List (Shape S) → ℕ → List (GPrim S M A) × ℕ
  | [], next => ([], next)
  | s :: ss, next =>
    let r := wrapParts m a ss (next + 1)
    (⟨next, s, m, a⟩ :: r.1, r.2)

/-- `prim.refine(todo)` (`primitive.py:119-122`) for a primitive that cannot be intersected. -/
def refineInto {S M A : Type*} (p : GPrim S M A) (todo : List (GPrim S M A)) (next : ℕ) :
    List (GPrim S M A) × ℕ :=
  match p.shape with
  | .simple _ => (todo, next)
  | .compound _ parts =>
    let r := wrapParts p.material p.areaLight parts next
    (todo ++ r.1, r.2)

/-- the loop of `full_refine` (`primitive.py:68-75`); `todo.pop()` takes the last element.  `none`
means that the fuel ran out (proved not to happen). -/
def refineLoop {S M A : Type*} : ℕ → List (GPrim S M A) → List (GPrim S M A) → ℕ →
    Option (List (GPrim S M A) × ℕ)
  | 0, _, _, _ => none
  | fuel + 1, todo, refined, next =>
    match todo.getLast? with
    | none => some (refined, next)
    | some prim =>
      if prim.shape.canIntersect then refineLoop fuel todo.dropLast (refined ++ [prim]) next
      else
        let r := refineInto prim todo.dropLast next
        refineLoop fuel r.1 refined r.2

/-- `p.full_refine(refined)` (`primitive.py:68-75`) with `next = Primitive.next_primitiveId`. -/
def fullRefine {S M A : Type*} (fuel : ℕ) (p : GPrim S M A) (refined : List (GPrim S M A)) (next : ℕ) :
    Option (List (GPrim S M A) × ℕ) :=
  refineLoop fuel [p] refined next

/-! ## Specification -/

/-- the intersectable shapes below a shape, left to right -/
def Shape.leaves {S : Type*} : Shape S → List S
  | .simple s => [s]
  | .compound _ parts => parts.attach.flatMap (fun ⟨x, _⟩ => Shape.leaves x)
termination_by s => sizeOf s
decreasing_by
  rename_i h; have := List.sizeOf_lt_of_mem h; simp; omega

theorem Shape.leaves_compound {S : Type*} (s : S) (parts : List (Shape S)) :
    (Shape.compound s parts).leaves = parts.flatMap Shape.leaves := by
  rw [Shape.leaves, List.flatMap_subtype (g := Shape.leaves)]
  · simp
  · intros; rfl

/-- number of loop rounds a shape causes -/
def Shape.rounds {S : Type*} : Shape S → ℕ
  | .simple _ => 1
  | .compound _ parts => 1 + (parts.attach.map (fun ⟨x, _⟩ => Shape.rounds x)).sum
termination_by s => sizeOf s
decreasing_by
  rename_i h; have := List.sizeOf_lt_of_mem h; simp; omega

theorem Shape.rounds_compound {S : Type*} (s : S) (parts : List (Shape S)) :
    (Shape.compound s parts).rounds = 1 + (parts.map Shape.rounds).sum := by
  rw [Shape.rounds, List.map_subtype (g := Shape.rounds)]
  · simp
  · intros; rfl

/-- the refined list contains the primitive `p` of the shape leaf `s` -/
def IsLeaf {S M A : Type*} (p : GPrim S M A) (s : S) (m : M) (a : A) : Prop :=
  p.shape = .simple s ∧ p.material = m ∧ p.areaLight = a

/-! ## Proofs -/

section
variable {S M A : Type*}

theorem wrapParts_shapes (m : M) (a : A) (ss : List (Shape S)) (n : ℕ) :
    (wrapParts m a ss n).1.map GPrim.shape = ss := by
  induction ss generalizing n with
  | nil => rfl
  | cons s ss ih => simp [wrapParts, ih]

theorem wrapParts_attr (m : M) (a : A) (ss : List (Shape S)) (n : ℕ) :
    ∀ p ∈ (wrapParts m a ss n).1, p.material = m ∧ p.areaLight = a := by
  induction ss generalizing n with
  | nil => simp [wrapParts]
  | cons s ss ih =>
    intro p hp
    simp only [wrapParts, List.mem_cons] at hp
    rcases hp with rfl | hp
    · exact ⟨rfl, rfl⟩
    · exact ih _ p hp

theorem wrapParts_ids (m : M) (a : A) (ss : List (Shape S)) (n : ℕ) :
    (wrapParts m a ss n).1.map GPrim.id = List.range' n ss.length ∧ (wrapParts m a ss n).2 = n + ss.length := by
  induction ss generalizing n with
  | nil => simp [wrapParts]
  | cons s ss ih =>
    obtain ⟨h1, h2⟩ := ih (n + 1)
    simp only [wrapParts, List.map_cons, h1, h2, List.length_cons, List.range'_succ]
    exact ⟨trivial, by omega⟩

/-- rounds needed for a whole work list -/
def work (todo : List (GPrim S M A)) : ℕ := (todo.map (fun p => p.shape.rounds)).sum

/-- leaves of a work list in the order the loop reaches them -/
def pending (todo : List (GPrim S M A)) : List S :=
  todo.reverse.flatMap (fun p => p.shape.leaves.reverse)

theorem shape_list {ps : List (GPrim S M A)} {ss : List (Shape S)} (h : ps.map GPrim.shape = ss) {β : Type*}
    (f : Shape S → β) : ps.map (fun p => f p.shape) = ss.map f := by
  subst h; simp

theorem flatMap_reverse {α β : Type*} (f : α → List β) (l : List α) :
    l.reverse.flatMap (fun x => (f x).reverse) = (l.flatMap f).reverse := by
  induction l with
  | nil => rfl
  | cons a l ih => simp [List.flatMap_append, ih]

theorem loop_spec (m : M) (a : A) (fuel : ℕ) (todo refined : List (GPrim S M A)) (next : ℕ)
    (hattr : ∀ p ∈ todo, p.material = m ∧ p.areaLight = a)
    (hids : ((todo ++ refined).map GPrim.id).Nodup) (hlt : ∀ p ∈ todo ++ refined, p.id < next)
    (hf : work todo < fuel) :
    ∃ new next', refineLoop fuel todo refined next = some (refined ++ new, next') ∧
      List.Forall₂ (fun p s => IsLeaf p s m a) new (pending todo) ∧
      ((refined ++ new).map GPrim.id).Nodup ∧ next ≤ next' ∧ (∀ p ∈ refined ++ new, p.id < next') ∧
      (∀ p ∈ new, p ∈ todo ∨ next ≤ p.id) := by
  induction fuel generalizing todo refined next with
  | zero => omega
  | succ fuel ih =>
    rcases List.eq_nil_or_concat todo with rfl | ⟨rest, p, rfl⟩
    · refine ⟨[], next, by simp [refineLoop], by simp [pending], by simpa using hids, le_rfl, ?_, by simp⟩
      simpa using hlt
    · have hp := hattr p (by simp)
      have hrest : ∀ q ∈ rest, q.material = m ∧ q.areaLight = a := fun q hq => hattr q (by simp [hq])
      simp only [work, List.concat_eq_append, List.map_append, List.sum_append, List.map_cons, List.map_nil, List.sum_cons,
        List.sum_nil] at hf
      cases hs : p.shape with
      | simple s =>
        have hr : p.shape.rounds = 1 := by rw [hs, Shape.rounds]
        have hperm : ((rest ++ (refined ++ [p])).map GPrim.id).Perm ((rest.concat p ++ refined).map GPrim.id) := by
          apply List.Perm.map
          simp only [List.concat_eq_append, List.append_assoc]
          exact List.Perm.append_left _ List.perm_append_comm
        obtain ⟨new, next', h1, h2, h3, h4, h5, h6⟩ := ih rest (refined ++ [p]) next hrest
          (hperm.nodup_iff.2 (by simpa using hids))
          (by intro q hq; apply hlt; simp at hq ⊢; tauto) (by unfold work; omega)
        refine ⟨p :: new, next', ?_, ?_, by simpa using h3, h4, by simpa using h5, ?_⟩
        · simp [refineLoop, hs, Shape.canIntersect, h1]
        · have : pending (rest.concat p) = s :: pending rest := by
            simp [pending, hs, Shape.leaves]
          rw [this]
          exact List.Forall₂.cons ⟨hs, hp.1, hp.2⟩ h2
        · intro q hq
          rcases List.mem_cons.1 hq with rfl | hq
          · left; simp
          · rcases h6 q hq with h | h
            · left; simp [h]
            · right; exact h
      | compound s parts =>
        have hr : p.shape.rounds = 1 + (parts.map Shape.rounds).sum := by rw [hs, Shape.rounds_compound]
        set w := wrapParts p.material p.areaLight parts next with hw
        have hsh : w.1.map GPrim.shape = parts := wrapParts_shapes _ _ _ _
        have hat := wrapParts_attr p.material p.areaLight parts next
        obtain ⟨hi1, hi2⟩ := wrapParts_ids p.material p.areaLight parts next
        rw [← hw] at hi1 hi2 hat
        have hwid : ∀ q ∈ w.1, next ≤ q.id ∧ q.id < w.2 := by
          intro q hq
          have : q.id ∈ w.1.map GPrim.id := List.mem_map.2 ⟨q, hq, rfl⟩
          rw [hi1, List.mem_range'_1] at this
          omega
        have hnd : ((rest ++ refined).map GPrim.id).Nodup := by
          refine List.Nodup.sublist (List.Sublist.map _ ?_) hids
          simp
        obtain ⟨new, next', h1, h2, h3, h4, h5, h6⟩ := ih (rest ++ w.1) refined w.2
          (by
            intro q hq
            rcases List.mem_append.1 hq with h | h
            · exact hrest q h
            · exact ⟨(hat q h).1.trans hp.1, (hat q h).2.trans hp.2⟩)
          (by
            have hperm : ((rest ++ w.1 ++ refined).map GPrim.id).Perm
                (w.1.map GPrim.id ++ (rest ++ refined).map GPrim.id) := by
              rw [← List.map_append]
              apply List.Perm.map
              rw [← List.append_assoc]
              exact List.Perm.append_right _ List.perm_append_comm
            rw [hperm.nodup_iff, List.nodup_append]
            refine ⟨by rw [hi1]; exact List.nodup_range', hnd, ?_⟩
            intro x hx y hy hxy
            rw [hi1, List.mem_range'_1] at hx
            obtain ⟨q, hq, rfl⟩ := List.mem_map.1 hy
            have := hlt q (by simp at hq ⊢; tauto)
            omega)
          (by
            intro q hq
            simp only [List.mem_append] at hq
            rcases hq with (h | h) | h
            · have := hlt q (by simp [h]); omega
            · exact (hwid q h).2
            · have := hlt q (by simp [h]); omega)
          (by
            have : work (rest ++ w.1) = (rest.map (fun p => p.shape.rounds)).sum + (parts.map Shape.rounds).sum := by
              simp only [work, List.map_append, List.sum_append]
              rw [shape_list hsh Shape.rounds]
            omega)
        refine ⟨new, next', ?_, ?_, h3, by omega, h5, ?_⟩
        · simp [refineLoop, refineInto, hs, Shape.canIntersect, ← hw, h1]
        · have e1 : pending (rest ++ w.1) = pending (rest.concat p) := by
            simp only [pending, List.reverse_append, List.flatMap_append, List.concat_eq_append]
            congr 1
            have := flatMap_reverse (fun q : GPrim S M A => q.shape.leaves) w.1
            rw [this, List.flatMap_def, shape_list hsh Shape.leaves, ← List.flatMap_def]
            simp [hs, Shape.leaves_compound]
          rw [← e1]; exact h2
        · intro q hq
          rcases h6 q hq with h | h
          · rcases List.mem_append.1 h with h | h
            · left; simp [h]
            · right; exact (hwid q h).1
          · right; omega

/-- **C33** `p.full_refine(refined)` terminates for every finite refinement tree, keeps what was in
`refined`, and appends one primitive for each intersectable leaf shape of the tree (in reverse
left-to-right order), with `p`'s material and area light; nothing else is appended, and every
primitive it creates gets an id that no other primitive has. -/
theorem C33_full_refine (p : GPrim S M A) (refined : List (GPrim S M A)) (next : ℕ)
    (hids : ((p :: refined).map GPrim.id).Nodup) (hlt : ∀ q ∈ p :: refined, q.id < next) :
    ∃ new next', (∀ fuel > p.shape.rounds, fullRefine fuel p refined next = some (refined ++ new, next')) ∧
      List.Forall₂ (fun q s => IsLeaf q s p.material p.areaLight) new p.shape.leaves.reverse ∧
      ((refined ++ new).map GPrim.id).Nodup ∧ next ≤ next' ∧ (∀ q ∈ refined ++ new, q.id < next') ∧
      (∀ q ∈ new, q = p ∨ next ≤ q.id) := by
  have key : ∀ fuel > p.shape.rounds, _ := fun fuel hf =>
    loop_spec p.material p.areaLight fuel [p] refined next (by simp) (by simpa using hids) (by simpa using hlt)
      (by simp [work]; omega)
  obtain ⟨new, next', h1, h2, h3, h4, h5, h6⟩ := key (p.shape.rounds + 1) (by omega)
  refine ⟨new, next', ?_, by simpa [pending] using h2, h3, h4, h5, by simpa using h6⟩
  intro fuel hf
  have mono : ∀ (n : ℕ) (todo r : List (GPrim S M A)) (nx : ℕ) (res), refineLoop n todo r nx = some res →
      ∀ k, refineLoop (n + k) todo r nx = some res := by
    intro n
    induction n with
    | zero => intro todo r nx res h; simp [refineLoop] at h
    | succ n ih =>
      intro todo r nx res h k
      rw [show n + 1 + k = (n + k) + 1 by omega]
      simp only [refineLoop] at h ⊢
      split
      · rename_i hx; simp only [hx] at h; exact h
      · rename_i q hx
        simp only [hx] at h
        split at h
        · rename_i hc; simp only [hc, if_true]; exact ih _ _ _ _ h k
        · rename_i hc; simp only [hc]; exact ih _ _ _ _ h k
  have := mono _ _ _ _ _ h1 (fuel - (p.shape.rounds + 1))
  rw [show p.shape.rounds + 1 + (fuel - (p.shape.rounds + 1)) = fuel by omega] at this
  exact this

/-- `full_refine` of an intersectable primitive appends that very primitive. -/
theorem C33_full_refine_simple (p : GPrim S M A) (s : S) (hs : p.shape = .simple s)
    (refined : List (GPrim S M A)) (next fuel : ℕ) (hf : 2 ≤ fuel) :
    fullRefine fuel p refined next = some (refined ++ [p], next) := by
  obtain ⟨k, rfl⟩ : ∃ k, fuel = k + 2 := ⟨fuel - 2, by omega⟩
  simp [fullRefine, refineLoop, hs, Shape.canIntersect]

/-- non-vacuity: a two-level tree with five leaves -/
example : (Shape.compound 0 [.simple 1, .compound 2 [.simple 3, .simple 4], .compound 5 [], .simple 6]).leaves
    = [1, 3, 4, 6] := by
  simp [Shape.leaves_compound, Shape.leaves]

example : fullRefine 20 (⟨3, .compound 0 [.simple 1, .compound 2 [.simple 3, .simple 4], .simple 6], "m", "a"⟩ : GPrim ℕ String String) [] 7
    = some ([⟨9, .simple 6, "m", "a"⟩, ⟨11, .simple 4, "m", "a"⟩, ⟨10, .simple 3, "m", "a"⟩, ⟨7, .simple 1, "m", "a"⟩], 12) := by
  simp [fullRefine, refineLoop, refineInto, wrapParts, Shape.canIntersect]

end
end Verif.Agg
