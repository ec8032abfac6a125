import Mathlib.Algebra.Group.Basic
import Mathlib.Logic.Function.Basic
import Mathlib.Data.List.Basic
import Mathlib.Order.Basic
import Mathlib.Order.Nat
import Mathlib.Algebra.Group.Int.TypeTags
/-!
# The scene description calls (C50, C68)

Models `pytracer/interface/api.py` 57-241 (the calls that touch the current transforms, the coordinate systems, the
graphics state and the two stacks) over the module state of `pytracer/interface/__init__.py` 16-34.  The current
transforms are one Python list object; assigning it or pushing it shares it, `TRANSFORM_SET[i] *= …` changes the object.
So the model has a heap of lists and everything else holds references.

Simplifications: `api.py` cannot be imported as it stands (its annotations name classes imported only under
`TYPE_CHECKING`, and the decorator reads `API_STATUS` while the package is still being imported); the model takes the
import as succeeding.  Transforms are any type with a product, a unit and an inverse
(`Transform.__mul__`, `Transform()`, `Transform.inverse`; their meaning is C07-C10); the five calls that multiply
(`trans_translate`, `trans_rotate`, `trans_scale`, `trans_look_at`, `trans_concat`) differ only in the factor and are one
command.  The calls that only store a name and a `Param` in `RENDER_OPTION` are left out.
-/
set_option linter.unusedSectionVars false
namespace Verif.Api

/-- the exceptions the calls can end with -/
inductive Err | typeError | attributeError | runtimeError | indexError
  deriving DecidableEq, Repr

variable {T G : Type*}

/-- the module state: `pytracer/interface/__init__.py` 27-34, with list objects behind references -/
structure St (T G : Type*) where
  /-- contents of the list objects; an entry is `None` before the first `trans_identity`/`trans_set` (line 33) -/
  heap : ℕ → List (Option T)
  /-- first reference not in use -/
  next : ℕ
  /-- `TRANSFORM_SET` -/
  cur : ℕ
  /-- `TRANSFORM_STACK`, top first -/
  tstack : List ℕ
  /-- `GRAPHICS_STATE` -/
  gs : G
  /-- `GRAPHICS_STATE_STACK`, top first -/
  gstack : List G
  /-- `COORDINATE_SYSTEM` -/
  cs : String → Option ℕ

/-- the state after import and `system_init`: `__init__.py` 27-34, `api.py` 33 -/
def init (g : G) : St T G := ⟨fun _ => [none, none], 1, 0, [], g, [], fun _ => none⟩

/-- contents of the current transform list -/
def St.now (s : St T G) : List (Option T) := s.heap s.cur

/-- the calls -/
inductive Cmd (T : Type*)
  /-- `trans_identity`, api.py 58-62 -/
  | ident
  /-- `trans_translate` … `trans_concat`, api.py 65-106 -/
  | concat (t : T)
  /-- `trans_set`, api.py 110-113 -/
  | set (t : T)
  /-- `add_coordinate_system`, api.py 118-121 -/
  | addCS (n : String)
  /-- `set_coordinate_system`, api.py 125-131 -/
  | setCS (n : String)
  /-- `set_camera`, api.py 158-163 -/
  | camera
  /-- `world_begin`, api.py 203-207 -/
  | worldBegin
  /-- `attribute_begin`, api.py 211-214 -/
  | attrBegin
  /-- `attribute_end`, api.py 218-225 -/
  | attrEnd
  /-- `transform_begin`, api.py 229-231 -/
  | transBegin
  /-- `transform_end`, api.py 235-241 -/
  | transEnd

section
variable [Mul T] [One T] [Inv T]

/-- the loop `TRANSFORM_SET[i] *= t`, api.py 70-71 and the like; `None *= t` raises `TypeError` -/
def mulAll (t : T) : List (Option T) → Except Err (List (Option T))
  | [] => .ok []
  | none :: _ => .error .typeError
  | some x :: r => do
    let r' ← mulAll t r
    return some (x * t) :: r'

/-- `[trans.inverse() for trans in TRANSFORM_SET]`, api.py 162; `None.inverse` raises `AttributeError` -/
def invAll : List (Option T) → Except Err (List (Option T))
  | [] => .ok []
  | none :: _ => .error .attributeError
  | some x :: r => do
    let r' ← invAll r
    return some x⁻¹ :: r'

/-- `TRANSFORM_SET[i] = …` for all `i`: the list object is changed -/
def St.write (s : St T G) (l : List (Option T)) : St T G := { s with heap := Function.update s.heap s.cur l }

/-- one call (an exception ends the script, so the state after it is not kept) -/
def step (s : St T G) : Cmd T → Except Err (St T G)
  | .ident => .ok (s.write (s.now.map fun _ => some 1))
  | .concat t => match mulAll t s.now with
    | .error e => .error e
    | .ok l => .ok (s.write l)
  | .set t => .ok (s.write (s.now.map fun _ => some t))
  | .addCS n => .ok { s with cs := Function.update s.cs n (some s.cur) }
  | .setCS n => match s.cs n with
    | none => .error .runtimeError
    | some r => .ok { s with cur := r }
  | .camera => match invAll s.now with
    | .error e => .error e
    | .ok l => .ok { s with heap := Function.update s.heap s.next l, next := s.next + 1,
                            cs := Function.update s.cs "camera" (some s.next) }
  | .worldBegin =>
    let s' := s.write (s.now.map fun _ => some 1)
    .ok { s' with cs := Function.update s'.cs "world" (some s'.cur) }
  | .attrBegin => .ok { s with gstack := s.gs :: s.gstack, tstack := s.cur :: s.tstack }
  | .attrEnd => match s.gstack with
    | [] => .ok s
    | g :: gr => match s.tstack with
      | [] => .error .indexError
      | c :: cr => .ok { s with gs := g, gstack := gr, cur := c, tstack := cr }
  | .transBegin => .ok { s with tstack := s.cur :: s.tstack }
  | .transEnd => match s.tstack with
    | [] => .ok s
    | c :: cr => .ok { s with cur := c, tstack := cr }

/-- a script: calls until the first exception -/
def run : St T G → List (Cmd T) → Except Err (St T G)
  | s, [] => .ok s
  | s, c :: r => do
    let s' ← step s c
    run s' r

end

/-! ### Specification -/

/-- not one of the four scoping calls -/
def Cmd.plain : Cmd T → Bool
  | .attrBegin | .attrEnd | .transBegin | .transEnd => false
  | _ => true

/-- properly nested call sequences -/
inductive Nested : List (Cmd T) → Prop
  | nil : Nested []
  | call (c : Cmd T) : c.plain = true → Nested [c]
  | append {a b : List (Cmd T)} : Nested a → Nested b → Nested (a ++ b)
  | attrScope {b : List (Cmd T)} : Nested b → Nested (.attrBegin :: (b ++ [.attrEnd]))
  | transScope {b : List (Cmd T)} : Nested b → Nested (.transBegin :: (b ++ [.transEnd]))

/-- changes a transform list in place -/
def Cmd.updates : Cmd T → Bool
  | .ident | .concat _ | .set _ | .worldBegin => true
  | _ => false

/-- switches to a named coordinate system -/
def Cmd.switches : Cmd T → Bool
  | .setCS _ => true
  | _ => false

/-- (re)defines the coordinate system `n` -/
def Cmd.defines (n : String) : Cmd T → Bool
  | .addCS m => decide (m = n)
  | .camera => decide (n = "camera")
  | .worldBegin => decide (n = "world")
  | _ => false

/-! ### Proofs -/
section
variable [Mul T] [One T] [Inv T]

theorem run_append (s : St T G) (a b : List (Cmd T)) : run s (a ++ b) = (run s a).bind fun s' => run s' b := by
  induction a generalizing s with
  | nil => rfl
  | cons c a ih =>
    simp only [List.cons_append, run, bind]
    cases h : step s c with
    | error e => rfl
    | ok s' => exact ih s'

theorem run_append_ok {s s' : St T G} {a b : List (Cmd T)} (h : run s (a ++ b) = .ok s') :
    ∃ m, run s a = .ok m ∧ run m b = .ok s' := by
  rw [run_append] at h
  cases h1 : run s a with
  | error e => rw [h1] at h; cases h
  | ok m => exact ⟨m, rfl, by rw [h1] at h; exact h⟩

theorem step_plain {s s' : St T G} {c : Cmd T} (hc : c.plain = true) (h : step s c = .ok s') :
    s'.gs = s.gs ∧ s'.gstack = s.gstack ∧ s'.tstack = s.tstack := by
  cases c with
  | ident => cases h; exact ⟨rfl, rfl, rfl⟩
  | concat t =>
    simp only [step] at h
    split at h
    · cases h
    · cases h; exact ⟨rfl, rfl, rfl⟩
  | set t => cases h; exact ⟨rfl, rfl, rfl⟩
  | addCS n => cases h; exact ⟨rfl, rfl, rfl⟩
  | setCS n =>
    simp only [step] at h
    split at h
    · cases h
    · cases h; exact ⟨rfl, rfl, rfl⟩
  | camera =>
    simp only [step] at h
    split at h
    · cases h
    · cases h; exact ⟨rfl, rfl, rfl⟩
  | worldBegin => cases h; exact ⟨rfl, rfl, rfl⟩
  | attrBegin => cases hc
  | attrEnd => cases hc
  | transBegin => cases hc
  | transEnd => cases hc

theorem run_single {s s' : St T G} {c : Cmd T} (h : run s [c] = .ok s') : step s c = .ok s' := by
  simp only [run, bind, Except.bind] at h
  split at h
  · cases h
  · rename_i m hm
    cases h; exact hm

theorem run_cons {s m : St T G} {c : Cmd T} (h : step s c = .ok m) (r : List (Cmd T)) : run s (c :: r) = run m r := by
  simp only [run, bind, h, Except.bind]

theorem nested_stacks {b : List (Cmd T)} (hb : Nested b) : ∀ {s s' : St T G}, run s b = .ok s' →
    s'.gs = s.gs ∧ s'.gstack = s.gstack ∧ s'.tstack = s.tstack := by
  induction hb with
  | nil => intro s s' h; cases h; exact ⟨rfl, rfl, rfl⟩
  | call c hc => intro s s' h; exact step_plain hc (run_single h)
  | append _ _ iha ihb =>
    intro s s' h
    obtain ⟨m, h1, h2⟩ := run_append_ok h
    obtain ⟨a1, a2, a3⟩ := iha h1
    obtain ⟨b1, b2, b3⟩ := ihb h2
    exact ⟨b1.trans a1, b2.trans a2, b3.trans a3⟩
  | attrScope _ ih =>
    intro s s' h
    rw [run_cons (m := { s with gstack := s.gs :: s.gstack, tstack := s.cur :: s.tstack }) rfl] at h
    obtain ⟨m, h1, h2⟩ := run_append_ok h
    obtain ⟨a1, a2, a3⟩ := ih h1
    have h2 := run_single h2
    simp only [step, a2, a3] at h2
    cases h2; exact ⟨rfl, rfl, rfl⟩
  | transScope _ ih =>
    intro s s' h
    rw [run_cons (m := { s with tstack := s.cur :: s.tstack }) rfl] at h
    obtain ⟨m, h1, h2⟩ := run_append_ok h
    obtain ⟨a1, a2, a3⟩ := ih h1
    have h2 := run_single h2
    simp only [step, a3] at h2
    cases h2; exact ⟨a1, a2, rfl⟩

theorem scope_result {s s' : St T G} {b : List (Cmd T)} (hb : Nested b) :
    (run s (.attrBegin :: (b ++ [.attrEnd])) = .ok s' ∨ run s (.transBegin :: (b ++ [.transEnd])) = .ok s') →
    s'.cur = s.cur := by
  rintro (h | h)
  · rw [run_cons (m := { s with gstack := s.gs :: s.gstack, tstack := s.cur :: s.tstack }) rfl] at h
    obtain ⟨m, h1, h2⟩ := run_append_ok h
    obtain ⟨a1, a2, a3⟩ := nested_stacks hb h1
    have h2 := run_single h2
    simp only [step, a2, a3] at h2
    cases h2; rfl
  · rw [run_cons (m := { s with tstack := s.cur :: s.tstack }) rfl] at h
    obtain ⟨m, h1, h2⟩ := run_append_ok h
    obtain ⟨a1, a2, a3⟩ := nested_stacks hb h1
    have h2 := run_single h2
    simp only [step, a3] at h2
    cases h2; rfl

/-- **C50 (part)** after a properly nested scope (either kind) the graphics state, both stacks and the current transform
*list object* are those before the begin.  Missing: the contents of that list, see `C50_contents_partial`,
`C50_transforms_leak_false`. -/
theorem C50_restore_partial (s s' : St T G) (b : List (Cmd T)) (hb : Nested b)
    (h : run s (.attrBegin :: (b ++ [.attrEnd])) = .ok s' ∨ run s (.transBegin :: (b ++ [.transEnd])) = .ok s') :
    s'.gs = s.gs ∧ s'.gstack = s.gstack ∧ s'.tstack = s.tstack ∧ s'.cur = s.cur := by
  refine ⟨?_, ?_, ?_, scope_result hb h⟩ <;> rcases h with h | h
  · exact (nested_stacks (.attrScope hb) h).1
  · exact (nested_stacks (.transScope hb) h).1
  · exact (nested_stacks (.attrScope hb) h).2.1
  · exact (nested_stacks (.transScope hb) h).2.1
  · exact (nested_stacks (.attrScope hb) h).2.2
  · exact (nested_stacks (.transScope hb) h).2.2

theorem mulAll_err (t : T) : ∀ l : List (Option T), mulAll t l ≠ .error .indexError
  | [] => by simp [mulAll]
  | none :: _ => by simp [mulAll]
  | some x :: r => by
    have := mulAll_err t r
    simp only [mulAll, bind, Except.bind]
    split
    · rename_i e he
      intro h; cases h; exact this he
    · simp [pure, Except.pure]

theorem invAll_err : ∀ l : List (Option T), invAll l ≠ .error .indexError
  | [] => by simp [invAll]
  | none :: _ => by simp [invAll]
  | some x :: r => by
    have := invAll_err r
    simp only [invAll, bind, Except.bind]
    split
    · rename_i e he
      intro h; cases h; exact this he
    · simp [pure, Except.pure]

theorem step_plain_err {s : St T G} {c : Cmd T} (hc : c.plain = true) : step s c ≠ .error .indexError := by
  cases c with
  | concat t =>
    intro h
    simp only [step] at h
    split at h
    · rename_i e he; cases h; exact mulAll_err _ _ he
    · cases h
  | camera =>
    intro h
    simp only [step] at h
    split at h
    · rename_i e he; cases h; exact invAll_err _ he
    · cases h
  | setCS n =>
    simp only [step]
    split <;> simp
  | ident => simp [step]
  | set t => simp [step]
  | addCS n => simp [step]
  | worldBegin => simp [step]
  | attrBegin => cases hc
  | attrEnd => cases hc
  | transBegin => cases hc
  | transEnd => cases hc

/-- **C50** properly nested scripts never pop an empty stack. -/
theorem C50_nested_never_underflows (b : List (Cmd T)) (hb : Nested b) : ∀ (s : St T G), run s b ≠ .error .indexError := by
  induction hb with
  | nil => intro s h; cases h
  | call c hc =>
    intro s h
    simp only [run, bind, Except.bind] at h
    split at h
    · rename_i e he; cases h; exact step_plain_err hc he
    · cases h
  | append ha _ iha ihb =>
    intro s h
    rw [run_append] at h
    cases h1 : run s _ with
    | error e => rw [h1] at h; cases h; exact iha s h1
    | ok m => rw [h1] at h; exact ihb m h
  | attrScope hb ih =>
    intro s h
    rw [run_cons (m := { s with gstack := s.gs :: s.gstack, tstack := s.cur :: s.tstack }) rfl, run_append] at h
    cases h1 : run { s with gstack := s.gs :: s.gstack, tstack := s.cur :: s.tstack } _ with
    | error e => rw [h1] at h; cases h; exact ih _ h1
    | ok m =>
      rw [h1] at h
      obtain ⟨a1, a2, a3⟩ := nested_stacks hb h1
      simp [Except.bind, run, bind, step, a2, a3] at h
  | transScope hb ih =>
    intro s h
    rw [run_cons (m := { s with tstack := s.cur :: s.tstack }) rfl, run_append] at h
    cases h1 : run { s with tstack := s.cur :: s.tstack } _ with
    | error e => rw [h1] at h; cases h; exact ih _ h1
    | ok m =>
      rw [h1] at h
      obtain ⟨a1, a2, a3⟩ := nested_stacks hb h1
      simp [Except.bind, run, bind, step, a3] at h

/-- references in use lie below `next` -/
structure Ok (s : St T G) : Prop where
  cur : s.cur < s.next
  stack : ∀ r ∈ s.tstack, r < s.next
  cs : ∀ n r, s.cs n = some r → r < s.next

theorem Ok.init (g : G) : Ok (init g : St T G) := by
  refine ⟨Nat.one_pos, by simp [Api.init], ?_⟩
  intro n r h; simp [Api.init] at h

theorem Ok.step {s s' : St T G} (hs : Ok s) {c : Cmd T} (h : step s c = .ok s') : Ok s' ∧ s.next ≤ s'.next := by
  cases c with
  | ident => cases h; exact ⟨⟨hs.1, hs.2, hs.3⟩, le_rfl⟩
  | concat t =>
    simp only [Api.step] at h
    split at h
    · cases h
    · cases h; exact ⟨⟨hs.1, hs.2, hs.3⟩, le_rfl⟩
  | set t => cases h; exact ⟨⟨hs.1, hs.2, hs.3⟩, le_rfl⟩
  | addCS m =>
    cases h
    refine ⟨⟨hs.1, hs.2, ?_⟩, le_rfl⟩
    intro n r hr
    by_cases e : n = m
    · subst e
      simp only [Function.update_self, Option.some.injEq] at hr
      exact hr ▸ hs.1
    · exact hs.3 n r (by simpa [Function.update_of_ne e] using hr)
  | setCS n =>
    simp only [Api.step] at h
    split at h
    · cases h
    · rename_i r hr; cases h; exact ⟨⟨hs.3 _ _ hr, hs.2, hs.3⟩, le_rfl⟩
  | camera =>
    simp only [Api.step] at h
    split at h
    · cases h
    · cases h
      refine ⟨⟨Nat.lt_succ_of_lt hs.1, fun r hr => Nat.lt_succ_of_lt (hs.2 r hr), ?_⟩, Nat.le_succ _⟩
      intro n r hr
      by_cases e : n = "camera"
      · subst e
        simp only [Function.update_self, Option.some.injEq] at hr
        exact hr ▸ Nat.lt_succ_self _
      · exact Nat.lt_succ_of_lt (hs.3 n r (by simpa [Function.update_of_ne e] using hr))
  | worldBegin =>
    cases h
    refine ⟨⟨hs.1, hs.2, ?_⟩, le_rfl⟩
    intro n r hr
    by_cases e : n = "world"
    · subst e
      simp only [Function.update_self, Option.some.injEq] at hr
      exact hr ▸ hs.1
    · exact hs.3 n r (by simpa [St.write, Function.update_of_ne e] using hr)
  | attrBegin =>
    cases h
    exact ⟨⟨hs.1, fun r hr => by rcases List.mem_cons.1 hr with rfl | hr; exacts [hs.1, hs.2 r hr], hs.3⟩, le_rfl⟩
  | attrEnd =>
    simp only [Api.step] at h
    split at h
    · cases h; exact ⟨hs, le_rfl⟩
    · split at h
      · cases h
      · rename_i c cr ht
        cases h
        exact ⟨⟨hs.2 c (by rw [ht]; simp), fun r hr => hs.2 r (by rw [ht]; simp [hr]), hs.3⟩, le_rfl⟩
  | transBegin =>
    cases h
    exact ⟨⟨hs.1, fun r hr => by rcases List.mem_cons.1 hr with rfl | hr; exacts [hs.1, hs.2 r hr], hs.3⟩, le_rfl⟩
  | transEnd =>
    simp only [Api.step] at h
    split at h
    · cases h; exact ⟨hs, le_rfl⟩
    · rename_i c cr ht
      cases h
      exact ⟨⟨hs.2 c (by rw [ht]; simp), fun r hr => hs.2 r (by rw [ht]; simp [hr]), hs.3⟩, le_rfl⟩

/-- every state a script reaches from `system_init` is well formed -/
theorem Ok.run {s s' : St T G} (hs : Ok s) {b : List (Cmd T)} (h : run s b = .ok s') : Ok s' := by
  induction b generalizing s with
  | nil => cases h; exact hs
  | cons c b ih =>
    cases h1 : Api.step s c with
    | error e => simp [Api.run, bind, h1, Except.bind] at h
    | ok m =>
      rw [run_cons h1] at h
      exact ih (hs.step h1).1 h

theorem step_keeps {s s' : St T G} (hs : Ok s) {c : Cmd T} (hc : c.updates = false) (h : step s c = .ok s') (r : ℕ) (hr : r < s.next) :
    s'.heap r = s.heap r := by
  cases c with
  | ident => cases hc
  | concat t => cases hc
  | set t => cases hc
  | worldBegin => cases hc
  | addCS m => cases h; rfl
  | setCS n =>
    simp only [step] at h
    split at h
    · cases h
    · cases h; rfl
  | camera =>
    simp only [step] at h
    split at h
    · cases h
    · cases h; exact Function.update_of_ne hr.ne _ _
  | attrBegin => cases h; rfl
  | attrEnd =>
    simp only [step] at h
    split at h
    · cases h; rfl
    · split at h
      · cases h
      · cases h; rfl
  | transBegin => cases h; rfl
  | transEnd =>
    simp only [step] at h
    split at h
    · cases h; rfl
    · cases h; rfl

theorem run_keeps {s s' : St T G} (hs : Ok s) {b : List (Cmd T)} (hc : ∀ c ∈ b, c.updates = false) (h : run s b = .ok s') (r : ℕ)
    (hr : r < s.next) : s'.heap r = s.heap r := by
  induction b generalizing s with
  | nil => cases h; rfl
  | cons c b ih =>
    cases h1 : step s c with
    | error e => simp [run, bind, h1, Except.bind] at h
    | ok m =>
      rw [run_cons h1] at h
      obtain ⟨o, l⟩ := hs.step h1
      rw [ih o (fun c hc' => hc c (List.mem_cons_of_mem _ hc')) h (hr.trans_le l)]
      exact step_keeps hs (hc c List.mem_cons_self) h1 r hr

/-- **C50 (part)** the contents of the current transforms are restored by a properly nested scope in which no call
changes a transform list (coordinate systems may be added and switched to, the camera set, scopes nested). -/
theorem C50_contents_partial (g : G) (pre : List (Cmd T)) (s s' : St T G) (hs : run (init g) pre = .ok s) (b : List (Cmd T)) (hb : Nested b)
    (hu : ∀ c ∈ b, c.updates = false)
    (h : run s (.attrBegin :: (b ++ [.attrEnd])) = .ok s' ∨ run s (.transBegin :: (b ++ [.transEnd])) = .ok s') :
    s'.now = s.now := by
  have o : Ok s := (Ok.init g).run hs
  have e := scope_result hb h
  rw [St.now, St.now, e]
  rcases h with h | h
  · refine run_keeps o ?_ h _ o.cur
    intro c hc
    simp only [List.mem_cons, List.mem_append, List.not_mem_nil, or_false] at hc
    rcases hc with rfl | hc | rfl
    exacts [rfl, hu c hc, rfl]
  · refine run_keeps o ?_ h _ o.cur
    intro c hc
    simp only [List.mem_cons, List.mem_append, List.not_mem_nil, or_false] at hc
    rcases hc with rfl | hc | rfl
    exacts [rfl, hu c hc, rfl]

/-! #### Scopes have no effect on the transforms -/

/-- equal but for the graphics state and the stacks -/
def Same (s t : St T G) : Prop := s.heap = t.heap ∧ s.next = t.next ∧ s.cur = t.cur ∧ s.cs = t.cs

theorem step_same {s t s' : St T G} (h : Same s t) {c : Cmd T} (hp : c.plain = true) (hc : c.switches = false) (hs : step s c = .ok s') :
    s'.cur = s.cur ∧ ∃ t', step t c = .ok t' ∧ Same s' t' := by
  obtain ⟨h1, h2, h3, h4⟩ := h
  obtain ⟨heap, next, cur, tstack, gs, gstack, cs⟩ := s
  obtain ⟨heap', next', cur', tstack', gs', gstack', cs'⟩ := t
  simp only at h1 h2 h3 h4
  subst h1 h2 h3 h4
  cases c with
  | ident => cases hs; exact ⟨rfl, _, rfl, rfl, rfl, rfl, rfl⟩
  | concat t =>
    simp only [step] at hs
    split at hs
    · cases hs
    · rename_i l hl
      cases hs
      simp only [St.now] at hl
      refine ⟨rfl, ?_⟩
      simp only [step, St.now, hl]
      exact ⟨_, rfl, rfl, rfl, rfl, rfl⟩
  | set t => cases hs; exact ⟨rfl, _, rfl, rfl, rfl, rfl, rfl⟩
  | worldBegin => cases hs; exact ⟨rfl, _, rfl, rfl, rfl, rfl, rfl⟩
  | addCS m => cases hs; exact ⟨rfl, _, rfl, rfl, rfl, rfl, rfl⟩
  | setCS n => cases hc
  | camera =>
    simp only [step] at hs
    split at hs
    · cases hs
    · rename_i l hl
      cases hs
      simp only [St.now] at hl
      refine ⟨rfl, ?_⟩
      simp only [step, St.now, hl]
      exact ⟨_, rfl, rfl, rfl, rfl, rfl⟩
  | attrBegin => cases hp
  | attrEnd => cases hp
  | transBegin => cases hp
  | transEnd => cases hp

theorem nested_same {b : List (Cmd T)} (hb : Nested b) : ∀ {s t s' : St T G}, Same s t → (∀ c ∈ b, c.switches = false) → run s b = .ok s' →
    s'.cur = s.cur ∧ ∃ t', run t (b.filter Cmd.plain) = .ok t' ∧ Same s' t' := by
  induction hb with
  | nil => intro s t s' h _ hs; cases hs; exact ⟨rfl, t, rfl, h⟩
  | call c hc =>
    intro s t s' h hw hs
    obtain ⟨e, t', ht, hst⟩ := step_same h hc (hw c (by simp)) (run_single hs)
    refine ⟨e, t', ?_, hst⟩
    rw [List.filter_cons_of_pos hc, run_cons ht]; rfl
  | append _ _ iha ihb =>
    intro s t s' h hw hs
    obtain ⟨m, h1, h2⟩ := run_append_ok hs
    obtain ⟨e1, t1, ht1, hs1⟩ := iha h (fun c hc => hw c (by simp [hc])) h1
    obtain ⟨e2, t2, ht2, hs2⟩ := ihb hs1 (fun c hc => hw c (by simp [hc])) h2
    refine ⟨e2.trans e1, t2, ?_, hs2⟩
    rw [List.filter_append, run_append, ht1]; exact ht2
  | attrScope hb ih =>
    intro s t s' h hw hs
    have hs0 := hs
    rw [run_cons (m := { s with gstack := s.gs :: s.gstack, tstack := s.cur :: s.tstack }) rfl] at hs
    obtain ⟨m, h1, h2⟩ := run_append_ok hs
    obtain ⟨e, t', ht', hst⟩ := ih (t := t) (s := { s with gstack := s.gs :: s.gstack, tstack := s.cur :: s.tstack }) h (fun c hc => hw c (by simp [hc])) h1
    obtain ⟨a1, a2, a3⟩ := nested_stacks hb h1
    have h2 := run_single h2
    simp only [step, a2, a3] at h2
    cases h2
    refine ⟨rfl, t', ?_, hst.1, hst.2.1, ?_, hst.2.2.2⟩
    · simpa [List.filter_append, Cmd.plain] using ht'
    · exact e.symm.trans hst.2.2.1
  | transScope hb ih =>
    intro s t s' h hw hs
    rw [run_cons (m := { s with tstack := s.cur :: s.tstack }) rfl] at hs
    obtain ⟨m, h1, h2⟩ := run_append_ok hs
    obtain ⟨e, t', ht', hst⟩ := ih (t := t) (s := { s with tstack := s.cur :: s.tstack }) h (fun c hc => hw c (by simp [hc])) h1
    obtain ⟨a1, a2, a3⟩ := nested_stacks hb h1
    have h2 := run_single h2
    simp only [step, a3] at h2
    cases h2
    refine ⟨rfl, t', ?_, hst.1, hst.2.1, ?_, hst.2.2.2⟩
    · simpa [List.filter_append, Cmd.plain] using ht'
    · exact e.symm.trans hst.2.2.1

/-- **C50 (what the code does instead)** in a properly nested script that switches to no named coordinate system, the
scoping calls have no effect on the transforms at all: the current transforms and all named systems end as they do with
every begin and end left out. -/
theorem C50_scopes_without_effect_partial (s s' : St T G) (b : List (Cmd T)) (hb : Nested b) (hw : ∀ c ∈ b, c.switches = false)
    (h : run s b = .ok s') : ∃ s'' : St T G, run s (b.filter Cmd.plain) = .ok s'' ∧ s'.now = s''.now ∧
      ∀ n, (s'.cs n).map s'.heap = (s''.cs n).map s''.heap := by
  obtain ⟨_, t, ht, h1, h2, h3, h4⟩ := nested_same hb (show Same s s from ⟨rfl, rfl, rfl, rfl⟩) hw h
  exact ⟨t, ht, by rw [St.now, St.now, h1, h3], fun n => by rw [h1, h4]⟩

/-- **C50 is false of the code**: a translation (or any other factor) inside a scope of either kind is still applied
after it, in every state where the current transforms are set and the factor changes one of them. -/
theorem C50_transforms_leak_false (s : St T G) (x : T) (t : T) (hx : s.now = [some x, some x]) (ht : x * t ≠ x) :
    (∃ s', run s [.attrBegin, .concat t, .attrEnd] = .ok s' ∧ s'.now ≠ s.now) ∧
    (∃ s', run s [.transBegin, .concat t, .transEnd] = .ok s' ∧ s'.now ≠ s.now) := by
  obtain ⟨heap, next, cur, tstack, gs, gstack, cs⟩ := s
  simp only [St.now] at hx
  constructor
  · refine ⟨⟨Function.update heap cur [some (x * t), some (x * t)], next, cur, tstack, gs, gstack, cs⟩, ?_, ?_⟩
    · simp [run, step, St.write, St.now, hx, mulAll, bind, Except.bind, pure, Except.pure]
    · simp [St.now, hx, ht]
  · refine ⟨⟨Function.update heap cur [some (x * t), some (x * t)], next, cur, tstack, gs, gstack, cs⟩, ?_, ?_⟩
    · simp [run, step, St.write, St.now, hx, mulAll, bind, Except.bind, pure, Except.pure]
    · simp [St.now, hx, ht]

/-! ### Named coordinate systems (C68) -/

/-- **C68** an unknown name raises `RuntimeError`; a known one never raises. -/
theorem C68_unknown_name (s : St T G) (n : String) :
    step s (.setCS n) = .error .runtimeError ↔ s.cs n = none := by
  simp only [step]
  cases h : s.cs n <;> simp

theorem step_cs {s s' : St T G} {c : Cmd T} {n : String} (hc : c.defines n = false) (h : step s c = .ok s') : s'.cs n = s.cs n := by
  cases c with
  | ident => cases h; rfl
  | concat t =>
    simp only [step] at h
    split at h
    · cases h
    · cases h; rfl
  | set t => cases h; rfl
  | worldBegin =>
    have : n ≠ "world" := by simpa [Cmd.defines] using hc
    cases h; exact Function.update_of_ne this _ _
  | addCS m =>
    have : m ≠ n := by simpa [Cmd.defines] using hc
    cases h; exact Function.update_of_ne this.symm _ _
  | setCS m =>
    simp only [step] at h
    split at h
    · cases h
    · cases h; rfl
  | camera =>
    have : n ≠ "camera" := by simpa [Cmd.defines] using hc
    simp only [step] at h
    split at h
    · cases h
    · cases h; exact Function.update_of_ne this _ _
  | attrBegin => cases h; rfl
  | attrEnd =>
    simp only [step] at h
    split at h
    · cases h; rfl
    · split at h
      · cases h
      · cases h; rfl
  | transBegin => cases h; rfl
  | transEnd =>
    simp only [step] at h
    split at h
    · cases h; rfl
    · cases h; rfl

theorem run_cs {s s' : St T G} {b : List (Cmd T)} {n : String} (hc : ∀ c ∈ b, c.defines n = false) (h : run s b = .ok s') : s'.cs n = s.cs n := by
  induction b generalizing s with
  | nil => cases h; rfl
  | cons c b ih =>
    cases h1 : step s c with
    | error e => simp [run, bind, h1, Except.bind] at h
    | ok m =>
      rw [run_cons h1] at h
      rw [ih (fun c hc' => hc c (List.mem_cons_of_mem _ hc')) h, step_cs (hc c List.mem_cons_self) h1]

/-- **C68 (part)** `add_coordinate_system(n)`, then any calls that do not define `n` again, then
`set_coordinate_system(n)`: the call succeeds and the current transform *list object* is the one that was current at the
`add`; if no call in between changed a transform list, the contents are those at the `add`.  Missing: calls
in between that change the transforms, see `C68_not_a_copy_false`. -/
theorem C68_reinstated_partial (g : G) (pre : List (Cmd T)) (s m : St T G) (hs : run (init g) pre = .ok s) (n : String)
    (b : List (Cmd T)) (hc : ∀ c ∈ b, c.defines n = false) (h : run s (.addCS n :: b) = .ok m) :
    ∃ s' : St T G, step m (.setCS n) = .ok s' ∧ s'.cur = s.cur ∧ s'.heap = m.heap ∧
      ((∀ c ∈ b, c.updates = false) → s'.now = s.now) := by
  have o : Ok s := (Ok.init g).run hs
  rw [run_cons (m := { s with cs := Function.update s.cs n (some s.cur) }) rfl] at h
  have e : m.cs n = some s.cur := by rw [run_cs hc h]; exact Function.update_self _ _ _
  refine ⟨{ m with cur := s.cur }, by simp only [step, e], rfl, rfl, ?_⟩
  intro hu
  obtain ⟨o', -⟩ := o.step (s' := { s with cs := Function.update s.cs n (some s.cur) }) (c := .addCS n) rfl
  exact run_keeps o' hu h s.cur o.cur

/-- **C68 is false of the code**: a named coordinate system is not a copy; a factor applied after
`add_coordinate_system` is still there after `set_coordinate_system`. -/
theorem C68_not_a_copy_false (s : St T G) (n : String) (x t : T) (hx : s.now = [some x, some x]) (ht : x * t ≠ x) :
    ∃ s', run s [.addCS n, .concat t, .setCS n] = .ok s' ∧ s'.now ≠ s.now := by
  obtain ⟨heap, next, cur, tstack, gs, gstack, cs⟩ := s
  simp only [St.now] at hx
  refine ⟨⟨Function.update heap cur [some (x * t), some (x * t)], next, cur, tstack, gs, gstack, Function.update cs n (some cur)⟩, ?_, ?_⟩
  · simp [run, step, St.write, St.now, hx, mulAll, bind, Except.bind, pure, Except.pure]
  · simp [St.now, hx, ht]

/-- nothing but the name "camera" refers to the list `r` -/
structure Private (s : St T G) (r : ℕ) : Prop where
  cur : s.cur ≠ r
  stack : r ∉ s.tstack
  cs : ∀ n, n ≠ "camera" → s.cs n ≠ some r
  lt : r < s.next

theorem Private.step {s s' : St T G} {r : ℕ} (hs : Private s r) {c : Cmd T} (hn : c.defines "camera" = false)
    (hw : ∀ n, c = .setCS n → n ≠ "camera") (h : step s c = .ok s') : Private s' r ∧ s'.heap r = s.heap r := by
  obtain ⟨p1, p2, p3, p4⟩ := hs
  have hne := p1.symm
  cases c with
  | ident => cases h; exact ⟨⟨p1, p2, p3, p4⟩, Function.update_of_ne hne _ _⟩
  | concat t =>
    simp only [Api.step] at h
    split at h
    · cases h
    · cases h; exact ⟨⟨p1, p2, p3, p4⟩, Function.update_of_ne hne _ _⟩
  | set t => cases h; exact ⟨⟨p1, p2, p3, p4⟩, Function.update_of_ne hne _ _⟩
  | addCS m =>
    cases h
    refine ⟨⟨p1, p2, ?_, p4⟩, rfl⟩
    intro n hn'
    by_cases e : n = m
    · subst e; simpa using p1
    · simpa [Function.update_of_ne e] using p3 n hn'
  | setCS n =>
    simp only [Api.step] at h
    split at h
    · cases h
    · rename_i q hq
      cases h
      refine ⟨⟨?_, p2, p3, p4⟩, rfl⟩
      intro e
      exact p3 n (hw n rfl) (hq.trans (congrArg some e))
  | camera => simp [Cmd.defines] at hn
  | worldBegin =>
    cases h
    refine ⟨⟨p1, p2, ?_, p4⟩, Function.update_of_ne hne _ _⟩
    intro n hn'
    by_cases e : n = "world"
    · subst e; simpa [St.write] using p1
    · simpa [St.write, Function.update_of_ne e] using p3 n hn'
  | attrBegin => cases h; exact ⟨⟨p1, by simp [hne, p2], p3, p4⟩, rfl⟩
  | attrEnd =>
    simp only [Api.step] at h
    split at h
    · cases h; exact ⟨⟨p1, p2, p3, p4⟩, rfl⟩
    · split at h
      · cases h
      · rename_i c cr ht
        cases h
        rw [ht] at p2
        simp only [List.mem_cons, not_or] at p2
        exact ⟨⟨fun e => p2.1 e.symm, p2.2, p3, p4⟩, rfl⟩
  | transBegin => cases h; exact ⟨⟨p1, by simp [hne, p2], p3, p4⟩, rfl⟩
  | transEnd =>
    simp only [Api.step] at h
    split at h
    · cases h; exact ⟨⟨p1, p2, p3, p4⟩, rfl⟩
    · rename_i c cr ht
      cases h
      rw [ht] at p2
      simp only [List.mem_cons, not_or] at p2
      exact ⟨⟨fun e => p2.1 e.symm, p2.2, p3, p4⟩, rfl⟩

theorem Private.run {s s' : St T G} {r : ℕ} (hs : Private s r) {b : List (Cmd T)} (hn : ∀ c ∈ b, c.defines "camera" = false)
    (hw : ∀ c ∈ b, ∀ n, c = .setCS n → n ≠ "camera") (h : run s b = .ok s') : s'.heap r = s.heap r := by
  induction b generalizing s with
  | nil => cases h; rfl
  | cons c b ih =>
    cases h1 : Api.step s c with
    | error e => simp [Api.run, bind, h1, Except.bind] at h
    | ok m =>
      rw [run_cons h1] at h
      obtain ⟨o, e⟩ := hs.step (hn c List.mem_cons_self) (hw c List.mem_cons_self) h1
      rw [ih o (fun c hc => hn c (List.mem_cons_of_mem _ hc)) (fun c hc => hw c (List.mem_cons_of_mem _ hc)) h, e]

theorem invAll_ok : ∀ {l : List (Option T)} {l' : List (Option T)}, invAll l = .ok l' → l' = l.map (Option.map (·⁻¹))
  | [], l', h => by cases h; rfl
  | none :: _, l', h => by cases h
  | some x :: r, l', h => by
    simp only [invAll, bind, Except.bind] at h
    split at h
    · cases h
    · rename_i r' hr
      cases h
      simp [invAll_ok hr]

/-- **C68** the "camera" system made by `set_camera` *is* a snapshot: after any calls that neither switch to nor
redefine it, `set_coordinate_system("camera")` makes current the inverses of the transforms at the time of `set_camera`. -/
theorem C68_camera_snapshot (g : G) (pre : List (Cmd T)) (s m : St T G) (hs : run (init g) pre = .ok s)
    (b : List (Cmd T)) (hn : ∀ c ∈ b, c.defines "camera" = false) (hw : ∀ c ∈ b, ∀ n, c = .setCS n → n ≠ "camera")
    (h : run s (.camera :: b) = .ok m) :
    ∃ s' : St T G, step m (.setCS "camera") = .ok s' ∧ s'.now = s.now.map (Option.map (·⁻¹)) := by
  have o : Ok s := (Ok.init g).run hs
  cases h1 : step s .camera with
  | error e => simp [run, bind, h1, Except.bind] at h
  | ok k =>
    rw [run_cons h1] at h
    simp only [step] at h1
    split at h1
    · cases h1
    · rename_i l hl
      have hl' := invAll_ok hl
      cases h1
      have p : Private (T := T) (G := G) ⟨Function.update s.heap s.next l, s.next + 1, s.cur, s.tstack, s.gs, s.gstack,
          Function.update s.cs "camera" (some s.next)⟩ s.next := by
        refine ⟨o.cur.ne, fun h => (o.stack _ h).ne rfl, ?_, Nat.lt_succ_self _⟩
        intro n hn' e
        simp only [Function.update_of_ne hn'] at e
        exact (o.cs n _ e).ne rfl
      have e1 := p.run hn hw h
      have e2 := run_cs hn h
      simp only [Function.update_self] at e1 e2
      refine ⟨{ m with cur := s.next }, by simp only [step, e2], ?_⟩
      show m.heap s.next = _
      rw [e1, hl']

end

/-! ### Concrete cases -/

/-- the hypotheses of the C50 and C68 theorems: a nested script with a scope inside a scope, a named system and a camera,
run from the initial state -/
example : Nested [(.addCS "a" : Cmd (Multiplicative ℤ)), .transBegin, .setCS "a", .camera, .transEnd] := by
  refine Nested.append (a := [.addCS "a"]) (.call _ rfl) (Nested.transScope (b := [.setCS "a", .camera]) ?_)
  exact Nested.append (a := [.setCS "a"]) (.call _ rfl) (.call _ rfl)

example : ∃ s s' : St (Multiplicative ℤ) Unit, run (init ()) [.ident, .concat (Multiplicative.ofAdd 3)] = .ok s ∧
    s.now = [some (Multiplicative.ofAdd 3), some (Multiplicative.ofAdd 3)] ∧
    run s [.attrBegin, .addCS "a", .transBegin, .setCS "a", .camera, .transEnd, .attrEnd] = .ok s' :=
  ⟨_, _, rfl, rfl, rfl⟩

/-- the leak on concrete transforms: translations of the line by integers -/
example : ∃ s s' : St (Multiplicative ℤ) Unit, run (init ()) [.ident] = .ok s ∧ s.now = [some 1, some 1] ∧
    run s [.attrBegin, .concat (Multiplicative.ofAdd 3), .attrEnd] = .ok s' ∧ s'.now = [some (Multiplicative.ofAdd 3), some (Multiplicative.ofAdd 3)] :=
  ⟨_, _, rfl, rfl, rfl, rfl⟩

/-- a script that is *not* nested underflows: `attribute_begin; transform_end; attribute_end` -/
example : run (init () : St (Multiplicative ℤ) Unit) [.attrBegin, .transEnd, .attrEnd] = .error .indexError := rfl

/-- a camera script meeting the hypotheses of `C68_camera_snapshot` -/
example : ∃ s' : St (Multiplicative ℤ) Unit,
    run (init ()) [.ident, .concat (Multiplicative.ofAdd 3), .camera, .concat (Multiplicative.ofAdd 4), .setCS "camera"] = .ok s' ∧
    s'.now = [some (Multiplicative.ofAdd (-3)), some (Multiplicative.ofAdd (-3))] := ⟨_, rfl, rfl⟩

end Verif.Api
