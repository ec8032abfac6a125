import Mathlib.Data.List.Basic
import Mathlib.Tactic.Common

/-!
# Typed parameter queues (`pytracer/interface/parameter.py`): property C49

Values are an arbitrary type. `fetch` hands out the live list; changes a caller makes to that list directly are not modelled.
-/

namespace Verif.Interface

/-- `Param.PARAM_TYPE` (`parameter.py:19-20`). -/
def paramTypes : List String := ["float", "int", "bool", "vector", "normal", "spectrum", "point", "string"]

/-- `Param.data` (`parameter.py:22-35`): a list for each type. -/
abbrev Data (V : Type*) := String → List V

/-- `Param.__init__` and `_reset_param` (`parameter.py:22-35`). -/
def Data.empty {V : Type*} : Data V := fun _ => []

/-- the calls -/
inductive Op (V : Type*) where
  | push (tp : String) (v : V)
  | enum (tp : String)
  | fetch (tp : String)
  | hasMore (tp : String)

/-- what a call returns; `noneResult` is Python's `None`. -/
inductive Res (V : Type*) where
  | keyError
  | noneResult
  | value (v : V)
  | list (l : List V)
  | bool (b : Bool)

variable {V : Type*}

/-- one call: `push_back` (`parameter.py:37-42`), `enum` (`44-51`), `fetch` (`53-58`), `has_more` (`60-64`). -/
def step (d : Data V) : Op V → Data V × Res V
  | .push tp v => if tp ∉ paramTypes then (d, .keyError) else (Function.update d tp (d tp ++ [v]), .noneResult)
  | .enum tp =>
    if tp ∉ paramTypes then (d, .keyError)
    else match d tp with
      | [] => (d, .noneResult)
      | v :: r => (Function.update d tp r, .value v)
  | .fetch tp => if tp ∉ paramTypes then (d, .keyError) else (d, .list (d tp))
  | .hasMore tp => if tp ∉ paramTypes then (d, .keyError) else (d, .bool (decide ((d tp).length > 0)))

/-- a history: the calls with their results, and the final queues -/
def exec (d : Data V) : List (Op V) → Data V × List (Op V × Res V)
  | [] => (d, [])
  | o :: os =>
    let (d', r) := step d o
    let (d'', h) := exec d' os
    (d'', (o, r) :: h)

/-! Specification: read off the history -/

/-- values pushed under `tp`, in order -/
def pushed (tp : String) : List (Op V × Res V) → List V
  | [] => []
  | (.push t v, _) :: h => if t = tp then v :: pushed tp h else pushed tp h
  | _ :: h => pushed tp h

/-- values handed out by `enum(tp)`, in order -/
def taken (tp : String) : List (Op V × Res V) → List V
  | [] => []
  | (.enum t, .value v) :: h => if t = tp then v :: taken tp h else taken tp h
  | _ :: h => taken tp h

/-- the part of a history that concerns a type -/
def about (tp : String) : Op V → Bool
  | .push t _ | .enum t | .fetch t | .hasMore t => decide (t = tp)

theorem exec_inv (d : Data V) (os : List (Op V)) (tp : String) (htp : tp ∈ paramTypes) :
    d tp ++ pushed tp (exec d os).2 = taken tp (exec d os).2 ++ (exec d os).1 tp := by
  induction os generalizing d with
  | nil => simp [exec, pushed, taken]
  | cons o os ih =>
    simp only [exec]
    have ih' := ih (step d o).1
    cases o with
    | push t v =>
      by_cases ht : t ∈ paramTypes
      · simp only [step, ht, not_true_eq_false, if_false] at ih' ⊢
        by_cases h : t = tp
        · subst h
          simp only [pushed, taken, if_true] at ih' ⊢
          simp only [Function.update_self] at ih'
          rw [← ih']; simp
        · simp only [pushed, taken, if_neg h] at ih' ⊢
          rw [Function.update_of_ne (Ne.symm h)] at ih'; exact ih'
      · have h : t ≠ tp := by rintro rfl; exact ht htp
        simp only [step, ht, not_false_eq_true, if_true, pushed, taken, if_neg h] at ih' ⊢
        exact ih'
    | enum t =>
      by_cases ht : t ∈ paramTypes
      · simp only [step, ht, not_true_eq_false, if_false] at ih' ⊢
        rcases hd : d t with _ | ⟨v, r⟩
        · simp only [hd, pushed, taken] at ih' ⊢; exact ih'
        · simp only [hd, pushed, taken] at ih' ⊢
          by_cases h : t = tp
          · subst h
            simp only [Function.update_self] at ih'
            rw [if_pos rfl, hd, List.cons_append, List.cons_append, ih']
          · rw [if_neg h]; rw [Function.update_of_ne (Ne.symm h)] at ih'; exact ih'
      · simp only [step, ht, not_false_eq_true, if_true, pushed, taken] at ih' ⊢; exact ih'
    | fetch t => 
      by_cases ht : t ∈ paramTypes
      · simp only [step, ht, not_true_eq_false, if_false, pushed, taken] at ih' ⊢; exact ih'
      · simp only [step, ht, not_false_eq_true, if_true, pushed, taken] at ih' ⊢; exact ih'
    | hasMore t =>
      by_cases ht : t ∈ paramTypes
      · simp only [step, ht, not_true_eq_false, if_false, pushed, taken] at ih' ⊢; exact ih'
      · simp only [step, ht, not_false_eq_true, if_true, pushed, taken] at ih' ⊢; exact ih'

/-- **C49** after any history from a fresh `Param`, for each of the eight types: the values handed out by `enum`, followed by
those still queued (what `fetch` returns), are exactly the values pushed, in order and each once. -/
theorem C49_fifo (os : List (Op V)) (tp : String) (htp : tp ∈ paramTypes) :
    pushed tp (exec Data.empty os).2 = taken tp (exec Data.empty os).2 ++ (exec Data.empty os).1 tp := by
  simpa [Data.empty] using exec_inv Data.empty os tp htp

/-- **C49** the next results after any history: `enum` gives the oldest value pushed and not yet handed out, and `None` exactly
when there is none; `has_more` and `fetch` tell whether and which remain; none of them raise. -/
theorem C49_next (os : List (Op V)) (tp : String) (htp : tp ∈ paramTypes) :
    let h := (exec Data.empty os).2
    let d := (exec Data.empty os).1
    let remaining := (pushed tp h).drop (taken tp h).length
    (step d (.enum tp)).2 = (match remaining with | [] => .noneResult | v :: _ => .value v) ∧
    (step d (.fetch tp)).2 = .list remaining ∧ (step d (.hasMore tp)).2 = .bool (decide (remaining ≠ [])) := by
  intro h d remaining
  have e : remaining = d tp := by
    have := C49_fifo os tp htp
    simp only [remaining, h, d]
    rw [this]; simp
  rw [e]
  refine ⟨?_, ?_, ?_⟩
  · simp only [step, htp, not_true_eq_false, if_false]
    rcases hd : d tp with _ | ⟨v, r⟩ <;> simp
  · simp [step, htp]
  · simp only [step, htp, not_true_eq_false, if_false, Res.bool.injEq, decide_eq_decide]
    exact List.length_pos_iff

/-- **C49** the eight documented types are accepted in every state: a push of such a type succeeds and its value is queued last. -/
theorem C49_accepted (d : Data V) (tp : String) (v : V) (h : tp = "float" ∨ tp = "int" ∨ tp = "bool" ∨ tp = "vector" ∨ tp = "normal" ∨ tp = "spectrum" ∨ tp = "point" ∨ tp = "string") :
    (step d (.push tp v)).2 = .noneResult ∧ (step (step d (.push tp v)).1 (.fetch tp)).2 = .list (d tp ++ [v]) := by
  have hm : tp ∈ paramTypes := by rcases h with rfl | rfl | rfl | rfl | rfl | rfl | rfl | rfl <;> decide
  simp [step, hm]

theorem step_frame (d : Data V) (o : Op V) (tp : String) (h : about tp o = false) : (step d o).1 tp = d tp := by
  cases o with
  | push t v =>
    have : t ≠ tp := by simpa [about] using h
    simp only [step]; split
    · rfl
    · exact Function.update_of_ne this.symm _ _
  | enum t =>
    have : t ≠ tp := by simpa [about] using h
    simp only [step]; split
    · rfl
    · split
      · rfl
      · exact Function.update_of_ne this.symm _ _
  | fetch t => simp only [step]; split <;> rfl
  | hasMore t => simp only [step]; split <;> rfl

theorem step_local (d e : Data V) (o : Op V) (tp : String) (h : about tp o = true) (hde : d tp = e tp) :
    (step d o).1 tp = (step e o).1 tp ∧ (step d o).2 = (step e o).2 := by
  cases o with
  | push t v =>
    have : t = tp := by simpa [about] using h
    subst this
    simp only [step]; split
    · exact ⟨hde, rfl⟩
    · simp [hde]
  | enum t =>
    have : t = tp := by simpa [about] using h
    subst this
    simp only [step]; split
    · exact ⟨hde, rfl⟩
    · rw [← hde]
      rcases hd : d t with _ | ⟨v, r⟩
      · exact ⟨hde, rfl⟩
      · simp
  | fetch t =>
    have : t = tp := by simpa [about] using h
    subst this
    simp only [step]; split <;> simp [hde]
  | hasMore t =>
    have : t = tp := by simpa [about] using h
    subst this
    simp only [step]; split <;> simp [hde]

theorem exec_independent (d e : Data V) (os : List (Op V)) (tp : String) (hde : d tp = e tp) :
    (exec d os).1 tp = (exec e (os.filter (about tp))).1 tp ∧
    (exec d os).2.filter (fun x => about tp x.1) = (exec e (os.filter (about tp))).2 := by
  induction os generalizing d e with
  | nil => exact ⟨hde, rfl⟩
  | cons o os ih =>
    by_cases ho : about tp o = true
    · rw [List.filter_cons_of_pos ho]
      obtain ⟨s1, s2⟩ := step_local d e o tp ho hde
      obtain ⟨i1, i2⟩ := ih _ _ s1
      exact ⟨i1, by simp only [exec, List.filter_cons, ho, if_true, i2, s2]⟩
    · have ho' : about tp o = false := by simpa using ho
      rw [List.filter_cons_of_neg ho]
      obtain ⟨i1, i2⟩ := ih _ e ((step_frame d o tp ho').trans hde)
      exact ⟨i1, by simp only [exec, List.filter_cons, ho', Bool.false_eq_true, if_false, i2]⟩

/-- **C49** types do not interfere: the results of the calls about one type, and its queue, are the same if all calls about
other types are left out of the history. -/
theorem C49_types_independent (os : List (Op V)) (tp : String) :
    (exec Data.empty os).1 tp = (exec Data.empty (os.filter (about tp))).1 tp ∧
    (exec Data.empty os).2.filter (fun x => about tp x.1) = (exec Data.empty (os.filter (about tp))).2 :=
  exec_independent _ _ os tp rfl

/-- **C49** any call with an unknown type raises `KeyError` and changes nothing. -/
theorem C49_unknown_type (d : Data V) (o : Op V) (tp : String) (h : about tp o = true) (htp : tp ∉ paramTypes) : step d o = (d, .keyError) := by
  cases o <;> simp only [about, decide_eq_true_eq] at h <;> subst h <;> simp [step, htp]

example : (exec (Data.empty (V := ℕ)) [.push "int" 1, .push "float" 9, .push "int" 2, .enum "int", .push "int" 3, .enum "int"]).1 "int" = [3] := by
  rfl

end Verif.Interface
