import Verif.Film.Props
import Mathlib.Algebra.BigOperators.Group.Finset.Basic
import Mathlib.Data.Fintype.BigOperators
import Mathlib.Data.Fintype.Basic
import Mathlib.Algebra.BigOperators.Fin
import Mathlib.Algebra.Order.BigOperators.Group.Finset
import Mathlib.Logic.Relation
import Mathlib.Tactic.Abel
import Mathlib.Data.Rat.Floor

/-!
# Concurrent tasks adding samples (`film.py:171-198`): property C29

Each task runs `add_sample` for its samples one after the other; a step of the system is one read or
one write of one pixel attribute, or taking or releasing one pixel's lock, by any one task
(sequentially consistent interleaving; the `+=` of an attribute is a read followed by a write).
The filter table, the film's geometry and the samples are not written by tasks.
-/

namespace Verif.Film.Conc
set_option linter.unusedSectionVars false
open Verif.Film

/-- where a task is within the update of one pixel (`film.py:186-197`). -/
inductive Ph (K : Type*) where
  /-- before the update -/
  | idle
  /-- after `pxl.lock` was taken (or nothing, if no synchronisation is done) -/
  | entered
  /-- `pxl.Lxyz` was read -/
  | gotL (v : Vec K)
  /-- `pxl.Lxyz` was written -/
  | putL
  /-- `pxl.weight_sum` was read -/
  | gotW (v : K)
  /-- `pxl.weight_sum` was written -/
  | putW

/-- a task: pixel updates not yet finished, the first being the current one, and its phase. -/
structure Th (K : Type*) where
  todo : List (Upd K)
  ph : Ph K

/-- shared state: pixel sums, pixel locks (`true` = held), tasks. -/
structure St (K : Type*) (n : ℕ) where
  L : ℕ × ℕ → Vec K
  W : ℕ × ℕ → K
  lock : ℕ × ℕ → Bool
  th : Fin n → Th K

variable {K : Type*} [Field K] [LinearOrder K] [IsStrictOrderedRing K] [FloorRing K] {n : ℕ}

/-- the pixel an update is for -/
def pos (u : Upd K) : ℕ × ℕ := (u.i, u.j)

/-- one atomic step of one task (`film.py:186-197`).  `sync` is the flag of line 171. -/
inductive Step (sync : Bool) : St K n → St K n → Prop
  | enterLock (s : St K n) (t : Fin n) (u : Upd K) (r : List (Upd K)) (hs : sync = true) (ht : s.th t = ⟨u :: r, .idle⟩)
      (hl : s.lock (pos u) = false) :
      Step sync s { s with lock := Function.update s.lock (pos u) true, th := Function.update s.th t ⟨u :: r, .entered⟩ }
  | enterFree (s : St K n) (t : Fin n) (u : Upd K) (r : List (Upd K)) (hs : sync = false) (ht : s.th t = ⟨u :: r, .idle⟩) :
      Step sync s { s with th := Function.update s.th t ⟨u :: r, .entered⟩ }
  | readL (s : St K n) (t : Fin n) (u : Upd K) (r : List (Upd K)) (ht : s.th t = ⟨u :: r, .entered⟩) :
      Step sync s { s with th := Function.update s.th t ⟨u :: r, .gotL (s.L (pos u))⟩ }
  | writeL (s : St K n) (t : Fin n) (u : Upd K) (r : List (Upd K)) (v : Vec K) (ht : s.th t = ⟨u :: r, .gotL v⟩) :
      Step sync s { s with L := Function.update s.L (pos u) (v + u.dL), th := Function.update s.th t ⟨u :: r, .putL⟩ }
  | readW (s : St K n) (t : Fin n) (u : Upd K) (r : List (Upd K)) (ht : s.th t = ⟨u :: r, .putL⟩) :
      Step sync s { s with th := Function.update s.th t ⟨u :: r, .gotW (s.W (pos u))⟩ }
  | writeW (s : St K n) (t : Fin n) (u : Upd K) (r : List (Upd K)) (v : K) (ht : s.th t = ⟨u :: r, .gotW v⟩) :
      Step sync s { s with W := Function.update s.W (pos u) (v + u.dw), th := Function.update s.th t ⟨u :: r, .putW⟩ }
  | leaveLock (s : St K n) (t : Fin n) (u : Upd K) (r : List (Upd K)) (hs : sync = true) (ht : s.th t = ⟨u :: r, .putW⟩) :
      Step sync s { s with lock := Function.update s.lock (pos u) false, th := Function.update s.th t ⟨r, .idle⟩ }
  | leaveFree (s : St K n) (t : Fin n) (u : Upd K) (r : List (Upd K)) (hs : sync = false) (ht : s.th t = ⟨u :: r, .putW⟩) :
      Step sync s { s with th := Function.update s.th t ⟨r, .idle⟩ }

/-- the `sync` flag (`film.py:171`). -/
def syncFlag (f : Film K) : Bool := decide (f.filt.xw > 1 / 2 ∨ f.filt.yw > 1 / 2)

/-- a sample: position and colour -/
structure Smp (K : Type*) where
  x : K
  y : K
  c : Vec K

/-- the pixel updates a task makes for its samples, in order -/
def prog (f : Film K) (l : List (Smp K)) : List (Upd K) :=
  l.flatMap (fun s => (updates f s.x s.y s.c).getD [])

/-- the start: tasks have done nothing, all locks are free, the pixels are the film's. -/
def start (f : Film K) (tasks : Fin n → List (Smp K)) : St K n where
  L := fun p => (f.pix p.1 p.2).Lxyz
  W := fun p => (f.pix p.1 p.2).w
  lock := fun _ => false
  th := fun t => ⟨prog f (tasks t), .idle⟩

/-- all tasks are finished -/
def Done (s : St K n) : Prop := ∀ t, s.th t = ⟨[], .idle⟩

/-- reachable in any number of steps -/
def Reach (sync : Bool) : St K n → St K n → Prop := Relation.ReflTransGen (Step sync)

/-! ### Invariant -/

def Active (t : Th K) : Prop := match t.ph with | .idle => False | _ => True

/-- contributions at `p` of a list of updates -/
def sumL (us : List (Upd K)) (p : ℕ × ℕ) : Vec K := (us.map (fun u => if pos u = p then u.dL else 0)).sum
def sumW (us : List (Upd K)) (p : ℕ × ℕ) : K := (us.map (fun u => if pos u = p then u.dw else 0)).sum

/-- what a task still has to add at `p` -/
def remL (t : Th K) (p : ℕ × ℕ) : Vec K :=
  match t.ph with
  | .idle | .entered | .gotL _ => sumL t.todo p
  | .putL | .gotW _ | .putW => sumL t.todo.tail p
def remW (t : Th K) (p : ℕ × ℕ) : K :=
  match t.ph with
  | .putW => sumW t.todo.tail p
  | _ => sumW t.todo p

structure Inv (sync : Bool) (L0 : ℕ × ℕ → Vec K) (W0 : ℕ × ℕ → K) (s : St K n) : Prop where
  ne : ∀ t, Active (s.th t) → (s.th t).todo ≠ []
  excl : ∀ t t' u u' r r', t ≠ t' → (s.th t).todo = u :: r → (s.th t').todo = u' :: r' →
    Active (s.th t) → Active (s.th t') → pos u ≠ pos u'
  locks : sync = true → ∀ p, s.lock p = true ↔ ∃ t u r, (s.th t).todo = u :: r ∧ Active (s.th t) ∧ pos u = p
  disj : sync = false → ∀ t t', t ≠ t' → ∀ u ∈ (s.th t).todo, ∀ u' ∈ (s.th t').todo, pos u ≠ pos u'
  regL : ∀ t u r v, s.th t = ⟨u :: r, .gotL v⟩ → v = s.L (pos u)
  regW : ∀ t u r v, s.th t = ⟨u :: r, .gotW v⟩ → v = s.W (pos u)
  totL : ∀ p, s.L p + ∑ t, remL (s.th t) p = L0 p
  totW : ∀ p, s.W p + ∑ t, remW (s.th t) p = W0 p

theorem sum_update {M : Type*} [AddCommGroup M] (th : Fin n → Th K) (t : Fin n) (x : Th K) (g : Th K → M) :
    ∑ t', g (Function.update th t x t') = (∑ t', g (th t')) - g (th t) + g x := by
  have h1 : (fun t' => g (Function.update th t x t')) = Function.update (fun t' => g (th t')) t (g x) := by
    funext t'
    by_cases h : t' = t
    · subst h; simp
    · simp [h]
  rw [h1, Finset.sum_update_of_mem (Finset.mem_univ t)]
  have h2 := Finset.add_sum_erase Finset.univ (fun t' => g (th t')) (Finset.mem_univ t)
  rw [Finset.sdiff_singleton_eq_erase, ← h2]; abel

theorem sum_updL (th : Fin n → Th K) (t : Fin n) (x : Th K) (p : ℕ × ℕ) :
    ∑ t', remL (Function.update th t x t') p = (∑ t', remL (th t') p) - remL (th t) p + remL x p :=
  sum_update th t x (fun y => remL y p)
theorem sum_updW (th : Fin n → Th K) (t : Fin n) (x : Th K) (p : ℕ × ℕ) :
    ∑ t', remW (Function.update th t x t') p = (∑ t', remW (th t') p) - remW (th t) p + remW x p :=
  sum_update th t x (fun y => remW y p)

theorem sumL_cons (u : Upd K) (r : List (Upd K)) (p) : sumL (u :: r) p = (if pos u = p then u.dL else 0) + sumL r p := by
  simp [sumL]
theorem sumW_cons (u : Upd K) (r : List (Upd K)) (p) : sumW (u :: r) p = (if pos u = p then u.dw else 0) + sumW r p := by
  simp [sumW]

/-- the parts of the invariant that do not depend on pixel contents, for a step that keeps the current
update and stays active -/
theorem inv_keep {sync : Bool} {L0 W0} {s : St K n} (h : Inv sync L0 W0 s) (t : Fin n) (u : Upd K) (r : List (Upd K))
    (ph ph' : Ph K) (ht : s.th t = ⟨u :: r, ph⟩) (ha : Active (⟨u :: r, ph⟩ : Th K)) (ha' : Active (⟨u :: r, ph'⟩ : Th K)) :
    let th' := Function.update s.th t ⟨u :: r, ph'⟩
    (∀ t, Active (th' t) → (th' t).todo ≠ []) ∧
    (∀ t t' u u' r r', t ≠ t' → (th' t).todo = u :: r → (th' t').todo = u' :: r' →
      Active (th' t) → Active (th' t') → pos u ≠ pos u') ∧
    (sync = true → ∀ p, s.lock p = true ↔ ∃ t u r, (th' t).todo = u :: r ∧ Active (th' t) ∧ pos u = p) ∧
    (sync = false → ∀ t t', t ≠ t' → ∀ u ∈ (th' t).todo, ∀ u' ∈ (th' t').todo, pos u ≠ pos u') := by
  intro th'
  have e1 : ∀ x, (th' x).todo = (s.th x).todo := by
    intro x
    by_cases hx : x = t
    · subst hx; simp [th', ht]
    · simp [th', hx]
  have e2 : ∀ x, Active (th' x) ↔ Active (s.th x) := by
    intro x
    by_cases hx : x = t
    · subst hx; simp only [th', Function.update_self, ht]; exact ⟨fun _ => ha, fun _ => ha'⟩
    · simp [th', hx]
  refine ⟨?_, ?_, ?_, ?_⟩
  · intro x; rw [e1, e2]; exact h.ne x
  · intro x x' v v' q q' hx; rw [e1, e1, e2, e2]; exact h.excl x x' v v' q q' hx
  · intro hs p; rw [h.locks hs p]; simp only [e1, e2]
  · intro hs; simp only [e1]; exact h.disj hs

theorem inv_step {sync : Bool} {L0 W0} {s s' : St K n} (h : Inv sync L0 W0 s) (hst : Step sync s s') : Inv sync L0 W0 s' := by
  cases hst with
  | enterLock t u r hs ht hl =>
    have hfree : ∀ x v q, (s.th x).todo = v :: q → Active (s.th x) → pos v ≠ pos u := by
      intro x v q hx ha hp
      have := (h.locks hs (pos u)).2 ⟨x, v, q, hx, ha, hp⟩
      rw [hl] at this; exact absurd this (by simp)
    have e1 : ∀ x, (Function.update s.th t ⟨u :: r, .entered⟩ x).todo = (s.th x).todo := by
      intro x
      by_cases hx : x = t
      · subst hx; simp [ht]
      · simp [hx]
    refine ⟨?_, ?_, ?_, ?_, ?_, ?_, ?_, ?_⟩
    · intro x ha
      by_cases hx : x = t
      · subst hx; simp
      · simp only [Function.update_of_ne hx] at ha ⊢; exact h.ne x ha
    · intro x x' v v' q q' hx hv hv' ha ha'
      by_cases h1 : x = t
      · subst h1
        simp only [Function.update_self, List.cons.injEq] at hv
        simp only [Function.update_of_ne (Ne.symm hx)] at hv' ha'
        rw [← hv.1]; exact (hfree x' v' q' hv' ha').symm
      · simp only [Function.update_of_ne h1] at hv ha
        by_cases h2 : x' = t
        · subst h2
          simp only [Function.update_self, List.cons.injEq] at hv'
          rw [← hv'.1]; exact hfree x v q hv ha
        · simp only [Function.update_of_ne h2] at hv' ha'
          exact h.excl x x' v v' q q' hx hv hv' ha ha'
    · intro _ p
      by_cases hp : p = pos u
      · subst hp
        simp only [Function.update_self, true_iff]
        exact ⟨t, u, r, by simp, by simp [Active], rfl⟩
      · simp only [Function.update_of_ne hp]
        rw [h.locks hs p]
        constructor
        · rintro ⟨x, v, q, a, b, c⟩
          have hx : x ≠ t := by
            rintro rfl; rw [ht] at b; exact b
          exact ⟨x, v, q, by simp only [Function.update_of_ne hx]; exact a, by simp only [Function.update_of_ne hx]; exact b, c⟩
        · rintro ⟨x, v, q, a, b, c⟩
          have hx : x ≠ t := by
            rintro rfl
            simp only [Function.update_self, List.cons.injEq] at a
            rw [← a.1] at c; exact hp c.symm
          simp only [Function.update_of_ne hx] at a b
          exact ⟨x, v, q, a, b, c⟩
    · intro hs'; rw [hs] at hs'; simp at hs'
    · intro x v q w hx
      by_cases h1 : x = t
      · subst h1; simp at hx
      · simp only [Function.update_of_ne h1] at hx; exact h.regL x v q w hx
    · intro x v q w hx
      by_cases h1 : x = t
      · subst h1; simp at hx
      · simp only [Function.update_of_ne h1] at hx; exact h.regW x v q w hx
    · intro p
      simp only
      rw [sum_updL, ht]; simp only [remL]; rw [sub_add_cancel]; exact h.totL p
    · intro p
      simp only
      rw [sum_updW, ht]; simp only [remW]; rw [sub_add_cancel]; exact h.totW p
  | enterFree t u r hs ht =>
    have e1 : ∀ x, (Function.update s.th t ⟨u :: r, .entered⟩ x).todo = (s.th x).todo := by
      intro x
      by_cases hx : x = t
      · subst hx; simp [ht]
      · simp [hx]
    refine ⟨?_, ?_, ?_, ?_, ?_, ?_, ?_, ?_⟩
    · intro x ha
      by_cases hx : x = t
      · subst hx; simp
      · simp only [Function.update_of_ne hx] at ha ⊢; exact h.ne x ha
    · intro x x' v v' q q' hx hv hv' ha ha'
      simp only [e1] at hv hv'
      exact h.disj hs x x' hx v (by rw [hv]; simp) v' (by rw [hv']; simp)
    · intro hs'; rw [hs] at hs'; simp at hs'
    · intro _; simp only [e1]; exact h.disj hs
    · intro x v q w hx
      by_cases h1 : x = t
      · subst h1; simp at hx
      · simp only [Function.update_of_ne h1] at hx; exact h.regL x v q w hx
    · intro x v q w hx
      by_cases h1 : x = t
      · subst h1; simp at hx
      · simp only [Function.update_of_ne h1] at hx; exact h.regW x v q w hx
    · intro p
      simp only
      rw [sum_updL, ht]; simp only [remL]; rw [sub_add_cancel]; exact h.totL p
    · intro p
      simp only
      rw [sum_updW, ht]; simp only [remW]; rw [sub_add_cancel]; exact h.totW p
  | readL t u r ht =>
    obtain ⟨a, b, c, d⟩ := inv_keep h t u r .entered (.gotL (s.L (pos u))) ht trivial trivial
    refine ⟨a, b, c, d, ?_, ?_, ?_, ?_⟩
    · intro x v q w hx
      by_cases h1 : x = t
      · subst h1
        simp only [Function.update_self, Th.mk.injEq, List.cons.injEq, Ph.gotL.injEq] at hx
        obtain ⟨⟨rfl, rfl⟩, rfl⟩ := hx; rfl
      · simp only [Function.update_of_ne h1] at hx; exact h.regL x v q w hx
    · intro x v q w hx
      by_cases h1 : x = t
      · subst h1; simp at hx
      · simp only [Function.update_of_ne h1] at hx; exact h.regW x v q w hx
    · intro p
      simp only
      rw [sum_updL, ht]; simp only [remL]; rw [sub_add_cancel]; exact h.totL p
    · intro p
      simp only
      rw [sum_updW, ht]; simp only [remW]; rw [sub_add_cancel]; exact h.totW p
  | writeL t u r v ht =>
    obtain ⟨a, b, c, d⟩ := inv_keep h t u r (.gotL v) .putL ht trivial trivial
    have hv := h.regL t u r v ht
    refine ⟨a, b, c, d, ?_, ?_, ?_, ?_⟩
    · intro x v' q w hx
      by_cases h1 : x = t
      · subst h1; simp at hx
      · simp only [Function.update_of_ne h1] at hx
        have hne : pos v' ≠ pos u :=
          h.excl x t v' u q r h1 (by rw [hx]) (by rw [ht]) (by rw [hx]; trivial) (by rw [ht]; trivial)
        simp only [Function.update_of_ne hne]; exact h.regL x v' q w hx
    · intro x v' q w hx
      by_cases h1 : x = t
      · subst h1; simp at hx
      · simp only [Function.update_of_ne h1] at hx; exact h.regW x v' q w hx
    · intro p
      simp only
      rw [sum_updL, ht]
      simp only [remL, List.tail_cons, sumL_cons]
      rw [← h.totL p]
      by_cases hp : p = pos u
      · subst hp; rw [Function.update_self, if_pos rfl, hv]; abel
      · rw [Function.update_of_ne hp, if_neg (Ne.symm hp)]; abel
    · intro p
      simp only
      rw [sum_updW, ht]; simp only [remW]; rw [sub_add_cancel]; exact h.totW p
  | readW t u r ht =>
    obtain ⟨a, b, c, d⟩ := inv_keep h t u r .putL (.gotW (s.W (pos u))) ht trivial trivial
    refine ⟨a, b, c, d, ?_, ?_, ?_, ?_⟩
    · intro x v q w hx
      by_cases h1 : x = t
      · subst h1; simp at hx
      · simp only [Function.update_of_ne h1] at hx; exact h.regL x v q w hx
    · intro x v q w hx
      by_cases h1 : x = t
      · subst h1
        simp only [Function.update_self, Th.mk.injEq, List.cons.injEq, Ph.gotW.injEq] at hx
        obtain ⟨⟨rfl, rfl⟩, rfl⟩ := hx; rfl
      · simp only [Function.update_of_ne h1] at hx; exact h.regW x v q w hx
    · intro p
      simp only
      rw [sum_updL, ht]; simp only [remL]; rw [sub_add_cancel]; exact h.totL p
    · intro p
      simp only
      rw [sum_updW, ht]; simp only [remW]; rw [sub_add_cancel]; exact h.totW p
  | writeW t u r v ht =>
    obtain ⟨a, b, c, d⟩ := inv_keep h t u r (.gotW v) .putW ht trivial trivial
    have hv := h.regW t u r v ht
    refine ⟨a, b, c, d, ?_, ?_, ?_, ?_⟩
    · intro x v' q w hx
      by_cases h1 : x = t
      · subst h1; simp at hx
      · simp only [Function.update_of_ne h1] at hx; exact h.regL x v' q w hx
    · intro x v' q w hx
      by_cases h1 : x = t
      · subst h1; simp at hx
      · simp only [Function.update_of_ne h1] at hx
        have hne : pos v' ≠ pos u :=
          h.excl x t v' u q r h1 (by rw [hx]) (by rw [ht]) (by rw [hx]; trivial) (by rw [ht]; trivial)
        simp only [Function.update_of_ne hne]; exact h.regW x v' q w hx
    · intro p
      simp only
      rw [sum_updL, ht]; simp only [remL]; rw [sub_add_cancel]; exact h.totL p
    · intro p
      simp only
      rw [sum_updW, ht]
      simp only [remW, List.tail_cons, sumW_cons]
      rw [← h.totW p]
      by_cases hp : p = pos u
      · subst hp; rw [Function.update_self, if_pos rfl, hv]; abel
      · rw [Function.update_of_ne hp, if_neg (Ne.symm hp)]; abel
  | leaveLock t u r hs ht =>
    refine ⟨?_, ?_, ?_, ?_, ?_, ?_, ?_, ?_⟩
    · intro x ha
      by_cases hx : x = t
      · subst hx; simp [Active] at ha
      · simp only [Function.update_of_ne hx] at ha ⊢; exact h.ne x ha
    · intro x x' v v' q q' hx hv hv' ha ha'
      by_cases h1 : x = t
      · subst h1; simp [Active] at ha
      by_cases h2 : x' = t
      · subst h2; simp [Active] at ha'
      simp only [Function.update_of_ne h1] at hv ha
      simp only [Function.update_of_ne h2] at hv' ha'
      exact h.excl x x' v v' q q' hx hv hv' ha ha'
    · intro _ p
      by_cases hp : p = pos u
      · subst hp
        simp only [Function.update_self, Bool.false_eq_true, false_iff]
        rintro ⟨x, v, q, a, b, c⟩
        by_cases hx : x = t
        · subst hx; simp [Active] at b
        · simp only [Function.update_of_ne hx] at a b
          exact h.excl x t v u q r hx a (by rw [ht]) b (by rw [ht]; trivial) c
      · simp only [Function.update_of_ne hp]
        rw [h.locks hs p]
        constructor
        · rintro ⟨x, v, q, a, b, c⟩
          have hx : x ≠ t := by
            rintro rfl
            rw [ht] at a
            simp only [List.cons.injEq] at a
            rw [← a.1] at c; exact hp c.symm
          exact ⟨x, v, q, by simp only [Function.update_of_ne hx]; exact a, by simp only [Function.update_of_ne hx]; exact b, c⟩
        · rintro ⟨x, v, q, a, b, c⟩
          have hx : x ≠ t := by
            rintro rfl; simp [Active] at b
          simp only [Function.update_of_ne hx] at a b
          exact ⟨x, v, q, a, b, c⟩
    · intro hs'; rw [hs] at hs'; simp at hs'
    · intro x v q w hx
      by_cases h1 : x = t
      · subst h1; simp at hx
      · simp only [Function.update_of_ne h1] at hx; exact h.regL x v q w hx
    · intro x v q w hx
      by_cases h1 : x = t
      · subst h1; simp at hx
      · simp only [Function.update_of_ne h1] at hx; exact h.regW x v q w hx
    · intro p
      simp only
      rw [sum_updL, ht]; simp only [remL, List.tail_cons]; rw [sub_add_cancel]; exact h.totL p
    · intro p
      simp only
      rw [sum_updW, ht]; simp only [remW, List.tail_cons]; rw [sub_add_cancel]; exact h.totW p
  | leaveFree t u r hs ht =>
    have e1 : ∀ x v, v ∈ (Function.update s.th t ⟨r, .idle⟩ x).todo → v ∈ (s.th x).todo := by
      intro x v hv
      by_cases hx : x = t
      · subst hx; rw [ht]; simp at hv; simp [hv]
      · simp only [Function.update_of_ne hx] at hv; exact hv
    refine ⟨?_, ?_, ?_, ?_, ?_, ?_, ?_, ?_⟩
    · intro x ha
      by_cases hx : x = t
      · subst hx; simp [Active] at ha
      · simp only [Function.update_of_ne hx] at ha ⊢; exact h.ne x ha
    · intro x x' v v' q q' hx hv hv' ha ha'
      by_cases h1 : x = t
      · subst h1; simp [Active] at ha
      by_cases h2 : x' = t
      · subst h2; simp [Active] at ha'
      simp only [Function.update_of_ne h1] at hv ha
      simp only [Function.update_of_ne h2] at hv' ha'
      exact h.excl x x' v v' q q' hx hv hv' ha ha'
    · intro hs'; rw [hs] at hs'; simp at hs'
    · intro _ x x' hx v hv v' hv'
      exact h.disj hs x x' hx v (e1 x v hv) v' (e1 x' v' hv')
    · intro x v q w hx
      by_cases h1 : x = t
      · subst h1; simp at hx
      · simp only [Function.update_of_ne h1] at hx; exact h.regL x v q w hx
    · intro x v q w hx
      by_cases h1 : x = t
      · subst h1; simp at hx
      · simp only [Function.update_of_ne h1] at hx; exact h.regW x v q w hx
    · intro p
      simp only
      rw [sum_updL, ht]; simp only [remL, List.tail_cons]; rw [sub_add_cancel]; exact h.totL p
    · intro p
      simp only
      rw [sum_updW, ht]; simp only [remW, List.tail_cons]; rw [sub_add_cancel]; exact h.totW p

theorem inv_reach {sync : Bool} {L0 W0} {s s' : St K n} (h : Inv sync L0 W0 s) (hr : Reach sync s s') : Inv sync L0 W0 s' := by
  induction hr with
  | refl => exact h
  | tail _ hst ih => exact inv_step ih hst

/-- totals of the tasks' programs -/
theorem inv_start (sync : Bool) (f : Film K) (tasks : Fin n → List (Smp K))
    (hd : sync = false → ∀ t t', t ≠ t' → ∀ u ∈ prog f (tasks t), ∀ u' ∈ prog f (tasks t'), pos u ≠ pos u') :
    Inv sync (fun p => (f.pix p.1 p.2).Lxyz + ∑ t, sumL (prog f (tasks t)) p)
      (fun p => (f.pix p.1 p.2).w + ∑ t, sumW (prog f (tasks t)) p) (start f tasks) :=
  ⟨fun t ha => absurd ha (by simp [start, Active]), fun _ _ _ _ _ _ _ _ _ ha => absurd ha (by simp [start, Active]),
   fun _ p => by simp [start, Active], hd, fun _ _ _ _ h => by simp [start] at h, fun _ _ _ _ h => by simp [start] at h,
   fun _ => rfl, fun _ => rfl⟩

/-! ### The sequential result -/

/-- the same samples as calls of one task after the other -/
def evs (l : List (Smp K)) : List (Ev K) := l.map (fun s => .sample s.x s.y s.c)

theorem add_prog (f : Film K) (l : List (Smp K)) (i j : ℕ) :
    ((evs l).map (addL f i j)).sum = sumL (prog f l) (i, j) ∧ ((evs l).map (addW f i j)).sum = sumW (prog f l) (i, j) := by
  induction l with
  | nil => simp [evs, prog, sumL, sumW]
  | cons s l ih =>
    obtain ⟨a, b⟩ := ih
    have e : addL f i j (.sample s.x s.y s.c) = sumL ((updates f s.x s.y s.c).getD []) (i, j) ∧
        addW f i j (.sample s.x s.y s.c) = sumW ((updates f s.x s.y s.c).getD []) (i, j) := by
      obtain ⟨f', h1, -, h3⟩ := addSample_spec f s.x s.y s.c
      have h4 := h3 i j
      rw [addSample, updates_eq] at h1
      have h5 := Option.some.inj h1
      rw [← h5, foldl_applyUpd] at h4
      simp only [Pixel.plus, Pixel.mk.injEq, add_right_inj] at h4
      rw [updates_eq]
      simp only [Option.getD_some, sumL, sumW, addL, addW]
      refine ⟨?_, ?_⟩
      · rw [← h4.1]; congr 1; apply List.map_congr_left; intro u _
        simp only [pos, Prod.mk.injEq]
        exact if_congr ⟨fun h => ⟨h.1.symm, h.2.symm⟩, fun h => ⟨h.1.symm, h.2.symm⟩⟩ rfl rfl
      · rw [← h4.2.2]; congr 1; apply List.map_congr_left; intro u _
        simp only [pos, Prod.mk.injEq]
        exact if_congr ⟨fun h => ⟨h.1.symm, h.2.symm⟩, fun h => ⟨h.1.symm, h.2.symm⟩⟩ rfl rfl
    simp only [evs, prog, List.map_cons, List.sum_cons, List.flatMap_cons] at *
    rw [a, b, e.1, e.2]
    simp [sumL, sumW]

theorem sum_finRange {M : Type*} [AddCommMonoid M] (g : Fin n → M) : ∑ t, g t = ((List.finRange n).map g).sum := by
  rw [← List.sum_ofFn, List.ofFn_eq_map]

theorem seq_result (f : Film K) (tasks : Fin n → List (Smp K)) :
    ∃ f', run f ((List.finRange n).flatMap (fun t => evs (tasks t))) = some f' ∧ ∀ i j,
      (f'.pix i j).Lxyz = (f.pix i j).Lxyz + ∑ t, sumL (prog f (tasks t)) (i, j) ∧
      (f'.pix i j).w = (f.pix i j).w + ∑ t, sumW (prog f (tasks t)) (i, j) := by
  obtain ⟨f', h1, -, h3⟩ := run_spec ((List.finRange n).flatMap (fun t => evs (tasks t))) f
  refine ⟨f', h1, fun i j => ?_⟩
  rw [h3]
  simp only [Pixel.plus]
  rw [sum_finRange, sum_finRange]
  have key : ∀ l : List (Fin n), ((l.flatMap (fun t => evs (tasks t))).map (addL f i j)).sum =
      (l.map (fun t => sumL (prog f (tasks t)) (i, j))).sum ∧
      ((l.flatMap (fun t => evs (tasks t))).map (addW f i j)).sum = (l.map (fun t => sumW (prog f (tasks t)) (i, j))).sum := by
    intro l
    induction l with
    | nil => simp
    | cons t l ih =>
      simp only [List.flatMap_cons, List.map_append, List.sum_append, List.map_cons, List.sum_cons, ih.1, ih.2,
        (add_prog f (tasks t) i j).1, (add_prog f (tasks t) i j).2, and_self]
  exact ⟨by rw [(key _).1], by rw [(key _).2]⟩

/-! ### Theorems -/

/-- **C29** (synchronised filters, i.e. wider than half a pixel) whatever the samples of the tasks and
however their reads, writes and lock operations interleave: when all tasks are finished, each pixel
holds the same sums as if the tasks had run one after the other. -/
theorem C29_locked (f : Film K) (hsync : f.filt.xw > 1 / 2 ∨ f.filt.yw > 1 / 2) (tasks : Fin n → List (Smp K)) (s : St K n)
    (hr : Reach (syncFlag f) (start f tasks) s) (hd : Done s) :
    ∃ f', run f ((List.finRange n).flatMap (fun t => evs (tasks t))) = some f' ∧
      ∀ i j, s.L (i, j) = (f'.pix i j).Lxyz ∧ s.W (i, j) = (f'.pix i j).w := by
  obtain ⟨f', h1, h2⟩ := seq_result f tasks
  have hsf : syncFlag f = true := by simpa [syncFlag] using hsync
  have hi := inv_reach (inv_start (syncFlag f) f tasks (by rw [hsf]; simp)) hr
  refine ⟨f', h1, fun i j => ?_⟩
  have a := hi.totL (i, j)
  have b := hi.totW (i, j)
  have z1 : ∑ t, remL (s.th t) (i, j) = 0 := Finset.sum_eq_zero (fun t _ => by rw [hd t]; rfl)
  have z2 : ∑ t, remW (s.th t) (i, j) = 0 := Finset.sum_eq_zero (fun t _ => by rw [hd t]; rfl)
  rw [z1, add_zero] at a
  rw [z2, add_zero] at b
  exact ⟨by rw [a, (h2 i j).1], by rw [b, (h2 i j).2]⟩

/-- work left: an idle task needs six steps per update -/
def phCost : Ph K → ℕ
  | .idle => 6
  | .entered => 5
  | .gotL _ => 4
  | .putL => 3
  | .gotW _ => 2
  | .putW => 1
def thCost (t : Th K) : ℕ := match t.todo with | [] => 0 | _ :: r => 6 * r.length + phCost t.ph
def cost (s : St K n) : ℕ := ∑ t, thCost (s.th t)

theorem cost_update (th : Fin n → Th K) (t : Fin n) (x : Th K) (h : thCost x < thCost (th t)) :
    ∑ t', thCost (Function.update th t x t') < ∑ t', thCost (th t') := by
  apply Finset.sum_lt_sum
  · intro t' _
    by_cases ht : t' = t
    · subst ht; simp [h.le]
    · simp [ht]
  · exact ⟨t, Finset.mem_univ t, by simpa using h⟩

theorem step_cost {sync : Bool} {s s' : St K n} (h : Step sync s s') : cost s' < cost s := by
  cases h <;> (apply cost_update; rename_i t u r _ _; simp_all [thCost, phCost]) <;>
    (rcases r with _ | ⟨v, r⟩ <;> simp [phCost] <;> omega)

/-- **C29** no deadlock and no livelock: from every reachable state in which some task is unfinished a
step is possible, and every step uses up work, so every execution ends with all tasks finished after at
most `cost` steps. -/
theorem C29_progress (f : Film K) (tasks : Fin n → List (Smp K)) (hsync : f.filt.xw > 1 / 2 ∨ f.filt.yw > 1 / 2) (s : St K n)
    (hr : Reach (syncFlag f) (start f tasks) s) :
    (¬ Done s → ∃ s', Step (syncFlag f) s s') ∧ (∀ s', Step (syncFlag f) s s' → cost s' < cost s) := by
  have hsf : syncFlag f = true := by simpa [syncFlag] using hsync
  have hi := inv_reach (inv_start (syncFlag f) f tasks (by rw [hsf]; simp)) hr
  refine ⟨fun hnd => ?_, fun s' h => step_cost h⟩
  by_cases hact : ∃ t, Active (s.th t)
  · obtain ⟨t, ha⟩ := hact
    have hne := hi.ne t ha
    rcases hth : s.th t with ⟨todo, ph⟩
    rw [hth] at hne ha
    cases todo with
    | nil => exact absurd rfl hne
    | cons u r =>
      cases ph with
      | idle => exact absurd ha (by simp [Active])
      | entered => exact ⟨_, .readL s t u r hth⟩
      | gotL v => exact ⟨_, .writeL s t u r v hth⟩
      | putL => exact ⟨_, .readW s t u r hth⟩
      | gotW v => exact ⟨_, .writeW s t u r v hth⟩
      | putW => exact ⟨_, .leaveLock s t u r hsf hth⟩
  · have : ∃ t, s.th t ≠ ⟨[], .idle⟩ := by
      by_contra hc
      apply hnd
      intro t
      by_contra ht
      exact hc ⟨t, ht⟩
    obtain ⟨t, ht⟩ := this
    rcases hth : s.th t with ⟨todo, ph⟩
    have hph : ph = .idle := by
      by_contra hp
      apply hact
      refine ⟨t, ?_⟩
      rw [hth]
      cases ph <;> simp_all [Active]
    subst hph
    cases todo with
    | nil => exact absurd hth ht
    | cons u r =>
      refine ⟨_, .enterLock s t u r hsf hth ?_⟩
      by_contra hl
      have hl' : s.lock (pos u) = true := by simpa using hl
      obtain ⟨x, v, q, -, ha, -⟩ := (hi.locks hsf (pos u)).1 hl'
      exact hact ⟨x, ha⟩

/-- **C29 (part)** unsynchronised filters (at most half a pixel wide): the same holds if no two tasks
have samples that reach a common pixel.  Missing: tasks that share pixels, for which it is false
(`C29_lost_update_false`). -/
theorem C29_unlocked_partial (f : Film K) (hsync : ¬ (f.filt.xw > 1 / 2 ∨ f.filt.yw > 1 / 2)) (tasks : Fin n → List (Smp K))
    (hsep : ∀ t t', t ≠ t' → ∀ a ∈ tasks t, ∀ b ∈ tasks t', ∀ i < f.xCnt, ∀ j < f.yCnt,
      ¬ (Under f a.x a.y i j ∧ Under f b.x b.y i j)) (s : St K n)
    (hr : Reach (syncFlag f) (start f tasks) s) (hd : Done s) :
    ∃ f', run f ((List.finRange n).flatMap (fun t => evs (tasks t))) = some f' ∧
      ∀ i j, s.L (i, j) = (f'.pix i j).Lxyz ∧ s.W (i, j) = (f'.pix i j).w := by
  obtain ⟨f', h1, h2⟩ := seq_result f tasks
  have under : ∀ (l : List (Smp K)) (u : Upd K), u ∈ prog f l → ∃ a ∈ l, u.i < f.xCnt ∧ u.j < f.yCnt ∧ Under f a.x a.y u.i u.j := by
    intro l u hu
    simp only [prog, List.mem_flatMap] at hu
    obtain ⟨a, ha, hu⟩ := hu
    rw [updates_eq, Option.getD_some, List.mem_map] at hu
    obtain ⟨p, hp, rfl⟩ := hu
    rw [mem_grid] at hp
    simp only [rect] at hp
    refine ⟨a, ha, ?_, ?_, ?_⟩
    · simp only [updOf]; omega
    · simp only [updOf]; omega
    · simp only [updOf]
      refine ⟨(axis_iff f.xStart f.xCnt a.x f.filt.xw (p.1 - f.xStart).toNat (by omega)).1 ?_,
        (axis_iff f.yStart f.yCnt a.y f.filt.yw (p.2 - f.yStart).toNat (by omega)).1 ?_⟩
      · rw [show f.xStart + ((p.1 - f.xStart).toNat : ℤ) = p.1 by omega]; exact hp.1
      · rw [show f.yStart + ((p.2 - f.yStart).toNat : ℤ) = p.2 by omega]; exact hp.2
  have hi := inv_reach (inv_start (syncFlag f) f tasks (by
    intro _ t t' htt u hu u' hu' hp
    obtain ⟨a, ha, i1, j1, ua⟩ := under _ u hu
    obtain ⟨b, hb, i2, j2, ub⟩ := under _ u' hu'
    obtain ⟨e1, e2⟩ := Prod.mk.inj hp
    rw [← e1, ← e2] at ub
    exact hsep t t' htt a ha b hb u.i i1 u.j j1 ⟨ua, ub⟩)) hr
  refine ⟨f', h1, fun i j => ?_⟩
  have a := hi.totL (i, j)
  have b := hi.totW (i, j)
  have z1 : ∑ t, remL (s.th t) (i, j) = 0 := Finset.sum_eq_zero (fun t _ => by rw [hd t]; rfl)
  have z2 : ∑ t, remW (s.th t) (i, j) = 0 := Finset.sum_eq_zero (fun t _ => by rw [hd t]; rfl)
  rw [z1, add_zero] at a
  rw [z2, add_zero] at b
  exact ⟨by rw [a, (h2 i j).1], by rw [b, (h2 i j).2]⟩

/-! ### Unsynchronised tasks that share a pixel -/

/-- one-pixel box filter: half-width one half -/
def boxF : Filt ℚ := ⟨1 / 2, 1 / 2, 2, 2, fun _ _ => 1⟩
/-- a 2 × 1 film -/
def film2 : Film ℚ := Film.init 2 1 boxF 0 1 0 1
/-- two tasks with one sample each; the second sample is on the edge between the two pixels. -/
def two : Fin 2 → List (Smp ℚ) := ![[⟨1 / 2, 1 / 2, fun _ => 1⟩], [⟨1, 1 / 2, fun _ => 1⟩]]

theorem two_progs : ∃ u v w : Upd ℚ, prog film2 (two 0) = [u] ∧ prog film2 (two 1) = [v, w] ∧
    pos u = (0, 0) ∧ pos v = (0, 0) ∧ pos w = (1, 0) ∧ u.dw = 1 ∧ v.dw = 1 ∧ w.dw = 1 := by
  have h1 : (prog film2 (two 0)).map (fun u => (u.i, u.j, u.dw)) = [(0, 0, 1)] := by decide +kernel
  have h2 : (prog film2 (two 1)).map (fun u => (u.i, u.j, u.dw)) = [(0, 0, 1), (1, 0, 1)] := by decide +kernel
  rcases e1 : prog film2 (two 0) with _ | ⟨u, _ | ⟨a, b⟩⟩
  · rw [e1] at h1; simp at h1
  · rcases e2 : prog film2 (two 1) with _ | ⟨v, _ | ⟨w, _ | ⟨a, b⟩⟩⟩
    · rw [e2] at h2; simp at h2
    · rw [e2] at h2; simp at h2
    · rw [e1] at h1; rw [e2] at h2
      simp only [List.map_cons, List.map_nil, List.cons.injEq, Prod.mk.injEq, and_true] at h1 h2
      exact ⟨u, v, w, rfl, rfl, by simp [pos, h1], by simp [pos, h2], by simp [pos, h2], h1.2.2, h2.1.2.2, h2.2.2.2⟩
    · rw [e2] at h2; simp at h2
  · rw [e1] at h1; simp at h1

/-- an unsynchronised task from the start of an update until it has read the weight -/
theorem run_first (s : St K n) (t : Fin n) (u : Upd K) (r : List (Upd K)) (ht : s.th t = ⟨u :: r, .idle⟩) :
    Reach false s { s with L := Function.update s.L (pos u) (s.L (pos u) + u.dL),
                           th := Function.update s.th t ⟨u :: r, .gotW (s.W (pos u))⟩ } := by
  have a := Step.enterFree (sync := false) s t u r rfl ht
  have b := Step.readL (sync := false) t u r (s := { s with th := Function.update s.th t ⟨u :: r, .entered⟩ }) (by simp)
  have c := Step.writeL (sync := false) t u r (s.L (pos u))
    (s := { s with th := Function.update s.th t ⟨u :: r, .gotL (s.L (pos u))⟩ }) (by simp)
  have d := Step.readW (sync := false) t u r
    (s := { s with L := Function.update s.L (pos u) (s.L (pos u) + u.dL), th := Function.update s.th t ⟨u :: r, .putL⟩ }) (by simp)
  simp only [Function.update_idem] at b c d
  exact (((Relation.ReflTransGen.refl.tail a).tail b).tail c).tail d

/-- an unsynchronised task from then to the end of the update -/
theorem run_second (s : St K n) (t : Fin n) (u : Upd K) (r : List (Upd K)) (v : K) (ht : s.th t = ⟨u :: r, .gotW v⟩) :
    Reach false s { s with W := Function.update s.W (pos u) (v + u.dw), th := Function.update s.th t ⟨r, .idle⟩ } := by
  have a := Step.writeW (sync := false) s t u r v ht
  have b := Step.leaveFree (sync := false) t u r rfl
    (s := { s with W := Function.update s.W (pos u) (v + u.dw), th := Function.update s.th t ⟨u :: r, .putW⟩ }) (by simp)
  simp only [Function.update_idem] at b
  exact (Relation.ReflTransGen.refl.tail a).tail b

/-- **C29 is false for filters at most half a pixel wide**: the code then takes no lock, although a
sample on a pixel edge updates both pixels.  Two tasks with one sample each can lose an update: the first
pixel ends with weight one instead of two. -/
theorem C29_lost_update_false :
    ¬ ∀ (f : Film ℚ) (tasks : Fin 2 → List (Smp ℚ)) (s : St ℚ 2), Reach (syncFlag f) (start f tasks) s → Done s →
      ∃ f', run f ((List.finRange 2).flatMap (fun t => evs (tasks t))) = some f' ∧
        ∀ i j, s.L (i, j) = (f'.pix i j).Lxyz ∧ s.W (i, j) = (f'.pix i j).w := by
  intro hall
  obtain ⟨u, v, w, p0, p1, hu, hv, hw, du, dv, dw⟩ := two_progs
  have hsf : syncFlag film2 = false := by decide +kernel
  have key : ∃ s : St ℚ 2, Reach false (start film2 two) s ∧ Done s ∧ s.W (0, 0) = 1 := by
    have r1 := run_first (start film2 two) 0 u [] (by simp [start, p0])
    have r2 := r1.trans (run_first _ 1 v [w] (by simp [start, p1]))
    have r3 := r2.trans (run_second _ 1 v [w] ((start film2 two).W (pos v)) (by simp))
    have r4 := r3.trans (run_first _ 1 w [] (by simp))
    have r5 := r4.trans (run_second _ 1 w [] ((start film2 two).W (pos w)) (by simp [hv, hw]))
    have r6 := r5.trans (run_second _ 0 u [] ((start film2 two).W (pos u)) (by simp))
    refine ⟨_, r6, ?_, ?_⟩
    · intro t
      fin_cases t
      · simp
      · simp
    · simp [start, hu, du, film2, Film.init]
  obtain ⟨s, hr, hd, hW⟩ := key
  obtain ⟨f', h1, h2⟩ := hall film2 two s (by rw [hsf]; exact hr) hd
  obtain ⟨g, h3, h4⟩ := seq_result film2 two
  rw [h1] at h3
  obtain rfl := Option.some.inj h3
  have h5 := (h2 0 0).2
  rw [hW, (h4 0 0).2] at h5
  have h6 : (film2.pix 0 0).w = 0 := rfl
  norm_num [Fin.sum_univ_two, p0, p1, sumW, hu, hv, hw, du, dv, h6] at h5

/-- a film with a filter one pixel wide on each side meets the hypothesis of the synchronised case, and
two tasks on a common pixel do reach a state where both are finished. -/
example : ∃ (f : Film ℚ) (tasks : Fin 2 → List (Smp ℚ)) (s : St ℚ 2), (f.filt.xw > 1 / 2 ∨ f.filt.yw > 1 / 2) ∧
    (∀ t, prog f (tasks t) ≠ []) ∧ Reach (syncFlag f) (start f tasks) s ∧ Done s := by
  let f : Film ℚ := Film.init 2 1 ⟨1, 1, 1, 1, fun _ _ => 1⟩ 0 1 0 1
  have hs : f.filt.xw > 1 / 2 ∨ f.filt.yw > 1 / 2 := Or.inl (by simp [f, Film.init]; norm_num)
  have hfin : ∀ (k : ℕ) (s : St ℚ 2), Reach (syncFlag f) (start f two) s → cost s ≤ k →
      ∃ s', Reach (syncFlag f) (start f two) s' ∧ Done s' := by
    intro k
    induction k with
    | zero =>
      intro s hr hc
      by_cases hd : Done s
      · exact ⟨s, hr, hd⟩
      · obtain ⟨s', h⟩ := (C29_progress f two hs s hr).1 hd
        have := step_cost h; omega
    | succ k ih =>
      intro s hr hc
      by_cases hd : Done s
      · exact ⟨s, hr, hd⟩
      · obtain ⟨s', h⟩ := (C29_progress f two hs s hr).1 hd
        have := step_cost h
        exact ih s' (hr.tail h) (by omega)
  obtain ⟨s, h1, h2⟩ := hfin _ _ .refl le_rfl
  refine ⟨f, two, s, hs, ?_, h1, h2⟩
  intro t ht
  have : (prog f (two t)).length = 0 := by rw [ht]; rfl
  revert this
  fin_cases t <;> decide +kernel

end Verif.Film.Conc
