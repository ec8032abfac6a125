import Mathlib.Data.List.Nodup
import Mathlib.Data.List.TakeDrop
import Mathlib.Algebra.BigOperators.Fin
import Mathlib.Algebra.Order.BigOperators.Group.Finset
import Mathlib.Tactic.Linarith

/-!
# Lazy refinement in a grid voxel, for any number of threads (`Voxel.intersect`, `Voxel.intersect_p`; `pytracer/aggregate/aggregate.py:108-168`)

A voxel shared by `n` threads, each of which is running `intersect` or `intersect_p` on it.  A step of a thread is one access to the shared state (the flag, the lock, one element of the list); steps of
the threads are interleaved in any order.  A primitive is opaque: `can p` is `prim.can_intersect()`, `ref p` the result of lines 127-132 (refine the primitive completely and take the only part, or put the parts
into a new grid), `none` if that raises.  `hit p` is whether the ray of the thread hits `p`.  A ray belongs to one thread; what `prim.intersect` does with it is not modelled here.
-/

namespace Verif.Agg.Lazy

variable {P : Type*}

/-- the shared part of a `Voxel` and of its grid's lock (`aggregate.py:110-112, 229`); `calls` records the indices at which lines 127-132 were executed and is not in the code -/
structure Shared (P : Type*) where
  prims : List P
  flag : Bool
  holder : Option ℕ
  calls : List ℕ

/-- where a thread is: before line 122, before line 123, at the top of the loop of line 124, before the assignment of line 130 or 132, before lines 134 and 135, in the loop of line 141 (165) after looking at
the primitives `seen`, returned, or left by an exception (in line 128 or 132) -/
inductive Pc (P : Type*)
  | start
  | acquire
  | scan (i : ℕ)
  | store (i : ℕ) (q : P)
  | setFlag
  | release
  | visit (i : ℕ) (seen : List P)
  | done (seen : List P)
  | raised

/-- one step of thread `t`; `none` if the thread waits for the lock or has ended (`aggregate.py:120-144`, and with `early` the loop of `intersect_p`, `aggregate.py:146-168`) -/
def step (can : P → Bool) (ref : P → Option P) (early : Bool) (hit : P → Bool) (t : ℕ) (s : Shared P) : Pc P → Option (Shared P × Pc P)
  | .start => some (s, if s.flag then .visit 0 [] else .acquire)
  | .acquire => if s.holder = none then some ({ s with holder := some t }, .scan 0) else none
  | .scan i => match s.prims[i]? with
    | none => some (s, .setFlag)
    | some p => if can p then some (s, .scan (i + 1)) else match ref p with
      | none => some ({ s with calls := s.calls ++ [i] }, .raised)
      | some q => some ({ s with calls := s.calls ++ [i] }, .store i q)
  | .store i q => some ({ s with prims := s.prims.set i q }, .scan (i + 1))
  | .setFlag => some ({ s with flag := true }, .release)
  | .release => some ({ s with holder := none }, .visit 0 [])
  | .visit i seen => match s.prims[i]? with
    | none => some (s, .done seen)
    | some p => if early && hit p then some (s, .done (seen ++ [p])) else some (s, .visit (i + 1) (seen ++ [p]))
  | .done _ => none
  | .raised => none

/-- the voxel and all its threads -/
structure World (P : Type*) (n : ℕ) where
  sh : Shared P
  pc : Fin n → Pc P

/-- the voxel before its first use (`aggregate.py:110-112`) -/
def World.init (n : ℕ) (prims : List P) : World P n := ⟨⟨prims, false, none, []⟩, fun _ => .start⟩

/-- what each thread is doing: its kind of query and its ray -/
structure Job (P : Type*) where
  early : Bool
  hit : P → Bool

/-- some thread makes a step -/
inductive Step {n : ℕ} (can : P → Bool) (ref : P → Option P) (job : Fin n → Job P) : World P n → World P n → Prop
  | mk (w : World P n) (t : Fin n) (s' : Shared P) (pc' : Pc P) (h : step can ref (job t).early (job t).hit t w.sh (w.pc t) = some (s', pc')) :
      Step can ref job w ⟨s', Function.update w.pc t pc'⟩

/-- `k` steps -/
inductive Steps {n : ℕ} (can : P → Bool) (ref : P → Option P) (job : Fin n → Job P) : ℕ → World P n → World P n → Prop
  | refl (w) : Steps can ref job 0 w w
  | tail {k w w' w''} : Steps can ref job k w w' → Step can ref job w' w'' → Steps can ref job (k + 1) w w''

/-! ## Specification -/

/-- a primitive as it should be used: itself if it can be intersected, otherwise its refinement -/
def usable (can : P → Bool) (ref : P → Option P) (p : P) : P := if can p then p else (ref p).getD p

/-- refinement never fails and its result can be intersected -/
def Refines (can : P → Bool) (ref : P → Option P) : Prop := ∀ p, can p = false → ∃ q, ref p = some q ∧ can q = true

/-! ## Invariant -/

/-- the thread is between taking and releasing the lock -/
def Pc.crit : Pc P → Prop
  | .scan _ | .store _ _ | .setFlag | .release => True
  | _ => False

/-- what is known of one thread -/
def Pc.Ok (can : P → Bool) (ref : P → Option P) (orig : List P) (s : Shared P) (early : Bool) (hit : P → Bool) : Pc P → Prop
  | .start => True
  | .acquire => True
  | .scan i => i ≤ orig.length ∧ (∀ j, j < i → s.prims[j]? = (orig.map (usable can ref))[j]?)
  | .store i q => i < orig.length ∧ (∀ j, j < i → s.prims[j]? = (orig.map (usable can ref))[j]?) ∧ (∃ p, orig[i]? = some p ∧ can p = false ∧ ref p = some q) ∧ i ∈ s.calls ∧ s.prims[i]? = orig[i]?
  | .setFlag => s.prims = orig.map (usable can ref)
  | .release => s.prims = orig.map (usable can ref) ∧ s.flag = true
  | .visit i seen => s.flag = true ∧ i ≤ orig.length ∧ seen = (orig.map (usable can ref)).take i ∧ (early = true → ∀ p ∈ seen, hit p = false)
  | .done seen => (early = false → seen = orig.map (usable can ref)) ∧ seen.any hit = (orig.map (usable can ref)).any hit ∧ ∃ k, seen = (orig.map (usable can ref)).take k
  | .raised => False

/-- what is known of the voxel -/
structure Inv (can : P → Bool) (ref : P → Option P) {n : ℕ} (job : Fin n → Job P) (orig : List P) (w : World P n) : Prop where
  len : w.sh.prims.length = orig.length
  each : ∀ j : ℕ, w.sh.prims[j]? = orig[j]? ∨ w.sh.prims[j]? = (orig.map (usable can ref))[j]?
  all : w.sh.flag = true → w.sh.prims = orig.map (usable can ref)
  lock : ∀ t : Fin n, w.sh.holder = some t.val ↔ (w.pc t).crit
  holder : ∀ k, w.sh.holder = some k → k < n
  ok : ∀ t, (w.pc t).Ok can ref orig w.sh (job t).early (job t).hit
  nodup : w.sh.calls.Nodup
  called : ∀ i ∈ w.sh.calls, w.sh.prims[i]? = (orig.map (usable can ref))[i]? ∨ ∃ t q, w.pc t = .store i q
  needed : ∀ i ∈ w.sh.calls, ∃ p, orig[i]? = some p ∧ can p = false
  once : ∀ (i : ℕ) (p : P), orig[i]? = some p → can p = false → w.sh.prims[i]? = (orig.map (usable can ref))[i]? → i ∈ w.sh.calls

theorem usable_can {can : P → Bool} {ref : P → Option P} (hr : Refines can ref) (p : P) : can (usable can ref p) = true := by
  unfold usable
  split_ifs with h
  · exact h
  · obtain ⟨q, h1, h2⟩ := hr p (by simpa using h)
    rw [h1]; exact h2

theorem init_inv (can : P → Bool) (ref : P → Option P) (hr : Refines can ref) {n : ℕ} (job : Fin n → Job P) (orig : List P) : Inv can ref job orig (World.init n orig) where
  len := rfl
  each _ := Or.inl rfl
  all h := by simp [World.init] at h
  lock t := by simp [World.init, Pc.crit]
  holder k h := by simp [World.init] at h
  ok t := trivial
  nodup := List.nodup_nil
  called i h := by simp [World.init] at h
  needed i h := by simp [World.init] at h
  once i p h hc h2 := by
    exfalso
    simp only [World.init, h, List.getElem?_map, Option.map_some, Option.some.injEq] at h2
    have := usable_can hr p
    rw [← h2, hc] at this
    cases this

theorem Ok_mono {can : P → Bool} {ref : P → Option P} {orig : List P} {s s' : Shared P} {e : Bool} {hit : P → Bool} (pc : Pc P) (h1 : s'.prims = s.prims) (h2 : s.flag = true → s'.flag = true)
    (h3 : ∀ i ∈ s.calls, i ∈ s'.calls) (h : pc.Ok can ref orig s e hit) : pc.Ok can ref orig s' e hit := by
  cases pc with
  | start => trivial
  | acquire => trivial
  | scan i => exact ⟨h.1, by rw [h1]; exact h.2⟩
  | store i q => exact ⟨h.1, by rw [h1]; exact h.2.1, h.2.2.1, h3 _ h.2.2.2.1, by rw [h1]; exact h.2.2.2.2⟩
  | setFlag => exact h1.trans h
  | release => exact ⟨h1.trans h.1, h2 h.2⟩
  | visit i seen => exact ⟨h2 h.1, h.2⟩
  | done seen => exact h
  | raised => exact h

/-- a step that leaves the list, and the records of refinements, as they are -/
theorem inv_same {can : P → Bool} {ref : P → Option P} {n : ℕ} {job : Fin n → Job P} {orig : List P} {w : World P n} (h : Inv can ref job orig w) (t : Fin n) {s' : Shared P} {pc' : Pc P}
    (h1 : s'.prims = w.sh.prims) (h2 : w.sh.flag = true → s'.flag = true) (h3 : s'.calls = w.sh.calls) (h4 : s'.flag = true → s'.prims = orig.map (usable can ref))
    (hlock : ∀ u : Fin n, s'.holder = some u.val ↔ (Function.update w.pc t pc' u).crit) (hh : ∀ k, s'.holder = some k → k < n)
    (hns : ∀ i q, w.pc t ≠ .store i q) (hok : pc'.Ok can ref orig s' (job t).early (job t).hit) : Inv can ref job orig ⟨s', Function.update w.pc t pc'⟩ where
  len := by rw [← h.len]; show s'.prims.length = _; rw [h1]
  each := by show ∀ j : ℕ, s'.prims[j]? = _ ∨ s'.prims[j]? = _; rw [h1]; exact h.each
  all := h4
  lock := hlock
  holder := hh
  ok u := by
    show (Function.update w.pc t pc' u).Ok _ _ _ _ _ _
    by_cases hu : u = t
    · subst hu; rw [Function.update_self]; exact hok
    · rw [Function.update_of_ne hu]; exact Ok_mono _ h1 h2 (by rw [h3]; exact fun _ h => h) (h.ok u)
  nodup := by show s'.calls.Nodup; rw [h3]; exact h.nodup
  called := by
    show ∀ i ∈ s'.calls, s'.prims[i]? = _ ∨ ∃ u q, Function.update w.pc t pc' u = _
    rw [h3, h1]
    intro i hi
    rcases h.called i hi with a | ⟨u, q, a⟩
    · exact Or.inl a
    · refine Or.inr ⟨u, q, ?_⟩
      rw [Function.update_of_ne]
      · exact a
      · rintro rfl; exact hns i q a
  needed := by show ∀ i ∈ s'.calls, _; rw [h3]; exact h.needed
  once := by show ∀ (i : ℕ) (p : P), _ → _ → s'.prims[i]? = _ → i ∈ s'.calls; rw [h3, h1]; exact h.once

theorem lock_keep {can : P → Bool} {ref : P → Option P} {n : ℕ} {job : Fin n → Job P} {orig : List P} {w : World P n} (h : Inv can ref job orig w) (t : Fin n) {pc' : Pc P}
    (hc : pc'.crit ↔ (w.pc t).crit) (u : Fin n) : w.sh.holder = some u.val ↔ (Function.update w.pc t pc' u).crit := by
  by_cases hu : u = t
  · subst hu; rw [Function.update_self, hc]; exact h.lock u
  · rw [Function.update_of_ne hu]; exact h.lock u

theorem step_inv {can : P → Bool} {ref : P → Option P} (hr : Refines can ref) {n : ℕ} {job : Fin n → Job P} {orig : List P} {w w' : World P n} (h : Inv can ref job orig w) (hs : Step can ref job w w') :
    Inv can ref job orig w' := by
  obtain ⟨t, s', pc', hst⟩ := hs
  have hok := h.ok t
  have hl := h.lock t
  have hU : ∀ (j : ℕ) (p : P), orig[j]? = some p → (orig.map (usable can ref))[j]? = some (usable can ref p) := fun j p e => by simp [e]
  have hlenU : (orig.map (usable can ref)).length = orig.length := List.length_map ..
  cases hpc : w.pc t with
  | start =>
    rw [hpc] at hst
    simp only [step, Option.some.injEq, Prod.mk.injEq] at hst
    obtain ⟨rfl, rfl⟩ := hst
    refine inv_same h t rfl id rfl h.all (fun u => lock_keep h t ?_ u) h.holder (by simp [hpc]) ?_
    · rw [hpc]; split_ifs <;> simp [Pc.crit]
    · split_ifs with hf
      · exact ⟨hf, Nat.zero_le _, rfl, by simp⟩
      · trivial
  | acquire =>
    rw [hpc] at hst
    simp only [step] at hst
    split_ifs at hst with hh
    simp only [Option.some.injEq, Prod.mk.injEq] at hst
    obtain ⟨rfl, rfl⟩ := hst
    refine inv_same h t rfl id rfl h.all (fun u => ?_) (fun k hk => ?_) (by simp [hpc]) ⟨Nat.zero_le _, by simp⟩
    · by_cases hu : u = t
      · subst hu; simp [Pc.crit]
      · rw [Function.update_of_ne hu, ← h.lock u, hh]
        simp only [Option.some.injEq, reduceCtorEq, iff_false]
        exact fun e => hu (Fin.ext e.symm)
    · simp only [Option.some.injEq] at hk; subst hk; exact t.isLt
  | scan i =>
    rw [hpc] at hst hok
    obtain ⟨o1, o2⟩ := hok
    simp only [step] at hst
    cases hp : w.sh.prims[i]? with
    | none =>
      rw [hp] at hst
      simp only [Option.some.injEq, Prod.mk.injEq] at hst
      obtain ⟨rfl, rfl⟩ := hst
      refine inv_same h t rfl id rfl h.all (fun u => lock_keep h t (by rw [hpc]; simp [Pc.crit]) u) h.holder (by simp [hpc]) ?_
      have hi : orig.length ≤ i := by rw [← h.len]; exact List.getElem?_eq_none_iff.1 hp
      show w.sh.prims = orig.map (usable can ref)
      apply List.ext_getElem?
      intro j
      by_cases hj : j < i
      · exact o2 j hj
      · rw [List.getElem?_eq_none (by rw [h.len]; omega), List.getElem?_eq_none (by rw [hlenU]; omega)]
    | some p =>
      rw [hp] at hst
      have hi : i < orig.length := by rw [← h.len]; exact (List.getElem?_eq_some_iff.1 hp).1
      obtain ⟨p0, hp0⟩ : ∃ p0, orig[i]? = some p0 := ⟨orig[i], List.getElem?_eq_getElem hi⟩
      simp only [] at hst
      split_ifs at hst with hc
      · simp only [Option.some.injEq, Prod.mk.injEq] at hst
        obtain ⟨rfl, rfl⟩ := hst
        refine inv_same h t rfl id rfl h.all (fun u => lock_keep h t (by rw [hpc]; simp [Pc.crit]) u) h.holder (by simp [hpc]) ⟨hi, ?_⟩
        intro j hj
        rcases Nat.lt_succ_iff_lt_or_eq.1 hj with hj | rfl
        · exact o2 j hj
        · rcases h.each j with e | e
          · rw [hp, hp0] at e
            rw [hp, hU j p0 hp0, e]
            have e' := Option.some.inj e
            rw [← e']
            unfold usable
            rw [if_pos hc]
          · exact e
      · -- the primitive must be refined
        have hc' : can p = false := by simpa using hc
        obtain ⟨q, hq, hcq⟩ := hr p hc'
        rw [hq] at hst
        simp only [Option.some.injEq, Prod.mk.injEq] at hst
        obtain ⟨rfl, rfl⟩ := hst
        have hne : w.sh.prims[i]? ≠ (orig.map (usable can ref))[i]? := by
          rw [hp, hU i p0 hp0]
          intro e
          have := usable_can hr p0
          rw [← Option.some.inj e, hc'] at this
          cases this
        have hpo : w.sh.prims[i]? = orig[i]? := (h.each i).resolve_right hne
        have hni : i ∉ w.sh.calls := by
          intro hi'
          rcases h.called i hi' with e | ⟨u, q', e⟩
          · exact hne e
          · have h1 : w.sh.holder = some u.val := (h.lock u).2 (by rw [e]; trivial)
            have h2 : w.sh.holder = some t.val := hl.2 (by rw [hpc]; trivial)
            rw [h1] at h2
            have : u = t := Fin.ext (Option.some.inj h2)
            rw [this, hpc] at e
            cases e
        have hpp : orig[i]? = some p := by rw [← hpo, hp]
        refine ⟨h.len, h.each, h.all, fun u => lock_keep h t (by rw [hpc]; simp [Pc.crit]) u, h.holder, fun u => ?_, ?_, ?_, ?_, ?_⟩
        · show (Function.update w.pc t _ u).Ok _ _ _ _ _ _
          by_cases hu : u = t
          · subst hu; rw [Function.update_self]
            exact ⟨hi, o2, ⟨p, hpp, hc', hq⟩, by simp, hpo⟩
          · rw [Function.update_of_ne hu]
            exact Ok_mono (s := w.sh) _ rfl id (fun j hj => List.mem_append_left _ hj) (h.ok u)
        · show (w.sh.calls ++ [i]).Nodup
          rw [List.nodup_append]
          refine ⟨h.nodup, List.nodup_singleton i, ?_⟩
          intro a ha b hb e
          rw [List.mem_singleton] at hb
          rw [e, hb] at ha
          exact hni ha
        · intro j hj
          rcases List.mem_append.1 hj with hj | hj
          · rcases h.called j hj with e | ⟨u, q', e⟩
            · exact Or.inl e
            · refine Or.inr ⟨u, q', ?_⟩
              show Function.update w.pc t _ u = _
              rw [Function.update_of_ne]
              · exact e
              · rintro rfl; rw [hpc] at e; cases e
          · rw [List.mem_singleton] at hj
            subst hj
            exact Or.inr ⟨t, q, by show Function.update w.pc t _ t = _; rw [Function.update_self]⟩
        · intro j hj
          rcases List.mem_append.1 hj with hj | hj
          · exact h.needed j hj
          · rw [List.mem_singleton] at hj
            subst hj
            exact ⟨p, hpp, hc'⟩
        · intro j p' a b c
          exact List.mem_append_left _ (h.once j p' a b c)
  | store i q =>
    rw [hpc] at hst hok
    obtain ⟨o1, o2, ⟨p, o3, o4, o5⟩, o6, o7⟩ := hok
    simp only [step, Option.some.injEq, Prod.mk.injEq] at hst
    obtain ⟨rfl, rfl⟩ := hst
    have hq : usable can ref p = q := by unfold usable; rw [o4, o5]; rfl
    have hUi : (orig.map (usable can ref))[i]? = some q := by rw [hU i p o3, hq]
    have hflag : w.sh.flag = false := by
      by_contra hf
      have e := h.all (by simpa using hf)
      have := o7
      rw [e, hUi, o3] at this
      obtain ⟨q', h1, h2⟩ := hr p o4
      rw [o5] at h1
      rw [Option.some.inj h1] at this
      rw [Option.some.inj this] at h2
      rw [o4] at h2; cases h2
    have hset : ∀ j : ℕ, (w.sh.prims.set i q)[j]? = if i = j then (orig.map (usable can ref))[i]? else w.sh.prims[j]? := by
      intro j
      rw [List.getElem?_set]
      split_ifs with a b
      · rw [hUi]
      · exact absurd (by rw [h.len]; exact o1) b
      · rfl
    refine ⟨by show (w.sh.prims.set i q).length = _; rw [List.length_set]; exact h.len, ?_, fun hf => ?_, fun u => lock_keep h t (by rw [hpc]; simp [Pc.crit]) u, h.holder, fun u => ?_, h.nodup, ?_, h.needed, ?_⟩
    · intro j
      show (w.sh.prims.set i q)[j]? = _ ∨ (w.sh.prims.set i q)[j]? = _
      rw [hset]
      split_ifs with a
      · subst a; exact Or.inr rfl
      · exact h.each j
    · have hf' : w.sh.flag = true := hf
      rw [hflag] at hf'; cases hf'
    · show (Function.update w.pc t _ u).Ok _ _ _ _ _ _
      by_cases hu : u = t
      · subst hu; rw [Function.update_self]
        refine ⟨o1, fun j hj => ?_⟩
        show (w.sh.prims.set i q)[j]? = _
        rw [hset]
        split_ifs with a
        · subst a; rfl
        · exact o2 j (by omega)
      · rw [Function.update_of_ne hu]
        have hnc : ¬ (w.pc u).crit := by
          intro hcr
          have h1 := (h.lock u).2 hcr
          have h2 : w.sh.holder = some t.val := hl.2 (by rw [hpc]; trivial)
          rw [h1] at h2
          exact hu (Fin.ext (Option.some.inj h2))
        have hoku := h.ok u
        cases hpu : w.pc u with
        | start => trivial
        | acquire => trivial
        | scan _ => rw [hpu] at hnc; exact absurd trivial hnc
        | store _ _ => rw [hpu] at hnc; exact absurd trivial hnc
        | setFlag => rw [hpu] at hnc; exact absurd trivial hnc
        | release => rw [hpu] at hnc; exact absurd trivial hnc
        | visit j seen => rw [hpu] at hoku; rw [hoku.1] at hflag; cases hflag
        | done seen => rw [hpu] at hoku; exact hoku
        | raised => rw [hpu] at hoku; exact hoku
    · intro j hj
      show (w.sh.prims.set i q)[j]? = _ ∨ _
      rw [hset]
      split_ifs with a
      · subst a; exact Or.inl rfl
      · rcases h.called j hj with e | ⟨u, q', e⟩
        · exact Or.inl e
        · refine Or.inr ⟨u, q', ?_⟩
          show Function.update w.pc t _ u = _
          rw [Function.update_of_ne]
          · exact e
          · rintro rfl
            rw [hpc] at e
            injection e with e1 _
            exact a e1
    · intro j p' a b c
      by_cases hj : i = j
      · subst hj; exact o6
      · have : (w.sh.prims.set i q)[j]? = _ := c
        rw [hset, if_neg hj] at this
        exact h.once j p' a b this
  | setFlag =>
    rw [hpc] at hst hok
    simp only [step, Option.some.injEq, Prod.mk.injEq] at hst
    obtain ⟨rfl, rfl⟩ := hst
    exact inv_same h t rfl (fun _ => rfl) rfl (fun _ => hok) (fun u => lock_keep h t (by rw [hpc]; simp [Pc.crit]) u) h.holder (by simp [hpc]) ⟨hok, rfl⟩
  | release =>
    rw [hpc] at hst hok
    simp only [step, Option.some.injEq, Prod.mk.injEq] at hst
    obtain ⟨rfl, rfl⟩ := hst
    refine inv_same h t rfl id rfl h.all (fun u => ?_) (fun k hk => by simp at hk) (by simp [hpc]) ⟨hok.2, Nat.zero_le _, rfl, by simp⟩
    simp only [reduceCtorEq, false_iff]
    by_cases hu : u = t
    · subst hu; rw [Function.update_self]; exact id
    · rw [Function.update_of_ne hu, ← h.lock u]
      have h2 : w.sh.holder = some t.val := hl.2 (by rw [hpc]; trivial)
      rw [h2]
      exact fun e => hu (Fin.ext (Option.some.inj e).symm)
  | visit i seen =>
    rw [hpc] at hst hok
    obtain ⟨o1, o2, rfl, o4⟩ := hok
    have hpr := h.all o1
    simp only [step] at hst
    rw [hpr] at hst
    cases hp : (orig.map (usable can ref))[i]? with
    | none =>
      rw [hp] at hst
      simp only [Option.some.injEq, Prod.mk.injEq] at hst
      obtain ⟨rfl, rfl⟩ := hst
      have hi : orig.length ≤ i := by rw [← hlenU]; exact List.getElem?_eq_none_iff.1 hp
      have ht : (orig.map (usable can ref)).take i = orig.map (usable can ref) := List.take_of_length_le (by rw [hlenU]; exact hi)
      refine inv_same h t rfl id rfl h.all (fun u => lock_keep h t (by rw [hpc]; simp [Pc.crit]) u) h.holder (by simp [hpc]) ⟨fun _ => ht, by rw [ht], i, rfl⟩
    | some p =>
      rw [hp] at hst
      have hi : i < orig.length := by rw [← hlenU]; exact (List.getElem?_eq_some_iff.1 hp).1
      have htk : (orig.map (usable can ref)).take i ++ [p] = (orig.map (usable can ref)).take (i + 1) := by
        rw [List.take_add_one, hp]; rfl
      simp only [] at hst
      split_ifs at hst with hc
      · simp only [Option.some.injEq, Prod.mk.injEq] at hst
        obtain ⟨rfl, rfl⟩ := hst
        rw [Bool.and_eq_true] at hc
        refine inv_same h t rfl id rfl h.all (fun u => lock_keep h t (by rw [hpc]; simp [Pc.crit]) u) h.holder (by simp [hpc]) ⟨fun e => ?_, ?_, i + 1, htk⟩
        · rw [hc.1] at e; cases e
        · rw [List.any_append, List.any_cons, hc.2]
          simp only [Bool.true_or, Bool.or_true]
          symm
          rw [List.any_eq_true]
          exact ⟨p, List.mem_of_getElem? hp, hc.2⟩
      · simp only [Option.some.injEq, Prod.mk.injEq] at hst
        obtain ⟨rfl, rfl⟩ := hst
        refine inv_same h t rfl id rfl h.all (fun u => lock_keep h t (by rw [hpc]; simp [Pc.crit]) u) h.holder (by simp [hpc]) ⟨o1, hi, htk, fun e p' hp' => ?_⟩
        rcases List.mem_append.1 hp' with a | a
        · exact o4 e p' a
        · rw [List.mem_singleton] at a
          subst a
          rw [e, Bool.true_and] at hc
          simpa using hc
  | done seen => rw [hpc] at hst; simp [step] at hst
  | raised => rw [hpc] at hst; simp [step] at hst

theorem steps_inv {can : P → Bool} {ref : P → Option P} (hr : Refines can ref) {n : ℕ} {job : Fin n → Job P} {orig : List P} {k : ℕ} {w : World P n} (h : Steps can ref job k (World.init n orig) w) :
    Inv can ref job orig w := by
  generalize hw : World.init n orig = w0 at h
  induction h with
  | refl => subst hw; exact init_inv can ref hr job orig
  | tail _ hs ih => exact step_inv hr (ih hw) hs

/-! ## C142 -/

/-- In every interleaving of any number of threads: two threads are never inside the refinement at the same time; no primitive is refined twice, and only those that need it are; no thread fails; and a query that has
returned has looked at the usable form of the primitives in order, all of them for `intersect`, up to the first hit for `intersect_p`, so that its answer is the one of the refined voxel. -/
theorem C142_voxel (can : P → Bool) (ref : P → Option P) (hr : Refines can ref) {n : ℕ} (job : Fin n → Job P) (orig : List P) (k : ℕ) (w : World P n)
    (h : Steps can ref job k (World.init n orig) w) :
    (∀ t u : Fin n, (w.pc t).crit → (w.pc u).crit → t = u) ∧
    w.sh.calls.Nodup ∧ (∀ i ∈ w.sh.calls, ∃ p, orig[i]? = some p ∧ can p = false) ∧
    (∀ t, w.pc t ≠ .raised) ∧
    (∀ t i seen, w.pc t = .visit i seen → seen = (orig.map (usable can ref)).take i ∧ ∀ p ∈ w.sh.prims, can p = true) ∧
    ∀ t seen, w.pc t = .done seen → seen.any (job t).hit = (orig.map (usable can ref)).any (job t).hit ∧ ((job t).early = false → seen = orig.map (usable can ref)) := by
  have hi := steps_inv hr h
  refine ⟨fun t u ht hu => ?_, hi.nodup, hi.needed, fun t e => ?_, fun t i seen e => ?_, fun t seen e => ?_⟩
  · have h1 := (hi.lock t).2 ht
    have h2 := (hi.lock u).2 hu
    rw [h1] at h2
    exact Fin.ext (Option.some.inj h2)
  · have := hi.ok t; rw [e] at this; exact this
  · have := hi.ok t
    rw [e] at this
    refine ⟨this.2.2.1, fun p hp => ?_⟩
    rw [hi.all this.1] at hp
    obtain ⟨p0, _, rfl⟩ := List.mem_map.1 hp
    exact usable_can hr p0
  · have := hi.ok t
    rw [e] at this
    exact ⟨this.2.1, this.1⟩

/-- Once the voxel says that all its primitives can be intersected, each primitive that needed it has been refined, exactly once. -/
theorem C142_complete (can : P → Bool) (ref : P → Option P) (hr : Refines can ref) {n : ℕ} (job : Fin n → Job P) (orig : List P) (k : ℕ) (w : World P n)
    (h : Steps can ref job k (World.init n orig) w) (hf : w.sh.flag = true) :
    w.sh.prims = orig.map (usable can ref) ∧ ∀ i : ℕ, i ∈ w.sh.calls ↔ ∃ p, orig[i]? = some p ∧ can p = false := by
  have hi := steps_inv hr h
  refine ⟨hi.all hf, fun i => ⟨hi.needed i, ?_⟩⟩
  rintro ⟨p, a, b⟩
  exact hi.once i p a b (by rw [hi.all hf])

/-- the thread has ended -/
def Pc.ended : Pc P → Prop
  | .done _ => True
  | .raised => True
  | _ => False

/-- No deadlock: as long as a query has not returned, some thread can go on. -/
theorem C142_progress (can : P → Bool) (ref : P → Option P) (hr : Refines can ref) {n : ℕ} (job : Fin n → Job P) (orig : List P) (k : ℕ) (w : World P n)
    (h : Steps can ref job k (World.init n orig) w) (t : Fin n) (ht : ¬ (w.pc t).ended) : ∃ w', Step can ref job w w' := by
  have hi := steps_inv hr h
  have go : ∀ u : Fin n, (step can ref (job u).early (job u).hit u w.sh (w.pc u)).isSome → ∃ w', Step can ref job w w' := by
    intro u hu
    obtain ⟨⟨s', pc'⟩, e⟩ := Option.isSome_iff_exists.1 hu
    exact ⟨_, Step.mk w u s' pc' e⟩
  have crit : ∀ u : Fin n, (w.pc u).crit → ∃ w', Step can ref job w w' := by
    intro u hu
    apply go u
    cases hp : w.pc u <;> rw [hp] at hu <;> simp only [step] <;> try exact absurd hu id
    all_goals first | rfl | skip
    split
    · rfl
    · split_ifs
      · rfl
      · split <;> rfl
  cases hp : w.pc t with
  | start => exact go t (by rw [hp]; rfl)
  | acquire =>
    cases hh : w.sh.holder with
    | none => exact go t (by rw [hp]; simp only [step]; rw [if_pos hh]; rfl)
    | some k => exact crit ⟨k, hi.holder k hh⟩ ((hi.lock ⟨k, hi.holder k hh⟩).1 hh)
  | scan i => exact crit t (by rw [hp]; trivial)
  | store i q => exact crit t (by rw [hp]; trivial)
  | setFlag => exact crit t (by rw [hp]; trivial)
  | release => exact crit t (by rw [hp]; trivial)
  | visit i seen =>
    apply go t
    rw [hp]
    simp only [step]
    split
    · rfl
    · split_ifs <;> rfl
  | done seen => rw [hp] at ht; exact absurd trivial ht
  | raised => rw [hp] at ht; exact absurd trivial ht

/-- steps a thread may still make in a voxel with `L` primitives -/
def Pc.rank (L : ℕ) : Pc P → ℕ
  | .start => 3 * L + 7
  | .acquire => 3 * L + 6
  | .scan i => 2 * (L - i) + L + 5
  | .store i _ => 2 * (L - i) + L + 4
  | .setFlag => L + 4
  | .release => L + 3
  | .visit i _ => L - i + 1
  | .done _ => 0
  | .raised => 0

theorem step_rank (can : P → Bool) (ref : P → Option P) (e : Bool) (hit : P → Bool) (t : ℕ) (s s' : Shared P) (pc pc' : Pc P) (h : step can ref e hit t s pc = some (s', pc'))
    (hst : ∀ i q, pc = .store i q → i < s.prims.length) :
    s'.prims.length = s.prims.length ∧ pc'.rank s.prims.length < pc.rank s.prims.length ∧ ∀ i q, pc' = .store i q → i < s.prims.length := by
  cases pc with
  | start =>
    simp only [step, Option.some.injEq, Prod.mk.injEq] at h
    obtain ⟨rfl, rfl⟩ := h
    refine ⟨rfl, ?_, ?_⟩
    · split_ifs <;> simp only [Pc.rank] <;> omega
    · split_ifs <;> simp
  | acquire =>
    simp only [step] at h
    split_ifs at h
    simp only [Option.some.injEq, Prod.mk.injEq] at h
    obtain ⟨rfl, rfl⟩ := h
    exact ⟨rfl, by simp only [Pc.rank]; omega, by simp⟩
  | scan i =>
    simp only [step] at h
    cases hp : s.prims[i]? with
    | none =>
      rw [hp] at h
      simp only [Option.some.injEq, Prod.mk.injEq] at h
      obtain ⟨rfl, rfl⟩ := h
      exact ⟨rfl, by simp only [Pc.rank]; omega, by simp⟩
    | some p =>
      have hi := (List.getElem?_eq_some_iff.1 hp).1
      rw [hp] at h
      simp only [] at h
      split_ifs at h
      · simp only [Option.some.injEq, Prod.mk.injEq] at h
        obtain ⟨rfl, rfl⟩ := h
        exact ⟨rfl, by simp only [Pc.rank]; omega, by simp⟩
      · cases hq : ref p with
        | none =>
          rw [hq] at h
          simp only [Option.some.injEq, Prod.mk.injEq] at h
          obtain ⟨rfl, rfl⟩ := h
          exact ⟨rfl, by simp only [Pc.rank]; omega, by simp⟩
        | some q =>
          rw [hq] at h
          simp only [Option.some.injEq, Prod.mk.injEq] at h
          obtain ⟨rfl, rfl⟩ := h
          refine ⟨rfl, by simp only [Pc.rank]; omega, ?_⟩
          intro i' q' e
          injection e with e1 _
          omega
  | store i q =>
    simp only [step, Option.some.injEq, Prod.mk.injEq] at h
    obtain ⟨rfl, rfl⟩ := h
    have := hst i q rfl
    exact ⟨List.length_set .., by simp only [Pc.rank]; omega, by simp⟩
  | setFlag =>
    simp only [step, Option.some.injEq, Prod.mk.injEq] at h
    obtain ⟨rfl, rfl⟩ := h
    exact ⟨rfl, by simp only [Pc.rank]; omega, by simp⟩
  | release =>
    simp only [step, Option.some.injEq, Prod.mk.injEq] at h
    obtain ⟨rfl, rfl⟩ := h
    exact ⟨rfl, by simp only [Pc.rank]; omega, by simp⟩
  | visit i seen =>
    simp only [step] at h
    cases hp : s.prims[i]? with
    | none =>
      rw [hp] at h
      simp only [Option.some.injEq, Prod.mk.injEq] at h
      obtain ⟨rfl, rfl⟩ := h
      exact ⟨rfl, by simp only [Pc.rank]; omega, by simp⟩
    | some p =>
      have hi := (List.getElem?_eq_some_iff.1 hp).1
      rw [hp] at h
      simp only [] at h
      split_ifs at h <;> simp only [Option.some.injEq, Prod.mk.injEq] at h <;> obtain ⟨rfl, rfl⟩ := h
      · exact ⟨rfl, by simp only [Pc.rank]; omega, by simp⟩
      · exact ⟨rfl, by simp only [Pc.rank]; omega, by simp⟩
  | done seen => simp [step] at h
  | raised => simp [step] at h

/-- Every schedule is finite: `n` threads make at most `n (3 L + 7)` steps on a voxel of `L` primitives, whether or not refinement fails.  With `C142_progress`, every query returns. -/
theorem C142_terminates (can : P → Bool) (ref : P → Option P) {n : ℕ} (job : Fin n → Job P) (orig : List P) (k : ℕ) (w : World P n)
    (h : Steps can ref job k (World.init n orig) w) : k ≤ n * (3 * orig.length + 7) := by
  have main : w.sh.prims.length = orig.length ∧ (∀ t i q, w.pc t = .store i q → i < orig.length) ∧ k + ∑ t, (w.pc t).rank orig.length ≤ n * (3 * orig.length + 7) := by
    generalize hw : World.init n orig = w0 at h
    induction h with
    | refl =>
      subst hw
      refine ⟨rfl, fun t i q e => by simp [World.init] at e, ?_⟩
      simp [World.init, Pc.rank]
    | @tail k w1 w2 w3 hs1 hs ih =>
      obtain ⟨a, b, c⟩ := ih hw
      obtain ⟨t, s', pc', hst⟩ := hs
      obtain ⟨r1, r2, r3⟩ := step_rank can ref _ _ _ _ _ _ _ hst (by rw [a]; exact b t)
      rw [a] at r1 r2 r3
      refine ⟨r1, fun u i q e => ?_, ?_⟩
      · have e : Function.update w2.pc t pc' u = .store i q := e
        by_cases hu : u = t
        · subst hu; rw [Function.update_self] at e; exact r3 i q e
        · rw [Function.update_of_ne hu] at e; exact b u i q e
      · have hsum : ∑ u, (Function.update w2.pc t pc' u).rank orig.length + (w2.pc t).rank orig.length = ∑ u, (w2.pc u).rank orig.length + pc'.rank orig.length := by
          rw [← Finset.add_sum_erase _ _ (Finset.mem_univ t), ← Finset.add_sum_erase Finset.univ (fun u => (w2.pc u).rank orig.length) (Finset.mem_univ t), Function.update_self]
          have : ∑ x ∈ Finset.univ.erase t, (Function.update w2.pc t pc' x).rank orig.length = ∑ x ∈ Finset.univ.erase t, (w2.pc x).rank orig.length :=
            Finset.sum_congr rfl fun u hu => by rw [Function.update_of_ne (Finset.ne_of_mem_erase hu)]
          rw [this]; omega
        show k + 1 + ∑ u, (Function.update w2.pc t pc' u).rank orig.length ≤ _
        omega
  omega

/-- three primitives, the second of which must be refined, and two threads: the hypotheses hold, and the first thread can finish -/
example : ∃ (can : ℕ → Bool) (ref : ℕ → Option ℕ), Refines can ref ∧ can 1 = false ∧ [0, 1, 2].map (usable can ref) = [0, 11, 2] := by
  refine ⟨fun p => p != 1, fun p => some (p + 10), fun p h => ⟨p + 10, rfl, ?_⟩, rfl, rfl⟩
  simp at h
  subst h; rfl

/-- If refining a primitive raises an exception the lock is never released: from then on no other thread that found the voxel not yet refined returns, whatever happens. -/
theorem C142_exception_false : ¬ ∀ (can : ℕ → Bool) (ref : ℕ → Option ℕ) (job : Fin 2 → Job ℕ) (orig : List ℕ) (k : ℕ) (w : World ℕ 2), Steps can ref job k (World.init 2 orig) w →
    ∀ t, ¬ (w.pc t).ended → ∃ k' w', Steps can ref job k' w w' ∧ (w'.pc t).ended := by
  intro H
  let can : ℕ → Bool := fun _ => false
  let ref : ℕ → Option ℕ := fun _ => none
  let job : Fin 2 → Job ℕ := fun _ => ⟨false, fun _ => false⟩
  -- thread 0 fails while it holds the lock, thread 1 waits
  have s0 : Steps can ref job 0 (World.init 2 [7]) (World.init 2 [7]) := Steps.refl _
  have s1 := s0.tail (Step.mk _ 0 ⟨[7], false, none, []⟩ .acquire rfl)
  have s2 := s1.tail (Step.mk _ 1 ⟨[7], false, none, []⟩ .acquire rfl)
  have s3 := s2.tail (Step.mk _ 0 ⟨[7], false, some 0, []⟩ (.scan 0) rfl)
  have s4 := s3.tail (Step.mk _ 0 ⟨[7], false, some 0, [0]⟩ .raised rfl)
  have stuck : ∀ k w w', Steps can ref job k w w' → w.sh.holder = some 0 → w.pc 0 = .raised → w.pc 1 = .acquire → w'.sh.holder = some 0 ∧ w'.pc 0 = .raised ∧ w'.pc 1 = .acquire := by
    intro k w w' h h1 h2 h3
    induction h with
    | refl => exact ⟨h1, h2, h3⟩
    | tail _ hs ih =>
      obtain ⟨a, b, c⟩ := ih h1 h2 h3
      obtain ⟨t, s', pc', hst⟩ := hs
      exfalso
      rcases (show t = 0 ∨ t = 1 by omega) with rfl | rfl
      · rw [b] at hst; simp only [step] at hst; cases hst
      · rw [c] at hst
        simp [step, a] at hst
  obtain ⟨k', w', h1, h2⟩ := H can ref job [7] _ _ s4 1 (by
    show ¬ Pc.ended (Pc.acquire : Pc ℕ)
    exact id)
  obtain ⟨_, _, c⟩ := stuck _ _ _ h1 rfl rfl rfl
  rw [c] at h2
  exact h2

end Verif.Agg.Lazy
