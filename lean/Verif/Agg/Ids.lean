import Mathlib.Data.List.Nodup
import Mathlib.Data.List.Range
import Mathlib.Logic.Relation
import Mathlib.Tactic.Linarith
import Mathlib.Data.Fintype.Basic
import Mathlib.Data.Finset.Basic

/-!
# Identifiers of primitives and shapes made by several threads (C150)

`Primitive.__init__` (`pytracer/aggregate/primitive.py:28-30`) and `Shape.__init__` (`pytracer/shape/__init__.py:52-53`) take the identifier from a class attribute and then increment it with `+=`: a read for the
identifier, a second read and a write.  Primitives and shapes are made while rendering, when a grid voxel refines its primitives (`aggregate.py:121-135`, one lock per voxel, so two voxels can do so at a time).
A step is one access to the class attribute; the threads' steps are interleaved in any order.
-/
namespace Verif.Agg.Ids

/-- where a thread is in a constructor -/
inductive Pc
  /-- not in a constructor -/
  | out
  /-- the identifier is taken (line 29), the counter is to be read for the increment -/
  | took
  /-- the counter was read as `c` for `+= 1` (line 30), the sum is to be stored -/
  | loaded (c : ℕ)
deriving DecidableEq

/-- the class attribute, the place of every thread, and the identifiers handed out so far with the thread that made the object, latest first -/
structure St (T : Type) where
  next : ℕ
  pc : T → Pc
  made : List (T × ℕ)

variable {T : Type} [DecidableEq T]

/-- one access by thread `t` -/
inductive Step (t : T) : St T → St T → Prop
  /-- `self.primitiveId = Primitive.next_primitiveId` (`primitive.py:29`, `shape/__init__.py:52`) -/
  | take (s : St T) (h : s.pc t = .out) : Step t s ⟨s.next, Function.update s.pc t .took, (t, s.next) :: s.made⟩
  /-- the read of `Primitive.next_primitiveId += 1` (`primitive.py:30`, `shape/__init__.py:53`) -/
  | load (s : St T) (h : s.pc t = .took) : Step t s ⟨s.next, Function.update s.pc t (.loaded s.next), s.made⟩
  /-- the write of `Primitive.next_primitiveId += 1` -/
  | store (s : St T) (c : ℕ) (h : s.pc t = .loaded c) : Step t s ⟨c + 1, Function.update s.pc t .out, s.made⟩

/-- the state in which the class is loaded (`next_primitiveId = 1`, `primitive.py:26`, `shape/__init__.py:43`) -/
def start : St T := ⟨1, fun _ => .out, []⟩

/-- reachable by any interleaving of the threads -/
def Reach (s : St T) : Prop := Relation.ReflTransGen (fun a b => ∃ t, Step t a b) start s

/-- no thread enters a constructor while another is in one (as if all constructors ran under one lock, or there were one thread) -/
def Alone (a b : St T) : Prop := ∃ t, Step t a b ∧ (a.pc t = .out → ∀ u, a.pc u = .out)

/-- reachable with constructors that do not overlap -/
def ReachAlone (s : St T) : Prop := Relation.ReflTransGen Alone start s

/-- the identifiers, latest first -/
def St.ids (s : St T) : List ℕ := s.made.map Prod.snd

/-- the invariant of executions without overlap -/
def Inv (s : St T) : Prop :=
  ((∀ u, s.pc u = .out) ∧ s.ids = ((List.range s.made.length).map (· + 1)).reverse ∧ s.next = s.made.length + 1) ∨
  ∃ t, (∀ u, u ≠ t → s.pc u = .out) ∧ (s.pc t = .took ∨ s.pc t = .loaded s.next) ∧ s.ids = ((List.range s.made.length).map (· + 1)).reverse ∧ s.next = s.made.length ∧ s.made ≠ []

theorem inv_step (a b : St T) (h : Alone a b) (hi : Inv a) : Inv b := by
  obtain ⟨t, hs, ha⟩ := h
  cases hs with
  | take h =>
    have hall := ha h
    right
    rcases hi with ⟨-, h2, h3⟩ | ⟨u, -, h2, -⟩
    · refine ⟨t, fun u hu => by simp [Function.update_of_ne hu, hall u], Or.inl (by simp), ?_, by simp [h3], by simp⟩
      simp only [St.ids, List.map_cons, List.length_cons] at h2 ⊢
      rw [h2, h3, List.range_succ]
      simp
    · rw [hall u] at h2; simp at h2
  | load h =>
    rcases hi with ⟨h1, -⟩ | ⟨u, h1, h2, h3, h4, h5⟩
    · rw [h1 t] at h; cases h
    · have e : u = t := by
        by_contra hne
        have := h1 t (Ne.symm hne)
        rw [h] at this; cases this
      subst e
      exact Or.inr ⟨u, fun v hv => by simp [Function.update_of_ne hv, h1 v hv], Or.inr (by simp), h3, h4, h5⟩
  | store c h =>
    rcases hi with ⟨h1, -⟩ | ⟨u, h1, h2, h3, h4, h5⟩
    · rw [h1 t] at h; cases h
    · have e : u = t := by
        by_contra hne
        have := h1 t (Ne.symm hne)
        rw [h] at this; cases this
      subst e
      have hc : c = a.next := by
        rcases h2 with h2 | h2 <;> rw [h] at h2 <;> cases h2
        rfl
      refine Or.inl ⟨fun v => ?_, h3, by simp [hc, h4]⟩
      by_cases hv : v = u
      · subst hv; simp
      · simp [Function.update_of_ne hv, h1 v hv]

/-- **C150 (part)** as long as constructors do not overlap, by however many threads, the objects get the identifiers 1, 2, 3, … in the order in which they are made; in particular no two get the same.  Missing: overlapping
constructors (`C150_same_false`, `C150_repeated_false`). -/
theorem C150_alone_partial (s : St T) (h : ReachAlone s) : s.ids.reverse = (List.range s.made.length).map (· + 1) ∧ s.ids.Nodup := by
  have hi : Inv s := by
    induction h with
    | refl => exact Or.inl ⟨fun _ => rfl, rfl, rfl⟩
    | tail _ hs ih => exact inv_step _ _ hs ih
  have e : s.ids = ((List.range s.made.length).map (· + 1)).reverse := by
    rcases hi with ⟨-, h, -⟩ | ⟨_, -, -, h, -⟩ <;> exact h
  refine ⟨by rw [e, List.reverse_reverse], ?_⟩
  rw [e, List.nodup_reverse]
  exact List.nodup_range.map (fun a b h => by simpa using h)

/-- **C150 (part)** in every execution whatever an identifier is at least 1 and at most the number of objects made up to then, the object itself counted (`r` are the objects made before it) -/
theorem C150_range_partial (s : St T) (h : Reach s) (l r : List (T × ℕ)) (t : T) (i : ℕ) (e : s.made = l ++ (t, i) :: r) : 1 ≤ i ∧ i ≤ r.length + 1 := by
  have key : ∃ L : List T, L.Nodup ∧ (∀ u, u ∈ L ↔ s.pc u ≠ .out) ∧ 1 ≤ s.next ∧ s.next + L.length ≤ s.made.length + 1 ∧ (∀ u c, s.pc u = .loaded c → c + L.length ≤ s.made.length + 1) ∧
      ∀ l t i r, s.made = l ++ (t, i) :: r → 1 ≤ i ∧ i ≤ r.length + 1 := by
    clear e
    induction h with
    | refl => exact ⟨[], by simp, by simp [start], le_rfl, by simp [start], by simp [start], fun l t i r e => by simp [start] at e⟩
    | @tail a b _ hs ih =>
      obtain ⟨L, n, hL, h1, h2, h3, h4⟩ := ih
      obtain ⟨v, hs⟩ := hs
      cases hs with
      | take h =>
        have hv : v ∉ L := fun hm => (hL v).1 hm h
        refine ⟨v :: L, List.nodup_cons.2 ⟨hv, n⟩, fun u => ?_, h1, by simp; omega, fun u c hc => ?_, fun l t i r e => ?_⟩
        · by_cases hu : u = v
          · subst hu; simp
          · simp [hu, Function.update_of_ne hu, hL u]
        · by_cases hu : u = v
          · subst hu; simp at hc
          · simp only [Function.update_of_ne hu] at hc
            have := h3 u c hc
            simp; omega
        · cases l with
          | nil =>
            simp only [List.nil_append, List.cons.injEq, Prod.mk.injEq] at e
            obtain ⟨⟨-, rfl⟩, rfl⟩ := e
            exact ⟨h1, by omega⟩
          | cons x l =>
            simp only [List.cons_append, List.cons.injEq] at e
            exact h4 l t i r e.2
      | load h =>
        refine ⟨L, n, fun u => ?_, h1, h2, fun u c hc => ?_, h4⟩
        · by_cases hu : u = v
          · subst hu; simp [hL u, h]
          · simp [Function.update_of_ne hu, hL u]
        · by_cases hu : u = v
          · subst hu
            simp only [Function.update_self, Pc.loaded.injEq] at hc
            subst hc; exact h2
          · simp only [Function.update_of_ne hu] at hc
            exact h3 u c hc
      | store c h =>
        have hv : v ∈ L := (hL v).2 (by rw [h]; simp)
        have hlen : (L.erase v).length + 1 = L.length := by rw [List.length_erase_of_mem hv]; have := List.length_pos_of_mem hv; omega
        refine ⟨L.erase v, n.erase v, fun u => ?_, by simp, ?_, fun u d hd => ?_, h4⟩
        · by_cases hu : u = v
          · subst hu; simp [n.mem_erase_iff]
          · simp [n.mem_erase_iff, hu, Function.update_of_ne hu, hL u]
        · have := h3 v c h
          simp; omega
        · by_cases hu : u = v
          · subst hu; simp at hd
          · simp only [Function.update_of_ne hu] at hd
            have := h3 u d hd
            simp; omega
  obtain ⟨-, -, -, -, -, -, h4⟩ := key
  exact h4 l t i r e

/-- **C150 fails**: any number of threads that enter the constructor together all get the same identifier -/
theorem C150_same_false (L : List T) (hL : L.Nodup) : ∃ s : St T, Reach s ∧ s.made = L.map (fun t => (t, 1)) := by
  suffices h : ∃ s : St T, Reach s ∧ s.made = L.map (fun t => (t, 1)) ∧ s.next = 1 ∧ ∀ u, u ∉ L → s.pc u = .out from
    let ⟨s, h1, h2, _⟩ := h; ⟨s, h1, h2⟩
  induction L with
  | nil => exact ⟨start, .refl, rfl, rfl, fun _ _ => rfl⟩
  | cons t L ih =>
    obtain ⟨ht, hn⟩ := List.nodup_cons.1 hL
    obtain ⟨s, h1, h2, h3, h4⟩ := ih hn
    refine ⟨_, h1.tail ⟨t, .take s (h4 t ht)⟩, by simp [h2, h3], h3, fun u hu => ?_⟩
    rw [List.mem_cons, not_or] at hu
    simp only [Function.update_of_ne hu.1]
    exact h4 u hu.2

/-- one undisturbed construction -/
theorem make (t : T) (s : St T) (h : s.pc t = .out) : Relation.ReflTransGen (fun a b => ∃ t, Step t a b) s ⟨s.next + 1, s.pc, (t, s.next) :: s.made⟩ := by
  have s1 := Step.take s h
  have s2 := Step.load _ (by simp : (⟨s.next, Function.update s.pc t .took, (t, s.next) :: s.made⟩ : St T).pc t = .took)
  have s3 := Step.store _ s.next (by simp : (⟨s.next, Function.update (Function.update s.pc t .took) t (.loaded s.next), (t, s.next) :: s.made⟩ : St T).pc t = .loaded s.next)
  have e : Function.update (Function.update (Function.update s.pc t .took) t (.loaded s.next)) t .out = s.pc := by
    funext u
    by_cases hu : u = t
    · subst hu; simp [h]
    · simp [Function.update_of_ne hu]
  simp only [e] at s3
  exact ((Relation.ReflTransGen.single ⟨t, s1⟩).tail ⟨t, s2⟩).tail ⟨t, s3⟩

/-- **C150 fails** also later: a thread delayed in its increment while another makes `n` objects turns the counter back to 2, with no thread in a constructor any more; the identifiers 1 to `n` are taken, and all but the
first will be handed out again to the objects made afterwards, one at a time -/
theorem C150_repeated_false (a b : T) (hab : a ≠ b) (n : ℕ) :
    ∃ s : St T, Reach s ∧ (∀ u, s.pc u = .out) ∧ (∀ i, 1 ≤ i → i ≤ n → (b, i) ∈ s.made) ∧
      ∀ k, ∃ s' : St T, Relation.ReflTransGen Alone s s' ∧ (∀ i, 2 ≤ i → i ≤ k + 1 → (a, i) ∈ s'.made) ∧ ∀ x ∈ s.made, x ∈ s'.made := by
  -- thread a has taken identifier 1 and read the counter
  have s1 := Step.take (start : St T) (rfl : (start : St T).pc a = .out)
  have s2 := Step.load _ (by simp : (⟨1, Function.update (fun _ => .out) a .took, [(a, 1)]⟩ : St T).pc a = .took)
  have hs2 : Reach (⟨1, Function.update (Function.update (fun _ => .out) a .took) a (.loaded 1), [(a, 1)]⟩ : St T) := (Relation.ReflTransGen.single ⟨a, s1⟩).tail ⟨a, s2⟩
  have hb : ∀ m, ∃ s : St T, Reach s ∧ s.pc a = .loaded 1 ∧ (∀ u, u ≠ a → s.pc u = .out) ∧ s.next = m + 1 ∧ ∀ i, 1 ≤ i → i ≤ m → (b, i) ∈ s.made := by
    intro m
    induction m with
    | zero => exact ⟨_, hs2, by simp, fun u hu => by simp [Function.update_of_ne hu], rfl, fun i h1 h2 => by omega⟩
    | succ m ih =>
      obtain ⟨s, h1, h2, h3, h4, h5⟩ := ih
      refine ⟨_, h1.trans (make b s (h3 b hab.symm)), h2, h3, by simp [h4], fun i hi1 hi2 => ?_⟩
      by_cases e : i = m + 1
      · subst e; simp [h4]
      · exact List.mem_cons_of_mem _ (h5 i hi1 (by omega))
  obtain ⟨s, h1, h2, h3, -, h5⟩ := hb n
  have st := Step.store s 1 h2
  have hout : ∀ u, Function.update s.pc a .out u = .out := by
    intro u
    by_cases hu : u = a
    · subst hu; simp
    · rw [Function.update_of_ne hu]; exact h3 u hu
  refine ⟨_, h1.tail ⟨a, st⟩, hout, h5, fun k => ?_⟩
  suffices h : ∃ s' : St T, Relation.ReflTransGen Alone ⟨1 + 1, Function.update s.pc a .out, s.made⟩ s' ∧ (∀ u, s'.pc u = .out) ∧ s'.next = k + 2 ∧ (∀ i, 2 ≤ i → i ≤ k + 1 → (a, i) ∈ s'.made) ∧ ∀ x ∈ s.made, x ∈ s'.made from
    let ⟨s', a1, _, _, a4, a5⟩ := h; ⟨s', a1, a4, a5⟩
  induction k with
  | zero => exact ⟨_, .refl, hout, rfl, fun i h1 h2 => by omega, fun x hx => hx⟩
  | succ k ih =>
    obtain ⟨s', a1, a2, a3, a4, a5⟩ := ih
    have t1 := Step.take s' (a2 a)
    have t2 := Step.load _ (by simp : (⟨s'.next, Function.update s'.pc a .took, (a, s'.next) :: s'.made⟩ : St T).pc a = .took)
    have t3 := Step.store _ s'.next (by simp : (⟨s'.next, Function.update (Function.update s'.pc a .took) a (.loaded s'.next), (a, s'.next) :: s'.made⟩ : St T).pc a = .loaded s'.next)
    refine ⟨_, ((a1.tail ⟨a, t1, fun _ => a2⟩).tail ⟨a, t2, fun h => by simp at h⟩).tail ⟨a, t3, fun h => by simp at h⟩, fun u => ?_, by simp [a3], fun i h1 h2 => ?_, fun x hx => List.mem_cons_of_mem _ (a5 x hx)⟩
    · by_cases hu : u = a
      · subst hu; simp
      · simp [Function.update_of_ne hu, a2 u]
    · by_cases e : i = k + 2
      · subst e; simp [a3]
      · exact List.mem_cons_of_mem _ (a4 i h1 (by omega))

/-- an execution without overlap in which two threads make three objects -/
example : ∃ s : St (Fin 2), ReachAlone s ∧ s.made = [(0, 3), (1, 2), (0, 1)] := by
  have mk (t : Fin 2) (s : St (Fin 2)) (h : ∀ u, s.pc u = .out) : Relation.ReflTransGen Alone s ⟨s.next + 1, s.pc, (t, s.next) :: s.made⟩ := by
    have s1 := Step.take s (h t)
    have s2 := Step.load _ (by simp : (⟨s.next, Function.update s.pc t .took, (t, s.next) :: s.made⟩ : St (Fin 2)).pc t = .took)
    have s3 := Step.store _ s.next (by simp : (⟨s.next, Function.update (Function.update s.pc t .took) t (.loaded s.next), (t, s.next) :: s.made⟩ : St (Fin 2)).pc t = .loaded s.next)
    have e : Function.update (Function.update (Function.update s.pc t .took) t (.loaded s.next)) t .out = s.pc := by
      funext u
      by_cases hu : u = t
      · subst hu; simp [h]
      · simp [Function.update_of_ne hu]
    simp only [e] at s3
    exact ((Relation.ReflTransGen.single ⟨t, s1, fun _ => h⟩).tail ⟨t, s2, fun h => by simp at h⟩).tail ⟨t, s3, fun h => by simp at h⟩
  exact ⟨_, ((mk 0 start (fun _ => rfl)).trans (mk 1 _ (fun _ => rfl))).trans (mk 0 _ (fun _ => rfl)), rfl⟩

end Verif.Agg.Ids
