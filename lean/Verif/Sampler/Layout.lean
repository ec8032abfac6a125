import Mathlib.Data.List.Basic
import Mathlib.Data.List.Pairwise
import Mathlib.Tactic.Ring

/-!
# `Sample` objects and their lists (`pytracer/sampler/sample.py`): property C26

Python lists are mutable objects and `duplicate` stores references to existing ones, so the model has
a heap of list objects.  `V` is the type of the arrays a sampler stores.
-/

namespace Verif.Sampler
namespace Layout

/-- the heap: list objects holding counts, list objects holding arrays or `None`; one address space,
`next` is the first unused address. -/
structure Heap (V : Type*) where
  next : ℕ
  ints : ℕ → List ℕ
  vals : ℕ → List (Option V)

/-- a `Sample` object's four list attributes (`sample.py:43-44,52-53`), as references. -/
structure SRef where
  n1D : ℕ
  n2D : ℕ
  oneD : ℕ
  twoD : ℕ

variable {V : Type*}

/-- a new list of counts. -/
def allocInts (h : Heap V) (l : List ℕ) : ℕ × Heap V :=
  (h.next, { h with next := h.next + 1, ints := fun a => if a = h.next then l else h.ints a })

/-- a new list of `None`s / arrays. -/
def allocVals (h : Heap V) (l : List (Option V)) : ℕ × Heap V :=
  (h.next, { h with next := h.next + 1, vals := fun a => if a = h.next then l else h.vals a })

/-- `self.n1D.append(num); return len(self.n1D) - 1` (`sample.py:66-72`, `74-76`), on the list at `a`. -/
def append (h : Heap V) (a num : ℕ) : ℕ × Heap V :=
  let h' := { h with ints := fun b => if b = a then h.ints a ++ [num] else h.ints b }
  ((h'.ints a).length - 1, h')

/-- one request an integrator makes on a sample: `add_1d(n)` or `add_2d(n)`. -/
inductive Req where
  | one (n : ℕ)
  | two (n : ℕ)

/-- `add_1d` / `add_2d` (`sample.py:66-76`). -/
def add (h : Heap V) (s : SRef) : Req → ℕ × Heap V
  | .one n => append h s.n1D n
  | .two n => append h s.n2D n

/-- a sequence of requests; the indices returned, in order. -/
def addAll (h : Heap V) (s : SRef) : List Req → List ℕ × Heap V
  | [] => ([], h)
  | q :: qs =>
    let (i, h) := add h s q
    let (is, h) := addAll h s qs
    (i :: is, h)

/-- `Sample.__init__` (`sample.py:37-53`), with `reqs` the requests made by the integrators'
`request_samples`; also returns the indices they were given.  The attributes `oneD`, `twoD` do not
exist while the requests are made; `add` does not look at them. -/
def construct (h : Heap V) (reqs : List Req) : SRef × List ℕ × Heap V :=
  let (a, h) := allocInts h []
  let (b, h) := allocInts h []
  let (is, h) := addAll h ⟨a, b, 0, 0⟩ reqs
  let (c, h) := allocVals h (List.replicate (h.ints a).length none)
  let (d, h) := allocVals h (List.replicate (h.ints b).length none)
  (⟨a, b, c, d⟩, is, h)

/-- one turn of the loop of `duplicate` (`sample.py:58-63`): a blank `Sample()`, whose count lists are
replaced by references to the original's and whose value lists are replaced by new ones. -/
def dupOne (h : Heap V) (s : SRef) : SRef × Heap V :=
  let (_, _, h) := construct h []
  let (c, h) := allocVals h (List.replicate (h.ints s.n1D).length none)
  let (d, h) := allocVals h (List.replicate (h.ints s.n2D).length none)
  (⟨s.n1D, s.n2D, c, d⟩, h)

/-- `Sample.duplicate` (`sample.py:55-64`). -/
def duplicate (h : Heap V) (s : SRef) : ℕ → List SRef × Heap V
  | 0 => ([], h)
  | n + 1 =>
    let (d, h) := dupOne h s
    let (ds, h) := duplicate h s n
    (d :: ds, h)

/-- `lst[j] = v` on the value list at `a`; `none` is an `IndexError`. -/
def setVal (h : Heap V) (a j : ℕ) (v : V) : Option (Heap V) :=
  if j < (h.vals a).length then
    some { h with vals := fun b => if b = a then (h.vals a).set j (some v) else h.vals b }
  else none

/-! ### Specification -/

/-- the counts of the 1D requests, in order -/
def ones : List Req → List ℕ
  | [] => []
  | .one n :: qs => n :: ones qs
  | .two _ :: qs => ones qs

/-- the counts of the 2D requests, in order -/
def twos : List Req → List ℕ
  | [] => []
  | .one _ :: qs => twos qs
  | .two n :: qs => n :: twos qs

/-- index expected for the request after `pre`: the number of earlier requests of the same kind -/
def expected (pre : List Req) : Req → ℕ
  | .one _ => (ones pre).length
  | .two _ => (twos pre).length

/-- all addresses of a sample are in use -/
def Live (h : Heap V) (s : SRef) : Prop := s.n1D < h.next ∧ s.n2D < h.next ∧ s.oneD < h.next ∧ s.twoD < h.next

/-! ### Lemmas -/

theorem addAll_next (h : Heap V) (s : SRef) (qs : List Req) :
    (addAll h s qs).2.next = h.next ∧ (addAll h s qs).2.vals = h.vals := by
  induction qs generalizing h with
  | nil => exact ⟨rfl, rfl⟩
  | cons q qs ih =>
    simp only [addAll]
    obtain ⟨a, b⟩ := ih (add h s q).2
    cases q <;> exact ⟨a, b⟩

theorem addAll_ints (h : Heap V) (s : SRef) (qs : List Req) (hne : s.n1D ≠ s.n2D) :
    (addAll h s qs).2.ints s.n1D = h.ints s.n1D ++ ones qs ∧
    (addAll h s qs).2.ints s.n2D = h.ints s.n2D ++ twos qs ∧
    (∀ a, a ≠ s.n1D → a ≠ s.n2D → (addAll h s qs).2.ints a = h.ints a) ∧
    (addAll h s qs).1.length = qs.length ∧
    (∀ i q, qs[i]? = some q → (addAll h s qs).1[i]? = some
      ((match q with | .one _ => (h.ints s.n1D).length | .two _ => (h.ints s.n2D).length) + expected (qs.take i) q)) := by
  induction qs generalizing h with
  | nil => simp [addAll, ones, twos]
  | cons q qs ih =>
    obtain ⟨a, b, c, d, e⟩ := ih (add h s q).2
    simp only [addAll]
    cases q with
    | one n =>
      have h1 : (add h s (.one n)).2.ints s.n1D = h.ints s.n1D ++ [n] := by simp [add, append]
      have h2 : (add h s (.one n)).2.ints s.n2D = h.ints s.n2D := by simp [add, append, Ne.symm hne]
      refine ⟨by rw [a, h1]; simp [ones], by rw [b, h2]; simp [twos], ?_, by simpa using d, ?_⟩
      · intro x x1 x2; rw [c x x1 x2]; simp [add, append, x1]
      · intro i q hq
        cases i with
        | zero =>
          obtain rfl : Req.one n = q := by simpa using hq
          simp [add, append, expected, ones]
        | succ i =>
          have := e i q (by simpa using hq)
          rw [List.getElem?_cons_succ, this]
          cases q with
          | one m => simp only [h1, expected, List.take_succ_cons, ones, List.length_append, List.length_cons,
              List.length_nil, Option.some.injEq]; omega
          | two m => simp only [h2, expected, List.take_succ_cons, twos]
    | two n =>
      have h1 : (add h s (.two n)).2.ints s.n2D = h.ints s.n2D ++ [n] := by simp [add, append]
      have h2 : (add h s (.two n)).2.ints s.n1D = h.ints s.n1D := by simp [add, append, hne]
      refine ⟨by rw [a, h2]; simp [ones], by rw [b, h1]; simp [twos], ?_, by simpa using d, ?_⟩
      · intro x x1 x2; rw [c x x1 x2]; simp [add, append, x2]
      · intro i q hq
        cases i with
        | zero =>
          obtain rfl : Req.two n = q := by simpa using hq
          simp [add, append, expected, twos]
        | succ i =>
          have := e i q (by simpa using hq)
          rw [List.getElem?_cons_succ, this]
          cases q with
          | one m => simp only [h2, expected, List.take_succ_cons, ones]
          | two m => simp only [h1, expected, List.take_succ_cons, twos, List.length_append, List.length_cons,
              List.length_nil, Option.some.injEq]; omega

/-! ### Theorems -/

/-- **C26** requests made while a sample is constructed: the `i`-th request gets as index the number
of earlier requests of its kind (so indices of one kind are `0, 1, 2, …`, all distinct); the recorded
counts are the requested ones in order; there is one value slot per request, initially `None`; the
slots of the two kinds are different lists, and nothing that existed before changes. -/
theorem C26_requests (h : Heap V) (reqs : List Req) :
    let (s, idx, h') := construct h reqs
    (idx.length = reqs.length ∧ ∀ (i : ℕ) (q : Req), reqs[i]? = some q → idx[i]? = some (expected (reqs.take i) q)) ∧
    (h'.ints s.n1D = ones reqs ∧ h'.ints s.n2D = twos reqs) ∧
    (h'.vals s.oneD = List.replicate (ones reqs).length none ∧ h'.vals s.twoD = List.replicate (twos reqs).length none) ∧
    (s.oneD ≠ s.twoD ∧ s.n1D ≠ s.n2D ∧ Live h' s) ∧
    (∀ a < h.next, h'.ints a = h.ints a ∧ h'.vals a = h.vals a) := by
  let h1 : Heap V := ⟨h.next + 1 + 1, fun a => if a = h.next + 1 then [] else if a = h.next then [] else h.ints a, h.vals⟩
  let s : SRef := ⟨h.next, h.next + 1, 0, 0⟩
  have hh1 : h1 = ⟨h.next + 1 + 1, fun a => if a = h.next + 1 then [] else if a = h.next then [] else h.ints a, h.vals⟩ := rfl
  have hs : s = ⟨h.next, h.next + 1, 0, 0⟩ := rfl
  have hc : construct h reqs = (⟨h.next, h.next + 1, (addAll h1 s reqs).2.next, (addAll h1 s reqs).2.next + 1⟩,
      (addAll h1 s reqs).1, ⟨(addAll h1 s reqs).2.next + 1 + 1, (addAll h1 s reqs).2.ints, fun a =>
        if a = (addAll h1 s reqs).2.next + 1 then List.replicate ((addAll h1 s reqs).2.ints (h.next + 1)).length none
        else if a = (addAll h1 s reqs).2.next then List.replicate ((addAll h1 s reqs).2.ints h.next).length none
        else (addAll h1 s reqs).2.vals a⟩) := rfl
  rw [hc]
  clear_value h1 s
  obtain ⟨a, b, c, d, e⟩ := addAll_ints h1 s reqs (by simp [hs])
  obtain ⟨f, g⟩ := addAll_next h1 s reqs
  have z1 : h1.ints s.n1D = [] := by simp [hh1, hs]
  have z2 : h1.ints s.n2D = [] := by simp [hh1, hs]
  rw [z1, List.nil_append] at a
  rw [z2, List.nil_append] at b
  have a' : (addAll h1 s reqs).2.ints h.next = ones reqs := by rw [← a, hs]
  have b' : (addAll h1 s reqs).2.ints (h.next + 1) = twos reqs := by rw [← b, hs]
  refine ⟨⟨d, ?_⟩, ⟨a', b'⟩, ⟨?_, ?_⟩, ⟨?_, ?_, ?_⟩, ?_⟩
  · intro i q hq
    rw [e i q hq]
    cases q <;> simp [z1, z2]
  · simp [f, a']
  · simp [b']
  · simp
  · simp
  · have : h1.next = h.next + 2 := by rw [hh1]
    simp only [Live, f]; omega
  · intro x hx
    refine ⟨?_, ?_⟩
    · rw [c x (by simp only [hs]; omega) (by simp only [hs]; omega)]
      simp only [hh1]; rw [if_neg (by omega), if_neg (by omega)]
    · rw [f, g]; simp only [hh1]; rw [if_neg (by omega), if_neg (by omega)]

theorem dupOne_spec (h : Heap V) (s : SRef) (hl : Live h s) :
    (dupOne h s).1.n1D = s.n1D ∧ (dupOne h s).1.n2D = s.n2D ∧
    (dupOne h s).1.oneD = h.next + 4 ∧ (dupOne h s).1.twoD = h.next + 5 ∧ (dupOne h s).2.next = h.next + 6 ∧
    (dupOne h s).2.vals (h.next + 4) = List.replicate (h.ints s.n1D).length none ∧
    (dupOne h s).2.vals (h.next + 5) = List.replicate (h.ints s.n2D).length none ∧
    (∀ a < h.next, (dupOne h s).2.ints a = h.ints a ∧ (dupOne h s).2.vals a = h.vals a) := by
  obtain ⟨l1, l2, l3, l4⟩ := hl
  have hr : ∀ a < h.next, (construct h []).2.2.ints a = h.ints a ∧ (construct h []).2.2.vals a = h.vals a :=
    (C26_requests h []).2.2.2.2
  have hn : (construct h []).2.2.next = h.next + 4 := rfl
  generalize hH : (construct h []).2.2 = H at hr hn
  have hd : dupOne h s = (⟨s.n1D, s.n2D, H.next, H.next + 1⟩, ⟨H.next + 1 + 1, H.ints, fun a =>
      if a = H.next + 1 then List.replicate (H.ints s.n2D).length none
      else if a = H.next then List.replicate (H.ints s.n1D).length none
      else H.vals a⟩) := by rw [← hH]; rfl
  rw [hd]
  refine ⟨rfl, rfl, hn, by simp only [hn], by simp only [hn], ?_, ?_, ?_⟩
  · simp only [hn]
    rw [if_neg (by omega), if_pos trivial, (hr _ l1).1]
  · simp only [hn]
    rw [if_pos trivial, (hr _ l2).1]
  · intro a ha
    refine ⟨(hr a ha).1, ?_⟩
    simp only [hn]
    rw [if_neg (by omega), if_neg (by omega), (hr a ha).2]

theorem duplicate_spec (h : Heap V) (s : SRef) (hl : Live h s) (n : ℕ) :
    (duplicate h s n).1.length = n ∧
    h.next ≤ (duplicate h s n).2.next ∧
    (∀ a < h.next, (duplicate h s n).2.ints a = h.ints a ∧ (duplicate h s n).2.vals a = h.vals a) ∧
    (∀ d ∈ (duplicate h s n).1, d.n1D = s.n1D ∧ d.n2D = s.n2D ∧ d.oneD ≠ d.twoD ∧ Live (duplicate h s n).2 d ∧
      h.next ≤ d.oneD ∧ h.next ≤ d.twoD ∧
      (duplicate h s n).2.vals d.oneD = List.replicate (h.ints s.n1D).length none ∧
      (duplicate h s n).2.vals d.twoD = List.replicate (h.ints s.n2D).length none) ∧
    ((duplicate h s n).1.Pairwise (fun d e => d.oneD ≠ e.oneD ∧ d.oneD ≠ e.twoD ∧ d.twoD ≠ e.oneD ∧ d.twoD ≠ e.twoD)) := by
  induction n generalizing h with
  | zero => simp [duplicate]
  | succ n ih =>
    obtain ⟨p1, p2, p3, p4, p5, p6, p7, p8⟩ := dupOne_spec h s hl
    have hl' : Live (dupOne h s).2 s := by
      obtain ⟨l1, l2, l3, l4⟩ := hl
      simp only [Live, p5]; omega
    obtain ⟨q1, q2, q3, q4, q5⟩ := ih (dupOne h s).2 hl'
    rw [p5] at q2 q3 q4
    have e1 : (dupOne h s).2.ints s.n1D = h.ints s.n1D := (p8 _ hl.1).1
    have e2 : (dupOne h s).2.ints s.n2D = h.ints s.n2D := (p8 _ hl.2.1).1
    simp only [duplicate]
    refine ⟨by simp [q1], by omega, ?_, ?_, ?_⟩
    · intro a ha
      exact ⟨(q3 a (by omega)).1.trans (p8 a ha).1, (q3 a (by omega)).2.trans (p8 a ha).2⟩
    · intro d hd
      rcases List.mem_cons.1 hd with rfl | hd
      · obtain ⟨l1, l2, l3, l4⟩ := hl
        refine ⟨p1, p2, by omega, ?_, by omega, by omega, ?_, ?_⟩
        · simp only [Live, p1, p2, p3, p4]; omega
        · rw [p3, (q3 _ (by omega)).2, p6]
        · rw [p4, (q3 _ (by omega)).2, p7]
      · obtain ⟨r1, r2, r3, r4, r5, r6, r7, r8⟩ := q4 d hd
        exact ⟨r1, r2, r3, r4, by omega, by omega, by rw [r7, e1], by rw [r8, e2]⟩
    · refine List.pairwise_cons.2 ⟨?_, q5⟩
      intro d hd
      obtain ⟨r1, r2, r3, r4, r5, r6, r7, r8⟩ := q4 d hd
      rw [p3, p4]; omega

/-- **C26** `duplicate(n)`: `n` samples with the original's counts, one empty slot per request; and
storing a value in any slot of one copy succeeds and changes no slot of another copy, none of the
other kind in the same copy, and nothing that existed before the call (the original included). -/
theorem C26_duplicate (h : Heap V) (s : SRef) (hl : Live h s) (n : ℕ) :
    let (ds, h') := duplicate h s n
    ds.length = n ∧
    (∀ d ∈ ds, h'.ints d.n1D = h.ints s.n1D ∧ h'.ints d.n2D = h.ints s.n2D ∧
      h'.vals d.oneD = List.replicate (h.ints s.n1D).length none ∧
      h'.vals d.twoD = List.replicate (h.ints s.n2D).length none) ∧
    (∀ (i j : ℕ) (d : SRef) (v : V), ds[i]? = some d → j < (h.ints s.n1D).length → ∃ h'', setVal h' d.oneD j v = some h'' ∧
      (h''.vals d.oneD)[j]? = some (some v) ∧ h''.vals d.twoD = h'.vals d.twoD ∧
      (∀ (k : ℕ) (e : SRef), k ≠ i → ds[k]? = some e → h''.vals e.oneD = h'.vals e.oneD ∧ h''.vals e.twoD = h'.vals e.twoD) ∧
      (∀ a < h.next, h''.vals a = h.vals a)) ∧
    (∀ (i j : ℕ) (d : SRef) (v : V), ds[i]? = some d → j < (h.ints s.n2D).length → ∃ h'', setVal h' d.twoD j v = some h'' ∧
      (h''.vals d.twoD)[j]? = some (some v) ∧ h''.vals d.oneD = h'.vals d.oneD ∧
      (∀ (k : ℕ) (e : SRef), k ≠ i → ds[k]? = some e → h''.vals e.oneD = h'.vals e.oneD ∧ h''.vals e.twoD = h'.vals e.twoD) ∧
      (∀ a < h.next, h''.vals a = h.vals a)) := by
  obtain ⟨q1, q2, q3, q4, q5⟩ := duplicate_spec h s hl n
  generalize duplicate h s n = r at q1 q2 q3 q4 q5
  obtain ⟨ds, h'⟩ := r
  simp only at q1 q2 q3 q4 q5 ⊢
  have pw : ∀ (i k : ℕ) (d e : SRef), k ≠ i → ds[i]? = some d → ds[k]? = some e →
      e.oneD ≠ d.oneD ∧ e.twoD ≠ d.oneD ∧ e.oneD ≠ d.twoD ∧ e.twoD ≠ d.twoD := by
    intro i k d e hki hd he
    obtain ⟨hi, rfl⟩ := List.getElem?_eq_some_iff.1 hd
    obtain ⟨hk, rfl⟩ := List.getElem?_eq_some_iff.1 he
    rcases Nat.lt_or_gt_of_ne hki with h | h
    · obtain ⟨a, b, c, d⟩ := List.pairwise_iff_getElem.1 q5 k i hk hi h
      exact ⟨a, c, b, d⟩
    · obtain ⟨a, b, c, d⟩ := List.pairwise_iff_getElem.1 q5 i k hi hk h
      exact ⟨a.symm, b.symm, c.symm, d.symm⟩
  refine ⟨q1, ?_, ?_, ?_⟩
  · intro d hd
    obtain ⟨r1, r2, r3, r4, r5, r6, r7, r8⟩ := q4 d hd
    exact ⟨by rw [r1, (q3 _ hl.1).1], by rw [r2, (q3 _ hl.2.1).1], r7, r8⟩
  · intro i j d v hd hj
    obtain ⟨r1, r2, r3, r4, r5, r6, r7, r8⟩ := q4 d (List.mem_of_getElem? hd)
    refine ⟨_, by rw [setVal, if_pos (by rw [r7]; simpa using hj)], ?_, ?_, ?_, ?_⟩
    · simp [r7, hj]
    · simp [Ne.symm r3]
    · intro k e hk he
      obtain ⟨w1, w2, w3, w4⟩ := pw i k d e hk hd he
      simp [w1, w2]
    · intro a ha
      simp only
      rw [if_neg (by omega), (q3 a ha).2]
  · intro i j d v hd hj
    obtain ⟨r1, r2, r3, r4, r5, r6, r7, r8⟩ := q4 d (List.mem_of_getElem? hd)
    refine ⟨_, by rw [setVal, if_pos (by rw [r8]; simpa using hj)], ?_, ?_, ?_, ?_⟩
    · simp [r8, hj]
    · simp [r3]
    · intro k e hk he
      obtain ⟨w1, w2, w3, w4⟩ := pw i k d e hk hd he
      simp [w3, w4]
    · intro a ha
      simp only
      rw [if_neg (by omega), (q3 a ha).2]

/-- **C26, what is shared**: the copies share the lists of counts with the original, and slots are
made only when a sample is built.  A request added to a sample afterwards therefore has no slot, in
that sample or in any copy made earlier: storing its value is an `IndexError`. -/
theorem C26_late_request_has_no_slot (h : Heap V) (s : SRef) (hl : Live h s) (n num : ℕ) (v : V) (d : SRef)
    (hd : d ∈ (duplicate h s n).1) :
    let (i, h') := add (duplicate h s n).2 s (.one num)
    i = (h.ints s.n1D).length ∧ h'.ints d.n1D = h.ints s.n1D ++ [num] ∧ setVal h' d.oneD i v = none := by
  obtain ⟨q1, q2, q3, q4, q5⟩ := duplicate_spec h s hl n
  obtain ⟨r1, r2, r3, r4, r5, r6, r7, r8⟩ := q4 d hd
  have e : (duplicate h s n).2.ints s.n1D = h.ints s.n1D := (q3 _ hl.1).1
  refine ⟨by simp [append, e], by simp [append, r1, e], ?_⟩
  simp [append, setVal, r7, e]

/-- non-vacuity: a sample with one 1D and two 2D requests is live -/
example : Live (construct (⟨0, fun _ => [], fun _ => []⟩ : Heap ℕ) [.one 3, .two 4, .two 5]).2.2
    (construct (⟨0, fun _ => [], fun _ => []⟩ : Heap ℕ) [.one 3, .two 4, .two 5]).1 :=
  (C26_requests (⟨0, fun _ => [], fun _ => []⟩ : Heap ℕ) [.one 3, .two 4, .two 5]).2.2.2.1.2.2

end Layout
end Verif.Sampler
