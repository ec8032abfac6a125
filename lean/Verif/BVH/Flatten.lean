import Verif.BVH.BuildProps

/-! # Flattened BVH (C37) -/

namespace Verif.BVH
set_option linter.unusedSectionVars false

/-- Specification: the depth-first listing of a tree whose first node sits at index `i`: a leaf is one
entry; an interior node is followed by its first child's entries, then its second child's, and
stores the index of the second child. -/
def preorder {K : Type*} : Node K → ℕ → List (LNode K)
  | .leaf first n b, _ => [⟨some b, first, n, 0⟩]
  | .inter axis c0 c1 b, i =>
    ⟨some b, i + 1 + c0.size, 0, axis⟩ :: (preorder c0 (i + 1) ++ preorder c1 (i + 1 + c0.size))

/-- every leaf is non-empty -/
def NonEmptyLeaves {K : Type*} : Node K → Prop
  | .leaf _ n _ => 0 < n
  | .inter _ c0 c1 _ => NonEmptyLeaves c0 ∧ NonEmptyLeaves c1

theorem preorder_length {K : Type*} (t : Node K) (i : ℕ) : (preorder t i).length = t.size := by
  induction t generalizing i with
  | leaf => rfl
  | inter a c0 c1 b ih0 ih1 => simp [preorder, Node.size, ih0, ih1]; omega

theorem set_len {α : Type*} (pre r : List α) (x y : α) :
    (pre ++ x :: r).set pre.length y = pre ++ y :: r := by
  induction pre with
  | nil => rfl
  | cons a pre ih => simp

theorem modify_len {α : Type*} (pre r : List α) (x : α) (f : α → α) :
    (pre ++ x :: r).modify pre.length f = pre ++ f x :: r := by
  induction pre with
  | nil => simp
  | cons a pre ih => simp [List.modify_succ_cons, ih]

theorem flatten_spec {K : Type*} (t : Node K) (h : NonEmptyLeaves t) (pre post : List (LNode K)) :
    flatten t (pre ++ List.replicate t.size LNode.fresh ++ post) pre.length =
      .ok (pre ++ preorder t pre.length ++ post, pre.length + t.size, pre.length) := by
  induction t generalizing pre post with
  | leaf f n b =>
    have hn : 0 < n := h
    have hget : (pre ++ List.replicate (Node.leaf f n b).size LNode.fresh ++ post)[pre.length]? =
        some (LNode.fresh : LNode K) := by
      simp [Node.size]
    simp only [flatten, hget, gt_iff_lt, hn, if_true]
    simp [Node.size, preorder, LNode.fresh, List.set_append]
  | inter a c0 c1 b ih0 ih1 =>
    obtain ⟨h0, h1⟩ := h
    have hsz : (Node.inter a c0 c1 b).size = 1 + c0.size + c1.size := rfl
    have e : List.replicate (1 + c0.size + c1.size) (LNode.fresh : LNode K) =
        LNode.fresh :: (List.replicate c0.size LNode.fresh ++ List.replicate c1.size LNode.fresh) := by
      rw [show 1 + c0.size + c1.size = (c0.size + c1.size) + 1 by omega, List.replicate_succ,
        List.replicate_add]
    have hget : (pre ++ List.replicate (Node.inter a c0 c1 b).size LNode.fresh ++ post)[pre.length]? =
        some (LNode.fresh : LNode K) := by
      rw [hsz, e]; simp
    simp only [flatten, hget]
    set ln : LNode K := { (LNode.fresh : LNode K) with bounds := some b, axis := a, nPrim := 0 } with hln
    have s0 := ih0 h0 (pre ++ [ln]) (List.replicate c1.size LNode.fresh ++ post)
    have e0 : (pre ++ List.replicate (Node.inter a c0 c1 b).size LNode.fresh ++ post).set pre.length ln =
        pre ++ [ln] ++ List.replicate c0.size LNode.fresh ++ (List.replicate c1.size LNode.fresh ++ post) := by
      rw [hsz, e, List.append_assoc, List.cons_append, set_len]
      simp only [List.append_assoc, List.cons_append, List.nil_append]
    rw [e0]
    simp only [List.length_append, List.length_cons, List.length_nil, Nat.zero_add] at s0
    rw [s0]
    simp only
    have s1 := ih1 h1 (pre ++ [ln] ++ preorder c0 (pre.length + 1)) post
    simp only [List.length_append, List.length_cons, List.length_nil, Nat.zero_add, preorder_length] at s1
    have e1 : pre ++ [ln] ++ preorder c0 (pre.length + 1) ++ (List.replicate c1.size LNode.fresh ++ post) =
        pre ++ [ln] ++ preorder c0 (pre.length + 1) ++ List.replicate c1.size LNode.fresh ++ post := by
      simp
    rw [e1, s1]
    simp only [Except.ok.injEq, Prod.mk.injEq, and_true]
    refine ⟨?_, by rw [hsz]; omega⟩
    have e2 : ∀ x : List (LNode K), pre ++ [ln] ++ preorder c0 (pre.length + 1) ++ x ++ post =
        pre ++ ln :: (preorder c0 (pre.length + 1) ++ x ++ post) := by intro x; simp
    rw [e2, modify_len]
    simp [preorder, hln, LNode.fresh]

/-- **C37** flattening a tree into an array of exactly its node count fills every slot: the array is
the depth-first listing, the running offset ends at the node count, nothing is left over. -/
theorem C37_flatten_is_preorder {K : Type*} (t : Node K) (h : NonEmptyLeaves t) :
    flatten t (List.replicate t.size LNode.fresh) 0 = .ok (preorder t 0, t.size, 0) := by
  have := flatten_spec t h [] []
  simpa using this

/-- the tree can be read back from the array: `i` holds the tree's root, child 0 is next to its
parent, child 1 is at the stored offset, which lies strictly after child 0's whole block -/
def Layout {K : Type*} (nodes : List (LNode K)) : Node K → ℕ → Prop
  | .leaf first n b, i => nodes[i]? = some ⟨some b, first, n, 0⟩
  | .inter axis c0 c1 b, i =>
    ∃ j, nodes[i]? = some ⟨some b, j, 0, axis⟩ ∧ i + 1 < j ∧ Layout nodes c0 (i + 1) ∧ Layout nodes c1 j

theorem size_pos {K : Type*} (t : Node K) : 0 < t.size := by cases t <;> simp [Node.size] <;> omega

theorem layout_of_preorder {K : Type*} (t : Node K) (pre post : List (LNode K)) :
    Layout (pre ++ preorder t pre.length ++ post) t pre.length := by
  induction t generalizing pre post with
  | leaf f n b => simp [Layout, preorder]
  | inter a c0 c1 b ih0 ih1 =>
    refine ⟨pre.length + 1 + c0.size, by simp [preorder], by have := size_pos c0; omega, ?_, ?_⟩
    · have := ih0 (pre ++ [⟨some b, pre.length + 1 + c0.size, 0, a⟩])
        (preorder c1 (pre.length + 1 + c0.size) ++ post)
      simpa [preorder] using this
    · have := ih1 (pre ++ [⟨some b, pre.length + 1 + c0.size, 0, a⟩] ++ preorder c0 (pre.length + 1)) post
      simp only [List.length_append, List.length_cons, List.length_nil, Nat.zero_add, preorder_length] at this
      simpa [preorder] using this

/-- **C37** the flattened array determines the tree: following the stored links from index 0 visits
exactly the tree's nodes with their boxes, axes and primitive ranges. -/
theorem C37_layout {K : Type*} (t : Node K) : Layout (preorder t 0) t 0 := by
  have := layout_of_preorder t [] []
  simpa using this

/-- **C37** distinct trees have distinct arrays. -/
theorem layout_unique {K : Type*} (nodes : List (LNode K)) (t u : Node K) (i : ℕ)
    (hn : NonEmptyLeaves t) (hm : NonEmptyLeaves u)
    (ht : Layout nodes t i) (hu : Layout nodes u i) : t = u := by
  induction t generalizing u i with
  | leaf f n b =>
    cases u with
    | leaf f' n' b' =>
      simp only [Layout] at ht hu; rw [ht] at hu
      simp only [Option.some.injEq, LNode.mk.injEq, and_true] at hu
      obtain ⟨rfl, rfl, rfl⟩ := hu; rfl
    | inter a c0 c1 b' =>
      obtain ⟨j, hj, -⟩ := hu
      simp only [Layout] at ht; rw [ht] at hj
      simp only [Option.some.injEq, LNode.mk.injEq] at hj
      have hn' : 0 < n := hn
      omega
  | inter a c0 c1 b ih0 ih1 =>
    cases u with
    | leaf f' n' b' =>
      obtain ⟨j, hj, -⟩ := ht
      simp only [Layout] at hu; rw [hu] at hj
      simp only [Option.some.injEq, LNode.mk.injEq] at hj
      have hn' : 0 < n' := hm
      omega
    | inter a' d0 d1 b' =>
      obtain ⟨j, hj, _, h0, h1⟩ := ht
      obtain ⟨j', hj', _, h0', h1'⟩ := hu
      rw [hj] at hj'
      simp only [Option.some.injEq, LNode.mk.injEq, true_and] at hj'
      obtain ⟨rfl, rfl, rfl⟩ := hj'
      rw [ih0 _ _ hn.1 hm.1 h0 h0', ih1 _ _ hn.2 hm.2 h1 h1']

theorem C37_faithful {K : Type*} (t u : Node K) (ht : NonEmptyLeaves t) (hu : NonEmptyLeaves u)
    (h : preorder t 0 = preorder u 0) : t = u :=
  layout_unique (preorder t 0) t u 0 ht hu (C37_layout t) (h ▸ C37_layout u)

theorem Partitions.nonEmpty {K P : Type*} {o : List P} {t : Node K} {lo hi : ℕ} (h : Partitions o t lo hi) :
    NonEmptyLeaves t := by
  induction t generalizing lo hi with
  | leaf f n b => exact h.2.2.1
  | inter a c0 c1 b ih0 ih1 => obtain ⟨m, h0, h1⟩ := h; exact ⟨ih0 h0, ih1 h1⟩

/-- **C37** end to end: whenever the tree is built, `BVH(...)` stores exactly its depth-first listing
(and therefore flattening never fails). -/
theorem C37_constructor {K P : Type*} [Field K] [LinearOrder K] [IsStrictOrderedRing K] [FloorRing K]
    (cfg : Config K) (wb : P → BBox K) (prims : List P) (hne : prims ≠ [])
    (t : Node K) (ordered : List P) (total : ℕ)
    (h : build cfg prims prims.length (buildData wb prims) [] 0 = .ok (t, ordered, total)) :
    mk cfg wb prims = .ok ⟨ordered, some (preorder t 0)⟩ ∧
    (Bvh.worldBound? ⟨ordered, some (preorder t 0)⟩ : Option (BBox K)) = some t.bounds := by
  obtain ⟨-, hp, -, hn⟩ := build_correct cfg wb prims t ordered total h
  have hl : prims.length ≠ 0 := by simpa using hne
  refine ⟨?_, ?_⟩
  · simp only [mk, hl, if_false, h, hn, C37_flatten_is_preorder t hp.nonEmpty]
  · cases t <;> simp [Bvh.worldBound?, preorder, Node.bounds]

example : NonEmptyLeaves (Node.inter 1 (.leaf 0 2 ⟨⟨0, 0, 0⟩, ⟨1, 1, 1⟩⟩)
    (.leaf 2 1 ⟨⟨0, 0, 0⟩, ⟨(1 : ℚ), 1, 1⟩⟩) ⟨⟨0, 0, 0⟩, ⟨1, 1, 1⟩⟩) := by
  simp [NonEmptyLeaves]

end Verif.BVH
