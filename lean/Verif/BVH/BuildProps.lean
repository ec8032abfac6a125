import Verif.BVH.BuildLemmas

/-! # BVH construction: properties C35, C36, C37 -/

namespace Verif.BVH
open BBox
set_option linter.unusedSectionVars false

/-! ### Specification -/

/-- The tree `t` describes exactly the positions `[lo, hi)` of the list `ordered`, left to right:
each leaf names a non-empty slice, the slices are adjacent, nothing is skipped or repeated. -/
def Partitions {K P : Type*} (ordered : List P) : Node K → ℕ → ℕ → Prop
  | .leaf first n _, lo, hi => first = lo ∧ hi = lo + n ∧ 0 < n ∧ hi ≤ ordered.length
  | .inter _ c0 c1 _, lo, hi => ∃ mid, Partitions ordered c0 lo mid ∧ Partitions ordered c1 mid hi

/-- every node of the tree satisfies `Q` together with the position of its first primitive -/
def AllNodes {K : Type*} (Q : Node K → ℕ → Prop) : Node K → ℕ → Prop
  | .leaf f n b, lo => Q (.leaf f n b) lo
  | .inter a c0 c1 b, lo => Q (.inter a c0 c1 b) lo ∧ AllNodes Q c0 lo ∧ AllNodes Q c1 (lo + c0.count)

/-- the primitives at positions `[lo, hi)` -/
def slice {P : Type*} (l : List P) (lo hi : ℕ) : List P := (l.drop lo).take (hi - lo)

section
variable {K : Type*} [Field K] [LinearOrder K]

/-- the node's box is the smallest box holding the boxes of its primitives -/
def TightBox {P : Type*} (wb : P → BBox K) (ordered : List P) (t : Node K) (lo : ℕ) : Prop :=
  ∀ c : BBox K, Sub t.bounds c ↔ ∀ p ∈ slice ordered lo (lo + t.count), Sub (wb p) c

/-- all leaves hold at most `m` primitives -/
def LeafSize (m : ℕ) : Node K → Prop
  | .leaf _ n _ => n ≤ m
  | .inter _ c0 c1 _ => LeafSize m c0 ∧ LeafSize m c1

end

/-! ### Structural lemmas -/

section
variable {K : Type*} [Field K] [LinearOrder K]

theorem Partitions.bounds {P : Type*} {ordered : List P} {t : Node K} {lo hi : ℕ}
    (h : Partitions ordered t lo hi) : lo < hi ∧ hi ≤ ordered.length := by
  induction t generalizing lo hi with
  | leaf f n b => obtain ⟨rfl, rfl, h1, h2⟩ := h; exact ⟨by omega, h2⟩
  | inter a c0 c1 b ih0 ih1 =>
    obtain ⟨mid, h0, h1⟩ := h
    exact ⟨(ih0 h0).1.trans (ih1 h1).1, (ih1 h1).2⟩

theorem Partitions.count {P : Type*} {ordered : List P} {t : Node K} {lo hi : ℕ}
    (h : Partitions ordered t lo hi) : hi = lo + t.count := by
  induction t generalizing lo hi with
  | leaf f n b => exact h.2.1
  | inter a c0 c1 b ih0 ih1 =>
    obtain ⟨mid, h0, h1⟩ := h
    have := ih0 h0; have := ih1 h1; simp only [Node.count]; omega

theorem Partitions.append {P : Type*} {ordered : List P} {t : Node K} {lo hi : ℕ}
    (h : Partitions ordered t lo hi) (more : List P) : Partitions (ordered ++ more) t lo hi := by
  induction t generalizing lo hi with
  | leaf f n b => obtain ⟨rfl, rfl, h1, h2⟩ := h; exact ⟨rfl, rfl, h1, by simp; omega⟩
  | inter a c0 c1 b ih0 ih1 =>
    obtain ⟨mid, h0, h1⟩ := h
    exact ⟨mid, ih0 h0, ih1 h1⟩

theorem slice_append {P : Type*} (l more : List P) (lo hi : ℕ) (h : hi ≤ l.length) :
    slice (l ++ more) lo hi = slice l lo hi := by
  unfold slice
  rcases le_total lo hi with h' | h'
  · rw [List.drop_append_of_le_length (by omega), List.take_append_of_le_length (by simp; omega)]
  · have : hi - lo = 0 := by omega
    simp [this]

theorem slice_split {P : Type*} (l : List P) (lo mid hi : ℕ) (h1 : lo ≤ mid) (h2 : mid ≤ hi) :
    slice l lo hi = slice l lo mid ++ slice l mid hi := by
  unfold slice
  have e : hi - lo = (mid - lo) + (hi - mid) := by omega
  rw [e, List.take_add, List.drop_drop]
  congr 3; omega

theorem AllNodes.append {P : Type*} {wb : P → BBox K} {ordered : List P} {t : Node K} {lo : ℕ}
    (hh : lo + t.count ≤ ordered.length)
    (h : AllNodes (TightBox wb ordered) t lo) (more : List P) :
    AllNodes (TightBox wb (ordered ++ more)) t lo := by
  induction t generalizing lo with
  | leaf f n b =>
    simp only [AllNodes, TightBox, slice_append _ more _ _ hh] at h ⊢; exact h
  | inter a c0 c1 b ih0 ih1 =>
    obtain ⟨hq, h0, h1⟩ := h
    have hh' := hh
    simp only [Node.count] at hh'
    refine ⟨?_, ih0 (by omega) h0, ih1 (by omega) h1⟩
    simp only [TightBox, slice_append _ more _ _ hh] at hq ⊢; exact hq

variable [IsStrictOrderedRing K] [FloorRing K]

theorem mapM_option {α β : Type*} (f : α → Option β) (l : List α) (r : List β) (h : l.mapM f = some r) :
    r.map some = l.map f := by
  induction l generalizing r with
  | nil => simp at h; subst h; rfl
  | cons a l ih =>
    rw [List.mapM_cons] at h
    simp only [bind, Option.bind_eq_some_iff, pure, Option.some.injEq] at h
    obtain ⟨b, hb, r', hr', rfl⟩ := h
    simp [ih r' hr', hb]

theorem mapM_option_ok {α β : Type*} (f : α → Option β) (l : List α) (h : ∀ a ∈ l, ∃ b, f a = some b) :
    ∃ r, l.mapM f = some r := by
  induction l with
  | nil => exact ⟨[], rfl⟩
  | cons a l ih =>
    obtain ⟨b, hb⟩ := h a (by simp)
    obtain ⟨r, hr⟩ := ih (fun x hx => h x (by simp [hx]))
    exact ⟨b :: r, by rw [List.mapM_cons, hb, hr]; rfl⟩

/-- everything `_recursive_build` guarantees about what it returns -/
structure BuildSpec {P : Type*} (wb : P → BBox K) (prims : List P) (ds : List (BPrim K)) (ord : List P)
    (total : ℕ) (t : Node K) (ord' : List P) (total' : ℕ) : Prop where
  appended : ∃ ps, ord' = ord ++ ps ∧ (ps.map some).Perm (ds.map (fun d => prims[d.primIdx]?))
  parts : Partitions ord' t ord.length ord'.length
  tight : AllNodes (TightBox wb ord') t ord.length
  count : total' = total + t.size

/-- a build record is consistent with the primitive list -/
def Consistent {P : Type*} (wb : P → BBox K) (prims : List P) (ds : List (BPrim K)) : Prop :=
  ∀ d ∈ ds, ∃ p, prims[d.primIdx]? = some p ∧ wb p = d.bounds

theorem leaf_spec {P : Type*} (wb : P → BBox K) (prims : List P) (d : BPrim K) (ds : List (BPrim K))
    (ord ord' : List P) (total : ℕ) (hc : Consistent wb prims (d :: ds))
    (h : appendLeaf prims (d :: ds) ord = .ok ord') :
    BuildSpec wb prims (d :: ds) ord total (.leaf ord.length (d :: ds).length (boundsOf d ds)) ord' (total + 1) := by
  unfold appendLeaf at h
  split at h
  · cases h
  rename_i ps hps
  simp only [Except.ok.injEq] at h
  subst h
  have hmap := mapM_option _ _ _ hps
  have hlen : ps.length = (d :: ds).length := by
    have := congrArg List.length hmap; simpa using this
  have hsl : slice (ord ++ ps) ord.length (ord.length + (d :: ds).length) = ps := by
    simp [slice, ← hlen]
  refine ⟨⟨ps, rfl, by rw [hmap]⟩, ?_, ?_, rfl⟩
  · exact ⟨rfl, by simp [← hlen], by simp, le_refl _⟩
  · intro c
    simp only [Node.count]
    rw [hsl]
    simp only [Node.bounds]
    rw [boundsOf_sub_iff]
    constructor
    · intro h p hp
      have : some p ∈ ps.map some := List.mem_map.2 ⟨p, hp, rfl⟩
      rw [hmap] at this
      obtain ⟨e, he, hep⟩ := List.mem_map.1 this
      obtain ⟨q, hq, hb⟩ := hc e he
      rw [hq] at hep
      obtain rfl : q = p := by simpa using hep
      rw [hb]; exact h e he
    · intro h e he
      obtain ⟨q, hq, hb⟩ := hc e he
      have : prims[e.primIdx]? ∈ (d :: ds).map (fun d => prims[d.primIdx]?) := List.mem_map.2 ⟨e, he, rfl⟩
      rw [← hmap, hq] at this
      obtain ⟨q', hq', hqq⟩ := List.mem_map.1 this
      obtain rfl : q' = q := by simpa using hqq
      rw [← hb]; exact h q' hq'

theorem split_spec {P : Type*} (wb : P → BBox K) (prims : List P) (ds l : List (BPrim K)) (mid : ℕ)
    (ord ord1 ord2 : List P) (total t1 t2 : ℕ) (dim : Fin 3) (c0 c1 : Node K)
    (hperm : l.Perm ds)
    (h0 : BuildSpec wb prims (l.take mid) ord (total + 1) c0 ord1 t1)
    (h1 : BuildSpec wb prims (l.drop mid) ord1 t1 c1 ord2 t2) :
    BuildSpec wb prims ds ord total (.inter dim c0 c1 (c0.bounds.unionBox c1.bounds)) ord2 t2 := by
  obtain ⟨⟨ps0, e0, p0⟩, q0, g0, n0⟩ := h0
  obtain ⟨⟨ps1, e1, p1⟩, q1, g1, n1⟩ := h1
  have b0 := q0.bounds
  have b1 := q1.bounds
  refine ⟨⟨ps0 ++ ps1, by rw [e1, e0, List.append_assoc], ?_⟩, ⟨ord1.length, ?_, q1⟩, ?_, ?_⟩
  · rw [List.map_append]
    refine (p0.append p1).trans ?_
    rw [← List.map_append, List.take_append_drop]
    exact hperm.map _
  · rw [e1]; exact q0.append ps1
  · have k0 := q0.count
    have k1 := q1.count
    have a0 := g0.append (by omega) ps1
    rw [← e1] at a0
    have hroot : ∀ (t : Node K) (lo : ℕ), AllNodes (TightBox wb ord2) t lo → TightBox wb ord2 t lo := by
      intro t lo h; cases t with
      | leaf => exact h
      | inter => exact h.1
    rw [k0] at g1
    refine ⟨?_, a0, g1⟩
    intro c
    change Sub (c0.bounds.unionBox c1.bounds) c ↔
      ∀ p ∈ slice ord2 ord.length (ord.length + (c0.count + c1.count)), Sub (wb p) c
    rw [unionBox_sub_iff, hroot _ _ a0, hroot _ _ g1,
      slice_split ord2 ord.length (ord.length + c0.count) (ord.length + (c0.count + c1.count))
        (by omega) (by omega)]
    simp only [List.mem_append, or_imp, forall_and, Nat.add_assoc]
  · rw [n1, n0]; simp only [Node.size]; omega

theorem build_spec {P : Type*} (cfg : Config K) (wb : P → BBox K) (prims : List P) (fuel : ℕ)
    (ds : List (BPrim K)) (ord : List P) (total : ℕ) (t : Node K) (ord' : List P) (total' : ℕ)
    (hc : Consistent wb prims ds) (h : build cfg prims fuel ds ord total = .ok (t, ord', total')) :
    BuildSpec wb prims ds ord total t ord' total' := by
  induction fuel generalizing ds ord total t ord' total' with
  | zero => simp [build] at h
  | succ fuel ih =>
    cases ds with
    | nil => simp [build] at h
    | cons d ds =>
      have hleaf : ∀ {x : Except Err (Node K × List P × ℕ)},
          (match appendLeaf prims (d :: ds) ord with
            | .error e => .error e
            | .ok ord' => .ok (.leaf ord.length (d :: ds).length (boundsOf d ds), ord', total + 1)) = x →
          x = .ok (t, ord', total') → BuildSpec wb prims (d :: ds) ord total t ord' total' := by
        intro x hx hx'
        rw [← hx] at hx'
        split at hx'
        · cases hx'
        rename_i o ho
        simp only [Except.ok.injEq, Prod.mk.injEq] at hx'
        obtain ⟨rfl, rfl, rfl⟩ := hx'
        exact leaf_spec wb prims d ds ord _ total hc ho
      have hsplit : ∀ (dim : Fin 3) (l : List (BPrim K)) (mid : ℕ), l.Perm (d :: ds) →
          (match build cfg prims fuel (l.take mid) ord (total + 1) with
            | .error e => .error e
            | .ok (c0, ord1, t1) =>
              match build cfg prims fuel (l.drop mid) ord1 t1 with
              | .error e => .error e
              | .ok (c1, ord2, t2) => .ok (.inter dim c0 c1 (c0.bounds.unionBox c1.bounds), ord2, t2))
            = Except.ok (t, ord', total') → BuildSpec wb prims (d :: ds) ord total t ord' total' := by
        intro dim l mid hp hx
        split at hx
        · cases hx
        rename_i c0 ord1 t1 hb0
        split at hx
        · cases hx
        rename_i c1 ord2 t2 hb1
        simp only [Except.ok.injEq, Prod.mk.injEq] at hx
        obtain ⟨rfl, rfl, rfl⟩ := hx
        refine split_spec wb prims _ l mid ord ord1 _ total t1 _ dim c0 c1 hp ?_ ?_
        · exact ih _ _ _ _ _ _ (fun e he => hc e (hp.mem_iff.1 (List.mem_of_mem_take he))) hb0
        · exact ih _ _ _ _ _ _ (fun e he => hc e (hp.mem_iff.1 (List.mem_of_mem_drop he))) hb1
      simp only [build] at h
      split at h
      · exact hleaf rfl h
      split at h
      · split at h
        · exact hleaf rfl h
        · exact hsplit _ _ _ (List.Perm.refl _) h
      · split at h
        · cases h
        rename_i l mid hcs
        have hn1 := ‹¬ (d :: ds).length = 1›
        have hn : 2 ≤ (d :: ds).length := by
          simp only [List.length_cons] at hn1 ⊢; omega
        exact hsplit _ l mid (chooseSplit_spec cfg _ _ _ _ _ hcs hn).1 h

/-- with enough fuel and the surface-area method with at most four primitives per node the builder
always succeeds -/
theorem build_ok {P : Type*} (cfg : Config K) (hm : cfg.middle = false)
    (hleaf : ∀ ds : List (BPrim K), ds.length ≤ 4 ∨ ds.length > cfg.maxPrim ∨ ∀ d, cfg.costBelow ds d = true)
    (wb : P → BBox K) (prims : List P) (fuel : ℕ)
    (ds : List (BPrim K)) (ord : List P) (total : ℕ) (hne : ds ≠ []) (hf : ds.length ≤ fuel)
    (hc : Consistent wb prims ds) : ∃ r, build cfg prims fuel ds ord total = .ok r := by
  induction fuel generalizing ds ord total with
  | zero => exact absurd (List.length_eq_zero_iff.1 (by omega)) hne
  | succ fuel ih =>
    cases ds with
    | nil => exact absurd rfl hne
    | cons d ds =>
      obtain ⟨ps, hps⟩ := mapM_option_ok (fun d => prims[d.primIdx]?) (d :: ds)
        (fun e he => (hc e he).imp (fun _ h => h.1))
      have hl : appendLeaf prims (d :: ds) ord = .ok (ord ++ ps) := by simp only [appendLeaf, hps]
      have hsplit : ∀ (dim : Fin 3) (l : List (BPrim K)) (mid : ℕ), l.Perm (d :: ds) → 0 < mid →
          mid < l.length → ∃ r,
          (match build cfg prims fuel (l.take mid) ord (total + 1) with
            | .error e => .error e
            | .ok (c0, ord1, t1) =>
              match build cfg prims fuel (l.drop mid) ord1 t1 with
              | .error e => .error e
              | .ok (c1, ord2, t2) => .ok (.inter dim c0 c1 (c0.bounds.unionBox c1.bounds), ord2, t2))
            = (Except.ok r : Except Err (Node K × List P × ℕ)) := by
        intro dim l mid hp h0 h1
        have hlen := hp.length_eq
        obtain ⟨⟨c0, o1, t1⟩, hb0⟩ := ih (l.take mid) ord (total + 1)
          (by intro h; have := congrArg List.length h; simp only [List.length_take, List.length_drop, List.length_nil] at this; omega)
          (by simp at hf hlen ⊢; omega)
          (fun e he => hc e (hp.mem_iff.1 (List.mem_of_mem_take he)))
        obtain ⟨⟨c1, o2, t2⟩, hb1⟩ := ih (l.drop mid) o1 t1
          (by intro h; have := congrArg List.length h; simp only [List.length_take, List.length_drop, List.length_nil] at this; omega)
          (by simp at hf hlen ⊢; omega)
          (fun e he => hc e (hp.mem_iff.1 (List.mem_of_mem_drop he)))
        rw [hb0]; simp only; rw [hb1]; exact ⟨_, rfl⟩
      simp only [build, hl]
      split_ifs with h1 h2 h3
      · exact ⟨_, rfl⟩
      · exact ⟨_, rfl⟩
      · refine hsplit _ _ _ (List.Perm.refl _) ?_ ?_ <;> simp only [List.length_cons] at h1 ⊢ <;> omega
      · have hn : 2 ≤ (d :: ds).length := by simp only [List.length_cons] at h1 ⊢; omega
        obtain ⟨⟨l, mid⟩, hcs⟩ := chooseSplit_ok cfg hm (d :: ds) (hleaf _) _ (centroidBounds d ds) hn
          ((centroidBounds_sub_iff d ds _).1 (Sub.refl _)) h2
        have hs := chooseSplit_spec cfg _ _ _ _ _ hcs hn
        rw [hcs]
        simp only
        exact hsplit _ l mid hs.1 hs.2.1 (by rw [hs.1.length_eq]; exact hs.2.2)

theorem buildData_consistent {P : Type*} (wb : P → BBox K) (prims : List P) :
    Consistent wb prims (buildData wb prims) ∧
    (buildData wb prims).map (fun d => prims[d.primIdx]?) = prims.map some ∧
    (buildData wb prims).length = prims.length := by
  refine ⟨?_, ?_, by simp [buildData]⟩
  · intro d hd
    simp only [buildData, List.mem_map] at hd
    obtain ⟨⟨p, i⟩, hm, rfl⟩ := hd
    rw [List.mem_zipIdx_iff_getElem?] at hm
    exact ⟨p, hm, rfl⟩
  · apply List.ext_getElem?
    intro i
    simp only [buildData, List.map_map, List.getElem?_map, List.getElem?_zipIdx]
    cases h : prims[i]? with
    | none => simp
    | some p => simp [h]

/-! ### Properties -/

/-- **C35/C36**: whenever construction succeeds — for any split method, any cost function, any node
size — the primitive list is a permutation of the input, the tree's leaves partition it into
adjacent non-empty slices, and every node's box is the smallest box around its primitives. -/
theorem build_correct {P : Type*} (cfg : Config K) (wb : P → BBox K) (prims : List P)
    (t : Node K) (ordered : List P) (total : ℕ)
    (h : build cfg prims prims.length (buildData wb prims) [] 0 = .ok (t, ordered, total)) :
    ordered.Perm prims ∧ Partitions ordered t 0 ordered.length ∧
    AllNodes (TightBox wb ordered) t 0 ∧ total = t.size := by
  obtain ⟨hc, hmap, -⟩ := buildData_consistent wb prims
  obtain ⟨⟨ps, e, hp⟩, hpart, ht, hn⟩ := build_spec cfg wb prims _ _ _ _ _ _ _ hc h
  simp only [List.nil_append] at e
  subst e
  refine ⟨?_, hpart, ht, by omega⟩
  rw [hmap] at hp
  have := hp.filterMap id
  simpa using this

/-- **C35** construction keeps every primitive exactly once and its leaves tile the list. -/
theorem C35_permutation_partial {P : Type*} (cfg : Config K) (wb : P → BBox K) (prims : List P)
    (t : Node K) (ordered : List P) (total : ℕ)
    (h : build cfg prims prims.length (buildData wb prims) [] 0 = .ok (t, ordered, total)) :
    ordered.Perm prims ∧ Partitions ordered t 0 prims.length := by
  obtain ⟨h1, h2, -⟩ := build_correct cfg wb prims t ordered total h
  exact ⟨h1, by rw [← h1.length_eq]; exact h2⟩

/-- **C35** with the default method and at most four primitives per node construction never fails,
for every non-empty list of primitives (boxes in any position, repeated or degenerate). -/
theorem C35_default_succeeds_partial {P : Type*} (cfg : Config K) (hm : cfg.middle = false)
    (hmax : cfg.maxPrim ≤ 4) (wb : P → BBox K) (prims : List P) (hne : prims ≠ []) :
    ∃ t ordered total, build cfg prims prims.length (buildData wb prims) [] 0 = .ok (t, ordered, total) := by
  obtain ⟨hc, -, hl⟩ := buildData_consistent wb prims
  obtain ⟨⟨t, o, n⟩, h⟩ := build_ok cfg hm (fun ds => by by_cases h : ds.length ≤ 4
                                                         · exact Or.inl h
                                                         · exact Or.inr (Or.inl (by omega)))
    wb prims prims.length (buildData wb prims) [] 0
    (by intro h; rw [h] at hl; exact hne (List.length_eq_zero_iff.1 hl.symm)) (by rw [hl]) hc
  exact ⟨t, o, n, h⟩

/-- **C36** every node's box is the smallest box enclosing the world bounds of the primitives it
holds; in particular the root's box is the smallest box around all of them. -/
theorem C36_bounds {P : Type*} (cfg : Config K) (wb : P → BBox K) (prims : List P)
    (t : Node K) (ordered : List P) (total : ℕ)
    (h : build cfg prims prims.length (buildData wb prims) [] 0 = .ok (t, ordered, total)) :
    AllNodes (TightBox wb ordered) t 0 ∧
    (∀ p ∈ prims, Sub (wb p) t.bounds) ∧
    ∀ c, (∀ p ∈ prims, Sub (wb p) c) → Sub t.bounds c := by
  obtain ⟨h1, h2, h3, -⟩ := build_correct cfg wb prims t ordered total h
  have hroot : TightBox wb ordered t 0 := by
    cases t with
    | leaf => exact h3
    | inter => exact h3.1
  have hs : slice ordered 0 (0 + t.count) = ordered := by
    rw [← h2.count]; simp [slice]
  unfold TightBox at hroot
  rw [hs] at hroot
  refine ⟨h3, fun p hp => (hroot _).1 (Sub.refl _) p (h1.mem_iff.2 hp), fun c hc => ?_⟩
  exact (hroot c).2 (fun p hp => hc p (h1.mem_iff.1 hp))

end
end Verif.BVH
