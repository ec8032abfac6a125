import Verif.BVH.BuildProps
import Mathlib.Data.Rat.Floor

/-! # BVH construction: leaf sizes and failures (C35) -/

namespace Verif.BVH
open BBox
set_option linter.unusedSectionVars false

section
variable {K : Type*} [Field K] [LinearOrder K] [IsStrictOrderedRing K] [FloorRing K]

/-- **C35** no leaf holds more primitives than `max(1, max_prim_per_node)`. -/
theorem C35_leaf_size {P : Type*} (cfg : Config K) (prims : List P) (fuel : ℕ)
    (ds : List (BPrim K)) (ord : List P) (total : ℕ) (t : Node K) (ord' : List P) (total' : ℕ)
    (h : build cfg prims fuel ds ord total = .ok (t, ord', total')) : LeafSize (max 1 cfg.maxPrim) t := by
  induction fuel generalizing ds ord total t ord' total' with
  | zero => simp [build] at h
  | succ fuel ih =>
    cases ds with
    | nil => simp [build] at h
    | cons d ds =>
      have hleaf : (d :: ds).length ≤ max 1 cfg.maxPrim →
          (match appendLeaf prims (d :: ds) ord with
            | .error e => .error e
            | .ok ord' => .ok (.leaf ord.length (d :: ds).length (boundsOf d ds), ord', total + 1))
            = Except.ok (t, ord', total') → LeafSize (max 1 cfg.maxPrim) t := by
        intro hl hx'
        split at hx'
        · cases hx'
        simp only [Except.ok.injEq, Prod.mk.injEq] at hx'
        obtain ⟨rfl, -, -⟩ := hx'
        exact hl
      have hsplit : ∀ (dim : Fin 3) (l : List (BPrim K)) (mid : ℕ),
          (match build cfg prims fuel (l.take mid) ord (total + 1) with
            | .error e => .error e
            | .ok (c0, ord1, t1) =>
              match build cfg prims fuel (l.drop mid) ord1 t1 with
              | .error e => .error e
              | .ok (c1, ord2, t2) => .ok (.inter dim c0 c1 (c0.bounds.unionBox c1.bounds), ord2, t2))
            = Except.ok (t, ord', total') → LeafSize (max 1 cfg.maxPrim) t := by
        intro dim l mid hx
        split at hx
        · cases hx
        rename_i c0 ord1 t1 hb0
        split at hx
        · cases hx
        rename_i c1 ord2 t2 hb1
        simp only [Except.ok.injEq, Prod.mk.injEq] at hx
        obtain ⟨rfl, rfl, rfl⟩ := hx
        exact ⟨ih _ _ _ _ _ _ hb0, ih _ _ _ _ _ _ hb1⟩
      simp only [build] at h
      split at h
      · rename_i h1
        exact hleaf (by rw [h1]; exact le_max_left _ _) h
      split at h
      · split at h
        · rename_i h2
          exact hleaf (h2.trans (le_max_right _ _)) h
        · exact hsplit _ _ _ h
      · split at h
        · cases h
        · exact hsplit _ _ _ h

end

/-- the exception raised, if any -/
def errOf {α : Type*} : Except Err α → Option Err
  | .ok _ => none
  | .error e => some e

/-- a box centred at `x` with half widths `w` -/
def boxAt (x w : ℚ) : BBox ℚ := ⟨⟨x - w, -w, -w⟩, ⟨x + w, w, w⟩⟩

/-- **C35 is violated** by `method='middle'`: two primitives given in decreasing order along the split
axis make the constructor fail its own assertion. -/
theorem C35_middle_assertion_false :
    ∃ prims : List (BBox ℚ), prims ≠ [] ∧
      errOf (mk (codeConfig 4 true) id prims) = some .assertion := by
  refine ⟨[boxAt 1 1, boxAt 0 1], by simp, ?_⟩
  simp [mk, build, buildData, List.zipIdx, boundsOf, centroidBounds, codeConfig, chooseSplit, partition, partLoop,
    BPrim.centroid, boxAt, BBox.unionPt, BBox.maximumExtent, V3.get, errOf]
  norm_num [errOf]

/-- **C35 is violated** by larger node sizes: when the surface-area heuristic decides for a leaf the
constructor raises `TypeError` (five nearly coincident boxes, `max_prim_per_node = 5`). -/
theorem C35_sah_leaf_type_error_false :
    ∃ prims : List (BBox ℚ), prims ≠ [] ∧
      errOf (mk (codeConfig 5 false) id prims) = some .typeError := by
  refine ⟨[boxAt 0 1000, boxAt 1 1000, boxAt 2 1000, boxAt 3 1000, boxAt 4 1000], by simp, ?_⟩
  decide +kernel

/-- non-vacuity: a seven-primitive list with repeated and separated boxes is built (and its first
split is a real bucket split). -/
example : ∃ t o n, build (codeConfig 4 false) [boxAt 0 1, boxAt 1 1, boxAt 5 1, boxAt 5 1, boxAt 9 1, boxAt 2 1, boxAt 3 1]
    7 (buildData id [boxAt 0 1, boxAt 1 1, boxAt 5 1, boxAt 5 1, boxAt 9 1, boxAt 2 1, boxAt 3 1]) [] 0
    = .ok (t, o, n) :=
  C35_default_succeeds_partial (codeConfig 4 false) rfl (by simp [codeConfig]) id _ (by simp)

end Verif.BVH
