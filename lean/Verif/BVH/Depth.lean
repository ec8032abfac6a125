import Verif.BVH.TraverseProps

/-! # How deep a BVH gets (C38)

The traversal of `pytracer/aggregate/accelerator/bvh.py:322-410` keeps its pending nodes in an array of 64 entries.  With the surface-area method the array suffices for every scene of at most 66
primitives, and there is a scene of 67 primitives for which it does not.
-/
namespace Verif.BVH
open BBox
set_option linter.unusedSectionVars false

section
variable {K : Type*} [Field K] [LinearOrder K] [IsStrictOrderedRing K] [FloorRing K]

theorem chooseSplit_half (cfg : Config K) (hm : cfg.middle = false) (ds : List (BPrim K)) (dim : Fin 3) (cb : BBox K) (l : List (BPrim K)) (mid : ℕ) (h : chooseSplit cfg ds dim cb = .ok (l, mid))
    (hn : ds.length ≤ 4) : mid = ds.length / 2 := by
  unfold chooseSplit at h
  simp only [hm, hn, if_true, Bool.false_eq_true, if_false] at h
  split at h
  · cases h
  split at h
  · cases h
  simp only [Except.ok.injEq, Prod.mk.injEq] at h
  exact h.2.symm

/-- the greatest height of a tree over `n` primitives -/
def maxHeight (n : ℕ) : ℕ := if n ≤ 3 then n - 1 else n - 2

/-- with the surface-area method, a tree over `n` primitives is at most `n - 2` levels high (`n - 1` for up to three) -/
theorem height_le {P : Type*} (cfg : Config K) (hm : cfg.middle = false) (prims : List P) (fuel : ℕ) (ds : List (BPrim K)) (ord : List P) (total : ℕ) (t : Node K) (ord' : List P) (total' : ℕ)
    (h : build cfg prims fuel ds ord total = .ok (t, ord', total')) : t.height ≤ maxHeight ds.length := by
  induction fuel generalizing ds ord total t ord' total' with
  | zero => simp [build] at h
  | succ fuel ih =>
    cases ds with
    | nil => simp [build] at h
    | cons d ds =>
      have hleaf : (match appendLeaf prims (d :: ds) ord with
            | .error e => .error e
            | .ok ord' => .ok (.leaf ord.length (d :: ds).length (boundsOf d ds), ord', total + 1))
            = Except.ok (t, ord', total') → t.height ≤ maxHeight (d :: ds).length := by
        intro hx'
        split at hx'
        · cases hx'
        simp only [Except.ok.injEq, Prod.mk.injEq] at hx'
        obtain ⟨rfl, -, -⟩ := hx'
        simp [Node.height]
      have hsplit : ∀ (dim : Fin 3) (l : List (BPrim K)) (mid : ℕ), l.length = (d :: ds).length → 0 < mid → mid < (d :: ds).length → ((d :: ds).length ≤ 4 → mid = (d :: ds).length / 2) →
          (match build cfg prims fuel (l.take mid) ord (total + 1) with
            | .error e => .error e
            | .ok (c0, ord1, t1) =>
              match build cfg prims fuel (l.drop mid) ord1 t1 with
              | .error e => .error e
              | .ok (c1, ord2, t2) => .ok (.inter dim c0 c1 (c0.bounds.unionBox c1.bounds), ord2, t2))
            = Except.ok (t, ord', total') → t.height ≤ maxHeight (d :: ds).length := by
        intro dim l mid hl h0 h1 h4 hx
        split at hx
        · cases hx
        rename_i c0 ord1 t1 hb0
        split at hx
        · cases hx
        rename_i c1 ord2 t2 hb1
        simp only [Except.ok.injEq, Prod.mk.injEq] at hx
        obtain ⟨rfl, rfl, rfl⟩ := hx
        have e0 := ih _ _ _ _ _ _ hb0
        have e1 := ih _ _ _ _ _ _ hb1
        rw [List.length_take, hl, min_eq_left h1.le] at e0
        rw [List.length_drop, hl] at e1
        simp only [Node.height]
        generalize (d :: ds).length = n at *
        unfold maxHeight at *
        split_ifs at * <;> omega
      simp only [build] at h
      split at h
      · exact hleaf h
      rename_i hn1
      have hn2 : 2 ≤ (d :: ds).length := by
        have : 0 < (d :: ds).length := by simp
        omega
      split at h
      · split at h
        · exact hleaf h
        · exact hsplit _ _ _ rfl (by omega) (by omega) (fun _ => rfl) h
      · split at h
        · cases h
        · rename_i l mid hcs
          obtain ⟨hp, h0, h1⟩ := chooseSplit_spec _ _ _ _ _ _ hcs hn2
          exact hsplit _ _ _ hp.length_eq h0 h1 (fun h4 => chooseSplit_half cfg hm _ _ _ _ _ hcs h4) h

/-- **C38** with the surface-area method the array of pending nodes never overflows for scenes of at most 66 primitives.  Missing: larger scenes (`C38_deep_false`: 66 is the best bound). -/
theorem C38_sah_scenes_fit_partial {P : Type*} (cfg : Config K) (hm : cfg.middle = false) (wb : P → BBox K) (prims : List P) (t : Node K) (ordered : List P) (total : ℕ)
    (h : build cfg prims prims.length (buildData wb prims) [] 0 = .ok (t, ordered, total)) (hsmall : prims.length ≤ 66) : t.height ≤ 64 := by
  have := height_le cfg hm prims _ _ _ _ _ _ _ h
  rw [show (buildData wb prims).length = prims.length by simp [buildData]] at this
  unfold maxHeight at this
  split_ifs at this <;> omega

/-- **C38** no further hypothesis on the tree: for at most 66 primitives, the surface-area method and a node size of at most four the constructor succeeds and both queries answer correctly for every ray that is not one of the
special cases. -/
theorem C38_default_partial {P : Type*} (cfg : Config K) (hm : cfg.middle = false) (h4 : cfg.maxPrim ≤ 4) (wb : P → BBox K) (prims : List P) (hne : prims ≠ []) (hsmall : prims.length ≤ 66)
    (first : P → Option K) (r : FRay K) (hc : ∀ p ∈ prims, Contract wb first r p) (hr : RayFine wb prims r) :
    ∃ bvh acc res n, mk cfg wb prims = .ok bvh ∧ (∀ fuel ≥ n, bvh.intersect first r fuel = .ok acc ∧ bvh.intersectP first r fuel = .ok res) ∧ NearestAnswer prims first r.maxt acc ∧
      (res = true → ∃ p ∈ prims, ∃ s, first p = some s ∧ F.le (.fin s) r.maxt = true) ∧
      ((∃ p ∈ prims, ∃ s, first p = some s ∧ F.lt (.fin s) r.maxt = true) → res = true) := by
  obtain ⟨t, o, n, hb⟩ := C35_default_succeeds_partial cfg hm h4 wb prims hne
  have hh := C38_sah_scenes_fit_partial cfg hm wb prims t o n hb hsmall
  obtain ⟨bvh, acc, h1, h2, h3⟩ := C38_intersect_nearest_partial cfg wb prims hne first r hc hr t o n hb hh
  obtain ⟨bvh', res, h1', h2', h3', h4'⟩ := C38_intersect_p_partial cfg wb prims hne first r hc hr t o n hb hh
  obtain rfl : bvh = bvh' := by rw [h1] at h1'; exact Except.ok.inj h1'
  exact ⟨bvh, acc, res, n, h1, fun fuel hf => ⟨h2 fuel hf, h2' fuel hf⟩, h3, h3', h4'⟩

end

/-! ### 67 primitives -/

/-- cubes of half width one, each 13 times as far away as the one before -/
def deepBoxes (n : ℕ) : List (BBox ℚ) := (List.range n).map fun i => boxAt (13 ^ i) 1
/-- the nearest cube is hit at its front face, the others are not hit -/
def deepFirst : BBox ℚ → Option ℚ := fun b => if b = boxAt 1 1 then some 1 else none
/-- a ray along the row of cubes -/
def deepRay : FRay ℚ := mkRay ⟨-1, 0, 0⟩ ⟨⟨1, false⟩, ⟨0, false⟩, ⟨0, false⟩⟩ (.fin 0) .pinf
/-- what `intersect_p` and `intersect` raise -/
def deepErr (n : ℕ) : Option (Option Err × Option Err) :=
  match mk (codeConfig 4 false) id (deepBoxes n) with
  | .error _ => none
  | .ok bvh => some (errOf (bvh.intersect deepFirst deepRay 140), errOf (bvh.intersectP deepFirst deepRay 140))

/-- **C38 is violated** for scenes of 67 primitives: 67 cubes in a row with growing distances, a ray along the row that meets all the hypotheses and hits the first cube; both queries raise `IndexError`. -/
theorem C38_deep_false : (deepBoxes 67).length = 67 ∧ (∀ p ∈ deepBoxes 67, Contract id deepFirst deepRay p) ∧ RayFine id (deepBoxes 67) deepRay ∧ (∃ p ∈ deepBoxes 67, deepFirst p = some 1) ∧
    deepErr 67 = some (some .indexError, some .indexError) := by
  refine ⟨by simp [deepBoxes], ?_, ?_, ⟨boxAt 1 1, ?_, by simp [deepFirst]⟩, by decide +kernel⟩
  · intro p hp s hs
    simp only [deepFirst, Option.ite_none_right_eq_some, Option.some.injEq] at hs
    obtain ⟨rfl, rfl⟩ := hs
    refine ⟨by simp [deepRay, mkRay, F.lt], ?_⟩
    simp [Mem, V3.rayAt, rayDir, deepRay, mkRay, boxAt]
  · intro p hp
    obtain ⟨i, -, rfl⟩ := List.mem_map.1 hp
    simp [RayOk, deepRay, mkRay, boxAt]
  · exact List.mem_map.2 ⟨0, by simp, by simp⟩

/-- the hypotheses of `C38_default_partial` are met by 66 of these cubes -/
example : (codeConfig 4 false : Config ℚ).middle = false ∧ (codeConfig 4 false : Config ℚ).maxPrim ≤ 4 ∧ deepBoxes 66 ≠ [] ∧ (deepBoxes 66).length ≤ 66 := by
  refine ⟨rfl, le_refl _, ?_, by simp [deepBoxes]⟩
  intro h
  have := congrArg List.length h
  simp [deepBoxes] at this

end Verif.BVH
