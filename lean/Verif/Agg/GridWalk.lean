import Verif.Agg.GridProps

/-! # Uniform grid traversal: property C64 -/

namespace Verif.Agg
open Verif BBox BVH
set_option linter.unusedSectionVars false

section
variable {K : Type*} [Field K] [LinearOrder K] [IsStrictOrderedRing K] [FloorRing K]

/-- steps left on one axis -/
def left (g : GridGeom K) (d : V3 (Dir K)) (pos : Fin 3 → ℤ) (a : Fin 3) : ℕ :=
  if (d.get a).val < 0 then (pos a + 1).toNat else (g.n a - pos a).toNat

/-- the position is in the grid -/
def InGrid (g : GridGeom K) (pos : Fin 3 → ℤ) : Prop := ∀ a, 0 ≤ pos a ∧ pos a < g.n a

theorem left_pos (g : GridGeom K) (d : V3 (Dir K)) (pos : Fin 3 → ℤ) (h : InGrid g pos) (a : Fin 3) :
    0 < left g d pos a := by
  have := h a; unfold left; split_ifs <;> omega

theorem step_inGrid (g : GridGeom K) (d : V3 (Dir K)) (pos : Fin 3 → ℤ) (h : InGrid g pos) (a : Fin 3)
    (hout : Function.update pos a (pos a + stepOf d a) a ≠ outOf g d a) :
    InGrid g (Function.update pos a (pos a + stepOf d a)) ∧
    ∀ i, left g d (Function.update pos a (pos a + stepOf d a)) i = if i = a then left g d pos i - 1 else left g d pos i := by
  have ha := h a
  simp only [Function.update_self] at hout
  have hs : stepOf d a = if (d.get a).val < 0 then -1 else 1 := rfl
  have ho : outOf g d a = if (d.get a).val < 0 then -1 else g.n a := rfl
  refine ⟨?_, ?_⟩
  · intro i
    by_cases hi : i = a
    · subst hi
      rw [Function.update_self]
      rw [hs] at hout ⊢; rw [ho] at hout
      split_ifs at * <;> omega
    · rw [Function.update_of_ne hi]; exact h i
  · intro i
    by_cases hi : i = a
    · subst hi
      unfold left
      rw [Function.update_self, hs, if_pos rfl]
      rw [hs, ho] at hout
      split_ifs at * <;> omega
    · unfold left; rw [Function.update_of_ne hi, if_neg hi]

/-- total steps left -/
def leftAll (g : GridGeom K) (d : V3 (Dir K)) (pos : Fin 3 → ℤ) : ℕ := left g d pos 0 + left g d pos 1 + left g d pos 2

theorem leftAll_step (g : GridGeom K) (d : V3 (Dir K)) (pos : Fin 3 → ℤ) (h : InGrid g pos) (a : Fin 3)
    (hout : Function.update pos a (pos a + stepOf d a) a ≠ outOf g d a) :
    leftAll g d (Function.update pos a (pos a + stepOf d a)) < leftAll g d pos := by
  obtain ⟨-, hl⟩ := step_inGrid g d pos h a hout
  have p0 := left_pos g d pos h 0; have p1 := left_pos g d pos h 1; have p2 := left_pos g d pos h 2
  unfold leftAll
  rw [hl 0, hl 1, hl 2]
  fin_cases a <;> simp <;> omega

/-- the walk ends normally, and any invariant of the visits holds of its result -/
theorem walk_spec {P σ : Type*} (g : GridGeom K) (hn : ∀ a, 1 ≤ g.n a) (vox : List (Option (List P)))
    (hlen : (vox.length : ℤ) = g.n 0 * g.n 1 * g.n 2) (d : V3 (Dir K)) (visit : σ → List P → σ) (maxt : σ → F K)
    (I : σ → Prop) (hI : ∀ st l, some l ∈ vox → I st → I (visit st l))
    (fuel : ℕ) (pos : Fin 3 → ℤ) (next : Fin 3 → F K) (st : σ) (hpos : InGrid g pos) (hst : I st)
    (hf : leftAll g d pos ≤ fuel) : ∃ st', walk g vox d visit maxt fuel pos next st = .ok st' ∧ I st' := by
  induction fuel generalizing pos next st with
  | zero => have := left_pos g d pos hpos 0; unfold leftAll at hf; omega
  | succ fuel ih =>
    have hoff := (C39_offset_bijection g hn).1 (pos 0) (pos 1) (pos 2) ⟨hpos 0, hpos 1, hpos 2⟩
    have hlt : (offset g (pos 0) (pos 1) (pos 2)).toNat < vox.length := by omega
    have hnn : ¬ offset g (pos 0) (pos 1) (pos 2) < 0 := by omega
    rw [walk]
    simp only [hnn, if_false, List.getElem?_eq_getElem hlt]
    have hst' : I (match vox[(offset g (pos 0) (pos 1) (pos 2)).toNat] with | none => st | some l => visit st l) := by
      split
      · exact hst
      · rename_i l hl
        exact hI st l (hl ▸ List.getElem_mem hlt) hst
    split_ifs with h1 h2
    · exact ⟨_, rfl, hst'⟩
    · exact ⟨_, rfl, hst'⟩
    · exact ih _ _ _ (step_inGrid g d pos hpos _ h2).1 hst'
        (by have := leftAll_step g d pos hpos _ h2; omega)

/-- **C64 (safety)**: for every ray, also one with zero, infinite-ratio or NaN-producing components,
`GridAccel.intersect` and `intersect_p` terminate without reading outside the voxel array; the
number of voxels visited is at most `nx + ny + nz`. -/
theorem C64_traversal_safe {P : Type*} (b : BBox K) (cr : K) (wb : P → BBox K) (prims : List P)
    (vox : List (Option (List P))) (hv : gridVoxels (gridGeom b cr) wb prims = some vox)
    (first : P → Option K) (r : FRay K) (mint : K) (fuel : ℕ)
    (hf : (gridGeom b cr).n 0 + (gridGeom b cr).n 1 + (gridGeom b cr).n 2 ≤ fuel) :
    (∃ acc, gridIntersect (gridGeom b cr) vox first r mint fuel = .ok acc) ∧
    (∃ res, gridIntersectP (gridGeom b cr) vox first r mint fuel = .ok res) := by
  set g := gridGeom b cr with hg
  have hn : ∀ a, 1 ≤ g.n a := fun a => (C39_voxel_counts b cr a).1
  obtain ⟨vox', hv', hlen, -⟩ := C39_construction g hn wb prims
  rw [hv] at hv'
  obtain rfl : vox = vox' := by simpa using hv'
  have hin : ∀ p, InGrid g (pos2voxel g p) := fun p a => C39_pos2voxel_in_range g p a (hn a)
  have hle : ∀ p, leftAll g r.d (pos2voxel g p) ≤ fuel := by
    intro p
    have h0 := hin p 0; have h1 := hin p 1; have h2 := hin p 2
    have hb : ∀ a, (left g r.d (pos2voxel g p) a : ℤ) ≤ g.n a := by
      intro a; have := hin p a; unfold left; split_ifs <;> omega
    have := hb 0; have := hb 1; have := hb 2
    unfold leftAll; omega
  constructor
  · unfold gridIntersect
    split_ifs
    · exact ⟨_, rfl⟩
    · obtain ⟨st, h, -⟩ := walk_spec g hn vox hlen r.d (voxelIntersect first) Acc.maxt (fun _ => True)
        (fun _ _ _ _ => trivial) fuel _ (crossing g (rayStart g r mint) (FRay.at r (rayStart g r mint)) r.d
          (pos2voxel g (FRay.at r (rayStart g r mint)))) ⟨r.maxt, none, false⟩ (hin _) trivial (hle _)
      exact ⟨st, h⟩
  · unfold gridIntersectP
    obtain ⟨st, h, -⟩ := walk_spec g hn vox hlen r.d (fun b l => b || l.any (hitP first r.maxt)) (fun _ => r.maxt)
      (fun _ => True) (fun _ _ _ _ => trivial) fuel _ (crossing g (rayStart g r mint)
        (FRay.at r (rayStart g r mint)) r.d (pos2voxel g (FRay.at r (rayStart g r mint)))) false (hin _) trivial (hle _)
    exact ⟨st, h⟩

theorem mem_vox {P : Type*} (g : GridGeom K) (hn : ∀ a, 1 ≤ g.n a) (wb : P → BBox K) (prims : List P)
    (vox : List (Option (List P))) (hv : gridVoxels g wb prims = some vox) (l : List P) (hl : some l ∈ vox) :
    ∀ p ∈ l, p ∈ prims := by
  obtain ⟨vox', hv', hlen, hh⟩ := C39_construction g hn wb prims
  rw [hv] at hv'
  obtain rfl : vox = vox' := by simpa using hv'
  obtain ⟨i, hi, hil⟩ := List.mem_iff_getElem.1 hl
  obtain ⟨x, y, z, hc, ho⟩ := (C39_offset_bijection g hn).2.2 (i : ℤ) (by omega) (by omega)
  have := hh x y z hc
  rw [ho, Int.toNat_natCast, List.getElem?_eq_getElem hi, hil] at this
  simp only [Option.some.injEq, voxelOf] at this
  split_ifs at this with h
  obtain rfl : l = _ := by simpa using this
  intro p hp
  exact (List.mem_filter.1 hp).1

/-- the accumulator records either nothing or a real hit of a scene primitive, at `ray.maxt` -/
def Genuine {P : Type*} (prims : List P) (first : P → Option K) (maxt0 : F K) (a : Acc K P) : Prop :=
  a = ⟨maxt0, none, false⟩ ∨ ∃ p ∈ prims, ∃ s, first p = some s ∧ F.le (.fin s) maxt0 = true ∧ a = ⟨.fin s, some p, true⟩

theorem genuine_fold {P : Type*} (prims : List P) (first : P → Option K) (m : F K) (l : List P)
    (hl : ∀ p ∈ l, p ∈ prims) (a : Acc K P) (h : Genuine prims first m a) :
    Genuine prims first m (l.foldl (hitOne first) a) := by
  induction l generalizing a with
  | nil => exact h
  | cons p l ih =>
    apply ih (fun q hq => hl q (by simp [hq]))
    unfold hitOne
    cases hf : first p with
    | none => exact h
    | some t =>
      simp only
      split_ifs with hle
      · right
        refine ⟨p, hl p (by simp), t, hf, ?_, rfl⟩
        rcases h with rfl | ⟨q, hq, s, hs, hsm, rfl⟩
        · exact hle
        · rcases fle_cases hsm with h | ⟨w, h, hw⟩
          · rw [h]; simp [F.le]
          · rw [h]; simp only [F.le, decide_eq_true_eq] at hle ⊢; order
      · exact h

/-- a walk that succeeds satisfies every invariant of the visits -/
theorem walk_inv {P σ : Type*} (g : GridGeom K) (vox : List (Option (List P))) (d : V3 (Dir K))
    (visit : σ → List P → σ) (maxt : σ → F K) (I : σ → Prop)
    (hI : ∀ st l, some l ∈ vox → I st → I (visit st l)) (fuel : ℕ) :
    ∀ (pos : Fin 3 → ℤ) (next : Fin 3 → F K) (st st' : σ),
      I st → walk g vox d visit maxt fuel pos next st = .ok st' → I st' := by
  induction fuel with
  | zero => intro pos next st st' _ h; simp [walk] at h
  | succ fuel ih =>
    intro pos next st st' hst h
    rw [walk] at h
    simp only at h
    split at h
    · cases h
    split at h
    · cases h
    rename_i v hv
    have hvm : v ∈ vox := List.mem_of_getElem? hv
    have fin : ∀ st1 : σ, I st1 → (if F.lt (maxt st1) (next (argmin3 next)) = true then Except.ok st1
        else if Function.update pos (argmin3 next) (pos (argmin3 next) + stepOf d (argmin3 next)) (argmin3 next)
          = outOf g d (argmin3 next) then Except.ok st1
        else walk g vox d visit maxt fuel
          (Function.update pos (argmin3 next) (pos (argmin3 next) + stepOf d (argmin3 next)))
          (Function.update next (argmin3 next) (fadd (next (argmin3 next)) (deltaT g d (argmin3 next)))) st1)
        = Except.ok st' → I st' := by
      intro st1 hst1 h
      split_ifs at h
      · cases h; exact hst1
      · cases h; exact hst1
      · exact ih _ _ _ _ hst1 h
    cases v with
    | none => exact fin st hst h
    | some l => exact fin _ (hI st l hvm hst) h

/-- **C64 (soundness)**: whatever the grid reports is a genuine hit of a scene primitive within the
ray's range, with `ray.maxt` set to its parameter; `intersect_p` answers `True` only if some primitive
is hit in the range.  Missing from the full property: completeness and nearness, which the code does
not have (`C64_axis_parallel_miss_false`, `C64_oblique_miss_false`). -/
theorem C64_sound_partial {P : Type*} (b : BBox K) (cr : K) (wb : P → BBox K) (prims : List P)
    (vox : List (Option (List P))) (hv : gridVoxels (gridGeom b cr) wb prims = some vox)
    (first : P → Option K) (r : FRay K) (mint : K) (fuel : ℕ) :
    (∀ acc, gridIntersect (gridGeom b cr) vox first r mint fuel = .ok acc → Genuine prims first r.maxt acc) ∧
    (gridIntersectP (gridGeom b cr) vox first r mint fuel = .ok true →
      ∃ p ∈ prims, ∃ s, first p = some s ∧ F.le (.fin s) r.maxt = true) := by
  set g := gridGeom b cr with hg
  have hn : ∀ a, 1 ≤ g.n a := fun a => (C39_voxel_counts b cr a).1
  have hmem := mem_vox g hn wb prims vox hv
  constructor
  · intro acc h
    unfold gridIntersect at h
    split_ifs at h
    · cases h; exact Or.inl rfl
    · exact walk_inv g vox r.d (voxelIntersect first) Acc.maxt (Genuine prims first r.maxt)
        (fun st l hl hst => genuine_fold prims first r.maxt l (hmem l hl) st hst) fuel _ _ _ _ (Or.inl rfl) h
  · intro h
    unfold gridIntersectP at h
    have := walk_inv g vox r.d (fun b l => b || l.any (hitP first r.maxt)) (fun _ => r.maxt)
      (fun b : Bool => b = true → ∃ p ∈ prims, ∃ s, first p = some s ∧ F.le (.fin s) r.maxt = true)
      (by
        intro st l hl hst hb
        replace hb : (st || l.any (hitP first r.maxt)) = true := hb
        simp only [Bool.or_eq_true, List.any_eq_true] at hb
        rcases hb with hb | ⟨p, hp, hh⟩
        · exact hst hb
        · unfold hitP at hh
          cases hf : first p with
          | none => simp [hf] at hh
          | some s => simp only [hf] at hh; exact ⟨p, hmem l hl p hp, s, hf, hh⟩) fuel _ _ _ _ (by simp) h
    exact this rfl

end

/-! ### Violations -/

/-- the result flag of a run -/
def hitFlag {P : Type*} (x : Except Err (Acc ℚ P)) : Option Bool :=
  match x with | .ok a => some a.hit | .error _ => none

/-- three boxes in [0,4]³, hit on their near x face -/
def gb0 : BBox ℚ := ⟨⟨0, 0, 0⟩, ⟨1, 1, 1⟩⟩
def gb1 : BBox ℚ := ⟨⟨3, 1, 1⟩, ⟨4, 2, 2⟩⟩
def gb2 : BBox ℚ := ⟨⟨0, 3, 3⟩, ⟨1, 4, 4⟩⟩
def gg : GridGeom ℚ := gridGeom ⟨⟨0, 0, 0⟩, ⟨4, 4, 4⟩⟩ 4
def gvox : List (Option (List (BBox ℚ))) := (gridVoxels gg id [gb0, gb1, gb2]).getD []

/-- **C64 is violated** for rays parallel to an axis: a ray along +x at y = z = 3/2 starting inside the
grid runs into the far box at t = 5/2, and brute force reports it, but the grid misses it (the first
crossing of the y axis is computed as -inf). -/
theorem C64_axis_parallel_miss_false :
    let r : FRay ℚ := ⟨⟨1/2, 3/2, 3/2⟩, ⟨⟨1, false⟩, ⟨0, false⟩, ⟨0, false⟩⟩, .fin 0, .pinf⟩
    let first : BBox ℚ → Option ℚ := fun b => if b = gb1 then some (5/2) else none
    Mem (FRay.at r (5/2)) gb1 ∧
    (simpleIntersect id first [gb0, gb1, gb2] r).1 = true ∧ hitFlag (gridIntersect gg gvox first r 0 20) = some false := by
  refine ⟨by norm_num [Mem, FRay.at, gb1], by decide +kernel, by decide +kernel⟩

/-- **C64 is violated** also in general position: an oblique ray (all components non-zero) from inside
the grid misses the far box, because `next_crossing` subtracts `grid_intersect / d` from the voxel
position instead of dividing their difference. -/
theorem C64_oblique_miss_false :
    let r : FRay ℚ := ⟨⟨1/2, 3/2, 3/2⟩, ⟨⟨4, false⟩, ⟨1/4, false⟩, ⟨1/4, false⟩⟩, .fin 0, .pinf⟩
    let first : BBox ℚ → Option ℚ := fun b => if b = gb1 then some (5/8) else none
    Mem (FRay.at r (5/8)) gb1 ∧
    (simpleIntersect id first [gb0, gb1, gb2] r).1 = true ∧ hitFlag (gridIntersect gg gvox first r 0 20) = some false := by
  refine ⟨by norm_num [Mem, FRay.at, gb1], by decide +kernel, by decide +kernel⟩

/-- the boxes are stored, and a ray can be answered: the diagonal ray finds its hit -/
example : hitFlag (gridIntersect gg gvox (fun b => if b = gb0 then some (1/2) else none)
    ⟨⟨0, 0, 0⟩, ⟨⟨1, false⟩, ⟨1, false⟩, ⟨1, false⟩⟩, .fin 0, .pinf⟩ 0 20) = some true := by decide +kernel

end Verif.Agg
