import Verif.Agg.GridWalk

/-! # Uniform grid traversal: rays for which the walk is complete (property C64)

`next_crossing` lacks a pair of parentheses (`crossing` in `Agg/GridModel.lean`); the value is right exactly on the axes
described by `AxisOK`.  For rays all of whose axes are right, the walk finds the nearest hit. -/

namespace Verif.Agg
open Verif BBox BVH
set_option linter.unusedSectionVars false

section
variable {K : Type*} [Field K] [LinearOrder K] [IsStrictOrderedRing K] [FloorRing K]

/-- specification: the axes on which the first boundary is computed as it should be.  The ray runs upwards and either its
component is one or the first boundary is a coordinate plane; or it does not move along the axis and its coordinate has the
sign opposite to the sign of the zero. -/
def AxisOK (g : GridGeom K) (r : FRay K) (t0 : K) (a : Fin 3) : Prop :=
  (0 < (r.d.get a).val ∧ ((r.d.get a).val = 1 ∨ voxel2pos g (pos2voxel g (FRay.at r t0) a + 1) a = 0)) ∨
  ((r.d.get a).val = 0 ∧ if (r.d.get a).negZero then 0 < (FRay.at r t0).get a else (FRay.at r t0).get a < 0)

theorem at_get (r : FRay K) (t : K) (a : Fin 3) : (FRay.at r t).get a = r.o.get a + (r.d.get a).val * t := by
  fin_cases a <;> rfl

/-- where the walk should be: the next crossing of each axis is the parameter at which the ray leaves the slab -/
def NextOK (g : GridGeom K) (r : FRay K) (pos : Fin 3 → ℤ) (next : Fin 3 → F K) (a : Fin 3) : Prop :=
  (0 < (r.d.get a).val ∧ ∃ t, next a = .fin t ∧ (FRay.at r t).get a = voxel2pos g (pos a + 1) a) ∨
  ((r.d.get a).val = 0 ∧ next a = .pinf ∧ ∀ t, pos2voxel g (FRay.at r t) a = pos a)

theorem crossing_ok (g : GridGeom K) (r : FRay K) (t0 : K) (a : Fin 3) (h : AxisOK g r t0 a) :
    NextOK g r (pos2voxel g (FRay.at r t0)) (crossing g t0 (FRay.at r t0) r.d (pos2voxel g (FRay.at r t0))) a := by
  rcases h with ⟨hd, h⟩ | ⟨hd, h⟩
  · left
    refine ⟨hd, ?_⟩
    have hnd : ¬ (r.d.get a).val < 0 := not_lt.2 hd.le
    have hne : (r.d.get a).val ≠ 0 := hd.ne'
    refine ⟨t0 + voxel2pos g (pos2voxel g (FRay.at r t0) a + 1) a + -((FRay.at r t0).get a / (r.d.get a).val), ?_, ?_⟩
    · simp [crossing, hnd, hne, F.divFin, fneg, fadd]
    · rw [at_get, at_get]
      rcases h with h | h
      · rw [h]; ring
      · rw [h]; field_simp; ring
  · right
    have hc : ∀ t, (FRay.at r t).get a = (FRay.at r t0).get a := fun t => by rw [at_get, at_get, hd]; ring
    refine ⟨hd, ?_, fun t => by unfold pos2voxel; rw [hc t]⟩
    cases hz : (r.d.get a).negZero
    · rw [hz] at h
      simp only [Bool.false_eq_true, if_false] at h
      simp [crossing, hd, hz, F.divFin, h.ne, not_lt.2 h.le, fneg, fadd]
    · rw [hz] at h
      simp only [if_true] at h
      simp [crossing, hd, hz, F.divFin, h.ne', h, fneg, fadd]

theorem argmin3_le (f : Fin 3 → F K) (h : ∀ a, (f a).isNan = false) (b : Fin 3) : F.lt (f b) (f (argmin3 f)) = false := by
  have h0 := h 0; have h1 := h 1; have h2 := h 2
  unfold argmin3
  simp only [h0, h1, h2, Bool.false_eq_true, if_false]
  cases e0 : f 0 <;> cases e1 : f 1 <;> cases e2 : f 2 <;> rw [e0] at h0 <;> rw [e1] at h1 <;> rw [e2] at h2 <;>
    fin_cases b <;> simp_all [F.lt, F.isNan] <;> split_ifs <;> simp_all <;> grind

/-- a point at or above a boundary is in a higher voxel, if there is one -/
theorem cell_ge (g : GridGeom K) (p : V3 K) (a : Fin 3) (hg : GoodAxis g a) (i : ℤ) (hi0 : 0 ≤ i) (hi1 : i < g.n a)
    (h1 : voxel2pos g i a ≤ p.get a) (h2 : p.get a ≤ g.bounds.pMax.get a) : i ≤ pos2voxel g p a := by
  by_contra hc
  push Not at hc
  have hw := hg.2.1
  have hlo : g.bounds.pMin.get a ≤ p.get a := by
    have : (0 : K) ≤ (i : K) := by exact_mod_cast hi0
    unfold voxel2pos at h1; nlinarith
  obtain ⟨-, hc2⟩ := C39_cell_contains_point g p a hg hlo h2
  have : voxel2pos g (pos2voxel g p a + 1) a ≤ voxel2pos g i a := by
    unfold voxel2pos
    have : ((pos2voxel g p a + 1 : ℤ) : K) ≤ (i : K) := by exact_mod_cast hc
    nlinarith
  have := C39_point_of_cell g p a hg i hi0 hi1 h1 (by
    have : voxel2pos g i a < voxel2pos g (i + 1) a := by
      unfold voxel2pos; push_cast; nlinarith
    linarith)
  omega

/-- what the walk is to find: hits with their parameters, all of them on the ray after the start, in the grid and in the
primitive's bounds, and not on an edge of the voxels in an upper face of the grid -/
structure Hits {P : Type*} (g : GridGeom K) (wb : P → BBox K) (r : FRay K) (mint : K) (first : P → Option K) (prims : List P) :
    Prop where
  after : ∀ p ∈ prims, ∀ s, first p = some s → mint ≤ s
  on : ∀ p ∈ prims, ∀ s, first p = some s → Mem (FRay.at r s) (wb p)
  inside : ∀ p ∈ prims, ∀ q, Mem q (wb p) → Mem q g.bounds
  edge : ∀ p ∈ prims, ∀ s, first p = some s → ∀ a b, a ≠ b → (FRay.at r s).get a = g.bounds.pMax.get a →
    ∀ i : ℤ, i < g.n b → (FRay.at r s).get b ≠ voxel2pos g i b

theorem mem_get {p : V3 K} {b : BBox K} (h : Mem p b) (a : Fin 3) : b.pMin.get a ≤ p.get a ∧ p.get a ≤ b.pMax.get a := by
  obtain ⟨h0, h1, h2⟩ := h
  fin_cases a
  · exact h0
  · exact h1
  · exact h2

/-- the walk accounts for every hit -/
theorem walk_complete {P σ : Type*} (g : GridGeom K) (hn : ∀ a, 1 ≤ g.n a) (wb : P → BBox K) (prims : List P)
    (vox : List (Option (List P))) (hv : gridVoxels g wb prims = some vox) (hiw : ∀ a, 0 ≤ g.invWidth a) (r : FRay K)
    (hmove : ∃ a, 0 < (r.d.get a).val) (hgood : ∀ a, 0 < (r.d.get a).val → GoodAxis g a) (first : P → Option K) (mint : K)
    (H : Hits g wb r mint first prims) (visit : σ → List P → σ) (maxt : σ → F K) (Acct : σ → K → Prop)
    (hvis : ∀ st l p s, p ∈ l → first p = some s → Acct (visit st l) s)
    (hkeep : ∀ st l s, Acct st s → Acct (visit st l) s)
    (hpast : ∀ st x s, F.lt (maxt st) x = true → F.lt (.fin s) x = false → Acct st s)
    (fuel : ℕ) :
    ∀ (pos : Fin 3 → ℤ) (next : Fin 3 → F K) (st st' : σ), InGrid g pos → (∀ a, NextOK g r pos next a) →
      (∀ p ∈ prims, ∀ s, first p = some s → (∃ a, pos2voxel g (FRay.at r s) a < pos a) → Acct st s) →
      walk g vox r.d visit maxt fuel pos next st = .ok st' → ∀ p ∈ prims, ∀ s, first p = some s → Acct st' s := by
  induction fuel with
  | zero => intro pos next st st' _ _ _ h; simp [walk] at h
  | succ fuel ih =>
    intro pos next st st' hpos hnext hst h
    obtain ⟨vox', hv', hlen, hh⟩ := C39_construction g hn wb prims
    rw [hv] at hv'
    obtain rfl : vox = vox' := by simpa using hv'
    have hoff := (C39_offset_bijection g hn).1 (pos 0) (pos 1) (pos 2) ⟨hpos 0, hpos 1, hpos 2⟩
    have hnn : ¬ offset g (pos 0) (pos 1) (pos 2) < 0 := by omega
    rw [walk] at h
    simp only [hnn, if_false, hh _ _ _ ⟨hpos 0, hpos 1, hpos 2⟩] at h
    -- the state after the visit
    set st1 : σ := (match voxelOf (prims.filter (fun p => decide (Reaches g (wb p) (pos 0) (pos 1) (pos 2)))) with
      | none => st | some l => visit st l) with hst1
    have hkeep1 : ∀ s, Acct st s → Acct st1 s := by
      intro s hs
      rw [hst1]; split
      · exact hs
      · exact hkeep _ _ _ hs
    have hvis1 : ∀ p ∈ prims, ∀ s, first p = some s → (∀ a, pos2voxel g (FRay.at r s) a = pos a) → Acct st1 s := by
      intro p hp s hs hc
      have hm := H.on p hp s hs
      have hr : Reaches g (wb p) (pos 0) (pos 1) (pos 2) := by
        rw [← hc 0, ← hc 1, ← hc 2]
        exact ⟨⟨pos2voxel_mono g _ _ 0 (hiw 0) (mem_get hm 0).1, pos2voxel_mono g _ _ 0 (hiw 0) (mem_get hm 0).2⟩,
          ⟨pos2voxel_mono g _ _ 1 (hiw 1) (mem_get hm 1).1, pos2voxel_mono g _ _ 1 (hiw 1) (mem_get hm 1).2⟩,
          pos2voxel_mono g _ _ 2 (hiw 2) (mem_get hm 2).1, pos2voxel_mono g _ _ 2 (hiw 2) (mem_get hm 2).2⟩
      have hmem : p ∈ prims.filter (fun p => decide (Reaches g (wb p) (pos 0) (pos 1) (pos 2))) := by simp [hp, hr]
      rw [hst1, voxelOf, if_neg (List.ne_nil_of_mem hmem)]
      exact hvis _ _ p s hmem hs
    set a := argmin3 next with ha
    have hnan : ∀ b, (next b).isNan = false := by
      intro b
      rcases hnext b with ⟨-, t, ht, -⟩ | ⟨-, ht, -⟩ <;> rw [ht] <;> rfl
    have hmin := argmin3_le next hnan
    -- a hit in a higher voxel on some axis is at or after the next crossing of that axis
    have hlate : ∀ p ∈ prims, ∀ s, first p = some s → ∀ b, pos b < pos2voxel g (FRay.at r s) b →
        0 < (r.d.get b).val ∧ ∃ t, next b = .fin t ∧ t ≤ s ∧ (FRay.at r t).get b = voxel2pos g (pos b + 1) b := by
      intro p hp s hs b hb
      rcases hnext b with ⟨hd, t, ht, hvt⟩ | ⟨hd, ht, hc⟩
      · refine ⟨hd, t, ht, ?_, hvt⟩
        have hin := H.inside p hp _ (H.on p hp s hs)
        have hg := hgood b hd
        obtain ⟨hlo, -⟩ := C39_cell_contains_point g _ b hg (mem_get hin b).1 (mem_get hin b).2
        have : voxel2pos g (pos b + 1) b ≤ voxel2pos g (pos2voxel g (FRay.at r s) b) b := by
          unfold voxel2pos
          have : ((pos b + 1 : ℤ) : K) ≤ ((pos2voxel g (FRay.at r s) b : ℤ) : K) := by exact_mod_cast hb
          nlinarith [hg.2.1]
        have hle : (FRay.at r t).get b ≤ (FRay.at r s).get b := by rw [hvt]; exact this.trans hlo
        rw [at_get, at_get] at hle
        exact le_of_mul_le_mul_left (by linarith) hd
      · rw [hc s] at hb; exact absurd hb (lt_irrefl _)
    -- a hit that is not in a later voxel on the axis of the next step is accounted for
    have hclaim : ∀ p ∈ prims, ∀ s, first p = some s → pos2voxel g (FRay.at r s) a ≤ pos a → Acct st1 s := by
      intro p hp s hs hca
      by_cases hlow : ∃ b, pos2voxel g (FRay.at r s) b < pos b
      · exact hkeep1 s (hst p hp s hs hlow)
      push Not at hlow
      by_cases hhigh : ∃ b, pos b < pos2voxel g (FRay.at r s) b
      · exfalso
        obtain ⟨b, hb⟩ := hhigh
        have hba : a ≠ b := by rintro rfl; omega
        obtain ⟨hdb, tb, htb, htbs, hvb⟩ := hlate p hp s hs b hb
        have hin := H.inside p hp _ (H.on p hp s hs)
        rcases hnext a with ⟨hda, ta, hta, hva⟩ | ⟨hda, hta, -⟩
        · have hle : ta ≤ tb := by
            have := hmin b
            rw [← ha, htb, hta] at this
            simpa [F.lt] using this
          have hge : voxel2pos g (pos a + 1) a ≤ (FRay.at r s).get a := by
            rw [← hva, at_get, at_get]
            have := mul_le_mul_of_nonneg_left (hle.trans htbs) hda.le
            linarith
          have hga := hgood a hda
          have hgb := hgood b hdb
          by_cases hlast : pos a + 1 < g.n a
          · have := cell_ge g (FRay.at r s) a hga (pos a + 1) (by have := (hpos a).1; omega) hlast hge (mem_get hin a).2
            omega
          · have hpa : pos a + 1 = g.n a := by have := (hpos a).2; omega
            have hmax : voxel2pos g (pos a + 1) a = g.bounds.pMax.get a := by
              rw [hpa]; unfold voxel2pos; exact hga.2.2.2
            have hAs : (FRay.at r s).get a = g.bounds.pMax.get a := le_antisymm (mem_get hin a).2 (hmax ▸ hge)
            have hst' : s = ta := by
              have : (FRay.at r s).get a = (FRay.at r ta).get a := by rw [hva, hAs, hmax]
              rw [at_get, at_get] at this
              exact mul_left_cancel₀ hda.ne' (by linarith)
            have hsb : s = tb := le_antisymm (by rw [hst']; exact hle) htbs
            have hci := C39_pos2voxel_in_range g (FRay.at r s) b (hn b)
            exact H.edge p hp s hs a b hba hAs (pos b + 1) (by omega) (by rw [hsb]; exact hvb)
        · have := hmin b
          rw [← ha, htb, hta] at this
          simp [F.lt] at this
      · push Not at hhigh
        exact hvis1 p hp s hs (fun b => le_antisymm (hhigh b) (hlow b))
    split_ifs at h with h1 h2
    · obtain rfl : st1 = st' := Except.ok.inj h
      intro p hp s hs
      by_cases hca : pos2voxel g (FRay.at r s) a ≤ pos a
      · exact hclaim p hp s hs hca
      · obtain ⟨-, t, ht, hts, -⟩ := hlate p hp s hs a (by omega)
        refine hpast _ _ s h1 ?_
        rw [ht]; simpa [F.lt] using hts
    · obtain rfl : st1 = st' := Except.ok.inj h
      intro p hp s hs
      refine hclaim p hp s hs ?_
      rw [Function.update_self] at h2
      have hci := C39_pos2voxel_in_range g (FRay.at r s) a (hn a)
      have hs1 : stepOf r.d a = if (r.d.get a).val < 0 then -1 else 1 := rfl
      have ho1 : outOf g r.d a = if (r.d.get a).val < 0 then -1 else g.n a := rfl
      have hnd : ¬ (r.d.get a).val < 0 := by
        rcases hnext a with ⟨hd, -⟩ | ⟨hd, -⟩
        · exact not_lt.2 hd.le
        · rw [hd]; exact lt_irrefl _
      rw [hs1, ho1, if_neg hnd, if_neg hnd] at h2
      omega
    · have hs1 : stepOf r.d a = 1 := by
        unfold stepOf
        rw [if_neg]
        rcases hnext a with ⟨hd, -⟩ | ⟨hd, -⟩
        · exact not_lt.2 hd.le
        · rw [hd]; exact lt_irrefl _
      refine ih _ _ _ _ (step_inGrid g r.d pos hpos a h2).1 ?_ ?_ h
      · intro b
        by_cases hb : b = a
        · subst hb
          rcases hnext a with ⟨hd, t, ht, hvt⟩ | ⟨hd, ht, hc⟩
          · left
            refine ⟨hd, t + g.width a / (r.d.get a).val, ?_, ?_⟩
            · rw [Function.update_self, ht]
              simp [deltaT, not_lt.2 hd.le, F.divFin, hd.ne', fadd]
            · rw [at_get] at hvt ⊢
              rw [Function.update_self, hs1]
              have : (r.d.get a).val * (t + g.width a / (r.d.get a).val) = (r.d.get a).val * t + g.width a := by
                field_simp
              rw [this]
              unfold voxel2pos at hvt ⊢
              push_cast at hvt ⊢
              linarith
          · exfalso
            obtain ⟨c, hc'⟩ := hmove
            rcases hnext c with ⟨-, t, htc, -⟩ | ⟨hd0, -⟩
            · have := hmin c
              rw [← ha, htc, ht] at this
              simp [F.lt] at this
            · rw [hd0] at hc'; exact lt_irrefl _ hc'
        · have e : ∀ f : Fin 3 → ℤ, ∀ v, Function.update f a v b = f b := fun f v => Function.update_of_ne hb _ _
          rcases hnext b with ⟨hd, t, ht, hvt⟩ | ⟨hd, ht, hc⟩
          · exact Or.inl ⟨hd, t, by rw [Function.update_of_ne hb]; exact ht, by rw [e]; exact hvt⟩
          · exact Or.inr ⟨hd, by rw [Function.update_of_ne hb]; exact ht, by rw [e]; exact hc⟩
      · intro p hp s hs hlow
        obtain ⟨b, hb⟩ := hlow
        by_cases hba : b = a
        · subst hba
          rw [Function.update_self, hs1] at hb
          exact hclaim p hp s hs (by omega)
        · rw [Function.update_of_ne hba] at hb
          exact hkeep1 s (hst p hp s hs ⟨b, hb⟩)

/-- specification: the answer is the nearest hit in the range, or there is none -/
def IsNearest {P : Type*} (prims : List P) (first : P → Option K) (maxt0 : F K) (a : Acc K P) : Prop :=
  (a = ⟨maxt0, none, false⟩ ∧ ∀ p ∈ prims, ∀ s, first p = some s → F.le (.fin s) maxt0 = false) ∨
  ∃ p ∈ prims, ∃ s, first p = some s ∧ F.le (.fin s) maxt0 = true ∧ a = ⟨.fin s, some p, true⟩ ∧
    ∀ q ∈ prims, ∀ s', first q = some s' → s ≤ s'

/-- a hit at `s` needs no further attention -/
def Done {P : Type*} (a : Acc K P) (s : K) : Prop := F.le (.fin s) a.maxt = false ∨ (a.hit = true ∧ a.maxt = .fin s)

theorem done_one {P : Type*} (first : P → Option K) (a : Acc K P) (p : P) (s : K) (h : Done a s) :
    Done (hitOne first a p) s := by
  unfold hitOne
  cases hf : first p with
  | none => exact h
  | some t =>
    simp only
    split_ifs with hle
    · rcases h with h | ⟨-, h⟩
      · left
        rcases fle_cases hle with hm | ⟨u, hm, hu⟩ <;> rw [hm] at h <;> simp [F.le] at h ⊢
        order
      · rw [h] at hle
        simp only [F.le, decide_eq_true_eq] at hle
        rcases hle.lt_or_eq with hlt | rfl
        · left; simpa [F.le] using hlt
        · right; exact ⟨rfl, rfl⟩
    · exact h

theorem done_fold {P : Type*} (first : P → Option K) (l : List P) (a : Acc K P) (s : K) (h : Done a s) :
    Done (l.foldl (hitOne first) a) s := by
  induction l generalizing a with
  | nil => exact h
  | cons p l ih => exact ih _ (done_one first a p s h)

theorem done_mem {P : Type*} (first : P → Option K) (l : List P) (a : Acc K P) (p : P) (s : K) (hp : p ∈ l)
    (hs : first p = some s) : Done (l.foldl (hitOne first) a) s := by
  induction l generalizing a with
  | nil => simp at hp
  | cons q l ih =>
    rcases List.mem_cons.1 hp with rfl | hp
    · refine done_fold first l _ s ?_
      unfold hitOne
      simp only [hs]
      split_ifs with hle
      · exact Or.inr ⟨rfl, rfl⟩
      · exact Or.inl (by simpa using hle)
    · exact ih _ hp

theorem past {x : F K} {m : F K} {s : K} (h : F.lt m x = true) (h2 : F.lt (.fin s) x = false) : F.le (.fin s) m = false := by
  cases x <;> cases m <;> simp_all [F.lt, F.le]
  order

/-- **C64 (completeness on the axes that are computed correctly)**: let the ray start at `t0`, which is `mint` if it is inside
the grid there and zero if it is not, let it move upwards on at least one axis, and let the first boundary be computed correctly on every axis (`AxisOK`; this covers every ray in direction
`(1, 1, 1)`, and every ray along an axis in unit steps whose other two coordinates are negative).  If no hit lies on an
upper face of the grid and at the same time on another voxel boundary, `GridAccel.intersect` finds the nearest hit in the
ray's range, and `intersect_p` answers whether there is one.  Missing: all other rays, for which the claim is false
(`C64_axis_parallel_miss_false`, `C64_oblique_miss_false`), and the excluded edges (`C64_edge_false`). -/
theorem C64_complete_partial {P : Type*} (b : BBox K) (cr : K) (wb : P → BBox K) (prims : List P)
    (vox : List (Option (List P))) (hv : gridVoxels (gridGeom b cr) wb prims = some vox)
    (first : P → Option K) (r : FRay K) (mint : K) (hmint : r.mint = .fin mint) (hmaxt : r.maxt ≠ .nan)
    (hproper : ∀ a, b.pMin.get a ≤ b.pMax.get a) (t0 : K)
    (hstart : (Mem (FRay.at r mint) b ∧ t0 = mint) ∨ (¬ Mem (FRay.at r mint) b ∧ t0 = 0 ∧ NoGraze (finBox b) r))
    (hmove : ∃ a, 0 < (r.d.get a).val) (hwide : ∀ a, 0 < (r.d.get a).val → b.pMin.get a < b.pMax.get a)
    (hax : ∀ a, AxisOK (gridGeom b cr) r t0 a) (H : Hits (gridGeom b cr) wb r (max mint t0) first prims) (fuel : ℕ)
    (hf : (gridGeom b cr).n 0 + (gridGeom b cr).n 1 + (gridGeom b cr).n 2 ≤ fuel) :
    (∃ acc, gridIntersect (gridGeom b cr) vox first r mint fuel = .ok acc ∧ IsNearest prims first r.maxt acc) ∧
    ∃ res, gridIntersectP (gridGeom b cr) vox first r mint fuel = .ok res ∧
      (res = true ↔ ∃ p ∈ prims, ∃ s, first p = some s ∧ F.le (.fin s) r.maxt = true) := by
  obtain ⟨⟨acc, hacc⟩, ⟨res, hres⟩⟩ := C64_traversal_safe b cr wb prims vox hv first r mint fuel hf
  obtain ⟨hs1, hs2⟩ := C64_sound_partial b cr wb prims vox hv first r mint fuel
  have hgen := hs1 acc hacc
  refine ⟨⟨acc, hacc, ?_⟩, ⟨res, hres, ?_⟩⟩
  all_goals
    set g := gridGeom b cr with hg
    have hn : ∀ a, 1 ≤ g.n a := fun a => (C39_voxel_counts b cr a).1
    have hbd : g.bounds = b := rfl
    have hrt : rayStart g r mint = t0 := by
      unfold rayStart
      rcases hstart with ⟨hm, rfl⟩ | ⟨hm, rfl, -⟩
      · rw [if_pos (by rw [hbd]; exact (C04_inside_iff _ _).2 hm)]
      · rw [if_neg (by rw [hbd]; exact fun h => hm ((C04_inside_iff _ _).1 h))]
    have hiw : ∀ a, 0 ≤ g.invWidth a := fun a => gridGeom_invWidth_nonneg b cr a (hproper a)
    have hgood : ∀ a, 0 < (r.d.get a).val → GoodAxis g a := fun a ha => gridGeom_good b cr a (hwide a ha)
    have hin : InGrid g (pos2voxel g (FRay.at r t0)) := fun a => C39_pos2voxel_in_range g _ a (hn a)
    have hnx := fun a => crossing_ok g r t0 a (hax a)
    have hbase : ∀ p ∈ prims, ∀ s, first p = some s →
        ¬ ∃ a, pos2voxel g (FRay.at r s) a < pos2voxel g (FRay.at r t0) a := by
      rintro p hp s hs ⟨a, ha⟩
      refine absurd (pos2voxel_mono g (FRay.at r t0) (FRay.at r s) a (hiw a) ?_) (not_le.2 ha)
      have hda : 0 ≤ (r.d.get a).val := by
        rcases hax a with ⟨h, -⟩ | ⟨h, -⟩
        · exact h.le
        · exact h.ge
      rw [at_get, at_get]
      have := mul_le_mul_of_nonneg_left ((le_max_right mint t0).trans (H.after p hp s hs)) hda
      linarith
  · have hdone : ∀ p ∈ prims, ∀ s, first p = some s → Done acc s := by
      unfold gridIntersect at hacc
      simp only [hrt] at hacc
      split_ifs at hacc with hrej
      · -- rejected by the bounding box: no point of the range is in it
        intro p hp s hs
        obtain rfl : (⟨r.maxt, none, false⟩ : Acc K P) = acc := Except.ok.inj hacc
        left
        rw [Bool.and_eq_true, Bool.not_eq_true', Option.isNone_iff_eq_none] at hrej
        rcases hstart with ⟨hm, -⟩ | ⟨-, -, hng⟩
        · rw [hbd, (C04_inside_iff _ _).2 hm] at hrej
          exact absurd hrej.1 (by simp)
        · have hex := C02_slab_exact_partial (finBox b) r
            ⟨by simpa [finBox, F.le, V3.get] using hproper 0, by simpa [finBox, F.le, V3.get] using hproper 1, by simpa [finBox, F.le, V3.get] using hproper 2⟩
            (by rw [hmint]; simp) hmaxt hng
          have hnone : intersectP (finBox b) r = none := hrej.2
          simp only [SlabExact, hnone] at hex
          by_contra hle
          refine hex s ⟨?_, by simpa using hle⟩ ?_
          · rw [hmint]
            simpa [F.le] using (le_max_left mint t0).trans (H.after p hp s hs)
          · have hm := H.inside p hp _ (H.on p hp s hs)
            rw [hbd] at hm
            simpa [InBox, finBox, F.le, Mem] using hm
      exact walk_complete g hn wb prims vox hv hiw r hmove hgood first (max mint t0) H (voxelIntersect first) Acc.maxt Done
        (fun st l p s hp hs => done_mem first l st p s hp hs) (fun st l s h => done_fold first l st s h)
        (fun st x s h h2 => Or.inl (past h h2)) fuel _ _ _ _ hin hnx
        (fun p hp s hs h => absurd h (hbase p hp s hs)) hacc
    rcases hgen with rfl | ⟨p, hp, s, hs, hle, rfl⟩
    · refine Or.inl ⟨rfl, fun p hp s hs => ?_⟩
      rcases hdone p hp s hs with h | ⟨h, -⟩
      · exact h
      · simp at h
    · refine Or.inr ⟨p, hp, s, hs, hle, rfl, fun q hq s' hs' => ?_⟩
      rcases hdone q hq s' hs' with h | ⟨-, h⟩
      · have : s < s' := by simpa [F.le] using h
        exact this.le
      · exact (F.fin.inj h).le
  · constructor
    · rintro rfl; exact hs2 hres
    · rintro ⟨p, hp, s, hs, hle⟩
      unfold gridIntersectP at hres
      rw [hrt] at hres
      have := walk_complete g hn wb prims vox hv hiw r hmove hgood first (max mint t0) H
        (fun b l => b || l.any (hitP first r.maxt)) (fun _ => r.maxt)
        (fun (res : Bool) s => F.le (.fin s) r.maxt = true → res = true)
        (fun st l p s hp hs h => by
          simp only [Bool.or_eq_true, List.any_eq_true]
          exact Or.inr ⟨p, hp, by simp [hitP, hs, h]⟩)
        (fun st l s h h' => by simp [h h'])
        (fun st x s h h2 h3 => by rw [past h h2] at h3; simp at h3) fuel _ _ _ _ hin hnx
        (fun p hp s hs h => absurd h (hbase p hp s hs)) hres
      exact this p hp s hs hle

/-- **C64** in particular every ray in direction `(1, 1, 1)` satisfies the conditions on the axes -/
theorem AxisOK_diagonal (g : GridGeom K) (r : FRay K) (t0 : K) (h : ∀ a, (r.d.get a).val = 1) (a : Fin 3) : AxisOK g r t0 a :=
  Or.inl ⟨by rw [h a]; exact one_pos, Or.inl (h a)⟩

end

/-- the hypotheses are met: a diagonal ray through the example grid hits the box in the middle of it -/
example : ∃ acc, gridIntersect gg gvox (fun b => if b = gb0 then some (1/2) else none)
    ⟨⟨0, 0, 1/4⟩, ⟨⟨1, false⟩, ⟨1, false⟩, ⟨1, false⟩⟩, .fin 0, .pinf⟩ 0 12 = .ok acc ∧
    IsNearest [gb0, gb1, gb2] (fun b => if b = gb0 then some (1/2) else none) (.pinf : F ℚ) acc := by
  have hv : gridVoxels gg id [gb0, gb1, gb2] = some gvox := by decide +kernel
  have hk : ∀ p ∈ [gb0, gb1, gb2], ∀ s : ℚ, (if p = gb0 then some (1/2 : ℚ) else none) = some s → p = gb0 ∧ s = 1/2 := by
    intro p _ s hs
    split_ifs at hs with h
    exact ⟨h, (Option.some.inj hs).symm⟩
  refine (C64_complete_partial (⟨⟨0, 0, 0⟩, ⟨4, 4, 4⟩⟩ : BBox ℚ) 4 id [gb0, gb1, gb2] gvox hv _ _ 0 rfl (by simp) ?_ 0 ?_ ?_ ?_ ?_ ?_ 12 ?_).1
  · intro a; fin_cases a <;> norm_num [V3.get]
  · exact Or.inl ⟨by norm_num [Mem, FRay.at], rfl⟩
  · exact ⟨0, by norm_num [V3.get]⟩
  · intro a _; fin_cases a <;> norm_num [V3.get]
  · exact AxisOK_diagonal _ _ _ (fun a => by fin_cases a <;> rfl)
  · refine ⟨?_, ?_, ?_, ?_⟩
    · intro p hp s hs; obtain ⟨-, rfl⟩ := hk p hp s hs; norm_num
    · intro p hp s hs; obtain ⟨rfl, rfl⟩ := hk p hp s hs; norm_num [Mem, FRay.at, gb0]
    · intro p hp q hq
      simp only [List.mem_cons, List.not_mem_nil, or_false] at hp
      have hb : (gridGeom (⟨⟨0, 0, 0⟩, ⟨4, 4, 4⟩⟩ : BBox ℚ) 4).bounds = ⟨⟨0, 0, 0⟩, ⟨4, 4, 4⟩⟩ := rfl
      rw [hb]
      rcases hp with rfl | rfl | rfl <;> simp only [Mem, id, gb0, gb1, gb2] at hq ⊢ <;>
        refine ⟨⟨?_, ?_⟩, ⟨?_, ?_⟩, ?_, ?_⟩ <;> linarith [hq.1.1, hq.1.2, hq.2.1.1, hq.2.1.2, hq.2.2.1, hq.2.2.2]
    · intro p hp s hs a b _ h
      obtain ⟨-, rfl⟩ := hk p hp s hs
      exfalso
      have hb : (gridGeom (⟨⟨0, 0, 0⟩, ⟨4, 4, 4⟩⟩ : BBox ℚ) 4).bounds = ⟨⟨0, 0, 0⟩, ⟨4, 4, 4⟩⟩ := rfl
      rw [hb] at h
      fin_cases a <;> norm_num [FRay.at, V3.get] at h
  · decide +kernel

/-- and by a ray which starts outside the grid, below and to the left of it -/
example : ∃ acc, gridIntersect gg gvox (fun b => if b = gb0 then some (3/2) else none)
    ⟨⟨-1, -1, -3/4⟩, ⟨⟨1, false⟩, ⟨1, false⟩, ⟨1, false⟩⟩, .fin 0, .pinf⟩ 0 12 = .ok acc ∧
    IsNearest [gb0, gb1, gb2] (fun b => if b = gb0 then some (3/2) else none) (.pinf : F ℚ) acc := by
  have hv : gridVoxels gg id [gb0, gb1, gb2] = some gvox := by decide +kernel
  have hk : ∀ p ∈ [gb0, gb1, gb2], ∀ s : ℚ, (if p = gb0 then some (3/2 : ℚ) else none) = some s → p = gb0 ∧ s = 3/2 := by
    intro p _ s hs
    split_ifs at hs with h
    exact ⟨h, (Option.some.inj hs).symm⟩
  refine (C64_complete_partial (⟨⟨0, 0, 0⟩, ⟨4, 4, 4⟩⟩ : BBox ℚ) 4 id [gb0, gb1, gb2] gvox hv _ _ 0 rfl (by simp) ?_ 0 ?_ ?_ ?_ ?_ ?_ 12 ?_).1
  · intro a; fin_cases a <;> norm_num [V3.get]
  · exact Or.inr ⟨by norm_num [Mem, FRay.at], rfl, by simp [NoGraze, GrazesNegZero]⟩
  · exact ⟨0, by norm_num [V3.get]⟩
  · intro a _; fin_cases a <;> norm_num [V3.get]
  · exact AxisOK_diagonal _ _ _ (fun a => by fin_cases a <;> rfl)
  · refine ⟨?_, ?_, ?_, ?_⟩
    · intro p hp s hs; obtain ⟨-, rfl⟩ := hk p hp s hs; norm_num
    · intro p hp s hs; obtain ⟨rfl, rfl⟩ := hk p hp s hs; norm_num [Mem, FRay.at, gb0]
    · intro p hp q hq
      simp only [List.mem_cons, List.not_mem_nil, or_false] at hp
      have hb : (gridGeom (⟨⟨0, 0, 0⟩, ⟨4, 4, 4⟩⟩ : BBox ℚ) 4).bounds = ⟨⟨0, 0, 0⟩, ⟨4, 4, 4⟩⟩ := rfl
      rw [hb]
      rcases hp with rfl | rfl | rfl <;> simp only [Mem, id, gb0, gb1, gb2] at hq ⊢ <;>
        refine ⟨⟨?_, ?_⟩, ⟨?_, ?_⟩, ?_, ?_⟩ <;> linarith [hq.1.1, hq.1.2, hq.2.1.1, hq.2.1.2, hq.2.2.1, hq.2.2.2]
    · intro p hp s hs a b _ h
      obtain ⟨-, rfl⟩ := hk p hp s hs
      exfalso
      have hb : (gridGeom (⟨⟨0, 0, 0⟩, ⟨4, 4, 4⟩⟩ : BBox ℚ) 4).bounds = ⟨⟨0, 0, 0⟩, ⟨4, 4, 4⟩⟩ := rfl
      rw [hb] at h
      fin_cases a <;> norm_num [FRay.at, V3.get] at h
  · decide +kernel

/-- a box in the upper half of the grid's face `x = 4` -/
def gb3 : BBox ℚ := ⟨⟨2, 2, 2⟩, ⟨4, 4, 4⟩⟩

/-- **C64 is violated** also where a diagonal ray leaves the grid exactly where it enters a new voxel on another axis: the
hit on the edge of the last box, which brute force reports, is missed. -/
theorem C64_edge_false :
    let r : FRay ℚ := ⟨⟨3, 1, 5/2⟩, ⟨⟨1, false⟩, ⟨1, false⟩, ⟨1, false⟩⟩, .fin 0, .pinf⟩
    let first : BBox ℚ → Option ℚ := fun b => if b = gb3 then some 1 else none
    Mem (FRay.at r 1) gb3 ∧ (simpleIntersect id first [gb0, gb3] r).1 = true ∧
    hitFlag (gridIntersect gg ((gridVoxels gg id [gb0, gb3]).getD []) first r 0 20) = some false := by
  refine ⟨by norm_num [Mem, FRay.at, gb3], by decide +kernel, by decide +kernel⟩

end Verif.Agg
