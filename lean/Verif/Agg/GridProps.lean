import Verif.Agg.GridModel
import Mathlib.Tactic.Linarith
import Mathlib.Tactic.Positivity
import Mathlib.Tactic.FieldSimp
import Mathlib.Tactic.Ring
import Mathlib.Data.List.Nodup

/-! # Uniform grid: property C39 (addressing and construction) -/

namespace Verif.Agg
open Verif BBox BVH
set_option linter.unusedSectionVars false

section
variable {K : Type*} [Field K] [LinearOrder K] [IsStrictOrderedRing K] [FloorRing K]

theorem clipZ_range (v lo hi : ℤ) (h : lo ≤ hi) : lo ≤ clipZ v lo hi ∧ clipZ v lo hi ≤ hi := by
  unfold clipZ; omega

theorem trunc_mono {x y : K} (h : x ≤ y) : trunc x ≤ trunc y := by
  unfold trunc
  split_ifs with h1 h2 h2
  · exact Int.floor_mono h
  · exact absurd (h1.trans h) h2
  · exact (Int.ceil_le.2 (by simpa using (not_le.1 h1).le)).trans (Int.floor_nonneg.2 h2)
  · exact Int.ceil_mono h

/-- **C39** the voxel count per axis is between 1 and 64 for every bound and number of primitives. -/
theorem C39_voxel_counts (b : BBox K) (cubeRoot : K) (a : Fin 3) :
    1 ≤ (gridGeom b cubeRoot).n a ∧ (gridGeom b cubeRoot).n a ≤ 64 :=
  clipZ_range _ _ _ (by norm_num)

/-- **C39** every point, also one outside the bounds, is mapped to a voxel of the grid. -/
theorem C39_pos2voxel_in_range (g : GridGeom K) (p : V3 K) (a : Fin 3) (hn : 1 ≤ g.n a) :
    0 ≤ pos2voxel g p a ∧ pos2voxel g p a < g.n a := by
  have := clipZ_range (trunc ((p.get a - g.bounds.pMin.get a) * g.invWidth a)) 0 (g.n a - 1) (by omega)
  unfold pos2voxel; omega

theorem pos2voxel_mono (g : GridGeom K) (p q : V3 K) (a : Fin 3) (hw : 0 ≤ g.invWidth a)
    (h : p.get a ≤ q.get a) : pos2voxel g p a ≤ pos2voxel g q a := by
  have : trunc ((p.get a - g.bounds.pMin.get a) * g.invWidth a) ≤
      trunc ((q.get a - g.bounds.pMin.get a) * g.invWidth a) :=
    trunc_mono (mul_le_mul_of_nonneg_right (by linarith) hw)
  unfold pos2voxel clipZ; omega

/-- a cell of the grid -/
def IsCell (g : GridGeom K) (x y z : ℤ) : Prop :=
  (0 ≤ x ∧ x < g.n 0) ∧ (0 ≤ y ∧ y < g.n 1) ∧ (0 ≤ z ∧ z < g.n 2)

/-- **C39** `offset` maps the cells one-to-one onto `0 … nx·ny·nz - 1`. -/
theorem C39_offset_bijection (g : GridGeom K) (hn : ∀ a, 1 ≤ g.n a) :
    (∀ x y z, IsCell g x y z → 0 ≤ offset g x y z ∧ offset g x y z < g.n 0 * g.n 1 * g.n 2) ∧
    (∀ x y z x' y' z', IsCell g x y z → IsCell g x' y' z' → offset g x y z = offset g x' y' z' →
      x = x' ∧ y = y' ∧ z = z') ∧
    (∀ o, 0 ≤ o → o < g.n 0 * g.n 1 * g.n 2 → ∃ x y z, IsCell g x y z ∧ offset g x y z = o) := by
  have h0 := hn 0; have h1 := hn 1; have h2 := hn 2
  have e : ∀ x y z, offset g x y z = x + g.n 0 * (y + g.n 1 * z) := by intro x y z; unfold offset; ring
  have ediv : ∀ x y z, IsCell g x y z → offset g x y z % g.n 0 = x ∧ offset g x y z / g.n 0 = y + g.n 1 * z := by
    rintro x y z ⟨⟨a1, a2⟩, -, -⟩
    rw [e]
    constructor
    · rw [Int.add_mul_emod_self_left, Int.emod_eq_of_lt a1 a2]
    · rw [Int.add_mul_ediv_left _ _ (by omega), Int.ediv_eq_zero_of_lt a1 a2, zero_add]
  have ediv2 : ∀ x y z, IsCell g x y z → (y + g.n 1 * z) % g.n 1 = y ∧ (y + g.n 1 * z) / g.n 1 = z := by
    rintro x y z ⟨-, ⟨a1, a2⟩, -⟩
    constructor
    · rw [Int.add_mul_emod_self_left, Int.emod_eq_of_lt a1 a2]
    · rw [Int.add_mul_ediv_left _ _ (by omega), Int.ediv_eq_zero_of_lt a1 a2, zero_add]
  refine ⟨?_, ?_, ?_⟩
  · rintro x y z ⟨⟨a1, a2⟩, ⟨b1, b2⟩, c1, c2⟩
    rw [e]
    have hy : 0 ≤ y + g.n 1 * z := by positivity
    have hy' : y + g.n 1 * z ≤ g.n 1 * g.n 2 - 1 := by nlinarith
    constructor
    · positivity
    · nlinarith
  · intro x y z x' y' z' hc hc' h
    obtain ⟨p1, p2⟩ := ediv x y z hc
    obtain ⟨q1, q2⟩ := ediv x' y' z' hc'
    obtain ⟨p3, p4⟩ := ediv2 x y z hc
    obtain ⟨q3, q4⟩ := ediv2 x' y' z' hc'
    rw [h] at p1 p2
    have hh : y + g.n 1 * z = y' + g.n 1 * z' := by rw [← p2, ← q2]
    rw [hh] at p3 p4
    exact ⟨by omega, by omega, by omega⟩
  · intro o ho1 ho2
    refine ⟨o % g.n 0, (o / g.n 0) % g.n 1, (o / g.n 0) / g.n 1, ⟨⟨?_, ?_⟩, ⟨?_, ?_⟩, ?_, ?_⟩, ?_⟩
    · exact Int.emod_nonneg _ (by omega)
    · exact Int.emod_lt_of_pos _ (by omega)
    · exact Int.emod_nonneg _ (by omega)
    · exact Int.emod_lt_of_pos _ (by omega)
    · exact Int.ediv_nonneg (Int.ediv_nonneg ho1 (by omega)) (by omega)
    · rw [Int.ediv_lt_iff_lt_mul (by omega), Int.ediv_lt_iff_lt_mul (by omega)]; nlinarith
    · rw [e, Int.emod_add_mul_ediv, Int.emod_add_mul_ediv]

/-- the axis has cells of positive width whose reciprocal is `invWidth` and which fill the bounds -/
def GoodAxis (g : GridGeom K) (a : Fin 3) : Prop :=
  1 ≤ g.n a ∧ 0 < g.width a ∧ g.invWidth a * g.width a = 1 ∧
  g.bounds.pMin.get a + (g.n a : K) * g.width a = g.bounds.pMax.get a

/-- the constructor makes every axis with a positive extent good -/
theorem gridGeom_good (b : BBox K) (cubeRoot : K) (a : Fin 3) (h : b.pMin.get a < b.pMax.get a) :
    GoodAxis (gridGeom b cubeRoot) a := by
  have hn := (C39_voxel_counts b cubeRoot a).1
  have hn' : (0 : K) < ((gridGeom b cubeRoot).n a : K) := by exact_mod_cast (by omega : 0 < (gridGeom b cubeRoot).n a)
  have hw : (gridGeom b cubeRoot).width a = (b.pMax.get a - b.pMin.get a) / ((gridGeom b cubeRoot).n a : K) := rfl
  have hpos : 0 < (gridGeom b cubeRoot).width a := by rw [hw]; exact div_pos (by linarith) hn'
  have hi : (gridGeom b cubeRoot).invWidth a =
      if (gridGeom b cubeRoot).width a = 0 then 0 else 1 / (gridGeom b cubeRoot).width a := rfl
  refine ⟨hn, hpos, ?_, ?_⟩
  · rw [hi, if_neg hpos.ne', one_div, inv_mul_cancel₀ hpos.ne']
  · rw [hw, mul_div_cancel₀ _ hn'.ne']
    change b.pMin.get a + (b.pMax.get a - b.pMin.get a) = b.pMax.get a
    ring

/-- **C39** a point inside the bounds lies in the slab of the voxel it is mapped to. -/
theorem C39_cell_contains_point (g : GridGeom K) (p : V3 K) (a : Fin 3) (hg : GoodAxis g a)
    (h1 : g.bounds.pMin.get a ≤ p.get a) (h2 : p.get a ≤ g.bounds.pMax.get a) :
    voxel2pos g (pos2voxel g p a) a ≤ p.get a ∧ p.get a ≤ voxel2pos g (pos2voxel g p a + 1) a := by
  obtain ⟨hn, hw, hi, hf⟩ := hg
  have hiw : 0 < g.invWidth a := by
    by_contra hc; nlinarith [not_lt.1 hc]
  set t := (p.get a - g.bounds.pMin.get a) * g.invWidth a with ht
  have ht0 : 0 ≤ t := mul_nonneg (by linarith) hiw.le
  have htw : t * g.width a = p.get a - g.bounds.pMin.get a := by rw [ht, mul_assoc, hi, mul_one]
  have htn : t ≤ (g.n a : K) := by
    have : t * g.width a ≤ (g.n a : K) * g.width a := by rw [htw]; linarith
    exact le_of_mul_le_mul_right this hw
  have htr : trunc t = ⌊t⌋ := by simp [trunc, ht0]
  have hfl := Int.floor_le t
  have hfl' := Int.lt_floor_add_one t
  have hfl0 : 0 ≤ ⌊t⌋ := Int.floor_nonneg.2 ht0
  have hv : pos2voxel g p a = min ⌊t⌋ (g.n a - 1) := by
    unfold pos2voxel clipZ; rw [← ht, htr]; omega
  have hle : ((pos2voxel g p a : ℤ) : K) ≤ t := by
    rw [hv]; exact (Int.cast_le.2 (min_le_left _ _)).trans hfl
  have hge : t ≤ ((pos2voxel g p a + 1 : ℤ) : K) := by
    rw [hv]
    rcases le_total ⌊t⌋ (g.n a - 1) with h | h
    · rw [min_eq_left h]; push_cast; exact hfl'.le
    · rw [min_eq_right h]; push_cast; linarith
  unfold voxel2pos
  have := mul_le_mul_of_nonneg_right hle hw.le
  have := mul_le_mul_of_nonneg_right hge hw.le
  constructor <;> linarith

/-- **C39** conversely, a point strictly inside the slab of a voxel is mapped to that voxel. -/
theorem C39_point_of_cell (g : GridGeom K) (p : V3 K) (a : Fin 3) (hg : GoodAxis g a) (i : ℤ)
    (hi0 : 0 ≤ i) (hi1 : i < g.n a) (h1 : voxel2pos g i a ≤ p.get a) (h2 : p.get a < voxel2pos g (i + 1) a) :
    pos2voxel g p a = i := by
  obtain ⟨hn, hw, hi, hf⟩ := hg
  have hiw : 0 < g.invWidth a := by
    by_contra hc; nlinarith [not_lt.1 hc]
  unfold voxel2pos at h1 h2
  set t := (p.get a - g.bounds.pMin.get a) * g.invWidth a with ht
  have htw : t * g.width a = p.get a - g.bounds.pMin.get a := by rw [ht, mul_assoc, hi, mul_one]
  have hlo : (i : K) ≤ t := le_of_mul_le_mul_right (by rw [htw]; linarith) hw
  have hhi : t < ((i + 1 : ℤ) : K) := lt_of_mul_lt_mul_right (by rw [htw]; linarith) hw.le
  have hi0' : (0 : K) ≤ (i : K) := by exact_mod_cast hi0
  have ht0 : 0 ≤ t := hi0'.trans hlo
  have hfl : ⌊t⌋ = i := by
    rw [Int.floor_eq_iff]; exact ⟨hlo, by push_cast at hhi; exact hhi⟩
  unfold pos2voxel clipZ
  rw [← ht]
  have : trunc t = i := by simp [trunc, ht0, hfl]
  rw [this]; omega

/-! ### Construction -/

theorem mem_pyRange (lo hi x : ℤ) : x ∈ pyRange lo hi ↔ lo ≤ x ∧ x < hi := by
  unfold pyRange
  simp only [List.mem_map, List.mem_range]
  constructor
  · rintro ⟨i, hi', rfl⟩; omega
  · rintro ⟨h1, h2⟩; exact ⟨(x - lo).toNat, by omega, by omega⟩

theorem nodup_pyRange (lo hi : ℤ) : (pyRange lo hi).Nodup :=
  List.Nodup.map (fun a b h => by simpa using h) List.nodup_range

/-- the primitive's bounds reach the cell, in voxel coordinates -/
def Reaches (g : GridGeom K) (pb : BBox K) (x y z : ℤ) : Prop :=
  (pos2voxel g pb.pMin 0 ≤ x ∧ x ≤ pos2voxel g pb.pMax 0) ∧ (pos2voxel g pb.pMin 1 ≤ y ∧ y ≤ pos2voxel g pb.pMax 1) ∧
  (pos2voxel g pb.pMin 2 ≤ z ∧ z ≤ pos2voxel g pb.pMax 2)

instance (g : GridGeom K) (pb : BBox K) (x y z : ℤ) : Decidable (Reaches g pb x y z) := by
  unfold Reaches; infer_instance

theorem mem_cellsOf (g : GridGeom K) (pb : BBox K) (o : ℤ) :
    o ∈ cellsOf g pb ↔ ∃ x y z, Reaches g pb x y z ∧ offset g x y z = o := by
  unfold cellsOf
  simp only [List.mem_flatMap, List.mem_map, mem_pyRange, Reaches]
  constructor
  · rintro ⟨z, hz, y, hy, x, hx, rfl⟩
    exact ⟨x, y, z, ⟨⟨hx.1, by omega⟩, ⟨hy.1, by omega⟩, hz.1, by omega⟩, rfl⟩
  · rintro ⟨x, y, z, ⟨hx, hy, hz⟩, rfl⟩
    exact ⟨z, ⟨hz.1, by omega⟩, y, ⟨hy.1, by omega⟩, x, ⟨hx.1, by omega⟩, rfl⟩

theorem reaches_cell (g : GridGeom K) (hn : ∀ a, 1 ≤ g.n a) (pb : BBox K) (x y z : ℤ) (h : Reaches g pb x y z) :
    IsCell g x y z := by
  obtain ⟨⟨a1, a2⟩, ⟨b1, b2⟩, c1, c2⟩ := h
  have p0 := C39_pos2voxel_in_range g pb.pMin 0 (hn 0)
  have p1 := C39_pos2voxel_in_range g pb.pMin 1 (hn 1)
  have p2 := C39_pos2voxel_in_range g pb.pMin 2 (hn 2)
  have q0 := C39_pos2voxel_in_range g pb.pMax 0 (hn 0)
  have q1 := C39_pos2voxel_in_range g pb.pMax 1 (hn 1)
  have q2 := C39_pos2voxel_in_range g pb.pMax 2 (hn 2)
  exact ⟨⟨by omega, by omega⟩, ⟨by omega, by omega⟩, by omega, by omega⟩

theorem nodup_cellsOf (g : GridGeom K) (hn : ∀ a, 1 ≤ g.n a) (pb : BBox K) : (cellsOf g pb).Nodup := by
  obtain ⟨-, hinj, -⟩ := C39_offset_bijection g hn
  have hR : ∀ x y z, x ∈ pyRange (pos2voxel g pb.pMin 0) (pos2voxel g pb.pMax 0 + 1) →
      y ∈ pyRange (pos2voxel g pb.pMin 1) (pos2voxel g pb.pMax 1 + 1) →
      z ∈ pyRange (pos2voxel g pb.pMin 2) (pos2voxel g pb.pMax 2 + 1) → IsCell g x y z := by
    intro x y z hx hy hz
    rw [mem_pyRange] at hx hy hz
    exact reaches_cell g hn pb x y z ⟨⟨hx.1, by omega⟩, ⟨hy.1, by omega⟩, hz.1, by omega⟩
  unfold cellsOf
  rw [List.nodup_flatMap]
  refine ⟨?_, ?_⟩
  · intro z hz
    rw [List.nodup_flatMap]
    refine ⟨?_, ?_⟩
    · intro y hy
      exact List.Nodup.map_on (fun x hx x' hx' h => (hinj _ _ _ _ _ _ (hR x y z hx hy hz) (hR x' y z hx' hy hz) h).1)
        (nodup_pyRange _ _)
    · refine List.Pairwise.imp_of_mem ?_ (nodup_pyRange (pos2voxel g pb.pMin 1) (pos2voxel g pb.pMax 1 + 1))
      intro y y' hy hy' hne o ho ho'
      simp only [List.mem_map] at ho ho'
      obtain ⟨x, hx, rfl⟩ := ho
      obtain ⟨x', hx', h⟩ := ho'
      exact hne (hinj _ _ _ _ _ _ (hR x' y' z hx' hy' hz) (hR x y z hx hy hz) h).2.1.symm
  · refine List.Pairwise.imp_of_mem ?_ (nodup_pyRange (pos2voxel g pb.pMin 2) (pos2voxel g pb.pMax 2 + 1))
    intro z z' hz hz' hne o ho ho'
    simp only [List.mem_flatMap, List.mem_map] at ho ho'
    obtain ⟨y, hy, x, hx, rfl⟩ := ho
    obtain ⟨y', hy', x', hx', h⟩ := ho'
    exact hne (hinj _ _ _ _ _ _ (hR x' y' z' hx' hy' hz') (hR x y z hx hy hz) h).2.2.symm

/-- what a voxel holds: `None` for nothing -/
def voxelOf {P : Type*} (l : List P) : Option (List P) := if l = [] then none else some l

/-- the array `vox` holds, at each index `o < N`, the list `f o` -/
def HoldsVox {P : Type*} (vox : List (Option (List P))) (N : ℕ) (f : ℕ → List P) : Prop :=
  vox.length = N ∧ ∀ o < N, vox[o]? = some (voxelOf (f o))

theorem addAt_spec {P : Type*} (vox : List (Option (List P))) (N : ℕ) (f : ℕ → List P) (h : HoldsVox vox N f)
    (o : ℤ) (ho : 0 ≤ o) (ho' : o < N) (p : P) :
    ∃ vox', addAt vox o p = some vox' ∧
      HoldsVox vox' N (fun i => if (i : ℤ) = o then f i ++ [p] else f i) := by
  obtain ⟨hl, hv⟩ := h
  have hon : o.toNat < N := by omega
  have hget := hv o.toNat hon
  have key : addAt vox o p = some (vox.set o.toNat (voxelOf (f o.toNat ++ [p]))) := by
    unfold addAt
    simp only [ho, if_true, hget, voxelOf]
    by_cases hf : f o.toNat = []
    · simp [hf]
    · simp [hf]
  refine ⟨_, key, by simp [hl], ?_⟩
  intro i hi
  rw [List.getElem?_set]
  by_cases hio : o.toNat = i
  · have : (i : ℤ) = o := by omega
    subst hio
    simp [hl, hi, this]
  · have : ¬ (i : ℤ) = o := by omega
    simp only [hio, this, if_false]
    exact hv i hi

theorem addAll_spec {P : Type*} (os : List ℤ) (N : ℕ) (hos : ∀ o ∈ os, 0 ≤ o ∧ o < N) (hnd : os.Nodup) (p : P)
    (vox : List (Option (List P))) (f : ℕ → List P) (h : HoldsVox vox N f) :
    ∃ vox', os.foldlM (fun vox o => addAt vox o p) vox = some vox' ∧
      HoldsVox vox' N (fun i => if (i : ℤ) ∈ os then f i ++ [p] else f i) := by
  induction os generalizing vox f with
  | nil => exact ⟨vox, rfl, by simpa using h⟩
  | cons o os ih =>
    obtain ⟨v1, e1, h1⟩ := addAt_spec vox N f h o (hos o (by simp)).1 (hos o (by simp)).2 p
    obtain ⟨v2, e2, h2⟩ := ih (fun o' ho' => hos o' (by simp [ho'])) (List.nodup_cons.1 hnd).2 v1 _ h1
    refine ⟨v2, ?_, ?_⟩
    · rw [List.foldlM_cons, e1]; exact e2
    · refine ⟨h2.1, fun i hi => ?_⟩
      rw [h2.2 i hi]
      congr 2
      have hno := (List.nodup_cons.1 hnd).1
      by_cases hio : (i : ℤ) = o
      · have : ¬ (i : ℤ) ∈ os := by rw [hio]; exact hno
        simp [hio, this, hno]
      · by_cases him : (i : ℤ) ∈ os
        · simp [hio, him]
        · simp [hio, him]

/-- **C39** construction: the voxel array is filled without any index error, and the voxel of cell
`(x, y, z)` holds exactly the primitives whose bounds reach that cell, in list order (`None` if there
is none). -/
theorem C39_construction {P : Type*} (g : GridGeom K) (hn : ∀ a, 1 ≤ g.n a) (wb : P → BBox K) (prims : List P) :
    ∃ vox, gridVoxels g wb prims = some vox ∧ (vox.length : ℤ) = g.n 0 * g.n 1 * g.n 2 ∧
      ∀ x y z, IsCell g x y z →
        vox[(offset g x y z).toNat]? = some (voxelOf (prims.filter (fun p => decide (Reaches g (wb p) x y z)))) := by
  obtain ⟨hrange, hinj, -⟩ := C39_offset_bijection g hn
  have hNpos : 0 ≤ g.n 0 * g.n 1 * g.n 2 := by
    have := hn 0; have := hn 1; have := hn 2; positivity
  set N := (g.n 0 * g.n 1 * g.n 2).toNat with hN
  have hNe : (N : ℤ) = g.n 0 * g.n 1 * g.n 2 := by omega
  have hcells : ∀ p, ∀ o ∈ cellsOf g (wb p), 0 ≤ o ∧ o < (N : ℤ) := by
    intro p o ho
    obtain ⟨x, y, z, hr, rfl⟩ := (mem_cellsOf g (wb p) o).1 ho
    have := hrange x y z (reaches_cell g hn _ x y z hr)
    omega
  have gen : ∀ (ps : List P) (vox : List (Option (List P))) (f : ℕ → List P), HoldsVox vox N f →
      ∃ vox', ps.foldlM (fun vox p => (cellsOf g (wb p)).foldlM (fun vox o => addAt vox o p) vox) vox = some vox' ∧
        HoldsVox vox' N (fun i => f i ++ ps.filter (fun p => decide ((i : ℤ) ∈ cellsOf g (wb p)))) := by
    intro ps
    induction ps with
    | nil => intro vox f h; exact ⟨vox, rfl, by simpa using h⟩
    | cons p ps ih =>
      intro vox f h
      obtain ⟨v1, e1, h1⟩ := addAll_spec (cellsOf g (wb p)) N (hcells p) (nodup_cellsOf g hn _) p vox f h
      obtain ⟨v2, e2, h2⟩ := ih v1 _ h1
      refine ⟨v2, ?_, ?_⟩
      · rw [List.foldlM_cons, e1]; exact e2
      · refine ⟨h2.1, fun i hi => ?_⟩
        rw [h2.2 i hi]
        by_cases him : (i : ℤ) ∈ cellsOf g (wb p) <;> simp [him]
  obtain ⟨vox, hv, hl, hh⟩ := gen prims (List.replicate N none) (fun _ => [])
    ⟨by simp, by intro o ho; simp [ho, voxelOf]⟩
  refine ⟨vox, hv, by omega, ?_⟩
  intro x y z hc
  have hr := hrange x y z hc
  have hlt : (offset g x y z).toNat < N := by omega
  rw [hh _ hlt]
  congr 2
  simp only [List.nil_append]
  apply List.filter_congr
  intro p _
  have e : (((offset g x y z).toNat : ℕ) : ℤ) = offset g x y z := by omega
  rw [e, decide_eq_decide, mem_cellsOf]
  constructor
  · rintro ⟨x', y', z', hr', he⟩
    obtain ⟨rfl, rfl, rfl⟩ := hinj _ _ _ _ _ _ (reaches_cell g hn _ _ _ _ hr') hc he
    exact hr'
  · intro h; exact ⟨x, y, z, h, rfl⟩

theorem gridGeom_invWidth_nonneg (b : BBox K) (cr : K) (a : Fin 3) (h : b.pMin.get a ≤ b.pMax.get a) :
    0 ≤ (gridGeom b cr).invWidth a := by
  have hi : (gridGeom b cr).invWidth a =
      if (gridGeom b cr).width a = 0 then 0 else 1 / (gridGeom b cr).width a := rfl
  have hw : (gridGeom b cr).width a = (b.pMax.get a - b.pMin.get a) / ((gridGeom b cr).n a : K) := rfl
  have hn : (0 : K) < ((gridGeom b cr).n a : K) := by
    have := (C39_voxel_counts b cr a).1
    exact_mod_cast (by omega : 0 < (gridGeom b cr).n a)
  rw [hi]
  split_ifs
  · exact le_rfl
  · rw [hw]; exact one_div_nonneg.2 (div_nonneg (by linarith) hn.le)

/-- **C39** no primitive is lost: whatever point `q` of a primitive's bounds is looked up, the
primitive is stored in the voxel of `q`. -/
theorem C39_every_overlapped_voxel {P : Type*} (b : BBox K) (cr : K)
    (hb : b.pMin.x ≤ b.pMax.x ∧ b.pMin.y ≤ b.pMax.y ∧ b.pMin.z ≤ b.pMax.z)
    (wb : P → BBox K) (prims : List P) (p : P) (hp : p ∈ prims) (q : V3 K) (hq : Mem q (wb p)) :
    ∃ vox l, gridVoxels (gridGeom b cr) wb prims = some vox ∧
      vox[(offset (gridGeom b cr) (pos2voxel (gridGeom b cr) q 0) (pos2voxel (gridGeom b cr) q 1)
        (pos2voxel (gridGeom b cr) q 2)).toNat]? = some (some l) ∧ p ∈ l := by
  set g := gridGeom b cr with hg
  have hn : ∀ a, 1 ≤ g.n a := fun a => (C39_voxel_counts b cr a).1
  obtain ⟨vox, e, -, hv⟩ := C39_construction g hn wb prims
  have hi0 := gridGeom_invWidth_nonneg b cr 0 hb.1
  have hi1 := gridGeom_invWidth_nonneg b cr 1 hb.2.1
  have hi2 := gridGeom_invWidth_nonneg b cr 2 hb.2.2
  obtain ⟨⟨a1, a2⟩, ⟨b1, b2⟩, c1, c2⟩ := hq
  have hr : Reaches g (wb p) (pos2voxel g q 0) (pos2voxel g q 1) (pos2voxel g q 2) :=
    ⟨⟨pos2voxel_mono g _ _ 0 hi0 a1, pos2voxel_mono g _ _ 0 hi0 a2⟩,
     ⟨pos2voxel_mono g _ _ 1 hi1 b1, pos2voxel_mono g _ _ 1 hi1 b2⟩,
     pos2voxel_mono g _ _ 2 hi2 c1, pos2voxel_mono g _ _ 2 hi2 c2⟩
  have hc := reaches_cell g hn _ _ _ _ hr
  have hmem : p ∈ prims.filter (fun p => decide (Reaches g (wb p) (pos2voxel g q 0) (pos2voxel g q 1) (pos2voxel g q 2))) := by
    simp [hp, hr]
  refine ⟨vox, _, e, ?_, hmem⟩
  rw [hv _ _ _ hc, voxelOf, if_neg (List.ne_nil_of_mem hmem)]

end

/-- non-vacuity: two boxes in the cube [0,4]³, four cells per axis -/
example : GoodAxis (gridGeom (⟨⟨0, 0, 0⟩, ⟨4, 4, 4⟩⟩ : BBox ℚ) 4) 1 :=
  gridGeom_good _ _ _ (by norm_num [V3.get])
example : (gridGeom (⟨⟨0, 0, 0⟩, ⟨4, 2, 4⟩⟩ : BBox ℚ) 4).n 1 = 2 := by decide +kernel
example : pos2voxel (gridGeom (⟨⟨0, 0, 0⟩, ⟨4, 4, 4⟩⟩ : BBox ℚ) 4) ⟨7/2, -3, 4⟩ 0 = 3 ∧
    pos2voxel (gridGeom (⟨⟨0, 0, 0⟩, ⟨4, 4, 4⟩⟩ : BBox ℚ) 4) ⟨7/2, -3, 4⟩ 1 = 0 ∧
    pos2voxel (gridGeom (⟨⟨0, 0, 0⟩, ⟨4, 4, 4⟩⟩ : BBox ℚ) 4) ⟨7/2, -3, 4⟩ 2 = 3 := by decide +kernel

end Verif.Agg
