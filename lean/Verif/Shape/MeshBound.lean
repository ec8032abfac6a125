import Verif.Shape.Mesh
import Verif.Shape.LoopOut

/-!
# Bounds of a triangle mesh (C139)

Models `TriangleMesh.object_bound` and `world_bound` (`pytracer/shape/triangle.py:442-452`).
-/
namespace Verif.Shape
open Verif V3

/-- a point with finite coordinates among points with infinite ones -/
def ext (p : V3 ℝ) : V3 EReal := ⟨(p.x : EReal), (p.y : EReal), (p.z : EReal)⟩

/-- the loop of `TriangleMesh.object_bound` / `world_bound` (`triangle.py:443-446`, `449-452`) from vertex number `i` on, `k` vertices left; `f` is `self.w2o` or the
identity.  `none`: `IndexError`.  (`union` works in place and returns its receiver, C01; a point never makes it raise.) -/
noncomputable def boundLoop (f : V3 ℝ → V3 ℝ) (p : List (V3 ℝ)) (b : BBox EReal) (i : ℕ) : ℕ → Option (BBox EReal)
  | 0 => some b
  | k + 1 => (p[i]?).bind fun q => (BBox.union b (.pt (ext (f q)))).bind fun b' => boundLoop f p b' (i + 1) k

/-- `TriangleMesh.world_bound` (`triangle.py:448-452`) -/
noncomputable def meshWorldBound (m : Mesh ℝ) : Option (BBox EReal) := boundLoop id m.p BBox.empty 0 m.nverts

/-- `TriangleMesh.object_bound` (`triangle.py:442-446`) -/
noncomputable def meshObjectBound (m : Mesh ℝ) : Option (BBox EReal) := boundLoop m.w2o m.p BBox.empty 0 m.nverts

theorem boundLoop_eq (f : V3 ℝ → V3 ℝ) (p : List (V3 ℝ)) (k : ℕ) : ∀ (b : BBox EReal) (i : ℕ), i + k ≤ p.length →
    boundLoop f p b i k = BBox.unionAll b (((p.drop i).take k).map fun q => .pt (ext (f q))) := by
  induction k with
  | zero => intro b i _; simp [boundLoop, BBox.unionAll]
  | succ k ih =>
    intro b i h
    have hi : i < p.length := by omega
    rw [List.drop_eq_getElem_cons hi]
    simp only [boundLoop, List.getElem?_eq_getElem hi, Option.bind_some, List.take_succ_cons, List.map_cons, BBox.unionAll]
    congr 1
    funext b'
    exact ih b' (i + 1) (by omega)

/-- all vertices, after the map, as a history of unions -/
theorem bound_all (f : V3 ℝ → V3 ℝ) (m : Mesh ℝ) (h : m.nverts = m.p.length) :
    boundLoop f m.p BBox.empty 0 m.nverts = BBox.unionAll BBox.empty (m.p.map fun q => .pt (ext (f q))) := by
  rw [boundLoop_eq f m.p m.nverts BBox.empty 0 (by omega), h]
  simp

theorem bound_spec (f : V3 ℝ → V3 ℝ) (m : Mesh ℝ) (h : m.nverts = m.p.length) : ∃ b, boundLoop f m.p BBox.empty 0 m.nverts = some b ∧
    (∀ q ∈ m.p, BBox.Mem (ext (f q)) b) ∧ ∀ c : BBox EReal, (∀ q ∈ m.p, BBox.Mem (ext (f q)) c) → BBox.Sub b c := by
  have hs : (boundLoop f m.p BBox.empty 0 m.nverts).isSome = true := by
    rw [bound_all f m h, BBox.C01_union_succeeds_iff]
    simp
  obtain ⟨b, hb⟩ := Option.isSome_iff_exists.1 hs
  rw [bound_all f m h] at hb ⊢
  obtain ⟨h1, h2⟩ := BBox.C01_union_is_least _ _ hb
  refine ⟨b, hb, fun q hq => h1 _ (List.mem_map.2 ⟨q, hq, rfl⟩), fun c hc => h2 c ?_⟩
  intro a ha
  obtain ⟨q, hq, rfl⟩ := List.mem_map.1 ha
  exact hc q hq

/-- **C139** the world bound of a mesh (as the constructor makes it: `nverts` points) always exists and is the smallest box that holds all vertices; the object bound is the
smallest box that holds all vertices mapped back to object space -/
theorem C139_bounds (m : Mesh ℝ) (h : m.nverts = m.p.length) :
    (∃ b, meshWorldBound m = some b ∧ (∀ q ∈ m.p, BBox.Mem (ext q) b) ∧ ∀ c : BBox EReal, (∀ q ∈ m.p, BBox.Mem (ext q) c) → BBox.Sub b c) ∧
    (∃ b, meshObjectBound m = some b ∧ (∀ q ∈ m.p, BBox.Mem (ext (m.w2o q)) b) ∧ ∀ c : BBox EReal, (∀ q ∈ m.p, BBox.Mem (ext (m.w2o q)) c) → BBox.Sub b c) :=
  ⟨bound_spec id m h, bound_spec m.w2o m h⟩

theorem pyGet_mem {α : Type*} {l : List α} {i : ℤ} {a : α} (h : pyGet l i = some a) : a ∈ l := by
  unfold pyGet at h
  split_ifs at h
  · exact List.mem_of_getElem? h
  · exact List.mem_of_getElem? h

theorem vertex_mem {m : Mesh ℝ} {v k : ℕ} {q : V3 ℝ} (h : m.vertex v k = some q) : q ∈ m.p := by
  obtain ⟨i, -, hi⟩ := Option.bind_eq_some_iff.1 h
  exact pyGet_mem hi

theorem mid_between {a b c b1 b2 : ℝ} {l u : EReal} (h1 : 0 ≤ b1) (h2 : 0 ≤ b2) (hs : b1 + b2 ≤ 1)
    (ha : l ≤ (a : EReal) ∧ (a : EReal) ≤ u) (hb : l ≤ (b : EReal) ∧ (b : EReal) ≤ u) (hc : l ≤ (c : EReal) ∧ (c : EReal) ≤ u) :
    l ≤ (((1 - b1 - b2) * a + b1 * b + b2 * c : ℝ) : EReal) ∧ (((1 - b1 - b2) * a + b1 * b + b2 * c : ℝ) : EReal) ≤ u := by
  obtain ⟨hl, hu⟩ := bary_between (a := a) (b := b) (c := c) h1 h2 hs
  constructor
  · refine le_trans ?_ (EReal.coe_le_coe_iff.2 hl)
    rcases min_choice a (min b c) with e | e
    · rw [show min (min a b) c = min a (min b c) from min_assoc a b c, e]; exact ha.1
    · rw [show min (min a b) c = min a (min b c) from min_assoc a b c, e]
      rcases min_choice b c with e | e <;> rw [e]
      · exact hb.1
      · exact hc.1
  · refine le_trans (EReal.coe_le_coe_iff.2 hu) ?_
    rcases max_choice a (max b c) with e | e
    · rw [show max (max a b) c = max a (max b c) from max_assoc a b c, e]; exact ha.2
    · rw [show max (max a b) c = max a (max b c) from max_assoc a b c, e]
      rcases max_choice b c with e | e <;> rw [e]
      · exact hb.2
      · exact hc.2

/-- **C139** every point that a ray hits on any triangle of the mesh lies in the mesh's world bound, so culling with the bound loses nothing -/
theorem C139_hits_inside (frame : V3 ℝ → V3 ℝ × V3 ℝ) (m : Mesh ℝ) (h : m.nverts = m.p.length) (v : ℕ) (r : Ray ℝ) (t re : ℝ) (g : Geo ℝ)
    (hi : intersect frame m v r = .hit (t, re, g)) : ∃ b, meshWorldBound m = some b ∧ BBox.Mem (ext g.p) b ∧ BBox.Mem (ext (rayAt r.o r.d t)) b := by
  obtain ⟨⟨b, hb, hm, -⟩, -⟩ := C139_bounds m h
  have hex : (∃ p1, m.vertex v 0 = some p1) ∧ (∃ p2, m.vertex v 1 = some p2) ∧ (∃ p3, m.vertex v 2 = some p3) ∧ ∃ uv, m.getUvs v = some uv := by
    unfold intersect at hi
    split at hi
    · rename_i p1 p2 p3 h1 h2 h3
      refine ⟨⟨p1, h1⟩, ⟨p2, h2⟩, ⟨p3, h3⟩, ?_⟩
      split at hi
      · cases hi
      · split at hi
        · cases hi
        · rename_i uv huv
          exact ⟨uv, huv⟩
    · cases hi
  obtain ⟨⟨p1, h1⟩, ⟨p2, h2⟩, ⟨p3, h3⟩, uv, huv⟩ := hex
  obtain ⟨-, hp, -, b1, b2, c1, c2, c3, gs, -⟩ := C40_geometry frame m v r p1 p2 p3 h1 h2 h3 uv huv t re g hi
  obtain ⟨x1, y1, z1⟩ := hm p1 (vertex_mem h1)
  obtain ⟨x2, y2, z2⟩ := hm p2 (vertex_mem h2)
  obtain ⟨x3, y3, z3⟩ := hm p3 (vertex_mem h3)
  have key : BBox.Mem (ext g.p) b := by
    rw [gs.point]
    exact ⟨mid_between c1 c2 c3 x1 x2 x3, mid_between c1 c2 c3 y1 y2 y3, mid_between c1 c2 c3 z1 z2 z3⟩
  exact ⟨b, hb, key, hp ▸ key⟩

/-- **C139** a mesh without vertices has the empty bound -/
theorem C139_no_vertices (m : Mesh ℝ) (h : m.nverts = 0) : meshWorldBound m = some BBox.empty ∧ meshObjectBound m = some BBox.empty := by
  simp [meshWorldBound, meshObjectBound, h, boundLoop]

/-- a concrete case: the bound of a triangle -/
example : meshWorldBound ⟨1, 3, [0, 1, 2], [⟨0, 0, 0⟩, ⟨1, 0, 0⟩, ⟨0, 1, 0⟩], none, none, id⟩ = some ⟨⟨0, 0, 0⟩, ⟨1, 1, 0⟩⟩ := by
  obtain ⟨⟨b, hb, hm, hl⟩, -⟩ := C139_bounds ⟨1, 3, [0, 1, 2], [⟨0, 0, 0⟩, ⟨1, 0, 0⟩, ⟨0, 1, 0⟩], none, none, id⟩ rfl
  rw [hb]
  have h1 := hm ⟨0, 0, 0⟩ (by simp)
  have h2 := hm ⟨1, 0, 0⟩ (by simp)
  have h3 := hm ⟨0, 1, 0⟩ (by simp)
  have h4 := hl ⟨⟨0, 0, 0⟩, ⟨1, 1, 0⟩⟩ (by simp [BBox.Mem, ext])
  simp only [BBox.Mem, ext, BBox.Sub, EReal.coe_zero, EReal.coe_one] at h1 h2 h3 h4
  obtain ⟨⟨a1, a2, a3⟩, ⟨c1, c2, c3⟩⟩ := b
  simp only at h1 h2 h3 h4
  have e1 : a1 = 0 := le_antisymm h1.1.1 h4.1.1
  have e2 : a2 = 0 := le_antisymm h1.2.1.1 h4.2.1.1
  have e3 : a3 = 0 := le_antisymm h1.2.2.1 h4.2.2.1
  have e4 : c1 = 1 := le_antisymm h4.1.2 h2.1.2
  have e5 : c2 = 1 := le_antisymm h4.2.1.2 h3.2.1.2
  have e6 : c3 = 0 := le_antisymm h4.2.2.2 h3.2.2.2
  subst e1 e2 e3 e4 e5 e6
  rfl

end Verif.Shape
