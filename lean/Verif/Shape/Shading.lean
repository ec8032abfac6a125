import Verif.Shape.Mesh
import Verif.Geom.DiffGeom

/-!
# Shading geometry of a triangle (C138)

Models `Triangle.get_shading_geometry` (`pytracer/shape/triangle.py:323-391`).  Exact real arithmetic.
-/
namespace Verif.Shape
open Verif V3 Verif.Geom Verif.DiffG

/-- the barycentric weights recovered from the texture coordinates (`triangle.py:328-339`): the solution of the 2 × 2 system, or 1/3 each if `np.linalg.solve` raises -/
noncomputable def shadeWeights (uv : (ℝ × ℝ) × (ℝ × ℝ) × (ℝ × ℝ)) (u v : ℝ) : ℝ × ℝ × ℝ :=
  match solve2 (uv.2.1.1 - uv.1.1) (uv.2.2.1 - uv.1.1) (uv.2.1.2 - uv.1.2) (uv.2.2.2 - uv.1.2) (u - uv.1.1) (v - uv.1.2) with
  | none => (1 / 3, 1 / 3, 1 / 3)
  | some (b, c) => (1 - b - c, b, c)

/-- three consecutive entries of a list, starting at `v` (`self.mesh.n[self.v + k]`, `triangle.py:343-345`, `350-352`) -/
def three (l : List (V3 ℝ)) (v : ℕ) : Option (V3 ℝ × V3 ℝ × V3 ℝ) :=
  match l[v]?, l[v + 1]?, l[v + 2]? with
  | some a, some b, some c => some (a, b, c)
  | _, _, _ => none

/-- the weighted sum (`triangle.py:343-345`, `350-352`) -/
noncomputable def wsum (w : ℝ × ℝ × ℝ) (t : V3 ℝ × V3 ℝ × V3 ℝ) : V3 ℝ := w.1 * t.1 + w.2.1 * t.2.1 + w.2.2 * t.2.2

/-- the tangents (`triangle.py:356-361`) -/
noncomputable def shadeFrame (ns ss : V3 ℝ) : V3 ℝ × V3 ℝ :=
  let ts := cross ss ns
  if sqLength ts > 0 then
    let ts := Geom.normalize ts
    (cross ts ns, ts)
  else ((coordinateSystem ns).2.1, (coordinateSystem ns).2.2)

/-- the normal derivatives before the transformation (`triangle.py:365-378`) -/
noncomputable def normalDerivs (uv : (ℝ × ℝ) × (ℝ × ℝ) × (ℝ × ℝ)) (n0 n1 n2 : V3 ℝ) : V3 ℝ × V3 ℝ :=
  let du1 := uv.1.1 - uv.2.2.1
  let du2 := uv.2.1.1 - uv.2.2.1
  let dv1 := uv.1.2 - uv.2.2.2
  let dv2 := uv.2.1.2 - uv.2.2.2
  let dn1 := n0 - n2
  let dn2 := n1 - n2
  let det := du1 * dv2 - du2 * dv1
  if det = 0 then (0, 0) else ((1 / det) * (dv2 * dn1 - dv1 * dn2), (1 / det) * ((-du2) * dn1 + du1 * dn2))

/-- `Triangle.get_shading_geometry` (`triangle.py:323-391`) for the triangle whose first index position is `v` (`self.v`); `none` is an `IndexError`.
`n` and `s` are the mesh's normals and tangents (`triangle.py:432-433`), `mo2w` is `self.mesh.o2w`.  The branches for a single missing list (`triangle.py:347`, `354`,
`380-381`) cannot be reached and are left out. -/
noncomputable def shading (o2w mo2w : Xform.Transform ℝ) (m : Mesh ℝ) (n s : Option (List (V3 ℝ))) (v : ℕ) (dg : DiffGeom) : Option DiffGeom :=
  match n, s with
  | some N, some S =>
    match m.getUvs v, three N v, three S v,
      (pyGet m.vi v).bind (pyGet N), (pyGet m.vi (v + 1)).bind (pyGet N), (pyGet m.vi (v + 2)).bind (pyGet N) with
    | some uv, some tn, some tss, some n0, some n1, some n2 =>
      let w := shadeWeights uv dg.u dg.v
      let ns := Geom.normalize (o2w.nrm (wsum w tn))
      let ss := Geom.normalize (o2w.vec (wsum w tss))
      let f := shadeFrame ns ss
      let dn := normalDerivs uv n0 n1 n2
      let g := DiffGeom.init dg.p f.1 f.2 (mo2w.nrm dn.1) (mo2w.nrm dn.2) dg.u dg.v dg.flip
      some { g with dudx := dg.dudx, dvdx := dg.dvdx, dudy := dg.dudy, dvdy := dg.dvdy, dpdx := dg.dpdx, dpdy := dg.dpdy }
    | _, _, _, _, _, _ => none
  | _, _ => some dg

/-! ### Specification -/

/-- twice the signed area of the triangle in texture space -/
def uvArea (uv : (ℝ × ℝ) × (ℝ × ℝ) × (ℝ × ℝ)) : ℝ :=
  (uv.2.1.1 - uv.1.1) * (uv.2.2.2 - uv.1.2) - (uv.2.2.1 - uv.1.1) * (uv.2.1.2 - uv.1.2)

/-! ### Lemmas -/

theorem weights_spec (uv : (ℝ × ℝ) × (ℝ × ℝ) × (ℝ × ℝ)) (h : uvArea uv ≠ 0) (b1 b2 : ℝ) :
    shadeWeights uv ((1 - b1 - b2) * uv.1.1 + b1 * uv.2.1.1 + b2 * uv.2.2.1) ((1 - b1 - b2) * uv.1.2 + b1 * uv.2.1.2 + b2 * uv.2.2.2) = (1 - b1 - b2, b1, b2) := by
  unfold uvArea at h
  have e1 : (1 - b1 - b2) * uv.1.1 + b1 * uv.2.1.1 + b2 * uv.2.2.1 - uv.1.1 = b1 * (uv.2.1.1 - uv.1.1) + b2 * (uv.2.2.1 - uv.1.1) := by ring
  have e2 : (1 - b1 - b2) * uv.1.2 + b1 * uv.2.1.2 + b2 * uv.2.2.2 - uv.1.2 = b1 * (uv.2.1.2 - uv.1.2) + b2 * (uv.2.2.2 - uv.1.2) := by ring
  simp only [shadeWeights, e1, e2]
  generalize uv.2.1.1 - uv.1.1 = a at *
  generalize uv.2.2.1 - uv.1.1 = b at *
  generalize uv.2.1.2 - uv.1.2 = c at *
  generalize uv.2.2.2 - uv.1.2 = d at *
  simp only [solve2, h, if_false]
  have h1 : ((b1 * a + b2 * b) * d - b * (b1 * c + b2 * d)) / (a * d - b * c) = b1 := by rw [div_eq_iff h]; ring
  have h2 : (a * (b1 * c + b2 * d) - (b1 * a + b2 * b) * c) / (a * d - b * c) = b2 := by rw [div_eq_iff h]; ring
  rw [h1, h2]

theorem normalize_unit {v : V3 ℝ} (h : length v = 1) : Geom.normalize v = v := by
  have h0 : v ≠ 0 := by rintro rfl; simp [Geom.length, sqLength] at h
  obtain ⟨-, h2, -⟩ := (C06_normalize v).1 h0
  rw [h] at h2
  rw [← h2, ]
  conv_lhs => rw [h2]
  ext <;> simp

theorem sq_of_unit {v : V3 ℝ} (h : length v = 1) : sqLength v = 1 := by
  have := Real.sq_sqrt (sqLength_nonneg v)
  rw [Geom.length] at h; rw [h] at this; linarith

/-- the frame is orthonormal with the normal, oriented so that `ss × ts` is the normal -/
theorem frame_spec (ns ss : V3 ℝ) (hn : length ns = 1) :
    Orthonormal3 (shadeFrame ns ss).1 (shadeFrame ns ss).2 ns ∧ cross (shadeFrame ns ss).1 (shadeFrame ns ss).2 = ns ∧
    (cross ss ns ≠ 0 → ∃ k : ℝ, 0 < k ∧ (shadeFrame ns ss).1 = -(k * (ss - dot ss ns * ns))) := by
  have hsn := sq_of_unit hn
  by_cases hc : cross ss ns = 0
  · have hs : ¬ sqLength (cross ss ns) > 0 := by rw [hc]; simp [sqLength]
    obtain ⟨h1, ⟨o1, o2, o3, o4, o5, o6⟩, h3⟩ := C05_frame_orthonormal ns hn
    simp only [shadeFrame, hs, if_false]
    rw [h1] at o1 o4 o5 h3
    generalize (coordinateSystem ns).2.1 = a at *
    generalize (coordinateSystem ns).2.2 = b at *
    have sym : ∀ x y : V3 ℝ, dot x y = dot y x := fun x y => by simp [dot]; ring
    refine ⟨⟨o2, o3, o1, o6, by rw [sym]; exact o4, by rw [sym]; exact o5⟩, ?_, fun h => absurd hc h⟩
    have hsa := sq_of_unit o2
    rw [h3]
    have : cross a (cross ns a) = sqLength a * ns - dot ns a * a := by
      ext <;> simp [cross, sqLength, dot] <;> ring
    rw [this, hsa, o4]
    ext <;> simp
  · have hs : sqLength (cross ss ns) > 0 := lt_of_le_of_ne (sqLength_nonneg _) (fun h => hc ((sqLength_eq_zero _).1 h.symm))
    simp only [shadeFrame, hs, if_true]
    obtain ⟨t1, t2, t3⟩ := (C06_normalize (cross ss ns)).1 hc
    have hperp : dot (cross ss ns) ns = 0 := (C06_cross ss ns).2.1
    generalize hT : Geom.normalize (cross ss ns) = T at *
    generalize hL : Geom.length (cross ss ns) = L at *
    have hT0 : dot T ns = 0 := by
      rw [← t2] at hperp
      have : dot (L * T) ns = L * dot T ns := by simp [dot]; ring
      rw [this] at hperp
      exact (mul_eq_zero.1 hperp).resolve_left t3.ne'
    have hsT := sq_of_unit t1
    refine ⟨⟨?_, t1, hn, ?_, ?_, hT0⟩, ?_, fun _ => ⟨1 / L, by positivity, ?_⟩⟩
    · rw [Geom.length, (C06_cross T ns).2.2.2.1, hsT, hsn, hT0]; simp
    · exact (C06_cross T ns).1
    · exact (C06_cross T ns).2.1
    · have : cross (cross T ns) T = sqLength T * ns - dot T ns * T := by
        ext <;> simp [cross, sqLength, dot] <;> ring
      rw [this, hsT, hT0]
      ext <;> simp
    · have e : T = (1 / L) * cross ss ns := by
        rw [← t2]; ext <;> simp <;> field_simp
      have : cross (cross ss ns) ns = -(sqLength ns * ss - dot ss ns * ns) := by
        ext <;> simp [cross, sqLength, dot] <;> ring
      have h2 : cross T ns = (1 / L) * cross (cross ss ns) ns := by
        rw [e]; ext <;> simp [cross] <;> ring
      rw [h2, this, hsn]
      ext <;> simp <;> ring

theorem derivs_spec (uv : (ℝ × ℝ) × (ℝ × ℝ) × (ℝ × ℝ)) (h : uvArea uv ≠ 0) (n0 n1 n2 : V3 ℝ) (b1 b2 : ℝ) :
    (1 - b1 - b2) * n0 + b1 * n1 + b2 * n2 = n2 + ((1 - b1 - b2) * uv.1.1 + b1 * uv.2.1.1 + b2 * uv.2.2.1 - uv.2.2.1) * (normalDerivs uv n0 n1 n2).1
      + ((1 - b1 - b2) * uv.1.2 + b1 * uv.2.1.2 + b2 * uv.2.2.2 - uv.2.2.2) * (normalDerivs uv n0 n1 n2).2 := by
  have hd : (uv.1.1 - uv.2.2.1) * (uv.2.1.2 - uv.2.2.2) - (uv.2.1.1 - uv.2.2.1) * (uv.1.2 - uv.2.2.2) = uvArea uv := by unfold uvArea; ring
  simp only [normalDerivs, hd, h, if_false]
  rw [← hd] at h ⊢
  ext <;> simp <;> field_simp <;> ring

theorem cross_zero_iff_normalize (a b : V3 ℝ) (hb : b ≠ 0) : cross (Geom.normalize a) (Geom.normalize b) = 0 ↔ cross a b = 0 := by
  by_cases ha : a = 0
  · rw [(C06_normalize a).2 ha, ha]
    constructor <;> intro _ <;> ext <;> simp [cross]
  obtain ⟨-, a2, a3⟩ := (C06_normalize a).1 ha
  obtain ⟨-, b2, b3⟩ := (C06_normalize b).1 hb
  generalize Geom.normalize a = A at *
  generalize Geom.normalize b = B at *
  have e : cross a b = (length a * length b) * cross A B := by
    conv_lhs => rw [← a2, ← b2]
    ext <;> simp [cross] <;> ring
  rw [e]
  constructor
  · intro h; rw [h]; ext <;> simp
  · intro h
    have hk : length a * length b ≠ 0 := (mul_pos a3 b3).ne'
    have hx := congrArg V3.x h
    have hy := congrArg V3.y h
    have hz := congrArg V3.z h
    simp only [smul_x, smul_y, smul_z, zero_x, zero_y, zero_z] at hx hy hz
    ext
    · exact (mul_eq_zero.1 hx).resolve_left hk
    · exact (mul_eq_zero.1 hy).resolve_left hk
    · exact (mul_eq_zero.1 hz).resolve_left hk

/-! ### C138 -/

/-- the mesh has its own vertices for this triangle: the corners are the vertices number `v`, `v + 1`, `v + 2` -/
def OwnVertices (m : Mesh ℝ) (v : ℕ) : Prop := m.vi[v]? = some (v : ℤ) ∧ m.vi[v + 1]? = some ((v + 1 : ℕ) : ℤ) ∧ m.vi[v + 2]? = some ((v + 2 : ℕ) : ℤ)

/-- what a user expects of the shading geometry `g` at the point with weights `b1`, `b2` of a triangle with corner normals `n0 n1 n2`, corner tangents `s0 s1 s2` and
corner parameters `uv`, computed from the true geometry `dg` -/
structure ShadingSpec (o2w mo2w : Xform.Transform ℝ) (n0 n1 n2 s0 s1 s2 : V3 ℝ) (uv : (ℝ × ℝ) × (ℝ × ℝ) × (ℝ × ℝ)) (b1 b2 : ℝ) (dg g : DiffGeom) : Prop where
  /-- point, parameters, orientation and screen differentials are those of the true geometry -/
  keeps : g.p = dg.p ∧ g.u = dg.u ∧ g.v = dg.v ∧ g.flip = dg.flip ∧ g.dudx = dg.dudx ∧ g.dvdx = dg.dvdx ∧ g.dudy = dg.dudy ∧ g.dvdy = dg.dvdy ∧
    g.dpdx = dg.dpdx ∧ g.dpdy = dg.dpdy
  /-- the shading normal is the interpolated normal in world space, turned if the shape reverses its orientation -/
  normal : g.nn = (if dg.flip then (-1 : ℝ) else 1) * Geom.normalize (o2w.nrm (bary n0 n1 n2 b1 b2))
  /-- the tangents and the normal are an orthonormal frame -/
  frame : Orthonormal3 g.dpdu g.dpdv g.nn
  /-- the first tangent is the part of the interpolated tangent perpendicular to the normal, with the sign turned -/
  tangent : cross (o2w.vec (bary s0 s1 s2 b1 b2)) (o2w.nrm (bary n0 n1 n2 b1 b2)) ≠ 0 →
    ∃ k : ℝ, 0 < k ∧ g.dpdu = -(k * (o2w.vec (bary s0 s1 s2 b1 b2) - dot (o2w.vec (bary s0 s1 s2 b1 b2)) g.nn * g.nn))
  /-- the normal derivatives are those of the interpolated normal, as a function of the parameters -/
  derivs : ∃ du dv : V3 ℝ, g.dndu = mo2w.nrm du ∧ g.dndv = mo2w.nrm dv ∧ ∀ c1 c2 : ℝ, bary n0 n1 n2 c1 c2 = n2
    + ((1 - c1 - c2) * uv.1.1 + c1 * uv.2.1.1 + c2 * uv.2.2.1 - uv.2.2.1) * du
    + ((1 - c1 - c2) * uv.1.2 + c1 * uv.2.1.2 + c2 * uv.2.2.2 - uv.2.2.2) * dv

theorem three_of {l : List (V3 ℝ)} {v : ℕ} {a b c : V3 ℝ} (h0 : l[v]? = some a) (h1 : l[v + 1]? = some b) (h2 : l[v + 2]? = some c) : three l v = some (a, b, c) := by
  simp only [three, h0, h1, h2]

theorem pyGet_nat {α : Type*} (l : List α) (i : ℕ) : pyGet l (i : ℤ) = l[i]? := by
  simp [pyGet]

/-- the shading geometry with the normals `m0 m1 m2` of the corners and `n0 n1 n2` of the positions -/
theorem shading_core (o2w mo2w : Xform.Transform ℝ) (m : Mesh ℝ) (N S : List (V3 ℝ)) (v : ℕ) (dg : DiffGeom) (uv : (ℝ × ℝ) × (ℝ × ℝ) × (ℝ × ℝ))
    (n0 n1 n2 s0 s1 s2 : V3 ℝ) (m0 m1 m2 : V3 ℝ) (b1 b2 : ℝ)
    (j0 : (pyGet m.vi v).bind (pyGet N) = some m0) (j1 : (pyGet m.vi (v + 1)).bind (pyGet N) = some m1) (j2 : (pyGet m.vi (v + 2)).bind (pyGet N) = some m2)
    (hn0 : N[v]? = some n0) (hn1 : N[v + 1]? = some n1) (hn2 : N[v + 2]? = some n2)
    (hs0 : S[v]? = some s0) (hs1 : S[v + 1]? = some s1) (hs2 : S[v + 2]? = some s2)
    (huv : m.getUvs v = some uv) (hw : shadeWeights uv dg.u dg.v = (1 - b1 - b2, b1, b2))
    (hz : o2w.nrm (bary n0 n1 n2 b1 b2) ≠ 0) :
    ∃ g, shading o2w mo2w m (some N) (some S) v dg = some g ∧ g.nn = (if dg.flip then (-1 : ℝ) else 1) * Geom.normalize (o2w.nrm (bary n0 n1 n2 b1 b2)) ∧
      (m0 = n0 → m1 = n1 → m2 = n2 → uvArea uv ≠ 0 → ShadingSpec o2w mo2w n0 n1 n2 s0 s1 s2 uv b1 b2 dg g) ∧
      (uvArea uv = 0 → g.p = dg.p ∧ Orthonormal3 g.dpdu g.dpdv g.nn ∧ g.dndu = mo2w.nrm 0 ∧ g.dndv = mo2w.nrm 0) := by
  have en : wsum (1 - b1 - b2, b1, b2) (n0, n1, n2) = bary n0 n1 n2 b1 b2 := rfl
  have es : wsum (1 - b1 - b2, b1, b2) (s0, s1, s2) = bary s0 s1 s2 b1 b2 := rfl
  simp only [shading, huv, three_of hn0 hn1 hn2, three_of hs0 hs1 hs2, j0, j1, j2, hw, en, es]
  refine ⟨_, rfl, ?_⟩
  obtain ⟨u1, u2, u3⟩ := (C06_normalize _).1 hz
  have hcz := cross_zero_iff_normalize (o2w.vec (bary s0 s1 s2 b1 b2)) (o2w.nrm (bary n0 n1 n2 b1 b2)) hz
  have hss := C06_normalize (o2w.vec (bary s0 s1 s2 b1 b2))
  obtain ⟨f1, f2, f3⟩ := frame_spec (Geom.normalize (o2w.nrm (bary n0 n1 n2 b1 b2))) (Geom.normalize (o2w.vec (bary s0 s1 s2 b1 b2))) u1
  have hder := fun ha => derivs_spec uv ha n0 n1 n2
  generalize hNS : Geom.normalize (o2w.nrm (bary n0 n1 n2 b1 b2)) = ns at *
  generalize hSS : Geom.normalize (o2w.vec (bary s0 s1 s2 b1 b2)) = ss at *
  generalize hF : shadeFrame ns ss = F at *
  have hnn : (if dg.flip then (-1 : ℝ) * Geom.normalize (cross F.1 F.2) else Geom.normalize (cross F.1 F.2)) = (if dg.flip then (-1 : ℝ) else 1) * ns := by
    rw [f2, normalize_unit u1]
    split_ifs
    · rfl
    · ext <;> simp
  have hpm : ∀ w : V3 ℝ, dot w ((if dg.flip then (-1 : ℝ) else 1) * ns) * ((if dg.flip then (-1 : ℝ) else 1) * ns) = dot w ns * ns := by
    intro w
    split_ifs <;> ext <;> simp [dot] <;> ring
  have hfr : Orthonormal3 F.1 F.2 ((if dg.flip then (-1 : ℝ) else 1) * ns) := by
    obtain ⟨o1, o2, o3, o4, o5, o6⟩ := f1
    split_ifs
    · refine ⟨o1, o2, ?_, o4, ?_, ?_⟩
      · rw [(C06_length_is_norm ns _).2.2.2, o3]; simp
      · have : dot F.1 ((-1 : ℝ) * ns) = -dot F.1 ns := by simp [dot]; ring
        rw [this, o5, neg_zero]
      · have : dot F.2 ((-1 : ℝ) * ns) = -dot F.2 ns := by simp [dot]; ring
        rw [this, o6, neg_zero]
    · have : (1 : ℝ) * ns = ns := by ext <;> simp
      rw [this]
      exact ⟨o1, o2, o3, o4, o5, o6⟩
  refine ⟨by simpa only [DiffGeom.init] using hnn, ?_, ?_⟩
  swap
  · intro ha
    have hd : (uv.1.1 - uv.2.2.1) * (uv.2.1.2 - uv.2.2.2) - (uv.2.1.1 - uv.2.2.1) * (uv.1.2 - uv.2.2.2) = 0 := by rw [← ha]; unfold uvArea; ring
    refine ⟨rfl, ?_, ?_, ?_⟩
    · simp only [DiffGeom.init]; rw [hnn]; exact hfr
    · simp only [DiffGeom.init, normalDerivs, hd, if_true]
    · simp only [DiffGeom.init, normalDerivs, hd, if_true]
  rintro rfl rfl rfl ha
  refine ⟨⟨rfl, rfl, rfl, rfl, rfl, rfl, rfl, rfl, rfl, rfl⟩, by rw [hNS]; simpa only [DiffGeom.init] using hnn, ?_, ?_, ⟨_, _, rfl, rfl, fun c1 c2 => hder ha c1 c2⟩⟩
  · simp only [DiffGeom.init]
    rw [hnn]; exact hfr
  · intro hc
    obtain ⟨k, hk, he⟩ := f3 (fun h => hc (hcz.1 h))
    have hs0 : o2w.vec (bary s0 s1 s2 b1 b2) ≠ 0 := by
      intro h; apply hc; rw [h]; ext <;> simp [cross]
    obtain ⟨-, t2, t3⟩ := hss.1 hs0
    generalize o2w.vec (bary s0 s1 s2 b1 b2) = s at *
    refine ⟨k / length s, by positivity, ?_⟩
    simp only [DiffGeom.init]
    rw [hnn, hpm, he]
    have e : ss - dot ss ns * ns = (1 / length s) * (s - dot s ns * ns) := by
      have : s - dot s ns * ns = length s * (ss - dot ss ns * ns) := by
        conv_lhs => rw [← t2]
        ext <;> simp [dot] <;> ring
      rw [this]
      ext <;> simp <;> field_simp
    rw [e]
    ext <;> simp <;> field_simp

/-- **C138 (part)** the shading geometry of a point of a triangle, for meshes with normals and tangents whose triangles do not share vertices, with parameters that are not
degenerate and an interpolated normal that does not vanish.  Missing: normals without tangents (`C138_normals_only_false`), shared vertices (`C138_shared_false`). -/
theorem C138_shading_partial (o2w mo2w : Xform.Transform ℝ) (m : Mesh ℝ) (N S : List (V3 ℝ)) (v : ℕ) (dg : DiffGeom) (uv : (ℝ × ℝ) × (ℝ × ℝ) × (ℝ × ℝ))
    (n0 n1 n2 s0 s1 s2 : V3 ℝ) (b1 b2 : ℝ) (ho : OwnVertices m v)
    (hn0 : N[v]? = some n0) (hn1 : N[v + 1]? = some n1) (hn2 : N[v + 2]? = some n2)
    (hs0 : S[v]? = some s0) (hs1 : S[v + 1]? = some s1) (hs2 : S[v + 2]? = some s2)
    (huv : m.getUvs v = some uv) (ha : uvArea uv ≠ 0)
    (hu : dg.u = (1 - b1 - b2) * uv.1.1 + b1 * uv.2.1.1 + b2 * uv.2.2.1) (hv : dg.v = (1 - b1 - b2) * uv.1.2 + b1 * uv.2.1.2 + b2 * uv.2.2.2)
    (hz : o2w.nrm (bary n0 n1 n2 b1 b2) ≠ 0) :
    ∃ g, shading o2w mo2w m (some N) (some S) v dg = some g ∧ ShadingSpec o2w mo2w n0 n1 n2 s0 s1 s2 uv b1 b2 dg g := by
  obtain ⟨i0, i1, i2⟩ := ho
  have j0 : (pyGet m.vi v).bind (pyGet N) = some n0 := by rw [pyGet_nat, i0]; exact (pyGet_nat N v).trans hn0
  have j1 : (pyGet m.vi (v + 1)).bind (pyGet N) = some n1 := by
    have := pyGet_nat m.vi (v + 1); rw [i1] at this; push_cast at this
    rw [this]; exact (pyGet_nat N (v + 1)).trans hn1
  have j2 : (pyGet m.vi (v + 2)).bind (pyGet N) = some n2 := by
    have := pyGet_nat m.vi (v + 2); rw [i2] at this; push_cast at this
    rw [this]; exact (pyGet_nat N (v + 2)).trans hn2
  obtain ⟨g, hg, -, h⟩ := shading_core o2w mo2w m N S v dg uv n0 n1 n2 s0 s1 s2 n0 n1 n2 b1 b2 j0 j1 j2 hn0 hn1 hn2 hs0 hs1 hs2 huv
    (by rw [hu, hv]; exact weights_spec uv ha b1 b2) hz
  exact ⟨g, hg, h.1 rfl rfl rfl ha⟩

/-- **C138 (part)** if the parameters of the corners are degenerate, so that they do not determine the point, the shading normal is the average of the corner normals, its
derivatives are zero, and the frame is still orthonormal -/
theorem C138_degenerate_partial (o2w mo2w : Xform.Transform ℝ) (m : Mesh ℝ) (N S : List (V3 ℝ)) (v : ℕ) (dg : DiffGeom) (uv : (ℝ × ℝ) × (ℝ × ℝ) × (ℝ × ℝ))
    (n0 n1 n2 s0 s1 s2 : V3 ℝ) (ho : OwnVertices m v)
    (hn0 : N[v]? = some n0) (hn1 : N[v + 1]? = some n1) (hn2 : N[v + 2]? = some n2)
    (hs0 : S[v]? = some s0) (hs1 : S[v + 1]? = some s1) (hs2 : S[v + 2]? = some s2)
    (huv : m.getUvs v = some uv) (ha : uvArea uv = 0) (hz : o2w.nrm ((1 / 3 : ℝ) * (n0 + n1 + n2)) ≠ 0) :
    ∃ g, shading o2w mo2w m (some N) (some S) v dg = some g ∧ g.p = dg.p ∧
      g.nn = (if dg.flip then (-1 : ℝ) else 1) * Geom.normalize (o2w.nrm ((1 / 3 : ℝ) * (n0 + n1 + n2))) ∧
      Orthonormal3 g.dpdu g.dpdv g.nn ∧ g.dndu = 0 ∧ g.dndv = 0 := by
  obtain ⟨i0, i1, i2⟩ := ho
  have j0 : (pyGet m.vi v).bind (pyGet N) = some n0 := by rw [pyGet_nat, i0]; exact (pyGet_nat N v).trans hn0
  have j1 : (pyGet m.vi (v + 1)).bind (pyGet N) = some n1 := by
    have := pyGet_nat m.vi (v + 1); rw [i1] at this; push_cast at this
    rw [this]; exact (pyGet_nat N (v + 1)).trans hn1
  have j2 : (pyGet m.vi (v + 2)).bind (pyGet N) = some n2 := by
    have := pyGet_nat m.vi (v + 2); rw [i2] at this; push_cast at this
    rw [this]; exact (pyGet_nat N (v + 2)).trans hn2
  have eb : bary n0 n1 n2 (1 / 3) (1 / 3) = (1 / 3 : ℝ) * (n0 + n1 + n2) := by ext <;> simp [bary] <;> ring
  have h0 : mo2w.nrm 0 = 0 := by ext <;> simp [Xform.Transform.nrm]
  rw [← eb] at hz ⊢
  obtain ⟨g, hg, hnn, -, h⟩ := shading_core o2w mo2w m N S v dg uv n0 n1 n2 s0 s1 s2 n0 n1 n2 (1 / 3) (1 / 3) j0 j1 j2 hn0 hn1 hn2 hs0 hs1 hs2 huv
    (by
      unfold uvArea at ha
      simp only [shadeWeights, solve2, ha, if_true]
      norm_num) hz
  obtain ⟨h1, h2, h3, h4⟩ := h ha
  exact ⟨g, hg, h1, hnn, h2, h3.trans h0, h4.trans h0⟩

/-- **C138 (part)** for a ray that hits such a triangle: the shading normal is the normal interpolated at the point that is hit -/
theorem C138_hit_partial (frame : V3 ℝ → V3 ℝ × V3 ℝ) (r : Ray ℝ) (p1 p2 p3 : V3 ℝ) (t re : ℝ) (h : Geo ℝ) (flip : Bool)
    (o2w mo2w : Xform.Transform ℝ) (m : Mesh ℝ) (N S : List (V3 ℝ)) (v : ℕ) (uv : (ℝ × ℝ) × (ℝ × ℝ) × (ℝ × ℝ))
    (n0 n1 n2 s0 s1 s2 : V3 ℝ) (ho : OwnVertices m v)
    (hp1 : m.p[v]? = some p1) (hp2 : m.p[v + 1]? = some p2) (hp3 : m.p[v + 2]? = some p3)
    (hn0 : N[v]? = some n0) (hn1 : N[v + 1]? = some n1) (hn2 : N[v + 2]? = some n2)
    (hs0 : S[v]? = some s0) (hs1 : S[v + 1]? = some s1) (hs2 : S[v + 2]? = some s2)
    (huv : m.getUvs v = some uv) (ha : uvArea uv ≠ 0)
    (hz : ∀ b1 b2 : ℝ, 0 ≤ b1 → 0 ≤ b2 → b1 + b2 ≤ 1 → o2w.nrm (bary n0 n1 n2 b1 b2) ≠ 0)
    (hi : intersect frame m v r = .hit (t, re, h)) :
    ∃ b1 b2 g, 0 ≤ b1 ∧ 0 ≤ b2 ∧ b1 + b2 ≤ 1 ∧ rayAt r.o r.d t = bary p1 p2 p3 b1 b2 ∧
      shading o2w mo2w m (some N) (some S) v (DiffGeom.init h.p h.dpdu h.dpdv 0 0 h.u h.v flip) = some g ∧ g.p = rayAt r.o r.d t ∧
      g.nn = (if flip then (-1 : ℝ) else 1) * Geom.normalize (o2w.nrm (bary n0 n1 n2 b1 b2)) := by
  have i := ho
  obtain ⟨i0, i1, i2⟩ := i
  have k0 : m.vertex v 0 = some p1 := by
    simp only [Mesh.vertex]
    have := pyGet_nat m.vi v; rw [i0] at this
    push_cast; rw [add_zero, this]; exact (pyGet_nat m.p v).trans hp1
  have k1 : m.vertex v 1 = some p2 := by
    simp only [Mesh.vertex]
    have := pyGet_nat m.vi (v + 1); rw [i1] at this
    push_cast at this ⊢; rw [this]; exact (pyGet_nat m.p (v + 1)).trans hp2
  have k2 : m.vertex v 2 = some p3 := by
    simp only [Mesh.vertex]
    have := pyGet_nat m.vi (v + 2); rw [i2] at this
    push_cast at this ⊢; rw [this]; exact (pyGet_nat m.p (v + 2)).trans hp3
  obtain ⟨-, hp, -, b1, b2, c1, c2, c3, gs, -⟩ := C40_geometry frame m v r p1 p2 p3 k0 k1 k2 uv huv t re h hi
  obtain ⟨g, hg, sp⟩ := C138_shading_partial o2w mo2w m N S v (DiffGeom.init h.p h.dpdu h.dpdv 0 0 h.u h.v flip) uv n0 n1 n2 s0 s1 s2 b1 b2 ho hn0 hn1 hn2 hs0 hs1 hs2
    huv ha gs.u gs.v (hz b1 b2 c1 c2 c3)
  exact ⟨b1, b2, g, c1, c2, c3, by rw [← hp]; exact gs.point, hg, sp.keeps.1.trans hp, sp.normal⟩

/-- **C138** without normals and without tangents the shading geometry is the true geometry -/
theorem C138_no_data (o2w mo2w : Xform.Transform ℝ) (m : Mesh ℝ) (v : ℕ) (dg : DiffGeom) : shading o2w mo2w m none none v dg = some dg := rfl

/-- **C138 fails** for a mesh with normals but no tangents: the normals are ignored, whatever they are, and the shading normal is the true normal -/
theorem C138_normals_only_false (o2w mo2w : Xform.Transform ℝ) (m : Mesh ℝ) (N : List (V3 ℝ)) (v : ℕ) (dg : DiffGeom) :
    shading o2w mo2w m (some N) none v dg = some dg := rfl

/-- **C138 fails** for a mesh with one normal per vertex whose triangles share vertices, so that it has fewer than three vertices per triangle: the last triangle always
raises an `IndexError`.  (Other triangles use the normals of the vertices number `v`, `v + 1`, `v + 2`, not of their corners, see `C138_wrong_vertices_false`.) -/
theorem C138_shared_false (o2w mo2w : Xform.Transform ℝ) (m : Mesh ℝ) (N S : List (V3 ℝ)) (dg : DiffGeom) (hN : N.length = m.nverts)
    (hs : m.nverts < 3 * m.ntris) : shading o2w mo2w m (some N) (some S) (3 * (m.ntris - 1)) dg = none := by
  have : three N (3 * (m.ntris - 1)) = none := by
    have hl : N[3 * (m.ntris - 1) + 2]? = none := by
      rw [List.getElem?_eq_none_iff, hN]; omega
    simp only [three, hl]
    generalize N[3 * (m.ntris - 1)]? = a
    generalize N[3 * (m.ntris - 1) + 1]? = b
    cases a <;> cases b <;> rfl
  simp only [shading, this]
  generalize m.getUvs (3 * (m.ntris - 1)) = a
  cases a <;> rfl

/-- **C138 fails** for triangles that do not use the vertices in order: there is a mesh of two triangles without shared vertices in which all corners of the first triangle
have the normal `z`, but its shading normal is `x` (the normals of the other triangle), at every point of the triangle -/
theorem C138_wrong_vertices_false : ∃ (m : Mesh ℝ) (N S : List (V3 ℝ)), N.length = m.nverts ∧ S.length = m.nverts ∧ m.nverts = 3 * m.ntris ∧
    (∀ k < 3, (pyGet m.vi (k : ℕ)).bind (pyGet N) = some ⟨0, 0, 1⟩) ∧
    ∀ (b1 b2 : ℝ) (dg : DiffGeom), dg.u = b1 + b2 → dg.v = b2 → dg.flip = false →
      ∃ g, shading Xform.ident Xform.ident m (some N) (some S) 0 dg = some g ∧ g.nn = ⟨1, 0, 0⟩ := by
  refine ⟨⟨2, 6, [3, 4, 5, 0, 1, 2], [⟨0, 0, 0⟩, ⟨1, 0, 0⟩, ⟨0, 1, 0⟩, ⟨5, 0, 0⟩, ⟨6, 0, 0⟩, ⟨5, 1, 0⟩], none, none, id⟩,
    [⟨1, 0, 0⟩, ⟨1, 0, 0⟩, ⟨1, 0, 0⟩, ⟨0, 0, 1⟩, ⟨0, 0, 1⟩, ⟨0, 0, 1⟩], [⟨0, 1, 0⟩, ⟨0, 1, 0⟩, ⟨0, 1, 0⟩, ⟨0, 1, 0⟩, ⟨0, 1, 0⟩, ⟨0, 1, 0⟩], rfl, rfl, rfl, ?_, ?_⟩
  · intro k hk
    interval_cases k <;> rfl
  · intro b1 b2 dg hu hv hf
    have e : (Xform.ident (K := ℝ)).nrm (bary ⟨1, 0, 0⟩ ⟨1, 0, 0⟩ ⟨1, 0, 0⟩ b1 b2) = ⟨1, 0, 0⟩ := by
      ext <;> simp [Xform.Transform.nrm, Xform.ident, bary] <;> ring
    obtain ⟨g, h, hn, -⟩ := shading_core Xform.ident Xform.ident ⟨2, 6, [3, 4, 5, 0, 1, 2], [⟨0, 0, 0⟩, ⟨1, 0, 0⟩, ⟨0, 1, 0⟩, ⟨5, 0, 0⟩, ⟨6, 0, 0⟩, ⟨5, 1, 0⟩], none, none, id⟩
      [⟨1, 0, 0⟩, ⟨1, 0, 0⟩, ⟨1, 0, 0⟩, ⟨0, 0, 1⟩, ⟨0, 0, 1⟩, ⟨0, 0, 1⟩] [⟨0, 1, 0⟩, ⟨0, 1, 0⟩, ⟨0, 1, 0⟩, ⟨0, 1, 0⟩, ⟨0, 1, 0⟩, ⟨0, 1, 0⟩] 0 dg ((0, 0), (1, 0), (1, 1))
      ⟨1, 0, 0⟩ ⟨1, 0, 0⟩ ⟨1, 0, 0⟩ ⟨0, 1, 0⟩ ⟨0, 1, 0⟩ ⟨0, 1, 0⟩ ⟨0, 0, 1⟩ ⟨0, 0, 1⟩ ⟨0, 0, 1⟩ b1 b2 rfl rfl rfl rfl rfl rfl rfl rfl rfl rfl
      (by have := weights_spec ((0, 0), (1, 0), (1, 1)) (by norm_num [uvArea]) b1 b2
          rw [hu, hv]; simpa using this) (by rw [e]; intro h; have := congrArg V3.x h; norm_num at this)
    refine ⟨g, h, ?_⟩
    rw [hn, e, hf, normalize_unit (by simp [Geom.length, sqLength])]
    ext <;> simp

/-! ### Concrete cases -/

/-- the triangle (0,0,0), (1,0,0), (0,1,0) with default texture coordinates -/
noncomputable def exShade : Mesh ℝ := ⟨1, 3, [0, 1, 2], [⟨0, 0, 0⟩, ⟨1, 0, 0⟩, ⟨0, 1, 0⟩], none, none, id⟩

/-- the hypotheses of `C138_shading_partial` hold for it with different normals at the corners -/
example (dg : DiffGeom) (hu : dg.u = 1 / 2) (hv : dg.v = 1 / 4) :
    ∃ g, shading Xform.ident Xform.ident exShade (some [⟨0, 0, 1⟩, ⟨1, 0, 1⟩, ⟨0, 1, 1⟩]) (some [⟨1, 0, 0⟩, ⟨1, 0, 0⟩, ⟨1, 0, 0⟩]) 0 dg = some g ∧
      g.nn = (if dg.flip then (-1 : ℝ) else 1) * Geom.normalize (⟨1 / 4, 1 / 4, 1⟩ : V3 ℝ) := by
  have e : (Xform.ident (K := ℝ)).nrm (bary ⟨0, 0, 1⟩ ⟨1, 0, 1⟩ ⟨0, 1, 1⟩ (1 / 4) (1 / 4)) = ⟨1 / 4, 1 / 4, 1⟩ := by
    ext <;> simp [Xform.Transform.nrm, Xform.ident, bary]
  obtain ⟨g, h, sp⟩ := C138_shading_partial Xform.ident Xform.ident exShade [⟨0, 0, 1⟩, ⟨1, 0, 1⟩, ⟨0, 1, 1⟩] [⟨1, 0, 0⟩, ⟨1, 0, 0⟩, ⟨1, 0, 0⟩] 0 dg ((0, 0), (1, 0), (1, 1))
    ⟨0, 0, 1⟩ ⟨1, 0, 1⟩ ⟨0, 1, 1⟩ ⟨1, 0, 0⟩ ⟨1, 0, 0⟩ ⟨1, 0, 0⟩ (1 / 4) (1 / 4) ⟨rfl, rfl, rfl⟩ rfl rfl rfl rfl rfl rfl rfl (by norm_num [uvArea])
    (by rw [hu]; norm_num) (by rw [hv]; norm_num) (by rw [e]; intro h; have := congrArg V3.z h; norm_num at this)
  have h2 := sp.normal
  rw [e] at h2
  exact ⟨g, h, h2⟩

/-- all corners have the same parameters: the hypotheses of `C138_degenerate_partial` hold -/
example (dg : DiffGeom) :
    ∃ g, shading Xform.ident Xform.ident { exShade with uvs := some [0, 0, 0, 0, 0, 0] } (some [⟨0, 0, 1⟩, ⟨1, 0, 1⟩, ⟨0, 1, 1⟩]) (some [⟨1, 0, 0⟩, ⟨1, 0, 0⟩, ⟨1, 0, 0⟩]) 0 dg = some g ∧
      g.nn = (if dg.flip then (-1 : ℝ) else 1) * Geom.normalize (⟨1 / 3, 1 / 3, 1⟩ : V3 ℝ) := by
  have e : (Xform.ident (K := ℝ)).nrm ((1 / 3 : ℝ) * ((⟨0, 0, 1⟩ : V3 ℝ) + ⟨1, 0, 1⟩ + ⟨0, 1, 1⟩)) = ⟨1 / 3, 1 / 3, 1⟩ := by
    ext <;> simp [Xform.Transform.nrm, Xform.ident] <;> norm_num
  obtain ⟨g, h, -, h2, -⟩ := C138_degenerate_partial Xform.ident Xform.ident { exShade with uvs := some [0, 0, 0, 0, 0, 0] } [⟨0, 0, 1⟩, ⟨1, 0, 1⟩, ⟨0, 1, 1⟩]
    [⟨1, 0, 0⟩, ⟨1, 0, 0⟩, ⟨1, 0, 0⟩] 0 dg ((0, 0), (0, 0), (0, 0))
    ⟨0, 0, 1⟩ ⟨1, 0, 1⟩ ⟨0, 1, 1⟩ ⟨1, 0, 0⟩ ⟨1, 0, 0⟩ ⟨1, 0, 0⟩ ⟨rfl, rfl, rfl⟩ rfl rfl rfl rfl rfl rfl rfl (by norm_num [uvArea])
    (by rw [e]; intro h; have := congrArg V3.z h; norm_num at this)
  rw [e] at h2
  exact ⟨g, h, h2⟩

/-- two triangles of a square share two of four vertices -/
example (dg : DiffGeom) (N S : List (V3 ℝ)) (h : N.length = 4) :
    shading Xform.ident Xform.ident ⟨2, 4, [0, 1, 2, 0, 2, 3], [⟨0, 0, 0⟩, ⟨1, 0, 0⟩, ⟨1, 1, 0⟩, ⟨0, 1, 0⟩], none, none, id⟩ (some N) (some S) 3 dg = none :=
  C138_shared_false _ _ _ N S dg h (by norm_num)

end Verif.Shape
