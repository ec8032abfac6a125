import Verif.Geom.Props
import Verif.Xform.Model

/-!
# Differential geometry (C127, C128)

Models `pytracer/geometry/diffgeom.py`.  Exact real arithmetic.
-/
namespace Verif.DiffG
open Verif V3 Verif.Geom

/-- `DifferentialGeometry` (`geometry/diffgeom.py:21-42`); `flip` is `shape.ro ^ shape.transform_swaps_handedness` (false without a shape) -/
@[ext] structure DiffGeom where
  p : V3 ℝ
  dpdu : V3 ℝ
  dpdv : V3 ℝ
  dndu : V3 ℝ
  dndv : V3 ℝ
  nn : V3 ℝ
  u : ℝ
  v : ℝ
  flip : Bool
  dudx : ℝ
  dvdx : ℝ
  dudy : ℝ
  dvdy : ℝ
  dpdx : V3 ℝ
  dpdy : V3 ℝ

/-- `DifferentialGeometry.__init__` (`geometry/diffgeom.py:21-42`) -/
noncomputable def DiffGeom.init (p dpdu dpdv dndu dndv : V3 ℝ) (u v : ℝ) (flip : Bool) : DiffGeom :=
  let n := Geom.normalize (cross dpdu dpdv)
  ⟨p, dpdu, dpdv, dndu, dndv, if flip then (-1 : ℝ) * n else n, u, v, flip, 0, 0, 0, 0, 0, 0⟩

/-- `DifferentialGeometry.copy` (`geometry/diffgeom.py:47-48`) -/
noncomputable def DiffGeom.copy (g : DiffGeom) : DiffGeom := .init g.p g.dpdu g.dpdv g.dndu g.dndv g.u g.v g.flip

/-- component `i` of a point or vector (numpy indexing) -/
def comp (v : V3 ℝ) : Fin 3 → ℝ
  | 0 => v.x
  | 1 => v.y
  | 2 => v.z

/-- `np.linalg.solve` of a 2 × 2 system, `none` for a singular matrix (`LinAlgError`) -/
noncomputable def solve2 (a b c d e f : ℝ) : Option (ℝ × ℝ) :=
  if a * d - b * c = 0 then none else some ((e * d - b * f) / (a * d - b * c), (a * f - e * c) / (a * d - b * c))

/-- the choice of axes (`geometry/diffgeom.py:71-75`) -/
noncomputable def axes (n : V3 ℝ) : Fin 3 × Fin 3 :=
  if |n.x| > |n.y| ∧ |n.x| > |n.z| then (1, 2) else if |n.y| > |n.z| then (0, 2) else (0, 1)

/-- the point of an auxiliary ray on the tangent plane (`geometry/diffgeom.py:56-63`) -/
noncomputable def onPlane (g : DiffGeom) (o d : V3 ℝ) : V3 ℝ :=
  let k := -dot g.nn g.p
  let t := -(dot g.nn o + k) / dot g.nn d
  o + t * d

/-- the parameter offsets (`geometry/diffgeom.py:77-92`) -/
noncomputable def offsets (g : DiffGeom) (q : V3 ℝ) : ℝ × ℝ :=
  let i := (axes g.nn).1
  let j := (axes g.nn).2
  (solve2 (comp g.dpdu i) (comp g.dpdv i) (comp g.dpdu j) (comp g.dpdv j) (comp q i - comp g.p i) (comp q j - comp g.p j)).getD (0, 0)

/-- `compute_differential` (`geometry/diffgeom.py:50-96`), for auxiliary rays that are not parallel to the tangent plane (those divide by zero) -/
noncomputable def DiffGeom.compute {T : Type*} (g : DiffGeom) (r : Xform.RayDiff ℝ T) : DiffGeom :=
  if r.hasDiff then
    let px := onPlane g r.rxO r.rxD
    let py := onPlane g r.ryO r.ryD
    let ox := offsets g px
    let oy := offsets g py
    { g with dpdx := px - g.p, dpdy := py - g.p, dudx := ox.1, dvdx := ox.2, dudy := oy.1, dvdy := oy.2 }
  else { g with dpdx := 0, dpdy := 0, dudx := 0, dvdx := 0, dudy := 0, dvdy := 0 }

/-! ### C127 -/

/-- **C127 (part)** a copy has the same point, tangents, normal derivatives, parameters and shape, and for a geometry as the constructor makes it the copy is
identical in all fields.  Missing: later changes are not copied (`C127_copy_false`). -/
theorem C127_copy_partial (g : DiffGeom) (p dpdu dpdv dndu dndv : V3 ℝ) (u v : ℝ) (flip : Bool) :
    (g.copy.p = g.p ∧ g.copy.dpdu = g.dpdu ∧ g.copy.dpdv = g.dpdv ∧ g.copy.dndu = g.dndu ∧ g.copy.dndv = g.dndv ∧ g.copy.u = g.u ∧ g.copy.v = g.v ∧ g.copy.flip = g.flip) ∧
    (DiffGeom.init p dpdu dpdv dndu dndv u v flip).copy = DiffGeom.init p dpdu dpdv dndu dndv u v flip :=
  ⟨⟨rfl, rfl, rfl, rfl, rfl, rfl, rfl, rfl⟩, rfl⟩

/-- **C127 fails**: a copy drops the screen differentials (so textures evaluated by a material, which works on a copy, never see a filter width) and
recomputes the normal (so a shading normal that was turned to face the viewer turns back), for every geometry -/
theorem C127_copy_false (g : DiffGeom) : g.copy.dudx = 0 ∧ g.copy.dvdx = 0 ∧ g.copy.dudy = 0 ∧ g.copy.dvdy = 0 ∧ g.copy.dpdx = 0 ∧ g.copy.dpdy = 0 ∧
    (∀ n, ({ g with nn := n } : DiffGeom).copy.nn = g.copy.nn) ∧ (∃ h : DiffGeom, h.copy ≠ h) := by
  refine ⟨rfl, rfl, rfl, rfl, rfl, rfl, fun n => rfl, ⟨{ g with dudx := 1 }, fun h => ?_⟩⟩
  have : (0 : ℝ) = 1 := congrArg DiffGeom.dudx h
  norm_num at this

/-! ### C128 -/

theorem dot_normalize (c w : V3 ℝ) (hc : c ≠ 0) : dot (Geom.normalize c) w = 0 ↔ dot c w = 0 := by
  obtain ⟨-, h2, h3⟩ := (C06_normalize c).1 hc
  have : dot c w = Geom.length c * dot (Geom.normalize c) w := by
    conv_lhs => rw [← h2]
    simp only [dot, smul_x, smul_y, smul_z]; ring
  rw [this, mul_eq_zero]
  simp [h3.ne']

theorem plane_spec (g : DiffGeom) (o d : V3 ℝ) (h : dot g.nn d ≠ 0) : dot g.nn (onPlane g o d - g.p) = 0 := by
  simp only [onPlane]
  set t := -(dot g.nn o + -dot g.nn g.p) / dot g.nn d with ht
  have e : t * dot g.nn d = -(dot g.nn o - dot g.nn g.p) := by rw [ht]; field_simp; ring
  have : dot g.nn (o + t * d - g.p) = dot g.nn o + t * dot g.nn d - dot g.nn g.p := by
    simp only [dot, sub_x, sub_y, sub_z, add_x, add_y, add_z, smul_x, smul_y, smul_z]; ring
  rw [this, e]; ring

/-- the normal is a non-zero multiple of the cross product of the tangents -/
theorem nn_spec (p dpdu dpdv dndu dndv : V3 ℝ) (u v : ℝ) (flip : Bool) (hc : cross dpdu dpdv ≠ 0) :
    ∃ k : ℝ, k ≠ 0 ∧ (DiffGeom.init p dpdu dpdv dndu dndv u v flip).nn = k * cross dpdu dpdv := by
  obtain ⟨-, h2, h3⟩ := (C06_normalize (cross dpdu dpdv)).1 hc
  have e : Geom.normalize (cross dpdu dpdv) = (Geom.length (cross dpdu dpdv))⁻¹ * cross dpdu dpdv := by
    conv_rhs => rw [← h2]
    have hl : Geom.length (Geom.length (cross dpdu dpdv) * Geom.normalize (cross dpdu dpdv)) = Geom.length (cross dpdu dpdv) := by rw [h2]
    rw [hl]
    ext <;> simp only [smul_x, smul_y, smul_z] <;> field_simp
  cases flip
  · exact ⟨(Geom.length (cross dpdu dpdv))⁻¹, inv_ne_zero h3.ne', by simp only [DiffGeom.init]; exact e⟩
  · refine ⟨-(Geom.length (cross dpdu dpdv))⁻¹, neg_ne_zero.2 (inv_ne_zero h3.ne'), ?_⟩
    simp only [DiffGeom.init, if_true]
    rw [e]
    ext <;> simp only [smul_x, smul_y, smul_z] <;> ring

theorem solve2_some (a b c d e f : ℝ) (h : a * d - b * c ≠ 0) : ∃ x y, solve2 a b c d e f = some (x, y) ∧ a * x + b * y = e ∧ c * x + d * y = f := by
  refine ⟨_, _, by rw [solve2, if_neg h], ?_, ?_⟩
  · rw [← mul_div_assoc, ← mul_div_assoc, ← add_div, div_eq_iff h]; ring
  · rw [← mul_div_assoc, ← mul_div_assoc, ← add_div, div_eq_iff h]; ring

/-- with the normal a multiple of the cross product and a displacement in the tangent plane, the offsets express it in the tangents -/
theorem offsets_spec (g : DiffGeom) (k : ℝ) (hk : k ≠ 0) (hn : g.nn = k * cross g.dpdu g.dpdv) (hc : cross g.dpdu g.dpdv ≠ 0) (q : V3 ℝ) (hq : dot g.nn (q - g.p) = 0) :
    q - g.p = (offsets g q).1 * g.dpdu + (offsets g q).2 * g.dpdv := by
  have nx : g.nn.x = k * (g.dpdu.y * g.dpdv.z - g.dpdu.z * g.dpdv.y) := by rw [hn]; rfl
  have ny : g.nn.y = k * (g.dpdu.z * g.dpdv.x - g.dpdu.x * g.dpdv.z) := by rw [hn]; rfl
  have nz : g.nn.z = k * (g.dpdu.x * g.dpdv.y - g.dpdu.y * g.dpdv.x) := by rw [hn]; rfl
  have hne : g.nn ≠ 0 := by
    intro h; apply hc
    rw [hn] at h
    have hx := congrArg V3.x h
    have hy := congrArg V3.y h
    have hz := congrArg V3.z h
    simp only [smul_x, smul_y, smul_z, zero_x, zero_y, zero_z, mul_eq_zero, hk, false_or] at hx hy hz
    ext <;> assumption
  have hq' : g.nn.x * (q.x - g.p.x) + g.nn.y * (q.y - g.p.y) + g.nn.z * (q.z - g.p.z) = 0 := by
    simpa only [dot, sub_x, sub_y, sub_z] using hq
  simp only [offsets, axes]
  by_cases h1 : |g.nn.x| > |g.nn.y| ∧ |g.nn.x| > |g.nn.z|
  · rw [if_pos h1]
    have hx : g.nn.x ≠ 0 := by
      intro h; rw [h, abs_zero] at h1; linarith [abs_nonneg g.nn.y, h1.1]
    have hd : g.dpdu.y * g.dpdv.z - g.dpdv.y * g.dpdu.z ≠ 0 := by
      intro h; apply hx; rw [nx]; linear_combination k * h
    obtain ⟨a, b, e, e1, e2⟩ := solve2_some g.dpdu.y g.dpdv.y g.dpdu.z g.dpdv.z (q.y - g.p.y) (q.z - g.p.z) hd
    simp only [comp, e, Option.getD_some]
    ext
    · simp only [sub_x, add_x, smul_x]
      apply mul_left_cancel₀ hx
      rw [← e1, ← e2, nx, ny, nz] at hq'
      rw [nx]
      linear_combination hq'
    · simp only [sub_y, add_y, smul_y]; linarith
    · simp only [sub_z, add_z, smul_z]; linarith
  · rw [if_neg h1]
    by_cases h2 : |g.nn.y| > |g.nn.z|
    · rw [if_pos h2]
      have hy : g.nn.y ≠ 0 := by
        intro h; rw [h, abs_zero] at h2; linarith [abs_nonneg g.nn.z]
      have hd : g.dpdu.x * g.dpdv.z - g.dpdv.x * g.dpdu.z ≠ 0 := by
        intro h; apply hy; rw [ny]; linear_combination -k * h
      obtain ⟨a, b, e, e1, e2⟩ := solve2_some g.dpdu.x g.dpdv.x g.dpdu.z g.dpdv.z (q.x - g.p.x) (q.z - g.p.z) hd
      simp only [comp, e, Option.getD_some]
      ext
      · simp only [sub_x, add_x, smul_x]; linarith
      · simp only [sub_y, add_y, smul_y]
        apply mul_left_cancel₀ hy
        rw [← e1, ← e2, nx, ny, nz] at hq'
        rw [ny]
        linear_combination hq'
      · simp only [sub_z, add_z, smul_z]; linarith
    · rw [if_neg h2]
      have hz : g.nn.z ≠ 0 := by
        intro h
        rw [h, abs_zero] at h1 h2
        have y0 : g.nn.y = 0 := by
          have := abs_nonneg g.nn.y
          exact abs_eq_zero.1 (le_antisymm (not_lt.1 h2) this)
        have x0 : g.nn.x = 0 := by
          by_contra hx
          exact h1 ⟨by rw [y0, abs_zero]; exact abs_pos.2 hx, abs_pos.2 hx⟩
        exact hne (by ext <;> assumption)
      have hd : g.dpdu.x * g.dpdv.y - g.dpdv.x * g.dpdu.y ≠ 0 := by
        intro h; apply hz; rw [nz]; linear_combination k * h
      obtain ⟨a, b, e, e1, e2⟩ := solve2_some g.dpdu.x g.dpdv.x g.dpdu.y g.dpdv.y (q.x - g.p.x) (q.y - g.p.y) hd
      simp only [comp, e, Option.getD_some]
      ext
      · simp only [sub_x, add_x, smul_x]; linarith
      · simp only [sub_y, add_y, smul_y]; linarith
      · simp only [sub_z, add_z, smul_z]
        apply mul_left_cancel₀ hz
        rw [← e1, ← e2, nx, ny, nz] at hq'
        rw [nz]
        linear_combination hq'

/-- **C128** for every surface point with independent tangents and auxiliary rays that are not parallel to the tangent plane, `dpdx` and `dpdy` lead from the
point to the points where the auxiliary rays meet the tangent plane, and the parameter differentials express them in the tangents:
`dpdx = dudx * dpdu + dvdx * dpdv` and the same in y -/
theorem C128_differentials {T : Type*} (p dpdu dpdv dndu dndv : V3 ℝ) (u v : ℝ) (flip : Bool) (r : Xform.RayDiff ℝ T) (hr : r.hasDiff = true) (hc : cross dpdu dpdv ≠ 0)
    (hx : dot (cross dpdu dpdv) r.rxD ≠ 0) (hy : dot (cross dpdu dpdv) r.ryD ≠ 0) :
    let g := (DiffGeom.init p dpdu dpdv dndu dndv u v flip).compute r
    (dot (cross dpdu dpdv) g.dpdx = 0 ∧ (∃ t : ℝ, p + g.dpdx = r.rxO + t * r.rxD) ∧ g.dpdx = g.dudx * dpdu + g.dvdx * dpdv) ∧
    (dot (cross dpdu dpdv) g.dpdy = 0 ∧ (∃ t : ℝ, p + g.dpdy = r.ryO + t * r.ryD) ∧ g.dpdy = g.dudy * dpdu + g.dvdy * dpdv) := by
  intro g
  obtain ⟨k, hk, hn⟩ := nn_spec p dpdu dpdv dndu dndv u v flip hc
  set g0 := DiffGeom.init p dpdu dpdv dndu dndv u v flip with hg0
  have hdot (w : V3 ℝ) : dot g0.nn w = k * dot (cross dpdu dpdv) w := by
    rw [hn]; simp only [dot, smul_x, smul_y, smul_z]; ring
  have main (o d : V3 ℝ) (hd : dot (cross dpdu dpdv) d ≠ 0) :
      dot (cross dpdu dpdv) (onPlane g0 o d - p) = 0 ∧ (∃ t : ℝ, p + (onPlane g0 o d - p) = o + t * d) ∧
        onPlane g0 o d - p = (offsets g0 (onPlane g0 o d)).1 * dpdu + (offsets g0 (onPlane g0 o d)).2 * dpdv := by
    have h1 := plane_spec g0 o d (by rw [hdot]; exact mul_ne_zero hk hd)
    refine ⟨?_, ⟨-(dot g0.nn o + -dot g0.nn g0.p) / dot g0.nn d, ?_⟩, offsets_spec g0 k hk hn hc _ h1⟩
    · rw [hdot, mul_eq_zero] at h1
      exact h1.resolve_left hk
    · ext <;> simp only [onPlane, add_x, add_y, add_z, sub_x, sub_y, sub_z, smul_x, smul_y, smul_z] <;> ring
  have eg : g = { g0 with
      dpdx := onPlane g0 r.rxO r.rxD - g0.p, dpdy := onPlane g0 r.ryO r.ryD - g0.p,
      dudx := (offsets g0 (onPlane g0 r.rxO r.rxD)).1, dvdx := (offsets g0 (onPlane g0 r.rxO r.rxD)).2,
      dudy := (offsets g0 (onPlane g0 r.ryO r.ryD)).1, dvdy := (offsets g0 (onPlane g0 r.ryO r.ryD)).2 } := by
    simp only [g, DiffGeom.compute, hr, if_true]
    rfl
  rw [eg]
  exact ⟨main r.rxO r.rxD hx, main r.ryO r.ryD hy⟩

/-- **C128** without auxiliary rays all differentials are zero -/
theorem C128_none {T : Type*} (g : DiffGeom) (r : Xform.RayDiff ℝ T) (hr : r.hasDiff = false) :
    (g.compute r).dpdx = 0 ∧ (g.compute r).dpdy = 0 ∧ (g.compute r).dudx = 0 ∧ (g.compute r).dvdx = 0 ∧ (g.compute r).dudy = 0 ∧ (g.compute r).dvdy = 0 := by
  simp only [DiffGeom.compute, hr]
  exact ⟨rfl, rfl, rfl, rfl, rfl, rfl⟩

/-- a case the theorem applies to: the xy plane seen along z, auxiliary ray shifted by one in x -/
example : ∃ r : Xform.RayDiff ℝ ℝ, r.hasDiff = true ∧ dot (cross ⟨1, 0, 0⟩ ⟨0, 1, 0⟩) r.rxD ≠ 0 ∧ dot (cross ⟨1, 0, 0⟩ ⟨0, 1, 0⟩) r.ryD ≠ 0 :=
  ⟨⟨⟨⟨0, 0, -1⟩, ⟨0, 0, 1⟩, 0, 1, 0, 0⟩, true, ⟨1, 0, -1⟩, ⟨0, 1, -1⟩, ⟨0, 0, 1⟩, ⟨0, 0, 1⟩⟩, rfl, by norm_num [dot, cross], by norm_num [dot, cross]⟩

end Verif.DiffG
