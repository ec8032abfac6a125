import Verif.Shape.Mesh
import Verif.MC.Law

/-! # Evenness of the points sampled on a triangle (C71), about `Triangle.sample` (`pytracer/shape/triangle.py:146-161`) -/
namespace Verif.Shape
open V3 MeasureTheory Set

/-- **C71 (part)** the points sampled on a triangle are spread evenly: the mass sent into any set of points is the share of barycentric pairs (an affine chart of the triangle, so the share of area) whose point is in the
set.  For triangles whose second vertex number is the first plus one; missing: all others, `C71_wrong_vertex_false`. -/
theorem C71_uniform_partial (m : Mesh ℝ) (v : ℕ) (ro : Bool) (i : ℤ) (hi : pyGet m.vi v = some i) (hi' : pyGet m.vi (v + (1 : ℕ)) = some (i + 1)) (p1 p2 p3 : V3 ℝ)
    (h1 : m.vertex v 0 = some p1) (h2 : m.vertex v 1 = some p2) (h3 : m.vertex v 2 = some p3) (A : Set (V3 ℝ))
    (hA : MeasurableSet {b : ℝ × ℝ | b.1 * p1 + b.2 * p2 + (1 - b.1 - b.2) * p3 ∈ A}) :
    volume {u : ℝ × ℝ | u ∈ Icc (0 : ℝ) 1 ×ˢ Icc (0 : ℝ) 1 ∧ ∃ q n, sample m v ro u.1 u.2 = some (q, n) ∧ q ∈ A} =
      volume {b : ℝ × ℝ | b.1 * p1 + b.2 * p2 + (1 - b.1 - b.2) * p3 ∈ A ∧ 0 ≤ b.1 ∧ 0 ≤ b.2 ∧ b.1 + b.2 ≤ 1} / ENNReal.ofReal (1 / 2) := by
  have hq : (pyGet m.vi v).bind (fun i => pyGet m.p (i + 1)) = some p2 := by
    rw [hi, Option.bind_some]
    rw [Mesh.vertex, hi', Option.bind_some] at h2
    exact h2
  have := MC.C66_triangle_law {b : ℝ × ℝ | b.1 * p1 + b.2 * p2 + (1 - b.1 - b.2) * p3 ∈ A} hA
  refine Eq.trans (congrArg volume ?_) this
  ext u
  simp only [mem_ofPred_eq, sample, h1, h2, h3, hq, Option.some.injEq, Prod.mk.injEq]
  constructor
  · rintro ⟨hu, q, n, ⟨rfl, -⟩, h⟩; exact ⟨hu, h⟩
  · rintro ⟨hu, h⟩; exact ⟨hu, _, _, ⟨rfl, rfl⟩, h⟩

/-- a triangle and a set of points that meet the hypotheses -/
example : ∃ m : Mesh ℝ, pyGet m.vi (0 : ℕ) = some 0 ∧ pyGet m.vi ((0 : ℕ) + (1 : ℕ)) = some (0 + 1) ∧ m.vertex 0 0 = some ⟨0, 0, 0⟩ ∧ m.vertex 0 1 = some ⟨1, 0, 0⟩ ∧ m.vertex 0 2 = some ⟨0, 1, 0⟩ ∧
    MeasurableSet {b : ℝ × ℝ | b.1 * (⟨0, 0, 0⟩ : V3 ℝ) + b.2 * (⟨1, 0, 0⟩ : V3 ℝ) + (1 - b.1 - b.2) * (⟨0, 1, 0⟩ : V3 ℝ) ∈ {p : V3 ℝ | p.x ≤ 1 / 2}} := by
  refine ⟨⟨1, 3, [0, 1, 2], [⟨0, 0, 0⟩, ⟨1, 0, 0⟩, ⟨0, 1, 0⟩], none, none, id⟩, by simp [pyGet], by simp [pyGet], by simp [Mesh.vertex, pyGet], by simp [Mesh.vertex, pyGet], by simp [Mesh.vertex, pyGet], ?_⟩
  have : {b : ℝ × ℝ | b.1 * (⟨0, 0, 0⟩ : V3 ℝ) + b.2 * (⟨1, 0, 0⟩ : V3 ℝ) + (1 - b.1 - b.2) * (⟨0, 1, 0⟩ : V3 ℝ) ∈ {p : V3 ℝ | p.x ≤ 1 / 2}} = {b : ℝ × ℝ | b.2 ≤ 1 / 2} := by
    ext b; simp
  rw [this]
  exact measurableSet_le measurable_snd measurable_const

end Verif.Shape
