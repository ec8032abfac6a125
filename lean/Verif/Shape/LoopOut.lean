import Verif.Shape.LoopLimit
import Verif.BBox.Props
import Mathlib.Data.EReal.Basic
import Mathlib.Analysis.SpecialFunctions.Complex.Circle
import Mathlib.Algebra.Field.GeomSum
import Mathlib.Analysis.SpecialFunctions.Trigonometric.Basic

/-!
# Loop subdivision: normals and the mesh that is returned

Models `LoopSubdiv.refine` after the level loop (`pytracer/shape/loopsubdiv.py:386-446`).
-/

namespace Verif.Loop

open V3

/-- What the tangent loop reads of one vertex: its flag, `vv.one_ring()` and `vv.P`, both after
the move to the limit positions (`loopsubdiv.py:394-395`). -/
structure TV where
  boundary : Bool
  ring : List (V3 ℝ)
  P : V3 ℝ

/-- `Pring[k]`.  Simplification: an index out of range gives 0 (does not happen, `valence` is the
length of the ring, C92). -/
noncomputable def TV.at (t : TV) (k : ℕ) : V3 ℝ := t.ring.getD k 0

/-- Sum of a list of points, `np.sum(…, axis=0)`. -/
noncomputable def vsum (l : List (V3 ℝ)) : V3 ℝ := l.foldl (fun a b => a + b) 0

/-- The increments of an interior vertex (`loopsubdiv.py:409-410`). -/
noncomputable def TV.interior (t : TV) : V3 ℝ × V3 ℝ :=
  let n := t.ring.length
  (vsum ((List.range n).map fun k : ℕ => Real.cos (2 * Real.pi * k * (1 / (n : ℝ))) * t.at k),
   vsum ((List.range n).map fun k : ℕ => Real.sin (2 * Real.pi * k * (1 / (n : ℝ))) * t.at k))

/-- The tangents of a boundary vertex (`loopsubdiv.py:415-428`). -/
noncomputable def TV.edge (t : TV) : V3 ℝ × V3 ℝ :=
  let n := t.ring.length
  (t.at (n - 1) - t.at 0,
   if n = 2 then t.at 0 + t.at 1 - (2 : ℝ) * t.P
   else if n = 3 then t.at 1 - t.P
   else if n = 4 then (-1 : ℝ) * t.at 0 + (2 : ℝ) * t.at 1 + (2 : ℝ) * t.at 2 + (-1 : ℝ) * t.at 3
     + (-2 : ℝ) * t.P
   else
     let θ := Real.pi / ((n : ℝ) - 1)
     (-1 : ℝ) * (Real.sin θ * (t.at 0 + t.at (n - 1)) + vsum ((List.range (n - 1)).map
       fun k : ℕ => ((2 * Real.cos θ - 2) * Real.sin (k * θ)) * t.at k)))

/-- The tangent loop (`loopsubdiv.py:400-430`).  The state holds the local variables `S` and `T`,
`none` while they are unbound; the result `none` is the `UnboundLocalError` of line 409. -/
noncomputable def normalsLoop : Option (V3 ℝ × V3 ℝ) → List TV → Option (List (V3 ℝ))
  | _, [] => some []
  | st, t :: rest =>
    let st' : Option (V3 ℝ × V3 ℝ) :=
      if !t.boundary then st.map fun (S, T) => (S + t.interior.1, T + t.interior.2)
      else some t.edge
    st'.bind fun (S, T) => (normalsLoop (some (S, T)) rest).map fun l => cross S T :: l

section
variable {V F : Type} [DecidableEq V] [DecidableEq F]

/-- The last level after `vv.P = Plimit[i]` (`loopsubdiv.py:387-395`). -/
noncomputable def SD.moved (S : SD V F) : SD V F := S.withP S.limitPos

/-- The view the tangent loop has of the vertices. -/
noncomputable def SD.tvs (S : SD V F) : List TV :=
  S.verts.map fun x => ⟨S.boundary x, S.moved.ring x, S.limitPos x⟩

/-- The parameters handed to `create_triangle_mesh`. -/
structure Out where
  indices : List ℕ
  P : List (V3 ℝ)
  N : List (V3 ℝ)

/-- The index list (`loopsubdiv.py:433-439`). -/
def SD.indices (S : SD V F) : List ℕ :=
  S.faces.flatMap fun a => [S.verts.idxOf (S.m.v a 0), S.verts.idxOf (S.m.v a 1),
    S.verts.idxOf (S.m.v a 2)]

/-- The end of `refine` on the last level (`loopsubdiv.py:386-446`); `none` is an exception. -/
noncomputable def SD.finish (S : SD V F) : Option Out :=
  (normalsLoop none S.tvs).map fun N => ⟨S.indices, S.verts.map S.limitPos, N⟩

/-- `refine` with `nLevels = n` (`loopsubdiv.py:290-446`). -/
noncomputable def SD.refineOut (S : SD V F) (n : ℕ) : Option Out := (S.level n).finish

/-! ## Properties -/

theorem normalsLoop_some (st : V3 ℝ × V3 ℝ) (l : List TV) :
    ∃ N, normalsLoop (some st) l = some N ∧ N.length = l.length := by
  induction l generalizing st with
  | nil => exact ⟨[], rfl, rfl⟩
  | cons t rest ih =>
    by_cases h : t.boundary = true
    · obtain ⟨N, hN, hl⟩ := ih t.edge
      exact ⟨cross t.edge.1 t.edge.2 :: N, by simp [normalsLoop, h, hN], by simp [hl]⟩
    · obtain ⟨N, hN, hl⟩ := ih (st.1 + t.interior.1, st.2 + t.interior.2)
      exact ⟨_ :: N, by simp [normalsLoop, h, hN]; rfl, by simp [hl]⟩

/-- C95: the normal of a boundary vertex depends only on the vertex and its ring. -/
theorem C95_boundary_normal_local (st : Option (V3 ℝ × V3 ℝ)) (t : TV) (rest : List TV)
    (hb : t.boundary = true) :
    ∃ N, normalsLoop st (t :: rest) = some (cross t.edge.1 t.edge.2 :: N) := by
  obtain ⟨N, hN, -⟩ := normalsLoop_some t.edge rest
  exact ⟨N, by simp [normalsLoop, hb, hN]⟩

/-- The first vertex of a level is the one that comes from the first control vertex. -/
theorem level_verts_head {S : SD V F} {x : V} {t : List V} (h : S.verts = x :: t) (n : ℕ) :
    ∃ t', (S.level n).verts = desc x n :: t' := by
  induction n with
  | zero => exact ⟨t, h⟩
  | succ n ih =>
    obtain ⟨t', ht'⟩ := ih
    refine ⟨t'.map Vert.even ++ ((halfEdges (S.level n).faces).map fun h =>
      .odd (edge (S.level n).m.v h)).eraseDups, ?_⟩
    show ((S.level n).verts.map Vert.even ++ _) = _
    rw [ht']; rfl

/-- C95: whether `refine` returns depends only on the first control vertex: it returns if that is
on the boundary and raises if it is interior, whatever the number of levels. -/
theorem C95_refine_returns_iff [Fintype F] {S : SD V F} (hg : Good S) {x : V} {t : List V}
    (h : S.verts = x :: t) (n : ℕ) : (∃ o, S.refineOut n = some o) ↔ S.boundary x = true := by
  obtain ⟨t', ht'⟩ := level_verts_head h n
  have hx : x ∈ S.verts := by rw [h]; exact List.mem_cons_self
  obtain ⟨-, hb, -⟩ := desc_spec hg hx n
  unfold SD.refineOut SD.finish SD.tvs
  rw [ht', List.map_cons]
  constructor
  · rintro ⟨o, ho⟩
    by_contra hf
    rw [Bool.eq_false_iff.2 hf] at hb
    simp [normalsLoop, hb] at ho
  · intro ht
    rw [ht] at hb
    obtain ⟨N, hN⟩ := C95_boundary_normal_local none
      ⟨(S.level n).boundary (desc x n), (S.level n).moved.ring (desc x n),
        (S.level n).limitPos (desc x n)⟩
      (t'.map fun x => ⟨(S.level n).boundary x, (S.level n).moved.ring x, (S.level n).limitPos x⟩) hb
    exact ⟨_, by rw [List.map_cons, hN]; rfl⟩

/-- C95 (violation): `refine` raises on every closed mesh. -/
theorem C95_closed_mesh_raises_false [Fintype F] {S : SD V F} (hg : Good S)
    (hne : S.verts ≠ []) (hc : ∀ x ∈ S.verts, S.boundary x = false) (n : ℕ) :
    S.refineOut n = none := by
  obtain ⟨x, t, h⟩ := List.exists_cons_of_ne_nil hne
  cases ho : S.refineOut n with
  | none => rfl
  | some o =>
    have := (C95_refine_returns_iff hg h n).1 ⟨o, ho⟩
    rw [hc x (by rw [h]; exact List.mem_cons_self)] at this
    exact absurd this (by simp)

/-- C95: the mesh that is returned is well formed: one position and one normal for each vertex,
three indices for each face, all in range, and each index points at the position of its corner. -/
theorem C95_output_wellformed [Fintype F] {S : SD V F} (hg : Good S) {o : Out}
    (ho : S.finish = some o) :
    o.P.length = S.verts.length ∧ o.N.length = o.P.length ∧
    o.indices.length = 3 * S.faces.length ∧ (∀ i ∈ o.indices, i < o.P.length) ∧
    (o.indices.map fun i => o.P[i]?) =
      S.faces.flatMap fun a => [some (S.limitPos (S.m.v a 0)), some (S.limitPos (S.m.v a 1)),
        some (S.limitPos (S.m.v a 2))] := by
  unfold SD.finish at ho
  obtain ⟨N, hN, rfl⟩ := Option.map_eq_some_iff.1 ho
  have hlen : N.length = S.tvs.length := by
    cases ht : S.tvs with
    | nil => rw [ht] at hN; simp [normalsLoop] at hN; simp [← hN]
    | cons t rest =>
      rw [ht] at hN
      by_cases hb : t.boundary = true
      · simp only [normalsLoop, hb, Bool.not_true, Bool.false_eq_true, if_false,
          Option.bind_some] at hN
        obtain ⟨N', hN', hl⟩ := normalsLoop_some t.edge rest
        rw [hN'] at hN
        simp at hN
        rw [← hN]; simp [hl]
      · simp [normalsLoop, hb] at hN
  have hidx : ∀ a k, S.verts.idxOf (S.m.v a k) < S.verts.length :=
    fun a k => List.idxOf_lt_length_of_mem (hg.corners a k)
  have hget : ∀ a k, (S.verts.map S.limitPos)[S.verts.idxOf (S.m.v a k)]? =
      some (S.limitPos (S.m.v a k)) := by
    intro a k
    rw [List.getElem?_map, List.getElem?_eq_getElem (hidx a k), List.getElem_idxOf]; rfl
  refine ⟨by simp, by simp [hlen, SD.tvs], ?_, ?_, ?_⟩
  · simp only [SD.indices]
    induction S.faces with
    | nil => rfl
    | cons a l ih => simp only [List.flatMap_cons, List.length_append, ih]; simp; omega
  · intro i hi
    simp only [SD.indices, List.mem_flatMap, List.mem_cons, List.not_mem_nil, or_false] at hi
    obtain ⟨a, -, rfl | rfl | rfl⟩ := hi <;> simpa using hidx a _
  · simp only [SD.indices, List.map_flatMap, List.map_cons, List.map_nil, hget]

theorem root_sums (n m : ℕ) (hn : n ≠ 0) (hm : ¬ n ∣ m) :
    ∑ k ∈ Finset.range n, Real.cos (m * (2 * Real.pi * k * (1 / (n : ℝ)))) = 0 ∧ ∑ k ∈ Finset.range n, Real.sin (m * (2 * Real.pi * k * (1 / (n : ℝ)))) = 0 := by
  set z : ℂ := Complex.exp (2 * Real.pi * Complex.I * (m / n)) with hz
  have hn' : (n : ℂ) ≠ 0 := by exact_mod_cast hn
  have h1 : z ^ n = 1 := by
    rw [hz, ← Complex.exp_nat_mul, Complex.exp_eq_one_iff]
    exact ⟨m, by field_simp; push_cast; ring⟩
  have h2 : z ≠ 1 := by
    rw [hz, Ne, Complex.exp_eq_one_iff]
    rintro ⟨q, hq⟩
    have hp : (2 * Real.pi * Complex.I : ℂ) ≠ 0 := Complex.two_pi_I_ne_zero
    have : (m / n : ℂ) = q := by
      apply mul_left_cancel₀ hp; rw [hq]; ring
    rw [div_eq_iff hn'] at this
    apply hm
    have h : (m : ℤ) = q * n := by exact_mod_cast this
    exact Int.natCast_dvd_natCast.1 ⟨q, by rw [h]; ring⟩
  have h3 : ∑ k ∈ Finset.range n, z ^ k = 0 := by
    rw [geom_sum_eq h2, h1, sub_self, zero_div]
  have h4 : ∀ k : ℕ, (z ^ k).re = Real.cos (m * (2 * Real.pi * k * (1 / (n : ℝ)))) ∧ (z ^ k).im = Real.sin (m * (2 * Real.pi * k * (1 / (n : ℝ)))) := by
    intro k
    rw [hz, ← Complex.exp_nat_mul]
    have : (k : ℂ) * (2 * Real.pi * Complex.I * (m / n)) = ((m * (2 * Real.pi * k * (1 / (n : ℝ))) : ℝ) : ℂ) * Complex.I := by push_cast; ring
    rw [this]
    exact ⟨Complex.exp_ofReal_mul_I_re _, Complex.exp_ofReal_mul_I_im _⟩
  constructor
  · have := congrArg Complex.re h3
    rw [Complex.re_sum, Complex.zero_re] at this
    simpa only [h4] using this
  · have := congrArg Complex.im h3
    rw [Complex.im_sum, Complex.zero_im] at this
    simpa only [h4] using this

theorem vsum_range (n : ℕ) (f : ℕ → V3 ℝ) : vsum ((List.range n).map f) =
    ⟨∑ k ∈ Finset.range n, (f k).x, ∑ k ∈ Finset.range n, (f k).y, ∑ k ∈ Finset.range n, (f k).z⟩ := by
  unfold vsum
  induction n with
  | zero => rfl
  | succ n ih =>
    rw [List.range_succ, List.map_append, List.foldl_append, ih]
    simp only [List.map_cons, List.map_nil, List.foldl_cons, List.foldl_nil, Finset.sum_range_succ]
    rfl

/-- C95: what the two tangent sums of an interior vertex of valence at least three measure.  When
the ring is an affine image of the regular `n`-gon (`c + cos(2πk/n)·e1 + sin(2πk/n)·e2`), the two
increments are `n/2` times `e1` and `n/2` times `e2`: independent tangents of the ring's plane,
whatever its centre. -/
theorem C95_interior_tangents (t : TV) (c e1 e2 : V3 ℝ) (n : ℕ) (hn : 3 ≤ n)
    (hr : t.ring = (List.range n).map fun k : ℕ =>
      c + (Real.cos (2 * Real.pi * k * (1 / (n : ℝ))) * e1
        + Real.sin (2 * Real.pi * k * (1 / (n : ℝ))) * e2)) :
    t.interior = (((n : ℝ) / 2) * e1, ((n : ℝ) / 2) * e2) := by
  have hn0 : n ≠ 0 := by omega
  obtain ⟨c1, s1⟩ := root_sums n 1 hn0 (fun h => by have := Nat.le_of_dvd one_pos h; omega)
  obtain ⟨c2, s2⟩ := root_sums n 2 hn0 (fun h => by have := Nat.le_of_dvd two_pos h; omega)
  simp only [Nat.cast_one, one_mul, Nat.cast_ofNat, Real.cos_two_mul, Real.sin_two_mul] at c1 s1 c2 s2
  have hl : t.ring.length = n := by rw [hr]; simp
  have hat : ∀ k ∈ List.range n, t.at k = c + (Real.cos (2 * Real.pi * k * (1 / (n : ℝ))) * e1
        + Real.sin (2 * Real.pi * k * (1 / (n : ℝ))) * e2) := by
    intro k hk
    have hk := List.mem_range.1 hk
    simp [TV.at, hr, hk]
  set C : ℕ → ℝ := fun k => Real.cos (2 * Real.pi * k * (1 / (n : ℝ))) with hC
  set S : ℕ → ℝ := fun k => Real.sin (2 * Real.pi * k * (1 / (n : ℝ))) with hS
  have h1 : ∑ k ∈ Finset.range n, C k * C k = n / 2 := by
    have : ∑ k ∈ Finset.range n, (2 * C k ^ 2 - 1) = 0 := c2
    rw [Finset.sum_sub_distrib, ← Finset.mul_sum] at this
    simp only [← pow_two]
    simp at this
    linarith
  have h2 : ∑ k ∈ Finset.range n, S k * S k = n / 2 := by
    have : ∑ k ∈ Finset.range n, (C k * C k + S k * S k) = n := by
      have : ∀ k, C k * C k + S k * S k = 1 := fun k => by
        simp only [hC, hS]; nlinarith [Real.sin_sq_add_cos_sq (2 * Real.pi * k * (1 / (n : ℝ)))]
      simp [this]
    rw [Finset.sum_add_distrib, h1] at this
    linarith
  have h3 : ∑ k ∈ Finset.range n, S k * C k = 0 := by
    have : ∑ k ∈ Finset.range n, (2 * S k * C k) = 0 := s2
    simp only [mul_assoc, ← Finset.mul_sum] at this
    linarith
  have h3' : ∑ k ∈ Finset.range n, C k * S k = 0 := by
    simpa only [mul_comm] using h3
  have c1 : ∑ k ∈ Finset.range n, C k = 0 := c1
  have s1 : ∑ k ∈ Finset.range n, S k = 0 := s1
  have lin : ∀ (w : ℕ → ℝ) (a b d : ℝ), ∑ k ∈ Finset.range n, w k * (a + (C k * b + S k * d)) =
      (∑ k ∈ Finset.range n, w k) * a + (∑ k ∈ Finset.range n, w k * C k) * b
        + (∑ k ∈ Finset.range n, w k * S k) * d := by
    intro w a b d
    rw [Finset.sum_mul, Finset.sum_mul, Finset.sum_mul, ← Finset.sum_add_distrib, ← Finset.sum_add_distrib]
    exact Finset.sum_congr rfl fun k _ => by ring
  have fin : ∀ w : ℕ → ℝ, vsum ((List.range n).map fun k => w k * t.at k) =
      (⟨(∑ k ∈ Finset.range n, w k) * c.x + (∑ k ∈ Finset.range n, w k * C k) * e1.x
        + (∑ k ∈ Finset.range n, w k * S k) * e2.x,
       (∑ k ∈ Finset.range n, w k) * c.y + (∑ k ∈ Finset.range n, w k * C k) * e1.y
        + (∑ k ∈ Finset.range n, w k * S k) * e2.y,
       (∑ k ∈ Finset.range n, w k) * c.z + (∑ k ∈ Finset.range n, w k * C k) * e1.z
        + (∑ k ∈ Finset.range n, w k * S k) * e2.z⟩ : V3 ℝ) := by
    intro w
    rw [List.map_congr_left (g := fun k => w k * (c + (C k * e1 + S k * e2)))
      (fun k hk => by rw [hat k hk]), vsum_range]
    simp only [smul_x, smul_y, smul_z, add_x, add_y, add_z, lin]
  simp only [TV.interior, hl]
  refine Prod.ext ?_ ?_
  · refine (fin C).trans ?_
    rw [c1, h1, h3']
    ext <;> simp
  · refine (fin S).trans ?_
    rw [s1, h2, h3]
    ext <;> simp
/-- A concrete ring: the unit square around the origin, tangents `2·x` and `2·y`. -/
example : (TV.mk false ((List.range 4).map fun k : ℕ =>
      (0 : V3 ℝ) + (Real.cos (2 * Real.pi * k * (1 / ((4 : ℕ) : ℝ))) * (⟨1, 0, 0⟩ : V3 ℝ)
        + Real.sin (2 * Real.pi * k * (1 / ((4 : ℕ) : ℝ))) * (⟨0, 1, 0⟩ : V3 ℝ))) 0).interior
    = ((((4 : ℕ) : ℝ) / 2) * (⟨1, 0, 0⟩ : V3 ℝ), (((4 : ℕ) : ℝ) / 2) * (⟨0, 1, 0⟩ : V3 ℝ)) :=
  C95_interior_tangents _ 0 _ _ 4 (by norm_num) rfl

/-- C95 (violation): the normal of an interior vertex depends on the vertex before it in the list,
because the tangents are added to those of that vertex: for every interior vertex there are two
boundary predecessors for which it gets two different normals, one of them the zero vector. -/
theorem C95_interior_normal_local_false (t : TV) (hi : t.boundary = false) :
    ∃ b b' : TV, b.boundary = true ∧ b'.boundary = true ∧ ∃ n₁ n₂ m₁ m₂,
      normalsLoop none [b, t] = some [n₁, n₂] ∧ normalsLoop none [b', t] = some [m₁, m₂] ∧
      n₂ = ⟨0, 0, 0⟩ ∧ m₂ = ⟨0, 0, 1⟩ := by
  have key : ∀ s u : V3 ℝ, ∃ b : TV, b.boundary = true ∧ b.edge = (s, u) := by
    intro s u
    refine ⟨⟨true, [0, u, s], 0⟩, rfl, ?_⟩
    simp only [TV.edge, TV.at, List.length_cons, List.length_nil]
    norm_num
    constructor <;> (apply V3.ext <;> simp)
  have run : ∀ b : TV, b.boundary = true → normalsLoop none [b, t] =
      some [cross b.edge.1 b.edge.2, cross (b.edge.1 + t.interior.1) (b.edge.2 + t.interior.2)] := by
    intro b hb
    simp [normalsLoop, hb, hi]
  obtain ⟨b, hb, he⟩ := key (-t.interior.1) (-t.interior.2)
  obtain ⟨b', hb', he'⟩ := key (⟨1, 0, 0⟩ - t.interior.1) (⟨0, 1, 0⟩ - t.interior.2)
  refine ⟨b, b', hb, hb', _, _, _, _, run b hb, run b' hb', ?_, ?_⟩
  · rw [he]; apply V3.ext <;> simp [cross]
  · rw [he']; apply V3.ext <;> simp [cross]

/-! ## The bounds reported before refinement -/

/-- A point with float coordinates as a point of extended reals. -/
def toE (p : V3 ℝ) : V3 EReal := ⟨(p.x : EReal), (p.y : EReal), (p.z : EReal)⟩

/-- `LoopSubdiv.world_bound` (`loopsubdiv.py:284-288`); with the identity for `o2w` it is
`object_bound` (278-282).  Simplification: `o2w` is an affine map of real coordinates. -/
noncomputable def SD.bound (S : SD V F) (o2w : V3 ℝ → V3 ℝ) : Option (BBox EReal) :=
  BBox.unionAll BBox.empty (S.verts.map fun x => .pt (toE (o2w (S.P x))))

/-- An upper bound for a functional on the control points is one for all points of the levels. -/
theorem hull_ereal [Fintype F] {S : SD V F} (hg : Good S) (d : V3 ℝ) (k : ℝ) (M : EReal)
    (h : ∀ x ∈ S.verts, ((dot d (S.P x) + k : ℝ) : EReal) ≤ M) (n : ℕ) :
    ∀ x ∈ (S.level n).verts, ((dot d ((S.level n).limitPos x) + k : ℝ) : EReal) ≤ M := by
  intro x hx
  induction M using EReal.rec with
  | bot =>
    exfalso
    have hv : ∀ y ∈ S.verts, False := fun y hy => by
      have := h y hy
      rw [le_bot_iff] at this
      exact EReal.coe_ne_bot _ this
    have := (C44_output_in_hull hg d (dot d ((S.level n).limitPos x) - 1)
      (fun y hy => (hv y hy).elim) n).2 x hx
    linarith
  | top => exact le_top
  | coe m =>
    rw [EReal.coe_le_coe_iff]
    have := (C44_output_in_hull hg d (m - k) (fun y hy => by
      have := h y hy; rw [EReal.coe_le_coe_iff] at this; linarith) n).2 x hx
    linarith

/-- C44: the world bound reported before refinement holds every vertex that refinement outputs,
for every affine object-to-world map and every number of levels. -/
theorem C44_world_bound_holds_output [Fintype F] {S : SD V F} (hg : Good S) (A : Affine) (n : ℕ) :
    ∃ b, S.bound A.app = some b ∧
      ∀ x ∈ (S.level n).verts, BBox.Mem (toE (A.app ((S.level n).limitPos x))) b := by
  have hs : (S.bound A.app).isSome = true := by
    unfold SD.bound
    rw [BBox.C01_union_succeeds_iff]
    simp
  obtain ⟨b, hb⟩ := Option.isSome_iff_exists.1 hs
  refine ⟨b, hb, fun x hx => ?_⟩
  have hc : ∀ y ∈ S.verts, BBox.Mem (toE (A.app (S.P y))) b := fun y hy =>
    (BBox.C01_union_is_least _ _ hb).1 _ (List.mem_map.2 ⟨y, hy, rfl⟩)
  have neg : ∀ (d q : V3 ℝ), dot (-d) q = -dot d q := fun d q => by simp [dot]; ring
  have up : ∀ (d : V3 ℝ) (k : ℝ) (M : EReal),
      (∀ y ∈ S.verts, ((dot d (S.P y) + k : ℝ) : EReal) ≤ M) →
      ((dot d ((S.level n).limitPos x) + k : ℝ) : EReal) ≤ M :=
    fun d k M h => hull_ereal hg d k M h n x hx
  have lo : ∀ (d : V3 ℝ) (k : ℝ) (M : EReal),
      (∀ y ∈ S.verts, M ≤ ((dot d (S.P y) + k : ℝ) : EReal)) →
      M ≤ ((dot d ((S.level n).limitPos x) + k : ℝ) : EReal) := by
    intro d k M h
    have := up (-d) (-k) (-M) fun y hy => by
      have h1 := h y hy
      rw [neg, ← neg_add, EReal.coe_neg, EReal.neg_le_neg_iff]
      exact h1
    rw [neg, ← neg_add, EReal.coe_neg, EReal.neg_le_neg_iff] at this
    exact this
  exact ⟨⟨lo A.r1 A.t.x _ fun y hy => (hc y hy).1.1, up A.r1 A.t.x _ fun y hy => (hc y hy).1.2⟩,
    ⟨lo A.r2 A.t.y _ fun y hy => (hc y hy).2.1.1, up A.r2 A.t.y _ fun y hy => (hc y hy).2.1.2⟩,
    ⟨lo A.r3 A.t.z _ fun y hy => (hc y hy).2.2.1, up A.r3 A.t.z _ fun y hy => (hc y hy).2.2.2⟩⟩

end

end Verif.Loop
