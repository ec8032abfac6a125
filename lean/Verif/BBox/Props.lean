import Verif.BBox.Model
import Mathlib.Tactic.NormNum
import Mathlib.Tactic.Positivity
import Mathlib.Order.WithBot

/-!
# Properties C01, C03, C04, C59 (boxes)
-/

namespace Verif.BBox

/-! ## Specification: what it means for a point / a box to be in a box -/

/-- closed membership, coordinate by coordinate -/
def Mem {α : Type*} [LinearOrder α] (p : V3 α) (b : BBox α) : Prop :=
  (b.pMin.x ≤ p.x ∧ p.x ≤ b.pMax.x) ∧ (b.pMin.y ≤ p.y ∧ p.y ≤ b.pMax.y) ∧
  (b.pMin.z ≤ p.z ∧ p.z ≤ b.pMax.z)

/-- `b` lies in `c`: each side of `c` is at or beyond the same side of `b` -/
def Sub {α : Type*} [LinearOrder α] (b c : BBox α) : Prop :=
  (c.pMin.x ≤ b.pMin.x ∧ b.pMax.x ≤ c.pMax.x) ∧ (c.pMin.y ≤ b.pMin.y ∧ b.pMax.y ≤ c.pMax.y) ∧
  (c.pMin.z ≤ b.pMin.z ∧ b.pMax.z ≤ c.pMax.z)

/-- what it means that box `c` holds an argument passed to `union` -/
def Holds {α : Type*} [LinearOrder α] (c : BBox α) : Arg α → Prop
  | .pt p => Mem p c
  | .box b => Sub b c
  | .other => False

/-- a proper (non-inverted) box -/
def Proper {α : Type*} [LinearOrder α] (b : BBox α) : Prop :=
  b.pMin.x ≤ b.pMax.x ∧ b.pMin.y ≤ b.pMax.y ∧ b.pMin.z ≤ b.pMax.z

/-- `Sub` is inclusion of point sets, for proper boxes (sanity of the specification). -/
theorem sub_iff_forall_mem {α : Type*} [LinearOrder α] {b c : BBox α} (hb : Proper b) :
    Sub b c ↔ ∀ p, Mem p b → Mem p c := by
  constructor
  · rintro ⟨⟨h1, h2⟩, ⟨h3, h4⟩, h5, h6⟩ p ⟨⟨g1, g2⟩, ⟨g3, g4⟩, g5, g6⟩
    exact ⟨⟨h1.trans g1, g2.trans h2⟩, ⟨h3.trans g3, g4.trans h4⟩, h5.trans g5, g6.trans h6⟩
  · intro h
    obtain ⟨hx, hy, hz⟩ := hb
    have h1 := h b.pMin ⟨⟨le_rfl, hx⟩, ⟨le_rfl, hy⟩, le_rfl, hz⟩
    have h2 := h b.pMax ⟨⟨hx, le_rfl⟩, ⟨hy, le_rfl⟩, hz, le_rfl⟩
    exact ⟨⟨h1.1.1, h2.1.2⟩, ⟨h1.2.1.1, h2.2.1.2⟩, h1.2.2.1, h2.2.2.2⟩

section C01
variable {α : Type*} [LinearOrder α]

theorem union_some_iff (b : BBox α) (a : Arg α) (r : BBox α) (h : union b a = some r) (c : BBox α) :
    Sub r c ↔ Sub b c ∧ Holds c a := by
  cases a with
  | pt p =>
    simp only [union, Option.some.injEq] at h; subst h
    simp only [Sub, Holds, Mem, unionPt, le_min_iff, max_le_iff]; tauto
  | box d =>
    simp only [union, Option.some.injEq] at h; subst h
    simp only [Sub, Holds, unionBox, le_min_iff, max_le_iff]; tauto
  | other => simp [union] at h

theorem unionAll_some_iff (b : BBox α) (as : List (Arg α)) (r : BBox α)
    (h : unionAll b as = some r) (c : BBox α) :
    Sub r c ↔ Sub b c ∧ ∀ a ∈ as, Holds c a := by
  induction as generalizing b with
  | nil => simp only [unionAll, Option.some.injEq] at h; subst h; simp
  | cons a as ih =>
    simp only [unionAll, Option.bind_eq_some_iff] at h
    obtain ⟨d, hd, h⟩ := h
    rw [ih d h, union_some_iff b a d hd c]
    simp [and_assoc]

theorem Sub.refl (b : BBox α) : Sub b b := by simp [Sub]

theorem Sub.antisymm {b c : BBox α} (h : Sub b c) (h' : Sub c b) : b = c := by
  obtain ⟨⟨a1, a2⟩, ⟨a3, a4⟩, a5, a6⟩ := h
  obtain ⟨⟨b1, b2⟩, ⟨b3, b4⟩, b5, b6⟩ := h'
  ext
  exacts [le_antisymm b1 a1, le_antisymm b3 a3, le_antisymm b5 a5, le_antisymm a2 b2,
    le_antisymm a4 b4, le_antisymm a6 b6]

variable [BoundedOrder α]

theorem empty_sub (c : BBox α) : Sub (empty : BBox α) c := by simp [Sub, empty]

/-- **C01** (least enclosing box). After any history of `union` calls on a fresh `BBox()`, the
box holds every argument, and every box that holds all the arguments contains it. -/
theorem C01_union_is_least (as : List (Arg α)) (r : BBox α)
    (h : unionAll empty as = some r) :
    (∀ a ∈ as, Holds r a) ∧ ∀ c : BBox α, (∀ a ∈ as, Holds c a) → Sub r c := by
  refine ⟨((unionAll_some_iff _ _ _ h r).1 (Sub.refl r)).2, fun c hc => ?_⟩
  exact (unionAll_some_iff _ _ _ h c).2 ⟨empty_sub c, hc⟩

/-- **C01** (the only failure is the documented `TypeError`): a history succeeds exactly when no
argument is of a foreign type. -/
theorem C01_union_succeeds_iff (b : BBox α) (as : List (Arg α)) :
    (unionAll b as).isSome = true ↔ Arg.other ∉ as := by
  induction as generalizing b with
  | nil => simp [unionAll]
  | cons a as ih => cases a <;> simp [unionAll, union, ih]

/-- **C01** (order and repetition do not matter): two histories with the same set of arguments
give the same box. -/
theorem C01_order_independent (as bs : List (Arg α)) (hset : ∀ a, a ∈ as ↔ a ∈ bs) :
    unionAll (empty : BBox α) as = unionAll empty bs := by
  have key : ∀ r s : BBox α, unionAll empty as = some r → unionAll empty bs = some s → r = s := by
    intro r s hr hs
    apply Sub.antisymm
    · exact (C01_union_is_least as r hr).2 s fun a ha =>
        (C01_union_is_least bs s hs).1 a ((hset a).1 ha)
    · exact (C01_union_is_least bs s hs).2 r fun a ha =>
        (C01_union_is_least as r hr).1 a ((hset a).2 ha)
  have hsome : (unionAll (empty : BBox α) as).isSome = (unionAll (empty : BBox α) bs).isSome := by
    rw [Bool.eq_iff_iff, C01_union_succeeds_iff, C01_union_succeeds_iff, hset]
  cases h1 : unionAll (empty : BBox α) as with
  | none =>
    cases h2 : unionAll (empty : BBox α) bs with
    | none => rfl
    | some s => simp [h1, h2] at hsome
  | some r =>
    cases h2 : unionAll (empty : BBox α) bs with
    | none => simp [h1, h2] at hsome
    | some s => rw [key r s h1 h2]

/-- **C01** (`BBox()` is the identity of `Union`, on both sides). -/
theorem C01_empty_identity (b : BBox α) :
    union empty (.box b) = some b ∧ union b (.box empty) = some b := by
  constructor <;> simp [union, unionBox, empty]

/-- **C01** (queries see the result): `inside` after the unions is true for every point added. -/
theorem C01_inside_after_union (as : List (Arg α)) (r : BBox α) (h : unionAll empty as = some r)
    (p : V3 α) (hp : Arg.pt p ∈ as) : r.inside p = true := by
  have := (C01_union_is_least as r h).1 _ hp
  simp only [Holds, Mem] at this
  simp only [inside, ge_iff_le, Bool.and_eq_true, decide_eq_true_eq]
  tauto

/-- non-vacuity: a history with a point, a box and a repeated point, over rationals with ±inf -/
example : unionAll (α := WithBot (WithTop ℚ)) empty
    [.pt ⟨((1:ℚ):WithTop ℚ), ((5:ℚ):WithTop ℚ), ((0:ℚ):WithTop ℚ)⟩,
     .box ⟨⟨((0:ℚ):WithTop ℚ), ((2:ℚ):WithTop ℚ), ((-1:ℚ):WithTop ℚ)⟩,
           ⟨((3:ℚ):WithTop ℚ), ((3:ℚ):WithTop ℚ), ⊤⟩⟩] =
    some ⟨⟨((0:ℚ):WithTop ℚ), ((2:ℚ):WithTop ℚ), ((-1:ℚ):WithTop ℚ)⟩,
          ⟨((3:ℚ):WithTop ℚ), ((5:ℚ):WithTop ℚ), ⊤⟩⟩ := by
  decide +kernel

end C01

section C03
variable {α : Type*} [LinearOrder α]

/-- **C03** `==` is equality of both corners. -/
theorem C03_eq_iff (a b : BBox α) : eqOp a b = true ↔ a = b := by
  simp [eqOp, BBox.ext_iff]

/-- **C03 is violated**: a proper box is reported different from itself. -/
theorem C03_ne_is_not_negation_false :
    ∃ a : BBox ℚ, Proper a ∧ eqOp a a = true ∧ neOp a a = true :=
  ⟨⟨⟨0, 0, 0⟩, ⟨1, 1, 1⟩⟩, by norm_num [Proper], by decide +kernel, by decide +kernel⟩

/-- **C03 is violated** in the other direction too: two different boxes with `a != b` false. -/
theorem C03_ne_misses_difference_false :
    ∃ a b : BBox ℚ, Proper a ∧ Proper b ∧ eqOp a b = false ∧ neOp a b = false :=
  ⟨⟨⟨1, 1, 1⟩, ⟨2, 2, 2⟩⟩, ⟨⟨0, 0, 0⟩, ⟨1, 1, 1⟩⟩, by norm_num [Proper], by norm_num [Proper],
    by decide +kernel, by decide +kernel⟩

/-- **C03 (part that holds)**: `!=` negates `==` for one-point boxes.
Full statement: `∀ a b, neOp a b = !(eqOp a b)`; missing: every box with `pMin ≠ pMax`. -/
theorem C03_ne_negates_eq_partial (a b : BBox α) (ha : a.pMin = a.pMax) (hb : b.pMin = b.pMax) :
    neOp a b = !(eqOp a b) := by
  obtain ⟨a0, a1⟩ := a; obtain ⟨b0, b1⟩ := b
  simp only at ha hb; subst ha hb
  simp [neOp, eqOp]

example : ∃ a b : BBox ℚ, a.pMin = a.pMax ∧ b.pMin = b.pMax ∧ a ≠ b :=
  ⟨⟨⟨0, 0, 0⟩, ⟨0, 0, 0⟩⟩, ⟨⟨1, 1, 1⟩, ⟨1, 1, 1⟩⟩, rfl, rfl, by decide +kernel⟩

/-- **C59** copying a proper box gives an equal box. -/
theorem C59_copy_proper_partial (b : BBox α) (h : Proper b) : fromBBox b = b := by
  obtain ⟨hx, hy, hz⟩ := h
  ext <;> simp [fromBBox, ofPoints, *]

/-- **C59 is violated** for the default box: its copy is all of space. -/
theorem C59_copy_of_empty_is_everything_false [BoundedOrder α] [Nontrivial α] :
    fromBBox (empty : BBox α) = ⟨⟨⊥, ⊥, ⊥⟩, ⟨⊤, ⊤, ⊤⟩⟩ ∧ fromBBox (empty : BBox α) ≠ empty := by
  constructor
  · simp [fromBBox, ofPoints, empty]
  · intro h
    have := congrArg (fun b : BBox α => b.pMin.x) h
    simp [fromBBox, ofPoints, empty] at this

example : Proper (⟨⟨0, 0, 0⟩, ⟨1, 2, 3⟩⟩ : BBox ℚ) := by norm_num [Proper]
end C03

section C04
variable {α : Type*} [LinearOrder α]

/-- **C04** `inside` is closed membership. -/
theorem C04_inside_iff (b : BBox α) (p : V3 α) : b.inside p = true ↔ Mem p b := by
  simp only [inside, Mem, ge_iff_le, Bool.and_eq_true, decide_eq_true_eq]; tauto

/-- **C04** proper boxes overlap exactly when they share a point. -/
theorem C04_overlaps_iff (a b : BBox α) (ha : Proper a) (hb : Proper b) :
    a.overlaps b = true ↔ ∃ p, Mem p a ∧ Mem p b := by
  obtain ⟨a1, a2, a3⟩ := ha
  obtain ⟨b1, b2, b3⟩ := hb
  simp only [overlaps, Mem, ge_iff_le, Bool.and_eq_true, decide_eq_true_eq]
  constructor
  · rintro ⟨⟨⟨⟨⟨h1, h2⟩, h3⟩, h4⟩, h5⟩, h6⟩
    refine ⟨⟨max a.pMin.x b.pMin.x, max a.pMin.y b.pMin.y, max a.pMin.z b.pMin.z⟩, ?_⟩
    simp [*]
  · rintro ⟨p, ⟨⟨h1, h2⟩, ⟨h3, h4⟩, h5, h6⟩, ⟨g1, g2⟩, ⟨g3, g4⟩, g5, g6⟩
    exact ⟨⟨⟨⟨⟨g1.trans h2, h1.trans g2⟩, g3.trans h4⟩, h3.trans g4⟩, g5.trans h6⟩, h5.trans g6⟩

/-- **C04** `overlaps` is symmetric (for all boxes, proper or not). -/
theorem C04_overlaps_comm (a b : BBox α) : a.overlaps b = b.overlaps a := by
  rw [Bool.eq_iff_iff]
  simp only [overlaps, ge_iff_le, Bool.and_eq_true, decide_eq_true_eq]; tauto

variable {K : Type*} [Field K] [LinearOrder K] [IsStrictOrderedRing K]

/-- **C04** `expand d` (d ≥ 0) holds exactly the points within `d` of the box, per coordinate. -/
theorem C04_expand_mem_iff (b : BBox K) (hb : Proper b) (d : K) (hd : 0 ≤ d) (p : V3 K) :
    Mem p (b.expand d) ↔
      ∃ q, Mem q b ∧ |p.x - q.x| ≤ d ∧ |p.y - q.y| ≤ d ∧ |p.z - q.z| ≤ d := by
  obtain ⟨b1, b2, b3⟩ := hb
  simp only [Mem, expand, abs_le]
  have key : ∀ lo hi x : K, lo ≤ hi → lo - d ≤ x → x ≤ hi + d →
      ∃ q, (lo ≤ q ∧ q ≤ hi) ∧ -d ≤ x - q ∧ x - q ≤ d := by
    intro lo hi x h1 h2 h3
    refine ⟨max lo (min x hi), ⟨le_max_left _ _, max_le h1 (min_le_right _ _)⟩, ?_⟩
    rcases le_total x hi with h | h
    · rw [min_eq_left h]
      rcases le_total lo x with g | g
      · rw [max_eq_right g]; constructor <;> linarith
      · rw [max_eq_left g]; constructor <;> linarith
    · rw [min_eq_right h, max_eq_right h1]; constructor <;> linarith
  constructor
  · rintro ⟨⟨h1, h2⟩, ⟨h3, h4⟩, h5, h6⟩
    obtain ⟨qx, hx, hx'⟩ := key _ _ p.x b1 h1 h2
    obtain ⟨qy, hy, hy'⟩ := key _ _ p.y b2 h3 h4
    obtain ⟨qz, hz, hz'⟩ := key _ _ p.z b3 h5 h6
    exact ⟨⟨qx, qy, qz⟩, ⟨hx, hy, hz⟩, hx', hy', hz'⟩
  · rintro ⟨q, ⟨⟨h1, h2⟩, ⟨h3, h4⟩, h5, h6⟩, ⟨g1, g2⟩, ⟨g3, g4⟩, g5, g6⟩
    refine ⟨⟨?_, ?_⟩, ⟨?_, ?_⟩, ?_, ?_⟩ <;> linarith

/-- extent of a box along an axis -/
def extent (b : BBox K) (i : Fin 3) : K := b.pMax.get i - b.pMin.get i

/-- **C04** `maximum_extent` returns an axis of greatest extent. -/
theorem C04_maximum_extent (b : BBox K) (i : Fin 3) : extent b i ≤ extent b b.maximumExtent := by
  have h : ∀ i : Fin 3, i = 0 ∨ i = 1 ∨ i = 2 := by decide
  unfold maximumExtent
  simp only [V3.sub_x, V3.sub_y, V3.sub_z, gt_iff_lt]
  split_ifs with h1 h2
  · rcases h i with rfl | rfl | rfl <;> simp only [extent, V3.get] <;> linarith [h1.1, h1.2]
  · rw [not_and_or, not_lt, not_lt] at h1
    rcases h i with rfl | rfl | rfl <;> simp only [extent, V3.get] <;> rcases h1 with h1 | h1 <;> linarith
  · rw [not_and_or, not_lt, not_lt] at h1
    rcases h i with rfl | rfl | rfl <;> simp only [extent, V3.get] <;> rcases h1 with h1 | h1 <;> linarith

/-- **C04** surface area and volume are non-negative and monotone under inclusion. -/
theorem C04_measures_monotone (b c : BBox K) (hb : Proper b) (h : Sub b c) :
    0 ≤ b.surfaceArea ∧ b.surfaceArea ≤ c.surfaceArea ∧ 0 ≤ b.volume ∧ b.volume ≤ c.volume := by
  obtain ⟨b1, b2, b3⟩ := hb
  obtain ⟨⟨h1, h2⟩, ⟨h3, h4⟩, h5, h6⟩ := h
  simp only [surfaceArea, volume, V3.sub_x, V3.sub_y, V3.sub_z]
  have x0 : 0 ≤ b.pMax.x - b.pMin.x := by linarith
  have y0 : 0 ≤ b.pMax.y - b.pMin.y := by linarith
  have z0 : 0 ≤ b.pMax.z - b.pMin.z := by linarith
  have x1 : b.pMax.x - b.pMin.x ≤ c.pMax.x - c.pMin.x := by linarith
  have y1 : b.pMax.y - b.pMin.y ≤ c.pMax.y - c.pMin.y := by linarith
  have z1 : b.pMax.z - b.pMin.z ≤ c.pMax.z - c.pMin.z := by linarith
  refine ⟨by positivity, ?_, by positivity, ?_⟩
  · have hx := x0.trans x1
    have hy := y0.trans y1
    have e1 := mul_le_mul x1 y1 y0 hx
    have e2 := mul_le_mul x1 z1 z0 hx
    have e3 := mul_le_mul y1 z1 z0 hy
    linarith
  · exact mul_le_mul (mul_le_mul x1 y1 y0 (x0.trans x1)) z1 z0
      (mul_nonneg (x0.trans x1) (y0.trans y1))

/-- **C04** the measures have their usual values: half the area is the sum of the three faces and
the volume is the product of the extents. -/
theorem C04_measures_value (b : BBox K) :
    b.surfaceArea = 2 * (extent b 0 * extent b 1 + extent b 0 * extent b 2 + extent b 1 * extent b 2)
    ∧ b.volume = extent b 0 * extent b 1 * extent b 2 := by
  constructor <;> simp [surfaceArea, volume, extent, V3.get]

/-- **C04** `lerp` with parameters in [0,1] stays in the box; 0 and 1 give the corners. -/
theorem C04_lerp (b : BBox K) (hb : Proper b) :
    b.lerp 0 0 0 = b.pMin ∧ b.lerp 1 1 1 = b.pMax ∧
    ∀ s t u : K, 0 ≤ s → s ≤ 1 → 0 ≤ t → t ≤ 1 → 0 ≤ u → u ≤ 1 → Mem (b.lerp s t u) b := by
  obtain ⟨b1, b2, b3⟩ := hb
  refine ⟨by ext <;> simp [lerp, lerp1], by ext <;> simp [lerp, lerp1], ?_⟩
  intro s t u s0 s1 t0 t1 u0 u1
  simp only [Mem, lerp, lerp1]
  have key : ∀ r lo hi : K, 0 ≤ r → r ≤ 1 → lo ≤ hi →
      lo ≤ (1 - r) * lo + r * hi ∧ (1 - r) * lo + r * hi ≤ hi := by
    intro r lo hi r0 r1 h
    have e : (1 - r) * lo + r * hi = lo + r * (hi - lo) := by ring
    have e1 : 0 ≤ r * (hi - lo) := mul_nonneg r0 (by linarith)
    have e2 : r * (hi - lo) ≤ 1 * (hi - lo) := mul_le_mul_of_nonneg_right r1 (by linarith)
    constructor <;> linarith
  exact ⟨key _ _ _ s0 s1 b1, key _ _ _ t0 t1 b2, key _ _ _ u0 u1 b3⟩

/-- **C04** `offset` undoes `lerp` and `lerp` undoes `offset` for boxes with three non-zero
extents. -/
theorem C04_offset_lerp_inverse (b : BBox K) (hx : b.pMin.x ≠ b.pMax.x) (hy : b.pMin.y ≠ b.pMax.y)
    (hz : b.pMin.z ≠ b.pMax.z) :
    (∀ s t u : K, b.offset (b.lerp s t u) = ⟨s, t, u⟩) ∧
    ∀ p : V3 K, b.lerp (b.offset p).x (b.offset p).y (b.offset p).z = p := by
  have hx' : b.pMax.x - b.pMin.x ≠ 0 := sub_ne_zero.2 hx.symm
  have hy' : b.pMax.y - b.pMin.y ≠ 0 := sub_ne_zero.2 hy.symm
  have hz' : b.pMax.z - b.pMin.z ≠ 0 := sub_ne_zero.2 hz.symm
  constructor
  · intro s t u
    ext
    · simp only [offset, lerp, lerp1]; rw [div_eq_iff hx']; ring
    · simp only [offset, lerp, lerp1]; rw [div_eq_iff hy']; ring
    · simp only [offset, lerp, lerp1]; rw [div_eq_iff hz']; ring
  · intro p
    have key : ∀ lo hi x : K, hi - lo ≠ 0 → lerp1 ((x - lo) / (hi - lo)) lo hi = x := by
      intro lo hi x h
      have e : lerp1 ((x - lo) / (hi - lo)) lo hi = lo + (x - lo) / (hi - lo) * (hi - lo) := by
        simp only [lerp1]; ring
      rw [e, div_mul_cancel₀ _ h]; ring
    ext
    · exact key _ _ _ hx'
    · exact key _ _ _ hy'
    · exact key _ _ _ hz'

/-- **C04** the bounding sphere holds every point of a proper box, and touches its corners. -/
theorem C04_bounding_sphere (b : BBox ℝ) (hb : Proper b) :
    (∀ p, Mem p b → √(V3.sqDist p b.boundingSphere.1) ≤ b.boundingSphere.2) ∧
    √(V3.sqDist b.pMax b.boundingSphere.1) = b.boundingSphere.2 ∧
    √(V3.sqDist b.pMin b.boundingSphere.1) = b.boundingSphere.2 := by
  obtain ⟨b1, b2, b3⟩ := hb
  have hin : b.inside ⟨0.5 * (b.pMin.x + b.pMax.x), 0.5 * (b.pMin.y + b.pMax.y),
      0.5 * (b.pMin.z + b.pMax.z)⟩ = true := by
    rw [C04_inside_iff]; simp only [Mem]; refine ⟨⟨?_, ?_⟩, ⟨?_, ?_⟩, ?_, ?_⟩ <;> linarith
  simp only [boundingSphere, hin, if_true]
  refine ⟨?_, ?_, ?_⟩
  · rintro p ⟨⟨h1, h2⟩, ⟨h3, h4⟩, h5, h6⟩
    apply Real.sqrt_le_sqrt
    simp only [V3.sqDist]
    have key : ∀ lo hi x : ℝ, lo ≤ x → x ≤ hi →
        (x - 0.5 * (lo + hi)) * (x - 0.5 * (lo + hi)) ≤
        (0.5 * (lo + hi) - hi) * (0.5 * (lo + hi) - hi) := by
      intro lo hi x h h'
      nlinarith [mul_nonneg (sub_nonneg.2 h) (sub_nonneg.2 h')]
    have := key _ _ _ h1 h2
    have := key _ _ _ h3 h4
    have := key _ _ _ h5 h6
    linarith
  · congr 1; simp only [V3.sqDist]; ring
  · congr 1; simp only [V3.sqDist]; ring

/-- non-vacuity: a proper box, one inside another, and non-degenerate extents -/
example : ∃ b c : BBox ℚ, Proper b ∧ Sub b c ∧ b ≠ c ∧ b.pMin.x ≠ b.pMax.x ∧ b.pMin.y ≠ b.pMax.y ∧
    b.pMin.z ≠ b.pMax.z :=
  ⟨⟨⟨0, 0, 0⟩, ⟨1, 2, 3⟩⟩, ⟨⟨-1, 0, 0⟩, ⟨1, 2, 4⟩⟩, by norm_num [Proper], by norm_num [Sub],
    by decide +kernel, by norm_num, by norm_num, by norm_num⟩
example : Proper (⟨⟨0, 0, 0⟩, ⟨1, 2, 3⟩⟩ : BBox ℝ) := by norm_num [Proper]
example : (⟨⟨0, 0, 0⟩, ⟨1, 2, 3⟩⟩ : BBox ℚ).maximumExtent = 2 := by decide +kernel

end C04
end Verif.BBox
