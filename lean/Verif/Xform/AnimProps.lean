import Verif.Xform.Props

/-! # Animated transforms (C14, C15), projections (C62) and transform predicates (C63) -/

namespace Verif.Xform
open V3 Matrix
set_option linter.unusedSectionVars false

section
variable {K : Type*} [Field K] [LinearOrder K] [IsStrictOrderedRing K]

/-! ## C14 -/

/-- **C14** before or at the start every argument sees the start transform, at or after the end the
end transform, and the ray keeps its time (and range and depth). -/
theorem C14_end_points {T : Type*} (a : Animated K) (hord : a.startTime < a.endTime) :
    (∀ t ≤ a.startTime, a.interpolate t = a.start ∧ (∀ p, a.pt t p = a.start.pt p) ∧
        ∀ v, a.vec t v = a.start.vec v) ∧
    (∀ t ≥ a.endTime, (a.interpolate t).m = a.stop.m ∧ (∀ p, a.pt t p = a.stop.pt p) ∧
        ∀ v, a.vec t v = a.stop.vec v) ∧
    (∀ r : Ray K T, r.time ≤ a.startTime → a.ray r = a.start.ray r) ∧
    (∀ r : Ray K T, r.time ≥ a.endTime →
        (a.ray r).o = a.stop.pt r.o ∧ (a.ray r).d = a.stop.vec r.d) ∧
    ∀ r : Ray K T, (a.ray r).time = r.time ∧ (a.ray r).mint = r.mint ∧ (a.ray r).maxt = r.maxt ∧
        (a.ray r).depth = r.depth := by
  have hm : a.animated = false → a.start.m = a.stop.m := by
    intro h; simpa [Animated.animated, Transform.eqOp] using h
  have hpt : a.animated = false → ∀ p, a.start.pt p = a.stop.pt p := by
    intro h p; simp only [Transform.pt, hm h]
  have hvec : a.animated = false → ∀ p, a.start.vec p = a.stop.vec p := by
    intro h p; simp only [Transform.vec, hm h]
  refine ⟨?_, ?_, ?_, ?_, ?_⟩
  · intro t ht
    have h1 : a.interpolate t = a.start := by simp [Animated.interpolate, ht]
    have h2 : ¬ t > a.endTime := by simp; linarith
    refine ⟨h1, fun p => ?_, fun v => ?_⟩
    · simp only [Animated.pt, h2, h1, if_false, ite_self]
    · simp only [Animated.vec, h2, h1, if_false, ite_self]
  · intro t ht
    have h0 : ¬ t ≤ a.startTime := by simp; linarith
    have h0' : ¬ t < a.startTime := by simp; linarith
    have hi : a.animated ≠ false → a.interpolate t = a.stop := by
      intro h; simp [Animated.interpolate, h, h0, ht]
    refine ⟨?_, fun p => ?_, fun v => ?_⟩
    · by_cases h : a.animated = false
      · simp [Animated.interpolate, h, hm h]
      · rw [hi h]
    · by_cases h : a.animated = false
      · simp [Animated.pt, h, hpt h]
      · simp [Animated.pt, h, h0', hi h]
    · by_cases h : a.animated = false
      · simp [Animated.vec, h, hvec h]
      · simp [Animated.vec, h, h0', hi h]
  · intro r hr
    have h1 : a.interpolate r.time = a.start := by simp [Animated.interpolate, hr]
    have h2 : ¬ r.time ≥ a.endTime := by simp; linarith
    simp only [Animated.ray, h2, h1, if_false, ite_self]
    rfl
  · intro r hr
    have h0' : ¬ r.time < a.startTime := by simp; linarith
    by_cases h : a.animated = false
    · simp [Animated.ray, h, Transform.ray, hpt h, hvec h]
    · simp [Animated.ray, h, h0', hr, Transform.ray]
  · intro r
    simp only [Animated.ray]
    split_ifs <;> simp [Transform.ray]

/-- **C14** equal key frames: constant in time. -/
theorem C14_constant {T : Type*} (a : Animated K) (h : a.start.m = a.stop.m) :
    (∀ t, a.interpolate t = a.start) ∧ (∀ t p, a.pt t p = a.start.pt p) ∧
    (∀ t v, a.vec t v = a.start.vec v) ∧ ∀ r : Ray K T, a.ray r = a.start.ray r := by
  have : a.animated = false := by simp [Animated.animated, Transform.eqOp, h]
  refine ⟨?_, ?_, ?_, ?_⟩ <;> intros <;>
    simp [Animated.interpolate, Animated.pt, Animated.vec, Animated.ray, this, Transform.ray]

/-- **C14** in between, all three argument kinds use the same interpolated transform. -/
theorem C14_between_consistent {T : Type*} (a : Animated K) (r : Ray K T) (s : K)
    (haff : AffineM (a.interpolate r.time).m) (ha : a.animated = true)
    (h1 : a.startTime < r.time) (h2 : r.time < a.endTime) :
    (a.ray r).at s = a.pt r.time (r.at s) := by
  have e1 : ¬ r.time < a.startTime := by simp; exact h1.le
  have e2 : ¬ r.time ≥ a.endTime := by simpa using h2
  have e3 : ¬ r.time > a.endTime := by simp; exact h2.le
  have := C10_ray_commutes (a.interpolate r.time) haff r s
  simp only [Animated.ray, Animated.pt, ha, e1, e2, e3]
  simpa [Ray.at] using this.1

example : ∃ a : Animated ℚ, a.startTime < a.endTime ∧ a.animated = true ∧
    (a.interpolate 2).m ≠ a.start.m :=
  ⟨⟨0, 1, ident, scale 2 2 2, fun _ => ident⟩, by norm_num, by
    simp only [Animated.animated, Transform.eqOp, Bool.not_eq_true', decide_eq_false_iff_not]
    intro h; have := congrFun (congrFun h 0) 0; norm_num [ident, scale] at this, by
    rw [((C14_end_points (T := ℚ) ⟨0, 1, ident, scale 2 2 2, fun _ => ident⟩ (by norm_num)).2.1 2
      (by norm_num)).1]
    intro h; have := congrFun (congrFun h 0) 0; norm_num [ident, scale] at this⟩

/-! ## C15 -/

theorem foldl_union_encloses (f : ℕ → BBox K) (l : List ℕ) (b0 : BBox K) (c : BBox K) :
    BBox.Sub (l.foldl (fun acc i => acc.unionBox (f i)) b0) c ↔
      BBox.Sub b0 c ∧ ∀ i ∈ l, BBox.Sub (f i) c := by
  induction l generalizing b0 with
  | nil => simp
  | cons i l ih =>
    simp only [List.foldl_cons, ih, List.mem_cons, forall_eq_or_imp]
    have : BBox.Sub (b0.unionBox (f i)) c ↔ BBox.Sub b0 c ∧ BBox.Sub (f i) c := by
      simp only [BBox.Sub, BBox.unionBox, le_min_iff, max_le_iff]; tauto
    rw [this, and_assoc]

/-- the transform requested by `use_inv` at a time -/
def Animated.requested (a : Animated K) (useInv : Bool) (time : K) : Transform K :=
  if useInv then (a.interpolate time).inverse else a.interpolate time

/-- **C15** animated case: `motion_bounds` is the smallest box holding the transformed boxes at the
128 sample times, which include both key times. -/
theorem C15_animated_bounds_partial (a : Animated K) (b : BBox K) (useInv : Bool)
    (ha : a.animated = true) :
    (∀ i < 128, BBox.Sub ((a.requested useInv (a.sampleTime i)).box b) (a.motionBounds b useInv)) ∧
    (∀ c, (∀ i < 128, BBox.Sub ((a.requested useInv (a.sampleTime i)).box b) c) →
      BBox.Sub (a.motionBounds b useInv) c) ∧
    a.sampleTime 0 = a.startTime ∧ a.sampleTime 127 = a.endTime := by
  have key : ∀ c, BBox.Sub (a.motionBounds b useInv) c ↔
      ∀ i < 128, BBox.Sub ((a.requested useInv (a.sampleTime i)).box b) c := by
    intro c
    simp only [Animated.motionBounds, ha, Bool.true_eq_false, if_false]
    rw [foldl_union_encloses (fun i => (if useInv = true then (a.interpolate (a.sampleTime (i + 1))).inverse
      else a.interpolate (a.sampleTime (i + 1))).box b)]
    constructor
    · rintro ⟨h0, h⟩ i hi
      rcases i with _ | i
      · exact h0
      · exact h i (by simp; omega)
    · intro h
      exact ⟨h 0 (by norm_num), fun i hi => h (i + 1) (by simp at hi; omega)⟩
  refine ⟨(key _).1 (BBox.Sub.refl _), fun c hc => (key c).2 hc, ?_, ?_⟩
  · simp [Animated.sampleTime, BBox.lerp1]
  · simp only [Animated.sampleTime, BBox.lerp1]; norm_num

/-- **C15** hence every point of `b`, moved by a sampled transform whose box image is conservative
(C11), stays inside the motion bounds. -/
theorem C15_points_partial (a : Animated K) (b : BBox K) (useInv : Bool) (ha : a.animated = true)
    (i : ℕ) (hi : i < 128) (hb : BBox.Proper b)
    (hc : BoxConservative (a.requested useInv (a.sampleTime i))) (p : V3 K) (hp : BBox.Mem p b) :
    BBox.Mem ((a.requested useInv (a.sampleTime i)).pt p) (a.motionBounds b useInv) := by
  obtain ⟨⟨h1, h2⟩, ⟨h3, h4⟩, h5, h6⟩ := hc b hb p hp
  obtain ⟨⟨g1, g2⟩, ⟨g3, g4⟩, g5, g6⟩ := (C15_animated_bounds_partial a b useInv ha).1 i hi
  exact ⟨⟨by linarith, by linarith⟩, ⟨by linarith, by linarith⟩, by linarith, by linarith⟩

/-- **C15** with `use_inv=True` the non-animated case is what was asked for. -/
theorem C15_static_inverse_partial (a : Animated K) (b : BBox K) (ha : a.animated = false) (time : K) :
    a.motionBounds b true = (a.requested true time).box b := by
  simp [Animated.motionBounds, ha, Animated.requested, Animated.interpolate]

end

/-- **C15 is violated** for a transform that is not animated and `use_inv=False` (the default): the
inverse is applied anyway, so a scaled-up box is bounded by a shrunken one. -/
theorem C15_static_forward_false :
    ∃ (a : Animated ℚ) (b : BBox ℚ) (p : V3 ℚ), a.animated = false ∧ BBox.Proper b ∧ BBox.Mem p b ∧
      BoxConservative (a.requested false 0) ∧
      ¬ BBox.Mem ((a.requested false 0).pt p) (a.motionBounds b false) := by
  have han : (⟨0, 1, scale 2 2 2, scale 2 2 2, fun _ => ident⟩ : Animated ℚ).animated = false := by
    simp [Animated.animated, Transform.eqOp]
  refine ⟨⟨0, 1, scale 2 2 2, scale 2 2 2, fun _ => ident⟩, ⟨⟨0, 0, 0⟩, ⟨1, 1, 1⟩⟩, ⟨1, 1, 1⟩, han,
    by norm_num [BBox.Proper], by norm_num [BBox.Mem], ?_, ?_⟩
  · have : Animated.requested (⟨0, 1, scale 2 2 2, scale 2 2 2, fun _ => ident⟩ : Animated ℚ) false 0 =
        scale 2 2 2 := by simp [Animated.requested, Animated.interpolate]
    rw [this]
    apply C11_box_conservative_partial _ (by simp [AffineM, scale])
    intro i j; fin_cases i <;> fin_cases j <;> simp [scale]
  · have e1 : Animated.requested (⟨0, 1, scale 2 2 2, scale 2 2 2, fun _ => ident⟩ : Animated ℚ) false 0 =
        scale 2 2 2 := by simp [Animated.requested, Animated.interpolate]
    have e2 : Animated.motionBounds (⟨0, 1, scale 2 2 2, scale 2 2 2, fun _ => ident⟩ : Animated ℚ)
        ⟨⟨0, 0, 0⟩, ⟨1, 1, 1⟩⟩ false = ⟨⟨0, 0, 0⟩, ⟨1/2, 1/2, 1/2⟩⟩ := by
      simp only [Animated.motionBounds, han, if_true, Transform.box]
      rw [pt_affine _ (by simp [AffineM, Transform.inverse, scale])]
      simp [Transform.inverse, scale, homog, BBox.fromBBox, BBox.ofPoints, Transform.vec]
      ext <;> simp
    rw [e1, e2, pt_affine _ (by simp [AffineM, scale])]
    simp [homog, scale, BBox.Mem]; norm_num

/-! ## C62: projections -/

/-- **C62** `orthographic(n, f)`: x and y are kept, depth `n` goes to 0 and depth `f` to 1, and
depths are mapped linearly. -/
theorem C62_orthographic (n f : ℝ) (h : n ≠ f) (p : V3 ℝ) :
    (orthographic n f).pt p = ⟨p.x, p.y, (p.z - n) / (f - n)⟩ := by
  have hne : f - n ≠ 0 := sub_ne_zero.2 h.symm
  have haff : AffineM (orthographic n f).m :=
    (C07_every_transform_affine (.orthographic n f) h).1
  rw [pt_affine _ haff]
  simp only [homog, orthographic, mul_m, entry]
  simp [scale, translate]
  field_simp
  ring

theorem perspective_homog (fov n f : ℝ) (p : V3 ℝ) :
    homog (perspective fov n f).m p 0 = p.x / Real.tan (rad fov / 2) ∧
    homog (perspective fov n f).m p 1 = p.y / Real.tan (rad fov / 2) ∧
    homog (perspective fov n f).m p 2 = f / (f - n) * p.z + -f * n / (f - n) ∧
    homog (perspective fov n f).m p 3 = p.z := by
  generalize hT : Real.tan (rad fov / 2) = T
  simp only [homog, perspective, mul_m, entry, ofMatrix, perspM, hT]
  simp [scale]
  constructor <;> ring

/-- **C62** `perspective(fov, n, f)`: a camera-space point whose depth is not within `EPS` of one (or
is exactly one) goes to `(x / (z tan(fov/2)), y / (z tan(fov/2)), f (z - n) / (z (f - n)))`: the near
plane goes to 0, the far plane to 1, the field-of-view edge to 1.
Full statement: for every point with `z ≠ 0`; missing: depths strictly within `EPS` of 1. -/
theorem C62_perspective_partial (fov n f : ℝ) (h : n ≠ f) (p : V3 ℝ) (hz : p.z ≠ 0)
    (hw : neUnity p.z = true ∨ p.z = 1) :
    let q := (perspective fov n f).pt p
    q = ⟨p.x / (p.z * Real.tan (rad fov / 2)), p.y / (p.z * Real.tan (rad fov / 2)),
      f * (p.z - n) / (p.z * (f - n))⟩ ∧
    (p.z = n → q.z = 0) ∧ (f ≠ 0 → p.z = f → q.z = 1) ∧
    (Real.tan (rad fov / 2) ≠ 0 → p.x = p.z * Real.tan (rad fov / 2) → q.x = 1) := by
  intro q
  have hne : f - n ≠ 0 := sub_ne_zero.2 h.symm
  obtain ⟨h0, h1, h2, h3⟩ := perspective_homog fov n f p
  have e : q = ⟨p.x / (p.z * Real.tan (rad fov / 2)), p.y / (p.z * Real.tan (rad fov / 2)),
      f * (p.z - n) / (p.z * (f - n))⟩ := by
    simp only [q, Transform.pt, h0, h1, h2, h3]
    rcases hw with hw | hw
    · simp only [hw, if_true]
      ext
      · simp only; rw [div_div, mul_comm]
      · simp only; rw [div_div, mul_comm]
      · simp only; field_simp; ring
    · rw [hw]; simp only [not_neUnity_one]
      ext <;> simp
      field_simp; ring
  refine ⟨e, ?_, ?_, ?_⟩
  · intro hn; rw [e]; simp [hn]
  · intro hf0 hf; rw [e]; simp only [hf]; field_simp
  · intro ht hx; rw [e]; simp only [hx]; exact div_self (mul_ne_zero hz ht)

/-- **C62 is violated** by exactly one plane slab: at depth `1 + EPS/2` the homogeneous division is
skipped, so a point of the far plane at that depth is not mapped to depth 1. -/
theorem C62_division_skipped_false :
    ∃ (n f : ℝ) (p : V3 ℝ), 0 < n ∧ n < f ∧ p.z = f ∧ ((perspective 90 n f).pt p).z ≠ 1 := by
  have hE : (EPS : ℝ) = 1/100000 := rfl
  refine ⟨1/2, 1 + EPS / 2, ⟨0, 0, 1 + EPS/2⟩, by norm_num, by rw [hE]; norm_num, rfl, ?_⟩
  obtain ⟨h0, h1, h2, h3⟩ := perspective_homog 90 (1/2) (1 + EPS/2) ⟨0, 0, 1 + EPS/2⟩
  simp only [Transform.pt, h2, h3]
  have : neUnity (1 + EPS / 2 : ℝ) = false := by
    simp only [neUnity, hE, Bool.or_eq_false_iff, decide_eq_false_iff_not]; norm_num
  rw [this]
  simp only [Bool.false_eq_true, if_false, hE]
  norm_num

example : ∃ p : V3 ℝ, p.z ≠ 0 ∧ neUnity p.z = true :=
  ⟨⟨1, 2, 3⟩, by norm_num, by norm_num [neUnity, EPS]⟩

/-! ## C63: predicates -/

section
variable {K : Type*} [Field K] [LinearOrder K] [IsStrictOrderedRing K]

/-- **C63** `is_identity` is exact: it holds precisely for the transforms that leave every point
where it is and every vector as it is (affine transforms). -/
theorem C63_is_identity (t : Transform K) (h : AffineM t.m) :
    t.isIdentity = true ↔ (∀ p, t.pt p = p) := by
  simp only [Transform.isIdentity, decide_eq_true_eq]
  constructor
  · intro e p
    rw [pt_affine t h, e]; simp [homog, Matrix.one_apply]
  · intro hp
    have e0 := hp ⟨0, 0, 0⟩
    have e1 := hp ⟨1, 0, 0⟩
    have e2 := hp ⟨0, 1, 0⟩
    have e3 := hp ⟨0, 0, 1⟩
    rw [pt_affine t h] at e0 e1 e2 e3
    simp [homog] at e0 e1 e2 e3
    obtain ⟨a1, a2, a3⟩ := e0
    rw [a1, a2, a3] at e1 e2 e3
    simp at e1 e2 e3
    obtain ⟨b1, b2, b3, b4⟩ := h
    apply m4_ext
    intro i j
    fin_cases i <;> fin_cases j <;> simp [Matrix.one_apply, *]

/-- the claim about `has_scale` for one transform: it answers `False` exactly when the three axis
vectors keep their squared length up to the tolerance -/
def HasScaleCorrect (t : Transform K) : Prop :=
  t.hasScale = false ↔
    ∀ v ∈ [(⟨1, 0, 0⟩ : V3 K), ⟨0, 1, 0⟩, ⟨0, 0, 1⟩], neUnity (sqLength (t.vec v)) = false

/-- **C63** `has_scale` holds for a diagonal scale exactly when some factor's square is off unity. -/
theorem C63_has_scale_partial (x y z : K) (d : V3 K) :
    HasScaleCorrect (translate d * scale x y z) ∧ HasScaleCorrect (scale x y z) ∧
    (translate d).hasScale = false := by
  have h1 := not_neUnity_one (K := K)
  refine ⟨?_, ?_, ?_⟩
  · simp [HasScaleCorrect, Transform.hasScale, Transform.vec, mul_m, entry, translate, scale, sqLength, and_assoc]
  · simp [HasScaleCorrect, Transform.hasScale, Transform.vec, scale, sqLength, and_assoc]
  · simp [Transform.hasScale, translate, h1]

end

/-- **C63** rotations never report a scale. -/
theorem C63_rotation_has_no_scale_partial (angle : ℝ) (axis : V3 ℝ) (h : axis ≠ 0) :
    (rotate angle axis).hasScale = false ∧ HasScaleCorrect (rotate angle axis) := by
  have hl := (C13_rotate angle axis h)
  have hm := (C07_every_transform_has_inverse (.rotate angle axis) h).1
  have h1 := not_neUnity_one (K := ℝ)
  have row : ∀ i : Fin 4, i ≠ 3 → (rotate angle axis).m i 0 * (rotate angle axis).m i 0 +
      (rotate angle axis).m i 1 * (rotate angle axis).m i 1 +
      (rotate angle axis).m i 2 * (rotate angle axis).m i 2 = 1 := by
    intro i hi
    have := congrFun (congrFun hm i) i
    simp only [Expr.eval, entry] at this
    have h3 : (rotate angle axis).m i 3 = 0 := by
      fin_cases i <;> first | exact absurd rfl hi | simp [rotate, rotM]
    have hT : ∀ j, (rotate angle axis).mInv j i = (rotate angle axis).m i j := by
      intro j; simp [rotate]
    rw [hT, hT, hT, hT, h3] at this
    simpa using this
  have hs : (rotate angle axis).hasScale = false := by
    simp only [Transform.hasScale, row 0 (by decide), row 1 (by decide), row 2 (by decide), h1, Bool.or_self]
  refine ⟨hs, ?_⟩
  simp only [HasScaleCorrect, hs, true_iff]
  intro v hv
  have hu : sqLength v = 1 := by
    simp only [List.mem_cons, List.not_mem_nil, or_false] at hv
    rcases hv with rfl | rfl | rfl <;> simp [sqLength]
  have : sqLength ((rotate angle axis).vec v) = sqLength v := by
    have := (hl v v).2.1
    simpa [dot, sqLength] using this
  rw [this, hu, h1]

/-- **C63 is violated** in general: `has_scale` measures matrix rows, not the images of the axes.  A
shear with unit rows stretches the x axis and still answers `False`. -/
theorem C63_has_scale_rows_false :
    ∃ t : Transform ℚ, AffineM t.m ∧ HasInv t ∧ t.hasScale = false ∧
      sqLength (t.vec ⟨1, 0, 0⟩) = 34 / 25 := by
  refine ⟨⟨!![1, 0, 0, 0; 3/5, 4/5, 0, 0; 0, 0, 1, 0; 0, 0, 0, 1],
    !![1, 0, 0, 0; -3/4, 5/4, 0, 0; 0, 0, 1, 0; 0, 0, 0, 1]⟩, by simp [AffineM], ?_, ?_, ?_⟩
  · apply hasInv_of_left
    ext i j; rw [Matrix.mul_apply, Fin.sum_univ_four]
    fin_cases i <;> fin_cases j <;> simp <;> norm_num
  · have h1 := not_neUnity_one (K := ℚ)
    have : (3/5 * (3/5) + 4/5 * (4/5) : ℚ) = 1 := by norm_num
    simp [Transform.hasScale, h1, this]
  · simp [Transform.vec, sqLength]; norm_num

end Verif.Xform
