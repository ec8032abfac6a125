import Verif.Xform.Lemmas
import Verif.BBox.Props

/-!
# Properties C07–C13, C61–C63 (transforms)
-/

namespace Verif.Xform
open V3 Matrix
set_option linter.unusedSectionVars false
set_option linter.unusedSimpArgs false

/-! ## Specification -/

/-- the stored pair really is a matrix and its two-sided inverse -/
def HasInv {K : Type*} [Field K] (t : Transform K) : Prop := t.m * t.mInv = 1 ∧ t.mInv * t.m = 1

/-- last row `0 0 0 1` -/
def AffineM {K : Type*} [Field K] (m : M4 K) : Prop := m 3 0 = 0 ∧ m 3 1 = 0 ∧ m 3 2 = 0 ∧ m 3 3 = 1

/-- everything a user can build from the constructors -/
inductive Expr where
  | ident
  | translate (d : V3 ℝ)
  | scale (x y z : ℝ)
  | rotateX (a : ℝ)
  | rotateY (a : ℝ)
  | rotateZ (a : ℝ)
  | rotate (a : ℝ) (axis : V3 ℝ)
  | lookAt (pos look up : V3 ℝ)
  | orthographic (n f : ℝ)
  | quat (w x y z : ℝ)
  | mul (a b : Expr)
  | inverse (a : Expr)

/-- running the constructors -/
noncomputable def Expr.eval : Expr → Transform ℝ
  | .ident => Xform.ident
  | .translate d => Xform.translate d
  | .scale x y z => Xform.scale x y z
  | .rotateX a => Xform.rotateX a
  | .rotateY a => Xform.rotateY a
  | .rotateZ a => Xform.rotateZ a
  | .rotate a v => Xform.rotate a v
  | .lookAt p l u => Xform.lookAt p l u
  | .orthographic n f => Xform.orthographic n f
  | .quat w x y z => toTransform w x y z
  | .mul a b => a.eval * b.eval
  | .inverse a => a.eval.inverse

/-- the documented preconditions of the constructors -/
def Expr.Ok : Expr → Prop
  | .scale x y z => x ≠ 0 ∧ y ≠ 0 ∧ z ≠ 0
  | .rotate _ v => v ≠ 0
  | .lookAt p l u => l ≠ p ∧ cross u (l - p) ≠ 0
  | .orthographic n f => n ≠ f
  | .quat w x y z => w ^ 2 + x ^ 2 + y ^ 2 + z ^ 2 = 1
  | .mul a b => a.Ok ∧ b.Ok
  | .inverse a => a.Ok
  | _ => True

/-! ## C07 -/

theorem hasInv_of_left {K : Type*} [Field K] {t : Transform K} (h : t.m * t.mInv = 1) : HasInv t :=
  ⟨h, mul_eq_one_comm.1 h⟩

theorem translate_hasInv {K : Type*} [Field K] [LinearOrder K] (d : V3 K) : HasInv (translate d) := by
  apply hasInv_of_left
  ext i j
  rw [Matrix.mul_apply, Fin.sum_univ_four]
  fin_cases i <;> fin_cases j <;> simp [translate]

theorem scale_hasInv {K : Type*} [Field K] [LinearOrder K] (x y z : K) (hx : x ≠ 0) (hy : y ≠ 0) (hz : z ≠ 0) :
    HasInv (scale x y z) := by
  apply hasInv_of_left
  ext i j
  rw [Matrix.mul_apply, Fin.sum_univ_four]
  fin_cases i <;> fin_cases j <;> simp [scale, hx, hy, hz]

theorem mul_hasInv {K : Type*} [Field K] [LinearOrder K] {a b : Transform K} (ha : HasInv a) (hb : HasInv b) :
    HasInv (a * b) := by
  constructor
  · rw [mul_m, mul_mInv, Matrix.mul_assoc, ← Matrix.mul_assoc b.m, hb.1, Matrix.one_mul, ha.1]
  · rw [mul_m, mul_mInv, Matrix.mul_assoc, ← Matrix.mul_assoc a.mInv, ha.2, Matrix.one_mul, hb.2]

theorem normalize_unit {v : V3 ℝ} (hv : v ≠ 0) : sqLength (Geom.normalize v) = 1 := by
  have h := ((Geom.C06_normalize v).1 hv).1
  rw [Geom.length, Real.sqrt_eq_one] at h; exact h

/-- the frame `look_at` computes is orthonormal in the non-degenerate case -/
theorem lookFrame_orthonormal (p l u : V3 ℝ) (h1 : l ≠ p) (h2 : cross u (l - p) ≠ 0) :
    Geom.Orthonormal3 (lookFrame p l u).1 (lookFrame p l u).2.1 (lookFrame p l u).2.2 := by
  have hz0 : l - p ≠ 0 := by
    intro h; apply h1; ext
    · have := congrArg V3.x h; simp at this; linarith
    · have := congrArg V3.y h; simp at this; linarith
    · have := congrArg V3.z h; simp at this; linarith
  have hu0 : u ≠ 0 := by
    rintro rfl; apply h2; ext <;> simp [cross]
  obtain ⟨-, hz2, hz3⟩ := (Geom.C06_normalize _).1 hz0
  obtain ⟨-, hu2, hu3⟩ := (Geom.C06_normalize _).1 hu0
  have hz := normalize_unit hz0
  set zc := Geom.normalize (l - p) with hzc
  set un := Geom.normalize u with hun
  have hc0 : cross un zc ≠ 0 := by
    intro h; apply h2
    rw [← hu2, ← hz2]
    have e : cross (Geom.length u * un) (Geom.length (l - p) * zc)
        = (Geom.length u * Geom.length (l - p)) * cross un zc := by
      ext <;> simp [cross] <;> ring
    rw [e, h]; ext <;> simp
  obtain ⟨-, hx2, hx3⟩ := (Geom.C06_normalize _).1 hc0
  have hx := normalize_unit hc0
  set xc := Geom.normalize (cross un zc) with hxc
  have hxz : dot xc zc = 0 := by
    have h := (Geom.C06_cross un zc).2.1
    rw [← hx2] at h
    have : Geom.length (cross un zc) * dot xc zc = 0 := by
      rw [← h]; simp [dot]; ring
    rcases mul_eq_zero.1 this with h | h
    · exact absurd h hx3.ne'
    · exact h
  have hf : lookFrame p l u = (xc, cross zc xc, zc) := rfl
  rw [hf]
  refine ⟨by simp [Geom.length, hx], ?_, by simp [Geom.length, hz], ?_, hxz, ?_⟩
  · have hzx : dot zc xc = 0 := by rw [← hxz]; simp [dot]; ring
    rw [Geom.length, (Geom.C06_cross _ _).2.2.2.1, hz, hx, hzx]; simp
  · have := (Geom.C06_cross zc xc).2.1; simp only [dot] at *; linarith
  · have := (Geom.C06_cross zc xc).1; simp only [dot] at *; linarith

theorem orthonormal_dots {a b c : V3 ℝ} (h : Geom.Orthonormal3 a b c) :
    dot a a = 1 ∧ dot b b = 1 ∧ dot c c = 1 ∧ dot a b = 0 ∧ dot a c = 0 ∧ dot b c = 0 := by
  obtain ⟨h1, h2, h3, h4, h5, h6⟩ := h
  have key : ∀ v : V3 ℝ, Geom.length v = 1 → dot v v = 1 := by
    intro v hv; rw [← (Geom.C06_length_is_norm v 0).2.2.1, hv]; norm_num
  exact ⟨key _ h1, key _ h2, key _ h3, h4, h5, h6⟩

theorem lookAt_hasInv (p l u : V3 ℝ) (h1 : l ≠ p) (h2 : cross u (l - p) ≠ 0) :
    HasInv (lookAt p l u) := by
  obtain ⟨a, b, c, d, e, f⟩ := orthonormal_dots (lookFrame_orthonormal p l u h1 h2)
  exact hasInv_of_left (frame_mul p _ _ _ a b c d e f)

theorem quat_hasInv {K : Type*} [Field K] [LinearOrder K] (w x y z : K) (h : w ^ 2 + x ^ 2 + y ^ 2 + z ^ 2 = 1) :
    HasInv (toTransform w x y z) := by
  apply hasInv_of_left
  ext i j
  rw [Matrix.mul_apply, Fin.sum_univ_four]
  fin_cases i <;> fin_cases j <;> simp [toTransform]
  · linear_combination (4*x^2 + 4*y^2) * h
  · linear_combination (-4 * w * x) * h
  · linear_combination (-4 * w * y) * h
  · linear_combination (-4 * w * x) * h
  · linear_combination (4*w^2 + 4*y^2) * h
  · linear_combination (-4 * x * y) * h
  · linear_combination (-4 * w * y) * h
  · linear_combination (-4 * x * y) * h
  · linear_combination (4*w^2 + 4*x^2) * h

/-- **C07** every transform a user can build carries its true two-sided inverse. -/
theorem C07_every_transform_has_inverse (e : Expr) (h : e.Ok) :
    e.eval.m * e.eval.mInv = 1 ∧ e.eval.mInv * e.eval.m = 1 := by
  suffices HasInv e.eval from this
  induction e with
  | ident => exact ⟨Matrix.one_mul _, Matrix.one_mul _⟩
  | translate d => exact translate_hasInv d
  | scale x y z => exact scale_hasInv x y z h.1 h.2.1 h.2.2
  | rotateX a =>
    apply hasInv_of_left
    have := Real.sin_sq_add_cos_sq (rad a)
    ext i j; rw [Matrix.mul_apply, Fin.sum_univ_four]
    fin_cases i <;> fin_cases j <;> simp [Expr.eval, Xform.rotateX] <;>
      first | linear_combination this | ring
  | rotateY a =>
    apply hasInv_of_left
    have := Real.sin_sq_add_cos_sq (rad a)
    ext i j; rw [Matrix.mul_apply, Fin.sum_univ_four]
    fin_cases i <;> fin_cases j <;> simp [Expr.eval, Xform.rotateY] <;>
      first | linear_combination this | ring
  | rotateZ a =>
    apply hasInv_of_left
    have := Real.sin_sq_add_cos_sq (rad a)
    ext i j; rw [Matrix.mul_apply, Fin.sum_univ_four]
    fin_cases i <;> fin_cases j <;> simp [Expr.eval, Xform.rotateZ] <;>
      first | linear_combination this | ring
  | rotate a v =>
    exact hasInv_of_left (rotM_mul_transpose _ _ _ (normalize_unit h) (Real.sin_sq_add_cos_sq _))
  | lookAt p l u => exact lookAt_hasInv p l u h.1 h.2
  | orthographic n f =>
    exact mul_hasInv (scale_hasInv _ _ _ one_ne_zero one_ne_zero
      (one_div_ne_zero (sub_ne_zero.2 (Ne.symm h)))) (translate_hasInv _)
  | quat w x y z => exact quat_hasInv w x y z h
  | mul a b iha ihb => exact mul_hasInv (iha h.1) (ihb h.2)
  | inverse a iha => exact ⟨(iha h).2, (iha h).1⟩

/-- **C07** the same transforms are affine, as is the stored inverse. -/
theorem C07_every_transform_affine (e : Expr) (h : e.Ok) :
    AffineM e.eval.m ∧ AffineM e.eval.mInv := by
  induction e with
  | ident => simp [AffineM, Expr.eval, Xform.ident, Matrix.one_apply]
  | translate d => simp [AffineM, Expr.eval, Xform.translate]
  | scale x y z => simp [AffineM, Expr.eval, Xform.scale]
  | rotateX a => simp [AffineM, Expr.eval, Xform.rotateX]
  | rotateY a => simp [AffineM, Expr.eval, Xform.rotateY]
  | rotateZ a => simp [AffineM, Expr.eval, Xform.rotateZ]
  | rotate a v => simp [AffineM, Expr.eval, Xform.rotate, rotM]
  | lookAt p l u => simp [AffineM, Expr.eval, Xform.lookAt, lookAtM]
  | orthographic n f =>
    simp only [AffineM, Expr.eval, Xform.orthographic, mul_m, mul_mInv, Matrix.mul_apply, Fin.sum_univ_four]
    simp [Xform.scale, Xform.translate]
  | quat w x y z => simp [AffineM, Expr.eval, toTransform]
  | mul a b iha ihb =>
    obtain ⟨⟨a1, a2, a3, a4⟩, ⟨b1, b2, b3, b4⟩⟩ := iha h.1
    obtain ⟨⟨c1, c2, c3, c4⟩, ⟨d1, d2, d3, d4⟩⟩ := ihb h.2
    simp only [AffineM, Expr.eval, mul_m, mul_mInv, Matrix.mul_apply, Fin.sum_univ_four]
    simp [*]
  | inverse a iha => exact ⟨(iha h).2, (iha h).1⟩

/-- non-vacuity: a deep expression meeting all preconditions -/
example : (Expr.mul (.rotate 30 ⟨1, 2, 3⟩) (.mul (.inverse (.scale 2 3 (-1)))
    (.lookAt ⟨0, 0, 0⟩ ⟨1, 0, 0⟩ ⟨0, 0, 1⟩))).Ok := by
  refine ⟨?_, ⟨by norm_num, by norm_num, by norm_num⟩, ?_, ?_⟩
  · intro h; have := congrArg V3.x h; simp at this
  · intro h; have := congrArg V3.x h; simp at this
  · intro h; have := congrArg V3.y h; simp [cross] at this

/-! ## C08 -/
section General
variable {K : Type*} [Field K] [LinearOrder K] [IsStrictOrderedRing K]

theorem pt_affine (t : Transform K) (h : AffineM t.m) (p : V3 K) :
    t.pt p = ⟨homog t.m p 0, homog t.m p 1, homog t.m p 2⟩ := by
  obtain ⟨h0, h1, h2, h3⟩ := h
  have hw : homog t.m p 3 = 1 := by simp [homog, h0, h1, h2, h3]
  simp only [Transform.pt, hw, not_neUnity_one]; simp

theorem affine_inv {t : Transform K} (h : AffineM t.m) (hi : HasInv t) : AffineM t.mInv := by
  obtain ⟨h0, h1, h2, h3⟩ := h
  have e : ∀ j, t.mInv 3 j = (1 : M4 K) 3 j := by
    intro j; rw [← hi.1, entry, h0, h1, h2, h3]; ring
  simp [AffineM, e, Matrix.one_apply]

/-- **C08** composition applies the right factor first: points, vectors and normals. -/
theorem C08_composition (s t : Transform K) (hs : AffineM s.m) (ht : AffineM t.m)
    (hs' : AffineM s.mInv) (ht' : AffineM t.mInv) (x : V3 K) :
    (s * t).pt x = s.pt (t.pt x) ∧ (s * t).vec x = s.vec (t.vec x) ∧
    (s * t).nrm x = s.nrm (t.nrm x) := by
  have hst : AffineM (s * t).m := by
    obtain ⟨a1, a2, a3, a4⟩ := hs
    obtain ⟨b1, b2, b3, b4⟩ := ht
    simp only [AffineM, mul_m, entry, a1, a2, a3, a4, b1, b2, b3, b4]; simp
  obtain ⟨b1, b2, b3, b4⟩ := id ht
  obtain ⟨c1, c2, c3, c4⟩ := id hs'
  refine ⟨?_, ?_, ?_⟩
  · rw [pt_affine _ hst, pt_affine _ hs, pt_affine _ ht]
    ext <;> simp only [homog, mul_m, entry, b1, b2, b3, b4] <;> ring
  · ext <;> simp only [Transform.vec, mul_m, entry, b1, b2, b3, b4] <;> ring
  · ext <;> simp only [Transform.nrm, mul_mInv, entry, c1, c2, c3, c4] <;> ring

/-- **C08** composition is associative and `Transform()` is its identity. -/
theorem C08_monoid (a b c : Transform K) :
    a * b * c = a * (b * c) ∧ ident * a = a ∧ a * ident = a := by
  refine ⟨?_, ?_, ?_⟩
  · apply Transform.ext
    · simp only [mul_m, Matrix.mul_assoc]
    · simp only [mul_mInv, Matrix.mul_assoc]
  · apply Transform.ext
    · simp [mul_m, ident]
    · simp [mul_mInv, ident]
  · apply Transform.ext
    · simp [mul_m, ident]
    · simp [mul_mInv, ident]

/-- **C08** the inverse transform undoes the transform and conversely, on points, vectors and
normals. -/
theorem C08_inverse_undoes (t : Transform K) (ha : AffineM t.m) (hi : HasInv t) (x : V3 K) :
    t.inverse.pt (t.pt x) = x ∧ t.pt (t.inverse.pt x) = x ∧
    t.inverse.vec (t.vec x) = x ∧ t.vec (t.inverse.vec x) = x ∧
    t.inverse.nrm (t.nrm x) = x ∧ t.nrm (t.inverse.nrm x) = x := by
  have ha' := affine_inv ha hi
  have e1 : t.inverse * t = ident := by
    apply Transform.ext
    · exact hi.2
    · exact hi.2
  have e2 : t * t.inverse = ident := by
    apply Transform.ext
    · exact hi.1
    · exact hi.1
  obtain ⟨p1, v1, n1⟩ := C08_composition t.inverse t ha' ha ha ha' x
  obtain ⟨p2, v2, n2⟩ := C08_composition t t.inverse ha ha' ha' ha x
  have idp : (ident : Transform K).pt x = x := by
    rw [pt_affine]
    · ext <;> simp [homog, ident, Matrix.one_apply]
    · simp [AffineM, ident, Matrix.one_apply]
  have idv : (ident : Transform K).vec x = x := by ext <;> simp [Transform.vec, ident, Matrix.one_apply]
  have idn : (ident : Transform K).nrm x = x := by ext <;> simp [Transform.nrm, ident, Matrix.one_apply]
  rw [← p1, ← v1, ← n1, ← p2, ← v2, ← n2, e1, e2]
  exact ⟨idp, idp, idv, idv, idn, idn⟩

/-- **C08** `translate`, `scale` do what they say. -/
theorem C08_translate_scale (d p v : V3 K) (x y z : K) :
    (translate d).pt p = p + d ∧ (translate d).vec v = v ∧
    (scale x y z).pt p = ⟨x * p.x, y * p.y, z * p.z⟩ ∧ (scale x y z).vec v = ⟨x * v.x, y * v.y, z * v.z⟩ := by
  refine ⟨?_, ?_, ?_, ?_⟩
  · rw [pt_affine _ (by simp [AffineM, translate])]
    ext <;> simp [homog, translate]
  · ext <;> simp [Transform.vec, translate]
  · rw [pt_affine _ (by simp [AffineM, scale])]
    ext <;> simp [homog, scale]
  · ext <;> simp [Transform.vec, scale]

/-- non-vacuity for C08–C10: a non-trivial affine transform over ℚ with its inverse -/
example : AffineM (scale (2:ℚ) 3 (-1) * translate ⟨1, 2, 3⟩).m ∧
    HasInv (scale (2:ℚ) 3 (-1) * translate ⟨1, 2, 3⟩) := by
  refine ⟨?_, mul_hasInv (scale_hasInv _ _ _ (by norm_num) (by norm_num) (by norm_num)) (translate_hasInv _)⟩
  simp only [AffineM, mul_m, entry]; simp [scale, translate]

/-! ## C09 -/

/-- **C09** dot products of normals with vectors are preserved, hence perpendicularity. -/
theorem C09_normals_stay_perpendicular (t : Transform K) (ha : AffineM t.m) (hi : HasInv t)
    (n v : V3 K) :
    dot (t.nrm n) (t.vec v) = dot n v ∧ (dot n v = 0 ↔ dot (t.nrm n) (t.vec v) = 0) := by
  have key : dot (t.nrm n) (t.vec v) = dot n v := by
    obtain ⟨h0, h1, h2, h3⟩ := ha
    have e : ∀ i j, t.mInv i 0 * t.m 0 j + t.mInv i 1 * t.m 1 j + t.mInv i 2 * t.m 2 j
        + t.mInv i 3 * t.m 3 j = (1 : M4 K) i j := by
      intro i j; rw [← entry, hi.2]
    have e00 := e 0 0; have e01 := e 0 1; have e02 := e 0 2
    have e10 := e 1 0; have e11 := e 1 1; have e12 := e 1 2
    have e20 := e 2 0; have e21 := e 2 1; have e22 := e 2 2
    simp only [h0, h1, h2, mul_zero, add_zero] at e00 e01 e02 e10 e11 e12 e20 e21 e22
    simp [Matrix.one_apply] at e00 e01 e02 e10 e11 e12 e20 e21 e22
    simp only [dot, Transform.nrm, Transform.vec]
    linear_combination n.x * v.x * e00 + n.x * v.y * e01 + n.x * v.z * e02 +
      n.y * v.x * e10 + n.y * v.y * e11 + n.y * v.z * e12 +
      n.z * v.x * e20 + n.z * v.y * e21 + n.z * v.z * e22
  exact ⟨key, by rw [key]⟩

/-! ## C10 -/

/-- **C10** transforming a ray keeps its range, depth and time and commutes with evaluation at
every parameter. -/
theorem C10_ray_commutes {T : Type*} (t : Transform K) (ha : AffineM t.m) (r : Ray K T) (s : K) :
    (t.ray r).at s = t.pt (r.at s) ∧ (t.ray r).mint = r.mint ∧ (t.ray r).maxt = r.maxt ∧
    (t.ray r).depth = r.depth ∧ (t.ray r).time = r.time := by
  refine ⟨?_, rfl, rfl, rfl, rfl⟩
  rw [pt_affine _ ha]
  simp only [Ray.at, rayAt, Transform.ray]
  rw [pt_affine _ ha]
  ext <;> simp only [homog, Transform.vec] <;> ring

/-- **C10** the same for the base part of a ray differential. -/
theorem C10_ray_differential_base {T : Type*} (t : Transform K) (r : RayDiff K T) :
    (t.rayDiff r).toRay = t.ray r.toRay ∧ (t.rayDiff r).hasDiff = r.hasDiff := ⟨rfl, rfl⟩

/-- **C10** `from_parent` adds one bounce and keeps the time. -/
theorem C10_from_parent {T : Type*} (o d : V3 K) (r : Ray K T) (a b : T) :
    (Ray.fromParent o d r a b).depth = r.depth + 1 ∧ (Ray.fromParent o d r a b).time = r.time ∧
    (Ray.fromParent o d r a b).mint = a ∧ (Ray.fromParent o d r a b).maxt = b ∧
    ∀ s, (Ray.fromParent o d r a b).at s = rayAt o d s := ⟨rfl, rfl, rfl, rfl, fun _ => rfl⟩

/-! ## C61: ray differentials -/

/-- what a user expects: the auxiliary rays are transformed with the main ray -/
def DiffsFollow {T : Type*} (t : Transform K) (r : RayDiff K T) : Prop :=
  (t.rayDiff r).rxO = t.pt r.rxO ∧ (t.rayDiff r).ryO = t.pt r.ryO ∧
  (t.rayDiff r).rxD = t.vec r.rxD ∧ (t.rayDiff r).ryD = t.vec r.ryD

/-- **C61 is violated**: a translation does not move the auxiliary origins. -/
theorem C61_differentials_not_transformed_false :
    ∃ (t : Transform ℚ) (r : RayDiff ℚ ℚ), AffineM t.m ∧ HasInv t ∧ r.hasDiff = true ∧
      ¬ DiffsFollow t r := by
  refine ⟨translate ⟨1, 0, 0⟩, ⟨⟨⟨0,0,0⟩, ⟨0,0,1⟩, 0, 1, 0, 0⟩, true, ⟨0,0,0⟩, ⟨0,0,0⟩, ⟨0,0,1⟩, ⟨0,0,1⟩⟩,
    by simp [AffineM, translate], translate_hasInv _, rfl, ?_⟩
  rintro ⟨h, -⟩
  rw [(C08_translate_scale _ _ 0 0 0 0).1] at h
  have := congrArg V3.x h
  simp [Transform.rayDiff] at this

/-- **C61 (part that holds)**: vectors under pure translations; and `scale_differential` moves the
auxiliary rays towards the main ray by the factor given.
Full statement: `∀ t r, AffineM t.m → DiffsFollow t r`; missing: everything but the identity on
origins and translations on directions. -/
theorem C61_differentials_partial {T : Type*} (d : V3 K) (r : RayDiff K T) (s : K) :
    ((translate d).rayDiff r).rxD = (translate d).vec r.rxD ∧
    ((translate d).rayDiff r).ryD = (translate d).vec r.ryD ∧
    (r.scale 1).rxO = r.rxO ∧ (r.scale 0).rxO = r.o ∧
    (r.scale s).rxO - r.o = s * (r.rxO - r.o) ∧ (r.scale s).ryO - r.o = s * (r.ryO - r.o) ∧
    (r.scale s).rxD - r.d = s * (r.rxD - r.d) ∧ (r.scale s).ryD - r.d = s * (r.ryD - r.d) := by
  refine ⟨?_, ?_, ?_, ?_, ?_, ?_, ?_, ?_⟩
  · rw [(C08_translate_scale d 0 _ 0 0 0).2.1]; rfl
  · rw [(C08_translate_scale d 0 _ 0 0 0).2.1]; rfl
  all_goals ext <;> simp [RayDiff.scale]

/-! ## C11 -/

/-- the full claim for one transform -/
def BoxConservative (t : Transform K) : Prop :=
  ∀ b : BBox K, BBox.Proper b → ∀ p, BBox.Mem p b → BBox.Mem (t.pt p) (t.box b)

/-- **C11 is violated** by a quarter turn about z: the point (1,1,1) of the unit box leaves the
"transformed box". -/
theorem C11_rotated_box_loses_points_false :
    ∃ t : Transform ℚ, AffineM t.m ∧ HasInv t ∧ ¬ BoxConservative t := by
  refine ⟨⟨!![0, -1, 0, 0; 1, 0, 0, 0; 0, 0, 1, 0; 0, 0, 0, 1],
    !![0, 1, 0, 0; -1, 0, 0, 0; 0, 0, 1, 0; 0, 0, 0, 1]⟩, by simp [AffineM], ?_, ?_⟩
  · apply hasInv_of_left
    ext i j; rw [Matrix.mul_apply, Fin.sum_univ_four]
    fin_cases i <;> fin_cases j <;> simp
  · intro h
    have := h ⟨⟨0, 0, 0⟩, ⟨1, 1, 1⟩⟩ (by norm_num [BBox.Proper]) ⟨0, 0, 0⟩ (by norm_num [BBox.Mem])
    revert this
    simp only [BBox.Mem]
    rw [pt_affine _ (by simp [AffineM])]
    simp only [Transform.box, BBox.fromBBox, BBox.ofPoints]
    rw [pt_affine _ (by simp [AffineM])]
    simp [homog, Transform.vec]

/-- **C11 is violated** by a mirror scale. -/
theorem C11_mirrored_box_loses_points_false : ¬ BoxConservative (scale (-1 : ℚ) 1 1) := by
  intro h
  have := h ⟨⟨0, 0, 0⟩, ⟨1, 1, 1⟩⟩ (by norm_num [BBox.Proper]) ⟨0, 0, 0⟩ (by norm_num [BBox.Mem])
  revert this
  rw [(C08_translate_scale 0 _ 0 _ _ _).2.2.1]
  simp only [Transform.box, BBox.fromBBox, BBox.ofPoints, (C08_translate_scale 0 _ 0 _ _ _).2.2.1,
    (C08_translate_scale 0 0 _ _ _ _).2.2.2]
  simp [BBox.Mem]

/-- **C11 (part that holds)**: affine transforms whose linear part has no negative entry (all
translations, positive scales and their products) are conservative.
Full statement: `∀ t, AffineM t.m → BoxConservative t`; missing: any negative matrix entry. -/
theorem C11_box_conservative_partial (t : Transform K) (ha : AffineM t.m)
    (hpos : ∀ i j : Fin 4, i ≠ 3 → j ≠ 3 → 0 ≤ t.m i j) : BoxConservative t := by
  rintro b hb p ⟨⟨h1, h2⟩, ⟨h3, h4⟩, h5, h6⟩
  rw [pt_affine _ ha]
  simp only [Transform.box]
  rw [BBox.C59_copy_proper_partial b hb, pt_affine _ ha]
  have key : ∀ i : Fin 4, i ≠ 3 → homog t.m b.pMin i ≤ homog t.m p i ∧
      homog t.m p i ≤ homog t.m b.pMin i + ((t.m i 0 * (b.pMax.x - b.pMin.x) + t.m i 1 * 0 + t.m i 2 * 0)
        + (t.m i 0 * 0 + t.m i 1 * (b.pMax.y - b.pMin.y) + t.m i 2 * 0)
        + (t.m i 0 * 0 + t.m i 1 * 0 + t.m i 2 * (b.pMax.z - b.pMin.z))) := by
    intro i hi
    have a := hpos i 0 hi (by decide)
    have b' := hpos i 1 hi (by decide)
    have c := hpos i 2 hi (by decide)
    have := mul_le_mul_of_nonneg_left h1 a
    have := mul_le_mul_of_nonneg_left h2 a
    have := mul_le_mul_of_nonneg_left h3 b'
    have := mul_le_mul_of_nonneg_left h4 b'
    have := mul_le_mul_of_nonneg_left h5 c
    have := mul_le_mul_of_nonneg_left h6 c
    simp only [homog]
    constructor <;> linarith
  exact ⟨key 0 (by decide), key 1 (by decide), key 2 (by decide)⟩

/-- non-vacuity: an anisotropic positive scale with translation -/
example : AffineM (scale (2:ℚ) 3 5).m ∧ ∀ i j : Fin 4, i ≠ 3 → j ≠ 3 → 0 ≤ (scale (2:ℚ) 3 5).m i j := by
  refine ⟨by simp [AffineM, scale], ?_⟩
  intro i j; fin_cases i <;> fin_cases j <;> simp [scale]

end General

/-! ## C12 -/

/-- the viewing direction asked for -/
noncomputable def viewDir (pos look : V3 ℝ) : V3 ℝ := Geom.normalize (look - pos)

/-- **C12 is violated**: looking along +x with z up, the camera's +z axis is mapped to +y. -/
theorem C12_look_at_wrong_direction_false :
    ∃ pos look up : V3 ℝ, look ≠ pos ∧ cross up (look - pos) ≠ 0 ∧
      (lookAt pos look up).vec ⟨0, 0, 1⟩ = ⟨0, 1, 0⟩ ∧ viewDir pos look = ⟨1, 0, 0⟩ := by
  refine ⟨⟨0, 0, 0⟩, ⟨1, 0, 0⟩, ⟨0, 0, 1⟩, ?_, ?_, ?_, ?_⟩
  · intro h; have := congrArg V3.x h; simp at this
  · intro h; have := congrArg V3.y h; simp [cross] at this
  · have e1 : Geom.normalize ((⟨1, 0, 0⟩ : V3 ℝ) - ⟨0, 0, 0⟩) = ⟨1, 0, 0⟩ := by
      ext <;> simp [Geom.normalize, Geom.length, sqLength]
    have e2 : Geom.normalize (⟨0, 0, 1⟩ : V3 ℝ) = ⟨0, 0, 1⟩ := by
      ext <;> simp [Geom.normalize, Geom.length, sqLength]
    have e3 : Geom.normalize (cross (⟨0, 0, 1⟩ : V3 ℝ) ⟨1, 0, 0⟩) = ⟨0, 1, 0⟩ := by
      ext <;> simp [Geom.normalize, Geom.length, sqLength, cross]
    simp only [lookAt, lookFrame, e1, e2, e3]
    ext <;> simp [Transform.vec, lookAtM, cross]
  · ext <;> simp [viewDir, Geom.normalize, Geom.length, sqLength]

/-- **C12 (part that holds)**: `look_at` puts the camera at `pos`, is a rigid motion (dot products
of vectors are preserved), and it is the *inverse* rotation that sends the camera axes to the
frame: the stored rotation maps the viewing direction to the camera's z axis.
Full statement: additionally `(lookAt pos look up).vec ⟨0,0,1⟩ = viewDir pos look`; it is false. -/
theorem C12_look_at_partial (pos look up : V3 ℝ) (h1 : look ≠ pos) (h2 : cross up (look - pos) ≠ 0)
    (v w : V3 ℝ) :
    (lookAt pos look up).pt ⟨0, 0, 0⟩ = pos ∧
    dot ((lookAt pos look up).vec v) ((lookAt pos look up).vec w) = dot v w ∧
    (lookAt pos look up).vec (viewDir pos look) = ⟨0, 0, 1⟩ ∧
    (lookAt pos look up).inverse.vec ⟨0, 0, 1⟩ = viewDir pos look := by
  have ho := lookFrame_orthonormal pos look up h1 h2
  obtain ⟨a, b, c, d, e, f⟩ := orthonormal_dots ho
  have hinv := lookAt_hasInv pos look up h1 h2
  have haff : AffineM (lookAt pos look up).m := by simp [AffineM, lookAt, lookAtM]
  have hview : viewDir pos look = (lookFrame pos look up).2.2 := rfl
  have hn : ∀ u : V3 ℝ, (lookAt pos look up).nrm u = (lookAt pos look up).vec u := by
    intro u; ext <;> simp [Transform.nrm, Transform.vec, lookAt, lookAtM]
  have hvz : (lookAt pos look up).vec (viewDir pos look) = ⟨0, 0, 1⟩ := by
    rw [hview]
    simp only [dot] at c e f
    ext
    · simp [Transform.vec, lookAt, lookAtM]; linarith
    · simp [Transform.vec, lookAt, lookAtM]; linarith
    · simp [Transform.vec, lookAt, lookAtM]; linarith
  refine ⟨?_, ?_, hvz, ?_⟩
  · rw [pt_affine _ haff]; ext <;> simp [homog, lookAt, lookAtM]
  · rw [← hn v]; exact (C09_normals_stay_perpendicular _ haff hinv v w).1
  · rw [← hvz]; exact (C08_inverse_undoes _ haff hinv _).2.2.1

example : (⟨1, 0, 0⟩ : V3 ℝ) ≠ ⟨0, 0, 0⟩ ∧ cross (⟨0, 0, 1⟩ : V3 ℝ) (⟨1, 0, 0⟩ - ⟨0, 0, 0⟩) ≠ 0 := by
  constructor
  · intro h; have := congrArg V3.x h; simp at this
  · intro h; have := congrArg V3.y h; simp [cross] at this

/-! ## C13 -/

theorem rad_add (a b : ℝ) : rad (a + b) = rad a + rad b := by simp only [rad]; ring

/-- **C13** the axis rotations add their angles. -/
theorem C13_axis_rotations_add (a b : ℝ) :
    rotateX a * rotateX b = rotateX (a + b) ∧ rotateY a * rotateY b = rotateY (a + b) ∧
    rotateZ a * rotateZ b = rotateZ (a + b) := by
  refine ⟨?_, ?_, ?_⟩ <;> apply Transform.ext <;> ext i j
  all_goals
    first | rw [mul_m] | rw [mul_mInv]
    rw [Matrix.mul_apply, Fin.sum_univ_four]
    fin_cases i <;> fin_cases j <;>
      simp [rotateX, rotateY, rotateZ, rad_add, Real.cos_add, Real.sin_add] <;> ring

/-- **C13** `rotate` fixes its axis, preserves dot products, and rotation by the opposite angle is
the stored inverse. -/
theorem C13_rotate (angle : ℝ) (axis : V3 ℝ) (h : axis ≠ 0) (v w : V3 ℝ) :
    (rotate angle axis).vec axis = axis ∧
    dot ((rotate angle axis).vec v) ((rotate angle axis).vec w) = dot v w ∧
    rotate (-angle) axis = (rotate angle axis).inverse := by
  have hu := normalize_unit h
  obtain ⟨-, h2, h3⟩ := (Geom.C06_normalize axis).1 h
  have hsc := Real.sin_sq_add_cos_sq (rad angle)
  have hinv : HasInv (rotate angle axis) := hasInv_of_left (rotM_mul_transpose _ _ _ hu hsc)
  have haff : AffineM (rotate angle axis).m := by simp [AffineM, rotate, rotM]
  refine ⟨?_, ?_, ?_⟩
  · set a := Geom.normalize axis with ha
    set L := Geom.length axis with hL
    have key : (rotate angle axis).vec a = a := by
      simp only [sqLength] at hu
      simp only [rotate, ← ha, Transform.vec, rotM]
      ext <;> simp
      · linear_combination (a.x * (1 - Real.cos (rad angle))) * hu
      · linear_combination (a.y * (1 - Real.cos (rad angle))) * hu
      · linear_combination (a.z * (1 - Real.cos (rad angle))) * hu
    have hlin : (rotate angle axis).vec (L * a) = L * (rotate angle axis).vec a := by
      ext <;> simp [Transform.vec] <;> ring
    rw [← h2, show (rotate angle (L * a)).vec (L * a) = (rotate angle axis).vec (L * a) by rw [h2],
      hlin, key]
  · have hn : ∀ u : V3 ℝ, (rotate angle axis).nrm u = (rotate angle axis).vec u := by
      intro u; ext <;> simp [Transform.nrm, Transform.vec, rotate]
    rw [← hn v]; exact (C09_normals_stay_perpendicular _ haff hinv v w).1
  · have hr : rad (-angle) = -rad angle := by simp only [rad]; ring
    apply Transform.ext
    · ext i j; fin_cases i <;> fin_cases j <;>
        simp [rotate, Transform.inverse, rotM, hr] <;> ring
    · ext i j; fin_cases i <;> fin_cases j <;>
        simp [rotate, Transform.inverse, rotM, hr] <;> ring

/-- **C13** rotations about one axis add their angles. -/
theorem C13_rotate_add (a b : ℝ) (axis : V3 ℝ) (h : axis ≠ 0) : rotate a axis * rotate b axis = rotate (a + b) axis := by
  have hu := normalize_unit h
  have hr : rad (a + b) = rad a + rad b := by simp only [rad]; ring
  set u := Geom.normalize axis with hud
  simp only [sqLength] at hu
  have key : rotM u (Real.sin (rad a)) (Real.cos (rad a)) * rotM u (Real.sin (rad b)) (Real.cos (rad b)) =
      rotM u (Real.sin (rad a + rad b)) (Real.cos (rad a + rad b)) := by
    rw [Real.sin_add, Real.cos_add]
    generalize Real.sin (rad a) = s1
    generalize Real.cos (rad a) = c1
    generalize Real.sin (rad b) = s2
    generalize Real.cos (rad b) = c2
    obtain ⟨x, y, z⟩ := u
    simp only at hu
    ext i j
    fin_cases i <;> fin_cases j <;> simp [rotM, Matrix.mul_apply, Fin.sum_univ_four]
    all_goals grind
  apply Transform.ext
  · show (rotate a axis).m * (rotate b axis).m = (rotate (a + b) axis).m
    simp only [rotate, ← hud, hr, key]
  · show (rotate b axis).mInv * (rotate a axis).mInv = (rotate (a + b) axis).mInv
    simp only [rotate, ← hud, hr]
    rw [← Matrix.transpose_mul, key]

/-- **C13** `rotate_x/y/z` agree with `rotate` about the coordinate axes. -/
theorem C13_axis_rotations_agree (a : ℝ) :
    (rotateX a).m = (rotate a ⟨1, 0, 0⟩).m ∧ (rotateY a).m = (rotate a ⟨0, 1, 0⟩).m ∧
    (rotateZ a).m = (rotate a ⟨0, 0, 1⟩).m := by
  have e : ∀ v : V3 ℝ, sqLength v = 1 → Geom.normalize v = v := by
    intro v hv
    ext <;> simp [Geom.normalize, Geom.length, hv]
  refine ⟨?_, ?_, ?_⟩ <;> ext i j <;> simp only [rotate] <;> rw [e _ (by simp [sqLength])] <;>
    fin_cases i <;> fin_cases j <;> simp [rotateX, rotateY, rotateZ, rotM]

section
variable {K : Type*} [Field K] [LinearOrder K] [IsStrictOrderedRing K]

theorem det3_mul (a b : M4 K) (hb : AffineM b) : det3 (a * b) = det3 a * det3 b := by
  obtain ⟨b1, b2, b3, b4⟩ := hb
  simp only [det3, entry, b1, b2, b3]; ring

/-- **C13** handedness is a parity: composition of transforms with non-zero determinants swaps iff
exactly one factor does; rotations and translations never swap; a mirror does. -/
theorem C13_handedness_xor (s t : Transform K) (ht : AffineM t.m)
    (hs0 : det3 s.m ≠ 0) (ht0 : det3 t.m ≠ 0) :
    (s * t).swapsHandedness = xor s.swapsHandedness t.swapsHandedness := by
  simp only [Transform.swapsHandedness, mul_m, det3_mul _ _ ht]
  rcases lt_or_gt_of_ne hs0 with h1 | h1 <;> rcases lt_or_gt_of_ne ht0 with h2 | h2
  · simp [h1, h2, not_lt.2 (mul_pos_of_neg_of_neg h1 h2).le]
  · simp [h1, not_lt.2 h2.le, mul_neg_of_neg_of_pos h1 h2]
  · simp [h2, not_lt.2 h1.le, mul_neg_of_pos_of_neg h1 h2]
  · simp [not_lt.2 h1.le, not_lt.2 h2.le, not_lt.2 (mul_pos h1 h2).le]

/-- **C13** `translate` never swaps handedness and `scale` does exactly for an odd number of
negative factors (negative product). -/
theorem C13_handedness_basic (d : V3 K) (x y z : K) :
    (translate d).swapsHandedness = false ∧
    ((scale x y z).swapsHandedness = true ↔ x * y * z < 0) := by
  constructor
  · simp [Transform.swapsHandedness, det3, translate, not_lt]
  · simp [Transform.swapsHandedness, det3, scale, mul_assoc]

end

/-- **C13** rotations do not swap handedness (determinant exactly 1). -/
theorem C13_rotations_keep_handedness (angle : ℝ) (axis : V3 ℝ) (h : axis ≠ 0) :
    det3 (rotate angle axis).m = 1 ∧ (rotate angle axis).swapsHandedness = false ∧
    det3 (rotateX angle).m = 1 ∧ det3 (rotateY angle).m = 1 ∧ det3 (rotateZ angle).m = 1 := by
  have hsc := Real.sin_sq_add_cos_sq (rad angle)
  have e1 : det3 (rotate angle axis).m = 1 := by
    have hu := normalize_unit h
    simp only [sqLength] at hu
    set a := Geom.normalize axis with ha
    simp only [rotate, ← ha, det3, rotM]
    simp
    set s := Real.sin (rad angle)
    set c := Real.cos (rad angle)
    have hx : a.x * a.x = 1 - a.y * a.y - a.z * a.z := by linear_combination hu
    have hs : s ^ 2 = 1 - c ^ 2 := by linear_combination hsc
    obtain ⟨x, y, z⟩ := a
    simp only at hu hx ⊢
    have hx2 : x ^ 2 = 1 - y ^ 2 - z ^ 2 := by linear_combination hx
    have : (x * x + (1 - x * x) * c) * ((y * y + (1 - y * y) * c) * (z * z + (1 - z * z) * c) - (y * z * (1 - c) - x * s) * (y * z * (1 - c) + x * s)) -
      (x * y * (1 - c) - z * s) * ((x * y * (1 - c) + z * s) * (z * z + (1 - z * z) * c) - (y * z * (1 - c) - x * s) * (x * z * (1 - c) - y * s)) +
      (x * z * (1 - c) + y * s) * ((x * y * (1 - c) + z * s) * (y * z * (1 - c) + x * s) - (y * y + (1 - y * y) * c) * (x * z * (1 - c) - y * s)) = 1 := by
      ring_nf
      have hx4 : x ^ 4 = (1 - y ^ 2 - z ^ 2) ^ 2 := by rw [← hx2]; ring
      have hs3 : s ^ 3 = s * (1 - c ^ 2) := by rw [← hs]; ring
      have hs4 : s ^ 4 = (1 - c ^ 2) ^ 2 := by rw [← hs]; ring
      have hx3 : x ^ 3 = x * (1 - y ^ 2 - z ^ 2) := by rw [← hx2]; ring
      simp only [hx4, hx3, hx2, hs4, hs3, hs]
      ring
    linarith [this]
  refine ⟨e1, ?_, ?_, ?_, ?_⟩
  · simp [Transform.swapsHandedness, e1]
  · simp [det3, rotateX]; linear_combination hsc
  · simp [det3, rotateY]; linear_combination hsc
  · simp [det3, rotateZ]; linear_combination hsc

example : det3 (scale (2:ℚ) 3 (-1)).m ≠ 0 ∧ AffineM (scale (2:ℚ) 3 (-1)).m ∧
    (scale (2:ℚ) 3 (-1)).swapsHandedness = true := by
  refine ⟨by simp [det3, scale], by simp [AffineM, scale], ?_⟩
  rw [(C13_handedness_basic 0 _ _ _).2]; norm_num

end Verif.Xform
