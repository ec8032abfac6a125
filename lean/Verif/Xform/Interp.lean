import Verif.Xform.Polar
import Verif.Xform.AnimProps

/-!
# Between the key frames of an animated transform (`pytracer/transform/__init__.py:270-282`, `367-385`): property C152
Real arithmetic.
-/
namespace Verif.Xform
open V3 Matrix

/-- the transform between two key frames that `interpolate` makes (`transform/__init__.py:377-385`), `dt` of the way (line 377), from what the constructor stored (lines 281-282); `none`: the constructor or `np.linalg.inv` in
`Transform(scale)` (line 385) raises -/
noncomputable def interpAt (m0 m1 : M4 ℝ) (dt : ℝ) : Option (Transform ℝ) :=
  match decompose m0, decompose m1 with
  | some (T0, q0, S0), some (T1, q1, S1) =>
    let trans := (1 - dt) * T0 + dt * T1
    let rot := Quat.slerp dt q0 q1
    let scale := (1 - dt) • S0 + dt • S1
    match inv? scale with
    | none => none
    | some si => some (translate trans * rot.toT * ⟨scale, si⟩)
  | _, _ => none

/-- the animated transform `AnimatedTransform(t1, tm1, t2, tm2)` does between its key frames what `interpAt` says (`transform/__init__.py:271-282`, `377`) -/
def Animated.Built (a : Animated ℝ) : Prop :=
  a.animated = true → ∀ time, a.startTime < time → time < a.endTime →
    interpAt a.start.m a.stop.m ((time - a.startTime) / (a.endTime - a.startTime)) = some (a.inner time)

/-! ## Specification -/

/-- the linear part only stretches: it is symmetric and positive definite (scalings by positive factors along any three perpendicular axes) -/
def StretchOnly (m : M4 ℝ) : Prop := (linearM m)ᵀ = linearM m ∧ ∀ x : Fin 4 → ℝ, x ≠ 0 → 0 < x ⬝ᵥ (linearM m *ᵥ x)

/-! ## Proofs -/

theorem stretch_det {m : M4 ℝ} (h : StretchOnly m) : det3 m ≠ 0 ∧ (linearM m).PosDef := by
  have : (linearM m).PosDef := PosDef.of_dotProduct_mulVec_pos (by rw [IsHermitian, conjTranspose_eq_transpose_of_trivial]; exact h.1) (fun x hx => by simpa using h.2 x hx)
  exact ⟨by rw [← linearM_det]; exact this.det_pos.ne', this⟩

section
variable {M : M4 ℝ}

theorem round_posDef {R : M4 ℝ} (h : R.PosDef) : (round R).PosDef := by
  rw [round, symm_of_posDef h]
  exact (h.inv.add h).smul (by norm_num)

theorem iter_posDef (h : M.PosDef) (k : ℕ) : (round^[k] M).PosDef := by
  induction k with
  | zero => exact h
  | succ k ih => rw [Function.iterate_succ_apply']; exact round_posDef ih

/-- after a round the matrix is at least the identity -/
theorem round_ge {R : M4 ℝ} (h : R.PosDef) (x : Fin 4 → ℝ) : x ⬝ᵥ x ≤ x ⬝ᵥ (round R *ᵥ x) := by
  have hs := symm_of_posDef h
  have u : IsUnit R.det := h.det_pos.ne'.isUnit
  have hi := h.inv.posSemidef.dotProduct_mulVec_nonneg (R *ᵥ x - x)
  have e : (R *ᵥ x - x) ⬝ᵥ (R⁻¹ *ᵥ (R *ᵥ x - x)) = x ⬝ᵥ (R *ᵥ x) - 2 * (x ⬝ᵥ x) + x ⬝ᵥ (R⁻¹ *ᵥ x) := by
    rw [mulVec_sub, mulVec_mulVec, nonsing_inv_mul _ u, one_mulVec, sub_dotProduct, dotProduct_sub, dotProduct_sub]
    have : (R *ᵥ x) ⬝ᵥ (R⁻¹ *ᵥ x) = x ⬝ᵥ x := by
      rw [dotProduct_mulVec, ← mulVec_transpose, mulVec_mulVec, transpose_nonsing_inv, hs, nonsing_inv_mul _ u, one_mulVec]
    rw [this, dotProduct_comm (R *ᵥ x) x]; ring
  simp only [star_trivial] at hi
  rw [e] at hi
  rw [round, hs, smul_mulVec, add_mulVec, dotProduct_smul, dotProduct_add, smul_eq_mul]
  linarith

end

theorem trace4_eq (m : M4 ℝ) : Quat.trace4 m = m.trace := by
  simp [Quat.trace4, trace, Fin.sum_univ_succ]; ring

/-- what `decompose` gives for a matrix that only stretches -/
theorem decompose_stretch {m : M4 ℝ} (h : StretchOnly m) :
    ∃ (R S : M4 ℝ) (w : ℝ), decompose m = some (⟨m 0 3, m 1 3, m 2 3⟩, ⟨0, 0, 0, w⟩, S) ∧ S.PosDef ∧ R * S = linearM m ∧ R.PosDef ∧ (∀ x, x ⬝ᵥ x ≤ x ⬝ᵥ (R *ᵥ x)) ∧
      R * linearM m = linearM m * R ∧
      (∀ x, sq (R *ᵥ x) - sq x ≤ (1 / 4) ^ 100 * (sq (linearM m *ᵥ x) + sq ((linearM m)ᵀ⁻¹ *ᵥ x))) ∧ R = round^[100] (linearM m) := by
  obtain ⟨hd, hP⟩ := stretch_det h
  have hM : (linearM m).det ≠ 0 := by rw [linearM_det]; exact hd
  have hl := polarLoop_eq 100 (linearM m) (2 * EPS) le_rfl (fun j => (pinv_iter hM j).1)
  have hp := pinv_iter hM 100
  have hRP := iter_posDef hP 100
  have hge : ∀ x, x ⬝ᵥ x ≤ x ⬝ᵥ ((round^[100] (linearM m)) *ᵥ x) := by
    intro x
    rw [Function.iterate_succ_apply']
    exact round_ge (iter_posDef hP 99) x
  have hsq := fun x => (sq_iter hM 99 x).2
  obtain ⟨R, hR⟩ : ∃ R, R = round^[100] (linearM m) := ⟨_, rfl⟩
  rw [← hR] at hl hp hRP hge
  have hS := stretch_posDef hp
  have hs := symm_of_posDef hRP
  have htr : 4 ≤ Quat.trace4 R := by
    have hdiag : ∀ i, 1 ≤ R i i := by
      intro i
      have := hge (Pi.single i 1)
      simpa using this
    have := hdiag 0; have := hdiag 1; have := hdiag 2; have := hdiag 3
    simp only [Quat.trace4]; linarith
  have hsym : ∀ i j, R i j = R j i := fun i j => by
    conv_lhs => rw [← hs]
    rfl
  have hq : Quat.fromMatrix R = ⟨0, 0, 0, Real.sqrt (Quat.trace4 R + 1) / 2⟩ := by
    rw [Quat.fromMatrix]
    simp only
    rw [if_pos (by linarith : Quat.trace4 R > 0), hsym 2 1, hsym 0 2, hsym 1 0]
    simp
  refine ⟨R, R⁻¹ * linearM m, Real.sqrt (Quat.trace4 R + 1) / 2, ?_, hS, ?_, hRP, hge, ?_, ?_, hR⟩
  · simp only [decompose, polar, hl, inv_some hp.1, hq]
  · rw [← Matrix.mul_assoc, mul_nonsing_inv _ hp.1.isUnit, Matrix.one_mul]
  · have := symm_of_posDef hp.2.1
    rw [transpose_mul, transpose_transpose, hs, h.1] at this
    exact this
  · rw [hR]; exact hsq

theorem toT_scalar (w : ℝ) : (⟨0, 0, 0, w⟩ : Quat ℝ).toT = ident := by
  have h : (toTransform (0 : ℝ) 0 0 w).m = 1 := by
    ext i j; fin_cases i <;> fin_cases j <;> simp [toTransform]
  have h' : (toTransform (0 : ℝ) 0 0 w).mInv = 1 := by
    ext i j; fin_cases i <;> fin_cases j <;> simp [toTransform]
  exact Transform.ext h h'

theorem slerp_scalar' (t a b : ℝ) : ∃ w, Quat.slerp t ⟨0, 0, 0, a⟩ ⟨0, 0, 0, b⟩ = ⟨0, 0, 0, w⟩ := by
  rw [Quat.slerp]
  simp only
  split_ifs
  · exact ⟨_, by simp [Quat.normalized, Quat.smul, Quat.add]; rfl⟩
  · exact ⟨_, by simp [Quat.normalized, Quat.smul, Quat.add, Quat.neg]; rfl⟩

theorem toT_slerp (t a b : ℝ) : (Quat.slerp t ⟨0, 0, 0, a⟩ ⟨0, 0, 0, b⟩).toT = ident := by
  obtain ⟨w, h⟩ := slerp_scalar' t a b
  rw [h, toT_scalar]

/-- **C152 (part)** key frames that translate and stretch but neither rotate nor mirror: at every instant between them the transform is the translation that far between the two translations after the stretch that far
between stretches `S₀` and `S₁`, which are those of the key frames to within 2⁻¹⁰⁰, and it has its inverse.  Missing: key frames that rotate (`C152_rotation_false`, `C152_inverse_false`) or mirror (`C152_mirror_false`). -/
theorem C152_stretch_partial (m0 m1 : M4 ℝ) (h0 : StretchOnly m0) (h1 : StretchOnly m1) :
    ∃ S0 S1 : M4 ℝ,
      (∀ x : Fin 4 → ℝ, ((linearM m0 - S0) *ᵥ x) ⬝ᵥ ((linearM m0 - S0) *ᵥ x) ≤ ((linearM m0 *ᵥ (linearM m0 *ᵥ x)) ⬝ᵥ (linearM m0 *ᵥ (linearM m0 *ᵥ x)) + x ⬝ᵥ x) / 4 ^ 100) ∧
      (∀ x : Fin 4 → ℝ, ((linearM m1 - S1) *ᵥ x) ⬝ᵥ ((linearM m1 - S1) *ᵥ x) ≤ ((linearM m1 *ᵥ (linearM m1 *ᵥ x)) ⬝ᵥ (linearM m1 *ᵥ (linearM m1 *ᵥ x)) + x ⬝ᵥ x) / 4 ^ 100) ∧
      ∀ dt : ℝ, 0 ≤ dt → dt ≤ 1 → ∃ X, interpAt m0 m1 dt = some X ∧ HasInv X ∧
        X.m = (translate ((1 - dt) * (⟨m0 0 3, m0 1 3, m0 2 3⟩ : V3 ℝ) + dt * (⟨m1 0 3, m1 1 3, m1 2 3⟩ : V3 ℝ))).m * ((1 - dt) • S0 + dt • S1) := by
  obtain ⟨R0, S0, w0, d0, S0p, e0, R0p, R0g, c0, b0, -⟩ := decompose_stretch h0
  obtain ⟨R1, S1, w1, d1, S1p, e1, R1p, R1g, c1, b1, -⟩ := decompose_stretch h1
  have close : ∀ (m R S : M4 ℝ), StretchOnly m → R * S = linearM m → R.PosDef → (∀ x, x ⬝ᵥ x ≤ x ⬝ᵥ (R *ᵥ x)) → R * linearM m = linearM m * R →
      (∀ x, sq (R *ᵥ x) - sq x ≤ (1 / 4) ^ 100 * (sq (linearM m *ᵥ x) + sq ((linearM m)ᵀ⁻¹ *ᵥ x))) → ∀ x : Fin 4 → ℝ,
      ((linearM m - S) *ᵥ x) ⬝ᵥ ((linearM m - S) *ᵥ x) ≤ ((linearM m *ᵥ (linearM m *ᵥ x)) ⬝ᵥ (linearM m *ᵥ (linearM m *ᵥ x)) + x ⬝ᵥ x) / 4 ^ 100 := by
    intro m R S hm e Rp Rg c b x
    have uR : IsUnit R.det := Rp.det_pos.ne'.isUnit
    have uM : IsUnit (linearM m).det := (stretch_det hm).2.det_pos.ne'.isUnit
    have hs := symm_of_posDef Rp
    -- lengths do not shrink under R
    have grow : ∀ y, sq y ≤ sq (R *ᵥ y) := by
      intro y
      have h1 := Rg y
      have h2 := sq_nonneg' (R *ᵥ y - y)
      rw [sq, sub_dotProduct, dotProduct_sub, dotProduct_sub, dotProduct_comm (R *ᵥ y) y] at h2
      simp only [sq]; linarith
    have shrink : ∀ y, sq (R⁻¹ *ᵥ y) ≤ sq y := by
      intro y
      have := grow (R⁻¹ *ᵥ y)
      rwa [mulVec_mulVec, mul_nonsing_inv _ uR, one_mulVec] at this
    have eS : S = R⁻¹ * linearM m := by rw [← e, ← Matrix.mul_assoc, nonsing_inv_mul _ uR, Matrix.one_mul]
    have cinv : linearM m * R⁻¹ = R⁻¹ * linearM m := by
      calc linearM m * R⁻¹ = R⁻¹ * (R * linearM m) * R⁻¹ := by rw [← Matrix.mul_assoc, nonsing_inv_mul _ uR, Matrix.one_mul]
        _ = R⁻¹ * linearM m := by rw [c, Matrix.mul_assoc, Matrix.mul_assoc, mul_nonsing_inv _ uR, Matrix.mul_one]
    obtain ⟨y, hy⟩ : ∃ y, y = S *ᵥ x := ⟨_, rfl⟩
    have e1 : (linearM m - S) *ᵥ x = R *ᵥ y - y := by rw [hy, mulVec_mulVec, e, sub_mulVec]
    have e2 : sq (R *ᵥ y - y) ≤ sq (R *ᵥ y) - sq y := by
      have := Rg y
      rw [sq, sub_dotProduct, dotProduct_sub, dotProduct_sub, dotProduct_comm (R *ᵥ y) y]
      simp only [sq]; linarith
    have e3 : sq (linearM m *ᵥ y) ≤ sq (linearM m *ᵥ (linearM m *ᵥ x)) := by
      have : linearM m *ᵥ y = R⁻¹ *ᵥ (linearM m *ᵥ (linearM m *ᵥ x)) := by
        rw [hy, eS, mulVec_mulVec, mulVec_mulVec, mulVec_mulVec, ← Matrix.mul_assoc, cinv, Matrix.mul_assoc]
      rw [this]; exact shrink _
    have e4 : sq ((linearM m)ᵀ⁻¹ *ᵥ y) ≤ sq x := by
      have : (linearM m)ᵀ⁻¹ *ᵥ y = R⁻¹ *ᵥ x := by
        rw [hy, eS, hm.1, mulVec_mulVec, ← cinv, ← Matrix.mul_assoc, nonsing_inv_mul _ uM, Matrix.one_mul]
      rw [this]; exact shrink _
    rw [e1]
    change sq (R *ᵥ y - y) ≤ (sq (linearM m *ᵥ (linearM m *ᵥ x)) + sq x) / 4 ^ 100
    have := b y
    rw [div_eq_mul_inv, mul_comm _ ((4 ^ 100 : ℝ)⁻¹), ← inv_pow, inv_eq_one_div]
    calc _ ≤ _ := e2
      _ ≤ _ := this
      _ ≤ _ := by gcongr
  refine ⟨S0, S1, close m0 R0 S0 h0 e0 R0p R0g c0 b0, close m1 R1 S1 h1 e1 R1p R1g c1 b1, fun dt t0 t1 => ?_⟩
  have hP : ((1 - dt) • S0 + dt • S1).PosDef := by
    rcases t0.eq_or_lt with h | h
    · rw [← h]; simpa using S0p
    · rcases t1.eq_or_lt with h' | h'
      · rw [h']; simpa using S1p
      · exact (S0p.smul (by linarith)).add (S1p.smul h)
  have hd := hP.det_pos.ne'
  refine ⟨_, by simp only [interpAt, d0, d1, toT_slerp, inv_some hd]; rfl, ?_, ?_⟩
  · refine mul_hasInv (mul_hasInv (translate_hasInv _) ⟨by simp [ident], by simp [ident]⟩) ⟨mul_nonsing_inv _ hd.isUnit, nonsing_inv_mul _ hd.isUnit⟩
  · rw [mul_m, mul_m]; simp [ident]

theorem round_orth {R : M4 ℝ} (h : R * Rᵀ = 1) : round R = R := by
  have : Rᵀ⁻¹ = R := inv_eq_left_inv h
  rw [round, this, ← two_smul ℝ R, smul_smul]; norm_num

theorem iter_orth {R : M4 ℝ} (h : R * Rᵀ = 1) (k : ℕ) : round^[k] R = R := Function.iterate_fixed (round_orth h) k

/-- what `decompose` gives for a matrix whose linear part keeps lengths -/
theorem decompose_orth (m : M4 ℝ) (h : linearM m * (linearM m)ᵀ = 1) : decompose m = some (⟨m 0 3, m 1 3, m 2 3⟩, Quat.fromMatrix (linearM m), 1) := by
  have hd : ∀ j, (round^[j] (linearM m)).det ≠ 0 := by
    intro j
    rw [iter_orth h]
    intro h0
    have := congrArg det h
    rw [det_mul, h0, zero_mul, det_one] at this
    exact one_ne_zero this.symm
  have hl := polarLoop_eq 100 (linearM m) (2 * EPS) le_rfl hd
  rw [iter_orth h] at hl
  have h0 : (linearM m).det ≠ 0 := hd 0
  simp only [decompose, polar, hl, inv_some h0, nonsing_inv_mul _ h0.isUnit]

/-- **C152 (part)** an animation between two translations is the translation that far between them, exactly -/
theorem C152_translation_partial (v0 v1 : V3 ℝ) (dt : ℝ) :
    ∃ X, interpAt (translate v0).m (translate v1).m dt = some X ∧ X = translate ((1 - dt) * v0 + dt * v1) := by
  have hl : ∀ v : V3 ℝ, linearM (translate v).m = 1 := by
    intro v; ext i j; fin_cases i <;> fin_cases j <;> simp [linearM, translate]
  have hd : ∀ v : V3 ℝ, decompose (translate v).m = some (v, ⟨0, 0, 0, Real.sqrt 5 / 2⟩, 1) := by
    intro v
    rw [decompose_orth _ (by rw [hl]; simp), hl]
    have : Quat.fromMatrix 1 = ⟨0, 0, 0, Real.sqrt 5 / 2⟩ := by
      have ht : Quat.trace4 1 = 4 := by simp [Quat.trace4]; norm_num
      rw [Quat.fromMatrix]
      simp only [ht]
      rw [if_pos (by norm_num : (4 : ℝ) > 0)]
      simp; norm_num
    rw [this]
    simp [translate]
  have e : (1 - dt) • (1 : M4 ℝ) + dt • (1 : M4 ℝ) = 1 := by rw [← add_smul]; simp
  refine ⟨_, by simp only [interpAt, hd, e, inv_some (show (1 : M4 ℝ).det ≠ 0 by simp), toT_slerp]; rfl, ?_⟩
  refine Transform.ext ?_ ?_
  · simp [mul_m, ident]
  · simp [mul_mInv, ident]

/-- **C152 (part)** so an animated transform from one translation to another is, at every time from start to end, the translation that far between them -/
theorem C152_moving_partial (a : Animated ℝ) (ha : a.Built) (v0 v1 : V3 ℝ) (h0 : a.start = translate v0) (h1 : a.stop = translate v1) (ht : a.startTime < a.endTime) (time : ℝ)
    (t0 : a.startTime ≤ time) (t1 : time ≤ a.endTime) (p : V3 ℝ) :
    a.pt time p = p + ((1 - (time - a.startTime) / (a.endTime - a.startTime)) * v0 + (time - a.startTime) / (a.endTime - a.startTime) * v1) := by
  have hpt : ∀ v : V3 ℝ, (translate v).pt p = p + v := fun v => (C08_translate_scale v p 0 1 1 1).1
  have hord : 0 < a.endTime - a.startTime := by linarith
  by_cases hs : a.animated = true
  · rcases t0.eq_or_lt with e | t0'
    · have := ((C14_end_points (T := ℝ) a ht).1 time e.ge).2.1 p
      rw [this, h0, hpt, ← e]; simp
      ext <;> simp
    · rcases t1.eq_or_lt with e | t1'
      · have := ((C14_end_points (T := ℝ) a ht).2.1 time e.ge).2.1 p
        rw [this, h1, hpt, e, div_self hord.ne']; simp
        ext <;> simp
      · obtain ⟨X, e1, e2⟩ := C152_translation_partial v0 v1 ((time - a.startTime) / (a.endTime - a.startTime))
        have := ha hs time t0' t1'
        rw [h0, h1, e1, Option.some.injEq] at this
        have hi : a.interpolate time = a.inner time := by
          rw [Animated.interpolate, if_neg (by simp [hs, not_le.2 t0']), if_neg (not_le.2 t1')]
        rw [Animated.pt, if_neg (by simp [hs, not_lt.2 t0]), if_neg (not_lt.2 t1), hi, ← this, e2, hpt]
  · have hs : a.animated = false := by simpa using hs
    have hm : a.start.m = a.stop.m := by simpa [Animated.animated, Transform.eqOp] using hs
    have hv : v0 = v1 := by
      rw [h0, h1] at hm
      have e0 := congrFun (congrFun hm 0) 3
      have e1 := congrFun (congrFun hm 1) 3
      have e2 := congrFun (congrFun hm 2) 3
      ext
      · simpa [translate] using e0
      · simpa [translate] using e1
      · simpa [translate] using e2
    rw [(C14_constant (T := ℝ) a hm).2.1 time p, h0, hpt, hv]
    congr 1
    ext <;> simp <;> ring

/-- there are such animated transforms -/
example (v0 v1 : V3 ℝ) : ∃ a : Animated ℝ, a.Built ∧ a.start = translate v0 ∧ a.stop = translate v1 ∧ a.startTime = 0 ∧ a.endTime = 1 :=
  ⟨⟨0, 1, translate v0, translate v1, fun t => translate ((1 - t) * v0 + t * v1)⟩, fun _ time _ _ => by
    obtain ⟨X, h1, h2⟩ := C152_translation_partial v0 v1 ((time - 0) / (1 - 0))
    simp only [h1, h2]; simp, rfl, rfl, rfl, rfl⟩

/-- a case `C152_stretch_partial` applies to -/
example : StretchOnly (scale (2 : ℝ) 3 4).m := by
  have e : linearM (scale (2 : ℝ) 3 4).m = diagonal ![2, 3, 4, 1] := by
    ext i j; fin_cases i <;> fin_cases j <;> simp [linearM, scale]
  have hp : (diagonal ![(2 : ℝ), 3, 4, 1]).PosDef := by
    rw [posDef_diagonal_iff]; intro i; fin_cases i <;> simp
  rw [StretchOnly, e]
  exact ⟨diagonal_transpose _, fun x hx => by simpa using hp.dotProduct_mulVec_pos hx⟩

/-- `m` with the translation `v` -/
def placed (m : M4 ℝ) (v : V3 ℝ) : M4 ℝ := !![m 0 0, m 0 1, m 0 2, v.x; m 1 0, m 1 1, m 1 2, v.y; m 2 0, m 2 1, m 2 2, v.z; 0, 0, 0, 1]

theorem linearM_placed (m : M4 ℝ) (v : V3 ℝ) : linearM (placed m v) = linearM m := by
  ext i j; fin_cases i <;> fin_cases j <;> simp [linearM, placed]

theorem translate_mul_entry (v : V3 ℝ) (x : M4 ℝ) (j : Fin 4) (h : x 3 j = 0) : ((translate v).m * x) 0 j = x 0 j := by
  rw [entry]; simp [translate, h]

/-- the quarter turn about z -/
def quarter : M4 ℝ := !![0, -1, 0, 0; 1, 0, 0, 0; 0, 0, 1, 0; 0, 0, 0, 1]

theorem linearM_quarter : linearM quarter = quarter := by
  ext i j; fin_cases i <;> fin_cases j <;> simp [linearM, quarter]

theorem quarter_orth : quarter * quarterᵀ = 1 := by
  ext i j; fin_cases i <;> fin_cases j <;> simp [quarter, Matrix.mul_apply, Fin.sum_univ_succ]

/-- slerp between equal quaternions that are too long for the arc branch -/
theorem slerp_same (t : ℝ) (q : Quat ℝ) (h : Quat.dot q q > 1 - EPS) : Quat.slerp t q q = Quat.normalized q := by
  rw [Quat.slerp]
  simp only
  rw [if_pos h]
  congr 1
  ext <;> simp [Quat.add, Quat.smul] <;> ring

/-- **C152 fails** for rotations: an object turned by 90° about z in both key frames, moving anywhere, is turned by the angle of cosine 5/13 (about 67°) at every instant between them, so that it jumps when the motion starts
and when it ends -/
theorem C152_rotation_false (v0 v1 : V3 ℝ) (dt : ℝ) :
    ∃ X, interpAt (placed quarter v0) (placed quarter v1) dt = some X ∧ X.m 0 0 = 5 / 13 ∧ (placed quarter v0) 0 0 = 0 ∧ (placed quarter v1) 0 0 = 0 := by
  have hq : Quat.fromMatrix quarter = ⟨0, 0, 2 * ((1 / 2) / Real.sqrt 3), Real.sqrt 3 / 2⟩ := by
    have ht : Quat.trace4 quarter = 2 := by simp [Quat.trace4, quarter]; norm_num
    rw [Quat.fromMatrix]
    simp only [ht]
    rw [if_pos (by norm_num : (2 : ℝ) > 0)]
    simp [quarter]; norm_num
  have hd : ∀ v : V3 ℝ, decompose (placed quarter v) = some (v, ⟨0, 0, 2 * ((1 / 2) / Real.sqrt 3), Real.sqrt 3 / 2⟩, 1) := by
    intro v
    rw [decompose_orth _ (by rw [linearM_placed, linearM_quarter]; exact quarter_orth), linearM_placed, linearM_quarter, hq]
    simp [placed]
  have h3 : Real.sqrt 3 ^ 2 = 3 := Real.sq_sqrt (by norm_num)
  have h3p : 0 < Real.sqrt 3 := Real.sqrt_pos.2 (by norm_num)
  have hz : (2 * ((1 / 2) / Real.sqrt 3)) ^ 2 = 1 / 3 := by
    rw [mul_pow, div_pow, h3]; norm_num
  have hdot : Quat.dot (⟨0, 0, 2 * ((1 / 2) / Real.sqrt 3), Real.sqrt 3 / 2⟩ : Quat ℝ) ⟨0, 0, 2 * ((1 / 2) / Real.sqrt 3), Real.sqrt 3 / 2⟩ = 13 / 12 := by
    simp only [Quat.dot]
    have : Real.sqrt 3 / 2 * (Real.sqrt 3 / 2) = 3 / 4 := by rw [div_mul_div_comm, ← pow_two, h3]; norm_num
    rw [this, ← pow_two (2 * _), hz]; norm_num
  have hs := slerp_same dt (⟨0, 0, 2 * ((1 / 2) / Real.sqrt 3), Real.sqrt 3 / 2⟩ : Quat ℝ) (by rw [hdot]; norm_num [EPS])
  have e : (1 - dt) • (1 : M4 ℝ) + dt • (1 : M4 ℝ) = 1 := by rw [← add_smul]; simp
  refine ⟨_, by simp only [interpAt, hd, e, inv_some (show (1 : M4 ℝ).det ≠ 0 by simp), hs]; rfl, ?_, by simp [placed, quarter], by simp [placed, quarter]⟩
  rw [mul_m, mul_m, Matrix.mul_one, translate_mul_entry _ _ _ (by simp [Quat.toT, toTransform])]
  simp only [Quat.normalized, Quat.smul, hdot, Quat.toT, toTransform]
  have hn : (1 / Real.sqrt (13 / 12)) ^ 2 = 12 / 13 := by rw [div_pow, Real.sq_sqrt (by norm_num)]; norm_num
  simp only [transpose_apply, of_apply, cons_val', cons_val_zero, cons_val_fin_one]
  generalize 1 / Real.sqrt (13 / 12) = n at hn
  generalize 2 * (1 / 2 / Real.sqrt 3) = z at hz
  have : (n * z) * (n * z) = 4 / 13 := by
    calc (n * z) * (n * z) = n ^ 2 * z ^ 2 := by ring
      _ = _ := by rw [hn, hz]; norm_num
  linarith

/-- the turn by 120° about the diagonal -/
def third : M4 ℝ := !![0, 0, 1, 0; 1, 0, 0, 0; 0, 1, 0, 0; 0, 0, 0, 1]

theorem linearM_third : linearM third = third := by
  ext i j; fin_cases i <;> fin_cases j <;> simp [linearM, third]

theorem slerp_same_arc (t a w : ℝ) (ha : 0 < a) (h : a ^ 2 = 7 / 8) (hq : Quat.dot ⟨w, w, w, 2 * w⟩ ⟨w, w, w, 2 * w⟩ = a ^ 2) :
    ∃ k, Quat.slerp t ⟨w, w, w, 2 * w⟩ ⟨w, w, w, 2 * w⟩ = ⟨k * w, k * w, k * w, k * (2 * w)⟩ ∧ k = Real.cos (Real.arccos (7 / 8) * t) + Real.sin (Real.arccos (7 / 8) * t) / a := by
  rw [Quat.slerp]
  simp only [hq, h]
  rw [if_neg (by norm_num [EPS]), min_eq_right (by norm_num), max_eq_right (by norm_num)]
  have e : Quat.normalized (Quat.add (⟨w, w, w, 2 * w⟩ : Quat ℝ) (Quat.neg (Quat.smul (7 / 8) ⟨w, w, w, 2 * w⟩))) = Quat.smul (1 / a) ⟨w, w, w, 2 * w⟩ := by
    have hd : Quat.dot (Quat.add (⟨w, w, w, 2 * w⟩ : Quat ℝ) (Quat.neg (Quat.smul (7 / 8) ⟨w, w, w, 2 * w⟩))) (Quat.add (⟨w, w, w, 2 * w⟩ : Quat ℝ) (Quat.neg (Quat.smul (7 / 8) ⟨w, w, w, 2 * w⟩))) = (a / 8) ^ 2 := by
      simp only [Quat.dot, Quat.add, Quat.neg, Quat.smul] at hq ⊢
      linear_combination (1 / 64) * hq
    rw [Quat.normalized, hd, Real.sqrt_sq (by positivity)]
    simp only [Quat.smul, Quat.add, Quat.neg, Quat.mk.injEq]
    refine ⟨?_, ?_, ?_, ?_⟩ <;> field_simp <;> ring
  rw [e]
  refine ⟨_, ?_, rfl⟩
  simp only [Quat.add, Quat.smul, Quat.mk.injEq]
  refine ⟨?_, ?_, ?_, ?_⟩ <;> ring

/-- **C152 fails**: between key frames that both turn by 120° about the diagonal the transform half way is no rotation at all and its stored inverse is not its inverse -/
theorem C152_inverse_false (v0 v1 : V3 ℝ) : ∃ X, interpAt (placed third v0) (placed third v1) (1 / 2) = some X ∧ X.m * X.mInv ≠ 1 := by
  have ho : third * thirdᵀ = 1 := by
    ext i j; fin_cases i <;> fin_cases j <;> simp [third, Matrix.mul_apply, Fin.sum_univ_succ]
  have h2 : Real.sqrt 2 ^ 2 = 2 := Real.sq_sqrt (by norm_num)
  have h2p : 0 < Real.sqrt 2 := Real.sqrt_pos.2 (by norm_num)
  obtain ⟨w, hw⟩ : ∃ w, w = (1 / 2) / Real.sqrt 2 := ⟨_, rfl⟩
  have hw2 : w ^ 2 = 1 / 8 := by rw [hw, div_pow, h2]; norm_num
  have hq : Quat.fromMatrix third = ⟨w, w, w, 2 * w⟩ := by
    have ht : Quat.trace4 third = 1 := by simp [Quat.trace4, third]
    rw [Quat.fromMatrix]
    simp only [ht]
    rw [if_pos (by norm_num : (1 : ℝ) > 0), show (1 : ℝ) + 1 = 2 by norm_num, ← hw]
    have e : Real.sqrt 2 / 2 = 2 * w := by rw [hw]; field_simp; rw [h2]
    rw [e]
    simp [third]
  have hd : ∀ v : V3 ℝ, decompose (placed third v) = some (v, ⟨w, w, w, 2 * w⟩, 1) := by
    intro v
    rw [decompose_orth _ (by rw [linearM_placed, linearM_third]; exact ho), linearM_placed, linearM_third, hq]
    simp [placed]
  obtain ⟨a, ha⟩ : ∃ a, a = Real.sqrt (7 / 8) := ⟨_, rfl⟩
  have ha2 : a ^ 2 = 7 / 8 := by rw [ha, Real.sq_sqrt (by norm_num)]
  have hap : 0 < a := by rw [ha]; exact Real.sqrt_pos.2 (by norm_num)
  obtain ⟨k, hs, hk⟩ := slerp_same_arc (1 / 2) a w hap ha2 (by simp only [Quat.dot]; rw [ha2]; linear_combination 7 * hw2)
  have hk1 : 8 / 7 < k ^ 2 := by
    obtain ⟨c, hc⟩ : ∃ c, c = Real.arccos (7 / 8) * (1 / 2) := ⟨_, rfl⟩
    have h2c : Real.cos (2 * c) = 7 / 8 := by
      rw [hc, show 2 * (Real.arccos (7 / 8) * (1 / 2)) = Real.arccos (7 / 8) by ring, Real.cos_arccos (by norm_num) (by norm_num)]
    have b1 := Real.arccos_nonneg (7 / 8)
    have b2 := Real.arccos_le_pi (7 / 8)
    have hcos : 0 ≤ Real.cos c := Real.cos_nonneg_of_mem_Icc ⟨by rw [hc]; linarith [Real.pi_pos], by rw [hc]; linarith⟩
    have hsin : 0 ≤ Real.sin c := Real.sin_nonneg_of_nonneg_of_le_pi (by rw [hc]; linarith) (by rw [hc]; linarith [Real.pi_pos])
    have e1 : Real.cos c ^ 2 = 15 / 16 := by have := Real.cos_sq c; rw [h2c] at this; linarith
    have e2 : Real.sin c ^ 2 = 1 / 16 := by have := Real.sin_sq_add_cos_sq c; linarith
    have e3 : Real.sin c = 1 / 4 := by nlinarith
    have e4 : 9 / 10 < Real.cos c := by nlinarith
    rw [← hc, e3] at hk
    have a1 : a < 1 := by nlinarith
    have : 1 / 4 < 1 / 4 / a := by rw [lt_div_iff₀ hap]; linarith
    have : 115 / 100 < k := by linarith
    nlinarith
  have e : (1 - (1 / 2 : ℝ)) • (1 : M4 ℝ) + (1 / 2 : ℝ) • (1 : M4 ℝ) = 1 := by rw [← add_smul]; norm_num
  refine ⟨_, by simp only [interpAt, hd, e, inv_some (show (1 : M4 ℝ).det ≠ 0 by simp), hs]; rfl, fun h => ?_⟩
  rw [mul_m, mul_m, mul_mInv, mul_mInv] at h
  simp only [Matrix.mul_one, inv_one, Matrix.one_mul] at h
  have ht := (translate_hasInv ((1 - 1 / 2 : ℝ) * v0 + (1 / 2 : ℝ) * v1)).2
  generalize (translate ((1 - 1 / 2 : ℝ) * v0 + (1 / 2 : ℝ) * v1)) = t at h ht
  generalize hr : (⟨k * w, k * w, k * w, k * (2 * w)⟩ : Quat ℝ).toT = r at h
  have h' : r.m * r.mInv = 1 := by
    calc r.m * r.mInv = (t.mInv * t.m) * (r.m * r.mInv) * (t.mInv * t.m) := by rw [ht]; simp
      _ = t.mInv * (t.m * r.m * (r.mInv * t.mInv)) * t.m := by simp only [Matrix.mul_assoc]
      _ = 1 := by rw [h, Matrix.mul_one, ht]
  have h00 := congrFun (congrFun h' 0) 0
  rw [entry, ← hr] at h00
  simp [Quat.toT, toTransform] at h00
  have key : (k ^ 2 * w ^ 2) * (7 * (k ^ 2 * w ^ 2) - 1) = 0 := by linear_combination h00 / 8
  rw [hw2] at key
  nlinarith

/-- the mirroring at the yz plane -/
def mirrorX : M4 ℝ := !![-1, 0, 0, 0; 0, 1, 0, 0; 0, 0, 1, 0; 0, 0, 0, 1]

theorem linearM_mirror : linearM mirrorX = mirrorX := by
  ext i j; fin_cases i <;> fin_cases j <;> simp [linearM, mirrorX]

/-- **C152 fails** for mirrorings: a mirrored object that moves is not mirrored between the key frames -/
theorem C152_mirror_false (v0 v1 : V3 ℝ) (dt : ℝ) :
    interpAt (placed mirrorX v0) (placed mirrorX v1) dt = some (translate ((1 - dt) * v0 + dt * v1)) ∧ (placed mirrorX v0) 0 0 = -1 ∧ (placed mirrorX v1) 0 0 = -1 := by
  have ho : mirrorX * mirrorXᵀ = 1 := by
    ext i j; fin_cases i <;> fin_cases j <;> simp [mirrorX, Matrix.mul_apply, Fin.sum_univ_succ]
  have hq : Quat.fromMatrix mirrorX = ⟨0, 0, 0, Real.sqrt 3 / 2⟩ := by
    have ht : Quat.trace4 mirrorX = 2 := by simp [Quat.trace4, mirrorX]; norm_num
    rw [Quat.fromMatrix]
    simp only [ht]
    rw [if_pos (by norm_num : (2 : ℝ) > 0)]
    simp [mirrorX]; norm_num
  have hd : ∀ v : V3 ℝ, decompose (placed mirrorX v) = some (v, ⟨0, 0, 0, Real.sqrt 3 / 2⟩, 1) := by
    intro v
    rw [decompose_orth _ (by rw [linearM_placed, linearM_mirror]; exact ho), linearM_placed, linearM_mirror, hq]
    simp [placed]
  refine ⟨?_, by simp [placed, mirrorX], by simp [placed, mirrorX]⟩
  have e : (1 - dt) • (1 : M4 ℝ) + dt • (1 : M4 ℝ) = 1 := by rw [← add_smul]; simp
  simp only [interpAt, hd, e, inv_some (show (1 : M4 ℝ).det ≠ 0 by simp), toT_slerp]
  congr 1
  refine Transform.ext ?_ ?_
  · simp [mul_m, ident]
  · simp [mul_mInv, ident]

end Verif.Xform
