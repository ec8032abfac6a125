import Verif.Xform.QuatProps
import Mathlib.LinearAlgebra.Matrix.PosDef
import Mathlib.Algebra.Order.Star.Real
import Mathlib.Analysis.Matrix.PosDef

/-!
# The key frames of an animated transform are taken apart into translation, rotation and stretch (`pytracer/transform/__init__.py:333-365`): property C151
Real arithmetic.
-/
namespace Verif.Xform
open V3 Matrix

/-- `np.linalg.inv`: `none` is the `LinAlgError` raised for a singular matrix -/
noncomputable def inv? (a : M4 ℝ) : Option (M4 ℝ) := if a.det = 0 then none else some a⁻¹

/-- `np.max(np.sum(np.fabs(d)[0:3, 0:3], axis=0))` (`transform/__init__.py:357-358`) -/
noncomputable def colMax (d : M4 ℝ) : ℝ :=
  let c (j : Fin 4) : ℝ := |d 0 j| + |d 1 j| + |d 2 j|
  max (max (c 0) (c 1)) (c 2)

/-- the loop of `decompose` (`transform/__init__.py:352-359`) with `k` rounds left, from `R` and `norm` -/
noncomputable def polarLoop : ℕ → M4 ℝ → ℝ → Option (M4 ℝ)
  | 0, R, _ => some R
  | k + 1, R, norm =>
    if norm < EPS then some R
    else
      match inv? Rᵀ with
      | none => none
      | some Rit =>
        let Rnext := (1 / 2 : ℝ) • (Rit + R)
        let D := Rnext - Rit
        polarLoop k Rnext (max norm (colMax D))

/-- the matrix without its translation (`transform/__init__.py:344-346`) -/
def linearM (m : M4 ℝ) : M4 ℝ := fun i j => if i = 3 ∧ j = 3 then 1 else if i = 3 ∨ j = 3 then 0 else m i j

/-- the matrices `R` and `S` of `decompose` (`transform/__init__.py:344-363`), before `R` is made a quaternion -/
noncomputable def polar (m : M4 ℝ) : Option (M4 ℝ × M4 ℝ) :=
  match polarLoop 100 (linearM m) (2 * EPS) with
  | none => none
  | some R =>
    match inv? R with
    | none => none
    | some Ri => some (R, Ri * linearM m)

/-- `AnimatedTransform.decompose` (`transform/__init__.py:333-365`) -/
noncomputable def decompose (m : M4 ℝ) : Option (V3 ℝ × Quat ℝ × M4 ℝ) :=
  match polar m with
  | none => none
  | some (R, S) => some (⟨m 0 3, m 1 3, m 2 3⟩, Quat.fromMatrix R, S)

/-! ## Proofs -/

theorem inv_some {a : M4 ℝ} (h : a.det ≠ 0) : inv? a = some a⁻¹ := by rw [inv?, if_neg h]

/-- one round of the loop -/
noncomputable def round (R : M4 ℝ) : M4 ℝ := (1 / 2 : ℝ) • (Rᵀ⁻¹ + R)

theorem norm_ok (norm : ℝ) (h : 2 * EPS ≤ norm) : ¬ norm < (EPS : ℝ) := by
  have : (0 : ℝ) < EPS := by norm_num [EPS]
  linarith

/-- the loop never stops early -/
theorem polarLoop_eq (k : ℕ) (R : M4 ℝ) (norm : ℝ) (hn : 2 * EPS ≤ norm) (hR : ∀ j, (round^[j] R).det ≠ 0) : polarLoop k R norm = some (round^[k] R) := by
  induction k generalizing R norm with
  | zero => rfl
  | succ k ih =>
    have h0 : Rᵀ.det ≠ 0 := by rw [det_transpose]; exact hR 0
    rw [polarLoop, if_neg (norm_ok norm hn), inv_some h0]
    simp only
    rw [Function.iterate_succ_apply]
    exact ih (round R) _ (le_trans hn (le_max_left _ _)) (fun j => by rw [← Function.iterate_succ_apply]; exact hR (j + 1))

section
variable {R M : M4 ℝ}

theorem posDef_congr {A B : M4 ℝ} (hB : B.det ≠ 0) : (Bᵀ * A * B).PosDef ↔ A.PosDef := by
  have := IsUnit.posDef_star_left_conjugate_iff (U := B) (x := A) ((isUnit_iff_isUnit_det B).2 hB.isUnit)
  simpa [star_eq_conjTranspose, conjTranspose_eq_transpose_of_trivial] using this

/-- the invariant of the loop -/
def PInv (M R : M4 ℝ) : Prop := R.det ≠ 0 ∧ (Mᵀ * R).PosDef ∧ (R * Mᵀ).PosDef

theorem symm_of_posDef {A : M4 ℝ} (h : A.PosDef) : Aᵀ = A := by
  have := h.isHermitian
  rwa [IsHermitian, conjTranspose_eq_transpose_of_trivial] at this

theorem pinv_round (h : PInv M R) : PInv M (round R) := by
  obtain ⟨h0, h1, h2⟩ := h
  have u : IsUnit R.det := h0.isUnit
  have ut : IsUnit Rᵀ.det := by rw [det_transpose]; exact u
  have e1 : (Mᵀ * Rᵀ⁻¹).PosDef := by
    have hc := posDef_congr (A := Mᵀ * Rᵀ⁻¹) (B := Rᵀ) (by rw [det_transpose]; exact h0)
    rw [transpose_transpose] at hc
    rw [← hc]
    have : R * (Mᵀ * Rᵀ⁻¹) * Rᵀ = R * Mᵀ := by
      rw [Matrix.mul_assoc, Matrix.mul_assoc, nonsing_inv_mul _ ut, Matrix.mul_one]
    rw [this]; exact h2
  have e2 : (Rᵀ⁻¹ * Mᵀ).PosDef := by
    rw [← posDef_congr (A := Rᵀ⁻¹ * Mᵀ) (B := R) h0]
    have : Rᵀ * (Rᵀ⁻¹ * Mᵀ) * R = Mᵀ * R := by
      rw [← Matrix.mul_assoc, mul_nonsing_inv _ ut, Matrix.one_mul]
    rw [this]; exact h1
  have e3 : (Mᵀ * round R).PosDef := by
    rw [round, Matrix.mul_smul, Matrix.mul_add]
    exact (e1.add h1).smul (by norm_num)
  refine ⟨fun hd => ?_, e3, ?_⟩
  · have := (isUnit_iff_isUnit_det _).1 e3.isUnit
    rw [det_mul, hd, mul_zero] at this
    exact not_isUnit_zero this
  · rw [round, Matrix.smul_mul, Matrix.add_mul]
    exact (e2.add h2).smul (by norm_num)

theorem pinv_start (hM : M.det ≠ 0) : PInv M M := by
  have h1 := (posDef_congr (A := 1) (B := M) hM).2 PosDef.one
  have h2 := (posDef_congr (A := 1) (B := Mᵀ) (by rw [det_transpose]; exact hM)).2 PosDef.one
  rw [Matrix.mul_one] at h1 h2
  rw [transpose_transpose] at h2
  exact ⟨hM, h1, h2⟩

theorem pinv_iter (hM : M.det ≠ 0) (k : ℕ) : PInv M (round^[k] M) := by
  induction k with
  | zero => exact pinv_start hM
  | succ k ih => rw [Function.iterate_succ_apply']; exact pinv_round ih

theorem stretch_posDef (h : PInv M R) : (R⁻¹ * M).PosDef := by
  obtain ⟨h0, -, h2⟩ := h
  have hc := posDef_congr (A := R⁻¹ * M) (B := Rᵀ) (by rw [det_transpose]; exact h0)
  rw [transpose_transpose] at hc
  rw [← hc, ← Matrix.mul_assoc, mul_nonsing_inv _ h0.isUnit, Matrix.one_mul]
  have := h2.transpose
  rwa [transpose_mul, transpose_transpose] at this

/-- squared length -/
def sq (x : Fin 4 → ℝ) : ℝ := x ⬝ᵥ x

theorem sq_nonneg' (x : Fin 4 → ℝ) : 0 ≤ sq x := by
  simp only [sq, dotProduct]
  exact Finset.sum_nonneg fun i _ => mul_self_nonneg _

theorem sq_round (h0 : R.det ≠ 0) (x : Fin 4 → ℝ) : sq (round R *ᵥ x) = 1 / 4 * (sq (Rᵀ⁻¹ *ᵥ x) + 2 * sq x + sq (R *ᵥ x)) := by
  have ut : IsUnit Rᵀ.det := by rw [det_transpose]; exact h0.isUnit
  have hx : (Rᵀ⁻¹ *ᵥ x) ⬝ᵥ (R *ᵥ x) = sq x := by
    rw [dotProduct_mulVec, ← mulVec_transpose, mulVec_mulVec, mul_nonsing_inv _ ut, one_mulVec, sq]
  simp only [round, sq, smul_mulVec, add_mulVec, smul_dotProduct, dotProduct_smul, add_dotProduct, dotProduct_add, smul_eq_mul]
  rw [dotProduct_comm (R *ᵥ x) (Rᵀ⁻¹ *ᵥ x), hx]
  simp only [sq]; ring

theorem sq_round_ge (h0 : R.det ≠ 0) (x : Fin 4 → ℝ) : sq x ≤ sq (round R *ᵥ x) := by
  have ut : IsUnit Rᵀ.det := by rw [det_transpose]; exact h0.isUnit
  have hx : (Rᵀ⁻¹ *ᵥ x) ⬝ᵥ (R *ᵥ x) = sq x := by
    rw [dotProduct_mulVec, ← mulVec_transpose, mulVec_mulVec, mul_nonsing_inv _ ut, one_mulVec, sq]
  have := sq_nonneg' (Rᵀ⁻¹ *ᵥ x - R *ᵥ x)
  rw [sq, sub_dotProduct, dotProduct_sub, dotProduct_sub, dotProduct_comm (R *ᵥ x) (Rᵀ⁻¹ *ᵥ x), hx] at this
  rw [sq_round h0]
  simp only [sq] at this ⊢
  linarith

theorem dot_sq_le (x y : Fin 4 → ℝ) : (x ⬝ᵥ y) ^ 2 ≤ sq x * sq y := by
  simp only [sq, dotProduct]
  have := Finset.sum_mul_sq_le_sq_mul_sq Finset.univ x y
  simpa [pow_two] using this

theorem sq_round_le (h0 : R.det ≠ 0) (hR : ∀ y, sq y ≤ sq (R *ᵥ y)) (x : Fin 4 → ℝ) : sq (round R *ᵥ x) - sq x ≤ 1 / 4 * (sq (R *ᵥ x) - sq x) := by
  have ut : IsUnit Rᵀ.det := by rw [det_transpose]; exact h0.isUnit
  have key : sq (Rᵀ⁻¹ *ᵥ x) ≤ sq x := by
    obtain ⟨z, hz⟩ : ∃ z, z = Rᵀ⁻¹ *ᵥ x := ⟨_, rfl⟩
    rw [← hz]
    have h1 : sq (R⁻¹ *ᵥ z) ≤ sq z := by
      have := hR (R⁻¹ *ᵥ z)
      rwa [mulVec_mulVec, mul_nonsing_inv _ h0.isUnit, one_mulVec] at this
    have h2 : sq z = (R⁻¹ *ᵥ z) ⬝ᵥ x := by
      conv_lhs => rw [sq]; rhs; rw [hz]
      rw [dotProduct_mulVec, ← mulVec_transpose, ← transpose_nonsing_inv, transpose_transpose]
    have h3 := dot_sq_le (R⁻¹ *ᵥ z) x
    rw [← h2] at h3
    have h4 : sq z ^ 2 ≤ sq z * sq x := le_trans h3 (mul_le_mul_of_nonneg_right h1 (sq_nonneg' x))
    rcases (sq_nonneg' z).eq_or_lt with h5 | h5
    · rw [← h5]; exact sq_nonneg' x
    · exact le_of_mul_le_mul_left (by rw [← pow_two]; exact h4) h5
  rw [sq_round h0]
  linarith

theorem sq_iter (hM : M.det ≠ 0) (k : ℕ) (x : Fin 4 → ℝ) :
    sq x ≤ sq (round^[k + 1] M *ᵥ x) ∧ sq (round^[k + 1] M *ᵥ x) - sq x ≤ (1 / 4) ^ (k + 1) * (sq (M *ᵥ x) + sq (Mᵀ⁻¹ *ᵥ x)) := by
  induction k generalizing x with
  | zero =>
    simp only [zero_add, Function.iterate_one, pow_one]
    refine ⟨sq_round_ge hM x, ?_⟩
    rw [sq_round hM]
    have := sq_nonneg' x
    linarith
  | succ k ih =>
    rw [Function.iterate_succ_apply']
    have h0 := (pinv_iter hM (k + 1)).1
    refine ⟨sq_round_ge h0 x, ?_⟩
    have h1 := sq_round_le h0 (fun y => (ih y).1) x
    have h2 := (ih x).2
    calc _ ≤ _ := h1
      _ ≤ 1 / 4 * ((1 / 4) ^ (k + 1) * (sq (M *ᵥ x) + sq (Mᵀ⁻¹ *ᵥ x))) := by linarith
      _ = _ := by ring
end

theorem linearM_det (m : M4 ℝ) : (linearM m).det = det3 m := by
  have e : linearM m = !![m 0 0, m 0 1, m 0 2, 0; m 1 0, m 1 1, m 1 2, 0; m 2 0, m 2 1, m 2 2, 0; 0, 0, 0, 1] := by
    ext i j
    fin_cases i <;> fin_cases j <;> simp [linearM]
  rw [e, det_succ_row_zero]
  simp [Fin.sum_univ_succ, det_fin_three, det3, Fin.succAbove]
  ring

/-- **C151** for every matrix whose linear part is not singular the decomposition is found: the linear part is `R` times `S`, where `S` is symmetric and positive definite, `R` changes the length of no vector beyond a
relative 4⁻¹⁰⁰ times the stretch of the matrix itself (so `R` is a rotation or a rotation with a mirroring, to that accuracy), and `R` mirrors exactly when the matrix does; the translation is the matrix's own -/
theorem C151_decompose (m : M4 ℝ) (h : det3 m ≠ 0) :
    ∃ R S : M4 ℝ, decompose m = some (⟨m 0 3, m 1 3, m 2 3⟩, Quat.fromMatrix R, S) ∧ R * S = linearM m ∧ Sᵀ = S ∧ (∀ x : Fin 4 → ℝ, x ≠ 0 → 0 < x ⬝ᵥ (S *ᵥ x)) ∧
      (∀ x : Fin 4 → ℝ, x ⬝ᵥ x ≤ (R *ᵥ x) ⬝ᵥ (R *ᵥ x) ∧
        (R *ᵥ x) ⬝ᵥ (R *ᵥ x) ≤ x ⬝ᵥ x + ((linearM m *ᵥ x) ⬝ᵥ (linearM m *ᵥ x) + ((linearM m)ᵀ⁻¹ *ᵥ x) ⬝ᵥ ((linearM m)ᵀ⁻¹ *ᵥ x)) / 4 ^ 100) ∧
      (0 < R.det ↔ 0 < det3 m) := by
  have hM : (linearM m).det ≠ 0 := by rw [linearM_det]; exact h
  have hl := polarLoop_eq 100 (linearM m) (2 * EPS) le_rfl (fun j => (pinv_iter hM j).1)
  set R := round^[100] (linearM m) with hR
  have hp := pinv_iter hM 100
  rw [← hR] at hp
  have hS := stretch_posDef hp
  refine ⟨R, R⁻¹ * linearM m, ?_, ?_, symm_of_posDef hS, fun x hx => ?_, fun x => ?_, ?_⟩
  · simp only [decompose, polar, hl, inv_some hp.1]
  · rw [← Matrix.mul_assoc, mul_nonsing_inv _ hp.1.isUnit, Matrix.one_mul]
  · simpa using hS.dotProduct_mulVec_pos hx
  · have := sq_iter hM 99 x
    simp only [sq] at this
    refine ⟨this.1, ?_⟩
    have h2 := this.2
    rw [div_eq_mul_inv, mul_comm _ ((4 ^ 100 : ℝ)⁻¹), ← inv_pow, inv_eq_one_div]
    linarith
  · have e : R.det * (R⁻¹ * linearM m).det = det3 m := by
      rw [← det_mul, ← Matrix.mul_assoc, mul_nonsing_inv _ hp.1.isUnit, Matrix.one_mul, linearM_det]
    rw [← e]
    have := hS.det_pos
    constructor
    · intro h; exact mul_pos h this
    · intro h; exact pos_of_mul_pos_left h this.le

/-- **C151** a matrix that flattens space is rejected with an exception -/
theorem C151_singular (m : M4 ℝ) (h : det3 m = 0) : decompose m = none := by
  have hM : (linearM m)ᵀ.det = 0 := by rw [det_transpose, linearM_det]; exact h
  simp only [decompose, polar, polarLoop, if_neg (norm_ok (2 * EPS) le_rfl), inv?, hM, if_true]

/-- a case the theorem applies to: a stretch and a mirroring -/
example : det3 (scale (-2 : ℝ) 3 1).m ≠ 0 := by simp [det3, scale]

end Verif.Xform
