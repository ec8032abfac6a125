import Verif.Num.Round

/-!
# Error bounds for chains of rounded operations

`Err k xc x A`: the computed number `xc` differs from the exact number `x` by at most `((1 + 2^-53)^k - 1) · A`, where `A` bounds `|x|`; `k` counts roundings.
-/

namespace Verif.Rnd
set_option linter.unusedSectionVars false
section
variable {K : Type*} [Field K] [LinearOrder K] [IsStrictOrderedRing K] [FloorRing K]

/-- the unit roundoff of binary64 -/
def uu : K := 2 ^ (-53 : ℤ)

theorem uu_pos : (0 : K) < uu := two_zpow_pos _
theorem uu_eq : (uu : K) = 1 / 2 ^ 53 := by rw [uu, zpow_neg, one_div]; norm_cast
theorem one_le_g (k : ℕ) : (1 : K) ≤ (1 + uu) ^ k := one_le_pow₀ (by have := uu_pos (K := K); linarith)

/-- `xc` approximates `x` up to `k` roundings of quantities bounded by `A` -/
def Err (k : ℕ) (xc x A : K) : Prop := |xc - x| ≤ ((1 + uu) ^ k - 1) * A ∧ |x| ≤ A

theorem Err.nonneg {k : ℕ} {xc x A : K} (h : Err k xc x A) : 0 ≤ A := (abs_nonneg _).trans h.2

theorem Err.abs_le {k : ℕ} {xc x A : K} (h : Err k xc x A) : |xc| ≤ (1 + uu) ^ k * A := by
  have h1 : |xc| ≤ |xc - x| + |x| := by have := abs_add_le (xc - x) x; rwa [sub_add_cancel] at this
  have := h.1; have := h.2
  nlinarith

theorem Err.refl (x : K) : Err 0 x x |x| := ⟨by simp, le_rfl⟩
theorem Err.zero (k : ℕ) : Err k (0 : K) 0 0 := ⟨by simp, by simp⟩

theorem Err.mono {k l : ℕ} {xc x A B : K} (h : Err k xc x A) (hk : k ≤ l) (hA : A ≤ B) : Err l xc x B := by
  refine ⟨h.1.trans ?_, h.2.trans hA⟩
  have h1 : (1 + uu : K) ^ k ≤ (1 + uu) ^ l := pow_le_pow_right₀ (by have := uu_pos (K := K); linarith) hk
  have h2 := one_le_g (K := K) k
  exact mul_le_mul (by linarith) hA h.nonneg (by linarith)

theorem Err.neg {k : ℕ} {xc x A : K} (h : Err k xc x A) : Err k (-xc) (-x) A := by
  refine ⟨?_, by rw [abs_neg]; exact h.2⟩
  rw [show -xc - -x = -(xc - x) by ring, abs_neg]; exact h.1

theorem Err.mul {k l : ℕ} {xc x A yc y B : K} (h : Err k xc x A) (h' : Err l yc y B) : Err (k + l) (xc * yc) (x * y) (A * B) := by
  have hA := h.nonneg; have hB := h'.nonneg
  refine ⟨?_, by rw [abs_mul]; exact mul_le_mul h.2 h'.2 (abs_nonneg _) hA⟩
  have e : xc * yc - x * y = xc * (yc - y) + (xc - x) * y := by ring
  rw [e]
  refine (abs_add_le _ _).trans ?_
  rw [abs_mul, abs_mul]
  have h1 : |xc| * |yc - y| ≤ ((1 + uu) ^ k * A) * (((1 + uu) ^ l - 1) * B) :=
    mul_le_mul h.abs_le h'.1 (abs_nonneg _) (mul_nonneg (by have := one_le_g (K := K) k; linarith) hA)
  have h2 : |xc - x| * |y| ≤ (((1 + uu) ^ k - 1) * A) * B :=
    mul_le_mul h.1 h'.2 (abs_nonneg _) (mul_nonneg (by have := one_le_g (K := K) k; linarith) hA)
  refine (add_le_add h1 h2).trans (le_of_eq ?_)
  rw [pow_add]; ring

theorem Err.add {k : ℕ} {xc x A yc y B : K} (h : Err k xc x A) (h' : Err k yc y B) : Err k (xc + yc) (x + y) (A + B) := by
  refine ⟨?_, (abs_add_le _ _).trans (add_le_add h.2 h'.2)⟩
  rw [show xc + yc - (x + y) = (xc - x) + (yc - y) by ring, mul_add]
  exact (abs_add_le _ _).trans (add_le_add h.1 h'.1)

/-- one more rounding -/
theorem Err.step {k : ℕ} {xc x A z : K} (h : Err k xc x A) (hz : |z - xc| ≤ 2 ^ (-53 : ℤ) * |xc|) : Err (k + 1) z x A := by
  refine ⟨?_, h.2⟩
  have h0 := uu_pos (K := K)
  have h1 : |z - xc| ≤ uu * ((1 + uu) ^ k * A) := hz.trans (mul_le_mul_of_nonneg_left h.abs_le h0.le)
  have h2 : |z - x| ≤ |z - xc| + |xc - x| := by have := abs_add_le (z - xc) (xc - x); rwa [sub_add_sub_cancel] at this
  have := h.1
  rw [pow_succ]; nlinarith

/-- zero or not so small that rounding it underflows -/
def Normal (x : K) : Prop := x = 0 ∨ (2 : K) ^ (-1022 : ℤ) ≤ |x|

theorem Normal.err {x : K} (h : Normal x) : |double x - x| ≤ 2 ^ (-53 : ℤ) * |x| := by
  rcases h with rfl | h
  · rw [double_zero]; simp
  · exact double_err_rel h

theorem Err.round {k : ℕ} {xc x A : K} (h : Err k xc x A) (hn : Normal xc) : Err (k + 1) (double xc) x A := h.step hn.err

/-- a rounded sum of two floats -/
theorem Err.radd {k : ℕ} {xc x A yc y B : K} (h : Err k xc x A) (h' : Err k yc y B) (hx : IsDouble xc) (hy : IsDouble yc) :
    Err (k + 1) (double (xc + yc)) (x + y) (A + B) := (h.add h').step (add_err hx hy)

theorem Err.rsub {k : ℕ} {xc x A yc y B : K} (h : Err k xc x A) (h' : Err k yc y B) (hx : IsDouble xc) (hy : IsDouble yc) :
    Err (k + 1) (double (xc - yc)) (x - y) (A + B) := by
  have := (h.add h'.neg).step (z := double (xc - yc)) (by rw [← sub_eq_add_neg]; exact sub_err hx hy)
  rwa [← sub_eq_add_neg] at this

/-- a sum accumulated in rounded arithmetic -/
theorem Err.sum {ι : Type*} (l : List ι) (tc t T : ι → K) (k : ℕ) (ht : ∀ i ∈ l, Err k (tc i) (t i) (T i)) (hd : ∀ i ∈ l, IsDouble (tc i)) :
    ∀ (m : ℕ) (a x A : K), k ≤ m → Err m a x A → IsDouble a →
      Err (m + l.length) (l.foldl (fun a i => double (a + tc i)) a) (x + (l.map t).sum) (A + (l.map T).sum) ∧
      IsDouble (l.foldl (fun a i => double (a + tc i)) a) := by
  induction l with
  | nil => intro m a x A _ h hd; simpa using ⟨h, hd⟩
  | cons i l ih =>
    intro m a x A hm h ha
    have h1 := h.radd ((ht i (by simp)).mono hm le_rfl) ha (hd i (by simp))
    have := ih (fun j hj => ht j (by simp [hj])) (fun j hj => hd j (by simp [hj])) (m + 1) _ _ _ (by omega) h1 (isDouble_double _)
    simp only [List.foldl_cons, List.map_cons, List.sum_cons, List.length_cons]
    rw [← add_assoc x, ← add_assoc A, show m + (l.length + 1) = m + 1 + l.length by ring]
    exact this

/-- the factor for `k` roundings, as long as there are at most `2^52` -/
theorem g_le (k : ℕ) (hk : k ≤ 2 ^ 52) : (1 + uu : K) ^ k - 1 ≤ 2 * k * uu := by
  have h0 := uu_pos (K := K)
  induction k with
  | zero => simp
  | succ k ih =>
    have ih := ih (by omega)
    have hk' : (2 * (k : K)) * uu ≤ 1 := by
      have h1 : (k : K) ≤ 2 ^ 52 := by exact_mod_cast (show k ≤ 2 ^ 52 by omega)
      rw [uu_eq, mul_one_div, div_le_one (by positivity)]
      calc 2 * (k : K) ≤ 2 * 2 ^ 52 := by linarith
        _ = 2 ^ 53 := by norm_num
    rw [pow_succ]; push_cast
    nlinarith

theorem Err.rel {k : ℕ} {xc x A : K} (h : Err k xc x A) (hk : k ≤ 2 ^ 52) : |xc - x| ≤ k * 2 ^ (-52 : ℤ) * A := by
  refine h.1.trans (mul_le_mul_of_nonneg_right ((g_le k hk).trans (le_of_eq ?_)) h.nonneg)
  rw [uu, mul_comm 2 (k : K), mul_assoc]; congr 1
  rw [← zpow_one_add₀ two_ne_zero]; norm_num

end
end Verif.Rnd
