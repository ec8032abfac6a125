import Verif.Num.Majorant

/-!
# Errors of expressions without underflow

Numbers that are multiples of a fixed power of two: sums, differences and products of such numbers do not underflow as long as the power stays above the smallest
subnormal float, so every rounding has a relative error of at most `2^-53`.  Used for expressions made of sums and products (`Shape/TriRounded.lean`).
-/

namespace Verif.Rnd
set_option linter.unusedSectionVars false

section
variable {K : Type*} [Field K] [LinearOrder K] [IsStrictOrderedRing K] [FloorRing K]

/-- `x` is a multiple of `2^g` -/
def Grid (g : ℤ) (x : K) : Prop := ∃ k : ℤ, x = k * 2 ^ g

theorem Grid.add {g : ℤ} {x y : K} (hx : Grid g x) (hy : Grid g y) : Grid g (x + y) := by
  obtain ⟨a, rfl⟩ := hx
  obtain ⟨b, rfl⟩ := hy
  exact ⟨a + b, by push_cast; ring⟩

theorem Grid.neg {g : ℤ} {x : K} (hx : Grid g x) : Grid g (-x) := by
  obtain ⟨a, rfl⟩ := hx
  exact ⟨-a, by push_cast; ring⟩

theorem Grid.sub {g : ℤ} {x y : K} (hx : Grid g x) (hy : Grid g y) : Grid g (x - y) := by
  rw [sub_eq_add_neg]; exact hx.add hy.neg

theorem Grid.mul {g h : ℤ} {x y : K} (hx : Grid g x) (hy : Grid h y) : Grid (g + h) (x * y) := by
  obtain ⟨a, rfl⟩ := hx
  obtain ⟨b, rfl⟩ := hy
  exact ⟨a * b, by rw [zpow_add₀ two_ne_zero]; push_cast; ring⟩

theorem Grid.mono {g h : ℤ} (hg : h ≤ g) {x : K} (hx : Grid g x) : Grid h x := by
  obtain ⟨a, rfl⟩ := hx
  refine ⟨a * 2 ^ (g - h).toNat, ?_⟩
  push_cast
  rw [mul_assoc, ← zpow_natCast, ← zpow_add₀ two_ne_zero]; congr 2; omega

theorem Grid.zero_or {g : ℤ} {x : K} (hx : Grid g x) : x = 0 ∨ 2 ^ g ≤ |x| := by
  obtain ⟨a, rfl⟩ := hx
  rcases eq_or_ne a 0 with rfl | h
  · left; simp
  · right
    rw [abs_mul, abs_of_pos (show (0 : K) < 2 ^ g from two_zpow_pos g)]
    have : (1 : K) ≤ |(a : K)| := by exact_mod_cast Int.one_le_abs h
    nlinarith [two_zpow_pos (K := K) g]

/-- rounding keeps multiples of `2^g` multiples of `2^g` -/
theorem Grid.round {g : ℤ} {x : K} (hx : Grid g x) : Grid g (double x) := by
  rcases le_or_gt g (ulpExp x) with h | h
  · exact Grid.mono h ⟨rne (x / 2 ^ ulpExp x), rfl⟩
  · have : double x = x := by
      obtain ⟨a, ha⟩ := Grid.mono h.le hx
      have : x / 2 ^ ulpExp x = (a : K) := by
        rw [div_eq_iff (two_zpow_pos _).ne']; exact ha
      rw [double, this, rne_int]; exact ha.symm
    rw [this]; exact hx

theorem Grid.err {g : ℤ} (hg : -1074 ≤ g) {x : K} (hx : Grid g x) : |double x - x| ≤ 2 ^ (-53 : ℤ) * |x| := double_err_grid (hx.mono hg)

/-- `xc` approximates `x` with at most `k` relative errors of `2^-53` (of the magnitude `A`) and is a multiple of `2^g` -/
structure Flt (k : ℕ) (g : ℤ) (xc x A : K) : Prop where
  err : Err k xc x A
  grid : Grid g xc

theorem Flt.refl {g : ℤ} {x : K} (h : Grid g x) : Flt 0 g x x |x| := ⟨Err.refl x, h⟩

theorem Flt.mono {k l : ℕ} {g : ℤ} {xc x A B : K} (h : Flt k g xc x A) (hk : k ≤ l) (hA : A ≤ B) : Flt l g xc x B := ⟨h.err.mono hk hA, h.grid⟩

theorem Flt.radd {k : ℕ} {g : ℤ} (hg : -1074 ≤ g) {xc x A yc y B : K} (h : Flt k g xc x A) (h' : Flt k g yc y B) : Flt (k + 1) g (double (xc + yc)) (x + y) (A + B) :=
  ⟨(h.err.add h'.err).step ((h.grid.add h'.grid).err hg), (h.grid.add h'.grid).round⟩

theorem Flt.rsub {k : ℕ} {g : ℤ} (hg : -1074 ≤ g) {xc x A yc y B : K} (h : Flt k g xc x A) (h' : Flt k g yc y B) : Flt (k + 1) g (double (xc - yc)) (x - y) (A + B) := by
  have := h.radd hg (⟨h'.err.neg, h'.grid.neg⟩ : Flt k g (-yc) (-y) B)
  rwa [← sub_eq_add_neg, ← sub_eq_add_neg] at this

theorem Flt.rmul {k l : ℕ} {g f : ℤ} (hg : -1074 ≤ g + f) {xc x A yc y B : K} (h : Flt k g xc x A) (h' : Flt l f yc y B) :
    Flt (k + l + 1) (g + f) (double (xc * yc)) (x * y) (A * B) :=
  ⟨(h.err.mul h'.err).step ((h.grid.mul h'.grid).err hg), (h.grid.mul h'.grid).round⟩

/-- a difference of two numbers that are given exactly: the error is relative to the difference -/
theorem Flt.diff {g : ℤ} (hg : -1074 ≤ g) {x y : K} (hx : Grid g x) (hy : Grid g y) : Flt 1 g (double (x - y)) (x - y) |x - y| :=
  ⟨(Err.refl (x - y)).step ((hx.sub hy).err hg), (hx.sub hy).round⟩

end
end Verif.Rnd
