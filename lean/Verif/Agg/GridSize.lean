import Verif.Agg.GridProps
import Verif.BBox.Props
import Mathlib.Analysis.SpecialFunctions.Pow.Real

/-!
# The resolution of the uniform grid (C166)

About the choice of resolution in `GridAccel.__init__` (`pytracer/aggregate/aggregate.py:183-207`), modelled as `gridGeom` in `Agg/GridModel.lean`; here with the number the program passes,
`cube_root = 3. * np.power(len(self.primitives), 1. / 3.)` (line 192), as a real number.
-/
namespace Verif.Agg
open Verif BBox BVH

/-- `cube_root` (`aggregate.py:192`) for `N` objects -/
noncomputable def cubeRootOf (N : ℕ) : ℝ := 3 * (N : ℝ) ^ (1 / 3 : ℝ)

/-- the grid geometry of `GridAccel` over `N` objects with the common bound `b` (`aggregate.py:183-204`) -/
noncomputable def gridOf (b : BBox ℝ) (N : ℕ) : GridGeom ℝ := gridGeom b (cubeRootOf N)

/-- specification: the size of a box along an axis -/
def side (b : BBox ℝ) (a : Fin 3) : ℝ := b.pMax.get a - b.pMin.get a

theorem cubeRootOf_cube (N : ℕ) : cubeRootOf N ^ 3 = 27 * N := by
  have h : ((N : ℝ) ^ (1 / 3 : ℝ)) ^ 3 = N := by
    rw [← Real.rpow_natCast, ← Real.rpow_mul (Nat.cast_nonneg N)]
    norm_num
  rw [cubeRootOf, mul_pow, h]; norm_num

theorem cubeRootOf_ge (N : ℕ) (h : 1 ≤ N) : 3 ≤ cubeRootOf N := by
  have : (1 : ℝ) ≤ (N : ℝ) ^ (1 / 3 : ℝ) := Real.one_le_rpow (by exact_mod_cast h) (by norm_num)
  rw [cubeRootOf]; linarith

/-- **C166** resolution is in proportion to size: along every axis the number of voxels is the whole part of `3 ∛N` times the share this side has of the longest side, but at least 1 and at most 64 -/
theorem C166_counts (b : BBox ℝ) (N : ℕ) (m : Fin 3) (hm : ∀ a, side b a ≤ side b m) (hp : 0 < side b m) (a : Fin 3) (ha : 0 ≤ side b a) :
    (gridOf b N).n a = min 64 (max 1 ⌊3 * (N : ℝ) ^ (1 / 3 : ℝ) * (side b a / side b m)⌋) := by
  have e : side b b.maximumExtent = side b m := le_antisymm (hm _) (C04_maximum_extent b m)
  have hc : 0 ≤ cubeRootOf N := by unfold cubeRootOf; positivity
  have h : (gridOf b N).n a = clipZ (trunc (side b a * (cubeRootOf N * (1 / side b b.maximumExtent)))) 1 64 := rfl
  rw [h, e, show side b a * (cubeRootOf N * (1 / side b m)) = 3 * (N : ℝ) ^ (1 / 3 : ℝ) * (side b a / side b m) by rw [cubeRootOf]; ring]
  rw [trunc, if_pos (by positivity), clipZ, max_comm, min_comm]

/-- **C166** memory is linear in the number of objects: the grid over `N` objects has at most `27 N` voxels, at most `64³` -/
theorem C166_total (b : BBox ℝ) (N : ℕ) (hN : 1 ≤ N) (m : Fin 3) (hm : ∀ a, side b a ≤ side b m) (hp : 0 < side b m) (hb : ∀ a, 0 ≤ side b a) :
    (gridOf b N).n 0 * (gridOf b N).n 1 * (gridOf b N).n 2 ≤ 27 * N ∧ (gridOf b N).n 0 * (gridOf b N).n 1 * (gridOf b N).n 2 ≤ 64 ^ 3 := by
  have h3 := cubeRootOf_ge N hN
  have k (a : Fin 3) : 1 ≤ (gridOf b N).n a ∧ (gridOf b N).n a ≤ 64 ∧ ((gridOf b N).n a : ℝ) ≤ cubeRootOf N := by
    have h := C166_counts b N m hm hp a (hb a)
    have r : side b a / side b m ≤ 1 := (div_le_one hp).2 (hm a)
    refine ⟨(C39_voxel_counts b _ a).1, (C39_voxel_counts b _ a).2, ?_⟩
    have : (gridOf b N).n a ≤ max 1 ⌊3 * (N : ℝ) ^ (1 / 3 : ℝ) * (side b a / side b m)⌋ := by rw [h]; exact min_le_right _ _
    rcases le_max_iff.1 this with q | q
    · have : ((gridOf b N).n a : ℝ) ≤ 1 := by exact_mod_cast q
      linarith
    · have := Int.le_floor.1 q
      calc ((gridOf b N).n a : ℝ) ≤ _ := this
        _ ≤ cubeRootOf N * 1 := mul_le_mul_of_nonneg_left r (by unfold cubeRootOf at *; linarith)
        _ = cubeRootOf N := mul_one _
  obtain ⟨a0, b0, c0⟩ := k 0
  obtain ⟨a1, b1, c1⟩ := k 1
  obtain ⟨a2, b2, c2⟩ := k 2
  constructor
  · have p0 : (0 : ℝ) ≤ ((gridOf b N).n 0 : ℝ) := by exact_mod_cast (by omega : (0 : ℤ) ≤ (gridOf b N).n 0)
    have p1 : (0 : ℝ) ≤ ((gridOf b N).n 1 : ℝ) := by exact_mod_cast (by omega : (0 : ℤ) ≤ (gridOf b N).n 1)
    have p2 : (0 : ℝ) ≤ ((gridOf b N).n 2 : ℝ) := by exact_mod_cast (by omega : (0 : ℤ) ≤ (gridOf b N).n 2)
    have : (((gridOf b N).n 0 * (gridOf b N).n 1 * (gridOf b N).n 2 : ℤ) : ℝ) ≤ ((27 * N : ℤ) : ℝ) := by
      push_cast
      rw [← cubeRootOf_cube, pow_succ, pow_two]
      exact mul_le_mul (mul_le_mul c0 c1 p1 (by linarith)) c2 p2 (by positivity)
    exact_mod_cast this
  · calc (gridOf b N).n 0 * (gridOf b N).n 1 * (gridOf b N).n 2 ≤ 64 * 64 * 64 :=
        mul_le_mul (mul_le_mul b0 b1 (by omega) (by omega)) b2 (by omega) (by positivity)
      _ = 64 ^ 3 := by norm_num

/-- **C166** voxels are nearly cubes: where the limits 1 and 64 are not reached, no side of a voxel is twice as long as another -/
theorem C166_cubes (b : BBox ℝ) (N : ℕ) (m : Fin 3) (hm : ∀ a, side b a ≤ side b m) (hp : 0 < side b m)
    (h : ∀ a, 1 ≤ 3 * (N : ℝ) ^ (1 / 3 : ℝ) * (side b a / side b m) ∧ 3 * (N : ℝ) ^ (1 / 3 : ℝ) * (side b a / side b m) ≤ 64) (a c : Fin 3) :
    (gridOf b N).width a < 2 * (gridOf b N).width c := by
  set q := 3 * (N : ℝ) ^ (1 / 3 : ℝ) with hq
  have q0 : 0 ≤ q := by positivity
  have pos (a : Fin 3) : 0 < side b a := by
    by_contra hn
    have : q * (side b a / side b m) ≤ 0 := mul_nonpos_of_nonneg_of_nonpos q0 (div_nonpos_of_nonpos_of_nonneg (not_lt.1 hn) hp.le)
    linarith [(h a).1]
  have key (a : Fin 3) : side b m / q ≤ (gridOf b N).width a ∧ (gridOf b N).width a < 2 * (side b m / q) := by
    have qp : 0 < q := by
      rcases q0.lt_or_eq with g | g
      · exact g
      · have := (h a).1; rw [← g, zero_mul] at this; linarith
    have w : (gridOf b N).width a = side b a / ((gridOf b N).n a : ℝ) := rfl
    have n := C166_counts b N m hm hp a (pos a).le
    rw [← hq] at n
    have f1 : 1 ≤ ⌊q * (side b a / side b m)⌋ := Int.le_floor.2 (by exact_mod_cast (h a).1)
    have f2 : ⌊q * (side b a / side b m)⌋ ≤ 64 := by
      have : ((⌊q * (side b a / side b m)⌋ : ℤ) : ℝ) ≤ 64 := (Int.floor_le _).trans (h a).2
      exact_mod_cast this
    rw [max_eq_right f1, min_eq_right f2] at n
    have g1 := Int.floor_le (q * (side b a / side b m))
    have g2 := Int.lt_floor_add_one (q * (side b a / side b m))
    have f1' : (1 : ℝ) ≤ (⌊q * (side b a / side b m)⌋ : ℝ) := by exact_mod_cast f1
    rw [w, n]
    generalize (⌊q * (side b a / side b m)⌋ : ℝ) = z at *
    have z0 : 0 < z := by linarith
    constructor
    · rw [div_le_div_iff₀ qp z0]
      have := mul_le_mul_of_nonneg_left g1 hp.le
      calc side b m * z ≤ _ := this
        _ = side b a * q := by field_simp
    · rw [div_lt_iff₀ z0]
      have : q * (side b a / side b m) < 2 * z := by linarith
      have := mul_lt_mul_of_pos_right this (div_pos hp qp)
      calc side b a = q * (side b a / side b m) * (side b m / q) := by field_simp
        _ < _ := this
        _ = _ := by ring
  linarith [(key a).2, (key c).1]

/-- a box and a number of objects the theorems apply to: eight objects in a box of 4 by 2 by 4 get 6 voxels along the long sides -/
example : (∀ a, side ⟨⟨0, 0, 0⟩, ⟨4, 2, 4⟩⟩ a ≤ side ⟨⟨0, 0, 0⟩, ⟨4, 2, 4⟩⟩ 0) ∧ 0 < side ⟨⟨0, 0, 0⟩, ⟨4, 2, 4⟩⟩ 0 ∧ ∀ a, 0 ≤ side ⟨⟨0, 0, 0⟩, ⟨4, 2, 4⟩⟩ a := by
  refine ⟨fun a => ?_, ?_, fun a => ?_⟩
  · fin_cases a <;> norm_num [side, V3.get]
  · simp [side, V3.get]
  · fin_cases a <;> simp [side, V3.get]

end Verif.Agg
