import Verif.Base.V3
import Verif.Util.Ints
import Mathlib.Algebra.Order.Floor.Ring
import Mathlib.Data.Rat.Floor
import Mathlib.Topology.LocallyFinite
import Mathlib.Topology.Algebra.Order.Floor
import Mathlib.Topology.Instances.Real.Lemmas
import Mathlib.Tactic.IntervalCases
import Mathlib.Tactic.FieldSimp
import Mathlib.Tactic.Continuity
import Mathlib.Analysis.SpecialFunctions.Log.Base

/-!
# Noise (C57, C111, C112)

Models `pytracer/data/noise.py` and lines 43-164 of `pytracer/texture/utility.py`.  Table accesses are checked as Python checks them: an index
outside the table is an exception, `none` here.  Numbers are exact (rounding is not modelled), integers unbounded.
-/
namespace Verif.Texture
open Verif

/-! ### Model -/

/-- `NOISE_PERM` (data/noise.py 12-40) -/
def perm : List ℕ :=
  [151, 160, 137, 91, 90, 15, 131, 13, 201, 95, 96, 53, 194, 233, 7, 225, 140, 36, 103, 30, 69, 142, 8, 99, 37, 240, 21, 10, 23, 190, 6, 148,
   247, 120, 234, 75, 0, 26, 197, 62, 94, 252, 219, 203, 117, 35, 11, 32, 57, 177, 33, 88, 237, 149, 56, 87, 174, 20, 125, 136, 171, 168, 68, 175,
   74, 165, 71, 134, 139, 48, 27, 166, 77, 146, 158, 231, 83, 111, 229, 122, 60, 211, 133, 230, 220, 105, 92, 41, 55, 46, 245, 40, 244, 102, 143, 54,
   65, 25, 63, 161, 1, 216, 80, 73, 209, 76, 132, 187, 208, 89, 18, 169, 200, 196, 135, 130, 116, 188, 159, 86, 164, 100, 109, 198, 173, 186, 3, 64,
   52, 217, 226, 250, 124, 123, 5, 202, 38, 147, 118, 126, 255, 82, 85, 212, 207, 206, 59, 227, 47, 16, 58, 17, 182, 189, 28, 42, 223, 183, 170, 213,
   119, 248, 152, 2, 44, 154, 163, 70, 221, 153, 101, 155, 167, 43, 172, 9, 129, 22, 39, 253, 19, 98, 108, 110, 79, 113, 224, 232, 178, 185, 112, 104,
   218, 246, 97, 228, 251, 34, 242, 193, 238, 210, 144, 12, 191, 179, 162, 241, 81, 51, 145, 235, 249, 14, 239, 107, 49, 192, 214, 31, 181, 199, 106, 157,
   184, 84, 204, 176, 115, 121, 50, 45, 127, 4, 150, 254, 138, 236, 205, 93, 222, 114, 67, 29, 24, 72, 243, 141, 128, 195, 78, 66, 215, 61, 156, 180,
   151, 160, 137, 91, 90, 15, 131, 13, 201, 95, 96, 53, 194, 233, 7, 225, 140, 36, 103, 30, 69, 142, 8, 99, 37, 240, 21, 10, 23, 190, 6, 148,
   247, 120, 234, 75, 0, 26, 197, 62, 94, 252, 219, 203, 117, 35, 11, 32, 57, 177, 33, 88, 237, 149, 56, 87, 174, 20, 125, 136, 171, 168, 68, 175,
   74, 165, 71, 134, 139, 48, 27, 166, 77, 146, 158, 231, 83, 111, 229, 122, 60, 211, 133, 230, 220, 105, 92, 41, 55, 46, 245, 40, 244, 102, 143, 54,
   65, 25, 63, 161, 1, 216, 80, 73, 209, 76, 132, 187, 208, 89, 18, 169, 200, 196, 135, 130, 116, 188, 159, 86, 164, 100, 109, 198, 173, 186, 3, 64,
   52, 217, 226, 250, 124, 123, 5, 202, 38, 147, 118, 126, 255, 82, 85, 212, 207, 206, 59, 227, 47, 16, 58, 17, 182, 189, 28, 42, 223, 183, 170, 213,
   119, 248, 152, 2, 44, 154, 163, 70, 221, 153, 101, 155, 167, 43, 172, 9, 129, 22, 39, 253, 19, 98, 108, 110, 79, 113, 224, 232, 178, 185, 112, 104,
   218, 246, 97, 228, 251, 34, 242, 193, 238, 210, 144, 12, 191, 179, 162, 241, 81, 51, 145, 235, 249, 14, 239, 107, 49, 192, 214, 31, 181, 199, 106, 157,
   184, 84, 204, 176, 115, 121, 50, 45, 127, 4, 150, 254, 138, 236, 205, 93, 222, 114, 67, 29, 24, 72, 243, 141, 128, 195, 78, 66, 215, 61, 156, 180]

/-- `NOISE_PERM_SIZE` (data/noise.py 10) -/
def permSize : ℤ := 256

/-- indexing the numpy table with a Python integer: negative indices count from the end, out of range raises -/
def permAt (i : ℤ) : Option ℕ :=
  if 0 ≤ i then perm[i.toNat]? else if 0 ≤ i + perm.length then perm[(i + perm.length).toNat]? else none

variable {K : Type} [Field K]

/-- the last part of `_grad` (utility.py 107-114), given the hash: line 111 sets `u` to the constant -1 -/
def gradH (hash : ℕ) (dx dy dz : K) : K :=
  let h := hash % 16
  let u := if h < 8 ∨ h = 12 ∨ h = 13 then dx else dy
  let v := if h < 4 ∨ h = 12 ∨ h = 13 then dy else dz
  let u := if h % 2 = 1 then -1 else u
  let v := if (h / 2) % 2 = 1 then -v else v
  u + v

/-- `_grad` (utility.py 104-114) -/
def grad (x y z : ℤ) (dx dy dz : K) : Option K := do
  let a ← permAt x
  let b ← permAt (a + y)
  let c ← permAt (b + z)
  pure (gradH c dx dy dz)

/-- the smoothing polynomial of lines 155-157 -/
def fade (t : K) : K := t * t * t * (10 - 15 * t + 6 * t * t)

/-- the interpolation of `noise` (utility.py 158-164); line 163 uses `wz` where `wy` is meant -/
def mix8 (wx wy wz w000 w100 w010 w110 w001 w101 w011 w111 : K) : K :=
  let x00 := Ints.lerp wx w000 w100
  let x10 := Ints.lerp wx w010 w110
  let x01 := Ints.lerp wx w001 w101
  let x11 := Ints.lerp wx w011 w111
  let y0 := Ints.lerp wy x00 x10
  let y1 := Ints.lerp wz x01 x11
  Ints.lerp wz y0 y1

/-- `noise` (utility.py 121-164); `& 255` on Python integers is the remainder modulo 256 -/
def noise [LinearOrder K] [FloorRing K] (p : V3 K) : Option K := do
  let xi := ⌊p.x⌋
  let yi := ⌊p.y⌋
  let zi := ⌊p.z⌋
  let dx := p.x - xi
  let dy := p.y - yi
  let dz := p.z - zi
  let xi := xi % permSize
  let yi := yi % permSize
  let zi := zi % permSize
  let w000 ← grad xi yi zi dx dy dz
  let w100 ← grad (xi + 1) yi zi (dx - 1) dy dz
  let w010 ← grad xi (yi + 1) zi dx (dy - 1) dz
  let w110 ← grad (xi + 1) (yi + 1) zi (dx - 1) (dy - 1) dz
  let w001 ← grad xi yi (zi + 1) dx dy (dz - 1)
  let w101 ← grad (xi + 1) yi (zi + 1) (dx - 1) dy (dz - 1)
  let w011 ← grad xi (yi + 1) (zi + 1) dx (dy - 1) (dz - 1)
  let w111 ← grad (xi + 1) (yi + 1) (zi + 1) (dx - 1) (dy - 1) (dz - 1)
  pure (mix8 (fade dx) (fade dy) (fade dz) w000 w100 w010 w110 w001 w101 w011 w111)

/-! ### The table -/

/-- the table as a total function -/
def pv (i : ℕ) : ℕ := perm.getD i 0

theorem perm_length : perm.length = 512 := by decide +kernel
theorem pv_le (i : ℕ) : pv i ≤ 255 := by
  by_cases h : i < 512
  · revert i; decide +kernel
  · have : perm[i]? = none := List.getElem?_eq_none (by rw [perm_length]; omega)
    simp [pv, List.getD_eq_getElem?_getD, this]
theorem pv_rep : ∀ i < 256, pv (i + 256) = pv i := by decide +kernel

theorem permAt_nat (i : ℕ) (h : i < 512) : permAt (i : ℤ) = some (pv i) := by
  have : i < perm.length := by rw [perm_length]; exact h
  simp [permAt, pv, List.getElem?_eq_getElem this]

/-- the hash of the lattice point `(i, j, k)` -/
def hash (i j k : ℤ) : ℕ := pv (pv (pv (i % 256).toNat + (j % 256).toNat) + (k % 256).toNat)

theorem pv_wrap (a : ℕ) (i : ℤ) (ha : a ≤ 255) : pv (a + ((i % 256).toNat + 1)) = pv (a + ((i + 1) % 256).toNat) := by
  by_cases h : i % 256 = 255
  · have h1 : (i + 1) % 256 = 0 := by omega
    rw [h, h1]
    have := pv_rep a (by omega)
    simpa using this
  · have h1 : (i + 1) % 256 = i % 256 + 1 := by omega
    rw [h1]
    congr 1
    omega

theorem grad_corner (i j k : ℤ) (a b c : ℕ) (ha : a ≤ 1) (hb : b ≤ 1) (hc : c ≤ 1) (dx dy dz : K) :
    grad (i % 256 + a) (j % 256 + b) (k % 256 + c) dx dy dz = some (gradH (hash (i + a) (j + b) (k + c)) dx dy dz) := by
  have hx : permAt (i % 256 + a) = some (pv ((i + a) % 256).toNat) := by
    have e : (i % 256 + a : ℤ) = (((i % 256).toNat + a : ℕ) : ℤ) := by push_cast; omega
    rw [e, permAt_nat _ (by omega)]
    interval_cases a
    · simp
    · have := pv_wrap 0 i (by omega)
      simpa using this
  have hy (q : ℕ) (hq : q ≤ 255) : permAt (q + (j % 256 + b)) = some (pv (q + ((j + b) % 256).toNat)) := by
    have e : (q + (j % 256 + b) : ℤ) = ((q + ((j % 256).toNat + b) : ℕ) : ℤ) := by push_cast; omega
    rw [e, permAt_nat _ (by omega)]
    interval_cases b
    · simp
    · have := pv_wrap q j hq
      simpa using this
  have hz (q : ℕ) (hq : q ≤ 255) : permAt (q + (k % 256 + c)) = some (pv (q + ((k + c) % 256).toNat)) := by
    have e : (q + (k % 256 + c) : ℤ) = ((q + ((k % 256).toNat + c) : ℕ) : ℤ) := by push_cast; omega
    rw [e, permAt_nat _ (by omega)]
    interval_cases c
    · simp
    · have := pv_wrap q k hq
      simpa using this
  simp only [grad, hx, hy _ (pv_le _), hz _ (pv_le _), Option.bind_eq_bind, Option.bind_some, hash]
  rfl

/-- the interpolant of the cell `(i, j, k)` as a polynomial of the offsets -/
def cell (i j k : ℤ) (dx dy dz : K) : K :=
  mix8 (fade dx) (fade dy) (fade dz) (gradH (hash i j k) dx dy dz) (gradH (hash (i + 1) j k) (dx - 1) dy dz)
    (gradH (hash i (j + 1) k) dx (dy - 1) dz) (gradH (hash (i + 1) (j + 1) k) (dx - 1) (dy - 1) dz)
    (gradH (hash i j (k + 1)) dx dy (dz - 1)) (gradH (hash (i + 1) j (k + 1)) (dx - 1) dy (dz - 1))
    (gradH (hash i (j + 1) (k + 1)) dx (dy - 1) (dz - 1)) (gradH (hash (i + 1) (j + 1) (k + 1)) (dx - 1) (dy - 1) (dz - 1))

theorem noise_eq [LinearOrder K] [FloorRing K] (p : V3 K) :
    noise p = some (cell ⌊p.x⌋ ⌊p.y⌋ ⌊p.z⌋ (p.x - ⌊p.x⌋) (p.y - ⌊p.y⌋) (p.z - ⌊p.z⌋)) := by
  have g (i j k : ℤ) (dx dy dz : K) := grad_corner i j k 0 0 0 (by omega) (by omega) (by omega) dx dy dz
  have g1 (i j k : ℤ) (dx dy dz : K) := grad_corner i j k 1 0 0 (by omega) (by omega) (by omega) dx dy dz
  have g2 (i j k : ℤ) (dx dy dz : K) := grad_corner i j k 0 1 0 (by omega) (by omega) (by omega) dx dy dz
  have g3 (i j k : ℤ) (dx dy dz : K) := grad_corner i j k 1 1 0 (by omega) (by omega) (by omega) dx dy dz
  have g4 (i j k : ℤ) (dx dy dz : K) := grad_corner i j k 0 0 1 (by omega) (by omega) (by omega) dx dy dz
  have g5 (i j k : ℤ) (dx dy dz : K) := grad_corner i j k 1 0 1 (by omega) (by omega) (by omega) dx dy dz
  have g6 (i j k : ℤ) (dx dy dz : K) := grad_corner i j k 0 1 1 (by omega) (by omega) (by omega) dx dy dz
  have g7 (i j k : ℤ) (dx dy dz : K) := grad_corner i j k 1 1 1 (by omega) (by omega) (by omega) dx dy dz
  simp only [Nat.cast_zero, Nat.cast_one, add_zero] at g g1 g2 g3 g4 g5 g6 g7
  simp only [noise, permSize, g, g1, g2, g3, g4, g5, g6, g7, Option.bind_eq_bind, Option.bind_some, cell]
  rfl

/-! ### C57: the table is indexed in range; periodicity; lattice points -/

section Floor
variable [LinearOrder K] [IsStrictOrderedRing K] [FloorRing K]

omit [IsStrictOrderedRing K] in
/-- **C57** `noise` returns a number for every point: no table access is out of range, whatever the (negative, huge) coordinates. -/
theorem C57_noise_in_range (p : V3 K) : ∃ v, noise p = some v := ⟨_, noise_eq p⟩

omit [IsStrictOrderedRing K] in
/-- **C57** every table index used for a cell is between 0 and 511: the first is at most 256, the others at most 511 (so no access relies on
negative indices), and every table entry is at most 255 -/
theorem C57_indices (x y z : ℤ) (a b c : ℕ) (ha : a ≤ 1) (hb : b ≤ 1) (hc : c ≤ 1) :
    ∃ p q r : ℕ, p ≤ 255 ∧ q ≤ 255 ∧ (0 ≤ x % permSize + a ∧ x % permSize + a < 512 ∧ permAt (x % permSize + a) = some p) ∧
      (0 ≤ p + (y % permSize + b) ∧ p + (y % permSize + b) < 512 ∧ permAt (p + (y % permSize + b)) = some q) ∧
      (0 ≤ q + (z % permSize + c) ∧ q + (z % permSize + c) < 512 ∧ permAt (q + (z % permSize + c)) = some r) := by
  have key (n : ℤ) (h0 : 0 ≤ n) (h1 : n < 512) : ∃ v : ℕ, v ≤ 255 ∧ permAt n = some v := by
    obtain ⟨m, rfl⟩ := Int.eq_ofNat_of_zero_le h0
    exact ⟨_, pv_le _, permAt_nat m (by omega)⟩
  simp only [permSize]
  obtain ⟨p, hp, ep⟩ := key (x % 256 + a) (by omega) (by omega)
  obtain ⟨q, hq, eq⟩ := key (p + (y % 256 + b)) (by omega) (by omega)
  obtain ⟨r, _, er⟩ := key (q + (z % 256 + c)) (by omega) (by omega)
  exact ⟨p, q, r, hp, hq, ⟨by omega, by omega, ep⟩, ⟨by omega, by omega, eq⟩, ⟨by omega, by omega, er⟩⟩

/-- **C57** the noise repeats with period 256 in each coordinate -/
theorem C57_noise_periodic (p : V3 K) (a b c : ℤ) :
    noise (⟨p.x + 256 * a, p.y + 256 * b, p.z + 256 * c⟩ : V3 K) = noise p := by
  have fl (x : K) (n : ℤ) : ⌊x + 256 * n⌋ = ⌊x⌋ + 256 * n := by
    have : x + 256 * (n : K) = x + ((256 * n : ℤ) : K) := by push_cast; ring
    rw [this, Int.floor_add_intCast]
  have hh (i j k : ℤ) : hash (i + 256 * a) (j + 256 * b) (k + 256 * c) = hash i j k := by
    simp [hash, Int.add_mul_emod_self_left]
  have h1 (i n : ℤ) : i + 256 * n + 1 = i + 1 + 256 * n := by ring
  rw [noise_eq, noise_eq]
  have hd (x : K) (n m : ℤ) : x + 256 * (n : K) - ((m + 256 * n : ℤ) : K) = x - m := by push_cast; ring
  simp only [fl, hd, cell, h1, hh]

/-- **C57 (part)** at a lattice point the noise is 0 or -1.  Missing: it should be 0 there (`C57_noise_lattice_false`). -/
theorem C57_noise_lattice_partial (i j k : ℤ) :
    noise (⟨i, j, k⟩ : V3 K) = some 0 ∨ noise (⟨i, j, k⟩ : V3 K) = some (-1) := by
  rw [noise_eq]
  simp only [Int.floor_intCast, sub_self, cell, fade, mix8, Ints.lerp]
  simp only [zero_mul, mul_zero, sub_zero, one_mul, add_zero, Option.some.injEq]
  simp only [gradH]
  split_ifs <;> simp

end Floor

/-- **C57 fails at lattice points**: line 111 of `_grad` replaces the gradient component by the constant -1, so the noise is -1 at some
lattice points, e.g. at `(2, 0, 0)` -/
theorem C57_noise_lattice_false :
    ¬ (∀ i j k : ℤ, noise (⟨i, j, k⟩ : V3 ℚ) = some 0) ∧ noise (⟨2, 0, 0⟩ : V3 ℚ) = some (-1) := by
  have e : noise (⟨((2 : ℤ) : ℚ), ((0 : ℤ) : ℚ), ((0 : ℤ) : ℚ)⟩ : V3 ℚ) = some (-1) := by
    rw [noise_eq]
    simp only [Int.floor_intCast, sub_self, cell, fade, mix8, Ints.lerp]
    have : hash 2 0 0 % 16 = 3 := by decide +kernel
    simp [gradH, this]
  refine ⟨fun h => ?_, by simpa using e⟩
  have := h 2 0 0
  rw [e] at this
  simp at this

/-! ### C111: boundedness and continuity -/

section Bound
variable [LinearOrder K] [IsStrictOrderedRing K]

theorem fade_mem (t : K) (h0 : 0 ≤ t) (h1 : t ≤ 1) : 0 ≤ fade t ∧ fade t ≤ 1 := by
  have h2 : (0 : K) ≤ t * t * t := by positivity
  constructor
  · refine mul_nonneg h2 ?_
    nlinarith [sq_nonneg (4 * t - 5)]
  · have : 1 - fade t = (1 - t) * (1 - t) * (1 - t) * (1 + 3 * t + 6 * t * t) := by simp only [fade]; ring
    have h3 : 0 ≤ (1 - t) := by linarith
    have : 0 ≤ 1 - fade t := by rw [this]; positivity
    linarith

theorem abs_lerp_le (t a b M : K) (h0 : 0 ≤ t) (h1 : t ≤ 1) (ha : |a| ≤ M) (hb : |b| ≤ M) : |Ints.lerp t a b| ≤ M := by
  rw [abs_le] at *
  simp only [Ints.lerp]
  have h3 : 0 ≤ 1 - t := by linarith
  constructor
  · nlinarith
  · nlinarith

theorem abs_gradH_le (h : ℕ) (dx dy dz : K) (hx : |dx| ≤ 1) (hy : |dy| ≤ 1) (hz : |dz| ≤ 1) : |gradH h dx dy dz| ≤ 2 := by
  rw [abs_le] at *
  obtain ⟨_, _⟩ := hx
  obtain ⟨_, _⟩ := hy
  obtain ⟨_, _⟩ := hz
  simp only [gradH]
  split_ifs <;> constructor <;> linarith

theorem abs_cell_le (i j k : ℤ) (dx dy dz : K) (hx : 0 ≤ dx ∧ dx ≤ 1) (hy : 0 ≤ dy ∧ dy ≤ 1) (hz : 0 ≤ dz ∧ dz ≤ 1) :
    |cell i j k dx dy dz| ≤ 2 := by
  have a0 (t : K) (h : 0 ≤ t ∧ t ≤ 1) : |t| ≤ 1 := abs_le.2 ⟨by linarith [h.1], h.2⟩
  have a1 (t : K) (h : 0 ≤ t ∧ t ≤ 1) : |t - 1| ≤ 1 := abs_le.2 ⟨by linarith [h.1], by linarith [h.2]⟩
  have fx := fade_mem dx hx.1 hx.2
  have fy := fade_mem dy hy.1 hy.2
  have fz := fade_mem dz hz.1 hz.2
  simp only [cell, mix8]
  refine abs_lerp_le _ _ _ _ fz.1 fz.2 (abs_lerp_le _ _ _ _ fy.1 fy.2 ?_ ?_) (abs_lerp_le _ _ _ _ fz.1 fz.2 ?_ ?_) <;>
    refine abs_lerp_le _ _ _ _ fx.1 fx.2 ?_ ?_ <;> apply abs_gradH_le <;> first | exact a0 _ (by assumption) | exact a1 _ (by assumption)

/-- **C111 (part)** the noise is between -2 and 2 everywhere.  Missing: the bound should be 1 (`C111_bounded_false`). -/
theorem C111_bounded_partial [FloorRing K] (p : V3 K) : ∃ v, noise p = some v ∧ |v| ≤ 2 := by
  have fr (x : K) : 0 ≤ x - ⌊x⌋ ∧ x - ⌊x⌋ ≤ 1 := ⟨by linarith [Int.floor_le x], by linarith [Int.lt_floor_add_one x]⟩
  exact ⟨_, noise_eq p, abs_cell_le _ _ _ _ _ _ (fr _) (fr _) (fr _)⟩

end Bound

/-- the gradients of Perlin's noise (the twelve edge directions of a cube, four of them twice), by the last four bits of the hash -/
def perlin : List (ℤ × ℤ × ℤ) :=
  [(1, 1, 0), (-1, 1, 0), (1, -1, 0), (-1, -1, 0), (1, 0, 1), (-1, 0, 1), (1, 0, -1), (-1, 0, -1),
   (0, 1, 1), (0, -1, 1), (0, 1, -1), (0, -1, -1), (1, 1, 0), (-1, 1, 0), (0, 1, -1), (0, -1, -1)]

/-- **C111 (part)** at a lattice point with an even hash the noise is, near the point, the inner product of the offset with one of Perlin's gradients (so
it is symmetric in the offset).  Missing: odd hashes (`C111_gradient_false`). -/
theorem C111_gradient_partial (h : ℕ) (he : h % 2 = 0) (dx dy dz : K) :
    ∃ g, perlin[h % 16]? = some g ∧ gradH h dx dy dz = g.1 * dx + g.2.1 * dy + g.2.2 * dz := by
  have h16 : h % 16 < 16 := Nat.mod_lt _ (by norm_num)
  have he' : h % 16 % 2 = 0 := by omega
  simp only [gradH]
  generalize h % 16 = k at *
  interval_cases k <;> simp at he' <;> refine ⟨_, rfl, ?_⟩ <;> norm_num

/-- **C111 fails**: for an odd hash the first term is the constant -1 in place of the negated offset, so the noise does not vanish at the lattice point -/
theorem C111_gradient_false (h : ℕ) (ho : h % 2 = 1) (dx dy dz : K) :
    ∃ g, perlin[h % 16]? = some g ∧ gradH h dx dy dz = -1 + (if h % 16 < 4 ∨ h % 16 = 13 then g.2.1 * dy else g.2.2 * dz) := by
  have h16 : h % 16 < 16 := Nat.mod_lt _ (by norm_num)
  have he' : h % 16 % 2 = 1 := by omega
  simp only [gradH]
  generalize h % 16 = k at *
  interval_cases k <;> simp at he' <;> refine ⟨_, rfl, ?_⟩ <;> norm_num

/-- **C111 fails**: the noise leaves `[-1, 1]` (it is below -1.9 at `(60, 47, 119.75)`) -/
theorem C111_bounded_false :
    ¬ (∀ p : V3 ℚ, ∀ v, noise p = some v → |v| ≤ 1) ∧ ∃ v, noise (⟨60, 47, 479 / 4⟩ : V3 ℚ) = some v ∧ v < -19 / 10 := by
  have e : ∃ v, noise (⟨60, 47, 479 / 4⟩ : V3 ℚ) = some v ∧ v < -19 / 10 := by
    refine ⟨_, noise_eq _, ?_⟩
    have f1 : ⌊(60 : ℚ)⌋ = 60 := by decide +kernel
    have f2 : ⌊(47 : ℚ)⌋ = 47 := by decide +kernel
    have f3 : ⌊(479 / 4 : ℚ)⌋ = 119 := by decide +kernel
    simp only [f1, f2, f3]
    decide +kernel
  refine ⟨fun h => ?_, e⟩
  obtain ⟨v, hv, hlt⟩ := e
  have := (abs_le.1 (h _ v hv)).1
  linarith

section Cont
open Set Filter Topology

theorem fade_zero : fade (0 : K) = 0 := by simp [fade]
theorem fade_one : fade (1 : K) = 1 := by norm_num [fade]

/-- neighbouring cells agree on their common face across `x`; across `y` only where `dz = 0` -/
theorem cell_x (i j k : ℤ) (dy dz : K) : cell (i + 1) j k 0 dy dz = cell i j k 1 dy dz := by
  simp [cell, mix8, Ints.lerp, fade_zero, fade_one]
theorem cell_y (i j k : ℤ) (dx : K) : cell i (j + 1) k dx 0 0 = cell i j k dx 1 0 := by
  simp [cell, mix8, Ints.lerp, fade_zero, fade_one]

theorem continuous_gradH {X : Type*} [TopologicalSpace X] (h : ℕ) (f g e : X → ℝ) (hf : Continuous f) (hg : Continuous g) (he : Continuous e) :
    Continuous fun x => gradH h (f x) (g x) (e x) := by
  simp only [gradH]
  split_ifs <;> fun_prop

theorem continuous_cell {X : Type*} [TopologicalSpace X] (i j k : ℤ) (f g e : X → ℝ) (hf : Continuous f) (hg : Continuous g) (he : Continuous e) :
    Continuous fun x => cell i j k (f x) (g x) (e x) := by
  have c1 := continuous_gradH (hash i j k) f g e hf hg he
  have c2 := continuous_gradH (hash (i + 1) j k) (fun x => f x - 1) g e (by fun_prop) hg he
  have c3 := continuous_gradH (hash i (j + 1) k) f (fun x => g x - 1) e hf (by fun_prop) he
  have c4 := continuous_gradH (hash (i + 1) (j + 1) k) (fun x => f x - 1) (fun x => g x - 1) e (by fun_prop) (by fun_prop) he
  have c5 := continuous_gradH (hash i j (k + 1)) f g (fun x => e x - 1) hf hg (by fun_prop)
  have c6 := continuous_gradH (hash (i + 1) j (k + 1)) (fun x => f x - 1) g (fun x => e x - 1) (by fun_prop) hg (by fun_prop)
  have c7 := continuous_gradH (hash i (j + 1) (k + 1)) f (fun x => g x - 1) (fun x => e x - 1) hf (by fun_prop) (by fun_prop)
  have c8 := continuous_gradH (hash (i + 1) (j + 1) (k + 1)) (fun x => f x - 1) (fun x => g x - 1) (fun x => e x - 1) (by fun_prop) (by fun_prop) (by fun_prop)
  simp only [cell, mix8, Ints.lerp, fade]
  fun_prop

/-- a function of two real coordinates pieced together from continuous functions on the unit squares is continuous -/
theorem continuous_of_squares {X : Type*} [TopologicalSpace X] (u v : X → ℝ) (hu : Continuous u) (hv : Continuous v) (f : X → ℝ)
    (h : ∀ m n : ℤ, ContinuousOn f {p | (m ≤ u p ∧ u p ≤ m + 1) ∧ n ≤ v p ∧ v p ≤ n + 1}) : Continuous f := by
  let S : ℤ × ℤ → Set X := fun q => {p | ((q.1 : ℝ) ≤ u p ∧ u p ≤ q.1 + 1) ∧ (q.2 : ℝ) ≤ v p ∧ v p ≤ q.2 + 1}
  have hlf : LocallyFinite S := by
    intro p
    refine ⟨{x | (u p - 1 < u x ∧ u x < u p + 1) ∧ v p - 1 < v x ∧ v x < v p + 1}, ?_, ?_⟩
    · refine IsOpen.mem_nhds ?_ (by simp)
      refine IsOpen.inter (IsOpen.inter (isOpen_lt continuous_const hu) (isOpen_lt hu continuous_const))
        (IsOpen.inter (isOpen_lt continuous_const hv) (isOpen_lt hv continuous_const))
    · refine ((Set.finite_Icc (⌊u p⌋ - 2) (⌊u p⌋ + 2)).prod (Set.finite_Icc (⌊v p⌋ - 2) (⌊v p⌋ + 2))).subset ?_
      rintro ⟨m, n⟩ ⟨x, ⟨⟨a1, a2⟩, a3, a4⟩, ⟨b1, b2⟩, b3, b4⟩
      simp only at a1 a2 a3 a4
      have k1 := Int.floor_le (u p)
      have k2 := Int.lt_floor_add_one (u p)
      have k3 := Int.floor_le (v p)
      have k4 := Int.lt_floor_add_one (v p)
      have e1 : ((⌊u p⌋ - 2 : ℤ) : ℝ) < (m + 1 : ℤ) := by push_cast; linarith
      have e2 : (m : ℝ) < ((⌊u p⌋ + 3 : ℤ) : ℝ) := by push_cast; linarith
      have e3 : ((⌊v p⌋ - 2 : ℤ) : ℝ) < (n + 1 : ℤ) := by push_cast; linarith
      have e4 : (n : ℝ) < ((⌊v p⌋ + 3 : ℤ) : ℝ) := by push_cast; linarith
      rw [Int.cast_lt] at e1 e2 e3 e4
      simp only [Set.mem_prod, Set.mem_Icc]
      omega
  refine hlf.continuous ?_ ?_ ?_
  · refine Set.eq_univ_of_forall fun p => Set.mem_iUnion.2 ⟨(⌊u p⌋, ⌊v p⌋), ⟨Int.floor_le _, (Int.lt_floor_add_one _).le⟩, Int.floor_le _, (Int.lt_floor_add_one _).le⟩
  · intro q
    exact IsClosed.inter (IsClosed.inter (isClosed_le continuous_const hu) (isClosed_le hu continuous_const))
      (IsClosed.inter (isClosed_le continuous_const hv) (isClosed_le hv continuous_const))
  · intro q
    exact h q.1 q.2

theorem floor_cases (x : ℝ) (m : ℤ) (h0 : (m : ℝ) ≤ x) (h1 : x ≤ m + 1) : ⌊x⌋ = m ∨ (⌊x⌋ = m + 1 ∧ x = m + 1) := by
  rcases h1.lt_or_eq with h | h
  · exact Or.inl (Int.floor_eq_iff.2 ⟨h0, h⟩)
  · right
    refine ⟨?_, h⟩
    rw [h]
    have : ((m : ℝ) + 1) = ((m + 1 : ℤ) : ℝ) := by push_cast; rfl
    rw [this, Int.floor_intCast]

theorem cell_fx (j k : ℤ) (dy dz x : ℝ) (m : ℤ) (hx : (m : ℝ) ≤ x ∧ x ≤ m + 1) :
    cell ⌊x⌋ j k (x - ⌊x⌋) dy dz = cell m j k (x - m) dy dz := by
  rcases floor_cases x m hx.1 hx.2 with h | ⟨h, e⟩
  · rw [h]
  · have a : x - ((m + 1 : ℤ) : ℝ) = 0 := by push_cast; linarith
    have b : x - (m : ℝ) = 1 := by linarith
    rw [h, a, b, cell_x]

/-- **C111 (part)** the noise is a function that is continuous on every beam `j ≤ y < j+1, k ≤ z < k+1` of cells (jointly in all three
coordinates, across the cell faces in `x`), and on every plane `z = k`, `k` an integer, including across the faces in `y`.  Missing: continuity
across the other faces, which fails (`C111_continuous_false`). -/
theorem C111_continuous_partial :
    ∃ f : ℝ × ℝ × ℝ → ℝ, (∀ x y z : ℝ, noise (⟨x, y, z⟩ : V3 ℝ) = some (f (x, y, z))) ∧
      (∀ j k : ℤ, ContinuousOn f {p | ((j : ℝ) ≤ p.2.1 ∧ p.2.1 < j + 1) ∧ (k : ℝ) ≤ p.2.2 ∧ p.2.2 < k + 1}) ∧
      (∀ k : ℤ, Continuous fun q : ℝ × ℝ => f (q.1, q.2, (k : ℝ))) := by
  refine ⟨fun p => cell ⌊p.1⌋ ⌊p.2.1⌋ ⌊p.2.2⌋ (p.1 - ⌊p.1⌋) (p.2.1 - ⌊p.2.1⌋) (p.2.2 - ⌊p.2.2⌋), fun x y z => noise_eq _, fun j k => ?_, fun k => ?_⟩
  · have : Continuous fun p : ℝ × ℝ × ℝ => cell ⌊p.1⌋ j k (p.1 - ⌊p.1⌋) (p.2.1 - j) (p.2.2 - k) := by
      refine continuous_of_squares (fun p => p.1) (fun p => p.1) (by fun_prop) (by fun_prop) _ fun m n => ?_
      refine (Continuous.continuousOn (continuous_cell m j k (fun p : ℝ × ℝ × ℝ => p.1 - m) (fun p => p.2.1 - j) (fun p => p.2.2 - k) (by fun_prop) (by fun_prop) (by fun_prop))).congr ?_
      rintro p ⟨h1, h2⟩
      exact cell_fx j k _ _ _ m h1
    refine this.continuousOn.congr ?_
    rintro p ⟨⟨h1, h2⟩, h3, h4⟩
    have e1 : ⌊p.2.1⌋ = j := Int.floor_eq_iff.2 ⟨h1, h2⟩
    have e2 : ⌊p.2.2⌋ = k := Int.floor_eq_iff.2 ⟨h3, h4⟩
    simp only [e1, e2]
  · simp only [Int.floor_intCast, sub_self]
    refine continuous_of_squares (fun p => p.1) (fun p => p.2) (by fun_prop) (by fun_prop) _ fun m n => ?_
    refine (Continuous.continuousOn (continuous_cell m n k (fun p : ℝ × ℝ => p.1 - m) (fun p => p.2 - n) (fun _ => 0) (by fun_prop) (by fun_prop) (by fun_prop))).congr ?_
    rintro p ⟨⟨a1, a2⟩, b1, b2⟩
    simp only
    rw [cell_fx _ k _ _ p.1 m ⟨a1, a2⟩]
    rcases floor_cases _ n b1 b2 with h | ⟨h, e⟩
    · rw [h]
    · have a : p.2 - ((n + 1 : ℤ) : ℝ) = 0 := by push_cast; linarith
      have b : p.2 - (n : ℝ) = 1 := by linarith
      rw [h, a, b, cell_y]

/-- **C111 fails**: the noise jumps across faces `y = j` because line 163 interpolates with `wz` instead of `wy`; along `x = 0, z = 1/2` the
value at `y = 4` is -5/4 while the limit from below is -1/2 -/
theorem C111_continuous_false :
    ¬ ∃ f : ℝ × ℝ × ℝ → ℝ, Continuous f ∧ ∀ x y z : ℝ, noise (⟨x, y, z⟩ : V3 ℝ) = some (f (x, y, z)) := by
  rintro ⟨f, hf, hn⟩
  have e (y : ℝ) : f (0, y, 1 / 2) = cell 0 ⌊y⌋ 0 0 (y - ⌊y⌋) (1 / 2) := by
    have := hn 0 y (1 / 2)
    rw [noise_eq] at this
    have h2 : ⌊(1 / 2 : ℝ)⌋ = 0 := by rw [Int.floor_eq_iff]; norm_num
    simp only [Int.floor_zero, h2, Int.cast_zero, sub_zero, Option.some.injEq] at this
    exact this.symm
  have hg : Continuous fun y : ℝ => f (0, y, 1 / 2) := by fun_prop
  have hc := continuous_cell 0 3 0 (fun _ : ℝ => (0 : ℝ)) (fun y => y - 3) (fun _ => 1 / 2) (by fun_prop) (by fun_prop) (by fun_prop)
  have l1 : Tendsto (fun y : ℝ => f (0, y, 1 / 2)) (𝓝[<] 4) (𝓝 (f (0, 4, 1 / 2))) := (hg.tendsto 4).mono_left nhdsWithin_le_nhds
  have l2 : Tendsto (fun y : ℝ => cell 0 3 0 (0 : ℝ) (y - 3) (1 / 2)) (𝓝[<] 4) (𝓝 (cell 0 3 0 (0 : ℝ) (4 - 3) (1 / 2))) :=
    (hc.tendsto 4).mono_left nhdsWithin_le_nhds
  have heq : (fun y : ℝ => cell 0 3 0 (0 : ℝ) (y - 3) (1 / 2)) =ᶠ[𝓝[<] 4] (fun y : ℝ => f (0, y, 1 / 2)) := by
    filter_upwards [Ioo_mem_nhdsLT (show (3 : ℝ) < 4 by norm_num)] with y hy
    have : ⌊y⌋ = 3 := Int.floor_eq_iff.2 ⟨by exact_mod_cast hy.1.le, by push_cast; linarith [hy.2]⟩
    rw [e, this]
    norm_num
  have := tendsto_nhds_unique l1 (l2.congr' heq)
  have h4 : ⌊(4 : ℝ)⌋ = 4 := by rw [Int.floor_eq_iff]; norm_num
  rw [e, h4] at this
  have h030 : hash 0 3 0 % 16 = 7 := by decide +kernel
  have h040 : hash 0 4 0 % 16 = 11 := by decide +kernel
  have h031 : hash 0 3 1 % 16 = 14 := by decide +kernel
  have h041 : hash 0 4 1 % 16 = 11 := by decide +kernel
  have h050 : hash 0 5 0 % 16 = 13 := by decide +kernel
  have h051 : hash 0 5 1 % 16 = 8 := by decide +kernel
  norm_num [cell, mix8, Ints.lerp, fade, gradH, h030, h040, h031, h041, h050, h051] at this

end Cont

/-! ### C112, C113: octave sums and the smooth step -/

section Octaves
open Finset

/-- `smooth_step` (utility.py 43-50): the clipped value is not rescaled to `[0, 1]` -/
def smoothStep [LinearOrder K] (lo hi val : K) : K :=
  let v := min (max val lo) hi
  v * v * (3 - 2 * v)

/-- `foct` in `FBm` and `turbulence` (utility.py 60-61, 85-86); `log2 0` is minus infinity, for which the minimum is `max_octaves` -/
noncomputable def foct (s2 : ℝ) (maxOct : ℤ) : ℝ := if s2 = 0 then maxOct else min (maxOct : ℝ) (1 - 0.5 * Real.logb 2 s2)

/-- squared length, `Vector.sq_length` -/
def sqLen (v : V3 ℝ) : ℝ := v.x * v.x + v.y * v.y + v.z * v.z

/-- the loop of `turbulence` (utility.py 90-96): state `(l, o, s)` -/
noncomputable def turbLoop (p : V3 ℝ) (ω : ℝ) : ℕ → ℝ × ℝ × ℝ → Option (ℝ × ℝ × ℝ)
  | 0, st => some st
  | n + 1, (l, o, s) => do
      let v ← noise (l * p)
      turbLoop p ω n (l * 1.99, o * ω, s + o * |v|)

/-- `turbulence` (utility.py 78-100) -/
noncomputable def turbulence (p dpdx dpdy : V3 ℝ) (ω : ℝ) (maxOct : ℤ) : Option ℝ := do
  let f := foct (max (sqLen dpdx) (sqLen dpdy)) maxOct
  let octaves := ⌊f⌋
  let (l, o, s) ← turbLoop p ω octaves.toNat (1, 1, 0)
  let v ← noise (l * p)
  pure (s + o * smoothStep 0.3 0.7 (f - octaves) * |v|)

/-- `FBm` (utility.py 53-75): line 69 reads the local variable `sum` before it is assigned, so the first round of the loop raises -/
noncomputable def fbm (p dpdx dpdy : V3 ℝ) (_ω : ℝ) (maxOct : ℤ) : Option ℝ :=
  let f := foct (max (sqLen dpdx) (sqLen dpdy)) maxOct
  let octaves := ⌊f⌋
  if 0 < octaves then none
  else do
    let v ← noise ((1 : ℝ) * p)
    pure (0 + 1 * smoothStep 0.3 0.7 (f - octaves) * v)

theorem turbLoop_eq (p : V3 ℝ) (ω : ℝ) (N : V3 ℝ → ℝ) (hN : ∀ q, noise q = some (N q)) (n : ℕ) (l o s : ℝ) :
    turbLoop p ω n (l, o, s) = some (l * 1.99 ^ n, o * ω ^ n, s + ∑ k ∈ range n, o * ω ^ k * |N ((l * 1.99 ^ k : ℝ) * p)|) := by
  induction n generalizing l o s with
  | zero => simp [turbLoop]
  | succ n ih =>
    simp only [turbLoop, hN, Option.bind_eq_bind, Option.bind_some, ih]
    rw [Finset.sum_range_succ']
    congr 1
    refine Prod.ext ?_ (Prod.ext ?_ ?_)
    · simp only; ring
    · simp only; ring
    · simp only [pow_zero, mul_one]
      have : ∀ k, o * ω * ω ^ k * |N ((l * 1.99 * 1.99 ^ k : ℝ) * p)| = o * ω ^ (k + 1) * |N ((l * 1.99 ^ (k + 1) : ℝ) * p)| := by
        intro k
        have e1 : l * 1.99 * 1.99 ^ k = l * 1.99 ^ (k + 1) := by ring
        rw [e1, pow_succ]
        ring
      simp only [this]
      ring

/-- **C112** `turbulence` always returns, and its value is the sum of the octaves: with `n` the number of whole octaves (the floor of
`min(max_octaves, 1 - log2(s2)/2)`, `s2` the larger squared differential), octave `k` contributes `ω^k |noise(1.99^k p)|` and the last one is
scaled by the smooth step of the remainder -/
theorem C112_turbulence (p dpdx dpdy : V3 ℝ) (ω : ℝ) (maxOct : ℤ) (N : V3 ℝ → ℝ) (hN : ∀ q, noise q = some (N q)) :
    let f := foct (max (sqLen dpdx) (sqLen dpdy)) maxOct
    let n := ⌊f⌋.toNat
    turbulence p dpdx dpdy ω maxOct =
      some (∑ k ∈ range n, ω ^ k * |N ((1.99 ^ k : ℝ) * p)| + ω ^ n * smoothStep 0.3 0.7 (f - ⌊f⌋) * |N ((1.99 ^ n : ℝ) * p)|) := by
  simp only [turbulence, turbLoop_eq p ω N hN, hN, Option.bind_eq_bind, Option.bind_some, one_mul, zero_add]
  rfl

theorem smoothStep_mem (x : ℝ) : 0 ≤ smoothStep 0.3 0.7 x ∧ smoothStep 0.3 0.7 x ≤ 1 := by
  simp only [smoothStep]
  set v := min (max x 0.3) 0.7
  have h1 : 0.3 ≤ v := le_min (le_max_right _ _) (by norm_num)
  have h2 : v ≤ 0.7 := min_le_right _ _
  constructor
  · exact mul_nonneg (mul_self_nonneg v) (by linarith)
  · nlinarith [mul_nonneg (mul_self_nonneg (1 - v)) (show 0 ≤ 1 + 2 * v by linarith)]

/-- **C112** for a non-negative roughness the turbulence is not negative and at most twice the geometric sum of the octave weights -/
theorem C112_turbulence_bounds (p dpdx dpdy : V3 ℝ) (ω : ℝ) (hω : 0 ≤ ω) (maxOct : ℤ) :
    ∃ v, turbulence p dpdx dpdy ω maxOct = some v ∧ 0 ≤ v ∧
      v ≤ 2 * ∑ k ∈ range (⌊foct (max (sqLen dpdx) (sqLen dpdy)) maxOct⌋.toNat + 1), ω ^ k := by
  have hN : ∀ q : V3 ℝ, ∃ v, noise q = some v ∧ |v| ≤ 2 := C111_bounded_partial
  choose N hN hb using hN
  refine ⟨_, C112_turbulence p dpdx dpdy ω maxOct N hN, ?_, ?_⟩
  · refine add_nonneg (Finset.sum_nonneg fun k _ => by positivity) ?_
    have := (smoothStep_mem (foct (max (sqLen dpdx) (sqLen dpdy)) maxOct - ⌊foct (max (sqLen dpdx) (sqLen dpdy)) maxOct⌋)).1
    positivity
  · rw [Finset.sum_range_succ, mul_add, Finset.mul_sum]
    refine add_le_add (Finset.sum_le_sum fun k _ => ?_) ?_
    · have := hb ((1.99 ^ k : ℝ) * p)
      have h2 : (0 : ℝ) ≤ ω ^ k := by positivity
      nlinarith
    · set n := ⌊foct (max (sqLen dpdx) (sqLen dpdy)) maxOct⌋.toNat
      have h1 := smoothStep_mem (foct (max (sqLen dpdx) (sqLen dpdy)) maxOct - ⌊foct (max (sqLen dpdx) (sqLen dpdy)) maxOct⌋)
      have h3 := hb ((1.99 ^ n : ℝ) * p)
      have h2 : (0 : ℝ) ≤ ω ^ n := by positivity
      have h4 : smoothStep 0.3 0.7 (foct (max (sqLen dpdx) (sqLen dpdy)) maxOct - ⌊foct (max (sqLen dpdx) (sqLen dpdy)) maxOct⌋) * |N ((1.99 ^ n : ℝ) * p)| ≤ 1 * 2 :=
        mul_le_mul h1.2 h3 (abs_nonneg _) (by norm_num)
      calc _ = ω ^ n * (smoothStep 0.3 0.7 (foct (max (sqLen dpdx) (sqLen dpdy)) maxOct - ⌊foct (max (sqLen dpdx) (sqLen dpdy)) maxOct⌋) * |N ((1.99 ^ n : ℝ) * p)|) := by ring
        _ ≤ ω ^ n * (1 * 2) := mul_le_mul_of_nonneg_left h4 h2
        _ = _ := by ring

/-- **C112** the number of whole octaves is at most `max_octaves`, and octave `n - 1` (frequency `2^(n-1)`) is no finer than one per unit of the
larger screen differential: `s2 * 4^(n-1) ≤ 1`; the next one would be (`1 < s2 * 4^n`) unless `max_octaves` stopped the sum -/
theorem C112_octaves (s2 : ℝ) (h0 : 0 ≤ s2) (maxOct : ℤ) :
    ⌊foct s2 maxOct⌋ ≤ maxOct ∧ s2 * 4 ^ (⌊foct s2 maxOct⌋ - 1) ≤ 1 ∧ (⌊foct s2 maxOct⌋ < maxOct → 1 < s2 * 4 ^ ⌊foct s2 maxOct⌋) := by
  rcases h0.eq_or_lt with h | h
  · subst h
    simp [foct]
  · have hs : s2 ≠ 0 := h.ne'
    set n := ⌊foct s2 maxOct⌋ with hn
    have hf : foct s2 maxOct = min (maxOct : ℝ) (1 - 0.5 * Real.logb 2 s2) := by simp [foct, hs]
    have h1 : (n : ℝ) ≤ foct s2 maxOct := Int.floor_le _
    have h2 : foct s2 maxOct < n + 1 := Int.lt_floor_add_one _
    have key (m : ℤ) : Real.logb 2 (s2 * 4 ^ m) = Real.logb 2 s2 + 2 * m := by
      rw [Real.logb_mul hs (by positivity), ← Real.rpow_intCast, Real.logb_rpow_eq_mul_logb_of_pos (by norm_num)]
      have : Real.logb 2 4 = 2 := by
        rw [show (4 : ℝ) = 2 ^ (2 : ℝ) by norm_num]
        exact Real.logb_rpow (by norm_num) (by norm_num)
      rw [this]; ring
    have hpos (m : ℤ) : 0 < s2 * (4 : ℝ) ^ m := by positivity
    refine ⟨?_, ?_, fun hlt => ?_⟩
    · have : (n : ℝ) ≤ maxOct := h1.trans (hf ▸ min_le_left _ _)
      exact_mod_cast this
    · have h3 : (n : ℝ) ≤ 1 - 0.5 * Real.logb 2 s2 := h1.trans (hf ▸ min_le_right _ _)
      have : Real.logb 2 (s2 * 4 ^ (n - 1)) ≤ Real.logb 2 1 := by
        rw [key, Real.logb_one]; push_cast; linarith
      exact (Real.logb_le_logb (by norm_num) (hpos _) (by norm_num)).1 this
    · have hlt' : (n : ℝ) + 1 ≤ maxOct := by exact_mod_cast hlt
      have h4 : 1 - 0.5 * Real.logb 2 s2 < n + 1 := by
        rw [hf] at h2
        rcases min_lt_iff.1 h2 with h5 | h5
        · linarith
        · exact h5
      have : Real.logb 2 1 < Real.logb 2 (s2 * 4 ^ n) := by
        rw [key, Real.logb_one]; linarith
      exact (Real.logb_lt_logb_iff (by norm_num) (by norm_num) (hpos _)).1 this

/-- **C112 (part)** when no whole octave is wanted `FBm` returns the faded first octave.  Missing: every other case raises
(`C112_fbm_false`). -/
theorem C112_fbm_partial (p dpdx dpdy : V3 ℝ) (ω : ℝ) (maxOct : ℤ) (v : ℝ) (hv : noise p = some v)
    (h : foct (max (sqLen dpdx) (sqLen dpdy)) maxOct < 1) :
    ∃ w, 0 ≤ w ∧ w ≤ 1 ∧ fbm p dpdx dpdy ω maxOct = some (w * v) := by
  have h1 : ¬ 0 < ⌊foct (max (sqLen dpdx) (sqLen dpdy)) maxOct⌋ := by
    rw [Int.floor_pos]; linarith
  have e : (1 : ℝ) * p = p := by ext <;> simp
  refine ⟨_, (smoothStep_mem (foct (max (sqLen dpdx) (sqLen dpdy)) maxOct - ⌊foct (max (sqLen dpdx) (sqLen dpdy)) maxOct⌋)).1, (smoothStep_mem _).2, ?_⟩
  simp only [fbm, h1, if_false, e, hv, Option.bind_eq_bind, Option.bind_some, zero_add, one_mul]
  rfl

/-- **C112 fails**: whenever at least one octave is allowed and the screen differentials are at most one unit long, `FBm` raises instead of
returning the sum of octaves, e.g. for zero differentials and one octave -/
theorem C112_fbm_false :
    (∀ (p dpdx dpdy : V3 ℝ) (ω : ℝ) (maxOct : ℤ), 1 ≤ maxOct → sqLen dpdx ≤ 1 → sqLen dpdy ≤ 1 → fbm p dpdx dpdy ω maxOct = none) ∧
    ¬ (∀ (p dpdx dpdy : V3 ℝ) (ω : ℝ) (maxOct : ℤ), ∃ v, fbm p dpdx dpdy ω maxOct = some v) := by
  have a : ∀ (p dpdx dpdy : V3 ℝ) (ω : ℝ) (maxOct : ℤ), 1 ≤ maxOct → sqLen dpdx ≤ 1 → sqLen dpdy ≤ 1 → fbm p dpdx dpdy ω maxOct = none := by
    intro p dx dy ω m hm h1 h2
    have h3 : max (sqLen dx) (sqLen dy) ≤ 1 := max_le h1 h2
    have h0 : 0 ≤ max (sqLen dx) (sqLen dy) := by
      refine le_max_of_le_left ?_
      simp only [sqLen]
      nlinarith [mul_self_nonneg dx.x, mul_self_nonneg dx.y, mul_self_nonneg dx.z]
    have h4 : 0 < ⌊foct (max (sqLen dx) (sqLen dy)) m⌋ := by
      rw [Int.floor_pos, foct]
      split_ifs with h5
      · exact_mod_cast hm
      · refine le_min (by exact_mod_cast hm) ?_
        have : Real.logb 2 (max (sqLen dx) (sqLen dy)) ≤ 0 := Real.logb_nonpos (by norm_num) h0 h3
        linarith
    simp [fbm, h4]
  refine ⟨a, fun h => ?_⟩
  obtain ⟨v, hv⟩ := h 0 0 0 0 1
  have hz : sqLen 0 ≤ 1 := by simp only [sqLen]; change (0 : ℝ) * 0 + 0 * 0 + 0 * 0 ≤ 1; norm_num
  rw [a 0 0 0 0 1 le_rfl hz hz] at hv
  exact absurd hv (by simp)

/-- **C112 fails** also for the transition between octave counts: the last octave should enter with weight 0 (so that the value changes
continuously with the filter width) but enters with weight 0.216 and leaves with weight 0.784 instead of 1 -/
theorem C112_fade_false : smoothStep (0.3 : ℝ) 0.7 0 = 0.216 ∧ smoothStep (0.3 : ℝ) 0.7 1 = 0.784 := by
  have a : min (max (0 : ℝ) 0.3) 0.7 = 0.3 := by norm_num
  have b : min (max (1 : ℝ) 0.3) 0.7 = 0.7 := by norm_num
  simp only [smoothStep, a, b]
  norm_num

/-- **C113 (part)** `smooth_step` is constant below `lo` and above `hi`; it is non-decreasing and between 0 and 1 when `[lo, hi]` is part of
`[0, 1]`; for `lo = 0`, `hi = 1` it is 0 below, 1 above and the cubic in between.  Missing: the values 0 at `lo` and 1 at `hi` for other
intervals (`C113_smooth_step_false`). -/
theorem C113_smooth_step_partial [LinearOrder K] [IsStrictOrderedRing K] (lo hi : K) (h : lo ≤ hi) :
    (∀ x, x ≤ lo → smoothStep lo hi x = smoothStep lo hi lo) ∧ (∀ x, hi ≤ x → smoothStep lo hi x = smoothStep lo hi hi) ∧
    (0 ≤ lo → hi ≤ 1 → (∀ x y, x ≤ y → smoothStep lo hi x ≤ smoothStep lo hi y) ∧ ∀ x, 0 ≤ smoothStep lo hi x ∧ smoothStep lo hi x ≤ 1) ∧
    (∀ x : K, (x ≤ 0 → smoothStep 0 1 x = 0) ∧ (1 ≤ x → smoothStep 0 1 x = 1) ∧ (0 ≤ x → x ≤ 1 → smoothStep 0 1 x = x ^ 2 * (3 - 2 * x))) := by
  refine ⟨fun x hx => ?_, fun x hx => ?_, fun h0 h1 => ⟨fun x y hxy => ?_, fun x => ?_⟩, fun x => ⟨fun hx => ?_, fun hx => ?_, fun hx hx1 => ?_⟩⟩
  · simp [smoothStep, max_eq_right hx]
  · simp [smoothStep, max_eq_left (h.trans hx), min_eq_right hx, max_eq_left h]
  · simp only [smoothStep]
    have m1 : min (max x lo) hi ≤ min (max y lo) hi := min_le_min_right _ (max_le_max_right _ hxy)
    have m0 : 0 ≤ min (max x lo) hi := h0.trans (le_min (le_max_right _ _) h)
    have m2 : min (max y lo) hi ≤ 1 := (min_le_right _ _).trans h1
    set a := min (max x lo) hi
    set b := min (max y lo) hi
    have key2 : b * b * (3 - 2 * b) - a * a * (3 - 2 * a) = (b - a) * (3 * (a + b) - 2 * (a * a + a * b + b * b)) := by ring
    have : 0 ≤ (b - a) * (3 * (a + b) - 2 * (a * a + a * b + b * b)) := by
      refine mul_nonneg (by linarith) ?_
      nlinarith [mul_nonneg m0 (show 0 ≤ 1 - a by linarith), mul_nonneg (m0.trans m1) (show 0 ≤ 1 - b by linarith),
        mul_nonneg m0 (show 0 ≤ 1 - b by linarith), mul_nonneg (m0.trans m1) (show 0 ≤ 1 - a by linarith)]
    linarith
  · simp only [smoothStep]
    have m0 : 0 ≤ min (max x lo) hi := h0.trans (le_min (le_max_right _ _) h)
    have m2 : min (max x lo) hi ≤ 1 := (min_le_right _ _).trans h1
    set v := min (max x lo) hi
    constructor
    · exact mul_nonneg (mul_self_nonneg v) (by linarith)
    · nlinarith [mul_nonneg (mul_self_nonneg (1 - v)) (show 0 ≤ 1 + 2 * v by linarith)]
  · simp [smoothStep, max_eq_right hx]
  · simp only [smoothStep, max_eq_left (zero_le_one.trans hx), min_eq_right hx]; ring
  · simp only [smoothStep, max_eq_left hx, min_eq_left hx1]; ring

/-- **C113 fails**: `smooth_step` does not rescale, so it is not 0 at `lo` and 1 at `hi` (with the interval `[0.3, 0.7]` used by `FBm` and
`turbulence` it is 0.216 and 0.784), and outside `[0, 1]` it is not even monotone: on `[0, 2]` it runs from 0 through 1 to -4 -/
theorem C113_smooth_step_false :
    ¬ (∀ lo hi : ℚ, lo < hi → smoothStep lo hi lo = 0 ∧ smoothStep lo hi hi = 1) ∧
    smoothStep (3 / 10 : ℚ) (7 / 10) (3 / 10) = 27 / 125 ∧ smoothStep (3 / 10 : ℚ) (7 / 10) (7 / 10) = 98 / 125 ∧
    smoothStep (0 : ℚ) 2 1 = 1 ∧ smoothStep (0 : ℚ) 2 2 = -4 := by
  have e : smoothStep (3 / 10 : ℚ) (7 / 10) (3 / 10) = 27 / 125 := by decide +kernel
  refine ⟨fun h => ?_, e, by decide +kernel, by decide +kernel, by decide +kernel⟩
  have := (h (3 / 10) (7 / 10) (by norm_num)).1
  rw [e] at this
  norm_num at this

/-- a concrete case: the noise at `(1/2, 1/2, 1/2)` is a definite number and its turbulence with no octaves allowed is that number faded -/
example : ∃ v : ℚ, noise (⟨1 / 2, 1 / 2, 1 / 2⟩ : V3 ℚ) = some v ∧ v ≠ 0 := by
  refine ⟨_, noise_eq _, ?_⟩
  have f1 : ⌊(1 / 2 : ℚ)⌋ = 0 := by decide +kernel
  simp only [f1]
  decide +kernel

example : sqLen ⟨1 / 2, 0, 0⟩ ≤ 1 ∧ (1 : ℤ) ≤ 4 := by norm_num [sqLen]

end Octaves

end Verif.Texture
