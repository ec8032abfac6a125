import Verif.Texture.Noise
import Verif.MC.Rounded

/-!
# Perlin noise in rounded arithmetic (C202)

`noise` (`pytracer/texture/utility.py` 121-164) with every operation rounded to binary64.  The exact model, the permutation table and the hashes are in `Verif.Texture.Noise`.
-/

namespace Verif.NoiseR
open V3 Verif.Rnd Verif.MCR Verif.Texture

/-! ### Model -/

/-- `_grad`, texture/utility.py 104-114: the sum is its only operation that rounds -/
noncomputable def gradR (x y z : ℤ) (dx dy dz : ℝ) : Option ℝ := (grad x y z dx dy dz).map double

/-- the smoothing polynomial, texture/utility.py 155-157 -/
noncomputable def fadeR (t : ℝ) : ℝ := double (double (double (t * t) * t) * double (double (10 - double (15 * t)) + double (double (6 * t) * t)))

/-- `util.lerp`, utility/utility.py 89-91 -/
noncomputable def lerpR (t a b : ℝ) : ℝ := double (double (double (1 - t) * a) + double (t * b))

/-- the interpolation of `noise`, texture/utility.py 158-164 (line 163 has `wz` for `wy`) -/
noncomputable def mix8R (wx wy wz w000 w100 w010 w110 w001 w101 w011 w111 : ℝ) : ℝ :=
  let x00 := lerpR wx w000 w100
  let x10 := lerpR wx w010 w110
  let x01 := lerpR wx w001 w101
  let x11 := lerpR wx w011 w111
  let y0 := lerpR wy x00 x10
  let y1 := lerpR wz x01 x11
  lerpR wz y0 y1

/-- `noise`, texture/utility.py 121-164 -/
noncomputable def noiseR (p : V3 ℝ) : Option ℝ := do
  let xi := ⌊p.x⌋
  let yi := ⌊p.y⌋
  let zi := ⌊p.z⌋
  let dx := double (p.x - xi)
  let dy := double (p.y - yi)
  let dz := double (p.z - zi)
  let xi := xi % permSize
  let yi := yi % permSize
  let zi := zi % permSize
  let w000 ← gradR xi yi zi dx dy dz
  let w100 ← gradR (xi + 1) yi zi (double (dx - 1)) dy dz
  let w010 ← gradR xi (yi + 1) zi dx (double (dy - 1)) dz
  let w110 ← gradR (xi + 1) (yi + 1) zi (double (dx - 1)) (double (dy - 1)) dz
  let w001 ← gradR xi yi (zi + 1) dx dy (double (dz - 1))
  let w101 ← gradR (xi + 1) yi (zi + 1) (double (dx - 1)) dy (double (dz - 1))
  let w011 ← gradR xi (yi + 1) (zi + 1) dx (double (dy - 1)) (double (dz - 1))
  let w111 ← gradR (xi + 1) (yi + 1) (zi + 1) (double (dx - 1)) (double (dy - 1)) (double (dz - 1))
  pure (mix8R (fadeR dx) (fadeR dy) (fadeR dz) w000 w100 w010 w110 w001 w101 w011 w111)

/-! ### The computed value of a cell -/

/-- the interpolant of a cell, rounded -/
noncomputable def cellR (i j k : ℤ) (dx dy dz : ℝ) : ℝ :=
  mix8R (fadeR dx) (fadeR dy) (fadeR dz) (double (gradH (hash i j k) dx dy dz)) (double (gradH (hash (i + 1) j k) (double (dx - 1)) dy dz))
    (double (gradH (hash i (j + 1) k) dx (double (dy - 1)) dz)) (double (gradH (hash (i + 1) (j + 1) k) (double (dx - 1)) (double (dy - 1)) dz))
    (double (gradH (hash i j (k + 1)) dx dy (double (dz - 1)))) (double (gradH (hash (i + 1) j (k + 1)) (double (dx - 1)) dy (double (dz - 1))))
    (double (gradH (hash i (j + 1) (k + 1)) dx (double (dy - 1)) (double (dz - 1)))) (double (gradH (hash (i + 1) (j + 1) (k + 1)) (double (dx - 1)) (double (dy - 1)) (double (dz - 1))))

theorem noiseR_eq (p : V3 ℝ) : noiseR p = some (cellR ⌊p.x⌋ ⌊p.y⌋ ⌊p.z⌋ (double (p.x - ⌊p.x⌋)) (double (p.y - ⌊p.y⌋)) (double (p.z - ⌊p.z⌋))) := by
  have g (i j k : ℤ) (dx dy dz : ℝ) := grad_corner i j k 0 0 0 (by omega) (by omega) (by omega) dx dy dz
  have g1 (i j k : ℤ) (dx dy dz : ℝ) := grad_corner i j k 1 0 0 (by omega) (by omega) (by omega) dx dy dz
  have g2 (i j k : ℤ) (dx dy dz : ℝ) := grad_corner i j k 0 1 0 (by omega) (by omega) (by omega) dx dy dz
  have g3 (i j k : ℤ) (dx dy dz : ℝ) := grad_corner i j k 1 1 0 (by omega) (by omega) (by omega) dx dy dz
  have g4 (i j k : ℤ) (dx dy dz : ℝ) := grad_corner i j k 0 0 1 (by omega) (by omega) (by omega) dx dy dz
  have g5 (i j k : ℤ) (dx dy dz : ℝ) := grad_corner i j k 1 0 1 (by omega) (by omega) (by omega) dx dy dz
  have g6 (i j k : ℤ) (dx dy dz : ℝ) := grad_corner i j k 0 1 1 (by omega) (by omega) (by omega) dx dy dz
  have g7 (i j k : ℤ) (dx dy dz : ℝ) := grad_corner i j k 1 1 1 (by omega) (by omega) (by omega) dx dy dz
  simp only [Nat.cast_zero, Nat.cast_one, add_zero] at g g1 g2 g3 g4 g5 g6 g7
  simp only [noiseR, gradR, permSize, g, g1, g2, g3, g4, g5, g6, g7, Option.map_some, Option.bind_eq_bind, Option.bind_some, cellR]
  rfl

/-! ### Errors -/

theorem n8 {x b : ℝ} (h : |x| ≤ b) (hb : b ≤ 15 / 2) : |double x - x| ≤ 4 * 2 ^ (-52 : ℤ) := by
  have := near8 (h.trans hb)
  norm_num at *
  linarith

theorem n16 {x b : ℝ} (h : |x| ≤ b) (hb : b ≤ 15) : |double x - x| ≤ 8 * 2 ^ (-52 : ℤ) := by
  have := near16 (h.trans hb)
  norm_num at *
  linarith

theorem fade_lip {s t : ℝ} (s0 : 0 ≤ s) (s1 : s ≤ 1) (t0 : 0 ≤ t) (t1 : t ≤ 1) : |fade s - fade t| ≤ 120 * |s - t| := by
  have e : fade s - fade t = (10 * (s ^ 2 + s * t + t ^ 2) - 15 * (s ^ 3 + s ^ 2 * t + s * t ^ 2 + t ^ 3) + 6 * (s ^ 4 + s ^ 3 * t + s ^ 2 * t ^ 2 + s * t ^ 3 + t ^ 4)) * (s - t) := by
    simp only [fade]; ring
  rw [e, abs_mul]
  apply mul_le_mul_of_nonneg_right _ (abs_nonneg _)
  have m : ∀ i j : ℕ, 0 ≤ s ^ i * t ^ j ∧ s ^ i * t ^ j ≤ 1 := fun i j => ⟨by positivity, mul_le_one₀ (pow_le_one₀ s0 s1) (by positivity) (pow_le_one₀ t0 t1)⟩
  have a1 := m 2 0; have a2 := m 1 1; have a3 := m 0 2
  have b1 := m 3 0; have b2 := m 2 1; have b3 := m 1 2; have b4 := m 0 3
  have c1 := m 4 0; have c2 := m 3 1; have c3 := m 2 2; have c4 := m 1 3; have c5 := m 0 4
  simp only [pow_zero, pow_one, mul_one, one_mul] at *
  rw [abs_le]
  constructor <;> linarith

/-- the polynomial, for a rounded offset -/
theorem fade_close {s t : ℝ} (s0 : 0 ≤ s) (s1 : s ≤ 1) (t0 : 0 ≤ t) (t1 : t ≤ 1) (h : |s - t| ≤ 2 ^ (-52 : ℤ)) : |fadeR s - fade t| ≤ 2 ^ (-44 : ℤ) := by
  have L := fade_lip s0 s1 t0 t1
  have p2 : s * s ≤ 1 := mul_le_one₀ s1 s0 s1
  have p20 : 0 ≤ s * s := mul_self_nonneg s
  have a := near (x := s * s) (by rw [abs_of_nonneg p20]; linarith)
  have A0 := d_nonneg p20
  have A1 := d_le_one p2
  have c := n16 (x := 15 * s) (b := 15) (by rw [abs_of_nonneg (by linarith)]; linarith) le_rfl
  have C0 : 0 ≤ double (15 * s) := d_nonneg (by linarith)
  have f := n8 (x := 6 * s) (b := 6) (by rw [abs_of_nonneg (by linarith)]; linarith) (by norm_num)
  have F0 : 0 ≤ double (6 * s) := d_nonneg (by linarith)
  unfold fadeR
  generalize double (s * s) = A at *
  generalize double (15 * s) = C at *
  generalize double (6 * s) = F at *
  have q0 : 0 ≤ A * s := mul_nonneg A0 s0
  have q1 : A * s ≤ 1 := mul_le_one₀ A1 s0 s1
  have b := near (x := A * s) (by rw [abs_of_nonneg q0]; linarith)
  have B0 := d_nonneg q0
  have B1 := d_le_one q1
  generalize double (A * s) = B at *
  have dB : |B - s ^ 3| ≤ 2 * 2 ^ (-52 : ℤ) := by
    have k : |A * s - s ^ 3| ≤ 2 ^ (-52 : ℤ) := by
      rw [show A * s - s ^ 3 = (A - s * s) * s by ring, abs_mul, abs_of_nonneg s0]
      exact (mul_le_of_le_one_right (abs_nonneg _) s1).trans a
    exact (abs_sub_le _ (A * s) _).trans (by linarith)
  have d := n16 (x := 10 - C) (b := 12) (by rw [abs_le] at *; norm_num at *; constructor <;> linarith) (by norm_num)
  generalize double (10 - C) = D at *
  have fs0 : 0 ≤ F * s := mul_nonneg F0 s0
  have fs1 : F * s ≤ 7 := by
    have : F ≤ 7 := by have := (abs_le.1 f).2; norm_num at *; linarith
    exact (mul_le_of_le_one_right F0 s1).trans this
  have g := n8 (x := F * s) (b := 7) (by rwa [abs_of_nonneg fs0]) (by norm_num)
  have dF : |F * s - 6 * s ^ 2| ≤ 4 * 2 ^ (-52 : ℤ) := by
    rw [show F * s - 6 * s ^ 2 = (F - 6 * s) * s by ring, abs_mul, abs_of_nonneg s0]
    exact (mul_le_of_le_one_right (abs_nonneg _) s1).trans f
  generalize double (F * s) = G at *
  have pr : 0 ≤ 10 - 15 * s + 6 * s ^ 2 ∧ 10 - 15 * s + 6 * s ^ 2 ≤ 10 := ⟨by nlinarith [sq_nonneg (s - 1)], by nlinarith⟩
  have dDG : |D + G - (10 - 15 * s + 6 * s ^ 2)| ≤ 24 * 2 ^ (-52 : ℤ) := by
    generalize s ^ 2 = q at *
    generalize F * s = r at *
    clear * - c d g dF
    rw [abs_le] at *
    norm_num at *
    constructor <;> linarith
  generalize hP : 10 - 15 * s + 6 * s ^ 2 = P at *
  have k := n16 (x := D + G) (b := 11) (by rw [abs_le] at *; norm_num at *; constructor <;> linarith) (by norm_num)
  generalize double (D + G) = K at *
  have dK : |K - P| ≤ 32 * 2 ^ (-52 : ℤ) := (abs_sub_le _ (D + G) _).trans (by linarith)
  have K11 : |K| ≤ 11 := by rw [abs_le] at *; norm_num at *; constructor <;> linarith
  have BK : |B * K| ≤ 11 := by rw [abs_mul, abs_of_nonneg B0]; exact (mul_le_of_le_one_left (abs_nonneg _) B1).trans K11
  have m := n16 BK (by norm_num)
  have s3 : 0 ≤ s ^ 3 ∧ s ^ 3 ≤ 1 := ⟨by positivity, pow_le_one₀ s0 s1⟩
  have dBK : |B * K - s ^ 3 * P| ≤ 54 * 2 ^ (-52 : ℤ) := by
    rw [show B * K - s ^ 3 * P = (B - s ^ 3) * K + s ^ 3 * (K - P) by ring]
    refine (abs_add_le _ _).trans ?_
    rw [abs_mul, abs_mul, abs_of_nonneg s3.1]
    have k1 := mul_le_mul dB K11 (abs_nonneg _) (by positivity)
    have k2 := mul_le_of_le_one_left (abs_nonneg (K - P)) s3.2
    linarith
  have e : fade s = s ^ 3 * P := by rw [← hP]; simp only [fade]; ring
  rw [e] at L
  have t1 := abs_sub_le (double (B * K)) (B * K) (s ^ 3 * P)
  have t2 := abs_sub_le (double (B * K)) (s ^ 3 * P) (fade t)
  clear * - t1 t2 m dBK L h
  norm_num at *
  linarith

theorem lerp_close {t' t a' a b' b ε : ℝ} (t0 : 0 ≤ t) (t1 : t ≤ 1) (ht : |t' - t| ≤ 2 ^ (-44 : ℤ)) (ha : |a| ≤ 2) (hb : |b| ≤ 2) (da : |a' - a| ≤ ε) (db : |b' - b| ≤ ε) (hε : ε ≤ 2 ^ (-39 : ℤ)) :
    |lerpR t' a' b' - Ints.lerp t a b| ≤ ε + 6 * 2 ^ (-44 : ℤ) := by
  have a5 : |a'| ≤ 9 / 4 := by have := abs_sub_abs_le_abs_sub a' a; norm_num at *; linarith
  have b5 : |b'| ≤ 9 / 4 := by have := abs_sub_abs_le_abs_sub b' b; norm_num at *; linarith
  have t5 : |t'| ≤ 9 / 8 := by rw [abs_le] at *; norm_num at *; constructor <;> linarith
  have x0 := near (x := 1 - t') (by rw [abs_le] at *; norm_num at *; constructor <;> linarith)
  unfold lerpR Ints.lerp
  generalize double (1 - t') = x at *
  have dx : |x - (1 - t)| ≤ 2 ^ (-44 : ℤ) + 2 ^ (-52 : ℤ) := by
    have := abs_sub_le x (1 - t') (1 - t)
    rw [show 1 - t' - (1 - t) = -(t' - t) by ring, abs_neg] at this
    linarith
  have x5 : |x| ≤ 9 / 8 := by rw [abs_le] at *; norm_num at *; constructor <;> linarith
  have m1 : |x * a'| ≤ 81 / 32 := by rw [abs_mul]; have := mul_le_mul x5 a5 (abs_nonneg _) (by norm_num); linarith
  have m2 : |t' * b'| ≤ 81 / 32 := by rw [abs_mul]; have := mul_le_mul t5 b5 (abs_nonneg _) (by norm_num); linarith
  have n1 := n8 m1 (by norm_num)
  have n2 := n8 m2 (by norm_num)
  have e1 : |x * a' - (1 - t) * a| ≤ (2 ^ (-44 : ℤ) + 2 ^ (-52 : ℤ)) * (9 / 4) + (1 - t) * ε := by
    rw [show x * a' - (1 - t) * a = (x - (1 - t)) * a' + (1 - t) * (a' - a) by ring]
    refine (abs_add_le _ _).trans (add_le_add ?_ ?_)
    · rw [abs_mul]; exact mul_le_mul dx a5 (abs_nonneg _) (by positivity)
    · rw [abs_mul, abs_of_nonneg (by linarith)]; exact mul_le_mul_of_nonneg_left da (by linarith)
  have e2 : |t' * b' - t * b| ≤ 2 ^ (-44 : ℤ) * (9 / 4) + t * ε := by
    rw [show t' * b' - t * b = (t' - t) * b' + t * (b' - b) by ring]
    refine (abs_add_le _ _).trans (add_le_add ?_ ?_)
    · rw [abs_mul]; exact mul_le_mul ht b5 (abs_nonneg _) (by positivity)
    · rw [abs_mul, abs_of_nonneg t0]; exact mul_le_mul_of_nonneg_left db t0
  have hs : (1 - t) * ε + t * ε = ε := by ring
  generalize double (x * a') = X at *
  generalize double (t' * b') = Y at *
  have m3 : |X + Y| ≤ 6 := by
    rw [abs_le] at m1 m2 n1 n2 ⊢
    clear * - m1 m2 n1 n2
    norm_num at *
    constructor <;> linarith
  have n3 := n8 m3 (by norm_num)
  generalize double (X + Y) = Z at *
  generalize x * a' = P at *
  generalize t' * b' = Q at *
  generalize (1 - t) * a = p at *
  generalize t * b = q at *
  generalize (1 - t) * ε = u at *
  generalize t * ε = v at *
  clear * - n1 n2 n3 e1 e2 hs
  rw [abs_le] at *
  norm_num at *
  constructor <;> linarith

theorem grad_close (h : ℕ) {x' x y' y z' z : ℝ} (hx : |x' - x| ≤ 2 * 2 ^ (-52 : ℤ)) (hy : |y' - y| ≤ 2 * 2 ^ (-52 : ℤ)) (hz : |z' - z| ≤ 2 * 2 ^ (-52 : ℤ)) (ax : |x'| ≤ 1) (ay : |y'| ≤ 1) (az : |z'| ≤ 1) :
    |double (gradH h x' y' z') - gradH h x y z| ≤ 2 ^ (-49 : ℤ) := by
  have n := n8 (abs_gradH_le h x' y' z' ax ay az) (by norm_num)
  have k : |gradH h x' y' z' - gradH h x y z| ≤ 4 * 2 ^ (-52 : ℤ) := by
    clear n
    simp only [gradH]
    have e0 : (0 : ℝ) ≤ 2 ^ (-52 : ℤ) := by positivity
    generalize (2 : ℝ) ^ (-52 : ℤ) = e at *
    rw [abs_le] at *
    clear ax ay az
    split_ifs <;> (constructor <;> linarith)
  have := abs_sub_le (double (gradH h x' y' z')) (gradH h x' y' z') (gradH h x y z)
  clear * - n k this
  norm_num at *
  linarith

/-- offsets to the near and the far corner of a cell -/
theorem offset (x : ℝ) : 0 ≤ double (x - ⌊x⌋) ∧ double (x - ⌊x⌋) ≤ 1 ∧ |double (x - ⌊x⌋) - (x - ⌊x⌋)| ≤ 2 ^ (-52 : ℤ) ∧ |double (double (x - ⌊x⌋) - 1)| ≤ 1 ∧
    |double (double (x - ⌊x⌋) - 1) - (x - ⌊x⌋ - 1)| ≤ 2 * 2 ^ (-52 : ℤ) := by
  have f0 : 0 ≤ x - ⌊x⌋ := by linarith [Int.floor_le x]
  have f1 : x - ⌊x⌋ ≤ 1 := by linarith [Int.lt_floor_add_one x]
  have n := near (x := x - ⌊x⌋) (by rw [abs_of_nonneg f0]; linarith)
  have d0 := d_nonneg f0
  have d1 := d_le_one f1
  have m : |double (x - ⌊x⌋) - 1| ≤ 1 := abs_le.2 ⟨by linarith, by linarith⟩
  have n2 := near (x := double (x - ⌊x⌋) - 1) (m.trans (by norm_num))
  refine ⟨d0, d1, n, d_abs m, ?_⟩
  rw [abs_le] at *
  constructor <;> linarith

/-- **C202** `noise` returns a number for every point, within `2^-39` of the exact noise, and between `-2 - 2^-39` and `2 + 2^-39`. -/
theorem C202_noise (p : V3 ℝ) : ∃ v' v, noiseR p = some v' ∧ noise p = some v ∧ |v' - v| ≤ 2 ^ (-39 : ℤ) ∧ |v'| ≤ 2 + 2 ^ (-39 : ℤ) := by
  obtain ⟨x0, x1, xn, xm, xmn⟩ := offset p.x
  obtain ⟨y0, y1, yn, ym, ymn⟩ := offset p.y
  obtain ⟨z0, z1, zn, zm, zmn⟩ := offset p.z
  have fr (x : ℝ) : 0 ≤ x - ⌊x⌋ ∧ x - ⌊x⌋ ≤ 1 := ⟨by linarith [Int.floor_le x], by linarith [Int.lt_floor_add_one x]⟩
  have key : |cellR ⌊p.x⌋ ⌊p.y⌋ ⌊p.z⌋ (double (p.x - ⌊p.x⌋)) (double (p.y - ⌊p.y⌋)) (double (p.z - ⌊p.z⌋)) - cell ⌊p.x⌋ ⌊p.y⌋ ⌊p.z⌋ (p.x - ⌊p.x⌋) (p.y - ⌊p.y⌋) (p.z - ⌊p.z⌋)| ≤ 2 ^ (-39 : ℤ) := by
    obtain ⟨fx0, fx1⟩ := fr p.x
    obtain ⟨fy0, fy1⟩ := fr p.y
    obtain ⟨fz0, fz1⟩ := fr p.z
    generalize ⌊p.x⌋ = i at *
    generalize ⌊p.y⌋ = j at *
    generalize ⌊p.z⌋ = k at *
    generalize p.x - (i : ℝ) = x at *
    generalize p.y - (j : ℝ) = y at *
    generalize p.z - (k : ℝ) = z at *
    have wx := fade_close x0 x1 fx0 fx1 xn
    have wy := fade_close y0 y1 fy0 fy1 yn
    have wz := fade_close z0 z1 fz0 fz1 zn
    obtain ⟨wx0, wx1⟩ := fade_mem x fx0 fx1
    obtain ⟨wy0, wy1⟩ := fade_mem y fy0 fy1
    obtain ⟨wz0, wz1⟩ := fade_mem z fz0 fz1
    have two : ∀ a : ℝ, a ≤ 2 ^ (-52 : ℤ) → a ≤ 2 * 2 ^ (-52 : ℤ) := fun a h => h.trans (by norm_num)
    have xa : |double x| ≤ 1 := by rwa [abs_of_nonneg x0]
    have ya : |double y| ≤ 1 := by rwa [abs_of_nonneg y0]
    have za : |double z| ≤ 1 := by rwa [abs_of_nonneg z0]
    have a0 (t : ℝ) (h0 : 0 ≤ t) (h1 : t ≤ 1) : |t| ≤ 1 := abs_le.2 ⟨by linarith, h1⟩
    have a1 (t : ℝ) (h0 : 0 ≤ t) (h1 : t ≤ 1) : |t - 1| ≤ 1 := abs_le.2 ⟨by linarith, by linarith⟩
    have ex := a0 x fx0 fx1
    have ey := a0 y fy0 fy1
    have ez := a0 z fz0 fz1
    have ex' := a1 x fx0 fx1
    have ey' := a1 y fy0 fy1
    have ez' := a1 z fz0 fz1
    have g (h : ℕ) {x' x y' y z' z : ℝ} := grad_close h (x' := x') (x := x) (y' := y') (y := y) (z' := z') (z := z)
    have xn' := two _ xn
    have yn' := two _ yn
    have zn' := two _ zn
    simp only [cellR, cell, mix8R, mix8]
    have r (h : ℕ) {x y z : ℝ} (hx : |x| ≤ 1) (hy : |y| ≤ 1) (hz : |z| ≤ 1) := abs_gradH_le h x y z hx hy hz
    have s1 : (2 : ℝ) ^ (-49 : ℤ) ≤ 2 ^ (-39 : ℤ) := by norm_num
    have s2 : (2 : ℝ) ^ (-49 : ℤ) + 6 * 2 ^ (-44 : ℤ) ≤ 2 ^ (-39 : ℤ) := by norm_num
    have s3 : (2 : ℝ) ^ (-49 : ℤ) + 6 * 2 ^ (-44 : ℤ) + 6 * 2 ^ (-44 : ℤ) ≤ 2 ^ (-39 : ℤ) := by norm_num
    have x00 := lerp_close wx0 wx1 wx (r (hash i j k) ex ey ez) (r (hash (i + 1) j k) ex' ey ez) (g _ xn' yn' zn' xa ya za) (g _ xmn yn' zn' xm ya za) s1
    have x10 := lerp_close wx0 wx1 wx (r (hash i (j + 1) k) ex ey' ez) (r (hash (i + 1) (j + 1) k) ex' ey' ez) (g _ xn' ymn zn' xa ym za) (g _ xmn ymn zn' xm ym za) s1
    have x01 := lerp_close wx0 wx1 wx (r (hash i j (k + 1)) ex ey ez') (r (hash (i + 1) j (k + 1)) ex' ey ez') (g _ xn' yn' zmn xa ya zm) (g _ xmn yn' zmn xm ya zm) s1
    have x11 := lerp_close wx0 wx1 wx (r (hash i (j + 1) (k + 1)) ex ey' ez') (r (hash (i + 1) (j + 1) (k + 1)) ex' ey' ez') (g _ xn' ymn zmn xa ym zm) (g _ xmn ymn zmn xm ym zm) s1
    have b00 := abs_lerp_le _ _ _ 2 wx0 wx1 (r (hash i j k) ex ey ez) (r (hash (i + 1) j k) ex' ey ez)
    have b10 := abs_lerp_le _ _ _ 2 wx0 wx1 (r (hash i (j + 1) k) ex ey' ez) (r (hash (i + 1) (j + 1) k) ex' ey' ez)
    have b01 := abs_lerp_le _ _ _ 2 wx0 wx1 (r (hash i j (k + 1)) ex ey ez') (r (hash (i + 1) j (k + 1)) ex' ey ez')
    have b11 := abs_lerp_le _ _ _ 2 wx0 wx1 (r (hash i (j + 1) (k + 1)) ex ey' ez') (r (hash (i + 1) (j + 1) (k + 1)) ex' ey' ez')
    have c0 := lerp_close wy0 wy1 wy b00 b10 x00 x10 s2
    have c1 := lerp_close wz0 wz1 wz b01 b11 x01 x11 s2
    have d := lerp_close wz0 wz1 wz (abs_lerp_le _ _ _ 2 wy0 wy1 b00 b10) (abs_lerp_le _ _ _ 2 wz0 wz1 b01 b11) c0 c1 s3
    exact d.trans (by norm_num)
  refine ⟨_, _, noiseR_eq p, noise_eq p, key, ?_⟩
  have b := abs_cell_le ⌊p.x⌋ ⌊p.y⌋ ⌊p.z⌋ _ _ _ (fr p.x) (fr p.y) (fr p.z)
  have := abs_sub_abs_le_abs_sub (cellR ⌊p.x⌋ ⌊p.y⌋ ⌊p.z⌋ (double (p.x - ⌊p.x⌋)) (double (p.y - ⌊p.y⌋)) (double (p.z - ⌊p.z⌋))) (cell ⌊p.x⌋ ⌊p.y⌋ ⌊p.z⌋ (p.x - ⌊p.x⌋) (p.y - ⌊p.y⌋) (p.z - ⌊p.z⌋))
  linarith

/-- **C202** the computed noise repeats exactly with period 256 in each coordinate (for points whose shifted coordinates are floats) -/
theorem C202_periodic (p : V3 ℝ) (a b c : ℤ) : noiseR ⟨p.x + 256 * a, p.y + 256 * b, p.z + 256 * c⟩ = noiseR p := by
  have fl (x : ℝ) (n : ℤ) : ⌊x + 256 * n⌋ = ⌊x⌋ + 256 * n := by
    have : x + 256 * (n : ℝ) = x + ((256 * n : ℤ) : ℝ) := by push_cast; ring
    rw [this, Int.floor_add_intCast]
  have hh (i j k : ℤ) : Verif.Texture.hash (i + 256 * a) (j + 256 * b) (k + 256 * c) = Verif.Texture.hash i j k := by
    simp [Verif.Texture.hash, Int.add_mul_emod_self_left]
  have h1 (i n : ℤ) : i + 256 * n + 1 = i + 1 + 256 * n := by ring
  rw [noiseR_eq, noiseR_eq]
  have hd (x : ℝ) (n m : ℤ) : x + 256 * (n : ℝ) - ((m + 256 * n : ℤ) : ℝ) = x - m := by push_cast; ring
  simp only [fl, hd, cellR, h1, hh]

/-- **C202** at lattice points the computed noise is exact -/
theorem C202_lattice (i j k : ℤ) : noiseR (⟨i, j, k⟩ : V3 ℝ) = noise (⟨i, j, k⟩ : V3 ℝ) := by
  have f0 : fadeR 0 = 0 := by simp [fadeR, double_zero]
  have l0 : ∀ a b : ℝ, lerpR 0 a b = double (double a) := fun a b => by simp [lerpR, double_zero, d_one]
  have dd : ∀ a : ℝ, double (double a) = double a := fun a => double_of_isDouble (isDouble_double a)
  rw [noiseR_eq, noise_eq]
  simp only [Int.floor_intCast, sub_self, cell, cellR, fade, mix8, mix8R, Ints.lerp, double_zero, f0, l0, dd]
  simp only [zero_mul, mul_zero, sub_zero, one_mul, add_zero, Option.some.injEq]
  apply double_of_isDouble
  have d0 : IsDouble (0 : ℝ) := ⟨0, 0, by norm_num, by norm_num, by simp⟩
  have d1 : IsDouble (-1 : ℝ) := ⟨-1, 0, by norm_num, by norm_num, by simp⟩
  simp only [gradH]
  split_ifs <;> simp [d0, d1]

/-- A point off the lattice in a cell with negative coordinates. -/
example : ∃ v' v, noiseR ⟨-5 / 4, 2 / 3, 1000⟩ = some v' ∧ noise (⟨-5 / 4, 2 / 3, 1000⟩ : V3 ℝ) = some v ∧ |v' - v| ≤ 2 ^ (-39 : ℤ) := by
  obtain ⟨v', v, a, b, c, -⟩ := C202_noise ⟨-5 / 4, 2 / 3, 1000⟩
  exact ⟨v', v, a, b, c⟩

end Verif.NoiseR
