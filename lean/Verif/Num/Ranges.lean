import Verif.Num.Round
import Verif.Dist.Props
import Mathlib.Data.Rat.Floor

/-!
# Samples and weights in rounded arithmetic

`sampler/utility.py:18-44`, `montecarlo/utility.py:23-42` and `montecarlo/distribution.py:26-127` with the result of every operation rounded (see `Num/Round.lean`).
-/

namespace Verif.Rnd
open Verif.Dist (D1 Err searchsorted)

section
variable {K : Type*} [Field K] [LinearOrder K]

/-! ### Model -/

/-- `(np.arange(n) + us) / n` (`sampler/utility.py:20, 22, 36, 42, 44`), rounded; `us` are the random numbers or halves -/
def strat (R : Rounding K) (n : ℕ) (us : List K) : List K := List.zipWith (fun (i : ℕ) u => R.div (R.add i u) n) (List.range n) us

/-- `balance_heuristic` (`montecarlo/utility.py:23-30`), rounded; `none` is NaN -/
def balance (R : Rounding K) (nf : ℕ) (f : K) (ng : ℕ) (g : K) : Option K :=
  let s := R.add (R.mul nf f) (R.mul ng g)
  if s = 0 then none else some (R.div (R.mul nf f) s)

/-- `power_heuristic` (`montecarlo/utility.py:33-42`), rounded -/
def power (R : Rounding K) (nf : ℕ) (fpdf : K) (ng : ℕ) (gpdf : K) : Option K :=
  let f := R.mul nf fpdf
  let g := R.mul ng gpdf
  let s := R.add (R.mul f f) (R.mul g g)
  if s = 0 then none else some (R.div (R.mul f f) s)

/-- the accumulation loop (`distribution.py:36-38`), rounded -/
def accum (R : Rounding K) (n acc : K) : List K → List K
  | [] => [acc]
  | x :: xs => acc :: accum R n (R.add acc (R.div x n)) xs

/-- `Distribution1D.__init__` (`distribution.py:26-42`), rounded -/
def dist (R : Rounding K) (arr : List K) : D1 K :=
  let acc := accum R arr.length 0 arr
  let raw := acc.getLastD 0
  ⟨arr.length, arr, acc.map (fun x => R.div x raw), raw⟩

/-- a rounded quotient; one that is not a finite number is an error -/
def qdiv (R : Rounding K) (a b : K) : Except Err K := if b = 0 then .error .nonfinite else .ok (R.div a b)

/-- `Distribution1D.sample_cont` (`distribution.py:47-65`), rounded -/
def sampleCont (R : Rounding K) (d : D1 K) (u : K) : Except Err (K × K) := do
  let off := d.off u
  let c0 ← Dist.get d.cdf off
  let c1 ← Dist.get d.cdf (off + 1)
  if d.raw = 0 then .error .nonfinite
  let du ← qdiv R (R.sub' u c0) (R.sub' c1 c0)
  let x ← qdiv R (R.add du (off : K)) (d.cnt : K)
  let f ← Dist.get d.func off
  let p ← qdiv R f d.raw
  return (x, p)

/-- `Distribution1D.sample_dis` (`distribution.py:67-80`), rounded -/
def sampleDis (R : Rounding K) (d : D1 K) (u : K) : Except Err (ℕ × K) := do
  let off := d.off u
  let f ← Dist.get d.func off
  let p ← qdiv R f (R.mul d.raw d.cnt)
  return (off, p)

end

section
variable {K : Type*} [Field K] [LinearOrder K] [FloorRing K]

/-- `Distribution2D.__init__` (`distribution.py:91-107`), rounded -/
def dist2 (R : Rounding K) (rows : List (List K)) : Dist.D2 K :=
  let cond := rows.map (dist R)
  ⟨cond, dist R (cond.map D1.raw)⟩

/-- `Distribution2D.sample_cont` (`distribution.py:112-127`), rounded -/
def sampleCont2 (R : Rounding K) (d : Dist.D2 K) (u0 u1 : K) : Except Err ((K × ℕ) × K) := do
  let (v, pdf1) ← sampleCont R d.marg u1
  let vi := Dist.cell (R.mul v d.marg.cnt) d.marg.cnt
  let row ← Dist.get d.cond vi
  let (u, pdf0) ← sampleCont R row u0
  return ((u, vi), R.mul pdf0 pdf1)

end

section
variable {K : Type*} [Field K] [LinearOrder K] [IsStrictOrderedRing K]

/-! ### Stratified samples -/

/-- **C174** rounded stratified samples: the `i`-th of `n` lies between the rounded ends of its stratum, so all are between 0 and 1 and in ascending order.
Missing: that the upper end is excluded (`C174_upper_end_false`). -/
theorem C174_strata_partial (R : Rounding K) (n : ℕ) (hn : n ≤ 2 ^ 53) (us : List K) (hl : us.length = n) (hu : ∀ u ∈ us, 0 ≤ u ∧ u < 1) :
    (strat R n us).length = n ∧
    (∀ i < n, ∃ x, (strat R n us)[i]? = some x ∧ R.rnd (i / n) ≤ x ∧ x ≤ R.rnd ((i + 1) / n) ∧ 0 ≤ x ∧ x ≤ 1) ∧
    (strat R n us).Pairwise (· ≤ ·) := by
  have hlen : (strat R n us).length = n := by simp [strat, hl]
  have key : ∀ i < n, ∃ x, (strat R n us)[i]? = some x ∧ R.rnd (i / n) ≤ x ∧ x ≤ R.rnd ((i + 1) / n) := by
    intro i hi
    have hn0 : (0 : K) < n := by exact_mod_cast (by omega : 0 < n)
    have hui := hu us[i] (List.getElem_mem (by omega))
    refine ⟨R.div (R.add i us[i]) n, ?_, ?_, ?_⟩
    · simp [strat, hi, hl]
    · exact R.mono (div_le_div_of_nonneg_right (R.le_rnd (R.rep_nat i (by omega)) (by linarith)) hn0.le)
    · refine R.mono (div_le_div_of_nonneg_right ?_ hn0.le)
      have hrep := R.rep_nat (i + 1) (by omega)
      push_cast at hrep
      exact R.rnd_le hrep (by linarith)
  refine ⟨hlen, fun i hi => ?_, ?_⟩
  · obtain ⟨x, h1, h2, h3⟩ := key i hi
    have hn0 : (0 : K) < n := by exact_mod_cast (by omega : 0 < n)
    refine ⟨x, h1, h2, h3, (R.rnd_nonneg (by positivity)).trans h2, h3.trans (R.rnd_le R.rep_one ?_)⟩
    rw [_root_.div_le_one hn0]; exact_mod_cast hi
  · rw [List.pairwise_iff_getElem]
    intro i j hi hj hij
    obtain ⟨x, h1, -, h3⟩ := key i (hlen ▸ hi)
    obtain ⟨y, h4, h5, -⟩ := key j (hlen ▸ hj)
    rw [List.getElem?_eq_getElem hi, Option.some.injEq] at h1
    rw [List.getElem?_eq_getElem hj, Option.some.injEq] at h4
    rw [h1, h4]
    refine h3.trans (le_trans (R.mono ?_) h5)
    exact div_le_div_of_nonneg_right (by exact_mod_cast hij) (by positivity)

/-! ### Weights -/

/-- **C174** rounded multiple-importance weights are fractions whenever they are numbers -/
theorem C174_weights_partial (R : Rounding K) (nf : ℕ) (f : K) (ng : ℕ) (g : K) (hf : 0 ≤ f) (hg : 0 ≤ g) (w : K) (h : balance R nf f ng g = some w ∨ power R nf f ng g = some w) : 0 ≤ w ∧ w ≤ 1 := by
  have hw : ∀ a b : K, R.Rep a → 0 ≤ a → 0 ≤ b → 0 ≤ R.div a (R.add a b) ∧ R.div a (R.add a b) ≤ 1 := fun a b hr ha hb =>
    ⟨R.div_nonneg ha (R.rnd_nonneg (by linarith)), R.div_le_one ha (R.le_add hr hb)⟩
  rcases h with h | h
  · simp only [balance] at h
    split_ifs at h
    cases h
    exact hw _ _ (R.rep_rnd _) (R.rnd_nonneg (by positivity)) (R.rnd_nonneg (by positivity))
  · simp only [power] at h
    split_ifs at h
    cases h
    exact hw _ _ (R.rep_rnd _) (R.rnd_nonneg (mul_self_nonneg _)) (R.rnd_nonneg (mul_self_nonneg _))

/-! ### One-dimensional distributions -/

omit [IsStrictOrderedRing K] in
theorem accum_length (R : Rounding K) (n acc : K) (a : List K) : (accum R n acc a).length = a.length + 1 := by
  induction a generalizing acc with
  | nil => rfl
  | cons x xs ih => simp [accum, ih]

omit [IsStrictOrderedRing K] in
/-- neighbouring entries -/
theorem accum_step (R : Rounding K) (n acc : K) (hacc : R.Rep acc) (a : List K) (k : ℕ) (hk : k < a.length) :
    ∃ c, (accum R n acc a)[k]? = some c ∧ R.Rep c ∧ (accum R n acc a)[k + 1]? = some (R.add c (R.div a[k] n)) := by
  induction a generalizing acc k with
  | nil => simp at hk
  | cons x xs ih =>
    cases k with
    | zero =>
      refine ⟨acc, rfl, hacc, ?_⟩
      cases xs <;> simp [accum]
    | succ k =>
      obtain ⟨c, h1, h2, h3⟩ := ih (R.add acc (R.div x n)) (R.rep_rnd _) k (by simpa using hk)
      exact ⟨c, by simpa [accum] using h1, h2, by simpa [accum] using h3⟩

omit [IsStrictOrderedRing K] in
theorem accum_zero (R : Rounding K) (n acc : K) (a : List K) : (accum R n acc a)[0]? = some acc := by cases a <;> rfl

omit [IsStrictOrderedRing K] in
theorem accum_last (R : Rounding K) (n acc : K) (a : List K) : (accum R n acc a)[a.length]? = some ((accum R n acc a).getLastD 0) := by
  have h := accum_length R n acc a
  rw [List.getLastD_eq_getLast?, List.getLast?_eq_getElem?, h, Nat.add_sub_cancel]
  rw [List.getElem?_eq_getElem (by omega)]; rfl

/-- **C174** rounded 1D sampling, for every array of non-negative numbers whose rounded total is not zero and every `0 < u ≤ 1`: `sample_cont` succeeds; the cell it picks is within the array and has a value that is not zero;
the point returned is between the rounded ends of that cell, and so between 0 and 1; the density is that of the cell and not negative; and `sample_dis` picks the same cell. -/
theorem C174_distribution (R : Rounding K) (arr : List K) (hlen : arr.length ≤ 2 ^ 53) (harr : ∀ x ∈ arr, 0 ≤ x) (hraw : (dist R arr).raw ≠ 0) (u : K) (h0 : 0 < u) (h1 : u ≤ 1) :
    ∃ (k : ℕ) (hk : k < arr.length) (x : K), sampleCont R (dist R arr) u = .ok (x, R.div arr[k] (dist R arr).raw) ∧ 0 < arr[k] ∧ 0 ≤ R.div arr[k] (dist R arr).raw ∧
      R.rnd (k / arr.length) ≤ x ∧ x ≤ R.rnd ((k + 1) / arr.length) ∧ 0 ≤ x ∧ x ≤ 1 ∧
      (R.mul (dist R arr).raw arr.length ≠ 0 → sampleDis R (dist R arr) u = .ok (k, R.div arr[k] (R.mul (dist R arr).raw arr.length))) := by
  set raw := (dist R arr).raw with hrawdef
  set cdf := (dist R arr).cdf with hcdf
  have hcdf_get : ∀ k : ℕ, cdf[k]? = ((accum R arr.length 0 arr)[k]?).map (fun x => R.div x raw) := fun k => by
    simp only [hcdf, dist, List.getElem?_map, hrawdef]
  have hlast : (accum R arr.length 0 arr)[arr.length]? = some raw := accum_last R _ _ arr
  -- all entries are non-negative
  have hnn : ∀ k ≤ arr.length, ∃ c, (accum R arr.length 0 arr)[k]? = some c ∧ 0 ≤ c := by
    intro k
    induction k with
    | zero => exact fun _ => ⟨0, accum_zero R _ _ _, le_rfl⟩
    | succ k ih =>
      intro hk
      obtain ⟨c, c1, c2⟩ := ih (by omega)
      obtain ⟨c', d1, d2, d3⟩ := accum_step R (arr.length : K) 0 R.rep_zero arr k (by omega)
      rw [c1, Option.some.injEq] at d1; subst d1
      exact ⟨_, d3, R.rnd_nonneg (add_nonneg c2 (R.div_nonneg (harr _ (List.getElem_mem _)) (by positivity)))⟩
  have hraw0 : 0 < raw := by
    obtain ⟨c, c1, c2⟩ := hnn arr.length le_rfl
    rw [hlast, Option.some.injEq] at c1; subst c1
    exact lt_of_le_of_ne c2 (Ne.symm hraw)
  have hc0 : cdf[0]? = some 0 := by rw [hcdf_get, accum_zero]; simp only [Option.map_some, Rounding.div, zero_div]; rw [R.rep_zero]
  have hcn : cdf[arr.length]? = some 1 := by rw [hcdf_get, hlast]; simp only [Option.map_some]; rw [R.div_self hraw]
  have hm1 : 1 ≤ searchsorted cdf u := by
    by_contra hc
    have e : searchsorted cdf u = 0 := by omega
    have := Dist.takeWhile_ge cdf u 0 (by rw [e]; exact hc0)
    linarith
  have hm2 : searchsorted cdf u ≤ arr.length := by
    by_contra hc
    obtain ⟨x, hx, hlt⟩ := Dist.takeWhile_lt cdf u arr.length (by omega)
    rw [hcn, Option.some.injEq] at hx
    subst hx; exact absurd hlt (not_lt.2 h1)
  obtain ⟨k, hk⟩ : ∃ k, searchsorted cdf u = k + 1 := ⟨_, (Nat.sub_add_cancel hm1).symm⟩
  have hkl : k < arr.length := by omega
  have hoff : (dist R arr).off u = k := by
    simp only [D1.off, ← hrawdef, if_neg hraw, ← hcdf, hk]; push_cast; omega
  obtain ⟨c, s1, s2, s3⟩ := accum_step R (arr.length : K) 0 R.rep_zero arr k hkl
  have hk0 : cdf[k]? = some (R.div c raw) := by rw [hcdf_get, s1]; rfl
  have hk1 : cdf[k + 1]? = some (R.div (R.add c (R.div arr[k] arr.length)) raw) := by rw [hcdf_get, s3]; rfl
  have hlt : R.div c raw < u := by
    obtain ⟨x, hx, hlt⟩ := Dist.takeWhile_lt cdf u k (by omega)
    rw [hk0, Option.some.injEq] at hx; rwa [hx]
  have hge : u ≤ R.div (R.add c (R.div arr[k] arr.length)) raw := Dist.takeWhile_ge cdf u _ (by rw [hk]; exact hk1)
  generalize hC0 : R.div c raw = c0 at *
  generalize hC1 : R.div (R.add c (R.div arr[k] arr.length)) raw = c1 at *
  have hrep0 : R.Rep c0 := hC0 ▸ R.rep_rnd _
  have hrep1 : R.Rep c1 := hC1 ▸ R.rep_rnd _
  have hpos : 0 < arr[k] := by
    refine lt_of_le_of_ne (harr _ (List.getElem_mem _)) (fun h => ?_)
    have : R.add c (R.div arr[k] arr.length) = c := by
      rw [← h, Rounding.div, zero_div, R.rep_zero, Rounding.add, add_zero, s2]
    rw [this, hC0] at hC1
    rw [hC1] at hlt
    exact absurd hge (not_le.2 hlt)
  have hd : 0 < R.sub' c1 c0 := R.sub_pos hrep0 hrep1 (hlt.trans_le hge)
  have hn0 : (0 : K) < arr.length := by exact_mod_cast (by omega : 0 < arr.length)
  have hdu0 : 0 ≤ R.div (R.sub' u c0) (R.sub' c1 c0) := R.div_nonneg (R.rnd_nonneg (by linarith)) hd.le
  have hdu1 : R.div (R.sub' u c0) (R.sub' c1 c0) ≤ 1 := R.div_le_one (R.rnd_nonneg (by linarith)) (R.mono (by linarith))
  generalize hdu : R.div (R.sub' u c0) (R.sub' c1 c0) = du at *
  have x1 : R.rnd (k / arr.length) ≤ R.div (R.add du k) arr.length := R.mono (div_le_div_of_nonneg_right (R.le_rnd (R.rep_nat k (by omega)) (by linarith)) hn0.le)
  have x2 : R.div (R.add du k) arr.length ≤ R.rnd ((k + 1) / arr.length) := by
    refine R.mono (div_le_div_of_nonneg_right ?_ hn0.le)
    have hrep := R.rep_nat (k + 1) (by omega)
    push_cast at hrep
    exact R.rnd_le hrep (by linarith)
  have hfunc : Dist.get (dist R arr).func k = .ok arr[k] := by
    have : (dist R arr).func[k]? = some arr[k] := List.getElem?_eq_getElem hkl
    rw [Dist.get, this]
  have hcnt : (dist R arr).cnt = arr.length := rfl
  refine ⟨k, hkl, R.div (R.add du k) arr.length, ?_, hpos, R.div_nonneg hpos.le hraw0.le, x1, x2, (R.rnd_nonneg (by positivity)).trans x1, x2.trans (R.rnd_le R.rep_one ?_), fun hne => ?_⟩
  · have g0 : Dist.get cdf k = .ok c0 := by rw [Dist.get, hk0]
    have g1 : Dist.get cdf (k + 1) = .ok c1 := by rw [Dist.get, hk1]
    simp only [sampleCont, hoff, ← hcdf, g0, g1, ← hrawdef, hfunc, if_neg hraw, qdiv, hcnt, if_neg hd.ne', hdu, if_neg hn0.ne', bind, Except.bind, pure, Except.pure]
  · rw [_root_.div_le_one hn0]; exact_mod_cast hkl
  · simp only [sampleDis, hoff, hfunc, ← hrawdef, hcnt, qdiv, if_neg hne, bind, Except.bind, pure, Except.pure]

end

/-! ### What rounding breaks -/

/-- the binary64 operations on given arguments -/
theorem add_eq (x y z : ℚ) (h : x + y = z) (hz : IsDouble z) : (ieee : Rounding ℚ).add x y = z := by rw [Rounding.add, h]; exact double_of_isDouble hz
theorem sub_eq (x y z : ℚ) (h : x - y = z) (hz : IsDouble z) : (ieee : Rounding ℚ).sub' x y = z := by rw [Rounding.sub', h]; exact double_of_isDouble hz
theorem div_eq (x y z : ℚ) (h : x / y = z) (hz : IsDouble z) : (ieee : Rounding ℚ).div x y = z := by rw [Rounding.div, h]; exact double_of_isDouble hz

theorem isDouble_nat (n : ℕ) (h : n ≤ 2 ^ 53) : IsDouble (n : ℚ) := ⟨n, 0, by rw [Nat.abs_cast]; exact_mod_cast h, by norm_num, by simp⟩

/-- **C174 is violated** in the strict sense: two stratified samples from the draws `0` and `1 - 2^-53` (the largest number below 1 that `np.random.rand` gives): the second one is 1, outside the half-open unit interval and its stratum. -/
theorem C174_upper_end_false : IsDouble (1 - 2 ^ (-53 : ℤ) : ℚ) ∧ strat (ieee : Rounding ℚ) 2 [0, 1 - 2 ^ (-53 : ℤ)] = [0, 1] := by
  refine ⟨⟨2 ^ 53 - 1, -53, by norm_num, by norm_num, by norm_num⟩, ?_⟩
  have h1 : (ieee : Rounding ℚ).add 0 0 = 0 := add_eq 0 0 0 (by norm_num) (by simpa using isDouble_nat 0 (by norm_num))
  have h2 : (ieee : Rounding ℚ).div 0 2 = 0 := div_eq 0 2 0 (by norm_num) (by simpa using isDouble_nat 0 (by norm_num))
  have h3 : (ieee : Rounding ℚ).add 1 (1 - 2 ^ (-53 : ℤ)) = 2 := by
    show double _ = _
    rw [double_eq (2 ^ 53) (-52) (by norm_num) (Or.inr ⟨by norm_num [abs_of_nonpos], by decide⟩) (by norm_num) (by norm_num)]; norm_num
  have h4 : (ieee : Rounding ℚ).div 2 2 = 1 := div_eq 2 2 1 (by norm_num) (by simpa using isDouble_nat 1 (by norm_num))
  generalize (1 - 2 ^ (-53 : ℤ) : ℚ) = v at *
  simp [strat, List.range_succ, h1, h2, h3, h4]

/-- **C174 is violated** for tiny densities: their squares underflow, and the weight is NaN although both densities are positive -/
theorem C174_power_false : IsDouble (2 ^ (-600 : ℤ) : ℚ) ∧ power (ieee : Rounding ℚ) 1 (2 ^ (-600 : ℤ)) 1 (2 ^ (-600 : ℤ)) = none := by
  have hd : IsDouble (2 ^ (-600 : ℤ) : ℚ) := ⟨1, -600, by norm_num, by norm_num, by simp⟩
  refine ⟨hd, ?_⟩
  have h1 : (ieee : Rounding ℚ).mul 1 (2 ^ (-600 : ℤ)) = 2 ^ (-600 : ℤ) := by
    rw [Rounding.mul, one_mul]; exact double_of_isDouble hd
  have h2 : (ieee : Rounding ℚ).mul (2 ^ (-600 : ℤ)) (2 ^ (-600 : ℤ)) = 0 := by
    apply double_tiny
    rw [← zpow_add₀ two_ne_zero, abs_of_pos (two_zpow_pos _)]
    exact zpow_lt_zpow_right₀ one_lt_two (by norm_num)
  have h3 : (ieee : Rounding ℚ).add 0 0 = 0 := add_eq 0 0 0 (by norm_num) (by simpa using isDouble_nat 0 (by norm_num))
  simp only [power, Nat.cast_one, h1, h2, h3, if_true]

/-- 22 rows of one column, all empty but the row 15 -/
def brightRow : List (List ℚ) := List.replicate 15 [0] ++ [[1]] ++ List.replicate 6 [0]

/-- **C174 is violated** in two dimensions: the row is computed from the sampled point, `15 / 22 * 22` is rounded to less than 15, and the sample is taken from the empty row 14: the result is NaN.
(The draw `2^-53` is one that `np.random.rand` gives.) -/
theorem C174_row_false : IsDouble (2 ^ (-53 : ℤ) : ℚ) ∧ sampleCont2 (ieee : Rounding ℚ) (dist2 ieee brightRow) (1 / 2) (2 ^ (-53 : ℤ)) = .error .nonfinite := by
  refine ⟨⟨1, -53, by norm_num, by norm_num, by simp⟩, ?_⟩
  have z0 : IsDouble (0 : ℚ) := by simpa using isDouble_nat 0 (by norm_num)
  have z1 : IsDouble (1 : ℚ) := by simpa using isDouble_nat 1 (by norm_num)
  have z53 : IsDouble (2 ^ (-53 : ℤ) : ℚ) := ⟨1, -53, by norm_num, by norm_num, by simp⟩
  obtain ⟨q, hq⟩ : ∃ q, (ieee : Rounding ℚ).div 1 22 = q := ⟨_, rfl⟩
  have hqd : IsDouble q := hq ▸ isDouble_double _
  have hq0 : q ≠ 0 := by
    rw [← hq]
    show double _ ≠ _
    rw [double_eq 6550690367084358 (-57) (by norm_num) (Or.inl (by rw [abs_lt]; norm_num)) (by norm_num) (by norm_num)]; norm_num
  have a0 : (ieee : Rounding ℚ).add 0 0 = 0 := add_eq 0 0 0 (by norm_num) z0
  have a1 : (ieee : Rounding ℚ).add 0 1 = 1 := add_eq 0 1 1 (by norm_num) z1
  have a2 : (ieee : Rounding ℚ).add 0 q = q := add_eq 0 q q (by simp) hqd
  have a3 : (ieee : Rounding ℚ).add q 0 = q := add_eq q 0 q (by simp) hqd
  have d0 : (ieee : Rounding ℚ).div 0 1 = 0 := div_eq 0 1 0 (by norm_num) z0
  have d1 : (ieee : Rounding ℚ).div 1 1 = 1 := div_eq 1 1 1 (by norm_num) z1
  have d2 : (ieee : Rounding ℚ).div 0 22 = 0 := div_eq 0 22 0 (by norm_num) z0
  have d3 : (ieee : Rounding ℚ).div 0 q = 0 := div_eq 0 q 0 (by simp) z0
  have d4 : (ieee : Rounding ℚ).div q q = 1 := Rounding.div_self _ hq0
  have s0 : (ieee : Rounding ℚ).sub' (2 ^ (-53 : ℤ)) 0 = 2 ^ (-53 : ℤ) := sub_eq _ 0 _ (by simp) z53
  have s1 : (ieee : Rounding ℚ).sub' 1 0 = 1 := sub_eq 1 0 1 (by norm_num) z1
  have d5 : (ieee : Rounding ℚ).div (2 ^ (-53 : ℤ)) 1 = 2 ^ (-53 : ℤ) := div_eq _ 1 _ (by simp) z53
  have a4 : (ieee : Rounding ℚ).add (2 ^ (-53 : ℤ)) 15 = 15 := by
    show double _ = _
    rw [double_eq (15 * 2 ^ 49) (-49) (by norm_num) (Or.inl (by rw [abs_lt]; norm_num)) (by norm_num) (by norm_num)]; norm_num
  obtain ⟨r, hr⟩ : ∃ r, (ieee : Rounding ℚ).div 15 22 = r := ⟨_, rfl⟩
  have hrv : r = 6141272219141585 * 2 ^ (-53 : ℤ) := by
    rw [← hr]
    show double _ = _
    rw [double_eq 6141272219141585 (-53) (by norm_num) (Or.inl (by rw [abs_lt]; norm_num)) (by norm_num) (by norm_num)]; norm_num
  have m0 : (ieee : Rounding ℚ).mul r 22 = 8444249301319679 * 2 ^ (-49 : ℤ) := by
    rw [hrv]
    show double _ = _
    rw [double_eq 8444249301319679 (-49) (by norm_num) (by norm_num [Nearest, abs_lt]) (by norm_num) (by norm_num)]; norm_num
  have hcell : Dist.cell (8444249301319679 * 2 ^ (-49 : ℤ) : ℚ) 22 = 14 := by
    have : ⌊(8444249301319679 * 2 ^ (-49 : ℤ) : ℚ)⌋ = 14 := by rw [Int.floor_eq_iff]; norm_num
    rw [Dist.cell, this]; rfl
  have hraw : (brightRow.map (dist (ieee : Rounding ℚ))).map D1.raw = List.replicate 15 0 ++ [1] ++ List.replicate 6 0 := by
    simp [brightRow, dist, accum, a0, a1, d0, d1]
  have hmarg : (dist2 (ieee : Rounding ℚ) brightRow).marg = ⟨22, List.replicate 15 0 ++ [1] ++ List.replicate 6 0, List.replicate 16 0 ++ List.replicate 7 1, q⟩ := by
    simp only [dist2, hraw]
    simp [dist, accum, List.replicate_succ, a0, a2, a3, d2, d3, d4, hq]
  have hu0 : (0 : ℚ) < 2 ^ (-53 : ℤ) := two_zpow_pos _
  have hu1 : (2 : ℚ) ^ (-53 : ℤ) ≤ 1 := by norm_num
  have hrow : (dist2 (ieee : Rounding ℚ) brightRow).cond[14]? = some (dist ieee [0]) := by simp [dist2, brightRow]
  generalize (2 ^ (-53 : ℤ) : ℚ) = e at *
  have hoff : (dist2 (ieee : Rounding ℚ) brightRow).marg.off e = 15 := by
    rw [hmarg]
    simp [D1.off, hq0, searchsorted, List.replicate_succ, hu0, hu1.not_gt]
  have hs : sampleCont ieee (dist2 (ieee : Rounding ℚ) brightRow).marg e = .ok (r, ieee.div 1 q) := by
    simp only [sampleCont, hoff]
    rw [hmarg]
    simp [Dist.get, List.replicate_succ, hq0, qdiv, s0, s1, d5, a4, hr, bind, Except.bind, pure, Except.pure]
  simp only [sampleCont2, hs, bind, Except.bind]
  rw [show (dist2 (ieee : Rounding ℚ) brightRow).marg.cnt = 22 by rw [hmarg]]
  rw [Nat.cast_ofNat, m0, hcell, Dist.get, hrow]
  have hz : (dist (ieee : Rounding ℚ) [0]).raw = 0 := by simp [dist, accum, a0, d0]
  have hc : (dist (ieee : Rounding ℚ) [0]).cdf = [ieee.div 0 0, ieee.div 0 0] := by simp [dist, accum, a0, d0]
  simp [sampleCont, D1.off, hz, hc, Dist.get, bind, Except.bind]

/-! ### The hypotheses are met -/

/-- four strata in binary64 -/
example : (strat (ieee : Rounding ℚ) 4 [1/2, 0, 3/4, 1/4]).length = 4 ∧ (strat (ieee : Rounding ℚ) 4 [1/2, 0, 3/4, 1/4]).Pairwise (· ≤ ·) := by
  have h := C174_strata_partial (ieee : Rounding ℚ) 4 (by norm_num) [1/2, 0, 3/4, 1/4] rfl (by intro u hu; simp only [List.mem_cons, List.not_mem_nil, or_false] at hu; rcases hu with rfl | rfl | rfl | rfl <;> norm_num)
  exact ⟨h.1, h.2.2⟩

/-- a binary64 weight that is a number and not trivial: the densities 1 and 3 -/
example : balance (ieee : Rounding ℚ) 1 1 1 3 = some (1 / 4) := by
  have m1 : (ieee : Rounding ℚ).mul 1 1 = 1 := by rw [Rounding.mul, one_mul]; exact Rounding.rep_one _
  have m2 : (ieee : Rounding ℚ).mul 1 3 = 3 := by rw [Rounding.mul, one_mul]; exact double_of_isDouble (by simpa using isDouble_nat 3 (by norm_num))
  have a : (ieee : Rounding ℚ).add 1 3 = 4 := add_eq 1 3 4 (by norm_num) (by simpa using isDouble_nat 4 (by norm_num))
  have d : (ieee : Rounding ℚ).div 1 4 = 1 / 4 := div_eq 1 4 _ rfl ⟨1, -2, by norm_num, by norm_num, by norm_num⟩
  norm_num [balance, m1, m2, a, d]

/-- a binary64 distribution whose total is not zero -/
example : ∃ x p, sampleCont (ieee : Rounding ℚ) (dist ieee [1, 3]) (1 / 2) = .ok (x, p) ∧ 0 ≤ x ∧ x ≤ 1 := by
  have d1 : (ieee : Rounding ℚ).div 1 2 = 1 / 2 := div_eq 1 2 _ rfl ⟨1, -1, by norm_num, by norm_num, by norm_num⟩
  have d2 : (ieee : Rounding ℚ).div 3 2 = 3 / 2 := div_eq 3 2 _ rfl ⟨3, -1, by norm_num, by norm_num, by norm_num⟩
  have a1 : (ieee : Rounding ℚ).add 0 (1 / 2) = 1 / 2 := add_eq 0 (1 / 2) _ (by norm_num) ⟨1, -1, by norm_num, by norm_num, by norm_num⟩
  have a2 : (ieee : Rounding ℚ).add (1 / 2) (3 / 2) = 2 := add_eq (1 / 2) (3 / 2) _ (by norm_num) (by simpa using isDouble_nat 2 (by norm_num))
  have hraw : (dist (ieee : Rounding ℚ) [1, 3]).raw = 2 := by
    simp only [dist, accum, List.length_cons, List.length_nil, Nat.cast_ofNat, zero_add, Nat.reduceAdd, d1, d2, a1, a2]; rfl
  obtain ⟨k, hk, x, h1, -, -, -, -, h2, h3, -⟩ := C174_distribution (ieee : Rounding ℚ) [1, 3] (by norm_num) (by intro x hx; simp only [List.mem_cons, List.not_mem_nil, or_false] at hx; rcases hx with rfl | rfl <;> norm_num) (by rw [hraw]; norm_num) (1 / 2) (by norm_num) (by norm_num)
  exact ⟨x, _, h1, h2, h3⟩

end Verif.Rnd
