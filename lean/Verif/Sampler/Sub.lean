import Verif.Sampler.Scan
import Mathlib.Tactic.FieldSimp
import Mathlib.Tactic.Linarith
import Mathlib.Tactic.Ring

/-! # Sub-windows of a sampler: property C25 -/

namespace Verif.Sampler
set_option linter.unusedSectionVars false

/-! ### Specification -/

section
variable {K : Type*} [Field K] [LinearOrder K] [IsStrictOrderedRing K]

/-- the point `(p, q)` is in the half-open window `(xs, xe, ys, ye)` -/
def InWin (w : K × K × K × K) (p q : K) : Prop := w.1 ≤ p ∧ p < w.2.1 ∧ w.2.2.1 ≤ q ∧ q < w.2.2.2

/-! ### Lemmas -/

/-- the tile counts multiply to the number of tasks and are positive -/
theorem tileLoop_spec (dx dy nx ny : ℕ) (hx : 0 < nx) (hy : 0 < ny) :
    (tileLoop dx dy nx ny).1 * (tileLoop dx dy nx ny).2 = nx * ny ∧
    0 < (tileLoop dx dy nx ny).1 ∧ 0 < (tileLoop dx dy nx ny).2 := by
  induction nx using Nat.strong_induction_on generalizing ny with
  | _ nx ih =>
    rw [tileLoop]
    split_ifs with h
    · obtain ⟨a, b, c⟩ := ih (nx / 2) (by omega) (ny * 2) (by omega) (by omega)
      refine ⟨?_, b, c⟩
      rw [a]
      obtain ⟨m, rfl⟩ := Nat.dvd_of_mod_eq_zero h.1
      rw [Nat.mul_div_cancel_left _ (by norm_num)]; ring
    · exact ⟨rfl, hx, hy⟩

/-- the loop stops at a tile count that is odd or at which tiles are no longer twice as tall as wide -/
theorem tileLoop_stop (dx dy nx ny : ℕ) :
    ¬ ((tileLoop dx dy nx ny).1 % 2 = 0 ∧ 2 * dx * (tileLoop dx dy nx ny).2 < dy * (tileLoop dx dy nx ny).1) := by
  induction nx using Nat.strong_induction_on generalizing ny with
  | _ nx ih =>
    rw [tileLoop]
    split_ifs with h
    · rcases Nat.eq_zero_or_pos nx with rfl | hp
      · simp at h
      · exact ih (nx / 2) (by omega) (ny * 2)
    · exact h

theorem frac_mem (n : ℕ) (hn : 0 < n) (k : ℕ) (hk : k ≤ n) : 0 ≤ (k : K) / n ∧ (k : K) / n ≤ 1 := by
  have hn' : (0 : K) < n := by exact_mod_cast hn
  exact ⟨by positivity, by rw [div_le_one hn']; exact_mod_cast hk⟩

theorem clip_id (v lo hi : K) (h1 : lo ≤ v) (h2 : v ≤ hi) : clip v lo hi = v := by
  rw [clip, max_eq_left h1, min_eq_left h2]

/-- windows in closed form when the image window contains `[0, 1]²` -/
theorem subwindow_eq (xs xe ys ye : ℤ) (hx : xs ≤ 0 ∧ 1 ≤ xe) (hy : ys ≤ 0 ∧ 1 ≤ ye) (num cnt : ℕ) (hn : num < cnt) :
    (subwindow xs xe ys ye num cnt : K × K × K × K) =
      (let t := tileLoop (xe - xs).toNat (ye - ys).toNat cnt 1
       ((xs : K) + ((num % t.1 : ℕ) : K) / t.1 * (xe - xs), (xs : K) + ((num % t.1 + 1 : ℕ) : K) / t.1 * (xe - xs),
        (ys : K) + ((num / t.1 : ℕ) : K) / t.2 * (ye - ys), (ys : K) + ((num / t.1 + 1 : ℕ) : K) / t.2 * (ye - ys))) := by
  obtain ⟨h1, h2, h3⟩ := tileLoop_spec (xe - xs).toNat (ye - ys).toNat cnt 1 (by omega) (by omega)
  simp only [subwindow]
  set t := tileLoop (xe - xs).toNat (ye - ys).toNat cnt 1 with ht
  have hmod : num % t.1 < t.1 := Nat.mod_lt _ h2
  have hdiv : num / t.1 < t.2 := Nat.div_lt_of_lt_mul (by omega)
  have cx : ∀ k ≤ t.1, clip ((k : K) / t.1) (xs : K) (xe : K) = (k : K) / t.1 := fun k hk => by
    obtain ⟨a, b⟩ := frac_mem (K := K) t.1 h2 k hk
    exact clip_id _ _ _ (le_trans (by exact_mod_cast hx.1) a) (le_trans b (by exact_mod_cast hx.2))
  have cy : ∀ k ≤ t.2, clip ((k : K) / t.2) (ys : K) (ye : K) = (k : K) / t.2 := fun k hk => by
    obtain ⟨a, b⟩ := frac_mem (K := K) t.2 h3 k hk
    exact clip_id _ _ _ (le_trans (by exact_mod_cast hy.1) a) (le_trans b (by exact_mod_cast hy.2))
  rw [cx _ (by omega), cx _ (by omega), cy _ (by omega), cy _ (by omega)]
  simp only [lerp]
  refine Prod.ext ?_ (Prod.ext ?_ (Prod.ext ?_ ?_)) <;> simp only <;> ring

/-- `[a, a + d)` cut into `n` equal half-open pieces: each point is in exactly one -/
theorem cut_unique (a d p : K) (n : ℕ) (hn : 0 < n) (hd : 0 < d) (h : a ≤ p ∧ p < a + d) :
    ∃ k < n, (a + (k : K) / n * d ≤ p ∧ p < a + ((k + 1 : ℕ) : K) / n * d) ∧
      ∀ j : ℕ, (a + (j : K) / n * d ≤ p ∧ p < a + ((j + 1 : ℕ) : K) / n * d) → j = k := by
  have hn' : (0 : K) < n := by exact_mod_cast hn
  have key : ∀ j : ℕ, (a + (j : K) / n * d ≤ p ↔ (j : K) ≤ (p - a) * n / d) := fun j => by
    rw [le_div_iff₀ hd, ← le_sub_iff_add_le', div_mul_eq_mul_div, div_le_iff₀ hn']
  have ex : ∀ m : ℕ, ∀ t : K, 0 ≤ t → t < m → ∃ k < m, (k : K) ≤ t ∧ t < ((k + 1 : ℕ) : K) := by
    intro m
    induction m with
    | zero => intro t h0 h1; exact absurd h1 (by push_cast; exact not_lt.2 h0)
    | succ m ih =>
      intro t h0 h1
      by_cases ht : t < m
      · obtain ⟨k, a, b⟩ := ih t h0 ht; exact ⟨k, by omega, b⟩
      · exact ⟨m, by omega, not_lt.1 ht, h1⟩
  obtain ⟨k, hk, h1, h2⟩ := ex n ((p - a) * n / d) (by have : 0 ≤ p - a := by linarith [h.1]
                                                       positivity)
    (by rw [div_lt_iff₀ hd, mul_comm]; exact mul_lt_mul_of_pos_left (by linarith [h.2]) hn')
  refine ⟨k, hk, ⟨(key k).2 h1, ?_⟩, ?_⟩
  · rw [← not_le, key (k + 1), not_le]; exact h2
  · rintro j ⟨j1, j2⟩
    rw [key j] at j1
    rw [← not_le, key (j + 1), not_le] at j2
    have a1 : (j : K) < ((k + 1 : ℕ) : K) := lt_of_le_of_lt j1 h2
    have a2 : (k : K) < ((j + 1 : ℕ) : K) := lt_of_le_of_lt h1 j2
    have b1 : j < k + 1 := by exact_mod_cast a1
    have b2 : k < j + 1 := by exact_mod_cast a2
    omega

/-! ### Theorems -/

/-- **C25 (part)** for an image window that contains `[0, 1]²` (as the full, uncropped image does),
and every number of tasks: the task windows lie in the image and each point of the image is in the
window of exactly one task.  Missing from the full property: windows that start at 1 or later
(`C25_offset_window_false`) and windows whose borders are not whole pixels (`C25_indivisible_false`). -/
theorem C25_tiling_partial (xs xe ys ye : ℤ) (hx : xs ≤ 0 ∧ 1 ≤ xe) (hy : ys ≤ 0 ∧ 1 ≤ ye) (cnt : ℕ) (hc : 0 < cnt) :
    (∀ num < cnt, ∀ p q : K, InWin (subwindow xs xe ys ye num cnt) p q → InWin ((xs : K), (xe : K), (ys : K), (ye : K)) p q) ∧
    (∀ p q : K, InWin ((xs : K), (xe : K), (ys : K), (ye : K)) p q →
      ∃! num, num < cnt ∧ InWin (subwindow xs xe ys ye num cnt) p q) := by
  obtain ⟨h1, h2, h3⟩ := tileLoop_spec (xe - xs).toNat (ye - ys).toNat cnt 1 (by omega) (by omega)
  have hdx : (0 : K) < xe - xs := by
    have : (0 : ℤ) < xe - xs := by omega
    exact_mod_cast this
  have hdy : (0 : K) < ye - ys := by
    have : (0 : ℤ) < ye - ys := by omega
    exact_mod_cast this
  constructor
  · intro num hn p q hw
    rw [subwindow_eq xs xe ys ye hx hy num cnt hn] at hw
    set t := tileLoop (xe - xs).toNat (ye - ys).toNat cnt 1 with ht
    have hmod : num % t.1 < t.1 := Nat.mod_lt _ h2
    have hdiv : num / t.1 < t.2 := Nat.div_lt_of_lt_mul (by omega)
    obtain ⟨w1, w2, w3, w4⟩ := hw
    simp only at w1 w2 w3 w4
    have a1 := (frac_mem (K := K) t.1 h2 (num % t.1) (by omega)).1
    have a2 := (frac_mem (K := K) t.1 h2 (num % t.1 + 1) (by omega)).2
    have a3 := (frac_mem (K := K) t.2 h3 (num / t.1) (by omega)).1
    have a4 := (frac_mem (K := K) t.2 h3 (num / t.1 + 1) (by omega)).2
    refine ⟨?_, ?_, ?_, ?_⟩ <;> simp only
    · nlinarith [mul_nonneg a1 hdx.le]
    · nlinarith [mul_le_mul_of_nonneg_right a2 hdx.le]
    · nlinarith [mul_nonneg a3 hdy.le]
    · nlinarith [mul_le_mul_of_nonneg_right a4 hdy.le]
  · rintro p q ⟨p1, p2, q1, q2⟩
    simp only at p1 p2 q1 q2
    set t := tileLoop (xe - xs).toNat (ye - ys).toNat cnt 1 with ht
    obtain ⟨i, hi, hI, uI⟩ := cut_unique (xs : K) (xe - xs) p t.1 h2 hdx ⟨p1, by linarith⟩
    obtain ⟨j, hj, hJ, uJ⟩ := cut_unique (ys : K) (ye - ys) q t.2 h3 hdy ⟨q1, by linarith⟩
    have hnum : j * t.1 + i < cnt := by
      rw [show cnt = t.1 * t.2 by omega]
      calc j * t.1 + i < j * t.1 + t.1 := by omega
        _ = t.1 * (j + 1) := by ring
        _ ≤ t.1 * t.2 := Nat.mul_le_mul_left _ hj
    have e1 : (j * t.1 + i) % t.1 = i := by rw [Nat.add_comm, Nat.add_mul_mod_self_right, Nat.mod_eq_of_lt hi]
    have e2 : (j * t.1 + i) / t.1 = j := by
      rw [Nat.add_comm, Nat.add_mul_div_right _ _ h2, Nat.div_eq_of_lt hi, Nat.zero_add]
    refine ⟨j * t.1 + i, ⟨hnum, ?_⟩, ?_⟩
    · rw [subwindow_eq xs xe ys ye hx hy _ cnt hnum]
      simp only [← ht, e1, e2]
      exact ⟨hI.1, hI.2, hJ.1, hJ.2⟩
    · rintro num ⟨hn, hw⟩
      rw [subwindow_eq xs xe ys ye hx hy num cnt hn] at hw
      obtain ⟨w1, w2, w3, w4⟩ := hw
      have f1 := uI _ ⟨w1, w2⟩
      have f2 := uJ _ ⟨w3, w4⟩
      have := Nat.div_add_mod num t.1
      rw [f1, f2] at this
      rw [← this, Nat.mul_comm]

/-- **C25 (part)** if moreover the tile counts divide the image size, every task gets a window of
whole pixels, so its sampler visits exactly the pixels of its window (`C24_scan`), and by
`C25_tiling_partial` each pixel is rendered by exactly one task. -/
theorem C25_whole_pixels_partial (xs xe ys ye : ℤ) (hx : xs ≤ 0 ∧ 1 ≤ xe) (hy : ys ≤ 0 ∧ 1 ≤ ye) (cnt num : ℕ)
    (hn : num < cnt)
    (hdiv : ((tileLoop (xe - xs).toNat (ye - ys).toNat cnt 1).1 : ℤ) ∣ xe - xs ∧
      ((tileLoop (xe - xs).toNat (ye - ys).toNat cnt 1).2 : ℤ) ∣ ye - ys) (s : Strat K) :
    ∃ (x0 y0 : ℤ) (w h : ℕ), 0 < w ∧ 0 < h ∧
      (subwindow xs xe ys ye num cnt : K × K × K × K) = ((x0 : K), ((x0 + w : ℤ) : K), (y0 : K), ((y0 + h : ℤ) : K)) ∧
      s.sub xs xe ys ye num cnt = some (Strat.mk' (x0 : K) (x0 + w : ℤ) (y0 : K) (y0 + h : ℤ)
        s.xSamples s.ySamples s.jitter s.sOpen s.sClose) := by
  obtain ⟨h1, h2, h3⟩ := tileLoop_spec (xe - xs).toNat (ye - ys).toNat cnt 1 (by omega) (by omega)
  have e := subwindow_eq (K := K) xs xe ys ye hx hy num cnt hn
  revert e
  obtain ⟨⟨a, ha⟩, ⟨b, hb⟩⟩ := hdiv
  revert ha hb h1 h2 h3
  generalize tileLoop (xe - xs).toNat (ye - ys).toNat cnt 1 = t
  intro h1 h2 h3 ha hb e
  have apos : 0 < a := by
    rcases lt_or_ge 0 a with h | h
    · exact h
    · have : (t.1 : ℤ) * a ≤ 0 := mul_nonpos_of_nonneg_of_nonpos (by omega) h
      omega
  have bpos : 0 < b := by
    rcases lt_or_ge 0 b with h | h
    · exact h
    · have : (t.2 : ℤ) * b ≤ 0 := mul_nonpos_of_nonneg_of_nonpos (by omega) h
      omega
  have hw : (subwindow xs xe ys ye num cnt : K × K × K × K) =
      (((xs + (num % t.1 : ℕ) * a : ℤ) : K), ((xs + (num % t.1 : ℕ) * a + a.toNat : ℤ) : K),
       ((ys + (num / t.1 : ℕ) * b : ℤ) : K), ((ys + (num / t.1 : ℕ) * b + b.toNat : ℤ) : K)) := by
    rw [e]
    have k1 : (xe : K) - xs = t.1 * a := by exact_mod_cast congrArg (Int.cast : ℤ → K) ha
    have k2 : (ye : K) - ys = t.2 * b := by exact_mod_cast congrArg (Int.cast : ℤ → K) hb
    have n1 : (t.1 : K) ≠ 0 := by exact_mod_cast h2.ne'
    have n2 : (t.2 : K) ≠ 0 := by exact_mod_cast h3.ne'
    have t1 : ((a.toNat : ℤ) : K) = a := by rw [Int.toNat_of_nonneg apos.le]
    have t2 : ((b.toNat : ℤ) : K) = b := by rw [Int.toNat_of_nonneg bpos.le]
    push_cast at t1 t2
    simp only
    generalize num % t.1 = u
    generalize num / t.1 = v
    refine Prod.ext ?_ (Prod.ext ?_ (Prod.ext ?_ ?_)) <;> simp only [k1, k2] <;> push_cast <;>
      (try simp only [t1, t2]) <;> field_simp <;> ring
  refine ⟨_, _, a.toNat, b.toNat, by omega, by omega, hw, ?_⟩
  simp only [Strat.sub, hw]
  rw [if_neg]
  rintro (h | h)
  · have := Int.cast_injective h; omega
  · have := Int.cast_injective h; omega

/-- **C25 fails for crop windows that start at 1 or later**: for every such window and every number
of tasks, no task gets a sampler, so nothing at all is rendered. -/
theorem C25_offset_window_false (xs xe ys ye : ℤ) (hx : 1 ≤ xs ∧ xs < xe) (cnt num : ℕ) (hn : num < cnt) (s : Strat K) :
    s.sub xs xe ys ye num cnt = none := by
  obtain ⟨h1, h2, h3⟩ := tileLoop_spec (xe - xs).toNat (ye - ys).toNat cnt 1 (by omega) (by omega)
  have hmod : num % (tileLoop (xe - xs).toNat (ye - ys).toNat cnt 1).1 <
    (tileLoop (xe - xs).toNat (ye - ys).toNat cnt 1).1 := Nat.mod_lt _ h2
  unfold Strat.sub
  apply if_pos
  left
  simp only [subwindow]
  set t := tileLoop (xe - xs).toNat (ye - ys).toNat cnt 1 with ht
  have c : ∀ k ≤ t.1, clip ((k : K) / t.1) (xs : K) (xe : K) = xs := fun k hk => by
    obtain ⟨a, b⟩ := frac_mem (K := K) t.1 h2 k hk
    have : (1 : K) ≤ xs := by exact_mod_cast hx.1
    have h' : (xs : K) ≤ xe := by exact_mod_cast hx.2.le
    rw [clip, max_eq_right (by linarith), min_eq_left h']
  rw [c _ (by omega), c _ (by omega)]

/-- **C25 fails when the tile count does not divide the width**: task 0's sampler then has a
fractional right border, and its `generate` never returns `False`: the task never ends. -/
theorem C25_indivisible_false (xs xe ys ye : ℤ) (hx : xs ≤ 0 ∧ 1 ≤ xe) (hy : ys ≤ 0 ∧ 1 ≤ ye) (cnt : ℕ) (hc : 0 < cnt)
    (hdiv : ¬ ((tileLoop (xe - xs).toNat (ye - ys).toNat cnt 1).1 : ℤ) ∣ xe - xs) (s : Strat K) :
    ∃ s0, s.sub xs xe ys ye 0 cnt = some s0 ∧
      ∀ r : Rand K, UnitDraws r → Shuffles r → ∀ (inp : ℕ → List (Sample K)) (st : RS),
        (∀ k, GoodInput s0 (inp k)) → ∀ n : ℕ, ∃ (bs : List (List (Sample K))) (s' : Strat K) (st' : RS),
          scan r inp n s0 st = some (bs, s', st') ∧ s'.xPos = s0.xs + n ∧ s'.yPos = s0.ys := by
  obtain ⟨h1, h2, h3⟩ := tileLoop_spec (xe - xs).toNat (ye - ys).toNat cnt 1 (by omega) (by omega)
  have e := subwindow_eq (K := K) xs xe ys ye hx hy 0 cnt hc
  set t := tileLoop (xe - xs).toNat (ye - ys).toNat cnt 1 with ht
  have hdx : (0 : K) < xe - xs := by
    have : (0 : ℤ) < xe - xs := by omega
    exact_mod_cast this
  have hdy : (0 : K) < ye - ys := by
    have : (0 : ℤ) < ye - ys := by omega
    exact_mod_cast this
  have n1 : (0 : K) < t.1 := by exact_mod_cast h2
  have n2 : (0 : K) < t.2 := by exact_mod_cast h3
  simp only [Nat.zero_mod, Nat.zero_div, Nat.cast_zero, zero_div, zero_mul, add_zero, zero_add, Nat.cast_one] at e
  have g1 : (0 : K) < 1 / t.1 * (xe - xs) := by positivity
  have g2 : (0 : K) < 1 / t.2 * (ye - ys) := by positivity
  refine ⟨_, by
    simp only [Strat.sub, e]
    rw [if_neg]
    rintro (h | h) <;> linarith, ?_⟩
  intro r hr hs inp st hin n
  refine C24_fractional_window_never_stops r hr hs _ ?_ ⟨rfl, rfl⟩ ?_ inp st hin n
  · intro m hm
    have : (m : K) = 1 / t.1 * (xe - xs) := by
      have : (xs : K) + m = xs + 1 / t.1 * (xe - xs) := hm
      linarith
    apply hdiv
    refine ⟨m, ?_⟩
    have h' : ((xe - xs : ℤ) : K) = ((t.1 * m : ℤ) : K) := by
      push_cast; rw [this]; field_simp
    exact Int.cast_injective h'
  · change (ys : K) ≠ ys + 1 / t.2 * (ye - ys)
    intro h; linarith

end

/-- a 4 × 2 image split in two tasks meets the hypotheses of the positive theorems -/
example : ((tileLoop (4 - 0 : ℤ).toNat (2 - 0 : ℤ).toNat 2 1).1 : ℤ) ∣ 4 - 0 ∧
    ((tileLoop (4 - 0 : ℤ).toNat (2 - 0 : ℤ).toNat 2 1).2 : ℤ) ∣ 2 - 0 := by
  have : tileLoop (4 - 0 : ℤ).toNat (2 - 0 : ℤ).toNat 2 1 = (2, 1) := by
    rw [tileLoop]; decide
  rw [this]; decide

/-- a 3 × 3 image split in two tasks meets the hypotheses of `C25_indivisible_false` -/
example : ¬ ((tileLoop (3 - 0 : ℤ).toNat (3 - 0 : ℤ).toNat 2 1).1 : ℤ) ∣ 3 - 0 := by
  have : tileLoop (3 - 0 : ℤ).toNat (3 - 0 : ℤ).toNat 2 1 = (2, 1) := by
    rw [tileLoop]; decide
  rw [this]; decide

end Verif.Sampler
