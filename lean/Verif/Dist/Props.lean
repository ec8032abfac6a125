import Verif.Dist.Model
import Mathlib.Algebra.Order.BigOperators.Group.List
import Mathlib.Tactic.Linarith
import Mathlib.Tactic.Ring
import Mathlib.Tactic.FieldSimp
import Mathlib.Tactic.Positivity
import Mathlib.Data.Rat.Floor

/-! # Distributions: properties C17, C18, C19 -/

namespace Verif.Dist
set_option linter.unusedSectionVars false
variable {K : Type*} [Field K] [LinearOrder K] [IsStrictOrderedRing K]

/-- sum of the first `k` table entries -/
def pre (a : List K) (k : ℕ) : K := (a.take k).sum

omit [LinearOrder K] [IsStrictOrderedRing K] in
theorem pre_succ (a : List K) (k : ℕ) (hk : k < a.length) : pre a (k + 1) = pre a k + a[k] := by
  rw [pre, pre, List.take_add_one, List.getElem?_eq_getElem hk, List.sum_append]; simp

theorem pre_mono (a : List K) (ha : ∀ x ∈ a, 0 ≤ x) {j k : ℕ} (h : j ≤ k) : pre a j ≤ pre a k := by
  obtain ⟨m, rfl⟩ := Nat.exists_eq_add_of_le h
  rw [pre, pre, List.take_add, List.sum_append]
  have : 0 ≤ ((a.drop j).take m).sum :=
    List.sum_nonneg (fun x hx => ha x (List.mem_of_mem_drop (List.mem_of_mem_take hx)))
  linarith

omit [LinearOrder K] [IsStrictOrderedRing K] in
theorem accum_get (n acc : K) (a : List K) (k : ℕ) (hk : k ≤ a.length) : (accum n acc a)[k]? = some (acc + pre a k / n) := by
  induction a generalizing acc k with
  | nil =>
    have : k = 0 := by simpa using hk
    subst this; simp [accum, pre]
  | cons x xs ih =>
    cases k with
    | zero => simp [accum, pre]
    | succ k =>
      rw [accum, List.getElem?_cons_succ, ih _ k (by simpa using hk)]
      simp only [pre, List.take_succ_cons, List.sum_cons]; congr 1; ring

omit [LinearOrder K] [IsStrictOrderedRing K] in
theorem accum_length (n acc : K) (a : List K) : (accum n acc a).length = a.length + 1 := by
  induction a generalizing acc with
  | nil => rfl
  | cons x xs ih => simp [accum, ih]

theorem raw_eq (a : List K) : (D1.mk' a).raw = a.sum / (a.length : K) := by
  have h : (D1.mk' a).raw = (accum (a.length : K) 0 a).getLastD 0 := rfl
  rw [h, List.getLastD_eq_getLast?, List.getLast?_eq_getElem?, accum_length, Nat.add_sub_cancel, accum_get _ _ _ _ le_rfl]
  simp [pre]

theorem len_pos {a : List K} (hs : 0 < a.sum) : 0 < a.length := by
  cases a with
  | nil => simp at hs
  | cons => simp

theorem cdf_get (a : List K) (hs : 0 < a.sum) (k : ℕ) (hk : k ≤ a.length) : (D1.mk' a).cdf[k]? = some (pre a k / a.sum) := by
  have h : (D1.mk' a).cdf = (accum (a.length : K) 0 a).map (· / (D1.mk' a).raw) := rfl
  rw [h, List.getElem?_map, accum_get _ _ _ _ hk, raw_eq]
  have : (a.length : K) ≠ 0 := by exact_mod_cast (len_pos hs).ne'
  simp only [Option.map_some, zero_add]; congr 1; field_simp

theorem cdf_length (a : List K) : (D1.mk' a).cdf.length = a.length + 1 := by
  simp [D1.mk', accum_length]

theorem takeWhile_lt (l : List K) (u : K) (i : ℕ) (hi : i < searchsorted l u) : ∃ x, l[i]? = some x ∧ x < u := by
  induction l generalizing i with
  | nil => simp [searchsorted] at hi
  | cons x xs ih =>
    by_cases hx : x < u
    · cases i with
      | zero => exact ⟨x, rfl, hx⟩
      | succ i =>
        have : i < searchsorted xs u := by simpa [searchsorted, hx] using hi
        simpa using ih i this
    · simp [searchsorted, hx] at hi

theorem takeWhile_ge (l : List K) (u : K) (x : K) (h : l[searchsorted l u]? = some x) : u ≤ x := by
  induction l with
  | nil => simp at h
  | cons y ys ih =>
    by_cases hy : y < u
    · have e : searchsorted (y :: ys) u = searchsorted ys u + 1 := by simp [searchsorted, hy]
      rw [e, List.getElem?_cons_succ] at h; exact ih h
    · have e : searchsorted (y :: ys) u = 0 := by simp [searchsorted, hy]
      rw [e] at h; simp at h; subst h; exact not_lt.1 hy

theorem searchsorted_le (l : List K) (u : K) : searchsorted l u ≤ l.length := by
  unfold searchsorted; exact (List.takeWhile_prefix _).length_le

theorem raw_pos {a : List K} (hs : 0 < a.sum) : 0 < (D1.mk' a).raw := by
  rw [raw_eq]; exact div_pos hs (by exact_mod_cast len_pos hs)

/-- the cell found for `0 < u ≤ 1` -/
theorem off_spec (a : List K) (hs : 0 < a.sum) (u : K) (h0 : 0 < u) (h1 : u ≤ 1) :
    (D1.mk' a).off u < a.length ∧ pre a ((D1.mk' a).off u) / a.sum < u ∧ u ≤ pre a ((D1.mk' a).off u + 1) / a.sum := by
  have hm1 : 1 ≤ searchsorted (D1.mk' a).cdf u := by
    by_contra hc
    have e : searchsorted (D1.mk' a).cdf u = 0 := by omega
    have := takeWhile_ge (D1.mk' a).cdf u 0 (by rw [e, cdf_get a hs 0 (Nat.zero_le _)]; simp [pre])
    linarith
  have hm2 : searchsorted (D1.mk' a).cdf u ≤ a.length := by
    by_contra hc
    obtain ⟨x, hx, hlt⟩ := takeWhile_lt (D1.mk' a).cdf u a.length (by omega)
    rw [cdf_get a hs _ le_rfl, Option.some.injEq] at hx
    have : pre a a.length / a.sum = 1 := by rw [pre, List.take_length, div_self hs.ne']
    rw [this] at hx; subst hx; exact absurd hlt (not_lt.2 h1)
  have e : (D1.mk' a).off u = searchsorted (D1.mk' a).cdf u - 1 := by
    simp only [D1.off, if_neg (raw_pos hs).ne']; omega
  rw [e]
  refine ⟨by omega, ?_, ?_⟩
  · obtain ⟨x, hx, hlt⟩ := takeWhile_lt (D1.mk' a).cdf u (searchsorted (D1.mk' a).cdf u - 1) (by omega)
    rw [cdf_get a hs _ (by omega), Option.some.injEq] at hx
    rw [hx]; exact hlt
  · rw [Nat.sub_add_cancel hm1]
    exact takeWhile_ge (D1.mk' a).cdf u _ (cdf_get a hs _ hm2)

theorem off_pos (a : List K) (hs : 0 < a.sum) (u : K) (h0 : 0 < u) (h1 : u ≤ 1) (k : ℕ) (hk : k = (D1.mk' a).off u) (hl : k < a.length) :
    0 < a[k] := by
  obtain ⟨-, h2, h3⟩ := off_spec a hs u h0 h1
  rw [← hk] at h2 h3
  rw [pre_succ a k hl] at h3
  have := lt_of_lt_of_le h2 h3
  rw [div_lt_div_iff_of_pos_right hs] at this
  linarith

/-- the value of `sample_cont`, with the chosen cell -/
theorem sampleCont_eq (a : List K) (hs : 0 < a.sum) (u : K) (h0 : 0 < u) (h1 : u ≤ 1) (k : ℕ) (hk : k = (D1.mk' a).off u)
    (hl : k < a.length) : (D1.mk' a).sampleCont u =
      .ok (((u - pre a k / a.sum) / (a[k] / a.sum) + (k : K)) / (a.length : K), a[k] / (a.sum / (a.length : K))) := by
  have hp := off_pos a hs u h0 h1 k hk hl
  have hn : (a.length : K) ≠ 0 := by exact_mod_cast (len_pos hs).ne'
  have e1 : get (D1.mk' a).cdf k = .ok (pre a k / a.sum) := by rw [get, cdf_get a hs k hl.le]
  have e2 : get (D1.mk' a).cdf (k + 1) = .ok (pre a (k + 1) / a.sum) := by rw [get, cdf_get a hs (k + 1) hl]
  have e3 : get (D1.mk' a).func k = .ok a[k] := by
    have : (D1.mk' a).func = a := rfl
    rw [get, this, List.getElem?_eq_getElem hl]
  have e4 : pre a (k + 1) / a.sum - pre a k / a.sum = a[k] / a.sum := by rw [pre_succ a k hl]; ring
  have e5 : (D1.mk' a).cnt = a.length := rfl
  have hd : a[k] / a.sum ≠ 0 := (div_pos hp hs).ne'
  simp only [D1.sampleCont, ← hk, e1, e2, e3, bind, Except.bind, if_neg (raw_pos hs).ne', e4, fdiv, if_neg hd, e5, if_neg hn, raw_eq,
    if_neg (div_pos hs (show (0:K) < a.length by exact_mod_cast len_pos hs)).ne', pure, Except.pure]

/-- **C17** for a non-negative table with positive sum and a canonical sample `u` in `(0, 1]`,
`sample_cont(u)` gives a position `x` inside a cell `k` of positive weight at which the normalised running
integral of the table is exactly `u`, and the table's density there (the value over the mean). -/
theorem C17_sample_cont (a : List K) (hs : 0 < a.sum) (u : K) (h0 : 0 < u) (h1 : u ≤ 1) :
    ∃ (x p : K) (k : ℕ) (hk : k < a.length), (D1.mk' a).sampleCont u = .ok (x, p) ∧ 0 < a[k] ∧
      (k : K) / a.length < x ∧ x ≤ ((k : K) + 1) / a.length ∧
      ((a.take k).sum + (x * a.length - k) * a[k]) / a.sum = u ∧ p = a[k] / (a.sum / a.length) := by
  obtain ⟨hl, h2, h3⟩ := off_spec a hs u h0 h1
  have hn : (0 : K) < a.length := by exact_mod_cast len_pos hs
  have hp := off_pos a hs u h0 h1 _ rfl hl
  refine ⟨_, _, _, hl, sampleCont_eq a hs u h0 h1 _ rfl hl, hp, ?_, ?_, ?_, rfl⟩
  all_goals rw [pre_succ _ _ hl] at h3; generalize (D1.mk' a).off u = k at *
  · rw [div_lt_div_iff_of_pos_right hn]
    have : 0 < (u - pre a k / a.sum) / (a[k] / a.sum) := div_pos (by linarith) (div_pos hp hs)
    linarith
  · rw [div_le_div_iff_of_pos_right hn]
    have : (u - pre a k / a.sum) / (a[k] / a.sum) ≤ 1 := by
      rw [div_le_one (div_pos hp hs)]
      rw [add_div] at h3; linarith
    linarith
  · have e : (((u - pre a k / a.sum) / (a[k] / a.sum) + (k : K)) / (a.length : K) * a.length - k) = (u - pre a k / a.sum) / (a[k] / a.sum) := by
      rw [div_mul_cancel₀ _ hn.ne']; ring
    rw [e, show (List.take k a).sum = pre a k from rfl]
    have := hs.ne'; have := hp.ne'
    field_simp; ring

/-- **C17** the sampled position is monotone in `u`. -/
theorem C17_monotone (a : List K) (ha : ∀ x ∈ a, 0 ≤ x) (hs : 0 < a.sum) (u v : K) (h0 : 0 < u) (huv : u ≤ v) (h1 : v ≤ 1)
    (x y p q : K) (hx : (D1.mk' a).sampleCont u = .ok (x, p)) (hy : (D1.mk' a).sampleCont v = .ok (y, q)) : x ≤ y := by
  obtain ⟨x', p', k, hk, e1, k1, k2, k3, k4, -⟩ := C17_sample_cont a hs u h0 (huv.trans h1)
  obtain ⟨y', q', j, hj, e2, j1, j2, j3, j4, -⟩ := C17_sample_cont a hs v (h0.trans_le huv) h1
  rw [hx] at e1; rw [hy] at e2
  injection e1 with e1; injection e2 with e2
  obtain ⟨rfl, -⟩ := Prod.mk.inj e1
  obtain ⟨rfl, -⟩ := Prod.mk.inj e2
  have hn : (0 : K) < a.length := by exact_mod_cast len_pos hs
  rw [← k4, ← j4, div_le_div_iff_of_pos_right hs] at huv
  change pre a k + _ ≤ pre a j + _ at huv
  rw [div_lt_iff₀ hn] at k2 j2
  rw [le_div_iff₀ hn] at k3 j3
  refine le_of_mul_le_mul_right ?_ hn
  rcases lt_trichotomy k j with h | h | h
  · have : (k : K) + 1 ≤ j := by exact_mod_cast h
    linarith
  · subst h
    have : (x * a.length - k) * a[k] ≤ (y * a.length - k) * a[k] := by linarith
    have := le_of_mul_le_mul_right this k1
    linarith
  · exfalso
    have m := pre_mono a ha (show j + 1 ≤ k from h)
    rw [pre_succ a j hj] at m
    have a1 : (y * a.length - j) * a[j] ≤ 1 * a[j] := mul_le_mul_of_nonneg_right (by linarith) j1.le
    have a2 : 0 < (x * a.length - k) * a[k] := mul_pos (by linarith) k1
    linarith

omit [LinearOrder K] [IsStrictOrderedRing K] in
theorem sum_map_div (a : List K) (c : K) : (a.map (fun v => v / c)).sum = a.sum / c := by
  induction a with
  | nil => simp
  | cons x xs ih => simp [ih, add_div]

/-- **C17** the reported density integrates to one: `n` cells of width `1/n`. -/
theorem C17_density_integrates_to_one (a : List K) (hs : 0 < a.sum) :
    (a.map (fun v => v / (a.sum / a.length) * (1 / (a.length : K)))).sum = 1 := by
  have hn : (0 : K) < a.length := by exact_mod_cast len_pos hs
  have : (fun v => v / (a.sum / a.length) * (1 / (a.length : K))) = fun v => v / a.sum := by
    funext v
    have := hs.ne'; have := hn.ne'
    field_simp
  rw [this, sum_map_div, div_self hs.ne']

/-- **C17** a canonical sample of exactly 0 is fine if the first cell has weight, and gives NaN otherwise. -/
theorem C17_zero (x : K) (xs : List K) (hs : 0 < (x :: xs).sum) :
    (D1.mk' (x :: xs)).sampleCont 0 =
      if x = 0 then .error .nonfinite else .ok (0, x / ((x :: xs).sum / ((x :: xs).length : K))) := by
  generalize ha : x :: xs = a at hs
  have hl : 0 < a.length := by rw [← ha]; simp
  have hx : a[0] = x := by subst ha; rfl
  have hn : (a.length : K) ≠ 0 := by exact_mod_cast (len_pos hs).ne'
  have ho : (D1.mk' a).off 0 = 0 := by
    have e : searchsorted (D1.mk' a).cdf 0 = 0 := by
      by_contra hc
      obtain ⟨y, hy, hlt⟩ := takeWhile_lt (D1.mk' a).cdf 0 0 (by omega)
      rw [cdf_get a hs 0 (Nat.zero_le _)] at hy
      simp [pre] at hy; subst hy; exact lt_irrefl _ hlt
    simp only [D1.off, e]; split <;> decide +kernel
  have e1 : get (D1.mk' a).cdf 0 = .ok 0 := by rw [get, cdf_get a hs 0 hl.le]; simp [pre]
  have e2 : get (D1.mk' a).cdf (0 + 1) = .ok (x / a.sum) := by
    rw [get, cdf_get a hs (0 + 1) hl, pre_succ a 0 hl, hx]; simp [pre]
  have e3 : get (D1.mk' a).func 0 = .ok x := by
    have : (D1.mk' a).func = a := rfl
    rw [get, this, List.getElem?_eq_getElem hl, hx]
  have e5 : (D1.mk' a).cnt = a.length := rfl
  simp only [D1.sampleCont, ho, e1, e2, e3, bind, Except.bind, if_neg (raw_pos hs).ne', fdiv, sub_zero, e5, if_neg hn, raw_eq,
    if_neg (div_pos hs (show (0:K) < a.length by exact_mod_cast len_pos hs)).ne', pure, Except.pure]
  by_cases h : x = 0
  · simp [h]
  · rw [if_neg (div_ne_zero h hs.ne'), if_neg h]; simp

/-! ### Discrete sampling -/

theorem sampleDis_eq (a : List K) (hs : 0 < a.sum) (u : K) (h0 : 0 < u) (h1 : u ≤ 1) (k : ℕ) (hk : k = (D1.mk' a).off u)
    (hl : k < a.length) : (D1.mk' a).sampleDis u = .ok (k, a[k] / a.sum) := by
  have hn : (a.length : K) ≠ 0 := by exact_mod_cast (len_pos hs).ne'
  have e3 : get (D1.mk' a).func k = .ok a[k] := by
    have : (D1.mk' a).func = a := rfl
    rw [get, this, List.getElem?_eq_getElem hl]
  have e5 : (D1.mk' a).cnt = a.length := rfl
  simp only [D1.sampleDis, ← hk, e3, bind, Except.bind, fdiv, e5, raw_eq, div_mul_cancel₀ _ hn, if_neg hs.ne', pure, Except.pure]

/-- **C18** `sample_dis(u)`: an in-range index of positive weight, reported with its share of the total. -/
theorem C18_sample_dis (a : List K) (hs : 0 < a.sum) (u : K) (h0 : 0 < u) (h1 : u ≤ 1) :
    ∃ (k : ℕ) (hk : k < a.length), (D1.mk' a).sampleDis u = .ok (k, a[k] / a.sum) ∧ 0 < a[k] := by
  obtain ⟨hl, -, -⟩ := off_spec a hs u h0 h1
  exact ⟨_, hl, sampleDis_eq a hs u h0 h1 _ rfl hl, off_pos a hs u h0 h1 _ rfl hl⟩

/-- **C18** index `k` is selected exactly for `u` in the interval from the share of the entries before it to
the share of the entries up to it, an interval whose length is the reported probability. -/
theorem C18_interval (a : List K) (ha : ∀ x ∈ a, 0 ≤ x) (hs : 0 < a.sum) (u : K) (h0 : 0 < u) (h1 : u ≤ 1) (k : ℕ) (hk : k < a.length) :
    ((∃ p, (D1.mk' a).sampleDis u = .ok (k, p)) ↔ (a.take k).sum / a.sum < u ∧ u ≤ (a.take (k + 1)).sum / a.sum) ∧
    (a.take (k + 1)).sum / a.sum - (a.take k).sum / a.sum = a[k] / a.sum := by
  obtain ⟨hl, h2, h3⟩ := off_spec a hs u h0 h1
  have e := sampleDis_eq a hs u h0 h1 _ rfl hl
  refine ⟨⟨?_, ?_⟩, ?_⟩
  · rintro ⟨p, hp⟩
    rw [e] at hp; injection hp with hp
    obtain ⟨rfl, -⟩ := Prod.mk.inj hp
    exact ⟨h2, h3⟩
  · rintro ⟨g2, g3⟩
    change pre a k / a.sum < u at g2
    change u ≤ pre a (k + 1) / a.sum at g3
    have : (D1.mk' a).off u = k := by
      rcases lt_trichotomy ((D1.mk' a).off u) k with h | h | h
      · have := pre_mono a ha (show (D1.mk' a).off u + 1 ≤ k from h)
        have := div_le_div_of_nonneg_right this hs.le
        linarith
      · exact h
      · have := pre_mono a ha (show k + 1 ≤ (D1.mk' a).off u from h)
        have := div_le_div_of_nonneg_right this hs.le
        linarith
    exact ⟨_, sampleDis_eq a hs u h0 h1 k this.symm hk⟩
  · change pre a (k + 1) / a.sum - pre a k / a.sum = _
    rw [pre_succ a k hk]; ring

/-- **C18** the probabilities sum to one. -/
theorem C18_total (a : List K) (hs : 0 < a.sum) : (a.map (fun v => v / a.sum)).sum = 1 := by
  rw [sum_map_div, div_self hs.ne']

/-- a table with zero cells at both ends -/
example : (∀ x ∈ [(0 : ℚ), 3, 0, 1, 0], 0 ≤ x) ∧ 0 < [(0 : ℚ), 3, 0, 1, 0].sum ∧
    (D1.mk' [(0 : ℚ), 3, 0, 1, 0]).sampleCont (3 / 8) = .ok (3 / 10, 15 / 4) ∧
    (D1.mk' [(0 : ℚ), 3, 0, 1, 0]).sampleDis (7 / 8) = .ok (3, 1 / 4) := by
  refine ⟨by decide +kernel, by decide +kernel, ?_, ?_⟩ <;> decide +kernel

/-! ### Two dimensions -/
section two
variable [FloorRing K]

/-- the position in the unit interval that stands for a sample's second coordinate when the row index
is mapped back to the middle of its row -/
def rowMid (nv v : ℕ) : K := ((v : K) + 1 / 2) / nv

theorem cell_of_mem (x : K) (k n : ℕ) (hk : k < n) (h0 : (k : K) ≤ x) (h1 : x < (k : K) + 1) : cell x n = k := by
  have : ⌊x⌋ = (k : ℤ) := by rw [Int.floor_eq_iff]; exact ⟨by exact_mod_cast h0, by exact_mod_cast h1⟩
  simp only [cell, this]; omega

/-- total weight of a table of rows of equal length -/
def total (rows : List (List K)) : K := (rows.map List.sum).sum

theorem marg_func (rows : List (List K)) (nu : ℕ) (hu : ∀ r ∈ rows, r.length = nu) :
    (D2.mk' rows).marg = D1.mk' (rows.map (fun r => r.sum / (nu : K))) := by
  simp only [D2.mk', List.map_map]
  congr 1
  apply List.map_congr_left
  intro r hr
  simp [raw_eq, hu r hr]

theorem marg_sum (rows : List (List K)) (nu : ℕ) : (rows.map (fun r => r.sum / (nu : K))).sum = total rows / nu := by
  have : rows.map (fun r => r.sum / (nu : K)) = (rows.map List.sum).map (· / (nu : K)) := by simp
  rw [this, sum_map_div, total]

theorem cell_closed (x : K) (n : ℕ) (hn : 0 < n) (h0 : 0 ≤ x) (h1 : x ≤ 1) : cell (x * n) n < n ∧ (cell (x * n) n : K) / n ≤ x ∧ x ≤ ((cell (x * n) n : K) + 1) / n := by
  have hn' : (0 : K) < n := by exact_mod_cast hn
  have hf0 : (0 : ℤ) ≤ ⌊x * n⌋ := Int.floor_nonneg.2 (by positivity)
  obtain ⟨k, hk⟩ : ∃ k : ℕ, ⌊x * n⌋ = k := ⟨_, (Int.toNat_of_nonneg hf0).symm⟩
  have hlo : (k : K) ≤ x * n := by
    have := Int.floor_le (x * (n : K)); rw [hk] at this; exact_mod_cast this
  have hhi : x * n < (k : K) + 1 := by
    have := Int.lt_floor_add_one (x * (n : K)); rw [hk] at this; exact_mod_cast this
  have hc : cell (x * n) n = min k (n - 1) := by
    simp only [cell, hk]; omega
  rw [hc]
  rcases le_total k (n - 1) with h | h
  · rw [min_eq_left h]
    exact ⟨by omega, by rw [div_le_iff₀ hn']; exact hlo, by rw [le_div_iff₀ hn']; exact hhi.le⟩
  · rw [min_eq_right h]
    have e : ((n - 1 : ℕ) : K) = n - 1 := by rw [Nat.cast_sub (by omega)]; simp
    refine ⟨by omega, ?_, ?_⟩
    · rw [div_le_iff₀ hn']
      have : ((n - 1 : ℕ) : K) ≤ k := by exact_mod_cast h
      exact this.trans hlo
    · rw [e, sub_add_cancel, div_self hn'.ne']; exact h1

/-- **C19 (part)** `pdf` never fails on the closed unit square: for a table of non-negative entries with positive total and every `u`, `v` in `[0,1]`, both ends included, it is the entry
of a cell that contains the point, over the mean of the table -/
theorem C19_pdf_partial (rows : List (List K)) (nu : ℕ) (hu : ∀ r ∈ rows, r.length = nu) (hn : ∀ r ∈ rows, ∀ x ∈ r, 0 ≤ x) (hs : 0 < total rows)
    (u v : K) (h0 : 0 ≤ u) (h0' : u ≤ 1) (h1 : 0 ≤ v) (h1' : v ≤ 1) :
    ∃ (j k : ℕ) (hj : j < rows.length) (hk : k < rows[j].length), (D2.mk' rows).pdf u v = .ok (rows[j][k] / (total rows / (rows.length * nu))) ∧
      (k : K) / nu ≤ u ∧ u ≤ ((k : K) + 1) / nu ∧ (j : K) / rows.length ≤ v ∧ v ≤ ((j : K) + 1) / rows.length := by
  have hnv : 0 < rows.length := by
    cases rows with
    | nil => simp [total] at hs
    | cons => simp
  have hnu : 0 < nu := by
    rcases Nat.eq_zero_or_pos nu with h | h
    · exfalso
      have : total rows = 0 := by
        unfold total
        apply List.sum_eq_zero
        intro x hx
        rw [List.mem_map] at hx
        obtain ⟨r, hr, rfl⟩ := hx
        have := hu r hr
        rw [h] at this
        rw [List.length_eq_zero_iff.1 this]; rfl
      linarith
    · exact h
  obtain ⟨j1, j2, j3⟩ := cell_closed v rows.length hnv h1 h1'
  obtain ⟨k1, k2, k3⟩ := cell_closed u nu hnu h0 h0'
  generalize hj : cell (v * (rows.length : K)) rows.length = j at *
  generalize hk : cell (u * (nu : K)) nu = k at *
  have hrow : rows[j].length = nu := hu _ (List.getElem_mem _)
  refine ⟨j, k, j1, by rw [hrow]; exact k1, ?_, k2, k3, j2, j3⟩
  have hmc : (D2.mk' rows).marg.cnt = rows.length := by simp [D2.mk', D1.mk']
  have hg0 : get (D2.mk' rows).cond 0 = .ok (D1.mk' rows[0]) := by simp [get, D2.mk', hnv]
  have hgj : get (D2.mk' rows).cond j = .ok (D1.mk' rows[j]) := by simp [get, D2.mk', j1]
  have hc0 : (D1.mk' rows[0]).cnt = nu := by simp only [D1.mk']; exact hu _ (List.getElem_mem _)
  have hnK : (nu : K) ≠ 0 := by exact_mod_cast hnu.ne'
  have hlK : (rows.length : K) ≠ 0 := by exact_mod_cast hnv.ne'
  have hmr : (D2.mk' rows).marg.raw = total rows / (rows.length * nu) := by
    rw [marg_func rows nu hu, raw_eq, marg_sum, List.length_map]
    field_simp
  have hraw : (D1.mk' rows[j]).raw = rows[j].sum / nu := by rw [raw_eq, hrow]
  have hm0 : total rows / (rows.length * (nu : K)) ≠ 0 := div_ne_zero hs.ne' (mul_ne_zero hlK hnK)
  simp only [D2.pdf, hg0, hmc, bind, Except.bind, hc0, hj, hk, hgj]
  by_cases hz : (D1.mk' rows[j]).raw * (D2.mk' rows).marg.raw = 0
  · rw [if_pos hz]
    have hr0 : rows[j].sum = 0 := by
      rw [hmr, hraw] at hz
      rcases mul_eq_zero.1 hz with h | h
      · exact (div_eq_zero_iff.1 h).resolve_right hnK
      · exact absurd h hm0
    have hnn : ∀ x ∈ rows[j], 0 ≤ x := hn _ (List.getElem_mem _)
    have e0 : rows[j][k]'(by rw [hrow]; exact k1) = 0 := by
      have hle : rows[j][k]'(by rw [hrow]; exact k1) ≤ rows[j].sum := List.single_le_sum hnn _ (List.getElem_mem _)
      exact le_antisymm (hr0 ▸ hle) (hnn _ (List.getElem_mem _))
    rw [e0, zero_div]; rfl
  · rw [if_neg hz]
    have hgf : get (D1.mk' rows[j]).func k = .ok (rows[j][k]'(by rw [hrow]; exact k1)) := by
      simp [get, D1.mk', hrow, k1]
    have hgm : get (D2.mk' rows).marg.func j = .ok (D1.mk' rows[j]).raw := by
      simp [get, D2.mk', D1.mk', j1]
    simp only [hgf, hgm, fdiv, if_neg hz]
    congr 1
    rw [hmr] at hz ⊢
    have hr : (D1.mk' rows[j]).raw ≠ 0 := left_ne_zero_of_mul hz
    rw [mul_comm, mul_div_mul_left _ _ hr]

/-- **C19 (part)** for a table of `nv` rows of `nu` entries with positive total, and canonical
samples that are not exactly on a step of the cumulative tables, `sample_cont` gives a column position in
`[0,1]`, a row index in range and positive weight, and the density that `pdf` reports at that column position and
anywhere within that row; the density is the entry over the mean of the table.  Missing: the second
coordinate is the row index and not a position in `[0,1]` (`C19_row_index_false`), and on the steps the
density may be that of the neighbouring cell (`C19_step_false`). -/
theorem C19_density_partial (rows : List (List K)) (nu : ℕ) (hu : ∀ r ∈ rows, r.length = nu)
    (hs : 0 < total rows) (u0 u1 : K) (h0 : 0 < u0) (h0' : u0 ≤ 1) (h1 : 0 < u1) (h1' : u1 ≤ 1)
    (hb1 : ∀ k, u1 ≠ ((rows.map List.sum).take k).sum / total rows)
    (hb0 : ∀ r ∈ rows, ∀ k, u0 ≠ (r.take k).sum / r.sum) :
    ∃ (u pdf : K) (v k : ℕ) (hv : v < rows.length) (hk : k < rows[v].length),
      (D2.mk' rows).sampleCont u0 u1 = .ok ((u, v), pdf) ∧ 0 < rows[v][k] ∧
      (k : K) / nu ≤ u ∧ u < ((k : K) + 1) / nu ∧
      pdf = rows[v][k] / (total rows / (rows.length * nu)) ∧
      ∀ y : K, (v : K) / rows.length ≤ y → y < ((v : K) + 1) / rows.length → (D2.mk' rows).pdf u y = .ok pdf := by
  have hnv : 0 < rows.length := by
    cases rows with
    | nil => simp [total] at hs
    | cons => simp
  have hnu : 0 < nu := by
    rcases Nat.eq_zero_or_pos nu with h | h
    · exfalso
      have : total rows = 0 := by
        rw [total]
        apply List.sum_eq_zero
        intro x hx
        obtain ⟨r, hr, rfl⟩ := List.mem_map.1 hx
        have : r = [] := List.length_eq_zero_iff.1 (by rw [hu r hr, h])
        rw [this]; rfl
      linarith
    · exact h
  have hnu' : (0 : K) < nu := by exact_mod_cast hnu
  have hnv' : (0 : K) < rows.length := by exact_mod_cast hnv
  generalize hm : rows.map (fun r => r.sum / (nu : K)) = m
  have hms : m.sum = total rows / nu := by rw [← hm]; exact marg_sum rows nu
  have hmp : 0 < m.sum := by rw [hms]; exact div_pos hs hnu'
  have hml : m.length = rows.length := by rw [← hm]; simp
  obtain ⟨x, p1, v, hv, e1, v1, v2, v3, v4, v5⟩ := C17_sample_cont m hmp u1 h1 h1'
  have hv' : v < rows.length := by omega
  have hmv : m[v] = rows[v].sum / nu := by subst hm; simp
  have hrow : rows[v] ∈ rows := List.getElem_mem hv'
  have hrs : 0 < rows[v].sum := by
    rw [hmv] at v1; by_contra hc
    have := div_nonpos_of_nonpos_of_nonneg (not_lt.1 hc) hnu'.le
    linarith
  have hrl : rows[v].length = nu := hu _ hrow
  rw [hml] at v2 v3 v4 v5
  -- strictly inside the row
  have v3' : x < ((v : K) + 1) / rows.length := by
    refine lt_of_le_of_ne v3 (fun h => hb1 (v + 1) ?_)
    rw [h, div_mul_cancel₀ _ hnv'.ne', add_sub_cancel_left, one_mul] at v4
    rw [← v4, hms]
    have e : ((rows.map List.sum).take (v + 1)).sum / nu = (List.take v (rows.map (fun r => r.sum / (nu : K)))).sum + rows[v].sum / nu := by
      have a1 := pre_succ (rows.map List.sum) v (by simpa using hv')
      have a2 : (List.take v (rows.map (fun r => r.sum / (nu : K)))).sum = pre (rows.map List.sum) v / nu := by
        rw [show rows.map (fun r => r.sum / (nu : K)) = (rows.map List.sum).map (fun v => v / (nu : K)) by simp, ← List.map_take,
          sum_map_div, pre]
      change pre (rows.map List.sum) (v + 1) / nu = _
      rw [a1, a2, add_div]; simp
    have e' : (rows.map (fun r => r.sum / (nu : K)))[v]'(by simpa using hv') = rows[v].sum / nu := by simp
    subst hm
    rw [e', ← e]
    field_simp
  have hc1 : cell (x * ((D2.mk' rows).marg.cnt : K)) (D2.mk' rows).marg.cnt = v := by
    have : (D2.mk' rows).marg.cnt = rows.length := by simp [D2.mk', D1.mk']
    rw [this]
    apply cell_of_mem _ _ _ hv'
    · rw [div_lt_iff₀ hnv'] at v2; exact v2.le
    · rw [lt_div_iff₀ hnv'] at v3'; exact v3'
  obtain ⟨u, p0, k, hk, e2, k1, k2, k3, k4, k5⟩ := C17_sample_cont rows[v] hrs u0 h0 h0'
  rw [hrl] at k2 k3 k4 k5
  have k3' : u < ((k : K) + 1) / nu := by
    refine lt_of_le_of_ne k3 (fun h => hb0 _ hrow (k + 1) ?_)
    rw [h, div_mul_cancel₀ _ hnu'.ne', add_sub_cancel_left, one_mul] at k4
    rw [← k4]
    change _ = pre _ (k + 1) / _
    rw [pre_succ _ k hk]; rfl
  have hget : get (D2.mk' rows).cond v = .ok (D1.mk' rows[v]) := by
    simp [get, D2.mk', List.getElem?_eq_getElem hv']
  have hpdf : p0 * p1 = rows[v][k] / (total rows / (rows.length * nu)) := by
    rw [k5, v5, hms, hmv]
    have := hrs.ne'; have := hs.ne'; have := hnu'.ne'; have := hnv'.ne'
    field_simp
  have hsc : (D2.mk' rows).sampleCont u0 u1 = .ok ((u, v), p0 * p1) := by
    rw [← hm] at e1
    rw [← marg_func rows nu hu] at e1
    simp only [D2.sampleCont, e1, bind, Except.bind, hc1, hget, e2, pure, Except.pure]
  refine ⟨u, p0 * p1, v, k, hv', hk, hsc, k1, k2.le, k3', hpdf, ?_⟩
  intro y y0 y1
  have hc2 : cell (y * ((D2.mk' rows).marg.cnt : K)) (D2.mk' rows).marg.cnt = v := by
    have : (D2.mk' rows).marg.cnt = rows.length := by simp [D2.mk', D1.mk']
    rw [this]
    apply cell_of_mem _ _ _ hv'
    · rwa [div_le_iff₀ hnv'] at y0
    · rwa [lt_div_iff₀ hnv'] at y1
  have hr0 : get (D2.mk' rows).cond 0 = .ok (D1.mk' rows[0]) := by
    simp [get, D2.mk', List.getElem?_eq_getElem hnv]
  have hcnt : (D1.mk' rows[0]).cnt = nu := hu _ (List.getElem_mem hnv)
  have hc3 : cell (u * (nu : K)) nu = k := by
    apply cell_of_mem _ _ _ (by omega)
    · rw [div_lt_iff₀ hnu'] at k2; exact k2.le
    · rwa [lt_div_iff₀ hnu'] at k3'
  have hraw : (D1.mk' rows[v]).raw = rows[v].sum / nu := by rw [raw_eq, hrl]
  have hmraw : (D2.mk' rows).marg.raw = total rows / nu / rows.length := by
    rw [marg_func rows nu hu, raw_eq, hm, hms, hml]
  have hf : get (D1.mk' rows[v]).func k = .ok rows[v][k] := by
    have : (D1.mk' rows[v]).func = rows[v] := rfl
    rw [get, this, List.getElem?_eq_getElem hk]
  have hmf : get (D2.mk' rows).marg.func v = .ok (rows[v].sum / nu) := by
    rw [marg_func rows nu hu, hm]
    have : (D1.mk' m).func = m := rfl
    rw [get, this, List.getElem?_eq_getElem hv, hmv]
  have hne : rows[v].sum / (nu : K) * (total rows / nu / rows.length) ≠ 0 :=
    (mul_pos (div_pos hrs hnu') (div_pos (div_pos hs hnu') hnv')).ne'
  simp only [D2.pdf, hr0, bind, Except.bind, hcnt, hc3, hc2, hget, hraw, hmraw, if_neg hne, hf, hmf, fdiv]
  congr 1
  rw [hpdf]
  have := hrs.ne'; have := hs.ne'; have := hnu'.ne'; have := hnv'.ne'
  field_simp

end two

/-- a 2 × 2 table and samples meeting the hypotheses of `C19_density_partial` -/
example : (∀ r ∈ [[(1 : ℚ), 0], [1, 2]], r.length = 2 ∧ ∀ x ∈ r, 0 ≤ x) ∧ 0 < total [[(1 : ℚ), 0], [1, 2]] ∧
    (∀ k, (1 / 2 : ℚ) ≠ (([[(1 : ℚ), 0], [1, 2]].map List.sum).take k).sum / total [[(1 : ℚ), 0], [1, 2]]) ∧
    (∀ r ∈ [[(1 : ℚ), 0], [1, 2]], ∀ k, (1 / 2 : ℚ) ≠ (r.take k).sum / r.sum) ∧
    (D2.mk' [[(1 : ℚ), 0], [1, 2]]).sampleCont (1 / 2) (1 / 2) = .ok ((5 / 8, 1), 2) := by
  refine ⟨by decide +kernel, by decide +kernel, ?_, ?_, by decide +kernel⟩
  · intro k
    rcases k with _ | _ | k <;> norm_num [total]
  · intro r hr k
    simp only [List.mem_cons, List.not_mem_nil, or_false] at hr
    rcases hr with rfl | rfl <;> rcases k with _ | _ | k <;> norm_num

/-- **C19 is false of the code**: the second coordinate is the row index; with three rows of equal weight it is 2
for a sample in the last row, outside the unit square. -/
theorem C19_row_index_false :
    ¬ ∀ (rows : List (List ℚ)) (nu : ℕ), (∀ r ∈ rows, r.length = nu) → (∀ r ∈ rows, ∀ x ∈ r, 0 < x) → rows ≠ [] → 0 < nu →
      ∀ u0 u1 : ℚ, 0 < u0 → u0 < 1 → 0 < u1 → u1 < 1 → ∀ (u : ℚ) (v : ℕ) (pdf : ℚ), (D2.mk' rows).sampleCont u0 u1 = .ok ((u, v), pdf) →
        0 ≤ (v : ℚ) ∧ (v : ℚ) ≤ 1 := by
  intro h
  have e : (D2.mk' [[(1 : ℚ)], [1], [1]]).sampleCont (1 / 2) (5 / 6) = .ok ((1 / 2, 2), 1) := by decide +kernel
  have := (h [[1], [1], [1]] 1 (by decide) (by decide +kernel) (by decide) (by decide) (1 / 2) (5 / 6) (by norm_num) (by norm_num) (by norm_num)
    (by norm_num) _ _ _ e).2
  norm_num at this

/-- **C19 is false of the code** on the steps of the cumulative tables, even with the row index mapped back to the
unit interval: for the one-row table `[1, 3]` and `u0 = 1/4` the reported density is 1/2 at position 1/2, where
`pdf` is 3/2. -/
theorem C19_step_false :
    ¬ ∀ (rows : List (List ℚ)) (nu : ℕ), (∀ r ∈ rows, r.length = nu) → (∀ r ∈ rows, ∀ x ∈ r, 0 < x) → rows ≠ [] → 0 < nu →
      ∀ u0 u1 : ℚ, 0 < u0 → u0 < 1 → 0 < u1 → u1 < 1 → ∀ (u : ℚ) (v : ℕ) (pdf : ℚ), (D2.mk' rows).sampleCont u0 u1 = .ok ((u, v), pdf) →
        (D2.mk' rows).pdf u (rowMid rows.length v) = .ok pdf := by
  intro h
  have e : (D2.mk' [[(1 : ℚ), 3]]).sampleCont (1 / 4) (1 / 2) = .ok ((1 / 2, 0), 1 / 2) := by decide +kernel
  have e2 : (D2.mk' [[(1 : ℚ), 3]]).pdf (1 / 2) (rowMid 1 0) = .ok (3 / 2) := by decide +kernel
  have := h [[1, 3]] 2 (by decide) (by decide +kernel) (by decide) (by decide) (1 / 4) (1 / 2) (by norm_num) (by norm_num) (by norm_num)
    (by norm_num) _ _ _ e
  rw [show List.length [[(1 : ℚ), 3]] = 1 from rfl, e2] at this
  injection this with this
  norm_num at this

end Verif.Dist
