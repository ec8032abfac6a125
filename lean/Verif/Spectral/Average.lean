import Verif.Dist.Props
import Mathlib.MeasureTheory.Integral.IntervalIntegral.Basic
import Mathlib.MeasureTheory.Integral.IntervalIntegral.FundThmCalculus
import Mathlib.Analysis.SpecialFunctions.Integrals.Basic
import Mathlib.Tactic.LinearCombination
import Mathlib.Tactic.FieldSimp
import Mathlib.Tactic.NormNum

/-!
# Averaging sampled spectra (C58)

Models `SampledSpectrum.average_spectrum_samples` (`pytracer/spectral/spectrum.py` 429-493) over the real numbers: the two arrays are lists that the function
changes in place and puts back.  Not modelled: rounding, integer arrays (numpy would truncate what is stored in them).
-/
namespace Verif.Spectral

/-- `l[i]` (the theorem `C58_indices` shows that the indices used are in range) -/
def rd (l : List ℝ) (i : ℕ) : ℝ := l.getD i 0

/-- `util.lerp` (`utility/utility.py` 89-91) -/
def lerp (t a b : ℝ) : ℝ := (1 - t) * a + t * b

/-- `np.trapz(v[lo:hi], lam[lo:hi])` (spectrum.py 485) -/
noncomputable def trapz (lam v : List ℝ) (lo hi : ℕ) : ℝ :=
  ∑ k ∈ Finset.Ico lo (hi - 1), (rd lam (k + 1) - rd lam k) * (rd v k + rd v (k + 1)) / 2

/-- the variables after spectrum.py 463-471: index, saved values, arrays -/
structure LoOut where
  i : ℕ
  bkLam : ℝ
  bkV : ℝ
  lam : List ℝ
  v : List ℝ

/-- spectrum.py 460, 463-471 -/
noncomputable def loStep (lam v : List ℝ) (ls : ℝ) : LoOut :=
  let lo : ℤ := (Dist.searchsorted lam ls : ℤ) - 1
  if 0 ≤ lo then
    let i := lo.toNat
    ⟨i, rd lam i, rd v i, lam.set i ls, v.set i (lerp ((ls - rd lam i) / (rd lam (i + 1) - rd lam i)) (rd v i) (rd v (i + 1)))⟩
  else ⟨0, rd lam 0, rd v 0, lam, v⟩

open Classical in
/-- spectrum.py 473-482, with `hi` from line 461 -/
noncomputable def hiStep (lam v : List ℝ) (hi : ℕ) (le : ℝ) : LoOut :=
  if hi < lam.length ∧ rd lam hi ≠ le then
    ⟨hi + 1, rd lam hi, rd v hi, lam.set hi le, v.set hi (lerp ((rd lam hi - le) / (rd lam hi - rd lam (hi - 1))) (rd v hi) (rd v (hi - 1)))⟩
  else ⟨lam.length, rd lam (lam.length - 1), rd v (v.length - 1), lam, v⟩

open Classical in
/-- `average_spectrum_samples` (spectrum.py 443-493): the returned value and the two arrays after the call -/
noncomputable def average (lam v : List ℝ) (ls le : ℝ) : ℝ × List ℝ × List ℝ :=
  let n := lam.length
  if le ≤ rd lam 0 then (rd v 0, lam, v)
  else if ls ≥ rd lam (n - 1) then (rd v (v.length - 1), lam, v)
  else if n = 1 then (rd v 0, lam, v)
  else
    let s0 := if ls < rd lam 0 then rd v 0 * (rd lam 0 - ls) else 0
    let s1 := s0 + if le > rd lam (n - 1) then rd v (v.length - 1) * (le - rd lam (n - 1)) else 0
    let hi := Dist.searchsorted lam le
    let a := loStep lam v ls
    let b := hiStep a.lam a.v hi le
    let s2 := s1 + trapz b.lam b.v a.i b.i
    (s2 / (le - ls), ((b.lam.set a.i a.bkLam).set (b.i - 1) b.bkLam), ((b.v.set a.i a.bkV).set (b.i - 1) b.bkV))

/-! ### Specification -/

/-- `f` is the spectrum described by the table: linear between neighbouring wavelengths, constant outside -/
structure Interp (lam v : List ℝ) (f : ℝ → ℝ) : Prop where
  below : ∀ t, t ≤ rd lam 0 → f t = rd v 0
  above : ∀ t, rd lam (lam.length - 1) ≤ t → f t = rd v (lam.length - 1)
  cell : ∀ i, i + 1 < lam.length → ∀ t, rd lam i ≤ t → t ≤ rd lam (i + 1) →
    f t = rd v i + (rd v (i + 1) - rd v i) * ((t - rd lam i) / (rd lam (i + 1) - rd lam i))

/-- a table: as many values as wavelengths, at least one, wavelengths strictly increasing -/
structure Table (lam v : List ℝ) : Prop where
  pos : 0 < lam.length
  len : v.length = lam.length
  incr : ∀ i, i + 1 < lam.length → rd lam i < rd lam (i + 1)

/-! ### Proofs -/

theorem rd_set (l : List ℝ) (i k : ℕ) (a : ℝ) (hi : i < l.length) : rd (l.set i a) k = if k = i then a else rd l k := by
  unfold rd
  simp only [List.getD_eq_getElem?_getD, List.getElem?_set]
  by_cases h : i = k
  · subst h; simp [hi]
  · have h' : ¬ k = i := fun e => h e.symm
    simp [h, h']

theorem Table.lt {lam v : List ℝ} (h : Table lam v) {i j : ℕ} (hij : i < j) (hj : j < lam.length) : rd lam i < rd lam j := by
  induction j with
  | zero => omega
  | succ j ih =>
    rcases Nat.lt_succ_iff_lt_or_eq.1 hij with h' | rfl
    · exact (ih h' (by omega)).trans (h.incr j hj)
    · exact h.incr i hj

theorem Table.le {lam v : List ℝ} (h : Table lam v) {i j : ℕ} (hij : i ≤ j) (hj : j < lam.length) : rd lam i ≤ rd lam j := by
  rcases Nat.lt_or_eq_of_le hij with h' | rfl
  · exact (h.lt h' hj).le
  · exact le_refl _

theorem ss_lt (l : List ℝ) (u : ℝ) (i : ℕ) (h : i < Dist.searchsorted l u) : rd l i < u := by
  obtain ⟨x, hx, hlt⟩ := Dist.takeWhile_lt l u i h
  simp [rd, List.getD_eq_getElem?_getD, hx, hlt]

theorem ss_ge (l : List ℝ) (u : ℝ) (h : Dist.searchsorted l u < l.length) : u ≤ rd l (Dist.searchsorted l u) := by
  have := Dist.takeWhile_ge l u l[Dist.searchsorted l u] (List.getElem?_eq_getElem h)
  simpa [rd, List.getD_eq_getElem?_getD, h] using this

/-- the trapezoidal rule is exact for a function that is linear between the nodes -/
theorem trapz_exact (f : ℝ → ℝ) (z w : ℕ → ℝ) (i m : ℕ) (him : i ≤ m)
    (hz : ∀ k, i ≤ k → k < m → z k ≤ z (k + 1))
    (hl : ∀ k, i ≤ k → k < m → ∃ a b, ∀ t, z k ≤ t → t ≤ z (k + 1) → f t = a + b * t)
    (hw : ∀ k, i ≤ k → k ≤ m → w k = f (z k)) :
    IntervalIntegrable f MeasureTheory.volume (z i) (z m) ∧
    ∑ k ∈ Finset.Ico i m, (z (k + 1) - z k) * (w k + w (k + 1)) / 2 = ∫ t in z i..z m, f t := by
  have piece : ∀ k, i ≤ k → k < m → IntervalIntegrable f MeasureTheory.volume (z k) (z (k + 1)) ∧
      (z (k + 1) - z k) * (w k + w (k + 1)) / 2 = ∫ t in z k..z (k + 1), f t := by
    intro k h1 h2
    obtain ⟨a, b, hab⟩ := hl k h1 h2
    have hle := hz k h1 h2
    have hc : IntervalIntegrable (fun t => a + b * t) MeasureTheory.volume (z k) (z (k + 1)) :=
      Continuous.intervalIntegrable (by fun_prop) _ _
    constructor
    · refine hc.congr ?_
      rw [Set.uIoc_of_le hle]
      exact fun t ht => (hab t ht.1.le ht.2).symm
    · have e : ∫ t in z k..z (k + 1), f t = ∫ t in z k..z (k + 1), (a + b * t) := by
        apply intervalIntegral.integral_congr
        rw [Set.uIcc_of_le hle]
        exact fun t ht => hab t ht.1 ht.2
      rw [e, intervalIntegral.integral_add (Continuous.intervalIntegrable (by fun_prop) _ _) (Continuous.intervalIntegrable (by fun_prop) _ _),
        intervalIntegral.integral_const, intervalIntegral.integral_const_mul, integral_id, smul_eq_mul,
        hw k h1 h2.le, hw (k + 1) (by omega) h2, hab _ le_rfl hle, hab _ hle le_rfl]
      ring
  induction m, him using Nat.le_induction with
  | base => simp
  | succ m him ih =>
    obtain ⟨h1, h2⟩ := ih (fun k a b => hz k a (by omega)) (fun k a b => hl k a (by omega)) (fun k a b => hw k a (by omega))
      (fun k a b => piece k a (by omega))
    obtain ⟨p1, p2⟩ := piece m him (by omega)
    refine ⟨h1.trans p1, ?_⟩
    rw [Finset.sum_Ico_succ_top him, h2, p2, intervalIntegral.integral_add_adjacent_intervals h1 p1]

/-- an affine form of a table cell -/
theorem Interp.affine {lam v : List ℝ} {f : ℝ → ℝ} (hf : Interp lam v f) {i : ℕ} (hi : i + 1 < lam.length) :
    ∃ a b, ∀ t, rd lam i ≤ t → t ≤ rd lam (i + 1) → f t = a + b * t := by
  refine ⟨rd v i - (rd v (i + 1) - rd v i) * rd lam i / (rd lam (i + 1) - rd lam i), (rd v (i + 1) - rd v i) / (rd lam (i + 1) - rd lam i), ?_⟩
  intro t h1 h2
  rw [hf.cell i hi t h1 h2]
  ring

theorem Interp.knot {lam v : List ℝ} {f : ℝ → ℝ} (ht : Table lam v) (hf : Interp lam v f) {i : ℕ} (hi : i < lam.length) : f (rd lam i) = rd v i := by
  by_cases h : i + 1 < lam.length
  · rw [hf.cell i h _ le_rfl (ht.incr i h).le, sub_self, zero_div, mul_zero, add_zero]
  · have : i = lam.length - 1 := by omega
    subst this
    exact hf.above _ le_rfl

/-- facts about the situation in which the loop body runs -/
structure Main (lam v : List ℝ) (ls le : ℝ) : Prop where
  tab : Table lam v
  lt : ls < le
  two : 2 ≤ lam.length
  hi0 : rd lam 0 < le
  lon : ls < rd lam (lam.length - 1)

/-- what the first step establishes -/
structure LoSpec (lam v : List ℝ) (ls : ℝ) (f : ℝ → ℝ) (o : LoOut) : Prop where
  idx : o.i + 1 < lam.length
  len1 : o.lam.length = lam.length
  len2 : o.v.length = v.length
  at_i : rd o.lam o.i = max ls (rd lam 0)
  lo : rd lam o.i ≤ rd o.lam o.i
  hi : rd o.lam o.i ≤ rd lam (o.i + 1)
  val : rd o.v o.i = f (rd o.lam o.i)
  other1 : ∀ k, k ≠ o.i → rd o.lam k = rd lam k
  other2 : ∀ k, k ≠ o.i → rd o.v k = rd v k
  bk1 : o.bkLam = rd lam o.i
  bk2 : o.bkV = rd v o.i

theorem loStep_spec {lam v : List ℝ} {ls le : ℝ} (h : Main lam v ls le) {f : ℝ → ℝ} (hf : Interp lam v f) :
    LoSpec lam v ls f (loStep lam v ls) := by
  have hss := Dist.searchsorted_le lam ls
  by_cases h0 : Dist.searchsorted lam ls = 0
  · have e : loStep lam v ls = ⟨0, rd lam 0, rd v 0, lam, v⟩ := by
      simp only [loStep, h0]; norm_num
    have hle : ls ≤ rd lam 0 := by
      have := ss_ge lam ls (by rw [h0]; exact h.tab.pos)
      rwa [h0] at this
    rw [e]
    exact ⟨by have := h.two; simp only; omega, rfl, rfl, by simp [hle], le_rfl, (h.tab.incr 0 (by have := h.two; omega)).le, (hf.knot h.tab h.tab.pos).symm,
      fun _ _ => rfl, fun _ _ => rfl, rfl, rfl⟩
  · set k := Dist.searchsorted lam ls with hk
    have hlt : rd lam (k - 1) < ls := ss_lt lam ls (k - 1) (by omega)
    have hkn : k < lam.length := by
      by_contra hc
      have hkk : k = lam.length := by omega
      rw [hkk] at hlt
      exact absurd (hlt.trans h.lon) (lt_irrefl _)
    have hge : ls ≤ rd lam k := ss_ge lam ls hkn
    have hi : k - 1 < lam.length := by omega
    have hiv : k - 1 < v.length := by rw [h.tab.len]; exact hi
    have hk1 : k - 1 + 1 = k := by omega
    have e : loStep lam v ls = ⟨k - 1, rd lam (k - 1), rd v (k - 1), lam.set (k - 1) ls,
        v.set (k - 1) (lerp ((ls - rd lam (k - 1)) / (rd lam (k - 1 + 1) - rd lam (k - 1))) (rd v (k - 1)) (rd v (k - 1 + 1)))⟩ := by
      simp only [loStep, ← hk]
      have h1 : (0:ℤ) ≤ (k:ℤ) - 1 := by omega
      have h2 : ((k:ℤ) - 1).toNat = k - 1 := by omega
      simp only [h1, if_true, h2]
    rw [e]
    have hat : rd (lam.set (k - 1) ls) (k - 1) = ls := by rw [rd_set _ _ _ _ hi]; simp
    have hmax : max ls (rd lam 0) = ls := max_eq_left ((h.tab.le (Nat.zero_le _) hi).trans hlt.le)
    refine ⟨by show k - 1 + 1 < _; omega, by simp, by simp, ?_, ?_, ?_, ?_, ?_, ?_, rfl, rfl⟩
    · show rd (lam.set (k - 1) ls) (k - 1) = _
      rw [hat, hmax]
    · show _ ≤ rd (lam.set (k - 1) ls) (k - 1)
      rw [hat]; exact hlt.le
    · show rd (lam.set (k - 1) ls) (k - 1) ≤ rd lam (k - 1 + 1)
      rw [hat, hk1]; exact hge
    · show rd (v.set (k - 1) _) (k - 1) = f (rd (lam.set (k - 1) ls) (k - 1))
      rw [hat, rd_set _ _ _ _ hiv, if_pos rfl, hf.cell (k - 1) (by omega) ls hlt.le (by rw [hk1]; exact hge)]
      unfold lerp; ring
    · intro j hj
      show rd (lam.set (k - 1) ls) j = _
      rw [rd_set _ _ _ _ hi, if_neg hj]
    · intro j hj
      show rd (v.set (k - 1) _) j = _
      rw [rd_set _ _ _ _ hiv, if_neg hj]

/-- the end of the interval is a wavelength of the table other than the first and the last -/
def InteriorKnot (lam : List ℝ) (le : ℝ) : Prop := ∃ k, 0 < k ∧ k + 1 < lam.length ∧ rd lam k = le

/-- what the second step establishes; `m` is the index of the last node -/
structure HiSpec (lam v : List ℝ) (le : ℝ) (f : ℝ → ℝ) (a b : LoOut) (m : ℕ) : Prop where
  bi : b.i = m + 1
  im : a.i < m
  mn : m < lam.length
  len1 : b.lam.length = lam.length
  len2 : b.v.length = v.length
  at_m : rd b.lam m = min le (rd lam (lam.length - 1))
  lo : rd lam (m - 1) ≤ rd b.lam m
  hi : rd b.lam m ≤ rd lam m
  val : rd b.v m = f (rd b.lam m)
  other1 : ∀ k, k ≠ m → rd b.lam k = rd a.lam k
  other2 : ∀ k, k ≠ m → rd b.v k = rd a.v k
  bk1 : b.bkLam = rd lam m
  bk2 : b.bkV = rd v m

theorem hiStep_spec {lam v : List ℝ} {ls le : ℝ} (h : Main lam v ls le) {f : ℝ → ℝ} (hf : Interp lam v f) {a : LoOut} (ha : LoSpec lam v ls f a)
    (hk : ¬ InteriorKnot lam le) : ∃ m, HiSpec lam v le f a (hiStep a.lam a.v (Dist.searchsorted lam le) le) m := by
  set hi := Dist.searchsorted lam le with hhi
  have hle : hi ≤ lam.length := Dist.searchsorted_le lam le
  have h1 : 1 ≤ hi := by
    by_contra hc
    have e : hi = 0 := by omega
    have := ss_ge lam le (by rw [← hhi, e]; exact h.tab.pos)
    rw [← hhi, e] at this
    exact absurd (h.hi0.trans_le this) (lt_irrefl _)
  have hlt : rd lam (hi - 1) < le := ss_lt lam le (hi - 1) (by omega)
  have hlast : rd lam (lam.length - 1) ≤ rd lam (lam.length - 1) := le_rfl
  -- the low index is before `hi`
  have hai : a.i < hi := by
    by_contra hc
    have hc' : hi ≤ a.i := by omega
    have hin : hi < lam.length := by have := ha.idx; omega
    have g1 : le ≤ rd lam hi := ss_ge lam le hin
    have g2 : rd lam hi ≤ rd lam a.i := h.tab.le hc' (by have := ha.idx; omega)
    have g3 := ha.lo
    rw [ha.at_i] at g3
    rcases max_cases ls (rd lam 0) with ⟨e, -⟩ | ⟨e, -⟩
    · rw [e] at g3; linarith [h.lt]
    · rw [e] at g3; linarith [h.hi0]
  by_cases hc : hi < a.lam.length ∧ rd a.lam hi ≠ le
  · -- interpolated end
    have hin : hi < lam.length := by have := hc.1; rwa [ha.len1] at this
    have hx : rd a.lam hi = rd lam hi := ha.other1 hi (by omega)
    have hy : rd a.v hi = rd v hi := ha.other2 hi (by omega)
    have hge : le ≤ rd lam hi := ss_ge lam le hin
    have hgt : le < rd lam hi := lt_of_le_of_ne hge (fun e => hc.2 (by rw [hx, e]))
    have e : hiStep a.lam a.v hi le = ⟨hi + 1, rd a.lam hi, rd a.v hi, a.lam.set hi le,
        a.v.set hi (lerp ((rd a.lam hi - le) / (rd a.lam hi - rd a.lam (hi - 1))) (rd a.v hi) (rd a.v (hi - 1)))⟩ := by
      unfold hiStep; rw [if_pos hc]
    rw [e]
    have hiv : hi < a.v.length := by rw [ha.len2, h.tab.len]; exact hin
    have hat : rd (a.lam.set hi le) hi = le := by rw [rd_set _ _ _ _ hc.1]; simp
    have hcell : rd lam (hi - 1) ≤ rd a.lam (hi - 1) ∧ rd a.lam (hi - 1) < le ∧ rd a.v (hi - 1) = f (rd a.lam (hi - 1)) := by
      by_cases hp : hi - 1 = a.i
      · rw [hp]
        refine ⟨ha.lo, ?_, ha.val⟩
        rw [ha.at_i]; exact max_lt h.lt h.hi0
      · rw [ha.other1 _ hp, ha.other2 _ hp]
        exact ⟨le_rfl, hlt, (hf.knot h.tab (by omega)).symm⟩
    obtain ⟨c1, c2, c3⟩ := hcell
    have hk1 : hi - 1 + 1 = hi := by omega
    refine ⟨hi, rfl, hai, hin, by simp [ha.len1], by simp [ha.len2], ?_, ?_, ?_, ?_, ?_, ?_, hx, hy⟩
    · show rd (a.lam.set hi le) hi = _
      rw [hat, min_eq_left]
      exact hge.trans (h.tab.le (by omega) (by omega))
    · show _ ≤ rd (a.lam.set hi le) hi
      rw [hat]; exact hlt.le
    · show rd (a.lam.set hi le) hi ≤ _
      rw [hat]; exact hge
    · show rd (a.v.set hi _) hi = f (rd (a.lam.set hi le) hi)
      rw [hat, rd_set _ _ _ _ hiv, if_pos rfl, hx, hy, c3]
      have hc1 : hi - 1 + 1 < lam.length := by omega
      have e1 := hf.cell (hi - 1) hc1 (rd a.lam (hi - 1)) c1 (by rw [hk1]; linarith)
      have e2 := hf.cell (hi - 1) hc1 le hlt.le (by rw [hk1]; exact hge)
      rw [e1, e2, hk1]
      have d1 : rd lam hi - rd lam (hi - 1) ≠ 0 := by linarith [h.tab.lt (i := hi - 1) (j := hi) (by omega) hin] |> fun (x : rd lam (hi-1) < rd lam hi) => (sub_pos.2 x).ne'
      have d2 : rd lam hi - rd a.lam (hi - 1) ≠ 0 := by have : rd a.lam (hi - 1) < rd lam hi := by linarith
                                                        exact (sub_pos.2 this).ne'
      unfold lerp
      field_simp
      ring
    · intro k hk'
      show rd (a.lam.set hi le) k = _
      rw [rd_set _ _ _ _ hc.1, if_neg hk']
    · intro k hk'
      show rd (a.v.set hi _) k = _
      rw [rd_set _ _ _ _ hiv, if_neg hk']
  · -- the table's end
    have e : hiStep a.lam a.v hi le = ⟨a.lam.length, rd a.lam (a.lam.length - 1), rd a.v (a.v.length - 1), a.lam, a.v⟩ := by
      unfold hiStep; rw [if_neg hc]
    have hnl : a.v.length = lam.length := by rw [ha.len2, h.tab.len]
    have hidx := ha.idx
    have hne : lam.length - 1 ≠ a.i := by omega
    have hxl : rd a.lam (lam.length - 1) = rd lam (lam.length - 1) := ha.other1 _ hne
    have hyl : rd a.v (lam.length - 1) = rd v (lam.length - 1) := ha.other2 _ hne
    have hend : rd lam (lam.length - 1) ≤ le := by
      by_cases hin : hi < lam.length
      · have hx : rd a.lam hi = rd lam hi := ha.other1 hi (by omega)
        have heq : rd lam hi = le := by
          by_contra hne'
          exact hc ⟨by rw [ha.len1]; exact hin, by rw [hx]; exact hne'⟩
        have hnk : ¬ hi + 1 < lam.length := fun hh => hk ⟨hi, by omega, hh, heq⟩
        have : hi = lam.length - 1 := by omega
        rw [← this, heq]
      · have : hi = lam.length := by omega
        rw [this] at hlt; exact hlt.le
    rw [e]
    refine ⟨lam.length - 1, ?_, by omega, by omega, ha.len1, by rw [hnl, h.tab.len], ?_, ?_, ?_, ?_, fun _ _ => rfl, fun _ _ => rfl, ?_, ?_⟩
    · show a.lam.length = _
      rw [ha.len1]; omega
    · show rd a.lam (lam.length - 1) = _
      rw [hxl, min_eq_right hend]
    · show _ ≤ rd a.lam (lam.length - 1)
      rw [hxl]; exact h.tab.le (by omega) (by omega)
    · show rd a.lam (lam.length - 1) ≤ _
      rw [hxl]
    · show rd a.v (lam.length - 1) = f (rd a.lam (lam.length - 1))
      rw [hxl, hyl, hf.knot h.tab (by omega)]
    · show rd a.lam (a.lam.length - 1) = _
      rw [ha.len1, hxl]
    · show rd a.v (a.v.length - 1) = _
      rw [hnl, hyl]

/-- the sum between the nodes is the integral -/
theorem trapz_integral {lam v : List ℝ} {ls le : ℝ} (h : Main lam v ls le) {f : ℝ → ℝ} (hf : Interp lam v f) {a b : LoOut} {m : ℕ}
    (ha : LoSpec lam v ls f a) (hb : HiSpec lam v le f a b m) :
    IntervalIntegrable f MeasureTheory.volume (max ls (rd lam 0)) (min le (rd lam (lam.length - 1))) ∧
    trapz b.lam b.v a.i b.i = ∫ t in (max ls (rd lam 0))..(min le (rd lam (lam.length - 1))), f t := by
  have him := hb.im
  have hmn := hb.mn
  -- nodes
  have hzi : rd b.lam a.i = max ls (rd lam 0) := by rw [hb.other1 _ (by omega), ha.at_i]
  have low : ∀ k, a.i ≤ k → k < m → rd lam k ≤ rd b.lam k ∧ rd b.v k = f (rd b.lam k) := by
    intro k h1 h2
    rw [hb.other1 _ (by omega), hb.other2 _ (by omega)]
    by_cases hk : k = a.i
    · subst hk; exact ⟨ha.lo, ha.val⟩
    · rw [ha.other1 _ hk, ha.other2 _ hk]
      exact ⟨le_rfl, (hf.knot h.tab (by omega)).symm⟩
  have up : ∀ k, a.i < k → k ≤ m → rd b.lam k ≤ rd lam k := by
    intro k h1 h2
    by_cases hk : k = m
    · subst hk; exact hb.hi
    · rw [hb.other1 _ hk, ha.other1 _ (by omega)]
  have mono : ∀ k, a.i ≤ k → k < m → rd b.lam k ≤ rd b.lam (k + 1) := by
    intro k h1 h2
    by_cases hk : k + 1 = m
    · -- last piece
      by_cases hka : k = a.i
      · rw [hk, hb.at_m, hka, hzi]
        exact max_le (le_min h.lt.le h.lon.le) (le_min h.hi0.le (h.tab.le (Nat.zero_le _) (by omega)))
      · have e1 : rd b.lam k = rd lam k := by rw [hb.other1 _ (by omega), ha.other1 _ hka]
        have := hb.lo
        rw [← hk] at this
        rw [e1]; exact this
    · have e2 : rd b.lam (k + 1) = rd lam (k + 1) := by rw [hb.other1 _ hk, ha.other1 _ (by omega)]
      rw [e2]
      by_cases hka : k = a.i
      · rw [hb.other1 _ (by omega), hka]; exact ha.hi
      · rw [hb.other1 _ (by omega), ha.other1 _ hka]
        exact h.tab.le (by omega) (by omega)
  have key := trapz_exact f (rd b.lam) (rd b.v) a.i m him.le mono ?_ ?_
  · rw [hzi, hb.at_m] at key
    refine ⟨key.1, ?_⟩
    rw [← key.2]
    unfold trapz
    rw [hb.bi]; rfl
  · intro k h1 h2
    obtain ⟨p, q, hpq⟩ := hf.affine (i := k) (by omega)
    exact ⟨p, q, fun t g1 g2 => hpq t ((low k h1 h2).1.trans g1) (g2.trans (up (k + 1) (by omega) (by omega)))⟩
  · intro k h1 h2
    by_cases hk : k = m
    · subst hk; exact hb.val
    · exact (low k h1 (by omega)).2

theorem const_integral {f : ℝ → ℝ} {a b c : ℝ} (hab : a ≤ b) (h : ∀ t, a ≤ t → t ≤ b → f t = c) :
    IntervalIntegrable f MeasureTheory.volume a b ∧ ∫ t in a..b, f t = c * (b - a) := by
  constructor
  · refine (intervalIntegrable_const (c := c)).congr ?_
    rw [Set.uIoc_of_le hab]
    exact fun t ht => (h t ht.1.le ht.2).symm
  · rw [intervalIntegral.integral_congr (g := fun _ => c), intervalIntegral.integral_const, smul_eq_mul, mul_comm]
    rw [Set.uIcc_of_le hab]
    exact fun t ht => h t ht.1 ht.2

theorem average_main {lam v : List ℝ} {ls le : ℝ} (h1 : ¬ le ≤ rd lam 0) (h2 : ¬ ls ≥ rd lam (lam.length - 1)) (h3 : ¬ lam.length = 1) :
    (average lam v ls le).1 = ((if ls < rd lam 0 then rd v 0 * (rd lam 0 - ls) else 0) +
      (if le > rd lam (lam.length - 1) then rd v (v.length - 1) * (le - rd lam (lam.length - 1)) else 0) +
      trapz (hiStep (loStep lam v ls).lam (loStep lam v ls).v (Dist.searchsorted lam le) le).lam
        (hiStep (loStep lam v ls).lam (loStep lam v ls).v (Dist.searchsorted lam le) le).v (loStep lam v ls).i
        (hiStep (loStep lam v ls).lam (loStep lam v ls).v (Dist.searchsorted lam le) le).i) / (le - ls) := by
  simp only [average, if_neg h1, if_neg h2, if_neg h3]

/-- the mean, with integrability -/
theorem average_core (lam v : List ℝ) (ls le : ℝ) (ht : Table lam v) (hlt : ls < le) (hk : ¬ InteriorKnot lam le) (f : ℝ → ℝ) (hf : Interp lam v f) :
    IntervalIntegrable f MeasureTheory.volume ls le ∧ (average lam v ls le).1 = (∫ t in ls..le, f t) / (le - ls) := by
  have hd : 0 < le - ls := sub_pos.2 hlt
  have hlast : ∀ w : ℝ, w = rd v (v.length - 1) → w = rd v (lam.length - 1) := by intro w hw; rw [hw, ht.len]
  by_cases h1 : le ≤ rd lam 0
  · refine ⟨(const_integral hlt.le (fun t _ g2 => hf.below t (g2.trans h1))).1, ?_⟩
    rw [(const_integral hlt.le (fun t _ g2 => hf.below t (g2.trans h1))).2]
    simp only [average, if_pos h1]
    field_simp
  by_cases h2 : ls ≥ rd lam (lam.length - 1)
  · refine ⟨(const_integral hlt.le (fun t g1 _ => hf.above t (le_trans h2 g1))).1, ?_⟩
    rw [(const_integral hlt.le (fun t g1 _ => hf.above t (le_trans h2 g1))).2]
    simp only [average, if_neg h1, if_pos h2, ht.len]
    field_simp
  by_cases h3 : lam.length = 1
  · -- one sample
    have hc : ∀ t, f t = rd v 0 := by
      intro t
      rcases le_total t (rd lam 0) with g | g
      · exact hf.below t g
      · have := hf.above t (by rw [h3]; exact g)
        rw [h3] at this; exact this
    refine ⟨(const_integral hlt.le (fun t _ _ => hc t)).1, ?_⟩
    rw [(const_integral hlt.le (fun t _ _ => hc t)).2]
    simp only [average, if_neg h1, if_neg h2, if_pos h3]
    field_simp
  -- the general case
  rw [average_main h1 h2 h3]
  push Not at h1 h2
  have hM : Main lam v ls le := ⟨ht, hlt, by have := ht.pos; omega, h1, h2⟩
  have ha := loStep_spec hM hf
  obtain ⟨m, hb⟩ := hiStep_spec hM hf ha hk
  obtain ⟨i2, e2⟩ := trapz_integral hM hf ha hb
  have p1 : IntervalIntegrable f MeasureTheory.volume ls (max ls (rd lam 0)) ∧
      (if ls < rd lam 0 then rd v 0 * (rd lam 0 - ls) else 0) = ∫ t in ls..(max ls (rd lam 0)), f t := by
    split_ifs with g
    · rw [max_eq_right g.le]
      have := const_integral g.le (fun t _ g2 => hf.below t g2)
      exact ⟨this.1, this.2.symm⟩
    · rw [max_eq_left (not_lt.1 g), intervalIntegral.integral_same]
      exact ⟨IntervalIntegrable.refl, rfl⟩
  have p3 : IntervalIntegrable f MeasureTheory.volume (min le (rd lam (lam.length - 1))) le ∧
      (if le > rd lam (lam.length - 1) then rd v (v.length - 1) * (le - rd lam (lam.length - 1)) else 0) =
        ∫ t in (min le (rd lam (lam.length - 1)))..le, f t := by
    split_ifs with g
    · rw [min_eq_right (le_of_lt g), ht.len]
      have := const_integral (le_of_lt g) (fun t g1 _ => hf.above t g1)
      exact ⟨this.1, this.2.symm⟩
    · rw [min_eq_left (not_lt.1 g), intervalIntegral.integral_same]
      exact ⟨IntervalIntegrable.refl, rfl⟩
  refine ⟨(p1.1.trans i2).trans p3.1, ?_⟩
  rw [e2, p1.2, p3.2, ← intervalIntegral.integral_add_adjacent_intervals (p1.1.trans i2) p3.1,
    ← intervalIntegral.integral_add_adjacent_intervals p1.1 i2]
  congr 1
  ring

/-! ### every table describes a spectrum -/

/-- the spectrum described by a table -/
noncomputable def interp (lam v : List ℝ) (t : ℝ) : ℝ :=
  if t ≤ rd lam 0 then rd v 0
  else
    let k := Dist.searchsorted lam t
    if k < lam.length then rd v (k - 1) + (rd v k - rd v (k - 1)) * ((t - rd lam (k - 1)) / (rd lam k - rd lam (k - 1)))
    else rd v (lam.length - 1)

theorem ss_eq {lam v : List ℝ} (_h : Table lam v) {t : ℝ} {k : ℕ} (hk : k < lam.length) (h1 : ∀ j, j < k → rd lam j < t) (h2 : t ≤ rd lam k) :
    Dist.searchsorted lam t = k := by
  rcases lt_trichotomy (Dist.searchsorted lam t) k with h' | h' | h'
  · exact absurd (h1 _ h') (not_lt.2 (ss_ge lam t (by omega)))
  · exact h'
  · exact absurd (ss_lt lam t k h') (not_lt.2 h2)

theorem interp_cell {lam v : List ℝ} (h : Table lam v) {t : ℝ} {i : ℕ} (hi : i + 1 < lam.length) (h1 : rd lam i < t) (h2 : t ≤ rd lam (i + 1)) :
    interp lam v t = rd v i + (rd v (i + 1) - rd v i) * ((t - rd lam i) / (rd lam (i + 1) - rd lam i)) := by
  have e : Dist.searchsorted lam t = i + 1 := ss_eq h hi (fun j hj => (h.le (by omega) (by omega)).trans_lt h1) h2
  have h0 : ¬ t ≤ rd lam 0 := not_le.2 ((h.le (Nat.zero_le i) (by omega)).trans_lt h1)
  simp only [interp, if_neg h0, e, if_pos hi, Nat.add_sub_cancel]

theorem interp_knot {lam v : List ℝ} (h : Table lam v) {i : ℕ} (hi : i < lam.length) : interp lam v (rd lam i) = rd v i := by
  rcases i with _ | i
  · simp [interp]
  · rw [interp_cell h hi (h.incr i hi) le_rfl]
    have : rd lam (i + 1) - rd lam i ≠ 0 := (sub_pos.2 (h.incr i hi)).ne'
    rw [div_self this]; ring

/-- every table has a spectrum -/
theorem interp_spec {lam v : List ℝ} (h : Table lam v) : Interp lam v (interp lam v) := by
  have hp := h.pos
  refine ⟨fun t ht => by simp [interp, ht], ?_, ?_⟩
  · intro t ht
    rcases ht.eq_or_lt with rfl | hlt
    · exact interp_knot h (by omega)
    · have h0 : ¬ t ≤ rd lam 0 := not_le.2 ((h.le (Nat.zero_le _) (by omega)).trans_lt hlt)
      have e : ¬ Dist.searchsorted lam t < lam.length := by
        intro hc
        have := ss_ge lam t hc
        exact absurd (this.trans (h.le (by omega) (by omega))) (not_le.2 hlt)
      simp only [interp, if_neg h0, if_neg e]
  · intro i hi t h1 h2
    rcases h1.eq_or_lt with rfl | h1
    · rw [interp_knot h (by omega)]; simp
    · exact interp_cell h hi h1 h2

/-- **C58** averaging a table over a wavelength interval gives the mean, over that interval, of the spectrum the table describes (linear between
neighbouring wavelengths, constant outside).  Proved for every interval whose end is not one of the inner wavelengths of the table; at an inner
wavelength the claim is false (`C58_average_false`). -/
theorem C58_average_partial (lam v : List ℝ) (ls le : ℝ) (ht : Table lam v) (hlt : ls < le) (hk : ¬ InteriorKnot lam le) :
    (∃ f, Interp lam v f) ∧ ∀ f, Interp lam v f → (average lam v ls le).1 = (∫ t in ls..le, f t) / (le - ls) :=
  ⟨⟨_, interp_spec ht⟩, fun f hf => (average_core lam v ls le ht hlt hk f hf).2⟩

/-- the described spectrum stays between the bounds of the table -/
theorem Interp.bounds {lam v : List ℝ} (h : Table lam v) {f : ℝ → ℝ} (hf : Interp lam v f) {m M : ℝ} (hm : ∀ i, i < lam.length → m ≤ rd v i ∧ rd v i ≤ M) (t : ℝ) :
    m ≤ f t ∧ f t ≤ M := by
  have hp := h.pos
  rcases le_total t (rd lam 0) with h0 | h0
  · rw [hf.below t h0]; exact hm 0 hp
  rcases le_total (rd lam (lam.length - 1)) t with h1 | h1
  · rw [hf.above t h1]; exact hm _ (by omega)
  have : ∀ j, j < lam.length → t ≤ rd lam j → m ≤ f t ∧ f t ≤ M := by
    intro j
    induction j with
    | zero => intro hj hle; rw [hf.below t hle]; exact hm 0 hp
    | succ j ih =>
      intro hj hle
      rcases le_total t (rd lam j) with g | g
      · exact ih (by omega) g
      · rw [hf.cell j hj t g hle]
        have hd : 0 < rd lam (j + 1) - rd lam j := sub_pos.2 (h.incr j hj)
        have q0 : 0 ≤ (t - rd lam j) / (rd lam (j + 1) - rd lam j) := div_nonneg (sub_nonneg.2 g) hd.le
        have q1 : (t - rd lam j) / (rd lam (j + 1) - rd lam j) ≤ 1 := (div_le_one hd).2 (by linarith)
        obtain ⟨a1, a2⟩ := hm j (by omega)
        obtain ⟨b1, b2⟩ := hm (j + 1) hj
        set q := (t - rd lam j) / (rd lam (j + 1) - rd lam j)
        constructor <;> nlinarith
  exact this _ (by omega) h1

/-- **C58** under the same condition the average lies between any bounds of the data, so between the smallest and the largest datum -/
theorem C58_between_partial (lam v : List ℝ) (ls le m M : ℝ) (ht : Table lam v) (hlt : ls < le) (hk : ¬ InteriorKnot lam le)
    (hm : ∀ y ∈ v, m ≤ y ∧ y ≤ M) : m ≤ (average lam v ls le).1 ∧ (average lam v ls le).1 ≤ M := by
  have hm' : ∀ i, i < lam.length → m ≤ rd v i ∧ rd v i ≤ M := by
    intro i hi
    rw [← ht.len] at hi
    have : rd v i = v[i] := by simp [rd, List.getD_eq_getElem?_getD, hi]
    rw [this]; exact hm _ (List.getElem_mem hi)
  obtain ⟨hi, he⟩ := average_core lam v ls le ht hlt hk _ (interp_spec ht)
  have hb := (interp_spec ht).bounds ht hm'
  have hd : 0 < le - ls := sub_pos.2 hlt
  rw [he]
  have l1 : ∫ _ in ls..le, m ≤ ∫ t in ls..le, interp lam v t :=
    intervalIntegral.integral_mono_on hlt.le intervalIntegrable_const hi (fun t _ => (hb t).1)
  have l2 : ∫ t in ls..le, interp lam v t ≤ ∫ _ in ls..le, M :=
    intervalIntegral.integral_mono_on hlt.le hi intervalIntegrable_const (fun t _ => (hb t).2)
  rw [intervalIntegral.integral_const, smul_eq_mul] at l1 l2
  exact ⟨(le_div_iff₀ hd).2 (by linarith), (div_le_iff₀ hd).2 (by linarith)⟩

/-- what the second step always establishes -/
structure HiWeak (lam v : List ℝ) (a b : LoOut) (m : ℕ) : Prop where
  bi : b.i = m + 1
  im : a.i < m
  mn : m < lam.length
  len1 : b.lam.length = lam.length
  len2 : b.v.length = v.length
  other1 : ∀ k, k ≠ m → rd b.lam k = rd a.lam k
  other2 : ∀ k, k ≠ m → rd b.v k = rd a.v k
  bk1 : b.bkLam = rd lam m
  bk2 : b.bkV = rd v m

theorem hiStep_weak {lam v : List ℝ} {ls le : ℝ} (h : Main lam v ls le) {f : ℝ → ℝ} {a : LoOut} (ha : LoSpec lam v ls f a) :
    ∃ m, HiWeak lam v a (hiStep a.lam a.v (Dist.searchsorted lam le) le) m := by
  set hi := Dist.searchsorted lam le with hhi
  have hidx := ha.idx
  have hai : a.i < hi := by
    by_contra hc
    have hin : hi < lam.length := by omega
    have g1 : le ≤ rd lam hi := ss_ge lam le hin
    have g2 : rd lam hi ≤ rd lam a.i := h.tab.le (by omega) (by omega)
    have g3 := ha.lo
    rw [ha.at_i] at g3
    rcases max_cases ls (rd lam 0) with ⟨e, -⟩ | ⟨e, -⟩
    · rw [e] at g3; linarith [h.lt]
    · rw [e] at g3; linarith [h.hi0]
  have hnl : a.v.length = lam.length := by rw [ha.len2, h.tab.len]
  by_cases hc : hi < a.lam.length ∧ rd a.lam hi ≠ le
  · have e : hiStep a.lam a.v hi le = ⟨hi + 1, rd a.lam hi, rd a.v hi, a.lam.set hi le,
        a.v.set hi (lerp ((rd a.lam hi - le) / (rd a.lam hi - rd a.lam (hi - 1))) (rd a.v hi) (rd a.v (hi - 1)))⟩ := by
      unfold hiStep; rw [if_pos hc]
    have hin : hi < lam.length := by have := hc.1; rwa [ha.len1] at this
    rw [e]
    refine ⟨hi, rfl, hai, hin, by simp [ha.len1], by simp [ha.len2], ?_, ?_, ha.other1 hi (by omega), ha.other2 hi (by omega)⟩
    · intro k hk'
      show rd (a.lam.set hi le) k = _
      rw [rd_set _ _ _ _ hc.1, if_neg hk']
    · intro k hk'
      show rd (a.v.set hi _) k = _
      rw [rd_set _ _ _ _ (by omega), if_neg hk']
  · have e : hiStep a.lam a.v hi le = ⟨a.lam.length, rd a.lam (a.lam.length - 1), rd a.v (a.v.length - 1), a.lam, a.v⟩ := by
      unfold hiStep; rw [if_neg hc]
    have hl := ha.len1
    rw [e]
    refine ⟨lam.length - 1, by show a.lam.length = _; omega, by omega, by omega, hl, ha.len2, fun _ _ => rfl, fun _ _ => rfl, ?_, ?_⟩
    · show rd a.lam (a.lam.length - 1) = _
      rw [hl]; exact ha.other1 _ (by omega)
    · show rd a.v (a.v.length - 1) = _
      rw [hnl]; exact ha.other2 _ (by omega)

theorem ext_rd {l l' : List ℝ} (h : l.length = l'.length) (h2 : ∀ k, k < l.length → rd l k = rd l' k) : l = l' := by
  apply List.ext_getElem h
  intro k h3 h4
  have := h2 k h3
  simpa [rd, List.getD_eq_getElem?_getD, h3, h4] using this

/-- **C58** the caller's arrays hold the same data after the call, for every table and interval -/
theorem C58_arrays_restored (lam v : List ℝ) (ls le : ℝ) (ht : Table lam v) (hlt : ls < le) : (average lam v ls le).2 = (lam, v) := by
  by_cases h1 : le ≤ rd lam 0
  · simp only [average, if_pos h1]
  by_cases h2 : ls ≥ rd lam (lam.length - 1)
  · simp only [average, if_neg h1, if_pos h2]
  by_cases h3 : lam.length = 1
  · simp only [average, if_neg h1, if_neg h2, if_pos h3]
  simp only [average, if_neg h1, if_neg h2, if_neg h3]
  push Not at h1 h2
  have hM : Main lam v ls le := ⟨ht, hlt, by have := ht.pos; omega, h1, h2⟩
  have ha := loStep_spec hM (interp_spec ht)
  obtain ⟨m, hb⟩ := hiStep_weak hM ha
  set a := loStep lam v ls
  set b := hiStep a.lam a.v (Dist.searchsorted lam le) le
  have hm : b.i - 1 = m := by rw [hb.bi]; rfl
  have him := hb.im
  have hmn := hb.mn
  have hl := ht.len
  have l1 := hb.len1
  have l2 := hb.len2
  rw [hm]
  refine Prod.ext (ext_rd (by simp [hb.len1]) ?_) (ext_rd (by simp [hb.len2]) ?_)
  · intro k _
    show rd ((b.lam.set a.i a.bkLam).set m b.bkLam) k = rd lam k
    rw [rd_set _ _ _ _ (by simp; omega), rd_set _ _ _ _ (by omega)]
    split_ifs with g1 g2
    · rw [g1]; exact hb.bk1
    · rw [g2]; exact ha.bk1
    · rw [hb.other1 k g1, ha.other1 k g2]
  · intro k _
    show rd ((b.v.set a.i a.bkV).set m b.bkV) k = rd v k
    rw [rd_set _ _ _ _ (by simp; omega), rd_set _ _ _ _ (by omega)]
    split_ifs with g1 g2
    · rw [g1]; exact hb.bk2
    · rw [g2]; exact ha.bk2
    · rw [hb.other2 k g1, ha.other2 k g2]

/-- **C58** every element the averaging loop touches exists: the first index and its successor, and the last index, which comes after the first -/
theorem C58_indices (lam v : List ℝ) (ls le : ℝ) (ht : Table lam v) (hlt : ls < le) (h1 : rd lam 0 < le) (h2 : ls < rd lam (lam.length - 1)) (h3 : lam.length ≠ 1) :
    (loStep lam v ls).i + 1 < lam.length ∧
    (loStep lam v ls).i + 1 < (hiStep (loStep lam v ls).lam (loStep lam v ls).v (Dist.searchsorted lam le) le).i ∧
    (hiStep (loStep lam v ls).lam (loStep lam v ls).v (Dist.searchsorted lam le) le).i ≤ lam.length ∧ 1 ≤ Dist.searchsorted lam le := by
  have hM : Main lam v ls le := ⟨ht, hlt, by have := ht.pos; omega, h1, h2⟩
  have ha := loStep_spec hM (interp_spec ht)
  obtain ⟨m, hb⟩ := hiStep_weak hM ha
  have him := hb.im
  have hmn := hb.mn
  rw [hb.bi]
  refine ⟨ha.idx, by omega, by omega, ?_⟩
  by_contra hc
  have e : Dist.searchsorted lam le = 0 := by omega
  have := ss_ge lam le (by rw [e]; exact ht.pos)
  rw [e] at this
  exact absurd h1 (not_lt.2 this)

theorem ss_three (t : ℝ) : Dist.searchsorted [0, 1, 2] t = if t ≤ 0 then 0 else if t ≤ 1 then 1 else if t ≤ 2 then 2 else 3 := by
  have ht : Table [0, 1, 2] [1, 1, 1] := ⟨by simp, by simp, by
    intro i hi
    have hi : i < 2 := by simp at hi; omega
    interval_cases i <;> simp [rd]⟩
  split_ifs with h0 h1 h2
  · exact ss_eq ht (by simp) (by intro j hj; omega) (by simpa [rd] using h0)
  · refine ss_eq ht (by simp) ?_ (by simpa [rd] using h1)
    intro j hj; interval_cases j; simpa [rd] using h0
  · refine ss_eq ht (by simp) ?_ (by simpa [rd] using h2)
    intro j hj; interval_cases j <;> simp [rd]
    · push Not at h0; exact h0
    · push Not at h1; exact h1
  · have hle := Dist.searchsorted_le [0, 1, 2] t
    by_contra hc
    have := ss_ge [0, 1, 2] t (by simp at hle ⊢; omega)
    have h' : Dist.searchsorted [0, 1, 2] t < 3 := by simp at hle; omega
    interval_cases h'' : Dist.searchsorted [0, 1, 2] t <;> simp [rd] at this <;> linarith

/-- **C58** the claim fails at an inner wavelength of the table: there the sum runs on to the end of the table.  A table that is one everywhere,
averaged over its first half, gives two. -/
theorem C58_average_false : ∃ (lam v : List ℝ) (ls le : ℝ), Table lam v ∧ ls < le ∧ InteriorKnot lam le ∧ (∀ y ∈ v, y = 1) ∧ (average lam v ls le).1 = 2 := by
  refine ⟨[0, 1, 2], [1, 1, 1], 0, 1, ⟨by simp, by simp, ?_⟩, by norm_num, ⟨1, by simp, by simp, by simp [rd]⟩, by simp, ?_⟩
  · intro i hi
    have hi : i < 2 := by simp at hi; omega
    interval_cases i <;> simp [rd]
  · have e0 : Dist.searchsorted [0, 1, 2] (0:ℝ) = 0 := by rw [ss_three]; simp
    have e1 : Dist.searchsorted [0, 1, 2] (1:ℝ) = 1 := by rw [ss_three]; norm_num
    rw [average_main (by simp [rd]) (by simp [rd]) (by simp)]
    simp only [loStep, hiStep, e0, e1]
    norm_num [rd, trapz, Finset.sum_Ico_eq_sum_range, Finset.sum_range_succ]

/-- the hypotheses of `C58_average_partial` and `C58_between_partial` hold for a table with three wavelengths and an interval that ends between two -/
example : Table [400, 500, 700] [1, 3, 2] ∧ (450:ℝ) < 600 ∧ ¬ InteriorKnot [400, 500, 700] 600 := by
  refine ⟨⟨by simp, by simp, ?_⟩, by norm_num, ?_⟩
  · intro i hi
    have hi : i < 2 := by simp at hi; omega
    interval_cases i <;> simp [rd] <;> norm_num
  · rintro ⟨k, h1, h2, h3⟩
    simp at h2
    have : k = 1 := by omega
    subst this
    simp [rd] at h3

end Verif.Spectral
