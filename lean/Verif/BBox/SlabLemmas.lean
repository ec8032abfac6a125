import Verif.BBox.Slab
import Mathlib.Tactic.FieldSimp

namespace Verif
set_option linter.unusedSectionVars false
set_option linter.unusedSimpArgs false
variable {K : Type*} [Field K] [LinearOrder K] [IsStrictOrderedRing K]

namespace F

theorem le_fmax_iff {a b : F K} (ha : a ≠ nan) (t : K) :
    le (fmax a b) (fin t) = true ↔ le a (fin t) = true ∧ (b = nan ∨ le b (fin t) = true) := by
  cases a <;> cases b <;> simp_all [fmax, isNan, le, lt]
  rename_i x y
  split_ifs with h <;> simp [le]
  · intro h'; exact le_of_lt (lt_of_lt_of_le h h')
  · intro h'; exact le_trans (not_lt.1 h) h'

theorem le_fmin_iff {a b : F K} (ha : a ≠ nan) (t : K) :
    le (fin t) (fmin a b) = true ↔ le (fin t) a = true ∧ (b = nan ∨ le (fin t) b = true) := by
  cases a <;> cases b <;> simp_all [fmin, isNan, le, lt]
  rename_i x y
  split_ifs with h <;> simp [le]
  · intro h'; exact le_of_lt (lt_of_le_of_lt h' h)
  · intro h'; exact le_trans h' (not_lt.1 h)

theorem fmax_ne_nan {a b : F K} (ha : a ≠ nan) : fmax a b ≠ nan := by
  cases a <;> cases b <;> simp_all [fmax, isNan, lt]
  split_ifs <;> simp

theorem fmin_ne_nan {a b : F K} (ha : a ≠ nan) : fmin a b ≠ nan := by
  cases a <;> cases b <;> simp_all [fmin, isNan, lt]
  split_ifs <;> simp

end F

namespace BBox
open F

/-- the float interval `[t0, t1]` holds the finite parameter `t` -/
def In (t0 t1 : F K) (t : K) : Prop := F.le t0 (.fin t) = true ∧ F.le (.fin t) t1 = true

/-- the quotient computed for a face at `z` -/
def quo (z : F K) (o d : K) (n : Bool) : F K := F.divFin (F.subFin z o) d n

theorem quo_pos (z : F K) (hz : z ≠ nan) (o d t : K) (n : Bool) (hd : 0 < d) :
    quo z o d n ≠ nan ∧
    (F.le (quo z o d n) (fin t) = true ↔ F.le z (fin (o + d * t)) = true) ∧
    (F.le (fin t) (quo z o d n) = true ↔ F.le (fin (o + d * t)) z = true) := by
  have hd0 : d ≠ 0 := ne_of_gt hd
  cases z with
  | fin x =>
    simp only [quo, subFin, divFin, hd0, if_false, F.le, decide_eq_true_eq]
    rw [div_le_iff₀ hd, le_div_iff₀ hd]
    refine ⟨by simp, ?_, ?_⟩ <;> constructor <;> intro h <;> linarith
  | pinf => simp [quo, subFin, divFin, hd0, hd, F.le]
  | ninf => simp [quo, subFin, divFin, hd0, hd, F.le]
  | nan => exact absurd rfl hz

theorem quo_neg (z : F K) (hz : z ≠ nan) (o d t : K) (n : Bool) (hd : d < 0) :
    quo z o d n ≠ nan ∧
    (F.le (quo z o d n) (fin t) = true ↔ F.le (fin (o + d * t)) z = true) ∧
    (F.le (fin t) (quo z o d n) = true ↔ F.le z (fin (o + d * t)) = true) := by
  have hd0 : d ≠ 0 := ne_of_lt hd
  have hd1 : ¬ (0 < d) := not_lt.2 hd.le
  cases z with
  | fin x =>
    simp only [quo, subFin, divFin, hd0, if_false, F.le, decide_eq_true_eq]
    rw [div_le_iff_of_neg hd, le_div_iff_of_neg hd]
    refine ⟨by simp, ?_, ?_⟩ <;> constructor <;> intro h <;> linarith
  | pinf => simp [quo, subFin, divFin, hd0, hd1, F.le]
  | ninf => simp [quo, subFin, divFin, hd0, hd1, F.le]
  | nan => exact absurd rfl hz

theorem quo_mono_pos (lo hi : F K) (h : F.le lo hi = true) (o d : K) (n : Bool) (hd : 0 < d) :
    F.gt (quo lo o d n) (quo hi o d n) = false := by
  have hd0 : d ≠ 0 := ne_of_gt hd
  cases lo <;> cases hi <;> simp_all [F.le, F.gt, F.lt, quo, subFin, divFin]
  rw [div_le_div_iff_of_pos_right hd]; linarith

theorem quo_mono_neg (lo hi : F K) (h : F.le lo hi = true) (o d : K) (n : Bool) (hd : d < 0) :
    F.gt (quo lo o d n) (quo hi o d n) = true ∨ quo lo o d n = quo hi o d n := by
  have hd0 : d ≠ 0 := ne_of_lt hd
  have hd1 : ¬ (0 < d) := not_lt.2 hd.le
  cases lo <;> cases hi <;> simp only [F.le, Bool.false_eq_true, decide_eq_true_eq] at h <;>
    simp only [F.gt, F.lt, quo, subFin, divFin, hd0, hd1, if_false, decide_eq_true_eq, or_true, true_or]
  rename_i x y
  rcases h.lt_or_eq with h | h
  · left; rw [div_lt_div_right_of_neg hd]; linarith
  · right; rw [h]

/-- a face seen from a ray parallel to it with direction `+0.0` -/
theorem quo_zero (z : F K) (hz : z ≠ nan) (o : K) (n : Bool) :
    (z = fin o → quo z o 0 n = nan) ∧
    (F.lt z (fin o) = true → quo z o 0 n = if n then pinf else ninf) ∧
    (F.lt (fin o) z = true → quo z o 0 n = if n then ninf else pinf) := by
  cases z with
  | fin x =>
    refine ⟨?_, ?_, ?_⟩
    · rintro h; injection h with h; subst h; simp [quo, subFin, divFin]
    · intro h; simp only [F.lt, decide_eq_true_eq] at h
      have h1 : x - o ≠ 0 := by intro e; linarith
      have h2 : ¬ (0 < x - o) := by intro e; linarith
      cases n <;> simp [quo, subFin, divFin, h1, h2, not_lt.2 h.le]
    · intro h; simp only [F.lt, decide_eq_true_eq] at h
      have h1 : x - o ≠ 0 := by intro e; linarith
      have h2 : 0 < x - o := by linarith
      cases n <;> simp [quo, subFin, divFin, h1, h]
  | pinf => simp [F.lt, quo, subFin, divFin]
  | ninf => simp [F.lt, quo, subFin, divFin]
  | nan => exact absurd rfl hz

theorem tri (z : F K) (hz : z ≠ nan) (o : K) :
    (z = fin o ∧ F.le z (fin o) = true ∧ F.le (fin o) z = true) ∨
    (F.lt z (fin o) = true ∧ F.le z (fin o) = true ∧ F.le (fin o) z = false) ∨
    (F.lt (fin o) z = true ∧ F.le z (fin o) = false ∧ F.le (fin o) z = true) := by
  cases z with
  | fin x =>
    simp only [F.lt, F.le, fin.injEq, decide_eq_true_eq, decide_eq_false_iff_not, not_le]
    rcases lt_trichotomy x o with h | h | h
    · right; left; exact ⟨h, h.le, h⟩
    · left; exact ⟨h, h.le, h.ge⟩
    · right; right; exact ⟨h, h, h.le⟩
  | pinf => simp [F.lt, F.le]
  | ninf => simp [F.lt, F.le]
  | nan => exact absurd rfl hz

theorem lt_le_absurd (lo hi : F K) (o : K) (h : F.le lo hi = true)
    (h1 : F.lt (fin o) lo = true) (h2 : F.le hi (fin o) = true) : False := by
  cases lo <;> cases hi <;> simp_all [F.lt, F.le]
  linarith

theorem le_ne_nan {lo hi : F K} (h : F.le lo hi = true) : lo ≠ nan ∧ hi ≠ nan := by
  cases lo <;> cases hi <;> simp_all [F.le]

theorem slab_core (lo hi : F K) (o d : K) (n : Bool) (hle : F.le lo hi = true)
    (hz : ¬ (d = 0 ∧ n = true ∧ (lo = fin o ∨ hi = fin o))) (t : K) (nf : F K × F K)
    (hnf : nf = if F.gt (quo lo o d n) (quo hi o d n) then (quo hi o d n, quo lo o d n)
      else (quo lo o d n, quo hi o d n)) :
    (nf.1 = nan ∨ F.le nf.1 (fin t) = true) ∧ (nf.2 = nan ∨ F.le (fin t) nf.2 = true) ↔
        F.le lo (fin (o + d * t)) = true ∧ F.le (fin (o + d * t)) hi = true := by
  obtain ⟨hlo, hhi⟩ := le_ne_nan hle
  rcases lt_trichotomy d 0 with hd | hd | hd
  · obtain ⟨a1, a2, a3⟩ := quo_neg lo hlo o d t n hd
    obtain ⟨b1, b2, b3⟩ := quo_neg hi hhi o d t n hd
    have hnf' : nf = (quo hi o d n, quo lo o d n) := by
      rcases quo_mono_neg lo hi hle o d n hd with h | h
      · rw [hnf, if_pos h]
      · rw [hnf, h]; simp
    subst hnf'
    rw [or_iff_right b1, or_iff_right a1, b2, a3, and_comm]
  · subst hd
    have e : o + 0 * t = o := by ring
    rw [e]
    obtain ⟨a1, a2, a3⟩ := quo_zero lo hlo o n
    obtain ⟨b1, b2, b3⟩ := quo_zero hi hhi o n
    rcases tri lo hlo o with ⟨h1, h1', h1''⟩ | ⟨h1, h1', h1''⟩ | ⟨h1, h1', h1''⟩ <;>
    rcases tri hi hhi o with ⟨h2, h2', h2''⟩ | ⟨h2, h2', h2''⟩ | ⟨h2, h2', h2''⟩
    all_goals first
      | exact absurd (lt_le_absurd lo hi o hle h1 h2') id
      | skip
    · rw [a1 h1, b1 h2] at hnf; subst hnf; rw [h1', h2'']; simp [F.gt, F.lt, F.le]
    · exfalso; rw [h1] at hle; cases hi <;> simp_all [F.lt, F.le]
    · have hn : n = false := by
        cases n with
        | false => rfl
        | true => exact absurd ⟨rfl, rfl, Or.inl h1⟩ hz
      subst hn
      rw [a1 h1, b3 h2] at hnf; subst hnf; rw [h1', h2'']; simp [F.gt, F.lt, F.le]
    · have hn : n = false := by
        cases n with
        | false => rfl
        | true => exact absurd ⟨rfl, rfl, Or.inr h2⟩ hz
      subst hn
      rw [a2 h1, b1 h2] at hnf; subst hnf; rw [h1', h2'']; simp [F.gt, F.lt, F.le]
    · rw [a2 h1, b2 h2] at hnf; subst hnf; rw [h1', h2'']; cases n <;> simp [F.gt, F.lt, F.le]
    · rw [a2 h1, b3 h2] at hnf; subst hnf; rw [h1', h2'']; cases n <;> simp [F.gt, F.lt, F.le]
    · rw [a3 h1, b3 h2] at hnf; subst hnf; rw [h1', h2'']; cases n <;> simp [F.gt, F.lt, F.le]
  · obtain ⟨a1, a2, a3⟩ := quo_pos lo hlo o d t n hd
    obtain ⟨b1, b2, b3⟩ := quo_pos hi hhi o d t n hd
    have hnf' : nf = (quo lo o d n, quo hi o d n) := by
      rw [hnf]; have := quo_mono_pos lo hi hle o d n hd; simp [this]
    subst hnf'
    rw [or_iff_right a1, or_iff_right b1, a2, b3]

theorem slabAxis_spec (lo hi : F K) (o : K) (d : Dir K) (t0 t1 : F K)
    (h0 : t0 ≠ nan) (h1 : t1 ≠ nan) (hle : F.le lo hi = true)
    (hz : ¬ (d.val = 0 ∧ d.negZero = true ∧ (lo = fin o ∨ hi = fin o))) :
    (slabAxis lo hi o d t0 t1).1 ≠ nan ∧ (slabAxis lo hi o d t0 t1).2 ≠ nan ∧
    ∀ t, In (slabAxis lo hi o d t0 t1).1 (slabAxis lo hi o d t0 t1).2 t ↔
      In t0 t1 t ∧ F.le lo (fin (o + d.val * t)) = true ∧ F.le (fin (o + d.val * t)) hi = true := by
  refine ⟨fmax_ne_nan h0, fmin_ne_nan h1, fun t => ?_⟩
  simp only [slabAxis, In, le_fmax_iff h0, le_fmin_iff h1]
  have := slab_core lo hi o d.val d.negZero hle hz t _ rfl
  simp only [quo] at this
  tauto

theorem gt_false_le {a b : F K} (ha : a ≠ nan) (hb : b ≠ nan) (h : F.gt a b = false) :
    F.le a b = true := by
  cases a <;> cases b <;> simp_all [F.gt, F.lt, F.le]

theorem gt_true_not_In {a b : F K} (h : F.gt a b = true) (t : K) : ¬ In a b t := by
  cases a <;> cases b <;> simp_all [F.gt, F.lt, F.le, In]
  intro h'; linarith

/-- monotone bookkeeping: `fmax`/`fmin` only shrink the interval -/
theorem slabAxis_shrinks (lo hi : F K) (o : K) (d : Dir K) (t0 t1 : F K)
    (h0 : t0 ≠ nan) (h1 : t1 ≠ nan) :
    F.le t0 (slabAxis lo hi o d t0 t1).1 = true ∧ F.le (slabAxis lo hi o d t0 t1).2 t1 = true := by
  have key1 : ∀ a b : F K, a ≠ nan → F.le a (fmax a b) = true := by
    intro a b ha
    cases a <;> cases b <;> simp_all [fmax, isNan, F.le, F.lt]
    split_ifs with h
    · simpa using le_of_lt h
    · simp
  have key2 : ∀ a b : F K, a ≠ nan → F.le (fmin a b) a = true := by
    intro a b ha
    cases a <;> cases b <;> simp_all [fmin, isNan, F.le, F.lt]
    split_ifs with h
    · simpa using le_of_lt h
    · simp
  exact ⟨key1 _ _ h0, key2 _ _ h1⟩

/-- crossing a finite slab with a non-zero direction component leaves a bounded interval -/
theorem slabAxis_bounded (lo hi o : K) (d : Dir K) (hd : d.val ≠ 0) (t0 t1 : F K)
    (h0 : t0 ≠ nan) (h1 : t1 ≠ nan) :
    (∃ x, F.le (fin x) (slabAxis (fin lo) (fin hi) o d t0 t1).1 = true) ∧
    (∃ x, F.le (slabAxis (fin lo) (fin hi) o d t0 t1).2 (fin x) = true) := by
  have key1 : ∀ (a : F K) (x : K), a ≠ nan → F.le (fin x) (fmax a (fin x)) = true := by
    intro a x ha
    cases a <;> simp_all [fmax, isNan, F.le, F.lt]
    split_ifs with h <;> simp_all
  have key2 : ∀ (a : F K) (x : K), a ≠ nan → F.le (fmin a (fin x)) (fin x) = true := by
    intro a x ha
    cases a <;> simp_all [fmin, isNan, F.le, F.lt]
    split_ifs with h <;> simp_all
  simp only [slabAxis, subFin, divFin, hd, if_false]
  split_ifs
  · exact ⟨⟨_, key1 _ _ h0⟩, ⟨_, key2 _ _ h1⟩⟩
  · exact ⟨⟨_, key1 _ _ h0⟩, ⟨_, key2 _ _ h1⟩⟩

theorem F_le_trans {a b c : F K} (h : F.le a b = true) (h' : F.le b c = true) : F.le a c = true := by
  cases a <;> cases b <;> cases c <;> simp_all [F.le]
  exact h.trans h'

end BBox
end Verif
