import Verif.Volume.Volume
import Verif.MC.Rounded

/-!
# Ray marching through density regions in rounded arithmetic (C207)

`DensityRegion.tau` (`pytracer/volume/volume.py` 218-235): the loop that starts at line 230, with every operation rounded to binary64. The attenuation
`self.sigma_t(rn(t0), ...)` is a parameter: any function `σ` of the position.
-/

namespace Verif.MarchR
open Verif.Rnd Verif.MCR

/-! ### Model -/

/-- the loop `while t0 < t1: tau += sigma_t(..); t0 += step_size` (volume.py 231-233): it stops with `res` -/
inductive MarchedR (σ : ℝ → ℝ) (step t1 : ℝ) : ℝ → ℝ → ℝ → Prop
  | stop {t0 acc : ℝ} : ¬ t0 < t1 → MarchedR σ step t1 t0 acc acc
  | more {t0 acc res : ℝ} : t0 < t1 → MarchedR σ step t1 (double (t0 + step)) (double (acc + σ t0)) res → MarchedR σ step t1 t0 acc res

/-- volume.py 230-235, for a region that the ray enters at `t0` and leaves at `t1`: `tau` returns `res` -/
def TauR (σ : ℝ → ℝ) (step u t0 t1 res : ℝ) : Prop :=
  ∃ s, MarchedR σ step t1 (double (t0 + double (u * step))) 0 s ∧ res = double (s * step)

/-! ### Specification -/

/-- the unit roundoff -/
noncomputable def eps : ℝ := 2 ^ (-53 : ℤ)

/-- `t` after `k` rounded additions of `step` -/
noncomputable def pos (step t : ℝ) : ℕ → ℝ
  | 0 => t
  | k + 1 => double (pos step t k + step)

/-- the first sample: a fraction `u` of a step past the entry -/
noncomputable def start (step u t0 : ℝ) : ℝ := double (t0 + double (u * step))

/-! ### Lemmas -/

theorem eps_pos : 0 < eps := by unfold eps; positivity

theorem pos_double {step t : ℝ} (ht : IsDouble t) : ∀ k, IsDouble (pos step t k)
  | 0 => ht
  | _ + 1 => isDouble_double _

theorem pos_shift (step t : ℝ) : ∀ k, pos step (double (t + step)) k = pos step t (k + 1)
  | 0 => rfl
  | k + 1 => by rw [pos, pos_shift step t k]; rfl

/-- the rounded running sum over the first `n` samples, from `acc` -/
noncomputable def total (σ : ℝ → ℝ) (step t acc : ℝ) : ℕ → ℝ
  | 0 => acc
  | n + 1 => double (total σ step t acc n + σ (pos step t n))

theorem total_shift (σ : ℝ → ℝ) (step t acc : ℝ) : ∀ n, total σ step (double (t + step)) (double (acc + σ t)) n = total σ step t acc (n + 1)
  | 0 => rfl
  | n + 1 => by rw [total, total_shift σ step t acc n, pos_shift]; rfl

/-- a run of the loop is a number of samples before the exit, the next position being past it -/
theorem marched_iff (σ : ℝ → ℝ) (step t1 t acc res : ℝ) :
    MarchedR σ step t1 t acc res ↔ ∃ n, (∀ k < n, pos step t k < t1) ∧ t1 ≤ pos step t n ∧ res = total σ step t acc n := by
  constructor
  · intro h
    induction h with
    | stop h => exact ⟨0, by simp, not_lt.1 h, rfl⟩
    | @more t0 acc res h _ ih =>
      obtain ⟨n, h1, h2, h3⟩ := ih
      refine ⟨n + 1, fun k hk => ?_, by rwa [pos_shift] at h2, by rwa [total_shift] at h3⟩
      rcases k with _ | k
      · exact h
      · have := h1 k (by omega); rwa [pos_shift] at this
  · rintro ⟨n, h1, h2, h3⟩
    subst h3
    induction n generalizing t acc with
    | zero => exact .stop (not_lt.2 h2)
    | succ n ih =>
      refine .more (h1 0 (by omega)) ?_
      rw [← total_shift]
      refine ih _ _ (fun k hk => ?_) (by rwa [pos_shift])
      rw [pos_shift]; exact h1 (k + 1) (by omega)

theorem first_unique {step t t1 : ℝ} {n m : ℕ} (h1 : ∀ k < n, pos step t k < t1) (h2 : t1 ≤ pos step t n) (h3 : ∀ k < m, pos step t k < t1)
    (h4 : t1 ≤ pos step t m) : n = m := by
  rcases lt_trichotomy n m with h | h | h
  · exact absurd (h3 n h) (not_lt.2 h2)
  · exact h
  · exact absurd (h1 m h) (not_lt.2 h4)

/-- one rounded addition, for a position between bounds -/
theorem step_err {t step M : ℝ} (ht : IsDouble t) (hs : IsDouble step) (hM : |t + step| ≤ M) : |double (t + step) - (t + step)| ≤ eps * M :=
  (add_err ht hs).trans (mul_le_mul_of_nonneg_left hM eps_pos.le)

/-- the positions as long as they are before the exit -/
theorem pos_err {t step t1 M : ℝ} (ht : IsDouble t) (hs : IsDouble step) (hs0 : 0 < step) (hM : |t| + step ≤ M) (hM1 : |t1| + step ≤ M) :
    ∀ n, (∀ k < n, pos step t k < t1) → (∀ k ≤ n, t ≤ pos step t k) ∧ ∀ k ≤ n, |pos step t k - (t + k * step)| ≤ k * (eps * M) := by
  intro n
  induction n with
  | zero =>
    intro _
    refine ⟨fun k hk => ?_, fun k hk => ?_⟩ <;> obtain rfl : k = 0 := by omega
    · exact le_rfl
    · simp [pos]
  | succ n ih =>
    intro h
    obtain ⟨a, b⟩ := ih (fun k hk => h k (by omega))
    have hl := a n le_rfl
    have hn := h n (by omega)
    have hb := b n le_rfl
    have hd : t ≤ pos step t (n + 1) := by
      have : double t ≤ double (pos step t n + step) := double_mono (by linarith)
      rwa [double_of_isDouble ht] at this
    have he : |double (pos step t n + step) - (pos step t n + step)| ≤ eps * M := by
      refine step_err (pos_double ht n) hs (abs_le.2 ⟨?_, ?_⟩)
      · have := neg_abs_le t; linarith
      · have := le_abs_self t1; linarith
    refine ⟨fun k hk => ?_, fun k hk => ?_⟩
    · rcases Nat.lt_or_ge k (n + 1) with hk' | hk'
      · exact a k (by omega)
      · obtain rfl : k = n + 1 := by omega
        exact hd
    · rcases Nat.lt_or_ge k (n + 1) with hk' | hk'
      · exact b k (by omega)
      · obtain rfl : k = n + 1 := by omega
        have e : pos step t (n + 1) - (t + ((n + 1 : ℕ) : ℝ) * step) = (double (pos step t n + step) - (pos step t n + step)) + (pos step t n - (t + n * step)) := by
          rw [pos]; push_cast; ring
        rw [e]
        refine (abs_add_le _ _).trans ?_
        push_cast
        linarith

/-! ### Theorems -/

/-- **C207** the march ends if the step is not tiny against the distances: it takes exactly `n` samples, all before the exit, the next one is not; `n` steps
are the length of the march up to one step and the rounding of the positions, and each position is off by at most one rounding per step -/
theorem C207_terminates (σ : ℝ → ℝ) (step u t0 t1 M : ℝ) (hs : IsDouble step) (hs0 : 0 < step) (hM : |start step u t0| + step ≤ M) (hM1 : |t1| + step ≤ M)
    (hstep : 2 * (eps * M) ≤ step) :
    ∃ n : ℕ, (∀ k < n, pos step (start step u t0) k < t1) ∧ t1 ≤ pos step (start step u t0) n ∧
      (∀ k ≤ n, |pos step (start step u t0) k - (start step u t0 + k * step)| ≤ k * (eps * M)) ∧
      (n : ℝ) * (step - eps * M) < max 0 (t1 - start step u t0) + step ∧ t1 - start step u t0 ≤ n * (step + eps * M) ∧
      ∀ res, TauR σ step u t0 t1 res ↔ res = double (total σ step (start step u t0) 0 n * step) := by
  have ht : IsDouble (start step u t0) := isDouble_double _
  generalize hg : start step u t0 = t at *
  have key : ∀ n, (∀ k < n, pos step t k < t1) → (n : ℝ) * (step - eps * M) < max 0 (t1 - t) + step := by
    intro n h
    have hm := le_max_left 0 (t1 - t)
    rcases n with _ | n
    · simp; linarith
    · obtain ⟨_, b⟩ := pos_err ht hs hs0 hM hM1 (n + 1) h
      have h1 := (abs_le.1 (b n (by omega))).1
      have h2 := h n (by omega)
      have h3 := le_max_right 0 (t1 - t)
      have h4 : 0 < eps * M := mul_pos eps_pos (by have := abs_nonneg t; linarith)
      push_cast
      nlinarith
  have ex : ∃ n, t1 ≤ pos step t n := by
    by_contra hc
    push Not at hc
    obtain ⟨n, hn⟩ := exists_nat_gt ((max 0 (t1 - t) + step) / (step / 2))
    rw [div_lt_iff₀ (by linarith)] at hn
    have := key n (fun k _ => hc k)
    have h5 : (n : ℝ) * (step / 2) ≤ n * (step - eps * M) := mul_le_mul_of_nonneg_left (by linarith) (Nat.cast_nonneg _)
    linarith
  classical
  refine ⟨Nat.find ex, fun k hk => not_le.1 (Nat.find_min ex hk), Nat.find_spec ex, ?_, ?_, ?_, fun res => ?_⟩
  · exact (pos_err ht hs hs0 hM hM1 _ (fun k hk => not_le.1 (Nat.find_min ex hk))).2
  · exact key _ (fun k hk => not_le.1 (Nat.find_min ex hk))
  · have h1 := (abs_le.1 ((pos_err ht hs hs0 hM hM1 _ (fun k hk => not_le.1 (Nat.find_min ex hk))).2 _ le_rfl)).2
    have h2 := Nat.find_spec ex
    nlinarith
  · unfold TauR
    change (∃ s, MarchedR σ step t1 (start step u t0) 0 s ∧ _) ↔ _
    rw [hg]
    constructor
    · rintro ⟨s, h, rfl⟩
      obtain ⟨n, h1, h2, rfl⟩ := (marched_iff _ _ _ _ _ _).1 h
      rw [first_unique h1 h2 (fun k hk => not_le.1 (Nat.find_min ex hk)) (Nat.find_spec ex)]
    · rintro rfl
      exact ⟨_, (marched_iff _ _ _ _ _ _).2 ⟨_, fun k hk => not_le.1 (Nat.find_min ex hk), Nat.find_spec ex, rfl⟩, rfl⟩

/-- **C207** the rounded sum of `n` samples of non-negative attenuation is the exact sum of those samples up to one relative rounding per sample -/
theorem C207_sum (σ : ℝ → ℝ) (step t : ℝ) (hσ : ∀ x, IsDouble (σ x) ∧ 0 ≤ σ x) (n : ℕ) :
    (1 - eps) ^ n * ∑ k ∈ Finset.range n, σ (pos step t k) ≤ total σ step t 0 n ∧
    total σ step t 0 n ≤ (1 + eps) ^ n * ∑ k ∈ Finset.range n, σ (pos step t k) := by
  have e1 : eps ≤ 1 := by unfold eps; norm_num
  have e0 := eps_pos
  have hd : ∀ n, IsDouble (total σ step t 0 n) := by
    intro n
    cases n with
    | zero => exact ⟨0, 0, by norm_num, by norm_num, by simp [total]⟩
    | succ n => exact isDouble_double _
  induction n with
  | zero => simp [total]
  | succ n ih =>
    obtain ⟨a, b⟩ := ih
    obtain ⟨s1, s0⟩ := hσ (pos step t n)
    rw [Finset.sum_range_succ, total]
    generalize hS : ∑ k ∈ Finset.range n, σ (pos step t k) = S at *
    have S0 : 0 ≤ S := hS ▸ Finset.sum_nonneg (fun k _ => (hσ _).2)
    have hT := hd n
    generalize total σ step t 0 n = T at *
    have p0 : 0 ≤ (1 - eps) ^ n := pow_nonneg (by linarith) _
    have p1 : (1 - eps) ^ n ≤ 1 := pow_le_one₀ (by linarith) (by linarith)
    have q1 : 1 ≤ (1 + eps) ^ n := one_le_pow₀ (by linarith)
    have T0 : 0 ≤ T := (mul_nonneg p0 S0).trans a
    have h := add_err hT s1
    change _ ≤ eps * _ at h
    rw [abs_of_nonneg (add_nonneg T0 s0), abs_le] at h
    generalize σ (pos step t n) = s at *
    rw [pow_succ, pow_succ]
    generalize (1 - eps) ^ n = P at *
    generalize (1 + eps) ^ n = Q at *
    constructor
    · have h1 : P * (S + s) ≤ T + s := by nlinarith
      have h2 : (1 - eps) * (P * (S + s)) ≤ (1 - eps) * (T + s) := mul_le_mul_of_nonneg_left h1 (by linarith)
      nlinarith [h.1]
    · have h1 : T + s ≤ Q * (S + s) := by nlinarith
      have h2 : (1 + eps) * (T + s) ≤ (1 + eps) * (Q * (S + s)) := mul_le_mul_of_nonneg_left h1 (by linarith)
      nlinarith [h.2]

/-- **C207** whatever the march returns is not negative -/
theorem C207_nonneg (σ : ℝ → ℝ) (step u t0 t1 res : ℝ) (hs0 : 0 ≤ step) (hσ : ∀ x, IsDouble (σ x) ∧ 0 ≤ σ x) (h : TauR σ step u t0 t1 res) : 0 ≤ res := by
  obtain ⟨s, h, rfl⟩ := h
  obtain ⟨n, _, _, rfl⟩ := (marched_iff _ _ _ _ _ _).1 h
  have e1 : eps ≤ 1 := by unfold eps; norm_num
  exact d_nonneg (mul_nonneg ((mul_nonneg (pow_nonneg (by linarith) _) (Finset.sum_nonneg (fun k _ => (hσ _).2))).trans (C207_sum σ step _ hσ n).1) hs0)

/-- a step of less than a quarter of the distance between neighbouring floats is lost -/
theorem lost {t step : ℝ} (ht : IsDouble t) (hn : (2 : ℝ) ^ (-1022 : ℤ) ≤ t) (hs0 : 0 ≤ step) (hs : step < 2 ^ (-54 : ℤ) * t) : double (t + step) = t := by
  have t0 : 0 < t := lt_of_lt_of_le (by positivity) hn
  have hd := double_of_isDouble ht
  have hlog : (2 : ℝ) ^ Int.log 2 t ≤ t := Int.zpow_log_le_self (by norm_num) t0
  have hL : -1022 ≤ Int.log 2 t := by
    have := Int.log_mono_right (b := 2) (by positivity) hn
    have e : Int.log 2 ((2:ℝ) ^ (-1022 : ℤ)) = -1022 := by
      have := Int.log_zpow (R := ℝ) (b := 2) (by norm_num) (-1022)
      simpa using this
    rwa [e] at this
  have hu : ulpExp t = Int.log 2 t - 52 := by
    unfold ulpExp; rw [abs_of_pos t0]; exact max_eq_left (by omega)
  have hlt := abs_lt_ulp t
  rw [abs_of_pos t0] at hlt
  unfold double at hd
  generalize hm : rne (t / 2 ^ ulpExp t) = m at hd
  have hE : (2 : ℝ) ^ 52 * 2 ^ ulpExp t ≤ t := by
    rw [hu]
    refine le_trans (le_of_eq ?_) hlog
    rw [← zpow_natCast, ← zpow_add₀ (by norm_num)]; congr 1; push_cast; ring
  have he : -1074 ≤ ulpExp t := le_max_right _ _
  generalize ulpExp t = e at *
  have pe : (0 : ℝ) < 2 ^ e := by positivity
  generalize hP : (2 : ℝ) ^ e = P at *
  have hm53 : (m : ℝ) < 2 ^ 53 := by rw [← hd] at hlt; exact lt_of_mul_lt_mul_right hlt pe.le
  have hm53' : (m : ℝ) + 1 ≤ 2 ^ 53 := by
    have : m < 2 ^ 53 := by exact_mod_cast hm53
    exact_mod_cast this
  have hs' : step < P / 2 := by
    refine hs.trans ?_
    have : (2 : ℝ) ^ (-54 : ℤ) * (2 ^ 53 * P) = P / 2 := by norm_num; ring
    rw [← this]
    exact mul_lt_mul_of_pos_left hlt (by positivity)
  have := double_eq (x := t + step) m e he ?_ (by rw [hP]; linarith) ?_
  · rw [this, hP, hd]
  · left
    rw [hP]
    have : (t + step) / P - m = step / P := by rw [← hd]; field_simp; ring
    rw [this, abs_of_nonneg (by positivity), div_lt_iff₀ pe]; linarith
  · rw [hP, ← hd]; nlinarith

/-- **C207** for steps that are tiny against the distance of the first sample the march never ends: the step is lost in rounding, the position stays where it
is -/
theorem C207_stuck_false (σ : ℝ → ℝ) (step u t0 t1 : ℝ) (hs0 : 0 ≤ step) (hn : (2 : ℝ) ^ (-1022 : ℤ) ≤ start step u t0)
    (hs : step < 2 ^ (-54 : ℤ) * start step u t0) (h1 : start step u t0 < t1) : ∀ res, ¬ TauR σ step u t0 t1 res := by
  rintro res ⟨s, h, -⟩
  obtain ⟨n, _, h2, _⟩ := (marched_iff _ _ _ _ _ _).1 h
  have hl : double (start step u t0 + step) = start step u t0 := lost (isDouble_double _ : IsDouble (start step u t0)) hn hs0 hs
  have : ∀ k, pos step (start step u t0) k = start step u t0 := by
    intro k
    induction k with
    | zero => rfl
    | succ k ih => rw [pos, ih, hl]
  have h3 := this n
  unfold start at h3 h1
  rw [h3] at h2
  linarith

/-- **C207** the first sample is a fraction `u` of a step past the entry, up to two roundings -/
theorem C207_start (step u t0 : ℝ) (ht : IsDouble t0) (hs0 : 0 ≤ step) (hu0 : 0 ≤ u) (hu1 : u ≤ 1) :
    |start step u t0 - (t0 + u * step)| ≤ eps * (|t0| + 3 * step) + 2 ^ (-1074 : ℤ) := by
  have hp : 0 ≤ u * step := mul_nonneg hu0 hs0
  have hp1 : u * step ≤ step := mul_le_of_le_one_left hs0 hu1
  have e1 : |double (u * step) - u * step| ≤ eps * (u * step) + 2 ^ (-1075 : ℤ) := by
    have := double_err (u * step)
    rwa [abs_of_nonneg hp] at this
  have e2 : |start step u t0 - (t0 + double (u * step))| ≤ eps * |t0 + double (u * step)| := add_err ht (isDouble_double _)
  have e0 := eps_pos
  have hh : eps ≤ 1 / 4 := by unfold eps; norm_num
  have hz : (2 : ℝ) ^ (-1074 : ℤ) = 2 * 2 ^ (-1075 : ℤ) := by
    rw [show (-1074 : ℤ) = 1 + -1075 by norm_num, zpow_add₀ (by norm_num)]; norm_num
  have z0 : (0 : ℝ) < 2 ^ (-1075 : ℤ) := by positivity
  rw [hz]
  generalize (2 : ℝ) ^ (-1075 : ℤ) = z at *
  generalize double (u * step) = w at *
  generalize start step u t0 = s at *
  have e3 : |t0 + w| ≤ |t0| + |w| := abs_add_le _ _
  have e4 : |w| ≤ (1 + eps) * (u * step) + z := by
    have := abs_le.1 e1
    rw [abs_le]; constructor <;> nlinarith
  have e5 : |s - (t0 + u * step)| ≤ |s - (t0 + w)| + |w - u * step| := by
    have : s - (t0 + u * step) = (s - (t0 + w)) + (w - u * step) := by ring
    rw [this]; exact abs_add_le _ _
  have e6 : eps * |t0 + w| ≤ eps * (|t0| + ((1 + eps) * (u * step) + z)) := mul_le_mul_of_nonneg_left (by linarith) e0.le
  nlinarith [mul_le_mul_of_nonneg_left hp1 e0.le, mul_le_mul_of_nonneg_left (mul_le_mul_of_nonneg_left hp1 e0.le) e0.le, mul_nonneg e0.le hs0]

/-- **C207** for constant attenuation and marches whose entry and exit are at most a million steps from the origin of the ray: the march ends, and what it
returns is within 1.01 steps' worth of the exact thickness from the first sample to the exit -/
theorem C207_constant (step u t0 t1 c : ℝ) (hs : IsDouble step) (hs0 : 0 < step) (hc : IsDouble c) (hc0 : 0 ≤ c) (h1 : start step u t0 ≤ t1)
    (hM : |start step u t0| ≤ 10 ^ 6 * step) (hM1 : |t1| ≤ 10 ^ 6 * step) :
    ∃ res, TauR (fun _ => c) step u t0 t1 res ∧ |res - c * (t1 - start step u t0)| ≤ 1.01 * (c * step) + 2 ^ (-1075 : ℤ) := by
  have he : eps ≤ 1 / 9000000000000000 := by unfold eps; norm_num
  have e0 := eps_pos
  have heM : eps * (1000001 * step) ≤ step / 8000000000 := by nlinarith
  obtain ⟨n, a, b, -, d1, d2, hr⟩ := C207_terminates (fun _ => c) step u t0 t1 (1000001 * step) hs hs0 (by norm_num at hM ⊢; linarith) (by norm_num at hM1 ⊢; linarith) (by linarith)
  refine ⟨_, (hr _).2 rfl, ?_⟩
  obtain ⟨s1, s2⟩ := C207_sum (fun _ => c) step (start step u t0) (fun _ => ⟨hc, hc0⟩) n
  generalize total (fun _ => c) step (start step u t0) 0 n = T at *
  simp only [Finset.sum_const, Finset.card_range, nsmul_eq_mul] at s1 s2
  have hm := abs_le.1 hM
  have hm1 := abs_le.1 hM1
  rw [max_eq_right (by linarith)] at d1
  have hL0 : 0 ≤ t1 - start step u t0 := by linarith
  have hL : t1 - start step u t0 ≤ 2 * 10 ^ 6 * step := by linarith [hm.1, hm1.2]
  generalize t1 - start step u t0 = L at *
  have n0 : (0 : ℝ) ≤ n := Nat.cast_nonneg n
  have hn : (n : ℝ) ≤ 2000002 := by
    have : (n : ℝ) * (step - step / 8000000000) < 2000001 * step := by
      have := mul_le_mul_of_nonneg_left (sub_le_sub_left heM step) n0
      norm_num at hL
      linarith
    by_contra hc
    push Not at hc
    nlinarith
  have bern : 1 - n * eps ≤ (1 - eps) ^ n := by
    have := one_add_mul_le_pow (a := -eps) (by linarith) n
    have e : (1 + -eps) = 1 - eps := by ring
    rw [e] at this
    linarith
  have hne : n * eps ≤ 1 / 4000000000 := by nlinarith
  have up : (1 + eps) ^ n ≤ 1 + 2 * (n * eps) := by
    have h2 : (1 + eps) ^ n * (1 - eps) ^ n ≤ 1 := by
      rw [← mul_pow]; exact pow_le_one₀ (by nlinarith) (by nlinarith)
    have h3 : 0 ≤ (1 + eps) ^ n := by positivity
    have hne0 : 0 ≤ n * eps := by positivity
    generalize (1 + eps) ^ n = Q at *
    generalize (1 - eps) ^ n = P at *
    generalize (n : ℝ) * eps = q at *
    have h4 : Q * (1 - q) ≤ 1 := (mul_le_mul_of_nonneg_left bern h3).trans h2
    by_contra hcc
    push Not at hcc
    nlinarith
  have nc0 : 0 ≤ (n : ℝ) * c := by positivity
  have t1' : (1 - 1 / 4000000000) * (n * c) ≤ T := le_trans (mul_le_mul_of_nonneg_right (by linarith) nc0) s1
  have t2' : T ≤ (1 + 1 / 2000000000) * (n * c) := s2.trans (mul_le_mul_of_nonneg_right (by linarith) nc0)
  have T0 : 0 ≤ T := le_trans (by positivity) t1'
  have hf := double_err (T * step)
  rw [abs_of_nonneg (mul_nonneg T0 hs0.le)] at hf
  change _ ≤ eps * _ + _ at hf
  generalize (2 : ℝ) ^ (-1075 : ℤ) = z at *
  have k1 := mul_le_mul_of_nonneg_right t1' hs0.le
  have k2 := mul_le_mul_of_nonneg_right t2' hs0.le
  have g : eps * (T * step) ≤ 1 / 9000000000000000 * (T * step) := mul_le_mul_of_nonneg_right he (mul_nonneg T0 hs0.le)
  -- the number of steps against the length
  have w1 : (n : ℝ) * step ≤ L + step + step / 1000 := by
    have := mul_le_mul_of_nonneg_left heM n0
    have h5 : (n : ℝ) * (step / 8000000000) ≤ 2000002 * (step / 8000000000) := mul_le_mul_of_nonneg_right hn (by positivity)
    linarith
  have w2 : L ≤ (n : ℝ) * step + step / 1000 := by
    have := mul_le_mul_of_nonneg_left heM n0
    have h5 : (n : ℝ) * (step / 8000000000) ≤ 2000002 * (step / 8000000000) := mul_le_mul_of_nonneg_right hn (by positivity)
    linarith
  have v1 := mul_le_mul_of_nonneg_left w1 hc0
  have v2 := mul_le_mul_of_nonneg_left w2 hc0
  have v3 := mul_le_mul_of_nonneg_left hL hc0
  have x1 : (n : ℝ) * c * step = c * (n * step) := by ring
  have x2 : (1 - 1 / 4000000000) * ((n : ℝ) * c) * step = (1 - 1 / 4000000000) * (c * (n * step)) := by ring
  have x3 : (1 + 1 / 2000000000) * ((n : ℝ) * c) * step = (1 + 1 / 2000000000) * (c * (n * step)) := by ring
  rw [x2] at k1
  rw [x3] at k2
  have cs : 0 ≤ c * step := mul_nonneg hc0 hs0.le
  have y1 : c * (L + step + step / 1000) = c * L + c * step + c * step / 1000 := by ring
  have y2 : c * ((n : ℝ) * step + step / 1000) = c * (n * step) + c * step / 1000 := by ring
  have y3 : c * (2 * 10 ^ 6 * step) = 2000000 * (c * step) := by ring
  rw [y1] at v1
  rw [y2] at v2
  rw [y3] at v3
  have hf' := abs_le.1 hf
  clear * - hf' g k1 k2 v1 v2 v3 cs
  generalize double (T * step) = R at *
  generalize T * step = U at *
  generalize c * (n * step) = W at *
  generalize c * step = V at *
  generalize c * L = X at *
  norm_num at *
  rw [abs_le]
  constructor <;> linarith [hf'.1, hf'.2]

/-- a region from 1 to 3, marched in steps of 1/2 -/
example : IsDouble (1 / 2 : ℝ) ∧ |start (1 / 2) 0 1| + 1 / 2 ≤ 4 ∧ |(3 : ℝ)| + 1 / 2 ≤ 4 ∧ 2 * (eps * 4) ≤ (1 / 2 : ℝ) := by
  have : start (1 / 2) 0 1 = 1 := by simp [start, double_zero, d_one]
  refine ⟨⟨1, -1, by norm_num, by norm_num, by norm_num⟩, by rw [this]; norm_num, by norm_num, by unfold eps; norm_num⟩

/-- a region from 1 to 3, marched in steps of `2^-55` -/
example (σ : ℝ → ℝ) : ∀ res, ¬ TauR σ (2 ^ (-55 : ℤ)) 0 1 3 res := by
  have : start (2 ^ (-55 : ℤ)) 0 1 = 1 := by simp [start, double_zero, d_one]
  refine C207_stuck_false σ _ 0 1 3 (by positivity) ?_ ?_ ?_ <;> rw [this]
  · exact zpow_le_one_of_nonpos₀ (by norm_num) (by norm_num)
  · norm_num
  · norm_num

end Verif.MarchR
