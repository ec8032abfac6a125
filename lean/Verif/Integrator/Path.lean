import Verif.Integrator.Direct

/-!
# Path integrator (`PathIntegrator.li`, `pytracer/integrator/surface/path.py:44-144`): property C144

For fixed random numbers the loop meets a sequence of vertices.  `Vtx` is what the loop obtains at one of them: the light emitted towards the ray (line 79), the direct lighting (lines 91-98), the sample of the BSDF
(line 107) with `|wi . n|`, and what lies along the sampled direction (lines 129-138).  How these are computed is modelled elsewhere (`Direct.lean`, `Reflection/*`, `Light/*`, `Volume/*`).  The number of the roulette at
each vertex (line 119) is kept apart.  A spectrum is a real-valued function of the channel; rounding is not modelled.
-/
namespace Verif.Integrator.Path
open Verif Bsdf

variable {ι : Type*}

/-- one vertex of the path -/
structure Vtx (ι : Type*) where
  emit : ι → ℝ
  direct : ι → ℝ
  f : ι → ℝ
  pdf : ℝ
  cos : ℝ
  flags : Flags
  hit : Bool
  env : List (ι → ℝ)
  tr : ι → ℝ

/-- `CoefficientSpectrum.is_black` (`spectrum.py:182-187`); `1e-5` is `EPS` (`pytracer/__init__.py:23`) -/
def black (s : ι → ℝ) : Prop := ∀ c, s c < 1e-5

/-- Python's `x != 0` for a `BDFType` object `x` (`bdf.py:23-70`): the class defines no comparison, so the object is compared with the number by identity -/
def bdfNeZero (_ : Flags) : Bool := true

open Classical in
/-- the `while` loop (`path.py:71-144`) from bounce `cnt` on, with `path_throughput` `T`, `specular_bounce` `sp` and the sum `L`; `y` is `Spectrum.y`, `us k` the number drawn on line 119 at bounce `k`.  With `rr = false`
the roulette of lines 117-123 is left out (not in the code).  `none`: the fuel is used up. -/
noncomputable def loop (y : (ι → ℝ) → ℝ) (v : ℕ → Vtx ι) (us : ℕ → ℝ) (maxDepth : ℤ) (rr : Bool) : ℕ → ℕ → (ι → ℝ) → Bool → (ι → ℝ) → Option (ι → ℝ)
  | 0, _, _, _, _ => none
  | fuel + 1, cnt, T, sp, L =>
    let L1 := if cnt = 0 ∨ sp = true then fun c => L c + T c * (v cnt).emit c else L
    let L2 := fun c => L1 c + T c * (v cnt).direct c
    if black (v cnt).f ∨ (v cnt).pdf = 0 then some L2 else
    let sp' := bdfNeZero ((v cnt).flags &&& SPECULAR)
    let T1 := fun c => T c * ((v cnt).f c * (v cnt).cos / (v cnt).pdf)
    let q := min (1 / 2) (y T1)
    if rr = true ∧ 3 < cnt ∧ us cnt > q then some L2 else
    let T2 := if rr = true ∧ 3 < cnt then fun c => T1 c / q else T1
    if (cnt : ℤ) = maxDepth then some L2 else
    if (v cnt).hit = false then
      some (if sp' = true then (v cnt).env.foldl (fun L e c => L c + T2 c * e c) L2 else L2)
    else
      let T3 := if 1 < cnt then fun c => T2 c * (v cnt).tr c else T2
      loop y v us maxDepth rr fuel (cnt + 1) T3 sp' L2

/-- `PathIntegrator.li` (`path.py:44-144`): lines 49-70 start the loop with throughput one, no specular bounce and sum zero -/
noncomputable def li (y : (ι → ℝ) → ℝ) (v : ℕ → Vtx ι) (us : ℕ → ℝ) (maxDepth : ℕ) (rr : Bool) : Option (ι → ℝ) :=
  loop y v us maxDepth rr (maxDepth + 1) 0 (fun _ => 1) false (fun _ => 0)

/-! ## Specification -/

/-- the BSDF component sampled at vertex `k` is specular -/
def Specular (v : ℕ → Vtx ι) (k : ℕ) : Prop := (v k).flags &&& SPECULAR ≠ 0

/-- the factor of bounce `j`: `f |cos| / pdf` -/
noncomputable def bounce (v : ℕ → Vtx ι) (j : ℕ) (c : ι) : ℝ := (v j).f c * (v j).cos / (v j).pdf

/-- the product of the factors of the first `k` bounces, each attenuated by the medium between vertex `j` and the next, from the third segment on -/
noncomputable def weight (v : ℕ → Vtx ι) (k : ℕ) (c : ι) : ℝ := ∏ j ∈ Finset.range k, bounce v j c * (if 1 < j then (v j).tr c else 1)

/-- the path ends at vertex `k` -/
def Ends (v : ℕ → Vtx ι) (maxDepth k : ℕ) : Prop := (∀ c, (v k).f c < 1e-5) ∨ (v k).pdf = 0 ∨ k = maxDepth ∨ (v k).hit = false

/-- the path leaves the scene from vertex `k` -/
def Leaves (v : ℕ → Vtx ι) (maxDepth k : ℕ) : Prop := ¬ (∀ c, (v k).f c < 1e-5) ∧ (v k).pdf ≠ 0 ∧ k ≠ maxDepth ∧ (v k).hit = false

open Classical in
/-- what path tracing should give for a path that ends at vertex `n`, where `sp k` says that bounce `k` was specular: direct light at every vertex, emitted light at the first vertex and after specular bounces (elsewhere
it is part of the direct light), and the light from outside the scene if the path leaves it by a specular bounce -/
noncomputable def radiance (v : ℕ → Vtx ι) (sp : ℕ → Prop) (maxDepth n : ℕ) (c : ι) : ℝ :=
  (∑ k ∈ Finset.range (n + 1), weight v k c * ((if k = 0 ∨ ∃ j, k = j + 1 ∧ sp j then (v k).emit c else 0) + (v k).direct c)) +
  if Leaves v maxDepth n ∧ sp n then weight v n c * bounce v n c * ((v n).env.map (· c)).sum else 0

/-- mean over the numbers of the roulette at bounces `k, …, k + n - 1`, each uniform in `[0, 1]` and independent -/
noncomputable def mean : ℕ → ℕ → ((ℕ → ℝ) → ℝ) → (ℕ → ℝ) → ℝ
  | _, 0, F, us => F us
  | k, n + 1, F, us => ∫ u in (0:ℝ)..1, mean (k + 1) n F (Function.update us k u)

/-! ## Proofs -/

open Classical in
/-- radiance per unit of throughput of the path from bounce `cnt` on, without roulette; `n` more bounces are allowed -/
noncomputable def tail (v : ℕ → Vtx ι) (sp : Bool) : ℕ → ℕ → ι → ℝ
  | n, cnt, c => (if cnt = 0 ∨ sp = true then (v cnt).emit c else 0) + (v cnt).direct c +
    if black (v cnt).f ∨ (v cnt).pdf = 0 then 0 else
      match n with
      | 0 => 0
      | n + 1 => bounce v cnt c * (if (v cnt).hit = false then (if bdfNeZero ((v cnt).flags &&& SPECULAR) = true then ((v cnt).env.map (· c)).sum else 0)
          else (if 1 < cnt then (v cnt).tr c else 1) * tail v (bdfNeZero ((v cnt).flags &&& SPECULAR)) n (cnt + 1) c)

theorem bdf_true (x : Flags) : bdfNeZero x = true := rfl

theorem foldl_env (T : ι → ℝ) (es : List (ι → ℝ)) (L : ι → ℝ) (c : ι) : es.foldl (fun L e c => L c + T c * e c) L c = L c + T c * (es.map (· c)).sum := by
  induction es generalizing L with
  | nil => simp
  | cons e es ih => rw [List.foldl_cons, ih]; simp only [List.map_cons, List.sum_cons]; ring

/-- without roulette the loop adds throughput times `tail` -/
theorem loop_tail (y : (ι → ℝ) → ℝ) (v : ℕ → Vtx ι) (us : ℕ → ℝ) (maxDepth : ℕ) (n : ℕ) :
    ∀ (cnt : ℕ) (T : ι → ℝ) (sp : Bool) (L : ι → ℝ), cnt + n = maxDepth → loop y v us maxDepth false (n + 1) cnt T sp L = some fun c => L c + T c * tail v sp n cnt c := by
  induction n with
  | zero =>
    intro cnt T sp L h
    have hc : (cnt : ℤ) = maxDepth := by omega
    simp only [loop, hc, Bool.false_eq_true, false_and, if_false, if_true]
    split_ifs <;> congr 1 <;> funext c <;> simp only [tail] <;> simp_all <;> ring
  | succ n ih =>
    intro cnt T sp L h
    have hc : ¬ (cnt : ℤ) = maxDepth := by omega
    rw [loop]
    simp only [hc, Bool.false_eq_true, false_and, if_false]
    by_cases hb : black (v cnt).f ∨ (v cnt).pdf = 0
    · simp only [if_pos hb]
      congr 1; funext c
      rw [tail, if_pos hb]
      split_ifs <;> ring
    · simp only [if_neg hb]
      by_cases hh : (v cnt).hit = false
      · simp only [hh, if_true]
        congr 1; funext c
        rw [tail, if_neg hb]
        rw [if_pos (bdf_true _), foldl_env]
        simp only [hh, if_true, bdf_true, bounce]
        split_ifs <;> ring
      · rw [if_neg hh, ih (cnt + 1) _ _ _ (by omega)]
        congr 1; funext c
        rw [tail, if_neg hb]
        rw [if_neg hh]
        simp only [bounce]
        split_ifs <;> ring

theorem mean_congr (n : ℕ) : ∀ (k : ℕ) (F G : (ℕ → ℝ) → ℝ) (us : ℕ → ℝ), (∀ us', (∀ j < k, us' j = us j) → F us' = G us') → mean k n F us = mean k n G us := by
  induction n with
  | zero => intro k F G us h; exact h us fun _ _ => rfl
  | succ n ih =>
    intro k F G us h
    simp only [mean]
    congr 1; funext u
    apply ih
    intro us' hu
    apply h
    intro j hj
    rw [hu j (by omega), Function.update_of_ne (by omega)]

theorem mean_const (n : ℕ) : ∀ (k : ℕ) (x : ℝ) (us : ℕ → ℝ), mean k n (fun _ => x) us = x := by
  induction n with
  | zero => intro k x us; rfl
  | succ n ih => intro k x us; simp [mean, ih]

theorem roulette_mean (q a b : ℝ) (h0 : 0 < q) (h1 : q ≤ 1) : ∫ u in (0:ℝ)..1, (if u > q then a else a + b / q) = a + b := by
  have i1 : IntervalIntegrable (fun u : ℝ => if u > q then a else a + b / q) MeasureTheory.volume 0 q := by
    refine (intervalIntegrable_const (c := a + b / q)).congr ?_
    intro u hu
    rw [Set.uIoc_of_le h0.le] at hu
    simp only [gt_iff_lt, not_lt.2 hu.2, if_false]
  have i2 : IntervalIntegrable (fun u : ℝ => if u > q then a else a + b / q) MeasureTheory.volume q 1 := by
    refine (intervalIntegrable_const (c := a)).congr ?_
    intro u hu
    rw [Set.uIoc_of_le h1] at hu
    simp only [gt_iff_lt, hu.1, if_true]
  rw [← intervalIntegral.integral_add_adjacent_intervals i1 i2]
  have e1 : ∫ u in (0:ℝ)..q, (if u > q then a else a + b / q) = ∫ _u in (0:ℝ)..q, (a + b / q) := by
    apply intervalIntegral.integral_congr
    intro u hu
    rw [Set.uIcc_of_le h0.le] at hu
    simp only [gt_iff_lt, not_lt.2 hu.2, if_false]
  have e2 : ∫ u in q..1, (if u > q then a else a + b / q) = ∫ _u in q..1, a := by
    rw [intervalIntegral.integral_of_le h1, intervalIntegral.integral_of_le h1]
    apply MeasureTheory.setIntegral_congr_fun measurableSet_Ioc
    intro u hu
    simp only [gt_iff_lt, hu.1, if_true]
  rw [e1, e2]
  simp only [intervalIntegral.integral_const, smul_eq_mul]
  field_simp
  ring

/-- what must be known of the vertices: no negative light transport -/
structure Nonneg (v : ℕ → Vtx ι) : Prop where
  f : ∀ k c, 0 ≤ (v k).f c
  pdf : ∀ k, 0 ≤ (v k).pdf
  cos : ∀ k, 0 ≤ (v k).cos
  tr : ∀ k c, 0 ≤ (v k).tr c

/-- the value of a finished run -/
def val (o : Option (ι → ℝ)) (c : ι) : ℝ := match o with | some s => s c | none => 0

theorem loop_mean [Fintype ι] (wt : ι → ℝ) (hw : ∀ c, 0 < wt c) (v : ℕ → Vtx ι) (hv : Nonneg v) (maxDepth : ℕ) (c : ι) (n : ℕ) :
    ∀ (cnt : ℕ) (T : ι → ℝ) (sp : Bool) (L : ι → ℝ) (us : ℕ → ℝ), (∀ c, 0 ≤ T c) → cnt + n = maxDepth →
      mean cnt (n + 1) (fun us => val (loop (fun s => ∑ c, wt c * s c) v us maxDepth true (n + 1) cnt T sp L) c) us = L c + T c * tail v sp n cnt c := by
  induction n with
  | zero =>
    intro cnt T sp L us hT h
    have hc : (cnt : ℤ) = maxDepth := by omega
    have e : ∀ us : ℕ → ℝ, val (loop (fun s => ∑ c, wt c * s c) v us maxDepth true 1 cnt T sp L) c = L c + T c * tail v sp 0 cnt c := by
      intro us
      simp only [loop, hc, if_true]
      split_ifs <;> simp only [val, tail] <;> simp_all <;> ring
    simp only [e]
    exact mean_const _ _ _ _
  | succ n ih =>
    intro cnt T sp L us hT h
    have hc : ¬ (cnt : ℤ) = maxDepth := by omega
    by_cases hb : black (v cnt).f ∨ (v cnt).pdf = 0
    · have e : ∀ us : ℕ → ℝ, val (loop (fun s => ∑ c, wt c * s c) v us maxDepth true (n + 1 + 1) cnt T sp L) c = L c + T c * tail v sp (n + 1) cnt c := by
        intro us
        rw [loop]
        simp only [if_pos hb]
        rw [tail, if_pos hb]
        simp only [val]
        split_ifs <;> ring
      simp only [e]
      exact mean_const _ _ _ _
    -- throughput after the bounce
    set T1 : ι → ℝ := fun c => T c * ((v cnt).f c * (v cnt).cos / (v cnt).pdf) with hT1
    have hT1n : ∀ c, 0 ≤ T1 c := fun c => mul_nonneg (hT c) (div_nonneg (mul_nonneg (hv.f _ _) (hv.cos _)) (hv.pdf _))
    set q : ℝ := min (1 / 2) (∑ c, wt c * T1 c) with hq
    set L2 : ι → ℝ := fun c => (if cnt = 0 ∨ sp = true then fun c => L c + T c * (v cnt).emit c else L) c + T c * (v cnt).direct c with hL2
    -- what follows the roulette, per unit of throughput
    set R : ℝ := (if (v cnt).hit = false then (if bdfNeZero ((v cnt).flags &&& SPECULAR) = true then ((v cnt).env.map (· c)).sum else 0)
          else (if 1 < cnt then (v cnt).tr c else 1) * tail v (bdfNeZero ((v cnt).flags &&& SPECULAR)) n (cnt + 1) c) with hR
    have htail : L c + T c * tail v sp (n + 1) cnt c = L2 c + T1 c * R := by
      rw [tail, if_neg hb]
      simp only [hL2, hT1, hR, bounce]
      split_ifs <;> ring
    rw [htail]
    -- mean of the rest for a given number
    have rest : ∀ (T2 : ι → ℝ) (us : ℕ → ℝ), (∀ c, 0 ≤ T2 c) →
        mean (cnt + 1) (n + 1) (fun us => val (if (v cnt).hit = false then
            some (if bdfNeZero ((v cnt).flags &&& SPECULAR) = true then (v cnt).env.foldl (fun L e c => L c + T2 c * e c) L2 else L2)
          else loop (fun s => ∑ c, wt c * s c) v us maxDepth true (n + 1) (cnt + 1) (if 1 < cnt then fun c => T2 c * (v cnt).tr c else T2) (bdfNeZero ((v cnt).flags &&& SPECULAR)) L2) c) us = L2 c + T2 c * R := by
      intro T2 us hT2
      by_cases hh : (v cnt).hit = false
      · simp only [hh, if_true, hR]
        rw [mean_const, if_pos (bdf_true _), if_pos (bdf_true _)]
        exact foldl_env _ _ _ _
      · simp only [if_neg hh, hR]
        rw [ih (cnt + 1) _ _ _ _ ?_ (by omega)]
        · split_ifs <;> ring
        · intro c
          split_ifs
          · exact mul_nonneg (hT2 c) (hv.tr _ _)
          · exact hT2 c
    have step : ∀ us : ℕ → ℝ, loop (fun s => ∑ c, wt c * s c) v us maxDepth true (n + 1 + 1) cnt T sp L =
        if 3 < cnt ∧ us cnt > q then some L2 else if (v cnt).hit = false then
            some (if bdfNeZero ((v cnt).flags &&& SPECULAR) = true then (v cnt).env.foldl (fun L e c => L c + (if 3 < cnt then fun c => T1 c / q else T1) c * e c) L2 else L2)
          else loop (fun s => ∑ c, wt c * s c) v us maxDepth true (n + 1) (cnt + 1) (if 1 < cnt then fun c => (if 3 < cnt then fun c => T1 c / q else T1) c * (v cnt).tr c else (if 3 < cnt then fun c => T1 c / q else T1))
            (bdfNeZero ((v cnt).flags &&& SPECULAR)) L2 := by
      intro us
      rw [loop]
      simp only [if_neg hb, hc, if_false, true_and]
      rfl
    rw [mean]
    by_cases h3 : 3 < cnt
    · -- the roulette
      have inner : ∀ u : ℝ, mean (cnt + 1) (n + 1) (fun us => val (loop (fun s => ∑ c, wt c * s c) v us maxDepth true (n + 1 + 1) cnt T sp L) c) (Function.update us cnt u) =
          if u > q then L2 c else L2 c + T1 c * R / q := by
        intro u
        have hu : ∀ us' : ℕ → ℝ, (∀ j < cnt + 1, us' j = Function.update us cnt u j) → us' cnt = u := fun us' h' => by rw [h' cnt (by omega), Function.update_self]
        by_cases hgt : u > q
        · rw [if_pos hgt, mean_congr _ _ _ (fun _ => L2 c)]
          · exact mean_const _ _ _ _
          · intro us' h'
            rw [step us', hu us' h', if_pos ⟨h3, hgt⟩]
            rfl
        · rw [if_neg hgt]
          have hq0 : (0:ℝ) ≤ q := le_min (by norm_num) (Finset.sum_nonneg fun c _ => mul_nonneg (hw c).le (hT1n c))
          have := rest (fun c => T1 c / q) (Function.update us cnt u) (fun c => div_nonneg (hT1n c) hq0)
          rw [show L2 c + T1 c * R / q = L2 c + T1 c / q * R by ring, ← this]
          apply mean_congr
          intro us' h'
          rw [step us', hu us' h', if_neg (fun e => hgt e.2)]
          simp only [h3, if_true]
      simp only [inner]
      by_cases hpos : 0 < q
      · exact roulette_mean q (L2 c) (T1 c * R) hpos ((min_le_left _ _).trans (by norm_num))
      · -- no throughput left
        have hs : ∑ c, wt c * T1 c ≤ 0 := by
          by_contra hne
          exact hpos (lt_min (by norm_num) (not_le.1 hne))
        have hz : T1 c = 0 := by
          have h1 : wt c * T1 c ≤ ∑ c, wt c * T1 c := Finset.single_le_sum (f := fun c => wt c * T1 c) (fun c _ => mul_nonneg (hw c).le (hT1n c)) (Finset.mem_univ c)
          have h2 := hw c
          have h3 := hT1n c
          nlinarith
        simp [hz]
    · have inner : ∀ u : ℝ, mean (cnt + 1) (n + 1) (fun us => val (loop (fun s => ∑ c, wt c * s c) v us maxDepth true (n + 1 + 1) cnt T sp L) c) (Function.update us cnt u) = L2 c + T1 c * R := by
        intro u
        rw [← rest T1 (Function.update us cnt u) hT1n]
        apply mean_congr
        intro us' _
        rw [step us']
        simp only [h3, false_and, if_false]
      simp [inner]

open Classical in
theorem tail_radiance (v : ℕ → Vtx ι) (maxDepth : ℕ) (n : ℕ) : ∀ cnt : ℕ, cnt + n = maxDepth → ∀ sp : Bool, (0 < cnt → sp = true) →
    ∃ N, cnt ≤ N ∧ N ≤ maxDepth ∧ Ends v maxDepth N ∧ (∀ j, cnt ≤ j → j < N → ¬ Ends v maxDepth j) ∧
      ∀ c, weight v cnt c * tail v sp n cnt c = (∑ k ∈ Finset.Ico cnt (N + 1), weight v k c * ((v k).emit c + (v k).direct c)) +
        if Leaves v maxDepth N then weight v N c * bounce v N c * ((v N).env.map (· c)).sum else 0 := by
  induction n with
  | zero =>
    intro cnt h sp hsp
    have hs : cnt = 0 ∨ sp = true := by rcases Nat.eq_zero_or_pos cnt with h | h; exacts [Or.inl h, Or.inr (hsp h)]
    refine ⟨cnt, le_rfl, by omega, Or.inr (Or.inr (Or.inl (by omega))), fun j h1 h2 => by omega, fun c => ?_⟩
    have hl : ¬ Leaves v maxDepth cnt := fun e => e.2.2.1 (by omega)
    rw [if_neg hl, Nat.Ico_succ_singleton, Finset.sum_singleton, tail, if_pos hs]
    split_ifs <;> ring
  | succ n ih =>
    intro cnt h sp hsp
    have hs : cnt = 0 ∨ sp = true := by rcases Nat.eq_zero_or_pos cnt with h | h; exacts [Or.inl h, Or.inr (hsp h)]
    have ht : ∀ c, tail v sp (n + 1) cnt c = (v cnt).emit c + (v cnt).direct c + if black (v cnt).f ∨ (v cnt).pdf = 0 then 0 else
        bounce v cnt c * (if (v cnt).hit = false then ((v cnt).env.map (· c)).sum else (if 1 < cnt then (v cnt).tr c else 1) * tail v true n (cnt + 1) c) := by
      intro c; rw [tail, if_pos hs]; rfl
    simp only [ht]
    by_cases hb : black (v cnt).f ∨ (v cnt).pdf = 0
    · refine ⟨cnt, le_rfl, by omega, hb.elim Or.inl (fun e => Or.inr (Or.inl e)), fun j h1 h2 => by omega, fun c => ?_⟩
      have hl : ¬ Leaves v maxDepth cnt := fun e => hb.elim e.1 e.2.1
      simp only [if_neg hl, if_pos hb]
      rw [Nat.Ico_succ_singleton, Finset.sum_singleton]
      ring
    simp only [if_neg hb]
    push Not at hb
    by_cases hh : (v cnt).hit = false
    · refine ⟨cnt, le_rfl, by omega, Or.inr (Or.inr (Or.inr hh)), fun j h1 h2 => by omega, fun c => ?_⟩
      have hl : Leaves v maxDepth cnt := ⟨hb.1, hb.2, by omega, hh⟩
      rw [if_pos hl, Nat.Ico_succ_singleton, Finset.sum_singleton]
      simp only [hh, if_true]
      ring
    · obtain ⟨N, a1, a2, a3, a4, a5⟩ := ih (cnt + 1) (by omega) true (fun _ => rfl)
      refine ⟨N, by omega, a2, a3, fun j h1 h2 => ?_, fun c => ?_⟩
      · rcases Nat.eq_or_lt_of_le h1 with rfl | h1
        · rintro (e | e | e | e)
          · exact hb.1 e
          · exact hb.2 e
          · omega
          · exact hh e
        · exact a4 j h1 h2
      · have a5 := a5 c
        rw [Finset.sum_eq_sum_Ico_succ_bot (by omega : cnt < N + 1), if_neg hh]
        have hw : weight v (cnt + 1) c = weight v cnt c * (bounce v cnt c * (if 1 < cnt then (v cnt).tr c else 1)) := by simp only [weight, Finset.prod_range_succ]
        rw [hw] at a5
        linear_combination a5

/-! ## C144 -/

open Classical in
/-- What the integrator returns without roulette, for every scene: with `N` the first vertex at which the path ends, the sum over the vertices up to `N` of the emitted and the direct light, each times the product of the
factors of the bounces before it, and at a path that leaves the scene the light from outside.  Emitted light is added at *every* vertex, whether the bounce was specular or not, because `specular_bounce` is always true. -/
theorem C144_value (y : (ι → ℝ) → ℝ) (v : ℕ → Vtx ι) (us : ℕ → ℝ) (maxDepth : ℕ) :
    ∃ N, N ≤ maxDepth ∧ Ends v maxDepth N ∧ (∀ j < N, ¬ Ends v maxDepth j) ∧ li y v us maxDepth false = some (radiance v (fun _ => True) maxDepth N) := by
  obtain ⟨N, a1, a2, a3, a4, a5⟩ := tail_radiance v maxDepth maxDepth 0 (by omega) false (by omega)
  refine ⟨N, a2, a3, fun j hj => a4 j (by omega) hj, ?_⟩
  rw [li, loop_tail y v us maxDepth maxDepth 0 _ _ _ (by omega)]
  congr 1; funext c
  have a5 := a5 c
  have w0 : weight v 0 c = 1 := by simp [weight]
  rw [w0, one_mul] at a5
  simp only [zero_add, one_mul, a5, radiance, and_true, ← Finset.range_eq_Ico]
  congr 1
  apply Finset.sum_congr rfl
  intro k _
  have : k = 0 ∨ ∃ j, k = j + 1 := by cases k <;> simp
  simp only [this, if_true]

/-- The roulette does not change the mean: averaged over its numbers, the integrator returns what it returns without roulette, for all non-negative light transport and every luminance with positive weights. -/
theorem C144_roulette [Fintype ι] (wt : ι → ℝ) (hw : ∀ c, 0 < wt c) (v : ℕ → Vtx ι) (hv : Nonneg v) (maxDepth : ℕ) (c : ι) (us : ℕ → ℝ) :
    mean 0 (maxDepth + 1) (fun us => val (li (fun s => ∑ c, wt c * s c) v us maxDepth true) c) us = val (li (fun s => ∑ c, wt c * s c) v us maxDepth false) c := by
  unfold li
  rw [loop_mean wt hw v hv maxDepth c maxDepth 0 _ _ _ us (fun _ => zero_le_one) (by omega), loop_tail _ v us maxDepth maxDepth 0 _ _ _ (by omega)]
  rfl

theorem loop_some (y : (ι → ℝ) → ℝ) (v : ℕ → Vtx ι) (us : ℕ → ℝ) (maxDepth : ℕ) (rr : Bool) (n : ℕ) :
    ∀ (cnt : ℕ) (T : ι → ℝ) (sp : Bool) (L : ι → ℝ), cnt + n = maxDepth → (loop y v us maxDepth rr (n + 1) cnt T sp L).isSome := by
  classical
  induction n with
  | zero =>
    intro cnt T sp L h
    have hc : (cnt : ℤ) = maxDepth := by omega
    simp only [loop, hc, if_true]
    split_ifs <;> rfl
  | succ n ih =>
    intro cnt T sp L h
    have hc : ¬ (cnt : ℤ) = maxDepth := by omega
    rw [loop]
    simp only [hc, if_false]
    split_ifs
    all_goals first | rfl | exact ih _ _ _ _ (by omega)

/-- With and without roulette the integrator returns a spectrum. -/
theorem C144_defined (y : (ι → ℝ) → ℝ) (v : ℕ → Vtx ι) (us : ℕ → ℝ) (maxDepth : ℕ) (rr : Bool) : (li y v us maxDepth rr).isSome :=
  loop_some y v us maxDepth rr maxDepth 0 _ _ _ (by omega)

open Classical in
/-- If every bounce is specular the value is the one path tracing should give. -/
theorem C144_specular_partial (y : (ι → ℝ) → ℝ) (v : ℕ → Vtx ι) (us : ℕ → ℝ) (maxDepth : ℕ) (hs : ∀ k, Specular v k) :
    ∃ N, N ≤ maxDepth ∧ Ends v maxDepth N ∧ (∀ j < N, ¬ Ends v maxDepth j) ∧ li y v us maxDepth false = some (radiance v (Specular v) maxDepth N) := by
  obtain ⟨N, a1, a2, a3, a4⟩ := C144_value y v us maxDepth
  refine ⟨N, a1, a2, a3, ?_⟩
  rw [a4, show (fun _ : ℕ => True) = Specular v from funext fun k => (eq_true (hs k)).symm]

/-- a diffuse vertex of reflectance a half -/
noncomputable def exV : ℕ → Vtx Unit
  | 0 => ⟨fun _ => 0, fun _ => 3, fun _ => 1, 1, 1, REFLECTION ||| DIFFUSE, true, [], fun _ => 1⟩
  | _ => ⟨fun _ => 7, fun _ => 0, fun _ => 0, 0, 0, REFLECTION ||| DIFFUSE, true, [], fun _ => 1⟩

/-- **C144 is violated**: after a diffuse bounce that happens to meet a light source, the light it emits is added although the direct lighting of the first vertex already holds it. -/
theorem C144_emission_false : ¬ ∀ (v : ℕ → Vtx Unit) (us : ℕ → ℝ) (maxDepth N : ℕ), N ≤ maxDepth → Ends v maxDepth N → (∀ j < N, ¬ Ends v maxDepth j) →
    li (fun s => s ()) v us maxDepth false = some (radiance v (Specular v) maxDepth N) := by
  intro H
  have hn0 : ¬ black (fun _ : Unit => (1:ℝ)) := fun h => by have := h (); norm_num at this
  have hb1 : black (fun _ : Unit => (0:ℝ)) := fun _ => by norm_num
  have he0 : ∀ j < 1, ¬ Ends exV 1 j := by
    intro j hj
    obtain rfl : j = 0 := by omega
    rintro (e | e | e | e)
    · exact hn0 e
    · simp [exV] at e
    · omega
    · simp [exV] at e
  have h := H exV (fun _ => 0) 1 1 le_rfl (Or.inl hb1) he0
  have e1 : li (fun s : Unit → ℝ => s ()) exV (fun _ => 0) 1 false = some fun _ => 10 := by
    have := loop_tail (fun s : Unit → ℝ => s ()) exV (fun _ => 0) 1 1 0 (fun _ => 1) false (fun _ => 0) (by omega)
    rw [li, this]
    congr 1; funext c
    simp only [tail, exV, hn0, hb1, bounce, bdfNeZero]
    norm_num
  have hsp : ¬ Specular exV 0 := by simp only [Specular, exV]; decide
  have e2 : radiance exV (Specular exV) 1 1 () = 3 := by
    have hl : ¬ Leaves exV 1 1 := fun e => e.1 hb1
    simp only [radiance, Finset.sum_range_succ, Finset.sum_range_zero, hl, false_and, if_false]
    have h1 : ¬ ∃ j, 1 = j + 1 ∧ Specular exV j := by rintro ⟨j, h1, h2⟩; exact hsp ((show j = 0 by omega) ▸ h2)
    simp only [h1, or_false, one_ne_zero, if_false]
    simp [weight, exV]
  rw [e1] at h
  have := congrFun (Option.some.inj h) ()
  rw [e2] at this
  norm_num at this

/-- **C144 is violated**: the first two segments between vertices are not attenuated by the medium: an absorbing medium between a mirror and the light it shows makes no difference. -/
theorem C144_attenuation_false (tr : Unit → ℝ) :
    li (fun s => s ()) (fun k => match k with
      | 0 => ⟨fun _ => 0, fun _ => 0, fun _ => 1, 1, 1, REFLECTION ||| SPECULAR, true, [], tr⟩
      | 1 => ⟨fun _ => 0, fun _ => 0, fun _ => 1, 1, 1, REFLECTION ||| SPECULAR, true, [], tr⟩
      | _ => ⟨fun _ => 7, fun _ => 0, fun _ => 0, 0, 0, REFLECTION, true, [], fun _ => 1⟩) (fun _ => 0) 2 false = some fun _ => 7 := by
  have hn0 : ¬ black (fun _ : Unit => (1:ℝ)) := fun h => by have := h (); norm_num at this
  have hb1 : black (fun _ : Unit => (0:ℝ)) := fun _ => by norm_num
  rw [li]
  have := loop_tail (fun s : Unit → ℝ => s ()) (fun k => match k with
      | 0 => ⟨fun _ => 0, fun _ => 0, fun _ => 1, 1, 1, REFLECTION ||| SPECULAR, true, [], tr⟩
      | 1 => ⟨fun _ => 0, fun _ => 0, fun _ => 1, 1, 1, REFLECTION ||| SPECULAR, true, [], tr⟩
      | _ => ⟨fun _ => 7, fun _ => 0, fun _ => 0, 0, 0, REFLECTION, true, [], fun _ => 1⟩) (fun _ => 0) 2 2 0 (fun _ => 1) false (fun _ => 0) (by omega)
  rw [this]
  congr 1; funext c
  simp only [tail, hn0, hb1, bounce, bdfNeZero]
  norm_num

/-- the hypotheses of `C144_roulette` hold for the example -/
example : Nonneg exV := by
  constructor <;> intro k <;> rcases k with _ | k <;> simp [exV]

end Verif.Integrator.Path
