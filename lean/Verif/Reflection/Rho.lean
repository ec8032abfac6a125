import Verif.Reflection.Diffuse
import Verif.Sampler.Strata
import Mathlib.Algebra.BigOperators.Fin
import Mathlib.Algebra.BigOperators.Group.Finset.Sigma
import Mathlib.MeasureTheory.Integral.IntervalIntegral.FundThmCalculus
import Mathlib.Analysis.SpecialFunctions.Integrals.Basic

/-!
# Reflectance estimates (`pytracer/reflection/bdf/bdf.py:128-164, 334-338`, `pytracer/reflection/bsdf.py:226-258`)

Real arithmetic; a spectrum is represented by one of its samples.
-/

namespace Verif.Rho
open Verif V3 Verif.Geom Verif.Bsdf Verif.Refl Verif.Sampler Real

/-! ## Model -/

/-- one turn of the loop of `BDF.rho_hh` (`bdf.py:155-161`); `none` if the component draws no direction (the code then raises) -/
noncomputable def hhStep (d : Bdf ℝ) (s1 s2 : ℝ × ℝ) : Option ℝ :=
  let wo := MC.hemisphere s1.1 s1.2
  let pdfO := MC.inv2Pi
  let sm := d.sample wo s2.1 s2.2
  if sm.pdf > 0 then sm.dv.map (fun p => p.2 * absCosTheta p.1 * absCosTheta wo / (pdfO * sm.pdf)) else some 0

/-- the loop of `BDF.rho_hh` over `range(nSamples)` (`bdf.py:153-161`); `none` is an index beyond the samples. -/
noncomputable def hhLoop (d : Bdf ℝ) (s1 s2 : List (ℝ × ℝ)) : ℕ → Option ℝ
  | 0 => some 0
  | n + 1 => (hhLoop d s1 s2 n).bind fun r => s1[n]?.bind fun a => s2[n]?.bind fun b => (hhStep d a b).map (fun v => r + v)

/-- `BDF.rho_hh` (`bdf.py:146-164`); `none` also for `nSamples = 0`, where the code divides by zero (NaN). -/
noncomputable def rhoHh (d : Bdf ℝ) (n : ℕ) (s1 s2 : List (ℝ × ℝ)) : Option ℝ :=
  if n = 0 then none else (hhLoop d s1 s2 n).map (fun r => r / (π * n))

/-- a component of a `BSDF`: a `Lambertian`, which overrides the two estimates (`bdf.py:334-338`), or one that inherits them. -/
inductive Comp where
  | lambert (R : ℝ)
  | other (b : Bdf ℝ)

/-- the component as a `BDF` -/
noncomputable def Comp.bdf : Comp → Bdf ℝ
  | .lambert R => lambertian R
  | .other b => b

/-- `rho_hd` of a component (`bdf.py:128-144, 334-335`) -/
noncomputable def Comp.rhoHd : Comp → V3 ℝ → List (ℝ × ℝ) → Option ℝ
  | .lambert R, w, s => some (lambertianRhoHd R w s)
  | .other b, w, s => Refl.rhoHd b w s

/-- `rho_hh` of a component (`bdf.py:146-164, 337-338`) -/
noncomputable def Comp.rhoHh : Comp → ℕ → List (ℝ × ℝ) → List (ℝ × ℝ) → Option ℝ
  | .lambert R, _, _, _ => some R
  | .other b, n, s1, s2 => Rho.rhoHh b n s1 s2

/-- the loop of `BSDF.rho_hd` and `BSDF.rho_hh` over the components (`bsdf.py:236-241, 253-258`) -/
noncomputable def sumComps (est : Comp → Option ℝ) (flags : Flags) : List Comp → ℝ → Option ℝ
  | [], acc => some acc
  | c :: cs, acc => if c.bdf.matchFlag flags then (est c).bind (fun v => sumComps est flags cs (acc + v)) else sumComps est flags cs acc

/-- the parts of a `BSDF` the estimates could use: its frame and its components (`bsdf.py:67-98`) -/
structure Surface where
  sn : V3 ℝ
  tn : V3 ℝ
  nn : V3 ℝ
  comps : List Comp

/-- `BSDF.rho_hd` (`bsdf.py:226-241`): the frame is not used — `wo` is handed to the components as it is. -/
noncomputable def bsdfRhoHd (b : Surface) (wo : V3 ℝ) (flags : Flags) (k : ℕ) (rnd : Rand ℝ) (st : RS) : Option ℝ :=
  let smp := (stratified2d rnd st k k true).1
  sumComps (fun c => c.rhoHd wo smp) flags b.comps 0

/-- `BSDF.rho_hh` (`bsdf.py:243-258`) -/
noncomputable def bsdfRhoHh (b : Surface) (flags : Flags) (k : ℕ) (rnd : Rand ℝ) (st : RS) : Option ℝ :=
  let p1 := stratified2d rnd st k k true
  let smp2 := (stratified2d rnd p1.2 k k true).1
  sumComps (fun c => c.rhoHh (k * k) p1.1 smp2) flags b.comps 0

/-! ## Specification -/

/-- the light reflected towards `wo` of a uniform surrounding, `∫ f cos θ` over the hemisphere, for an `f` depending on the polar cosine only -/
noncomputable def trueRho (f : ℝ → ℝ) : ℝ := ∫ _φ in (0 : ℝ)..(2 * π), ∫ θ in (0 : ℝ)..(π / 2), f (cos θ) * cos θ * sin θ

/-- the values of the components' own estimates -/
def Estimates (est : Comp → Option ℝ) (flags : Flags) (comps : List Comp) (v : Comp → ℝ) : Prop :=
  ∀ c ∈ comps, Contained c.bdf.type flags → est c = some (v c)

/-! ## Lemmas -/

theorem sumComps_eq (est : Comp → Option ℝ) (flags : Flags) (v : Comp → ℝ) (comps : List Comp) (acc : ℝ) (h : Estimates est flags comps v) :
    sumComps est flags comps acc = some (acc + ((comps.filter (fun c => decide (Contained c.bdf.type flags))).map v).sum) := by
  induction comps generalizing acc with
  | nil => simp [sumComps]
  | cons c cs ih =>
    have ih' := fun a => ih a (fun c' hc' => h c' (by simp [hc']))
    rw [sumComps]
    by_cases hm : Contained c.bdf.type flags
    · rw [if_pos ((matchFlag_iff _ _).2 hm), h c (by simp) hm]
      simp only [Option.bind_some]
      rw [ih', List.filter_cons_of_pos (by simpa using hm)]
      simp [add_assoc]
    · rw [if_neg (fun hh => hm ((matchFlag_iff _ _).1 hh)), ih', List.filter_cons_of_neg (by simpa using hm)]

theorem base_term (t : Flags) (f : V3 ℝ → V3 ℝ → ℝ) (wo : V3 ℝ) (hz : wo.z ≠ 0) (u1 u2 : ℝ) (h0 : 0 ≤ u1) (h1 : u1 ≤ 1) (hu : u1 ≠ 1 / 2) (r : ℝ) :
    (if ((baseBdf t f).sample wo u1 u2).pdf > 0 then ((baseBdf t f).sample wo u1 u2).dv.map
      (fun p => r + p.2 * absCosTheta p.1 / ((baseBdf t f).sample wo u1 u2).pdf) else some r) = some (r + π * f wo (baseDir wo u1 u2)) := by
  obtain ⟨hp, hq⟩ := baseDir_pdf wo hz u1 u2 h0 h1 hu
  rw [if_pos (show ((baseBdf t f).sample wo u1 u2).pdf > 0 from hp)]
  show some (r + f wo (baseDir wo u1 u2) * absCosTheta (baseDir wo u1 u2) / basePdf wo (baseDir wo u1 u2)) = _
  rw [mul_div_assoc, hq, mul_comm π]

/-- the estimate is the mean of `π f` at the directions drawn -/
theorem rhoHd_eq (t : Flags) (f : V3 ℝ → V3 ℝ → ℝ) (wo : V3 ℝ) (hz : wo.z ≠ 0) (samples : List (ℝ × ℝ)) (hne : samples ≠ [])
    (hs : ∀ s ∈ samples, 0 ≤ s.1 ∧ s.1 ≤ 1 ∧ s.1 ≠ 1 / 2) :
    Refl.rhoHd (baseBdf t f) wo samples = some ((samples.map (fun s => π * f wo (baseDir wo s.1 s.2))).sum / samples.length) := by
  unfold Refl.rhoHd
  rw [if_neg hne]
  have key : ∀ (l : List (ℝ × ℝ)) (r : ℝ), (∀ s ∈ l, 0 ≤ s.1 ∧ s.1 ≤ 1 ∧ s.1 ≠ 1 / 2) →
      l.foldl (fun (r : Option ℝ) s => r.bind (fun r =>
        let sm := (baseBdf t f).sample wo s.1 s.2
        if sm.pdf > 0 then sm.dv.map (fun p => r + p.2 * absCosTheta p.1 / sm.pdf) else some r)) (some r) =
        some (r + (l.map (fun s => π * f wo (baseDir wo s.1 s.2))).sum) := by
    intro l
    induction l with
    | nil => intro r _; simp
    | cons s ds ih =>
      intro r h
      obtain ⟨a, b, d⟩ := h s (by simp)
      rw [List.foldl_cons]
      simp only [Option.bind_some]
      rw [base_term t f wo hz s.1 s.2 a b d r]
      have := ih (r + π * f wo (baseDir wo s.1 s.2)) (fun s hs => h s (by simp [hs]))
      simp only [] at this
      rw [this]
      simp [add_assoc]
  have := key samples 0 hs
  simp only [] at this ⊢
  rw [this]
  simp

theorem sum_between (l : List (ℝ × ℝ)) (g : ℝ × ℝ → ℝ) (m M : ℝ) (h : ∀ s ∈ l, m ≤ g s ∧ g s ≤ M) :
    l.length * m ≤ (l.map g).sum ∧ (l.map g).sum ≤ l.length * M := by
  induction l with
  | nil => simp
  | cons a l ih =>
    obtain ⟨h1, h2⟩ := ih (fun s hs => h s (by simp [hs]))
    obtain ⟨h3, h4⟩ := h a (by simp)
    simp only [List.map_cons, List.sum_cons, List.length_cons]
    push_cast
    constructor <;> nlinarith

/-- one turn of the two-sided estimate -/
theorem hhStep_eq (t : Flags) (f : V3 ℝ → V3 ℝ → ℝ) (a b : ℝ × ℝ) (ha0 : 0 ≤ a.1) (hb0 : 0 ≤ b.1) (hb1 : b.1 ≤ 1) (hb : b.1 ≠ 1 / 2) :
    hhStep (baseBdf t f) a b = some (2 * π ^ 2 * (a.1 * f (MC.hemisphere a.1 a.2) (baseDir (MC.hemisphere a.1 a.2) b.1 b.2))) := by
  have hz : (MC.hemisphere a.1 a.2).z = a.1 := rfl
  have hpi := Real.pi_pos
  unfold hhStep
  simp only []
  rcases ha0.eq_or_lt with h | h
  · have hp : ((baseBdf t f).sample (MC.hemisphere a.1 a.2) b.1 b.2).pdf = 0 := by
      show basePdf _ _ = 0
      unfold basePdf
      rw [hz, ← h, zero_mul, if_neg (lt_irrefl _)]
    rw [if_neg (by rw [hp]; exact lt_irrefl _), ← h]
    simp
  · obtain ⟨hp, hq⟩ := baseDir_pdf (MC.hemisphere a.1 a.2) (by rw [hz]; exact h.ne') b.1 b.2 hb0 hb1 hb
    rw [if_pos (show ((baseBdf t f).sample (MC.hemisphere a.1 a.2) b.1 b.2).pdf > 0 from hp)]
    show some (f (MC.hemisphere a.1 a.2) (baseDir (MC.hemisphere a.1 a.2) b.1 b.2) * absCosTheta (baseDir (MC.hemisphere a.1 a.2) b.1 b.2) *
      absCosTheta (MC.hemisphere a.1 a.2) / (MC.inv2Pi * basePdf (MC.hemisphere a.1 a.2) (baseDir (MC.hemisphere a.1 a.2) b.1 b.2))) = _
    have e : absCosTheta (MC.hemisphere a.1 a.2) = a.1 := by unfold absCosTheta; rw [hz, abs_of_pos h]
    rw [e]
    generalize f (MC.hemisphere a.1 a.2) (baseDir (MC.hemisphere a.1 a.2) b.1 b.2) = v
    rw [div_eq_iff hp.ne'] at hq
    rw [hq]
    unfold MC.inv2Pi
    congr 1
    field_simp

theorem hhLoop_eq (t : Flags) (f : V3 ℝ → V3 ℝ → ℝ) (s1 s2 : List (ℝ × ℝ)) (n : ℕ) (x : ℕ → ℝ × ℝ) (y : ℕ → ℝ × ℝ)
    (hx : ∀ i < n, s1[i]? = some (x i) ∧ 0 ≤ (x i).1) (hy : ∀ i < n, s2[i]? = some (y i) ∧ 0 ≤ (y i).1 ∧ (y i).1 ≤ 1 ∧ (y i).1 ≠ 1 / 2) :
    hhLoop (baseBdf t f) s1 s2 n = some (∑ i ∈ Finset.range n, 2 * π ^ 2 * ((x i).1 *
      f (MC.hemisphere (x i).1 (x i).2) (baseDir (MC.hemisphere (x i).1 (x i).2) (y i).1 (y i).2))) := by
  induction n with
  | zero => simp [hhLoop]
  | succ n ih =>
    rw [hhLoop, ih (fun i hi => hx i (by omega)) (fun i hi => hy i (by omega))]
    obtain ⟨e1, e2⟩ := hx n (by omega)
    obtain ⟨d1, d2, d3, d4⟩ := hy n (by omega)
    rw [e1, d1]
    simp only [Option.bind_some]
    rw [hhStep_eq t f _ _ e2 d2 d3 d4, Finset.sum_range_succ]
    rfl

/-- the mean of one number from each of `k` strata, `k` times over -/
theorem strata_sum (k : ℕ) (hk : 0 < k) (x : ℕ → ℝ) (h : ∀ i < k * k, InStratum (i % k) k (x i)) :
    (k : ℝ) * k * (1 - 1 / k) / 2 ≤ ∑ i ∈ Finset.range (k * k), x i ∧ ∑ i ∈ Finset.range (k * k), x i ≤ (k : ℝ) * k * (1 + 1 / k) / 2 := by
  have hk' : (0 : ℝ) < k := by exact_mod_cast hk
  have hsum : ∀ m : ℕ, ∑ i ∈ Finset.range (m * k), (((i % k : ℕ)) : ℝ) = m * (k * (k - 1) / 2) := by
    intro m
    induction m with
    | zero => simp
    | succ m ih =>
      rw [Nat.succ_mul, Finset.sum_range_add, ih]
      have : ∀ i ∈ Finset.range k, (((m * k + i) % k : ℕ) : ℝ) = i := by
        intro i hi
        rw [Nat.mul_add_mod', Nat.mod_eq_of_lt (Finset.mem_range.1 hi)]
      rw [Finset.sum_congr rfl this]
      have g : ∀ n : ℕ, ∑ i ∈ Finset.range n, (i : ℝ) = n * (n - 1) / 2 := by
        intro n
        induction n with
        | zero => simp
        | succ n ih => rw [Finset.sum_range_succ, ih]; push_cast; ring
      rw [g]; push_cast; ring
  have hlo : ∑ i ∈ Finset.range (k * k), (((i % k : ℕ)) : ℝ) / k ≤ ∑ i ∈ Finset.range (k * k), x i :=
    Finset.sum_le_sum (fun i hi => (h i (Finset.mem_range.1 hi)).1)
  have hhi : ∑ i ∈ Finset.range (k * k), x i ≤ ∑ i ∈ Finset.range (k * k), ((((i % k : ℕ)) : ℝ) + 1) / k :=
    Finset.sum_le_sum (fun i hi => (h i (Finset.mem_range.1 hi)).2.le)
  rw [← Finset.sum_div, hsum] at hlo
  rw [← Finset.sum_div, Finset.sum_add_distrib, hsum] at hhi
  simp only [Finset.sum_const, Finset.card_range, nsmul_eq_mul, mul_one] at hhi
  push_cast at hhi
  refine ⟨le_trans (le_of_eq ?_) hlo, hhi.trans (le_of_eq ?_)⟩ <;> (field_simp <;> ring)

/-! ## C161 -/

/-- the random source never puts a sample exactly on the middle of the unit interval (where the drawn direction would be grazing) -/
def OffMiddle (l : List (ℝ × ℝ)) : Prop := ∀ s ∈ l, s.1 ≠ 1 / 2

/-- **C161** The reflectances of a surface are the sums of the estimates of the components requested, each estimate being a component's own, made with the
same samples, one from each cell of a `k × k` grid; a Lambertian's is its reflectance. -/
theorem C161_sum (b : Surface) (wo : V3 ℝ) (flags : Flags) (k : ℕ) (rnd : Rand ℝ) (hr : UnitDraws rnd) (st : RS) :
    ∃ s s1 s2 : List (ℝ × ℝ), (∀ l ∈ [s, s1, s2], l.length = k * k ∧
        ∀ i < k, ∀ j < k, ∃! n : ℕ, ∃ x y : ℝ, l[n]? = some (x, y) ∧ InStratum i k x ∧ InStratum j k y) ∧
      (∀ v, Estimates (fun c => c.rhoHd wo s) flags b.comps v →
        bsdfRhoHd b wo flags k rnd st = some ((b.comps.filter (fun c => decide (Contained c.bdf.type flags))).map v).sum) ∧
      (∀ v, Estimates (fun c => c.rhoHh (k * k) s1 s2) flags b.comps v →
        bsdfRhoHh b flags k rnd st = some ((b.comps.filter (fun c => decide (Contained c.bdf.type flags))).map v).sum) ∧
      ∀ R, (Comp.lambert R).rhoHd wo s = some R ∧ (Comp.lambert R).rhoHh (k * k) s1 s2 = some R := by
  refine ⟨(stratified2d rnd st k k true).1, (stratified2d rnd st k k true).1, (stratified2d rnd (stratified2d rnd st k k true).2 k k true).1, ?_, ?_, ?_, ?_⟩
  · intro l hl
    simp only [List.mem_cons, List.not_mem_nil, or_false] at hl
    rcases hl with rfl | rfl | rfl
    · exact ⟨(C22_stratified_2d rnd hr _ k k true).1, (C22_stratified_2d rnd hr _ k k true).2.2.1⟩
    · exact ⟨(C22_stratified_2d rnd hr _ k k true).1, (C22_stratified_2d rnd hr _ k k true).2.2.1⟩
    · exact ⟨(C22_stratified_2d rnd hr _ k k true).1, (C22_stratified_2d rnd hr _ k k true).2.2.1⟩
  · intro v hv
    unfold bsdfRhoHd
    simp only []
    rw [sumComps_eq _ flags v b.comps 0 hv, zero_add]
  · intro v hv
    unfold bsdfRhoHh
    simp only []
    rw [sumComps_eq _ flags v b.comps 0 hv, zero_add]
  · exact fun R => ⟨rfl, rfl⟩

/-- **C161** The estimate for one outgoing direction lies between `π` times the least and `π` times the greatest value of `f`, for every list of samples. -/
theorem C161_hd_bounds (t : Flags) (f : V3 ℝ → V3 ℝ → ℝ) (m M : ℝ) (hf : ∀ wo wi, m ≤ f wo wi ∧ f wo wi ≤ M) (wo : V3 ℝ) (hz : wo.z ≠ 0)
    (samples : List (ℝ × ℝ)) (hne : samples ≠ []) (hs : ∀ s ∈ samples, 0 ≤ s.1 ∧ s.1 ≤ 1) (ho : OffMiddle samples) :
    ∃ r, Refl.rhoHd (baseBdf t f) wo samples = some r ∧ π * m ≤ r ∧ r ≤ π * M := by
  have hpi := Real.pi_pos
  have hl : (0 : ℝ) < samples.length := by exact_mod_cast List.length_pos_iff.mpr hne
  refine ⟨_, rhoHd_eq t f wo hz samples hne (fun s h => ⟨(hs s h).1, (hs s h).2, ho s h⟩), ?_⟩
  obtain ⟨h1, h2⟩ := sum_between samples (fun s => π * f wo (baseDir wo s.1 s.2)) (π * m) (π * M)
    (fun s _ => ⟨mul_le_mul_of_nonneg_left (hf _ _).1 hpi.le, mul_le_mul_of_nonneg_left (hf _ _).2 hpi.le⟩)
  constructor
  · rw [le_div_iff₀ hl]; linarith
  · rw [div_le_iff₀ hl]; linarith

/-- **C161** The two-sided estimate with the `k × k` stratified samples the surface makes is within the factor `1 ± 1/k` of the same bounds, for every outcome of
the random source; in particular it tends to `π c` for a constant `f = c`. -/
theorem C161_hh_bounds (t : Flags) (f : V3 ℝ → V3 ℝ → ℝ) (m M : ℝ) (hm : 0 ≤ m) (hf : ∀ wo wi, m ≤ f wo wi ∧ f wo wi ≤ M) (k : ℕ) (hk : 0 < k)
    (rnd : Rand ℝ) (hr : UnitDraws rnd) (st st' : RS) (ho : OffMiddle (stratified2d rnd st' k k true).1) :
    ∃ r, rhoHh (baseBdf t f) (k * k) (stratified2d rnd st k k true).1 (stratified2d rnd st' k k true).1 = some r ∧
      π * m * (1 - 1 / k) ≤ r ∧ r ≤ π * M * (1 + 1 / k) := by
  have hpi := Real.pi_pos
  have hk' : (0 : ℝ) < k := by exact_mod_cast hk
  have hM : 0 ≤ M := hm.trans ((hf 0 0).1.trans (hf 0 0).2)
  obtain ⟨-, c1, -, -⟩ := C22_stratified_2d rnd hr st k k true
  obtain ⟨-, c2, -, -⟩ := C22_stratified_2d rnd hr st' k k true
  choose! x1 x2 hx using c1
  choose! y1 y2 hy using c2
  have e := hhLoop_eq t f (stratified2d rnd st k k true).1 (stratified2d rnd st' k k true).1 (k * k) (fun i => (x1 i, x2 i)) (fun i => (y1 i, y2 i))
    (fun i hi => ⟨(hx i hi).1, (hx i hi).2.2.2.1.1⟩)
    (fun i hi => ⟨(hy i hi).1, (hy i hi).2.2.2.1.1, (hy i hi).2.2.2.1.2.le, ho _ (List.mem_of_getElem? (hy i hi).1)⟩)
  refine ⟨_, by rw [rhoHh, if_neg (by positivity), e]; rfl, ?_⟩
  obtain ⟨s1, s2⟩ := strata_sum k hk x1 (fun i hi => (hx i hi).2.1)
  set S := ∑ i ∈ Finset.range (k * k), x1 i with hS
  simp only []
  have lo : 2 * π ^ 2 * m * S ≤ ∑ i ∈ Finset.range (k * k), 2 * π ^ 2 * (x1 i *
      f (MC.hemisphere (x1 i) (x2 i)) (baseDir (MC.hemisphere (x1 i) (x2 i)) (y1 i) (y2 i))) := by
    rw [hS, Finset.mul_sum]
    refine Finset.sum_le_sum (fun i hi => ?_)
    have h0 := (hx i (Finset.mem_range.1 hi)).2.2.2.1.1
    have h1 := mul_le_mul_of_nonneg_left (hf (MC.hemisphere (x1 i) (x2 i)) (baseDir (MC.hemisphere (x1 i) (x2 i)) (y1 i) (y2 i))).1 h0
    nlinarith [sq_nonneg π]
  have hi : ∑ i ∈ Finset.range (k * k), 2 * π ^ 2 * (x1 i *
      f (MC.hemisphere (x1 i) (x2 i)) (baseDir (MC.hemisphere (x1 i) (x2 i)) (y1 i) (y2 i))) ≤ 2 * π ^ 2 * M * S := by
    rw [hS, Finset.mul_sum]
    refine Finset.sum_le_sum (fun i hi => ?_)
    have h0 := (hx i (Finset.mem_range.1 hi)).2.2.2.1.1
    have h1 := mul_le_mul_of_nonneg_left (hf (MC.hemisphere (x1 i) (x2 i)) (baseDir (MC.hemisphere (x1 i) (x2 i)) (y1 i) (y2 i))).2 h0
    nlinarith [sq_nonneg π]
  have hden : (0 : ℝ) < π * ((k * k : ℕ) : ℝ) := by push_cast; positivity
  constructor
  · rw [le_div_iff₀ hden]
    refine le_trans ?_ lo
    have := mul_le_mul_of_nonneg_left s1 (by positivity : 0 ≤ 2 * π ^ 2 * m)
    push_cast
    linarith
  · rw [div_le_iff₀ hden]
    refine hi.trans ?_
    have := mul_le_mul_of_nonneg_left s2 (by positivity : 0 ≤ 2 * π ^ 2 * M)
    push_cast
    linarith

/-- **C161 is violated**: the mean of the estimate over the samples is not the light reflected: for `f = |cos θi|` it is `π/2`, and the light reflected is `2π/3`. -/
theorem C161_unbiased_false : ¬ ∀ (t : Flags) (f : ℝ → ℝ), (∀ c, 0 ≤ f c ∧ f c ≤ |c|) →
    ∀ wo : V3 ℝ, 0 < wo.z → ∃ g : ℝ → ℝ → ℝ, (∀ u1 ∈ Set.Ico (0 : ℝ) 1, ∀ u2 ∈ Set.Ico (0 : ℝ) 1, u1 ≠ 1 / 2 →
      Refl.rhoHd (baseBdf t (fun _ wi => f (absCosTheta wi))) wo [(u1, u2)] = some (g u1 u2)) ∧
      ∫ u1 in (0 : ℝ)..1, ∫ u2 in (0 : ℝ)..1, g u1 u2 = trueRho f := by
  intro H
  obtain ⟨g, hg, hi⟩ := H 0#32 (fun c => |c|) (fun c => ⟨abs_nonneg c, le_rfl⟩) ⟨0, 0, 1⟩ one_pos
  have hpi := Real.pi_pos
  have hval : ∀ u1 ∈ Set.Ico (0 : ℝ) 1, ∀ u2 ∈ Set.Ico (0 : ℝ) 1, u1 ≠ 1 / 2 → g u1 u2 = π * |1 - 2 * u1| := by
    intro u1 h1 u2 h2 hne
    have e1 := hg u1 h1 u2 h2 hne
    rw [rhoHd_eq 0#32 _ ⟨0, 0, 1⟩ one_ne_zero [(u1, u2)] (by simp) (by simpa using ⟨h1.1, h1.2.le, by simpa using hne⟩)] at e1
    simp only [List.map_cons, List.map_nil, List.sum_cons, List.sum_nil, add_zero, List.length_cons, List.length_nil, zero_add, Nat.cast_one, div_one,
      Option.some.injEq] at e1
    rw [← e1]
    obtain ⟨wi, hs, -, -, hz, -⟩ := C77_base 0#32 (fun _ _ => 0) ⟨0, 0, 1⟩ one_ne_zero u1 u2 h1.1 h1.2.le
    have e : baseDir ⟨0, 0, 1⟩ u1 u2 = wi := by
      have := congrArg Smp.dv hs
      simp only [baseBdf, Option.some.injEq, Prod.mk.injEq] at this
      exact this.1
    rw [e]
    unfold absCosTheta
    rw [abs_abs, hz]
  have inner : ∀ u1 ∈ Set.Ico (0 : ℝ) 1, u1 ≠ 1 / 2 → ∫ u2 in (0 : ℝ)..1, g u1 u2 = π * |1 - 2 * u1| := by
    intro u1 h1 hne
    have : ∫ u2 in (0 : ℝ)..1, g u1 u2 = ∫ _u2 in (0 : ℝ)..1, π * |1 - 2 * u1| := by
      apply intervalIntegral.integral_congr_ae
      have : ∀ᵐ u : ℝ, u ≠ 1 := by simp [MeasureTheory.ae_iff]
      filter_upwards [this] with u hu hm
      rw [Set.uIoc_of_le zero_le_one] at hm
      exact hval u1 h1 u ⟨hm.1.le, lt_of_le_of_ne hm.2 hu⟩ hne
    rw [this]; simp
  have outer : ∫ u1 in (0 : ℝ)..1, ∫ u2 in (0 : ℝ)..1, g u1 u2 = ∫ u1 in (0 : ℝ)..1, π * |1 - 2 * u1| := by
    apply intervalIntegral.integral_congr_ae
    have a1 : ∀ᵐ u : ℝ, u ≠ 1 := by simp [MeasureTheory.ae_iff]
    have a2 : ∀ᵐ u : ℝ, u ≠ 1 / 2 := by simp [MeasureTheory.ae_iff]
    filter_upwards [a1, a2] with u hu hu2 hm
    rw [Set.uIoc_of_le zero_le_one] at hm
    exact inner u ⟨hm.1.le, lt_of_le_of_ne hm.2 hu⟩ hu2
  have habs : ∫ u1 in (0 : ℝ)..1, π * |1 - 2 * u1| = π / 2 := by
    have c : Continuous fun u : ℝ => π * |1 - 2 * u| := by fun_prop
    rw [← intervalIntegral.integral_add_adjacent_intervals (b := 1 / 2) (c.intervalIntegrable _ _) (c.intervalIntegrable _ _)]
    have i1 : ∫ u in (0 : ℝ)..(1 / 2), π * |1 - 2 * u| = ∫ u in (0 : ℝ)..(1 / 2), π * (1 - 2 * u) := by
      apply intervalIntegral.integral_congr
      intro u hu
      rw [Set.uIcc_of_le (by norm_num)] at hu
      simp only []
      rw [abs_of_nonneg (by linarith [hu.2])]
    have i2 : ∫ u in (1 / 2 : ℝ)..1, π * |1 - 2 * u| = ∫ u in (1 / 2 : ℝ)..1, π * (2 * u - 1) := by
      apply intervalIntegral.integral_congr
      intro u hu
      rw [Set.uIcc_of_le (by norm_num)] at hu
      simp only []
      rw [abs_of_nonpos (by linarith [hu.1])]
      ring
    have d1 : ∫ u in (0 : ℝ)..(1 / 2), π * (1 - 2 * u) = π * (1 / 2 - (1 / 2) ^ 2) - π * (0 - 0 ^ 2) := by
      refine intervalIntegral.integral_eq_sub_of_hasDerivAt (f := fun u => π * (u - u ^ 2)) (fun u _ => ?_) (Continuous.intervalIntegrable (by fun_prop) _ _)
      have := ((hasDerivAt_id u).sub (hasDerivAt_pow 2 u)).const_mul π
      refine this.congr_deriv ?_
      push_cast; ring
    have d2 : ∫ u in (1 / 2 : ℝ)..1, π * (2 * u - 1) = π * (1 ^ 2 - 1) - π * ((1 / 2) ^ 2 - 1 / 2) := by
      refine intervalIntegral.integral_eq_sub_of_hasDerivAt (f := fun u => π * (u ^ 2 - u)) (fun u _ => ?_) (Continuous.intervalIntegrable (by fun_prop) _ _)
      have := ((hasDerivAt_pow 2 u).sub (hasDerivAt_id u)).const_mul π
      refine this.congr_deriv ?_
      push_cast; ring
    rw [i1, i2, d1, d2]; ring
  have htrue : trueRho (fun c => |c|) = 2 * π / 3 := by
    have : trueRho (fun c => |c|) = MC.capMass (fun c => c * c) 0 (π / 2) := by
      unfold trueRho MC.capMass
      congr 1
      funext φ
      apply intervalIntegral.integral_congr
      intro θ hθ
      rw [Set.uIcc_of_le (by positivity)] at hθ
      simp only []
      rw [abs_of_nonneg (Real.cos_nonneg_of_mem_Icc ⟨by linarith [hθ.1], hθ.2⟩)]
    rw [this, MC.capMass_eq _ (fun c => c ^ 3 / 3)]
    · rw [Real.cos_zero, Real.cos_pi_div_two]; ring
    · intro θ _
      refine ((hasDerivAt_pow 3 (cos θ)).div_const 3).congr_deriv ?_
      push_cast; ring
    · exact (by fun_prop : Continuous fun θ => cos θ * cos θ).continuousOn
  rw [outer, habs, htrue] at hi
  linarith

/-- two surfaces and two directions with the same local coordinates -/
def SameLocal (b b' : Surface) (w w' : V3 ℝ) : Prop :=
  dot w b.sn = dot w' b'.sn ∧ dot w b.tn = dot w' b'.tn ∧ dot w b.nn = dot w' b'.nn

/-- **C161 is violated**: the reflectance depends on how the surface lies in the world: the same surface seen along its normal has reflectance `π` facing up and `0`
facing sideways. -/
theorem C161_frame_false : ¬ ∀ (b b' : Surface) (wo wo' : V3 ℝ), b.comps = b'.comps → SameLocal b b' wo wo' →
    ∀ (flags : Flags) (k : ℕ) (rnd : Rand ℝ) (st : RS), UnitDraws rnd → bsdfRhoHd b wo flags k rnd st = bsdfRhoHd b' wo' flags k rnd st := by
  intro H
  let C : List Comp := [.other (baseBdf 0#32 (fun _ _ => 1))]
  let rnd : Rand ℝ := ⟨fun _ => 1 / 4, fun _ l => l⟩
  have h := H ⟨⟨1, 0, 0⟩, ⟨0, 1, 0⟩, ⟨0, 0, 1⟩, C⟩ ⟨⟨0, 1, 0⟩, ⟨0, 0, 1⟩, ⟨1, 0, 0⟩, C⟩ ⟨0, 0, 1⟩ ⟨1, 0, 0⟩ rfl (by simp [SameLocal, dot]) 0#32 1 rnd ⟨0, 0⟩
    (fun _ => by norm_num [rnd])
  have hs : (stratified2d rnd ⟨0, 0⟩ 1 1 true).1 = [(1 / 4, 1 / 4)] := by
    simp [stratified2d, rng, strata, tile, arange, repeatEach, rnd]
  have e : ∀ w : V3 ℝ, sumComps (fun c => c.rhoHd w [(1 / 4, 1 / 4)]) 0#32 C 0 = (Refl.rhoHd (baseBdf 0#32 (fun _ _ => 1)) w [(1 / 4, 1 / 4)]).map (fun v => 0 + v) := by
    intro w
    have hm : (Comp.other (baseBdf 0#32 (fun _ _ => 1))).bdf.matchFlag 0#32 = true := by simp [Bdf.matchFlag, baseBdf, Comp.bdf]
    show sumComps _ _ [Comp.other (baseBdf 0#32 (fun _ _ => 1))] 0 = _
    rw [sumComps, if_pos hm]
    simp only [sumComps, Comp.rhoHd]
    cases Refl.rhoHd (baseBdf 0#32 (fun _ _ => 1)) w [(1 / 4, 1 / 4)] <;> rfl
  simp only [bsdfRhoHd, hs] at h
  rw [e, e, C77_rho 0#32 1 ⟨0, 0, 1⟩ one_ne_zero _ (by simp) (by simp; norm_num)] at h
  have h0 : Refl.rhoHd (baseBdf 0#32 (fun _ _ => 1)) ⟨1, 0, 0⟩ [(1 / 4, 1 / 4)] = some 0 := by
    simp [Refl.rhoHd, baseBdf, basePdf]
  rw [h0] at h
  simp at h

/-- non-vacuity -/
example : UnitDraws (⟨fun _ => 1 / 4, fun _ l => l⟩ : Rand ℝ) := fun _ => by norm_num

example : OffMiddle (stratified2d (⟨fun _ => 1 / 4, fun _ l => l⟩ : Rand ℝ) ⟨0, 0⟩ 1 1 true).1 := by
  intro s hs
  obtain ⟨i, hi⟩ := List.mem_iff_getElem?.1 hs
  by_cases h : i < 1 * 1
  · rw [stratified2d_getElem? _ _ _ _ _ _ h] at hi
    simp only [Option.some.injEq] at hi
    rw [← hi]
    have : i = 0 := by omega
    subst this
    norm_num
  · have := (List.getElem?_eq_some_iff.1 hi).1
    rw [stratified2d_length] at this
    omega

end Verif.Rho
