import Verif.Light.Area
import Verif.Reflection.Bsdf
import Mathlib.MeasureTheory.Integral.Bochner.Basic
import Mathlib.MeasureTheory.Integral.Bochner.Set
import Mathlib.MeasureTheory.Function.L1Space.Integrable

/-!
# Direct lighting (C100, C101, C104)

Models `pytracer/integrator/utility.py` `uniform_sample_one_light` 95-117 (the choice of a light), `uniform_sample_all_lights` 57-77 and
`estimate_direct` 203-257 over the real numbers, with the BSDF of `Verif.Reflection`.
Not modelled: the random number streams behind the samples, rounding.
-/
namespace Verif.Integrator
open Verif V3 Verif.Geom Verif.Light Bsdf

/-! ### Choosing a light -/

/-- the light number (utility.py 101/103, 105): `min(ftoi(u * n), n - 1)` -/
noncomputable def lightNum (n : ℕ) (u : ℝ) : ℤ := min ⌊u * n⌋ ((n : ℤ) - 1)

/-- `uniform_sample_one_light` (utility.py 95-117): `est i` is `estimate_direct` for light `i` -/
noncomputable def oneLight (n : ℕ) (est : ℕ → ℝ) (u : ℝ) : ℝ := if n = 0 then 0 else n * est (lightNum n u).toNat

/-- `uniform_sample_all_lights` (utility.py 57-77): for each light the list of the estimates of its samples -/
noncomputable def allLights (lights : List (List ℝ)) : ℝ :=
  lights.foldl (fun L smp => L + smp.foldl (fun Ld e => Ld + e) 0 / (smp.length : ℝ)) 0

/-- **C100** the number chosen is in range for every sample value in `[0, 1]`. -/
theorem C100_in_range (n : ℕ) (hn : 0 < n) (u : ℝ) (h0 : 0 ≤ u) : 0 ≤ lightNum n u ∧ lightNum n u < n := by
  unfold lightNum
  have : 0 ≤ ⌊u * n⌋ := Int.floor_nonneg.2 (by positivity)
  constructor
  · exact le_min this (by omega)
  · have := min_le_right ⌊u * (n : ℝ)⌋ ((n : ℤ) - 1)
    omega

theorem lightNum_eq (n : ℕ) (k : ℕ) (hk : k < n) (u : ℝ) (h1 : (k : ℝ) / n ≤ u) (h2 : u < ((k + 1 : ℕ) : ℝ) / n) : lightNum n u = k := by
  have hn : (0 : ℝ) < n := by exact_mod_cast (by omega : 0 < n)
  have e : ⌊u * (n : ℝ)⌋ = k := by
    rw [Int.floor_eq_iff]
    rw [div_le_iff₀ hn] at h1
    rw [lt_div_iff₀ hn] at h2
    push_cast at h2 ⊢
    exact ⟨h1, h2⟩
  unfold lightNum
  rw [e]
  apply min_eq_left
  omega

/-- **C100** choosing one light uniformly and multiplying by the number of lights is unbiased: averaged over the sample that chooses the light, the result
is the sum over all lights. -/
theorem C100_one_light_unbiased (n : ℕ) (est : ℕ → ℝ) :
    ∫ u in (0:ℝ)..1, oneLight n est u = ∑ i ∈ Finset.range n, est i := by
  rcases Nat.eq_zero_or_pos n with rfl | hn
  · simp [oneLight]
  have hn' : (0 : ℝ) < n := by exact_mod_cast hn
  set b : ℕ → ℝ := fun k => (k : ℝ) / n with hb
  have hlt : ∀ k, b k < b (k + 1) := by
    intro k
    simp only [hb]; push_cast
    exact div_lt_div_of_pos_right (by linarith) hn'
  have hconst : ∀ k < n, ∀ u ∈ Set.Ioo (b k) (b (k + 1)), oneLight n est u = n * est k := by
    intro k hk u hu
    simp only [oneLight, hn.ne', if_false]
    rw [lightNum_eq n k hk u hu.1.le hu.2]
    simp
  have hae : ∀ k < n, (fun u => oneLight n est u) =ᵐ[MeasureTheory.volume.restrict (Set.uIoc (b k) (b (k + 1)))] fun _ => n * est k := by
    intro k hk
    rw [Set.uIoc_of_le (hlt k).le, MeasureTheory.Measure.restrict_congr_set MeasureTheory.Ioo_ae_eq_Ioc.symm]
    filter_upwards [MeasureTheory.ae_restrict_mem measurableSet_Ioo] with u hu
    exact hconst k hk u hu
  have hint : ∀ k < n, IntervalIntegrable (fun u => oneLight n est u) MeasureTheory.volume (b k) (b (k + 1)) := by
    intro k hk
    exact (intervalIntegrable_const (c := n * est k)).congr_ae (hae k hk).symm
  have := intervalIntegral.sum_integral_adjacent_intervals (f := fun u => oneLight n est u) (a := b) (n := n) hint
  have hb0 : b 0 = 0 := by simp [hb]
  have hbn : b n = 1 := by simp [hb, hn'.ne']
  rw [hb0, hbn] at this
  rw [← this]
  apply Finset.sum_congr rfl
  intro k hk
  have hk' := Finset.mem_range.1 hk
  have e : ∫ u in b k..b (k + 1), oneLight n est u = ∫ _u in b k..b (k + 1), n * est k := by
    apply intervalIntegral.integral_congr_ae_restrict
    exact hae k hk'
  rw [e, intervalIntegral.integral_const, smul_eq_mul]
  simp only [hb]; push_cast
  field_simp
  ring

/-- **C100** sampling all lights returns the sum over the lights of the mean of that light's estimates. -/
theorem C100_all_lights (lights : List (List ℝ)) : allLights lights = (lights.map fun s => s.sum / (s.length : ℝ)).sum := by
  have h1 : ∀ (s : List ℝ) (x : ℝ), s.foldl (fun Ld e => Ld + e) x = x + s.sum := by
    intro s; induction s with
    | nil => simp
    | cons a t ih => intro x; simp [ih, add_assoc]
  have h2 : ∀ (l : List (List ℝ)) (x : ℝ), l.foldl (fun L smp => L + smp.foldl (fun Ld e => Ld + e) 0 / (smp.length : ℝ)) x
      = x + (l.map fun s => s.sum / (s.length : ℝ)).sum := by
    intro l; induction l with
    | nil => simp
    | cons a t ih => intro x; rw [List.foldl_cons, ih, h1]; simp [add_assoc]
  simp [allLights, h2]

/-! ### One light -/

section
variable {ι : Type}

/-- `util.is_black` for a spectrum (`utility/utility.py` 119-123) -/
def Black (s : ι → ℝ) : Prop := ∀ c, |s c| < eps

/-- flags `ALL & ~SPECULAR` (integrator/utility.py 73, 117) -/
def directFlags : Flags := ALL &&& ~~~SPECULAR

open Classical in
/-- the light-sampling half of `estimate_direct` (utility.py 213-229).  `ls` is what `sample_l` returned, `unocc` the answer of the visibility test, `T` the transmittance.
`power_heuristic` is not `0/0` because `light_pdf > 0`. -/
noncomputable def lightPart (ls : LSample ι) (b : BSDF (ι → ℝ)) (wo n : V3 ℝ) (isDelta unocc : Bool) (T : ι → ℝ) (flags : Flags) : ι → ℝ :=
  if ls.pdf > 0 ∧ ¬ Black ls.radiance then
    let f := b.f wo ls.wi flags
    if ¬ Black f ∧ unocc = true then
      let Li := fun c => ls.radiance c * T c
      if isDelta then fun c => 0 + f c * Li c * (absDot ls.wi n / ls.pdf)
      else
        let weight := (MC.power 1 ls.pdf 1 (b.pdf wo ls.wi flags)).getD 0
        fun c => 0 + f c * Li c * (absDot ls.wi n * weight / ls.pdf)
    else fun _ => 0
  else fun _ => 0

open Classical in
/-- `estimate_direct` (utility.py 203-257).  `none` is an exception: one inside `bsdf.sample_f`, or the `TypeError` of `scene.intersect(ray)` (246), which lacks its
second argument (`scene/scene.py` 35). -/
noncomputable def estimateDirect (ls : LSample ι) (b : BSDF (ι → ℝ)) (wo n : V3 ℝ) (isDelta unocc : Bool) (T : ι → ℝ) (lightPdf : V3 ℝ → ℝ)
    (u1 u2 uCom : ℝ) (flags : Flags) : Option (ι → ℝ) :=
  let Ld := lightPart ls b wo n isDelta unocc T flags
  if isDelta then some Ld
  else
    match b.sampleF wo u1 u2 uCom flags with
    | none => none
    | some o =>
      if ¬ Black o.f ∧ o.pdf > 0 then
        match o.type, o.wi with
        | some t, some wi =>
          if ¬ (t &&& SPECULAR = 0#32) then (if lightPdf wi = 0 then some Ld else none)
          else some Ld
        | _, _ => none
      else some Ld

/-! ### Specification -/

open Classical in
/-- the one-sample estimate of the light reflected from this light: nothing if it is blocked, else value × radiance × transmittance × cosine over the
density of the sample.  Its mean over the light samples is the direct lighting integral.  (Contributions that the code takes as black are taken as zero.) -/
noncomputable def unweighted (ls : LSample ι) (b : BSDF (ι → ℝ)) (wo n : V3 ℝ) (unocc : Bool) (T : ι → ℝ) (flags : Flags) (c : ι) : ℝ :=
  if ls.pdf > 0 ∧ unocc = true ∧ ¬ Black ls.radiance ∧ ¬ Black (b.f wo ls.wi flags) then
    b.f wo ls.wi flags c * ls.radiance c * T c * |dot ls.wi n| / ls.pdf
  else 0

/-- a component hands back a direction whenever its density is not zero -/
def Hands (b : BSDF (ι → ℝ)) : Prop := ∀ d ∈ b.bdfs, ∀ w a c, (d.sample w a c).pdf ≠ 0 → (d.sample w a c).dv ≠ none

/-- **C101** lights with a delta distribution (point, spot, ...): the estimate is the plain light sample. -/
theorem C101_delta_light_partial (ls : LSample ι) (b : BSDF (ι → ℝ)) (wo n : V3 ℝ) (unocc : Bool) (T : ι → ℝ) (lp : V3 ℝ → ℝ) (u1 u2 u : ℝ) (fl : Flags) :
    estimateDirect ls b wo n true unocc T lp u1 u2 u fl = some (unweighted ls b wo n unocc T fl) := by
  simp only [estimateDirect, if_true, Option.some.injEq]
  funext c
  simp only [lightPart, unweighted]
  by_cases h1 : ls.pdf > 0 ∧ ¬ Black ls.radiance
  · by_cases h2 : ¬ Black (b.f wo ls.wi fl) ∧ unocc = true
    · rw [if_pos h1, if_pos h2, if_pos trivial, if_pos ⟨h1.1, h2.2, h1.2, h2.1⟩]
      simp only [absDot]; ring
    · rw [if_pos h1, if_neg h2, if_neg (fun h => h2 ⟨h.2.2.2, h.2.1⟩)]
  · rw [if_neg h1, if_neg (fun h => h1 ⟨h.1, h.2.2.1⟩)]

/-- **C101** a point light lighting a surface: cosine times reflectance times intensity over squared distance. -/
theorem C101_point_light (pos p : V3 ℝ) (I : ι → ℝ) (e : ℝ) (b : BSDF (ι → ℝ)) (wo n : V3 ℝ) (lp : V3 ℝ → ℝ) (u1 u2 u : ℝ) (fl : Flags)
    (hb : ¬ Black fun c => I c / sqLength (pos - p)) (hf : ¬ Black (b.f wo (normalize (pos - p)) fl)) :
    estimateDirect (pointSample pos I p e) b wo n true true (fun _ => 1) lp u1 u2 u fl =
      some fun c => b.f wo (normalize (pos - p)) fl c * |dot (normalize (pos - p)) n| * I c / sqLength (pos - p) := by
  rw [C101_delta_light_partial]
  congr 1
  funext c
  rw [unweighted, if_pos ⟨by simp [pointSample], rfl, hb, hf⟩]
  simp only [pointSample]
  ring

/-- the flags exclude specular components -/
theorem not_specular (t : Flags) (h : Contained t directFlags) : t &&& SPECULAR = 0#32 := by
  apply BitVec.eq_of_getLsbD_eq
  intro i hi
  by_cases h4 : i = 4
  · subst h4
    by_cases ht : t.getLsbD 4 = true
    · exact absurd (h 4 (by norm_num) ht) (by decide)
    · simp only [BitVec.getLsbD_and]
      simp at ht
      simp [ht]
  · have : SPECULAR.getLsbD i = false := by
      simp only [SPECULAR, BitVec.getLsbD_shiftLeft]
      rcases lt_or_ge i 4 with h | h
      · simp [h]
      · have : i - 4 ≠ 0 := by omega
        simp [BitVec.getLsbD_one, this]
    simp [this]

/-- **C101** with the flags the integrators pass, the BSDF-sampling half never contributes: for every light that is not a delta light, every BSDF and every
sample, the estimate is the light-sampling half alone. -/
theorem C101_bsdf_half_never_contributes (ls : LSample ι) (b : BSDF (ι → ℝ)) (wo n : V3 ℝ) (isDelta unocc : Bool) (T : ι → ℝ) (lp : V3 ℝ → ℝ) (u1 u2 u : ℝ)
    (h0 : 0 ≤ u) (h1 : u < 1) (hh : Hands b) :
    estimateDirect ls b wo n isDelta unocc T lp u1 u2 u directFlags = some (lightPart ls b wo n isDelta unocc T directFlags) := by
  simp only [estimateDirect]
  cases isDelta with
  | true => simp
  | false =>
    have hb0 : Black (0 : ι → ℝ) := by intro c; simp [eps]
    simp only [Bool.false_eq_true, if_false]
    by_cases hn : matching b directFlags = []
    · rw [(C45_none b wo wo u1 u2 u directFlags hn).2.2.2]
      simp [hb0]
    · obtain ⟨d, -, hc, o, ho, ht, hz, hp⟩ := C45_sample b wo u1 u2 u directFlags h0 h1 hn hh
      rw [ho]
      by_cases h : (d.sample (b.w2l wo) u1 u2).pdf = 0
      · obtain ⟨e1, -, e3⟩ := hz h
        simp [e1, e3, hb0]
      · obtain ⟨wi, f, -, -, e3, -⟩ := hp h
        simp only [ht, e3, not_specular d.type hc]
        by_cases hx : ¬ Black o.f ∧ o.pdf > 0
        · rw [if_pos hx]; simp
        · rw [if_neg hx]

/-- the power-heuristic weight of the light sample -/
noncomputable def misWeight (lp bp : ℝ) : ℝ := lp ^ 2 / (lp ^ 2 + bp ^ 2)

/-- **C101** hence for an area light the estimate is the plain light sample times its multiple-importance weight, and nothing makes up for the rest. -/
theorem C101_area_light_weighted (ls : LSample ι) (b : BSDF (ι → ℝ)) (wo n : V3 ℝ) (unocc : Bool) (T : ι → ℝ) (lp : V3 ℝ → ℝ) (u1 u2 u : ℝ)
    (h0 : 0 ≤ u) (h1 : u < 1) (hh : Hands b) :
    estimateDirect ls b wo n false unocc T lp u1 u2 u directFlags =
      some fun c => misWeight ls.pdf (b.pdf wo ls.wi directFlags) * unweighted ls b wo n unocc T directFlags c := by
  rw [C101_bsdf_half_never_contributes ls b wo n false unocc T lp u1 u2 u h0 h1 hh]
  congr 1
  funext c
  simp only [lightPart, unweighted]
  by_cases h1 : ls.pdf > 0 ∧ ¬ Black ls.radiance
  · by_cases h2 : ¬ Black (b.f wo ls.wi directFlags) ∧ unocc = true
    · rw [if_pos h1, if_pos h2, if_neg (by decide), if_pos ⟨h1.1, h2.2, h1.2, h2.1⟩]
      have hne : ls.pdf * ls.pdf + b.pdf wo ls.wi directFlags * b.pdf wo ls.wi directFlags ≠ 0 := by
        have := mul_pos h1.1 h1.1
        have := mul_self_nonneg (b.pdf wo ls.wi directFlags)
        exact ne_of_gt (by linarith)
      simp only [absDot, MC.power, MC.qdiv, Nat.cast_one, one_mul, hne, if_false, Option.getD_some, misWeight]
      ring
    · rw [if_pos h1, if_neg h2, if_neg (fun h => h2 ⟨h.2.2.2, h.2.1⟩), mul_zero]
  · rw [if_neg h1, if_neg (fun h => h1 ⟨h.1, h.2.2.1⟩), mul_zero]

/-- the value of an estimate in one channel -/
noncomputable def valOf (o : Option (ι → ℝ)) (c : ι) : ℝ := match o with | some f => f c | none => 0

/-- **C101** so area lights come out too dark on average: take any distribution `μ` of light samples.  If the plain light-sampling estimate has a positive mean
and the BSDF's own density is not zero where the light contributes, the mean of `estimate_direct` is strictly smaller. -/
theorem C101_area_light_too_dark {Ω : Type*} [MeasurableSpace Ω] (μ : MeasureTheory.Measure Ω) (ls : Ω → LSample ι) (b : BSDF (ι → ℝ)) (wo n : V3 ℝ)
    (unocc : Ω → Bool) (T : Ω → ι → ℝ) (lp : V3 ℝ → ℝ) (u1 u2 u : Ω → ℝ) (h0 : ∀ ω, 0 ≤ u ω) (h1 : ∀ ω, u ω < 1) (hh : Hands b) (c : ι)
    (hnn : ∀ ω, 0 ≤ unweighted (ls ω) b wo n (unocc ω) (T ω) directFlags c)
    (hi : MeasureTheory.Integrable (fun ω => unweighted (ls ω) b wo n (unocc ω) (T ω) directFlags c) μ)
    (hi' : MeasureTheory.Integrable (fun ω => valOf (estimateDirect (ls ω) b wo n false (unocc ω) (T ω) lp (u1 ω) (u2 ω) (u ω) directFlags) c) μ)
    (hpos : 0 < ∫ ω, unweighted (ls ω) b wo n (unocc ω) (T ω) directFlags c ∂μ)
    (hb : ∀ ω, unweighted (ls ω) b wo n (unocc ω) (T ω) directFlags c ≠ 0 → b.pdf wo (ls ω).wi directFlags ≠ 0) :
    ∫ ω, valOf (estimateDirect (ls ω) b wo n false (unocc ω) (T ω) lp (u1 ω) (u2 ω) (u ω) directFlags) c ∂μ
      < ∫ ω, unweighted (ls ω) b wo n (unocc ω) (T ω) directFlags c ∂μ := by
  set X := fun ω => unweighted (ls ω) b wo n (unocc ω) (T ω) directFlags c with hX
  set E := fun ω => valOf (estimateDirect (ls ω) b wo n false (unocc ω) (T ω) lp (u1 ω) (u2 ω) (u ω) directFlags) c with hE
  have hval : ∀ ω, E ω = misWeight (ls ω).pdf (b.pdf wo (ls ω).wi directFlags) * X ω := by
    intro ω
    simp only [hE, C101_area_light_weighted (ls ω) b wo n (unocc ω) (T ω) lp (u1 ω) (u2 ω) (u ω) (h0 ω) (h1 ω) hh, valOf, hX]
  have hlt : ∀ ω, X ω ≠ 0 → E ω < X ω := by
    intro ω hx
    have hbp := hb ω hx
    have hx' : 0 < X ω := lt_of_le_of_ne (hnn ω) (Ne.symm hx)
    rw [hval]
    have : misWeight (ls ω).pdf (b.pdf wo (ls ω).wi directFlags) < 1 := by
      unfold misWeight
      have h2 : 0 < (b.pdf wo (ls ω).wi directFlags) ^ 2 := by positivity
      rw [div_lt_one (by positivity)]
      linarith
    nlinarith
  have hle : ∀ ω, E ω ≤ X ω := by
    intro ω
    by_cases hx : X ω = 0
    · rw [hval, hx, mul_zero]
    · exact (hlt ω hx).le
  have hsub : 0 < ∫ ω, (X ω - E ω) ∂μ := by
    rw [MeasureTheory.integral_pos_iff_support_of_nonneg (fun ω => sub_nonneg.2 (hle ω)) (hi.sub hi')]
    have hs : Function.support X ⊆ Function.support fun ω => X ω - E ω := by
      intro ω hx
      exact (sub_pos.2 (hlt ω hx)).ne'
    exact lt_of_lt_of_le ((MeasureTheory.integral_pos_iff_support_of_nonneg hnn hi).1 hpos) (MeasureTheory.measure_mono hs)
  rw [MeasureTheory.integral_sub hi hi'] at hsub
  linarith

end

/-- a matte surface whose sampling density is `1` everywhere, and a light sample from straight above with density 1 -/
noncomputable def exBsdf : BSDF (Unit → ℝ) := ⟨⟨1, 0, 0⟩, ⟨0, 1, 0⟩, ⟨0, 0, 1⟩, ⟨0, 0, 1⟩,
  [⟨REFLECTION ||| DIFFUSE, fun _ _ _ => 1, fun _ _ => 1, fun _ _ _ => ⟨1, some (⟨0, 0, 1⟩, fun _ => 1)⟩⟩]⟩
noncomputable def exLs : LSample Unit := ⟨fun _ => 1, ⟨0, 0, 1⟩, 1, ⟨⟨0, 0, 0⟩, ⟨0, 0, 1⟩, 0, 1⟩⟩

theorem ex_match : matching exBsdf directFlags = exBsdf.bdfs := by
  have : Contained (REFLECTION ||| DIFFUSE) directFlags := by
    intro i hi h
    interval_cases i <;> revert h <;> decide
  simp [matching, exBsdf, this]

theorem ex_f : exBsdf.f ⟨0, 0, 1⟩ ⟨0, 0, 1⟩ directFlags = fun _ => 1 := by
  rw [C45_f, ex_match]
  have : ¬ transmits (REFLECTION ||| DIFFUSE) := by unfold transmits; decide
  have h : (0:ℝ) < dot (⟨0, 0, 1⟩ : V3 ℝ) exBsdf.ng * dot ⟨0, 0, 1⟩ exBsdf.ng := by norm_num [exBsdf, dot]
  simp only [gt_iff_lt, h, if_true]
  simp [exBsdf, this]

theorem ex_pdf : exBsdf.pdf ⟨0, 0, 1⟩ ⟨0, 0, 1⟩ directFlags = 1 := by
  rw [C45_pdf, ex_match]; simp [exBsdf]

theorem ex_hands : Hands exBsdf := by
  intro d hd w a c _
  simp only [exBsdf, List.mem_singleton] at hd
  subst hd; simp

theorem ex_unweighted : unweighted exLs exBsdf ⟨0, 0, 1⟩ ⟨0, 0, 1⟩ true (fun _ => 1) directFlags () = 1 := by
  have hb : ¬ Black (fun _ : Unit => (1:ℝ)) := by intro h; have := h (); norm_num [eps] at this
  have hf : exBsdf.f ⟨0, 0, 1⟩ exLs.wi directFlags = fun _ => 1 := ex_f
  rw [unweighted, if_pos ⟨by norm_num [exLs], rfl, hb, by rw [hf]; exact hb⟩, hf]
  simp [exLs, dot]

/-- **C101** the full statement (the estimate of a light that is not a delta light is, on average, the plain estimate) fails: here it is half of it for every
sample. -/
theorem C101_area_light_false : ¬ ∀ (ls : LSample Unit) (b : BSDF (Unit → ℝ)) (wo n : V3 ℝ) (lp : V3 ℝ → ℝ), Hands b →
    ∫ u in (0:ℝ)..(1/2), valOf (estimateDirect ls b wo n false true (fun _ => 1) lp u u u directFlags) () =
      ∫ _u in (0:ℝ)..(1/2), unweighted ls b wo n true (fun _ => 1) directFlags () := by
  intro H
  have h := H exLs exBsdf ⟨0, 0, 1⟩ ⟨0, 0, 1⟩ (fun _ => 1) ex_hands
  have e : ∀ u ∈ Set.uIcc (0:ℝ) (1/2), valOf (estimateDirect exLs exBsdf ⟨0, 0, 1⟩ ⟨0, 0, 1⟩ false true (fun _ => 1) (fun _ => 1) u u u directFlags) () = 1 / 2 := by
    intro u hu
    rw [Set.uIcc_of_le (by norm_num)] at hu
    rw [C101_area_light_weighted _ _ _ _ _ _ _ _ _ _ hu.1 (by linarith [hu.2]) ex_hands]
    simp only [valOf, ex_unweighted, mul_one]
    have : exBsdf.pdf ⟨0, 0, 1⟩ exLs.wi directFlags = 1 := ex_pdf
    rw [this]; norm_num [misWeight, exLs]
  rw [intervalIntegral.integral_congr e, ex_unweighted] at h
  norm_num at h

/-! ### The light object across calls -/

section
variable {ι : Type}

/-- one call of `estimate_direct` for a `DiffuseAreaLight`, as far as it can touch the light: did `sample_l` return the light's own spectrum object (the light
faces the point, light.py 508) with positive density, was the surface value not black, was the light visible, and the transmittance -/
structure Call (ι : Type) where
  facing : Bool
  pdfPos : Bool
  valueBlack : Bool
  unocc : Bool
  T : ι → ℝ

open Classical in
/-- `Li *= vis.transmittance(...)` (integrator/utility.py 222) works in place, and `Li` is `self.emit` itself when the light faces the point
(light.py 508, 521): the light's radiance afterwards -/
noncomputable def afterCall (emit : ι → ℝ) (k : Call ι) : ι → ℝ :=
  if k.facing ∧ k.pdfPos ∧ ¬ Black emit ∧ k.valueBlack = false ∧ k.unocc = true then fun c => emit c * k.T c else emit

/-- **C104** without a volume integrator (the transmittance is one, renderer.py 82) estimating direct light leaves the light unchanged, whatever the sequence of calls. -/
theorem C104_unchanged_partial (emit : ι → ℝ) (calls : List (Call ι)) (h : ∀ k ∈ calls, ∀ c, k.T c = 1) : calls.foldl afterCall emit = emit := by
  induction calls with
  | nil => rfl
  | cons k t ih =>
    have : afterCall emit k = emit := by
      unfold afterCall
      split_ifs
      · funext c; rw [h k (by simp) c, mul_one]
      · rfl
    rw [List.foldl_cons, this]
    exact ih (fun k hk => h k (List.mem_cons_of_mem _ hk))

/-- **C104** with attenuation, every visible sample dims the light for good: after `n` such calls the radiance is `emit * T ^ n` (as long as it is not taken as black). -/
theorem C104_decays (emit T : ι → ℝ) (n : ℕ) (hnb : ∀ k < n, ¬ Black fun c => emit c * T c ^ k) :
    (List.replicate n (⟨true, true, false, true, T⟩ : Call ι)).foldl afterCall emit = fun c => emit c * T c ^ n := by
  induction n with
  | zero => simp
  | succ n ih =>
    rw [List.replicate_succ', List.foldl_append, ih (fun k hk => hnb k (by omega))]
    simp only [List.foldl_cons, List.foldl_nil, afterCall]
    rw [if_pos ⟨rfl, rfl, hnb n (by omega), rfl, rfl⟩]
    funext c
    rw [pow_succ]; ring

/-- **C104** the full statement (rendering does not change the lights) fails with a volume integrator. -/
theorem C104_unchanged_false : ¬ ∀ (emit : Unit → ℝ) (calls : List (Call Unit)), calls.foldl afterCall emit = emit := by
  intro h
  have h1 := C104_decays (fun _ : Unit => (1:ℝ)) (fun _ => 1/2) 1 (by
    intro k hk hb
    have := hb ()
    interval_cases k
    norm_num [eps] at this)
  rw [h] at h1
  have := congrFun h1 ()
  norm_num at this

end
end Verif.Integrator
