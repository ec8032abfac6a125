import Verif.MC.Props
import Mathlib.MeasureTheory.Measure.Lebesgue.EqHaar
import Mathlib.MeasureTheory.Measure.Prod
import Mathlib.Analysis.SpecialFunctions.PolarCoord
import Mathlib.MeasureTheory.Measure.Haar.Unique
import Mathlib.MeasureTheory.Integral.IntervalIntegral.Basic

/-!
# Concentric disc sampling (C137)

About `concentric_sample_disk` (`pytracer/montecarlo/utility.py:122-168`), modelled as `concentricPolar` and `concentric` in `MC/Model.lean`.
-/
namespace Verif.MC
open MeasureTheory Real Set

/-- the points of a cone between the slopes `l` and `h`, up to abscissa `ρ`, whose slope lies in `[a, b]` -/
def wedge (l h ρ a b : ℝ) : Set (ℝ × ℝ) := {p | 0 < p.1 ∧ l * p.1 < p.2 ∧ p.2 < h * p.1 ∧ p.1 ≤ ρ ∧ a * p.1 ≤ p.2 ∧ p.2 ≤ b * p.1}

theorem wedge_meas (l h ρ a b : ℝ) : MeasurableSet (wedge l h ρ a b) := by
  unfold wedge
  simp only [ofPred_and]
  refine (measurableSet_lt measurable_const measurable_fst).inter ((measurableSet_lt (measurable_fst.const_mul _) measurable_snd).inter
    ((measurableSet_lt measurable_snd (measurable_fst.const_mul _)).inter ((measurableSet_le measurable_fst measurable_const).inter
    ((measurableSet_le (measurable_fst.const_mul _) measurable_snd).inter (measurableSet_le measurable_snd (measurable_fst.const_mul _))))))

theorem wedge_slice (l h ρ a b x : ℝ) : volume (Prod.mk x ⁻¹' wedge l h ρ a b) = (Ioc 0 ρ).indicator (fun x => ENNReal.ofReal ((min b h - max a l) * x)) x := by
  by_cases hx : x ∈ Ioc 0 ρ
  · rw [indicator_of_mem hx]
    obtain ⟨h0, h1⟩ := hx
    have e1 : min b h * x = min (b * x) (h * x) := by rw [min_mul_of_nonneg _ _ h0.le]
    have e2 : max a l * x = max (a * x) (l * x) := by rw [max_mul_of_nonneg _ _ h0.le]
    apply le_antisymm
    · calc volume (Prod.mk x ⁻¹' wedge l h ρ a b) ≤ volume (Icc (max a l * x) (min b h * x)) := by
            apply measure_mono
            rintro y ⟨-, k1, k2, -, k3, k4⟩
            rw [mem_Icc, e1, e2]
            exact ⟨max_le k3 k1.le, le_min k4 k2.le⟩
        _ = _ := by rw [Real.volume_Icc]; congr 1; ring
    · calc ENNReal.ofReal ((min b h - max a l) * x) = volume (Ioo (max a l * x) (min b h * x)) := by rw [Real.volume_Ioo]; congr 1; ring
        _ ≤ _ := by
            apply measure_mono
            intro y hy
            rw [mem_Ioo, e1, e2, max_lt_iff, lt_min_iff] at hy
            exact ⟨h0, hy.1.2, hy.2.2, h1, hy.1.1.le, hy.2.1.le⟩
  · rw [indicator_of_notMem hx]
    have : Prod.mk x ⁻¹' wedge l h ρ a b = ∅ := by
      ext y
      simp only [mem_preimage, wedge, mem_ofPred_eq, mem_empty_iff_false, iff_false]
      rintro ⟨k0, -, -, k1, -⟩
      exact hx ⟨k0, k1⟩
    rw [this, measure_empty]

theorem wedge_volume (l h ρ a b : ℝ) (hρ : 0 ≤ ρ) : volume (wedge l h ρ a b) = ENNReal.ofReal ((min b h - max a l) * (ρ ^ 2 / 2)) := by
  rw [Measure.volume_eq_prod, Measure.prod_apply (wedge_meas _ _ _ _ _)]
  simp only [wedge_slice]
  rw [lintegral_indicator measurableSet_Ioc]
  set c := min b h - max a l with hc
  rcases le_total 0 c with h0 | h0
  · rw [← ofReal_integral_eq_lintegral_ofReal]
    · congr 1
      rw [← intervalIntegral.integral_of_le hρ, intervalIntegral.integral_const_mul, integral_id]
      ring
    · exact ((continuous_const.mul continuous_id).integrableOn_Icc (a := 0) (b := ρ)).mono_set Ioc_subset_Icc_self
    · refine (ae_restrict_iff' measurableSet_Ioc).2 (Filter.Eventually.of_forall fun x hx => ?_)
      exact mul_nonneg h0 hx.1.le
  · rw [ENNReal.ofReal_of_nonpos (mul_nonpos_of_nonpos_of_nonneg h0 (by positivity))]
    rw [setLIntegral_congr_fun (g := fun _ => 0) measurableSet_Ioc]
    · simp
    · intro x hx
      exact ENNReal.ofReal_of_nonpos (mul_nonpos_of_nonpos_of_nonneg h0 hx.1.le)

/-- the map of the unit square to the square `[-1,1]²` -/
def toS (u : ℝ × ℝ) : ℝ × ℝ := (2 * u.1 - 1, 2 * u.2 - 1)

theorem toS_volume (A : Set (ℝ × ℝ)) : volume (toS ⁻¹' A) = ENNReal.ofReal (1 / 4) * volume A := by
  have e : toS ⁻¹' A = (fun x : ℝ × ℝ => (2 : ℝ) • x) ⁻¹' ((fun x => x + ((-1, -1) : ℝ × ℝ)) ⁻¹' A) := by
    ext u
    simp only [mem_preimage, toS]
    have : (2 : ℝ) • u + ((-1, -1) : ℝ × ℝ) = (2 * u.1 - 1, 2 * u.2 - 1) := by
      ext <;> simp [sub_eq_add_neg]
    rw [this]
  rw [e, Measure.addHaar_preimage_smul _ two_ne_zero, measure_preimage_add_right]
  congr 2
  simp only [Module.finrank_prod, Module.finrank_self]
  norm_num

/-- the four quarter turns that bring a sector to the right -/
def turn1 (s : ℝ × ℝ) : ℝ × ℝ := s
def turn2 (s : ℝ × ℝ) : ℝ × ℝ := (s.2, -s.1)
def turn3 (s : ℝ × ℝ) : ℝ × ℝ := (-s.1, s.2)
def turn4 (s : ℝ × ℝ) : ℝ × ℝ := (-s.2, -s.1)

theorem neg_mp : MeasurePreserving (fun x : ℝ => -x) volume volume := Measure.measurePreserving_neg volume
theorem id_mp : MeasurePreserving (fun x : ℝ => x) volume volume := MeasurePreserving.id volume

theorem turn2_mp : MeasurePreserving turn2 volume volume := by
  have h := (id_mp.prod neg_mp).comp (Measure.measurePreserving_swap (μ := (volume : Measure ℝ)) (ν := (volume : Measure ℝ)))
  exact h
theorem turn3_mp : MeasurePreserving turn3 volume volume := by
  have h := neg_mp.prod id_mp
  exact h
theorem turn4_mp : MeasurePreserving turn4 volume volume := by
  have h := (neg_mp.prod neg_mp).comp (Measure.measurePreserving_swap (μ := (volume : Measure ℝ)) (ν := (volume : Measure ℝ)))
  exact h
theorem turn1_mp : MeasurePreserving turn1 volume volume := MeasurePreserving.id _

/-- the five open sectors, as a turn, two slopes and the angle number at slope 0 -/
structure Sector where
  turn : ℝ × ℝ → ℝ × ℝ
  mp : MeasurePreserving turn volume volume
  l : ℝ
  h : ℝ
  c : ℝ

def sec1a : Sector := ⟨turn1, turn1_mp, 0, 1, 0⟩
def sec1b : Sector := ⟨turn1, turn1_mp, -1, 0, 8⟩
def sec2 : Sector := ⟨turn2, turn2_mp, -1, 1, 2⟩
def sec3 : Sector := ⟨turn3, turn3_mp, -1, 1, 4⟩
def sec4 : Sector := ⟨turn4, turn4_mp, -1, 1, 6⟩

/-- the open cone of a sector in the unit square -/
def Sector.cone (k : Sector) : Set (ℝ × ℝ) := {u | 0 < (k.turn (toS u)).1 ∧ k.l * (k.turn (toS u)).1 < (k.turn (toS u)).2 ∧ (k.turn (toS u)).2 < k.h * (k.turn (toS u)).1}

/-- what `concentric_sample_disk` does in the sector -/
def Sector.ok (k : Sector) : Prop := ∀ u ∈ k.cone, concentricPolar u.1 u.2 = some ((k.turn (toS u)).1, (k.c + (k.turn (toS u)).2 / (k.turn (toS u)).1) * (π / 4))

theorem polar_unfold (u : ℝ × ℝ) {sx sy : ℝ} (hx : 2 * u.1 - 1 = sx) (hy : 2 * u.2 - 1 = sy) (h0 : ¬ (sx = 0 ∧ sy = 0)) : concentricPolar u.1 u.2 =
    (if sx > -sy then
        if sx > sy then (qdiv sy sx).map (fun q => (sx, if sy ≤ 0 then q + 8 else q))
        else (qdiv sx sy).map (fun q => (sy, 2 - q))
      else
        if sx > sy then (qdiv sx sy).map (fun q => (-sy, 6 + q))
        else (qdiv sy sx).map (fun q => (-sx, 4 - q))).map (fun p => (p.1, p.2 * (π / 4))) := by
  simp only [concentricPolar, hx, hy]
  rw [if_neg h0]

theorem sec1a_ok : sec1a.ok := by
  rintro u ⟨h0, h1, h2⟩
  simp only [sec1a, turn1, toS, zero_mul, one_mul] at h0 h1 h2 ⊢
  rw [polar_unfold u rfl rfl (by rintro ⟨h, -⟩; linarith)]
  generalize 2 * u.1 - 1 = sx at *
  generalize 2 * u.2 - 1 = sy at *
  rw [if_pos (show sx > -sy by linarith), if_pos (show sx > sy from h2), qdiv, if_neg h0.ne']
  simp only [Option.map_some, if_neg (not_le.2 h1), zero_add]

theorem sec1b_ok : sec1b.ok := by
  rintro u ⟨h0, h1, h2⟩
  simp only [sec1b, turn1, toS, zero_mul, neg_mul, one_mul] at h0 h1 h2 ⊢
  rw [polar_unfold u rfl rfl (by rintro ⟨h, -⟩; linarith)]
  generalize 2 * u.1 - 1 = sx at *
  generalize 2 * u.2 - 1 = sy at *
  rw [if_pos (show sx > -sy by linarith), if_pos (show sx > sy by linarith), qdiv, if_neg h0.ne']
  simp only [Option.map_some, if_pos h2.le, Option.some.injEq, Prod.mk.injEq, true_and]
  ring

theorem sec2_ok : sec2.ok := by
  rintro u ⟨h0, h1, h2⟩
  simp only [sec2, turn2, toS, neg_mul, one_mul] at h0 h1 h2 ⊢
  rw [polar_unfold u rfl rfl (by rintro ⟨-, h⟩; linarith)]
  generalize 2 * u.1 - 1 = sx at *
  generalize 2 * u.2 - 1 = sy at *
  rw [if_pos (show sx > -sy by linarith), if_neg (show ¬ sx > sy by linarith), qdiv, if_neg h0.ne']
  simp only [Option.map_some, Option.some.injEq, Prod.mk.injEq, true_and]
  ring

theorem sec3_ok : sec3.ok := by
  rintro u ⟨h0, h1, h2⟩
  simp only [sec3, turn3, toS, neg_mul, one_mul] at h0 h1 h2 ⊢
  rw [polar_unfold u rfl rfl (by rintro ⟨h, -⟩; linarith)]
  generalize 2 * u.1 - 1 = sx at *
  generalize 2 * u.2 - 1 = sy at *
  rw [if_neg (show ¬ sx > -sy by linarith), if_neg (show ¬ sx > sy by linarith), qdiv, if_neg (show sx ≠ 0 by intro h; linarith)]
  simp only [Option.map_some, Option.some.injEq, Prod.mk.injEq, true_and]
  rw [div_neg]; ring

theorem sec4_ok : sec4.ok := by
  rintro u ⟨h0, h1, h2⟩
  simp only [sec4, turn4, toS, neg_mul, one_mul] at h0 h1 h2 ⊢
  rw [polar_unfold u rfl rfl (by rintro ⟨-, h⟩; linarith)]
  generalize 2 * u.1 - 1 = sx at *
  generalize 2 * u.2 - 1 = sy at *
  rw [if_neg (show ¬ sx > -sy by linarith), if_pos (show sx > sy by linarith), qdiv, if_neg (show sy ≠ 0 by intro h; linarith)]
  simp only [Option.map_some, Option.some.injEq, Prod.mk.injEq, true_and]
  rw [neg_div_neg_eq]

/-- the canonical samples that are mapped within distance `ρ` of the centre and to an angle in `[α, β]` -/
def hits (ρ α β : ℝ) : Set (ℝ × ℝ) := {u | (0 ≤ u.1 ∧ u.1 ≤ 1 ∧ 0 ≤ u.2 ∧ u.2 ≤ 1) ∧ ∃ r θ, concentricPolar u.1 u.2 = some (r, θ) ∧ r ≤ ρ ∧ α ≤ θ ∧ θ ≤ β}

theorem unit_of_radius (u : ℝ × ℝ) (r θ ρ : ℝ) (h : concentricPolar u.1 u.2 = some (r, θ)) (hr : r ≤ ρ) (hρ : ρ ≤ 1) : 0 ≤ u.1 ∧ u.1 ≤ 1 ∧ 0 ≤ u.2 ∧ u.2 ≤ 1 := by
  obtain ⟨r', θ', e, hm, -, -⟩ := concentricPolar_spec u.1 u.2
  rw [h] at e
  simp only [Option.some.injEq, Prod.mk.injEq] at e
  rw [e.1, hm] at hr
  have h1 := abs_le.1 ((le_max_left _ _).trans (hr.trans hρ))
  have h2 := abs_le.1 ((le_max_right _ _).trans (hr.trans hρ))
  refine ⟨?_, ?_, ?_, ?_⟩ <;> linarith [h1.1, h1.2, h2.1, h2.2]

theorem hits_cone (k : Sector) (hk : k.ok) (ρ α β : ℝ) (hρ : ρ ≤ 1) :
    hits ρ α β ∩ k.cone = toS ⁻¹' (k.turn ⁻¹' wedge k.l k.h ρ (α * (4 / π) - k.c) (β * (4 / π) - k.c)) := by
  have hpi := Real.pi_pos
  ext u
  constructor
  · rintro ⟨⟨-, r, θ, e, hr, ha, hb⟩, hc⟩
    rw [hk u hc] at e
    simp only [Option.some.injEq, Prod.mk.injEq] at e
    obtain ⟨rfl, rfl⟩ := e
    obtain ⟨h0, h1, h2⟩ := hc
    refine ⟨h0, h1, h2, hr, ?_, ?_⟩
    · rw [← le_div_iff₀ h0]
      have := mul_le_mul_of_nonneg_right ha (show 0 ≤ 4 / π by positivity)
      rw [mul_assoc, show π / 4 * (4 / π) = 1 by field_simp, mul_one] at this
      linarith
    · rw [← div_le_iff₀ h0]
      have := mul_le_mul_of_nonneg_right hb (show 0 ≤ 4 / π by positivity)
      rw [mul_assoc, show π / 4 * (4 / π) = 1 by field_simp, mul_one] at this
      linarith
  · rintro ⟨h0, h1, h2, hr, ha, hb⟩
    have hc : u ∈ k.cone := ⟨h0, h1, h2⟩
    refine ⟨⟨unit_of_radius u _ _ ρ (hk u hc) hr hρ, _, _, hk u hc, hr, ?_, ?_⟩, hc⟩
    · rw [← le_div_iff₀ h0] at ha
      have := mul_le_mul_of_nonneg_right (show α * (4 / π) ≤ k.c + (k.turn (toS u)).2 / (k.turn (toS u)).1 by linarith) (show 0 ≤ π / 4 by positivity)
      rwa [mul_assoc, show 4 / π * (π / 4) = 1 by field_simp, mul_one] at this
    · rw [← div_le_iff₀ h0] at hb
      have := mul_le_mul_of_nonneg_right (show k.c + (k.turn (toS u)).2 / (k.turn (toS u)).1 ≤ β * (4 / π) by linarith) (show 0 ≤ π / 4 by positivity)
      rwa [mul_assoc, show 4 / π * (π / 4) = 1 by field_simp, mul_one] at this

theorem max0_ofReal (x c : ℝ) (hc : 0 ≤ c) : ENNReal.ofReal (x * c) = ENNReal.ofReal (max 0 x * c) := by
  rcases le_total 0 x with h | h
  · rw [max_eq_right h]
  · rw [max_eq_left h, zero_mul, ENNReal.ofReal_zero, ENNReal.ofReal_of_nonpos (mul_nonpos_of_nonpos_of_nonneg h hc)]

theorem hits_cone_volume (k : Sector) (hk : k.ok) (ρ α β : ℝ) (h0 : 0 ≤ ρ) (hρ : ρ ≤ 1) :
    volume (hits ρ α β ∩ k.cone) = ENNReal.ofReal (max 0 (min (β * (4 / π) - k.c) k.h - max (α * (4 / π) - k.c) k.l) * (ρ ^ 2 / 8)) := by
  rw [← max0_ofReal _ _ (by positivity)]
  rw [hits_cone k hk ρ α β hρ, toS_volume, k.mp.measure_preimage (wedge_meas _ _ _ _ _).nullMeasurableSet, wedge_volume _ _ _ _ _ h0, ← ENNReal.ofReal_mul (by norm_num)]
  congr 1; ring

theorem toS_measurable : Measurable toS := by
  unfold toS
  exact ((measurable_fst.const_mul 2).sub_const 1).prodMk ((measurable_snd.const_mul 2).sub_const 1)

theorem cone_meas (k : Sector) : MeasurableSet k.cone := by
  have h : Measurable fun u => k.turn (toS u) := k.mp.measurable.comp toS_measurable
  unfold Sector.cone
  simp only [ofPred_and]
  exact (measurableSet_lt measurable_const h.fst).inter ((measurableSet_lt (h.fst.const_mul _) h.snd).inter (measurableSet_lt h.snd (h.fst.const_mul _)))

/-- the lines between the sectors -/
def seams : Set (ℝ × ℝ) := {s | s.1 = s.2} ∪ {s | s.1 = -s.2} ∪ {s | s.2 = 0} ∪ {s | s.1 = 0}

theorem line_null (a b : ℝ) (h : a ≠ 0 ∨ b ≠ 0) : volume {s : ℝ × ℝ | a * s.1 + b * s.2 = 0} = 0 := by
  let f : ℝ × ℝ →ₗ[ℝ] ℝ := a • LinearMap.fst ℝ ℝ ℝ + b • LinearMap.snd ℝ ℝ ℝ
  have e : {s : ℝ × ℝ | a * s.1 + b * s.2 = 0} = (LinearMap.ker f : Set (ℝ × ℝ)) := by
    ext s; simp [f, LinearMap.mem_ker]
  rw [e]
  apply Measure.addHaar_submodule
  intro ht
  rw [LinearMap.ker_eq_top] at ht
  rcases h with h | h
  · exact h (by simpa [f] using LinearMap.congr_fun ht (1, 0))
  · exact h (by simpa [f] using LinearMap.congr_fun ht (0, 1))

theorem seams_null : volume (toS ⁻¹' seams) = 0 := by
  rw [toS_volume]
  have h1 := line_null 1 (-1) (Or.inl one_ne_zero)
  have h2 := line_null 1 1 (Or.inl one_ne_zero)
  have h3 := line_null 0 1 (Or.inr one_ne_zero)
  have h4 := line_null 1 0 (Or.inl one_ne_zero)
  have hz : volume seams = 0 := by
    unfold seams
    refine measure_union_null (measure_union_null (measure_union_null ?_ ?_) ?_) ?_
    · rwa [show {s : ℝ × ℝ | s.1 = s.2} = {s | 1 * s.1 + -1 * s.2 = 0} by
        ext s; simp only [mem_ofPred_eq]; constructor <;> intro h <;> linarith]
    · rwa [show {s : ℝ × ℝ | s.1 = -s.2} = {s | 1 * s.1 + 1 * s.2 = 0} by
        ext s; simp only [mem_ofPred_eq]; constructor <;> intro h <;> linarith]
    · rwa [show {s : ℝ × ℝ | s.2 = 0} = {s | 0 * s.1 + 1 * s.2 = 0} by
        ext s; simp only [mem_ofPred_eq]; constructor <;> intro h <;> linarith]
    · rwa [show {s : ℝ × ℝ | s.1 = 0} = {s | 1 * s.1 + 0 * s.2 = 0} by
        ext s; simp only [mem_ofPred_eq]; constructor <;> intro h <;> linarith]
  rw [hz, mul_zero]

theorem cones_cover (u : ℝ × ℝ) (h1 : u ∉ sec1a.cone) (h2 : u ∉ sec1b.cone) (h3 : u ∉ sec2.cone) (h4 : u ∉ sec3.cone) (h5 : u ∉ sec4.cone) : u ∈ toS ⁻¹' seams := by
  by_contra hn
  simp only [seams, mem_preimage, mem_union, mem_ofPred_eq, not_or] at hn
  obtain ⟨⟨⟨n1, n2⟩, n3⟩, n4⟩ := hn
  simp only [Sector.cone, sec1a, sec1b, sec2, sec3, sec4, turn1, turn2, turn3, turn4, mem_ofPred_eq, zero_mul, one_mul, neg_mul, neg_neg] at h1 h2 h3 h4 h5
  generalize (toS u).1 = x at *
  generalize (toS u).2 = y at *
  rcases lt_or_gt_of_ne n3 with hy | hy <;> rcases lt_or_gt_of_ne n4 with hx | hx <;> rcases lt_or_gt_of_ne n1 with ha | ha <;> rcases lt_or_gt_of_ne n2 with hb | hb
  all_goals first
    | linarith
    | exact h1 ⟨by linarith, by linarith, by linarith⟩
    | exact h2 ⟨by linarith, by linarith, by linarith⟩
    | exact h3 ⟨by linarith, by linarith, by linarith⟩
    | exact h4 ⟨by linarith, by linarith, by linarith⟩
    | exact h5 ⟨by linarith, by linarith, by linarith⟩

/-- the length of an interval is the sum of the lengths of its parts in the five angular ranges -/
theorem clamp_len (a b l h : ℝ) (hab : a ≤ b) (hlh : l ≤ h) : max 0 (min b h - max a l) = min (max b l) h - min (max a l) h := by
  rcases le_total a l with h1 | h1 <;> rcases le_total b l with h2 | h2 <;> rcases le_total a h with h3 | h3 <;> rcases le_total b h with h4 | h4 <;>
    simp only [h1, h2, h3, h4, hlh, max_eq_left, max_eq_right, min_eq_left, min_eq_right] <;>
    first
    | linarith
    | (rw [max_eq_left (by linarith)]; linarith)
    | (rw [max_eq_right (by linarith)])

theorem clamp_total (t : ℝ) (h0 : 0 ≤ t) (h8 : t ≤ 8) :
    min (max t 0) 1 + min (max (t - 2) (-1)) 1 + min (max (t - 4) (-1)) 1 + min (max (t - 6) (-1)) 1 + min (max (t - 8) (-1)) 0 = t - 4 := by
  rcases le_total t 1 with a | a
  · rw [max_eq_left h0, min_eq_left a, max_eq_right (by linarith), max_eq_right (by linarith), max_eq_right (by linarith), max_eq_right (by linarith)]
    norm_num
    linarith
  · rcases le_total t 3 with b | b
    · rw [max_eq_left h0, min_eq_right a, max_eq_left (by linarith), min_eq_left (by linarith), max_eq_right (by linarith), max_eq_right (by linarith), max_eq_right (by linarith)]
      norm_num
      linarith
    · rcases le_total t 5 with c | c
      · rw [max_eq_left h0, min_eq_right a, max_eq_left (by linarith), min_eq_right (by linarith), max_eq_left (by linarith), min_eq_left (by linarith), max_eq_right (by linarith), max_eq_right (by linarith)]
        norm_num
        linarith
      · rcases le_total t 7 with d | d
        · rw [max_eq_left h0, min_eq_right a, max_eq_left (by linarith), min_eq_right (by linarith), max_eq_left (by linarith), min_eq_right (by linarith), max_eq_left (by linarith), min_eq_left (by linarith), max_eq_right (by linarith)]
          norm_num
          linarith
        · rw [max_eq_left h0, min_eq_right a, max_eq_left (by linarith), min_eq_right (by linarith), max_eq_left (by linarith), min_eq_right (by linarith), max_eq_left (by linarith), min_eq_right (by linarith), max_eq_left (by linarith), min_eq_left (by linarith)]
          linarith

/-- **C137 (part)** the points of `concentric_sample_disk` are uniform on the disc: for every radius `ρ ≤ 1` and angles `0 ≤ α ≤ β ≤ 2π`, the canonical samples mapped within distance `ρ`
of the centre and to an angle between `α` and `β` fill the share of the unit square that this part of the disc has of the disc's area, `ρ² (β - α) / (2π)`.  Missing: continuity of
the map (`C137_continuous_false`). -/
theorem C137_uniform_partial (ρ α β : ℝ) (h0 : 0 ≤ ρ) (hρ : ρ ≤ 1) (hα : 0 ≤ α) (hαβ : α ≤ β) (hβ : β ≤ 2 * π) :
    volume {u : ℝ × ℝ | (0 ≤ u.1 ∧ u.1 ≤ 1 ∧ 0 ≤ u.2 ∧ u.2 ≤ 1) ∧ ∃ r θ, concentricPolar u.1 u.2 = some (r, θ) ∧ r ≤ ρ ∧ α ≤ θ ∧ θ ≤ β} = ENNReal.ofReal (ρ ^ 2 * (β - α) / (2 * π)) := by
  have hpi := Real.pi_pos
  show volume (hits ρ α β) = _
  have s1 := measure_inter_add_sdiff (μ := volume) (hits ρ α β) (cone_meas sec1a)
  have s2 := measure_inter_add_sdiff (μ := volume) (hits ρ α β \ sec1a.cone) (cone_meas sec1b)
  have s3 := measure_inter_add_sdiff (μ := volume) ((hits ρ α β \ sec1a.cone) \ sec1b.cone) (cone_meas sec2)
  have s4 := measure_inter_add_sdiff (μ := volume) (((hits ρ α β \ sec1a.cone) \ sec1b.cone) \ sec2.cone) (cone_meas sec3)
  have s5 := measure_inter_add_sdiff (μ := volume) ((((hits ρ α β \ sec1a.cone) \ sec1b.cone) \ sec2.cone) \ sec3.cone) (cone_meas sec4)
  have d2 : (hits ρ α β \ sec1a.cone) ∩ sec1b.cone = hits ρ α β ∩ sec1b.cone := by
    ext u
    simp only [mem_inter_iff, mem_sdiff, Sector.cone, sec1a, sec1b, turn1, mem_ofPred_eq, zero_mul, one_mul, neg_mul]
    constructor
    · rintro ⟨⟨a, -⟩, b⟩; exact ⟨a, b⟩
    · rintro ⟨a, b⟩; exact ⟨⟨a, fun c => by linarith [c.2.1, b.2.2]⟩, b⟩
  have d3 : ((hits ρ α β \ sec1a.cone) \ sec1b.cone) ∩ sec2.cone = hits ρ α β ∩ sec2.cone := by
    ext u
    simp only [mem_inter_iff, mem_sdiff, Sector.cone, sec1a, sec1b, sec2, turn1, turn2, mem_ofPred_eq, zero_mul, one_mul, neg_mul]
    constructor
    · rintro ⟨⟨⟨a, -⟩, -⟩, b⟩; exact ⟨a, b⟩
    · rintro ⟨a, b⟩; exact ⟨⟨⟨a, fun c => by linarith [c.2.2, b.2.1]⟩, fun c => by linarith [c.2.2, b.1]⟩, b⟩
  have d4 : (((hits ρ α β \ sec1a.cone) \ sec1b.cone) \ sec2.cone) ∩ sec3.cone = hits ρ α β ∩ sec3.cone := by
    ext u
    simp only [mem_inter_iff, mem_sdiff, Sector.cone, sec1a, sec1b, sec2, sec3, turn1, turn2, turn3, mem_ofPred_eq, zero_mul, one_mul, neg_mul, neg_neg]
    constructor
    · rintro ⟨⟨⟨⟨a, -⟩, -⟩, -⟩, b⟩; exact ⟨a, b⟩
    · rintro ⟨a, b⟩; exact ⟨⟨⟨⟨a, fun c => by linarith [c.1, b.1]⟩, fun c => by linarith [c.1, b.1]⟩, fun c => by linarith [c.2.2, b.2.2]⟩, b⟩
  have d5 : ((((hits ρ α β \ sec1a.cone) \ sec1b.cone) \ sec2.cone) \ sec3.cone) ∩ sec4.cone = hits ρ α β ∩ sec4.cone := by
    ext u
    simp only [mem_inter_iff, mem_sdiff, Sector.cone, sec1a, sec1b, sec2, sec3, sec4, turn1, turn2, turn3, turn4, mem_ofPred_eq, zero_mul, one_mul, neg_mul, neg_neg]
    constructor
    · rintro ⟨⟨⟨⟨⟨a, -⟩, -⟩, -⟩, -⟩, b⟩; exact ⟨a, b⟩
    · rintro ⟨a, b⟩
      exact ⟨⟨⟨⟨⟨a, fun c => by linarith [c.2.1, b.1]⟩, fun c => by linarith [c.2.1, b.2.1]⟩, fun c => by linarith [c.1, b.1]⟩, fun c => by linarith [c.2.1, b.2.2]⟩, b⟩
  have d6 : volume (((((hits ρ α β \ sec1a.cone) \ sec1b.cone) \ sec2.cone) \ sec3.cone) \ sec4.cone) = 0 := by
    refine measure_mono_null ?_ seams_null
    rintro u ⟨⟨⟨⟨⟨-, a⟩, b⟩, c⟩, d⟩, e⟩
    exact cones_cover u a b c d e
  rw [d2] at s2; rw [d3] at s3; rw [d4] at s4; rw [d5, d6, add_zero] at s5
  rw [← s1, ← s2, ← s3, ← s4, ← s5]
  rw [hits_cone_volume sec1a sec1a_ok ρ α β h0 hρ, hits_cone_volume sec1b sec1b_ok ρ α β h0 hρ, hits_cone_volume sec2 sec2_ok ρ α β h0 hρ,
    hits_cone_volume sec3 sec3_ok ρ α β h0 hρ, hits_cone_volume sec4 sec4_ok ρ α β h0 hρ]
  have hc : 0 ≤ ρ ^ 2 / 8 := by positivity
  simp only [sec1a, sec1b, sec2, sec3, sec4]
  set a := α * (4 / π) with ha
  set b := β * (4 / π) with hb
  have hab : a ≤ b := mul_le_mul_of_nonneg_right hαβ (by positivity)
  have a0 : 0 ≤ a := by positivity
  have b8 : b ≤ 8 := by
    rw [hb, ← mul_div_assoc, div_le_iff₀ hpi]; linarith
  rw [← ENNReal.ofReal_add (by positivity) (by positivity), ← ENNReal.ofReal_add (by positivity) (by positivity), ← ENNReal.ofReal_add (by positivity) (by positivity),
    ← ENNReal.ofReal_add (by positivity) (by positivity)]
  congr 1
  rw [clamp_len (a - 0) (b - 0) 0 1 (by linarith) (by norm_num), clamp_len (a - 8) (b - 8) (-1) 0 (by linarith) (by norm_num), clamp_len (a - 2) (b - 2) (-1) 1 (by linarith) (by norm_num),
    clamp_len (a - 4) (b - 4) (-1) 1 (by linarith) (by norm_num), clamp_len (a - 6) (b - 6) (-1) 1 (by linarith) (by norm_num)]
  have ta := clamp_total a a0 (hab.trans b8)
  have tb := clamp_total b (a0.trans hab) b8
  simp only [sub_zero]
  have key : ρ ^ 2 * (β - α) / (2 * π) = (b - a) * (ρ ^ 2 / 8) := by rw [ha, hb]; field_simp; ring
  rw [key]
  linear_combination (ρ ^ 2 / 8) * (tb - ta)

/-- **C137 fails**: the map is not continuous.  In two of the four sectors (left and bottom) the angle runs backwards: near the corner `u = (0, 1)` of the unit square, samples on one
side of the diagonal are mapped near angle `3π/4` and those on the other side near `5π/4`, at distance more than 1 however close they are -/
theorem C137_continuous_false (ε : ℝ) (h0 : 0 < ε) (h1 : ε ≤ 1 / 10) : ∃ x y x' y' : ℝ, concentric ε 1 = some (x, y) ∧ concentric 0 (1 - ε) = some (x', y') ∧ 1 < (x - x') ^ 2 + (y - y') ^ 2 := by
  have hpi := Real.pi_pos
  have hq : qdiv (2 * ε - 1) ((2 : ℝ) * 1 - 1) = some (2 * ε - 1) := by
    rw [qdiv, if_neg (by norm_num)]; norm_num
  have hq' : qdiv (2 * (1 - ε) - 1) ((2 : ℝ) * 0 - 1) = some (2 * ε - 1) := by
    rw [qdiv, if_neg (by norm_num)]
    congr 1
    rw [div_eq_iff (by norm_num)]; ring
  have e1 : concentricPolar ε 1 = some (1, (3 - 2 * ε) * (π / 4)) := by
    simp only [concentricPolar]
    rw [if_neg (by rintro ⟨-, h⟩; norm_num at h), if_pos (by linarith), if_neg (by linarith), hq]
    simp only [Option.map_some, Option.some.injEq, Prod.mk.injEq]
    constructor <;> ring
  have e2 : concentricPolar 0 (1 - ε) = some (1, (5 - 2 * ε) * (π / 4)) := by
    simp only [concentricPolar]
    rw [if_neg (by rintro ⟨h, -⟩; norm_num at h), if_neg (by linarith), if_neg (by linarith), hq']
    simp only [Option.map_some, Option.some.injEq, Prod.mk.injEq]
    constructor <;> ring
  refine ⟨_, _, _, _, by rw [concentric, e1]; rfl, by rw [concentric, e2]; rfl, ?_⟩
  simp only [one_mul]
  have h : (cos ((3 - 2 * ε) * (π / 4)) - cos ((5 - 2 * ε) * (π / 4))) ^ 2 + (sin ((3 - 2 * ε) * (π / 4)) - sin ((5 - 2 * ε) * (π / 4))) ^ 2 = 2 - 2 * cos ((5 - 2 * ε) * (π / 4) - (3 - 2 * ε) * (π / 4)) := by
    rw [Real.cos_sub]
    linear_combination Real.sin_sq_add_cos_sq ((3 - 2 * ε) * (π / 4)) + Real.sin_sq_add_cos_sq ((5 - 2 * ε) * (π / 4))
  rw [h, show (5 - 2 * ε) * (π / 4) - (3 - 2 * ε) * (π / 4) = π / 2 by ring, Real.cos_pi_div_two]
  norm_num

end Verif.MC
