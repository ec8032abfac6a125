import Verif.MC.Concentric
import Verif.MC.Law

/-!
# The law of concentric disc sampling (C66)

The mass that `concentric_sample_disk` (`pytracer/montecarlo/utility.py:122-168`) sends into an arbitrary set of points of the plane.
-/
namespace Verif.MC
open MeasureTheory Real Set

/-- the canonical samples whose radius and angle are in `B` -/
def hitsIn (B : Set (ℝ × ℝ)) : Set (ℝ × ℝ) := {u | (0 ≤ u.1 ∧ u.1 ≤ 1 ∧ 0 ≤ u.2 ∧ u.2 ≤ 1) ∧ ∃ r θ, concentricPolar u.1 u.2 = some (r, θ) ∧ (r, θ) ∈ B}

/-- the angles that `B` has at radius `x`, between `a` and `b` -/
def ang (B : Set (ℝ × ℝ)) (a b x : ℝ) : Set ℝ := Prod.mk x ⁻¹' B ∩ Ioo a b

theorem ang_split (B : Set (ℝ × ℝ)) (hB : MeasurableSet B) (a b c x : ℝ) (h1 : a ≤ b) (h2 : b ≤ c) : volume (ang B a b x) + volume (ang B b c x) = volume (ang B a c x) := by
  have m : MeasurableSet (Prod.mk x ⁻¹' B) := measurable_prodMk_left hB
  have e := measure_inter_add_sdiff (μ := volume) (ang B a c x) (measurableSet_Ioo (a := a) (b := b))
  rw [← e]
  congr 1
  · congr 1
    ext y
    simp only [ang, mem_inter_iff, mem_preimage, mem_Ioo]
    constructor
    · rintro ⟨p, q, r⟩; exact ⟨⟨p, q, by linarith⟩, q, r⟩
    · rintro ⟨⟨p, -⟩, q⟩; exact ⟨p, q⟩
  · apply measure_congr
    have hz : volume ({b} : Set ℝ) = 0 := by simp
    filter_upwards [measure_eq_zero_iff_ae_notMem.1 hz] with y hy
    apply propext
    show (y ∈ Prod.mk x ⁻¹' B ∩ Ioo b c) ↔ (y ∈ (Prod.mk x ⁻¹' B ∩ Ioo a c) \ Ioo a b)
    simp only [mem_inter_iff, mem_preimage, mem_Ioo, mem_sdiff]
    constructor
    · rintro ⟨p, q, r⟩; exact ⟨⟨p, by linarith, r⟩, fun h => by linarith [h.2]⟩
    · rintro ⟨⟨p, q, r⟩, s⟩
      refine ⟨p, ?_, r⟩
      rcases lt_or_ge y b with h | h
      · exact absurd ⟨q, h⟩ s
      · exact lt_of_le_of_ne h (fun e => hy e.symm)

/-- the points of a cone, up to abscissa one, whose abscissa and angle are in `B` -/
def wedgeIn (l h c : ℝ) (B : Set (ℝ × ℝ)) : Set (ℝ × ℝ) := {p | 0 < p.1 ∧ l * p.1 < p.2 ∧ p.2 < h * p.1 ∧ p.1 ≤ 1 ∧ (p.1, (c + p.2 / p.1) * (π / 4)) ∈ B}

theorem wedgeIn_meas (l h c : ℝ) (B : Set (ℝ × ℝ)) (hB : MeasurableSet B) : MeasurableSet (wedgeIn l h c B) := by
  unfold wedgeIn
  simp only [ofPred_and]
  refine (measurableSet_lt measurable_const measurable_fst).inter ((measurableSet_lt (measurable_fst.const_mul _) measurable_snd).inter
    ((measurableSet_lt measurable_snd (measurable_fst.const_mul _)).inter ((measurableSet_le measurable_fst measurable_const).inter ?_)))
  have : Measurable fun p : ℝ × ℝ => (p.1, (c + p.2 / p.1) * (π / 4)) := measurable_fst.prodMk (((measurable_snd.div measurable_fst).const_add c).mul_const _)
  exact this hB

theorem wedgeIn_slice (l h c : ℝ) (B : Set (ℝ × ℝ)) (x : ℝ) : volume (Prod.mk x ⁻¹' wedgeIn l h c B) =
    (Ioc 0 1).indicator (fun x => ENNReal.ofReal (x * (4 / π)) * volume (ang B ((c + l) * (π / 4)) ((c + h) * (π / 4)) x)) x := by
  have hpi := Real.pi_pos
  by_cases hx : x ∈ Ioc (0 : ℝ) 1
  · rw [indicator_of_mem hx]
    obtain ⟨h0, h1⟩ := hx
    have e : Prod.mk x ⁻¹' wedgeIn l h c B = (fun y => (π / (4 * x)) * y) ⁻¹' ((fun z => c * (π / 4) + z) ⁻¹' ang B ((c + l) * (π / 4)) ((c + h) * (π / 4)) x) := by
      ext y
      simp only [wedgeIn, mem_preimage, mem_ofPred_eq, ang, mem_inter_iff, mem_Ioo]
      have e1 : c * (π / 4) + π / (4 * x) * y = (c + y / x) * (π / 4) := by field_simp
      rw [e1, mul_lt_mul_iff_left₀ (by positivity), mul_lt_mul_iff_left₀ (by positivity), add_lt_add_iff_left, add_lt_add_iff_left, lt_div_iff₀ h0, div_lt_iff₀ h0]
      constructor
      · rintro ⟨-, a, b, -, d⟩; exact ⟨d, a, b⟩
      · rintro ⟨d, a, b⟩; exact ⟨h0, a, b, h1, d⟩
    rw [e, Real.volume_preimage_mul_left (by positivity), measure_preimage_add]
    congr 2
    rw [abs_of_pos (by positivity)]
    field_simp
  · rw [indicator_of_notMem hx]
    have e : Prod.mk x ⁻¹' wedgeIn l h c B = ∅ := by
      ext y
      simp only [wedgeIn, mem_preimage, mem_ofPred_eq, mem_empty_iff_false, iff_false]
      rintro ⟨a, -, -, b, -⟩
      exact hx ⟨a, b⟩
    rw [e, measure_empty]

theorem wedgeIn_volume (l h c : ℝ) (B : Set (ℝ × ℝ)) (hB : MeasurableSet B) :
    volume (wedgeIn l h c B) = ∫⁻ x in Ioc (0 : ℝ) 1, ENNReal.ofReal (x * (4 / π)) * volume (ang B ((c + l) * (π / 4)) ((c + h) * (π / 4)) x) := by
  rw [Measure.volume_eq_prod, Measure.prod_apply (wedgeIn_meas l h c B hB), ← lintegral_indicator measurableSet_Ioc]
  exact lintegral_congr (wedgeIn_slice l h c B)

theorem hitsIn_cone (k : Sector) (hk : k.ok) (B : Set (ℝ × ℝ)) : hitsIn B ∩ k.cone = toS ⁻¹' (k.turn ⁻¹' wedgeIn k.l k.h k.c B) := by
  ext u
  constructor
  · rintro ⟨⟨hu, r, θ, e, hb⟩, hc⟩
    have hr : r ≤ 1 := by
      obtain ⟨r', θ', e', hm, -, -⟩ := concentricPolar_spec u.1 u.2
      rw [e] at e'
      simp only [Option.some.injEq, Prod.mk.injEq] at e'
      rw [e'.1, hm]
      exact max_le (abs_le.2 ⟨by linarith [hu.1], by linarith [hu.2.1]⟩) (abs_le.2 ⟨by linarith [hu.2.2.1], by linarith [hu.2.2.2]⟩)
    rw [hk u hc] at e
    simp only [Option.some.injEq, Prod.mk.injEq] at e
    obtain ⟨rfl, rfl⟩ := e
    exact ⟨hc.1, hc.2.1, hc.2.2, hr, hb⟩
  · rintro ⟨h0, h1, h2, hr, hb⟩
    have hc : u ∈ k.cone := ⟨h0, h1, h2⟩
    exact ⟨⟨unit_of_radius u _ _ 1 (hk u hc) hr le_rfl, _, _, hk u hc, hb⟩, hc⟩

theorem hitsIn_cone_volume (k : Sector) (hk : k.ok) (B : Set (ℝ × ℝ)) (hB : MeasurableSet B) :
    volume (hitsIn B ∩ k.cone) = ∫⁻ x in Ioc (0 : ℝ) 1, ENNReal.ofReal (x / π) * volume (ang B ((k.c + k.l) * (π / 4)) ((k.c + k.h) * (π / 4)) x) := by
  have hpi := Real.pi_pos
  rw [hitsIn_cone k hk B, toS_volume, k.mp.measure_preimage (wedgeIn_meas _ _ _ _ hB).nullMeasurableSet, wedgeIn_volume _ _ _ _ hB, ← lintegral_const_mul' _ _ ENNReal.ofReal_ne_top]
  apply setLIntegral_congr_fun measurableSet_Ioc
  intro x hx
  simp only
  rw [← mul_assoc, ← ENNReal.ofReal_mul (by norm_num)]
  congr 2
  field_simp

theorem ang_meas (B : Set (ℝ × ℝ)) (hB : MeasurableSet B) (a b : ℝ) : Measurable fun x => volume (ang B a b x) := by
  have : (fun x => volume (ang B a b x)) = fun x => volume (Prod.mk x ⁻¹' (B ∩ univ ×ˢ Ioo a b)) := by
    funext x; congr 1; ext y; simp [ang]
  rw [this]
  exact measurable_measure_prodMk_left (hB.inter (MeasurableSet.univ.prod measurableSet_Ioo))

/-- radius and angle of the concentric map have the joint density `r / π` -/
theorem hitsIn_volume (B : Set (ℝ × ℝ)) (hB : MeasurableSet B) : volume (hitsIn B) = ∫⁻ x in Ioc (0 : ℝ) 1, ENNReal.ofReal (x / π) * volume (ang B 0 (2 * π) x) := by
  have hpi := Real.pi_pos
  have s1 := measure_inter_add_sdiff (μ := volume) (hitsIn B) (cone_meas sec1a)
  have s2 := measure_inter_add_sdiff (μ := volume) (hitsIn B \ sec1a.cone) (cone_meas sec1b)
  have s3 := measure_inter_add_sdiff (μ := volume) ((hitsIn B \ sec1a.cone) \ sec1b.cone) (cone_meas sec2)
  have s4 := measure_inter_add_sdiff (μ := volume) (((hitsIn B \ sec1a.cone) \ sec1b.cone) \ sec2.cone) (cone_meas sec3)
  have s5 := measure_inter_add_sdiff (μ := volume) ((((hitsIn B \ sec1a.cone) \ sec1b.cone) \ sec2.cone) \ sec3.cone) (cone_meas sec4)
  have d2 : (hitsIn B \ sec1a.cone) ∩ sec1b.cone = hitsIn B ∩ sec1b.cone := by
    ext u
    simp only [mem_inter_iff, mem_sdiff, Sector.cone, sec1a, sec1b, turn1, mem_ofPred_eq, zero_mul, one_mul, neg_mul]
    constructor
    · rintro ⟨⟨a, -⟩, b⟩; exact ⟨a, b⟩
    · rintro ⟨a, b⟩; exact ⟨⟨a, fun c => by linarith [c.2.1, b.2.2]⟩, b⟩
  have d3 : ((hitsIn B \ sec1a.cone) \ sec1b.cone) ∩ sec2.cone = hitsIn B ∩ sec2.cone := by
    ext u
    simp only [mem_inter_iff, mem_sdiff, Sector.cone, sec1a, sec1b, sec2, turn1, turn2, mem_ofPred_eq, zero_mul, one_mul, neg_mul]
    constructor
    · rintro ⟨⟨⟨a, -⟩, -⟩, b⟩; exact ⟨a, b⟩
    · rintro ⟨a, b⟩; exact ⟨⟨⟨a, fun c => by linarith [c.2.2, b.2.1]⟩, fun c => by linarith [c.2.2, b.1]⟩, b⟩
  have d4 : (((hitsIn B \ sec1a.cone) \ sec1b.cone) \ sec2.cone) ∩ sec3.cone = hitsIn B ∩ sec3.cone := by
    ext u
    simp only [mem_inter_iff, mem_sdiff, Sector.cone, sec1a, sec1b, sec2, sec3, turn1, turn2, turn3, mem_ofPred_eq, zero_mul, one_mul, neg_mul, neg_neg]
    constructor
    · rintro ⟨⟨⟨⟨a, -⟩, -⟩, -⟩, b⟩; exact ⟨a, b⟩
    · rintro ⟨a, b⟩; exact ⟨⟨⟨⟨a, fun c => by linarith [c.1, b.1]⟩, fun c => by linarith [c.1, b.1]⟩, fun c => by linarith [c.2.2, b.2.2]⟩, b⟩
  have d5 : ((((hitsIn B \ sec1a.cone) \ sec1b.cone) \ sec2.cone) \ sec3.cone) ∩ sec4.cone = hitsIn B ∩ sec4.cone := by
    ext u
    simp only [mem_inter_iff, mem_sdiff, Sector.cone, sec1a, sec1b, sec2, sec3, sec4, turn1, turn2, turn3, turn4, mem_ofPred_eq, zero_mul, one_mul, neg_mul, neg_neg]
    constructor
    · rintro ⟨⟨⟨⟨⟨a, -⟩, -⟩, -⟩, -⟩, b⟩; exact ⟨a, b⟩
    · rintro ⟨a, b⟩
      exact ⟨⟨⟨⟨⟨a, fun c => by linarith [c.2.1, b.1]⟩, fun c => by linarith [c.2.1, b.2.1]⟩, fun c => by linarith [c.1, b.1]⟩, fun c => by linarith [c.2.1, b.2.2]⟩, b⟩
  have d6 : volume (((((hitsIn B \ sec1a.cone) \ sec1b.cone) \ sec2.cone) \ sec3.cone) \ sec4.cone) = 0 := by
    refine measure_mono_null ?_ seams_null
    rintro u ⟨⟨⟨⟨⟨-, a⟩, b⟩, c⟩, d⟩, e⟩
    exact cones_cover u a b c d e
  rw [d2] at s2; rw [d3] at s3; rw [d4] at s4; rw [d5, d6, add_zero] at s5
  rw [← s1, ← s2, ← s3, ← s4, ← s5]
  rw [hitsIn_cone_volume sec1a sec1a_ok B hB, hitsIn_cone_volume sec1b sec1b_ok B hB, hitsIn_cone_volume sec2 sec2_ok B hB, hitsIn_cone_volume sec3 sec3_ok B hB,
    hitsIn_cone_volume sec4 sec4_ok B hB]
  have m (a b : ℝ) : Measurable fun x : ℝ => ENNReal.ofReal (x / π) * volume (ang B a b x) :=
    ((measurable_id.div_const π).ennreal_ofReal).mul (ang_meas B hB a b)
  rw [← lintegral_add_right _ (m _ _), ← lintegral_add_right _ ((m _ _).add (m _ _) : Measurable fun x => _ + _)]
  rw [← lintegral_add_left (m _ _), ← lintegral_add_left (m _ _)]
  apply lintegral_congr
  intro x
  simp only [sec1a, sec1b, sec2, sec3, sec4]
  simp only [← mul_add]
  congr 1
  rw [← ang_split B hB 0 (π / 4) (2 * π) x (by linarith) (by linarith), ← ang_split B hB (π / 4) (3 * (π / 4)) (2 * π) x (by linarith) (by linarith),
    ← ang_split B hB (3 * (π / 4)) (5 * (π / 4)) (2 * π) x (by linarith) (by linarith), ← ang_split B hB (5 * (π / 4)) (7 * (π / 4)) (2 * π) x (by linarith) (by linarith)]
  rw [show ((0:ℝ) + 0) * (π / 4) = 0 by ring, show ((0:ℝ) + 1) * (π / 4) = π / 4 by ring, show ((8:ℝ) + -1) * (π / 4) = 7 * (π / 4) by ring, show ((8:ℝ) + 0) * (π / 4) = 2 * π by ring,
    show ((2:ℝ) + -1) * (π / 4) = π / 4 by ring, show ((2:ℝ) + 1) * (π / 4) = 3 * (π / 4) by ring, show ((4:ℝ) + -1) * (π / 4) = 3 * (π / 4) by ring, show ((4:ℝ) + 1) * (π / 4) = 5 * (π / 4) by ring,
    show ((6:ℝ) + -1) * (π / 4) = 5 * (π / 4) by ring, show ((6:ℝ) + 1) * (π / 4) = 7 * (π / 4) by ring]
  ring

/-- the points of the plane that are in `A`, by radius and angle -/
def polarSet (A : Set (ℝ × ℝ)) : Set (ℝ × ℝ) := {p | (p.1 * cos p.2, p.1 * sin p.2) ∈ A}

theorem polarSet_meas (A : Set (ℝ × ℝ)) (hA : MeasurableSet A) : MeasurableSet (polarSet A) := by
  have : Measurable fun p : ℝ × ℝ => (p.1 * cos p.2, p.1 * sin p.2) := (by fun_prop : Continuous fun p : ℝ × ℝ => (p.1 * cos p.2, p.1 * sin p.2)).measurable
  exact this hA

theorem ang_shift (A : Set (ℝ × ℝ)) (x : ℝ) : volume (ang (polarSet A) π (2 * π) x) = volume (ang (polarSet A) (-π) 0 x) := by
  rw [← measure_preimage_add volume (2 * π) (ang (polarSet A) π (2 * π) x)]
  congr 1
  ext y
  simp only [ang, polarSet, mem_preimage, mem_inter_iff, mem_ofPred_eq, mem_Ioo]
  rw [add_comm (2 * π) y, cos_add_two_pi, sin_add_two_pi]
  constructor
  · rintro ⟨a, b, c⟩; exact ⟨a, by linarith, by linarith⟩
  · rintro ⟨a, b, c⟩; exact ⟨a, by linarith, by linarith⟩

/-- area in polar coordinates -/
theorem disc_polar (A : Set (ℝ × ℝ)) (hA : MeasurableSet A) :
    volume (A ∩ {p | p.1 ^ 2 + p.2 ^ 2 ≤ 1}) = ∫⁻ x in Ioc (0 : ℝ) 1, ENNReal.ofReal x * volume (ang (polarSet A) 0 (2 * π) x) := by
  have hpi := Real.pi_pos
  have hD : MeasurableSet {p : ℝ × ℝ | p.1 ^ 2 + p.2 ^ 2 ≤ 1} := measurableSet_le (by fun_prop) measurable_const
  have hB := polarSet_meas A hA
  have h1 : volume (A ∩ {p | p.1 ^ 2 + p.2 ^ 2 ≤ 1}) = ∫⁻ p in polarCoord.target, ENNReal.ofReal p.1 • (A ∩ {p : ℝ × ℝ | p.1 ^ 2 + p.2 ^ 2 ≤ 1}).indicator (fun _ => 1) (polarCoord.symm p) := by
    rw [lintegral_comp_polarCoord_symm, lintegral_indicator (hA.inter hD)]
    simp
  rw [h1, ← lintegral_indicator polarCoord.open_target.measurableSet]
  have h2 (p : ℝ × ℝ) : polarCoord.target.indicator (fun p => ENNReal.ofReal p.1 • (A ∩ {p : ℝ × ℝ | p.1 ^ 2 + p.2 ^ 2 ≤ 1}).indicator (fun _ => (1 : ENNReal)) (polarCoord.symm p)) p =
      (polarSet A ∩ Ioc 0 1 ×ˢ Ioo (-π) π).indicator (fun p => ENNReal.ofReal p.1) p := by
    obtain ⟨r, θ⟩ := p
    by_cases ht : (r, θ) ∈ polarCoord.target
    · rw [indicator_of_mem ht]
      obtain ⟨hr, hθ⟩ := ht
      simp only [mem_Ioi] at hr
      have hsq : (r * cos θ) ^ 2 + (r * sin θ) ^ 2 ≤ 1 ↔ r ≤ 1 := by
        rw [show (r * cos θ) ^ 2 + (r * sin θ) ^ 2 = r ^ 2 * (sin θ ^ 2 + cos θ ^ 2) by ring, Real.sin_sq_add_cos_sq, mul_one]
        exact sq_le_one_iff₀ hr.le
      by_cases hm : (r, θ) ∈ polarSet A ∩ Ioc 0 1 ×ˢ Ioo (-π) π
      · rw [indicator_of_mem hm, indicator_of_mem]
        · simp
        · exact ⟨hm.1, hsq.2 hm.2.1.2⟩
      · rw [indicator_of_notMem hm, indicator_of_notMem]
        · simp
        · rintro ⟨a, b⟩
          exact hm ⟨a, ⟨hr, hsq.1 b⟩, hθ⟩
    · rw [indicator_of_notMem ht, indicator_of_notMem]
      rintro ⟨-, a, b⟩
      exact ht ⟨a.1, b⟩
  rw [lintegral_congr h2, Measure.volume_eq_prod, lintegral_prod _ (((measurable_fst.ennreal_ofReal).indicator (hB.inter (measurableSet_Ioc.prod measurableSet_Ioo))).aemeasurable),
    ← lintegral_indicator measurableSet_Ioc]
  apply lintegral_congr
  intro x
  by_cases hx : x ∈ Ioc (0 : ℝ) 1
  · rw [indicator_of_mem hx, ← ang_split _ hB 0 π (2 * π) x (by linarith) (by linarith), ang_shift, add_comm (volume _), ang_split _ hB (-π) 0 π x (by linarith) (by linarith)]
    have : (fun y => (polarSet A ∩ Ioc 0 1 ×ˢ Ioo (-π) π).indicator (fun p => ENNReal.ofReal p.1) (x, y)) = (ang (polarSet A) (-π) π x).indicator fun _ => ENNReal.ofReal x := by
      funext y
      by_cases hy : y ∈ ang (polarSet A) (-π) π x
      · rw [indicator_of_mem hy, indicator_of_mem (show (x, y) ∈ polarSet A ∩ Ioc 0 1 ×ˢ Ioo (-π) π from ⟨hy.1, hx, hy.2⟩)]
      · rw [indicator_of_notMem hy, indicator_of_notMem (fun h => hy ⟨h.1, h.2.2⟩)]
    rw [this, lintegral_indicator_const]
    exact (measurable_prodMk_left hB).inter measurableSet_Ioo
  · rw [indicator_of_notMem hx]
    have : (fun y => (polarSet A ∩ Ioc 0 1 ×ˢ Ioo (-π) π).indicator (fun p => ENNReal.ofReal p.1) (x, y)) = fun _ => 0 := by
      funext y
      exact indicator_of_notMem (fun h => hx h.2.1) _
    rw [this, lintegral_zero]

/-- **C66** for every set of points the mass sent there by `concentric_sample_disk` is the share of the unit disk's area that the set covers -/
theorem C66_concentric_law (A : Set (ℝ × ℝ)) (hA : MeasurableSet A) :
    volume {u : ℝ × ℝ | u ∈ Icc (0 : ℝ) 1 ×ˢ Icc (0 : ℝ) 1 ∧ ∃ q, concentric u.1 u.2 = some q ∧ q ∈ A} = volume (A ∩ {p | p.1 ^ 2 + p.2 ^ 2 ≤ 1}) / ENNReal.ofReal π := by
  have hpi := Real.pi_pos
  have e : {u : ℝ × ℝ | u ∈ Icc (0 : ℝ) 1 ×ˢ Icc (0 : ℝ) 1 ∧ ∃ q, concentric u.1 u.2 = some q ∧ q ∈ A} = hitsIn (polarSet A) := by
    ext u
    simp only [hitsIn, polarSet, concentric, mem_ofPred_eq, mem_prod, mem_Icc, Option.map_eq_some_iff]
    constructor
    · rintro ⟨⟨⟨a, b⟩, c, d⟩, q, ⟨⟨r, θ⟩, hp, rfl⟩, hq⟩
      exact ⟨⟨a, b, c, d⟩, r, θ, hp, hq⟩
    · rintro ⟨⟨a, b, c, d⟩, r, θ, hp, hq⟩
      exact ⟨⟨⟨a, b⟩, c, d⟩, _, ⟨⟨r, θ⟩, hp, rfl⟩, hq⟩
  rw [e, hitsIn_volume _ (polarSet_meas A hA), disc_polar A hA, ENNReal.div_eq_inv_mul, ← lintegral_const_mul' _ _ (by simp [hpi])]
  apply lintegral_congr
  intro x
  rw [← mul_assoc]
  congr 1
  rw [← ENNReal.div_eq_inv_mul, ENNReal.ofReal_div_of_pos hpi]

/-- a set the theorem applies to: half of the samples go to the upper half of the plane -/
example : volume {u : ℝ × ℝ | u ∈ Icc (0 : ℝ) 1 ×ˢ Icc (0 : ℝ) 1 ∧ ∃ q, concentric u.1 u.2 = some q ∧ q ∈ {p : ℝ × ℝ | 0 ≤ p.2}} =
    volume ({p : ℝ × ℝ | 0 ≤ p.2} ∩ {p | p.1 ^ 2 + p.2 ^ 2 ≤ 1}) / ENNReal.ofReal π :=
  C66_concentric_law _ (measurableSet_le measurable_const measurable_snd)

end Verif.MC
