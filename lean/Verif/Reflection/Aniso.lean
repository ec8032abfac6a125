import Verif.Reflection.Microfacet
import Mathlib.Analysis.SpecialFunctions.Trigonometric.ArctanDeriv
import Mathlib.Analysis.SpecialFunctions.Integrals.Basic

/-!
# The anisotropic distribution as a distribution (`pytracer/reflection/bdf/torrance.py:105-184`)

The half vectors drawn by `Anisotropic.sample_f` have, in spherical coordinates, the density used by `Anisotropic.pdf`; the azimuth and, given the azimuth, the polar angle are treated in turn.
`Anisotropic.D` has projected area one over the hemisphere.
-/

namespace Verif.Refl
open Verif V3 Verif.Geom Verif.Bsdf Real

/-! ## Specification -/

/-- the exponent in the direction of azimuth `φ` -/
noncomputable def expoAt (ex ey φ : ℝ) : ℝ := ex * cos φ ^ 2 + ey * sin φ ^ 2

/-- the density, with respect to solid angle, of half vectors at polar angle `θ` and azimuth `φ` -/
noncomputable def halfDensity (ex ey θ φ : ℝ) : ℝ := √((ex + 1) * (ey + 1)) / (2 * π) * cos θ ^ expoAt ex ey φ

/-- the unit vector at polar angle `θ` and azimuth `φ` -/
noncomputable def dirAt (θ φ : ℝ) : V3 ℝ := ⟨sin θ * cos φ, sin θ * sin φ, cos θ⟩

/-! ## The azimuthal integral -/

/-- the weight of azimuth `φ` -/
noncomputable def azW (A B φ : ℝ) : ℝ := √(A * B) / (A * cos φ ^ 2 + B * sin φ ^ 2)

/-- an antiderivative of the weight, on the whole line -/
noncomputable def azG (s φ : ℝ) : ℝ := φ + arctan ((s - 1) * (sin φ * cos φ) / (cos φ ^ 2 + s * sin φ ^ 2))

theorem azDen_pos {s : ℝ} (hs : 0 < s) (φ : ℝ) : 0 < cos φ ^ 2 + s * sin φ ^ 2 := by
  have h := Real.sin_sq_add_cos_sq φ
  rcases eq_or_ne (sin φ) 0 with h0 | h0
  · rw [h0] at h ⊢; nlinarith
  · have : 0 < sin φ ^ 2 := by positivity
    nlinarith [sq_nonneg (cos φ), mul_pos hs this]

theorem azG_deriv {s : ℝ} (hs : 0 < s) (φ : ℝ) : HasDerivAt (azG s) (s / (cos φ ^ 2 + s ^ 2 * sin φ ^ 2)) φ := by
  have hD := azDen_pos hs φ
  have hE := azDen_pos (pow_pos hs 2) φ
  have h1 : HasDerivAt (fun φ => (s - 1) * (sin φ * cos φ)) ((s - 1) * (cos φ * cos φ + sin φ * -sin φ)) φ :=
    ((Real.hasDerivAt_sin φ).mul (Real.hasDerivAt_cos φ)).const_mul _
  have h2 : HasDerivAt (fun φ => cos φ ^ 2 + s * sin φ ^ 2) (2 * cos φ * -sin φ + s * (2 * sin φ * cos φ)) φ := by
    have a := (Real.hasDerivAt_cos φ).pow 2
    have b := ((Real.hasDerivAt_sin φ).pow 2).const_mul s
    refine (a.add b).congr_deriv ?_
    norm_num
  have h3 := (hasDerivAt_id φ).add ((h1.div h2 hD.ne').arctan)
  refine h3.congr_deriv ?_
  have hsq : sin φ ^ 2 = 1 - cos φ ^ 2 := by linarith [Real.sin_sq_add_cos_sq φ]
  have key : 1 + ((s - 1) * (sin φ * cos φ) / (cos φ ^ 2 + s * sin φ ^ 2)) ^ 2 = (cos φ ^ 2 + s ^ 2 * sin φ ^ 2) / (cos φ ^ 2 + s * sin φ ^ 2) ^ 2 := by
    rw [div_pow, eq_div_iff (by positivity), add_mul, div_mul_cancel₀ _ (by positivity), mul_pow, mul_pow, hsq]
    ring
  simp only [Pi.div_apply]
  rw [key]
  generalize hd : cos φ ^ 2 + s * sin φ ^ 2 = D at *
  generalize he : cos φ ^ 2 + s ^ 2 * sin φ ^ 2 = E at *
  field_simp
  rw [← he, ← hd]
  have hc : cos φ ^ 2 = 1 - sin φ ^ 2 := by linarith
  rw [hc]; ring

theorem azW_eq {A B : ℝ} (hA : 0 < A) (hB : 0 < B) (φ : ℝ) : azW A B φ = √(B / A) / (cos φ ^ 2 + √(B / A) ^ 2 * sin φ ^ 2) := by
  have hE := azDen_pos (div_pos hB hA) φ
  have h1 : √(A * B) = A * √(B / A) := by
    rw [show A * B = A ^ 2 * (B / A) by field_simp, Real.sqrt_mul (by positivity), Real.sqrt_sq hA.le]
  unfold azW
  rw [Real.sq_sqrt (by positivity), h1]
  have : A * cos φ ^ 2 + B * sin φ ^ 2 = A * (cos φ ^ 2 + B / A * sin φ ^ 2) := by field_simp
  rw [this, mul_div_mul_left _ _ hA.ne']

theorem azW_pos {A B : ℝ} (hA : 0 < A) (hB : 0 < B) (φ : ℝ) : 0 < azW A B φ := by
  rw [azW_eq hA hB]
  have hs : 0 < √(B / A) := Real.sqrt_pos.2 (by positivity)
  exact div_pos hs (azDen_pos (pow_pos hs 2) φ)

theorem azW_cont {A B : ℝ} (hA : 0 < A) (hB : 0 < B) : Continuous (azW A B) := by
  have hs : 0 < √(B / A) := Real.sqrt_pos.2 (by positivity)
  have : azW A B = fun φ => √(B / A) / (cos φ ^ 2 + √(B / A) ^ 2 * sin φ ^ 2) := funext (azW_eq hA hB)
  rw [this]
  exact Continuous.div continuous_const (by fun_prop) (fun φ => (azDen_pos (pow_pos hs 2) φ).ne')

theorem azG_zero (s : ℝ) : azG s 0 = 0 := by unfold azG; simp
theorem azG_two_pi (s : ℝ) : azG s (2 * π) = 2 * π := by unfold azG; simp

theorem azW_integral {A B : ℝ} (hA : 0 < A) (hB : 0 < B) (a t : ℝ) : ∫ φ in a..t, azW A B φ = azG √(B / A) t - azG √(B / A) a := by
  have hs : 0 < √(B / A) := Real.sqrt_pos.2 (by positivity)
  apply intervalIntegral.integral_eq_sub_of_hasDerivAt
  · intro φ _
    rw [azW_eq hA hB]; exact azG_deriv hs φ
  · exact (azW_cont hA hB).intervalIntegrable _ _

theorem azG_strictMono {s : ℝ} (hs : 0 < s) : StrictMono (azG s) := by
  apply strictMono_of_deriv_pos
  intro φ
  rw [(azG_deriv hs φ).deriv]
  exact div_pos hs (azDen_pos (pow_pos hs 2) φ)

theorem azG_first {s φ : ℝ} (hs : 0 < s) (h0 : -(π / 2) < φ) (h1 : φ < π / 2) : azG s φ = arctan (s * tan φ) := by
  have hc : 0 < cos φ := Real.cos_pos_of_mem_Ioo ⟨h0, h1⟩
  have e : arctan (s * tan φ) + arctan (-tan φ) = arctan ((s * tan φ + -tan φ) / (1 - s * tan φ * -tan φ)) :=
    Real.arctan_add (by nlinarith [mul_nonneg hs.le (mul_self_nonneg (tan φ))])
  rw [Real.arctan_neg, Real.arctan_tan h0 h1] at e
  have e2 : (s * tan φ + -tan φ) / (1 - s * tan φ * -tan φ) = (s - 1) * (sin φ * cos φ) / (cos φ ^ 2 + s * sin φ ^ 2) := by
    have hD := azDen_pos hs φ
    rw [Real.tan_eq_sin_div_cos]
    have h3 : 1 - s * (sin φ / cos φ) * -(sin φ / cos φ) = (cos φ ^ 2 + s * sin φ ^ 2) / cos φ ^ 2 := by field_simp; ring
    rw [h3]
    field_simp; ring
  rw [e2] at e
  unfold azG
  linarith

theorem azG_pi_sub (s φ : ℝ) : azG s (π - φ) = π - azG s φ := by
  unfold azG
  rw [Real.sin_pi_sub, Real.cos_pi_sub, show (s - 1) * (sin φ * -cos φ) / ((-cos φ) ^ 2 + s * sin φ ^ 2) = -((s - 1) * (sin φ * cos φ) / (cos φ ^ 2 + s * sin φ ^ 2)) by ring, Real.arctan_neg]
  ring

theorem azG_add_pi (s φ : ℝ) : azG s (φ + π) = azG s φ + π := by
  unfold azG
  rw [Real.sin_add_pi, Real.cos_add_pi, show (s - 1) * (-sin φ * -cos φ) / ((-cos φ) ^ 2 + s * (-sin φ) ^ 2) = ((s - 1) * (sin φ * cos φ) / (cos φ ^ 2 + s * sin φ ^ 2)) by ring]
  ring

theorem azG_two_pi_sub (s φ : ℝ) : azG s (2 * π - φ) = 2 * π - azG s φ := by
  rw [show 2 * π - φ = (π - φ) + π by ring, azG_add_pi, azG_pi_sub]; ring

/-! ## Azimuth -/

theorem firstQuad_G {ex ey : ℝ} (hx : 0 ≤ ex) (hy : 0 ≤ ey) {v : ℝ} (h0 : 0 ≤ v) (h1 : v < 1) (u2 : ℝ) :
    azG √((ey + 1) / (ex + 1)) (firstQuad ex ey v u2).1 = π / 2 * v ∧ 0 ≤ (firstQuad ex ey v u2).1 ∧ (firstQuad ex ey v u2).1 ≤ π / 2 := by
  have hpi := Real.pi_pos
  have hA : 0 < ex + 1 := by linarith
  have hB : 0 < ey + 1 := by linarith
  have hs : 0 < √((ey + 1) / (ex + 1)) := Real.sqrt_pos.2 (by positivity)
  have hv0 : 0 ≤ π * v * (1 / 2) := by positivity
  have hv1 : π * v * (1 / 2) < π / 2 := by nlinarith
  simp only [firstQuad]
  split_ifs with h
  · subst h
    rw [div_self hA.ne', Real.sqrt_one]
    refine ⟨?_, hv0, hv1.le⟩
    unfold azG; simp; ring
  · refine ⟨?_, ?_, (Real.arctan_lt_pi_div_two _).le⟩
    · rw [azG_first hs (Real.neg_pi_div_two_lt_arctan _) (Real.arctan_lt_pi_div_two _), Real.tan_arctan, ← mul_assoc, ← Real.sqrt_mul (by positivity),
        show (ey + 1) / (ex + 1) * ((ex + 1) / (ey + 1)) = 1 by field_simp, Real.sqrt_one, one_mul, Real.arctan_tan (by linarith) hv1]
      ring
    · apply Real.arctan_nonneg.2
      exact mul_nonneg (Real.sqrt_nonneg _) (Real.tan_nonneg_of_nonneg_of_le_pi_div_two hv0 hv1.le)

/-- The azimuth drawn depends on the first number only, is an angle in `[0, 2π]`, and inverts the distribution function of the azimuth: the mass of the half vectors with smaller azimuth is the
number drawn.  (At `1/4` and `3/4` the code takes the tangent of a right angle, which the reals do not have.) -/
theorem C82_azimuth (ex ey : ℝ) (hx : 0 ≤ ex) (hy : 0 ≤ ey) (u1 u2 : ℝ) (h0 : 0 ≤ u1) (h1 : u1 ≤ 1) (hq : u1 ≠ 1 / 4) (hq' : u1 ≠ 3 / 4) :
    0 ≤ (anisoPolar ex ey u1 u2).1 ∧ (anisoPolar ex ey u1 u2).1 ≤ 2 * π ∧
    (∫ φ in (0 : ℝ)..(anisoPolar ex ey u1 u2).1, azW (ex + 1) (ey + 1) φ / (2 * π)) = u1 := by
  have hpi := Real.pi_pos
  have hA : 0 < ex + 1 := by linarith
  have hB : 0 < ey + 1 := by linarith
  have hs : 0 < √((ey + 1) / (ex + 1)) := Real.sqrt_pos.2 (by positivity)
  have key : ∀ p, azG √((ey + 1) / (ex + 1)) p = 2 * π * u1 → (∫ φ in (0 : ℝ)..p, azW (ex + 1) (ey + 1) φ / (2 * π)) = u1 := by
    intro p hp
    rw [intervalIntegral.integral_div, azW_integral hA hB, azG_zero, hp]; field_simp; ring
  unfold anisoPolar
  split_ifs with c1 c2 c3
  · obtain ⟨g, a, b⟩ := firstQuad_G hx hy (v := 4 * u1) (by linarith) (by linarith) u2
    exact ⟨a, by linarith, key _ (by rw [g]; ring)⟩
  · obtain ⟨g, a, b⟩ := firstQuad_G hx hy (v := 4 * (1 / 2 - u1)) (by linarith) (by have := lt_of_le_of_ne (not_lt.1 c1) (Ne.symm hq); linarith) u2
    exact ⟨by simp only; linarith, by simp only; linarith, key _ (by rw [azG_pi_sub, g]; ring)⟩
  · obtain ⟨g, a, b⟩ := firstQuad_G hx hy (v := 4 * (u1 - 1 / 2)) (by linarith) (by linarith) u2
    exact ⟨by simp only; linarith, by simp only; linarith, key _ (by rw [azG_add_pi, g]; ring)⟩
  · obtain ⟨g, a, b⟩ := firstQuad_G hx hy (v := 4 * (1 - u1)) (by linarith) (by have := lt_of_le_of_ne (not_lt.1 c3) (Ne.symm hq'); linarith) u2
    exact ⟨by simp only; linarith, by simp only; linarith, key _ (by rw [azG_two_pi_sub, g]; ring)⟩

/-- The azimuth follows its density: the numbers that give an azimuth up to `t` have as measure the mass of the azimuths up to `t`. -/
theorem C82_azimuth_follows (ex ey : ℝ) (hx : 0 ≤ ex) (hy : 0 ≤ ey) (u2 t : ℝ) (h0 : 0 ≤ t) (h1 : t ≤ 2 * π) :
    MeasureTheory.volume {u1 : ℝ | 0 ≤ u1 ∧ u1 ≤ 1 ∧ (anisoPolar ex ey u1 u2).1 ≤ t} = ENNReal.ofReal (∫ φ in (0 : ℝ)..t, azW (ex + 1) (ey + 1) φ / (2 * π)) := by
  have hpi := Real.pi_pos
  have hA : 0 < ex + 1 := by linarith
  have hB : 0 < ey + 1 := by linarith
  have hs : 0 < √((ey + 1) / (ex + 1)) := Real.sqrt_pos.2 (by positivity)
  have hint : ∀ p, (∫ φ in (0 : ℝ)..p, azW (ex + 1) (ey + 1) φ / (2 * π)) = azG √((ey + 1) / (ex + 1)) p / (2 * π) := fun p => by
    rw [intervalIntegral.integral_div, azW_integral hA hB, azG_zero, sub_zero]
  rw [hint]
  have hG0 : 0 ≤ azG √((ey + 1) / (ex + 1)) t / (2 * π) := by
    have := (azG_strictMono hs).monotone h0
    rw [azG_zero] at this; positivity
  have hG1 : azG √((ey + 1) / (ex + 1)) t / (2 * π) ≤ 1 := by
    have := (azG_strictMono hs).monotone h1
    rw [azG_two_pi] at this
    rw [div_le_one (by positivity)]; exact this
  have hae : {u1 : ℝ | 0 ≤ u1 ∧ u1 ≤ 1 ∧ (anisoPolar ex ey u1 u2).1 ≤ t} =ᵐ[MeasureTheory.volume] Set.Icc 0 (azG √((ey + 1) / (ex + 1)) t / (2 * π)) := by
    have hn : MeasureTheory.volume ({1 / 4, 3 / 4} : Set ℝ) = 0 := Set.Finite.measure_zero (by simp) _
    filter_upwards [MeasureTheory.measure_eq_zero_iff_ae_notMem.1 hn] with u hu
    simp only [Set.mem_insert_iff, Set.mem_singleton_iff, not_or] at hu
    apply propext
    show (0 ≤ u ∧ u ≤ 1 ∧ (anisoPolar ex ey u u2).1 ≤ t) ↔ u ∈ Set.Icc 0 _
    constructor
    · rintro ⟨a, b, c⟩
      refine ⟨a, ?_⟩
      obtain ⟨_, _, e⟩ := C82_azimuth ex ey hx hy u u2 a b hu.1 hu.2
      rw [← e, hint]
      have := (azG_strictMono hs).monotone c
      gcongr
    · rintro ⟨a, b⟩
      have b1 : u ≤ 1 := b.trans hG1
      refine ⟨a, b1, ?_⟩
      obtain ⟨_, _, e⟩ := C82_azimuth ex ey hx hy u u2 a b1 hu.1 hu.2
      rw [hint] at e
      rw [← e, div_le_div_iff_of_pos_right (by positivity)] at b
      exact (azG_strictMono hs).le_iff_le.1 b
  rw [MeasureTheory.measure_congr hae, Real.volume_Icc, sub_zero]

/-- Given the azimuth, the polar angle follows its density. -/
theorem C82_polar_follows (ex ey : ℝ) (hx : 0 ≤ ex) (hy : 0 ≤ ey) (u1 t : ℝ) (h0 : 0 ≤ t) (h1 : t ≤ π / 2) :
    ∃ φ : ℝ, (∀ u2 : ℝ, (anisoPolar ex ey u1 u2).1 = φ) ∧
      MeasureTheory.volume {u2 : ℝ | 0 ≤ u2 ∧ u2 ≤ 1 ∧ cos t ≤ (anisoPolar ex ey u1 u2).2} =
        ENNReal.ofReal (∫ θ in (0 : ℝ)..t, (expoAt ex ey φ + 1) * cos θ ^ expoAt ex ey φ * sin θ) := by
  have hpi := Real.pi_pos
  have hc : 0 ≤ cos t := Real.cos_nonneg_of_neg_pi_div_two_le_of_le (by linarith) h1
  have hc1 : cos t ≤ 1 := Real.cos_le_one t
  -- the polar cosine is a power of the second number
  have hform : ∃ φ : ℝ, ∀ u2 : ℝ, (anisoPolar ex ey u1 u2).1 = φ ∧ (anisoPolar ex ey u1 u2).2 = u2 ^ (1 / (expoAt ex ey φ + 1)) := by
    have hq : ∀ v, ∃ φ : ℝ, ∀ u2 : ℝ, (firstQuad ex ey v u2).1 = φ ∧ (firstQuad ex ey v u2).2 = u2 ^ (1 / (expoAt ex ey φ + 1)) := by
      intro v
      refine ⟨(firstQuad ex ey v 0).1, fun u2 => ⟨rfl, ?_⟩⟩
      simp only [firstQuad, expoAt]
      congr 2
      ring
    have hsym : ∀ φ : ℝ, expoAt ex ey (π - φ) = expoAt ex ey φ ∧ expoAt ex ey (φ + π) = expoAt ex ey φ ∧ expoAt ex ey (2 * π - φ) = expoAt ex ey φ := by
      intro φ
      unfold expoAt
      refine ⟨?_, ?_, ?_⟩
      · rw [Real.sin_pi_sub, Real.cos_pi_sub, neg_sq]
      · rw [Real.sin_add_pi, Real.cos_add_pi, neg_sq, neg_sq]
      · rw [Real.sin_two_pi_sub, Real.cos_two_pi_sub, neg_sq]
    unfold anisoPolar
    split_ifs
    · exact hq _
    · obtain ⟨φ, h⟩ := hq (4 * (1 / 2 - u1))
      exact ⟨π - φ, fun u2 => ⟨by simp only [(h u2).1], by simp only [(h u2).2, (hsym φ).1]⟩⟩
    · obtain ⟨φ, h⟩ := hq (4 * (u1 - 1 / 2))
      exact ⟨φ + π, fun u2 => ⟨by simp only [(h u2).1], by simp only [(h u2).2, (hsym φ).2.1]⟩⟩
    · obtain ⟨φ, h⟩ := hq (4 * (1 - u1))
      exact ⟨2 * π - φ, fun u2 => ⟨by simp only [(h u2).1], by simp only [(h u2).2, (hsym φ).2.2]⟩⟩
  obtain ⟨φ, h⟩ := hform
  refine ⟨φ, fun u2 => (h u2).1, ?_⟩
  have hk : 0 ≤ expoAt ex ey φ := by unfold expoAt; positivity
  generalize expoAt ex ey φ = k at *
  have hk1 : 0 < k + 1 := by linarith
  have hp : 0 ≤ cos t ^ (k + 1) := Real.rpow_nonneg hc _
  have hset : {u2 : ℝ | 0 ≤ u2 ∧ u2 ≤ 1 ∧ cos t ≤ (anisoPolar ex ey u1 u2).2} = Set.Icc (cos t ^ (k + 1)) 1 := by
    ext u
    simp only [Set.mem_ofPred_eq, Set.mem_Icc, (h u).2]
    constructor
    · rintro ⟨a, b, c⟩
      refine ⟨?_, b⟩
      have := Real.rpow_le_rpow hc c hk1.le
      rwa [← Real.rpow_mul a, one_div, inv_mul_cancel₀ hk1.ne', Real.rpow_one] at this
    · rintro ⟨a, b⟩
      have hu : 0 ≤ u := hp.trans a
      refine ⟨hu, b, ?_⟩
      have := Real.rpow_le_rpow hp a (show 0 ≤ 1 / (k + 1) by positivity)
      rw [← Real.rpow_mul hc, one_div, mul_inv_cancel₀ hk1.ne', Real.rpow_one] at this
      rw [one_div]; exact this
  rw [hset, Real.volume_Icc]
  congr 1
  have hd : ∀ θ ∈ Set.uIcc 0 t, HasDerivAt (fun θ => -(cos θ ^ (k + 1))) ((k + 1) * cos θ ^ k * sin θ) θ := by
    intro θ _
    have := ((Real.hasDerivAt_rpow_const (x := cos θ) (p := k + 1) (Or.inr (by linarith))).comp θ (Real.hasDerivAt_cos θ)).neg
    refine this.congr_deriv ?_
    rw [show k + 1 - 1 = k by ring]; ring
  rw [intervalIntegral.integral_eq_sub_of_hasDerivAt hd]
  · rw [Real.cos_zero, Real.one_rpow]; ring
  · have : Continuous fun θ : ℝ => cos θ ^ k := Real.continuous_cos.rpow_const (fun _ => Or.inr hk)
    exact (by fun_prop : Continuous fun θ : ℝ => (k + 1) * cos θ ^ k * sin θ).intervalIntegrable _ _

/-- The two densities together are the density of half vectors, times the sine of the solid angle. -/
theorem C82_factor (ex ey : ℝ) (hx : 0 ≤ ex) (hy : 0 ≤ ey) (θ φ : ℝ) :
    azW (ex + 1) (ey + 1) φ / (2 * π) * ((expoAt ex ey φ + 1) * cos θ ^ expoAt ex ey φ * sin θ) = halfDensity ex ey θ φ * sin θ := by
  have hpi := Real.pi_pos
  have h : expoAt ex ey φ + 1 = (ex + 1) * cos φ ^ 2 + (ey + 1) * sin φ ^ 2 := by
    unfold expoAt; linear_combination -(Real.sin_sq_add_cos_sq φ)
  have hp : 0 < expoAt ex ey φ + 1 := by unfold expoAt; positivity
  unfold azW halfDensity
  rw [← h]
  field_simp

/-- The density of a reflected direction is the density of its half vector, `halfDensity`, over four times the cosine between them.  (Not at the pole, where the code reports zero.) -/
theorem C82_pdf_value (ex ey : ℝ) (hx1 : ex ≤ 10000) (hy1 : ey ≤ 10000) (wo wi : V3 ℝ) (ho : sqLength wo = 1) (hi : sqLength wi = 1) (hne : wo + wi ≠ 0)
    (θ φ : ℝ) (h0 : 0 < θ) (h1 : θ ≤ π / 2) (hw : Geom.normalize (wo + wi) = dirAt θ φ ∨ Geom.normalize (wo + wi) = -dirAt θ φ) :
    (anisotropic ex ey).pdf wo wi = halfDensity ex ey θ φ / (4 * dot wo (Geom.normalize (wo + wi))) := by
  have hpi := Real.pi_pos
  have hd := (half_spec ho hi hne).2.2.1
  show anisoPdf (clipExp ex) (clipExp ey) wo (Geom.normalize (wo + wi)) = _
  rw [(C81_exponent ex).2 hx1, (C81_exponent ey).2 hy1]
  generalize Geom.normalize (wo + wi) = wh at *
  have hc : 0 ≤ cos θ := Real.cos_nonneg_of_neg_pi_div_two_le_of_le (by linarith) h1
  have hs : 0 < sin θ := Real.sin_pos_of_pos_of_lt_pi h0 (by linarith)
  have hcos : absCosTheta wh = cos θ := by
    rcases hw with h | h <;> rw [h]
    · exact abs_of_nonneg hc
    · show |-cos θ| = cos θ
      rw [abs_neg, abs_of_nonneg hc]
  have hds : 1 - cos θ * cos θ = sin θ ^ 2 := by linarith [Real.sin_sq_add_cos_sq θ]
  have hk : ex * wh.x * wh.x + ey * wh.y * wh.y = expoAt ex ey φ * sin θ ^ 2 := by
    unfold expoAt
    rcases hw with h | h <;> rw [h]
    · simp only [dirAt]; ring
    · simp only [dirAt, neg_x, neg_y]; ring
  unfold anisoPdf
  simp only []
  rw [hcos, hds, if_pos ⟨by positivity, hd⟩, hk, mul_div_cancel_right₀ _ (by positivity)]
  unfold halfDensity MC.inv2Pi
  ring

/-- The half vector used by `sample_f` is the one drawn, or its opposite if that is on the other side of the surface than `wo`. -/
theorem C82_half (ex ey : ℝ) (hx0 : 0 ≤ ex) (hx1 : ex ≤ 10000) (hy0 : 0 ≤ ey) (hy1 : ey ≤ 10000) (wo : V3 ℝ) (u1 u2 : ℝ) (h0 : 0 ≤ u2) (h1 : u2 ≤ 1) :
    ∃ wh : V3 ℝ, (wh = dirAt (arccos (anisoPolar ex ey u1 u2).2) (anisoPolar ex ey u1 u2).1 ∨ wh = -dirAt (arccos (anisoPolar ex ey u1 u2).2) (anisoPolar ex ey u1 u2).1) ∧
      0 ≤ wo.z * wh.z ∧ ((anisotropic ex ey).sample wo u1 u2).2 = (2 * dot wo wh) * wh - wo := by
  have hq : ∀ v, 0 ≤ (firstQuad ex ey v u2).2 ∧ (firstQuad ex ey v u2).2 ≤ 1 := by
    intro v
    unfold firstQuad
    simp only []
    generalize (if ex = ey then π * v * (1 / 2) else arctan (√((ex + 1) / (ey + 1)) * tan (π * v * (1 / 2)))) = phi
    have : 0 < ex * cos phi * cos phi + ey * sin phi * sin phi + 1 := by
      nlinarith [mul_nonneg hx0 (mul_self_nonneg (cos phi)), mul_nonneg hy0 (mul_self_nonneg (sin phi))]
    exact ⟨Real.rpow_nonneg h0 _, Real.rpow_le_one h0 h1 (by positivity)⟩
  have hc : 0 ≤ (anisoPolar ex ey u1 u2).2 ∧ (anisoPolar ex ey u1 u2).2 ≤ 1 := by
    unfold anisoPolar
    split_ifs <;> exact hq _
  have hsd : sphericalDirection √(max 0 (1 - (anisoPolar ex ey u1 u2).2 * (anisoPolar ex ey u1 u2).2)) (anisoPolar ex ey u1 u2).2 (anisoPolar ex ey u1 u2).1
      = dirAt (arccos (anisoPolar ex ey u1 u2).2) (anisoPolar ex ey u1 u2).1 := by
    have hn : 0 ≤ 1 - (anisoPolar ex ey u1 u2).2 * (anisoPolar ex ey u1 u2).2 := by nlinarith [hc.1, hc.2]
    unfold sphericalDirection dirAt
    rw [Real.sin_arccos, Real.cos_arccos (by linarith [hc.1]) hc.2, max_eq_right hn, pow_two]
  have hs : ((anisotropic ex ey).sample wo u1 u2).2 = mirror wo (toSide wo (dirAt (arccos (anisoPolar ex ey u1 u2).2) (anisoPolar ex ey u1 u2).1)) := by
    simp only [anisotropic]
    rw [(C81_exponent ex).2 hx1, (C81_exponent ey).2 hy1, hsd]
  generalize dirAt (arccos (anisoPolar ex ey u1 u2).2) (anisoPolar ex ey u1 u2).1 = wh0 at *
  refine ⟨toSide wo wh0, ?_, ?_, ?_⟩
  · unfold toSide; split_ifs <;> simp
  · unfold toSide
    split_ifs with h
    · rw [neg_z]; linarith
    · exact (not_le.mp h).le
  · rw [hs]; unfold mirror; ext <;> simp <;> ring

/-- The distribution of normals is normalised: its projected area over the hemisphere is one. -/
theorem C82_normalised (ex ey : ℝ) (hx0 : 0 ≤ ex) (hx1 : ex ≤ 10000) (hy0 : 0 ≤ ey) (hy1 : ey ≤ 10000) :
    (∫ φ in (0 : ℝ)..(2 * π), ∫ θ in (0 : ℝ)..(π / 2), (anisotropic ex ey).D (dirAt θ φ) * cos θ * sin θ) = 1 := by
  have hpi := Real.pi_pos
  have hA : 0 < ex + 2 := by linarith
  have hB : 0 < ey + 2 := by linarith
  have hin : ∀ φ : ℝ, (∫ θ in (0 : ℝ)..(π / 2), (anisotropic ex ey).D (dirAt θ φ) * cos θ * sin θ) = azW (ex + 2) (ey + 2) φ / (2 * π) := by
    intro φ
    have hk : 0 ≤ expoAt ex ey φ := by unfold expoAt; positivity
    have hk2 : expoAt ex ey φ + 2 = (ex + 2) * cos φ ^ 2 + (ey + 2) * sin φ ^ 2 := by
      unfold expoAt; linear_combination -2 * (Real.sin_sq_add_cos_sq φ)
    have e : Set.EqOn (fun θ => (anisotropic ex ey).D (dirAt θ φ) * cos θ * sin θ)
        (fun θ => √((ex + 2) * (ey + 2)) / (2 * π) * (cos θ ^ (expoAt ex ey φ + 1) * sin θ)) (Set.uIcc 0 (π / 2)) := by
      intro θ hθ
      rw [Set.uIcc_of_le (by linarith)] at hθ
      have hc : 0 ≤ cos θ := Real.cos_nonneg_of_neg_pi_div_two_le_of_le (by linarith [hθ.1]) hθ.2
      have hcos : absCosTheta (dirAt θ φ) = cos θ := abs_of_nonneg hc
      have hds : 1 - cos θ * cos θ = sin θ ^ 2 := by linarith [Real.sin_sq_add_cos_sq θ]
      have hkk : ex * (dirAt θ φ).x * (dirAt θ φ).x + ey * (dirAt θ φ).y * (dirAt θ φ).y = expoAt ex ey φ * sin θ ^ 2 := by
        unfold expoAt; simp only [dirAt]; ring
      simp only [anisotropic]
      rw [hcos, hds, (C81_exponent ex).2 hx1, (C81_exponent ey).2 hy1, hkk]
      by_cases hz : sin θ ^ 2 = 0
      · have : sin θ = 0 := by simpa using hz
        rw [this]; simp
      · rw [if_neg hz, mul_div_assoc, div_self hz, mul_one]
        have : cos θ ^ (expoAt ex ey φ + 1) = cos θ ^ expoAt ex ey φ * cos θ := by
          rcases hc.eq_or_lt with h | h
          · rw [← h, Real.zero_rpow (by linarith)]; ring
          · rw [Real.rpow_add h, Real.rpow_one]
        rw [this, MC.inv2Pi]; ring
    rw [intervalIntegral.integral_congr e, intervalIntegral.integral_const_mul]
    have hd : ∀ θ ∈ Set.uIcc 0 (π / 2), HasDerivAt (fun θ => -(cos θ ^ (expoAt ex ey φ + 2) / (expoAt ex ey φ + 2))) (cos θ ^ (expoAt ex ey φ + 1) * sin θ) θ := by
      intro θ _
      have := (((Real.hasDerivAt_rpow_const (x := cos θ) (p := expoAt ex ey φ + 2) (Or.inr (by linarith))).comp θ (Real.hasDerivAt_cos θ)).div_const (expoAt ex ey φ + 2)).neg
      refine this.congr_deriv ?_
      rw [show expoAt ex ey φ + 2 - 1 = expoAt ex ey φ + 1 by ring]
      have : expoAt ex ey φ + 2 ≠ 0 := by linarith
      field_simp
    rw [intervalIntegral.integral_eq_sub_of_hasDerivAt hd]
    · rw [Real.cos_zero, Real.cos_pi_div_two, Real.one_rpow, Real.zero_rpow (by linarith), hk2]
      unfold azW
      ring
    · have : Continuous fun θ : ℝ => cos θ ^ (expoAt ex ey φ + 1) := Real.continuous_cos.rpow_const (fun _ => Or.inr (by linarith))
      exact (by fun_prop : Continuous fun θ : ℝ => cos θ ^ (expoAt ex ey φ + 1) * sin θ).intervalIntegrable _ _
  simp only [hin]
  rw [intervalIntegral.integral_div, azW_integral hA hB, azG_zero, azG_two_pi, sub_zero, div_self (by positivity)]

/-! ## Blinn, Torrance-Sparrow and the blend: the values -/

/-- The density of a reflected direction is the density of the half vectors drawn (`C81_half_follows`), over four times the cosine between them. -/
theorem C81_pdf_value (e : ℝ) (h1 : e ≤ 10000) (wo wi : V3 ℝ) (ho : sqLength wo = 1) (hi : sqLength wi = 1) (hne : wo + wi ≠ 0) :
    (blinn e).pdf wo wi = (e + 1) * |(Geom.normalize (wo + wi)).z| ^ e / (2 * π) / (4 * dot wo (Geom.normalize (wo + wi))) := by
  have hd := (half_spec ho hi hne).2.2.1
  simp only [blinn]
  rw [(C81_exponent e).2 h1, if_neg (not_le.2 hd)]
  unfold absCosTheta
  rw [div_div]
  congr 1
  ring

/-- The half vector used by `sample_f` is the one drawn, or its opposite if that is on the other side of the surface than `wo`. -/
theorem C81_half (e : ℝ) (h1 : e ≤ 10000) (wo : V3 ℝ) (u1 u2 : ℝ) :
    ∃ wh : V3 ℝ, (wh = blinnHalf e u1 u2 ∨ wh = -blinnHalf e u1 u2) ∧ 0 ≤ wo.z * wh.z ∧ ((blinn e).sample wo u1 u2).2 = (2 * dot wo wh) * wh - wo := by
  have hs : ((blinn e).sample wo u1 u2).2 = mirror wo (toSide wo (blinnHalf e u1 u2)) := by
    simp only [blinn]
    rw [(C81_exponent e).2 h1]
  refine ⟨toSide wo (blinnHalf e u1 u2), ?_, ?_, ?_⟩
  · unfold toSide; split_ifs <;> simp
  · unfold toSide
    split_ifs with h
    · rw [neg_z]; linarith
    · exact (not_le.mp h).le
  · rw [hs]; unfold mirror; ext <;> simp <;> ring

/-- the shadowing and masking factor of V-shaped grooves -/
noncomputable def grooves (co ci ch d : ℝ) : ℝ := min 1 (2 * ch * min co ci / d)

/-- The Torrance-Sparrow formula: for unit directions on the same side, not grazing, `f = R D F G / (4 cos cos)` at their half vector `h`, with the V-groove factor. -/
theorem C83_value (R : ℝ) (fr : ℝ → ℝ) (d : MDist) (wo wi h : V3 ℝ) (ho : sqLength wo = 1) (hi : sqLength wi = 1) (hs : 0 < wo.z * wi.z)
    (hh : h = Geom.normalize (wo + wi)) :
    (microfacet R fr d).f wo wi = R * d.D h * fr (dot wo h) * grooves |wo.z| |wi.z| |h.z| (dot wo h) / (4 * |wo.z| * |wi.z|) := by
  have hne : wo + wi ≠ 0 := by
    intro e
    have := congrArg V3.z e
    simp only [add_z, zero_z] at this
    rw [show wi.z = -wo.z by linarith] at hs
    nlinarith [mul_self_nonneg wo.z]
  obtain ⟨u1, u2, u3, _⟩ := half_spec ho hi hne
  rw [← hh] at u1 u2 u3
  have h1 : wi.z ≠ 0 := fun h => by rw [h] at hs; simp at hs
  have h2 : wo.z ≠ 0 := fun h => by rw [h] at hs; simp at hs
  show microF R fr d wo wi = _
  unfold microF cosTheta
  simp only []
  rw [add_comm3 wi wo, ← hh, if_neg (by tauto), ← u2]
  have hG : geomTerm wo wi h = grooves |wo.z| |wi.z| |h.z| (dot wo h) := by
    unfold geomTerm grooves absCosTheta absDot
    rw [abs_of_pos u3]
    congr 1
    have hk : 0 ≤ 2 * |h.z| := by positivity
    rw [mul_min_of_nonneg _ _ hk, min_div_div_right u3.le]
  have hz : 4 * |wo.z| * |wi.z| = 4 * wi.z * wo.z := by
    rw [mul_assoc, ← abs_mul, abs_of_pos hs]; ring
  rw [hG, hz]
  ring

/-- The Fresnel blend formula: a diffuse part that vanishes towards grazing directions, and a glossy part `D / (4 (wi·h) max(cos, cos))` times Schlick's reflectance. -/
theorem C84_value (Rd Rs : ℝ) (d : MDist) (wo wi h : V3 ℝ) (ho : sqLength wo = 1) (hi : sqLength wi = 1) (hne : wo + wi ≠ 0) (hh : h = Geom.normalize (wo + wi)) :
    (fresnelBlend Rd Rs d).f wo wi =
      28 * Rd / (23 * π) * (1 - Rs) * (1 - (1 - |wi.z| / 2) ^ 5) * (1 - (1 - |wo.z| / 2) ^ 5) +
      d.D h * (Rs + (1 - Rs) * (1 - dot wo h) ^ 5) / (4 * dot wo h * max |wi.z| |wo.z|) := by
  obtain ⟨u1, u2, u3, _⟩ := half_spec ho hi hne
  rw [← hh] at u1 u2 u3
  show blendF Rd Rs d wo wi = _
  unfold blendF schlick absCosTheta absDot
  simp only []
  rw [add_comm3 wi wo, ← hh, ← u2, abs_of_pos u3]
  have : (1 - dot wo h) ^ (5 : ℝ) = (1 - dot wo h) ^ (5 : ℕ) := by
    rw [← Real.rpow_natCast]; norm_num
  rw [this]
  ring

/-- Half of the directions come from the cosine distribution and half from the glossy one: the density is their mean, on the side of `wo`, and zero on the other. -/
theorem C84_density (Rd Rs : ℝ) (d : MDist) (wo wi : V3 ℝ) :
    (0 < wo.z * wi.z → (fresnelBlend Rd Rs d).pdf wo wi = (|wi.z| / π + d.pdf wo wi) / 2) ∧
    (wo.z * wi.z ≤ 0 → (fresnelBlend Rd Rs d).pdf wo wi = 0) ∧
    (∀ u1 u2 : ℝ, u1 < 1 / 2 → ∃ v : ℝ, ((fresnelBlend Rd Rs d).sample wo u1 u2).dv = some (baseDir wo (2 * u1) u2, v)) ∧
    (∀ u1 u2 : ℝ, 1 / 2 ≤ u1 → ∃ v : ℝ, ((fresnelBlend Rd Rs d).sample wo u1 u2).dv = some ((d.sample wo (2 * u1 - 1) u2).2, v)) := by
  refine ⟨fun h => ?_, fun h => ?_, fun u1 u2 hu => ?_, fun u1 u2 hu => ?_⟩
  · show blendPdf d wo wi = _
    unfold blendPdf absCosTheta MC.invPi
    rw [if_neg (not_le.2 h)]; ring
  · show blendPdf d wo wi = _
    unfold blendPdf
    rw [if_pos h]
  · simp only [fresnelBlend]
    rw [if_pos hu]
    exact ⟨_, rfl⟩
  · simp only [fresnelBlend]
    rw [if_neg (not_lt.2 hu), show 2 * (u1 - 1 / 2) = 2 * u1 - 1 by ring]
    split_ifs <;> exact ⟨_, rfl⟩

example : sqLength (⟨3/5, 0, 4/5⟩ : V3 ℝ) = 1 ∧ sqLength (⟨0, 4/5, 3/5⟩ : V3 ℝ) = 1 ∧ 0 < (4/5 : ℝ) * (3/5) := by
  refine ⟨by norm_num [sqLength], by norm_num [sqLength], by norm_num⟩

/-- a half vector off the pole -/
example : ∃ (wo wi : V3 ℝ) (θ φ : ℝ), sqLength wo = 1 ∧ sqLength wi = 1 ∧ wo + wi ≠ 0 ∧ 0 < θ ∧ θ ≤ π / 2 ∧ Geom.normalize (wo + wi) = dirAt θ φ := by
  have hpi := Real.pi_pos
  refine ⟨⟨1, 0, 0⟩, ⟨1, 0, 0⟩, π / 2, 0, by norm_num [sqLength], by norm_num [sqLength], ?_, by linarith, le_rfl, ?_⟩
  · intro h; have := congrArg V3.x h; norm_num at this
  · have hne : (⟨1, 0, 0⟩ : V3 ℝ) + ⟨1, 0, 0⟩ ≠ 0 := by intro h; have := congrArg V3.x h; norm_num at this
    obtain ⟨L, hL, hLL, hn⟩ := normalize_eq hne
    have : L = 2 := by
      simp only [sqLength, add_x, add_y, add_z] at hLL; nlinarith
    rw [hn, this]
    ext <;> simp [dirAt]

end Verif.Refl
