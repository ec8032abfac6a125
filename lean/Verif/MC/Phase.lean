import Verif.MC.Props
import Mathlib.Analysis.SpecialFunctions.Pow.Deriv

/-! # Phase functions (C56) and Henyey-Greenstein sampling (C67) -/

namespace Verif.MC
open Verif V3 Verif.Geom Real

/-- a phase function: non-negative on unit vectors, a function of the angle between them only (hence symmetric), of total
mass one over the sphere. -/
structure IsPhase (p : V3 ℝ → V3 ℝ → ℝ) : Prop where
  nonneg : ∀ w wp, length w = 1 → length wp = 1 → 0 ≤ p w wp
  symm : ∀ w wp, p w wp = p wp w
  angle : ∃ f : ℝ → ℝ, (∀ w wp, p w wp = f (dot w wp)) ∧ capMass f 0 π = 1

theorem dot_comm (a b : V3 ℝ) : dot a b = dot b a := by simp only [dot]; ring

theorem abs_dot_le_one {a b : V3 ℝ} (ha : length a = 1) (hb : length b = 1) : -1 ≤ dot a b ∧ dot a b ≤ 1 := by
  have h1 := dot_self_of_length ha
  have h2 := dot_self_of_length hb
  simp only [dot] at *
  constructor
  · nlinarith [mul_self_nonneg (a.x + b.x), mul_self_nonneg (a.y + b.y), mul_self_nonneg (a.z + b.z)]
  · nlinarith [mul_self_nonneg (a.x - b.x), mul_self_nonneg (a.y - b.y), mul_self_nonneg (a.z - b.z)]

/-- **C56** isotropic scattering. -/
theorem C56_isotropic : IsPhase phaseIsotropic := by
  have hpi := Real.pi_pos
  refine ⟨fun _ _ _ _ => by unfold phaseIsotropic; positivity, fun _ _ => rfl, fun _ => 1 / (4 * π), fun _ _ => rfl, ?_⟩
  rw [capMass_const, Real.cos_zero, Real.cos_pi]; field_simp; ring

/-- **C56** Rayleigh scattering. -/
theorem C56_rayleigh : IsPhase phaseRayleigh := by
  have hpi := Real.pi_pos
  refine ⟨fun w wp _ _ => ?_, fun w wp => by simp only [phaseRayleigh, dot_comm w wp], fun c => 3 / (16 * π) * (1 + c * c), fun _ _ => rfl, ?_⟩
  · simp only [phaseRayleigh]
    have := mul_self_nonneg (dot w wp)
    positivity
  · rw [capMass_eq _ (fun c => 3 / (16 * π) * (c + c ^ 3 / 3))]
    · rw [Real.cos_zero, Real.cos_pi]; field_simp; ring
    · intro θ _
      have := ((hasDerivAt_id (cos θ)).add ((hasDerivAt_pow 3 (cos θ)).div_const 3)).const_mul (3 / (16 * π))
      have e : 3 / (16 * π) * (1 + cos θ * cos θ) = 3 / (16 * π) * (1 + (3 : ℕ) * cos θ ^ (3 - 1) / 3) := by push_cast; ring
      rw [e]; exact this
    · exact (by fun_prop : Continuous fun θ => 3 / (16 * π) * (1 + cos θ * cos θ)).continuousOn

/-- the two Mie approximations: `(1/2 + a ((1 + c) / 2)^n) / 4π` with `a = (n + 1) / 2` -/
theorem mie (n : ℕ) (hn : Even n) (a : ℝ) (ha : a = ((n : ℝ) + 1) / 2) :
    IsPhase (fun w wp => (5 / 10 + a * (5 / 10 * (1 + dot w wp)) ^ n) / (4 * π)) := by
  have hpi := Real.pi_pos
  have ha0 : 0 < a := by rw [ha]; positivity
  refine ⟨fun w wp _ _ => ?_, fun w wp => by simp only [dot_comm w wp], fun c => (5 / 10 + a * (5 / 10 * (1 + c)) ^ n) / (4 * π), fun _ _ => rfl, ?_⟩
  · have := hn.pow_nonneg (5 / 10 * (1 + dot w wp)); positivity
  · rw [capMass_eq _ (fun c => (5 / 10 * c + a * (2 * (5 / 10 * (1 + c)) ^ (n + 1) / (n + 1))) / (4 * π))]
    · rw [Real.cos_zero, Real.cos_pi]
      norm_num
      rw [ha]
      have : (n : ℝ) + 1 ≠ 0 := by positivity
      field_simp; ring
    · intro θ _
      have h1 : HasDerivAt (fun c : ℝ => 5 / 10 * (1 + c)) (5 / 10) (cos θ) := by
        simpa using ((hasDerivAt_id (cos θ)).const_add 1).const_mul (5 / 10)
      have h2 := (((h1.pow (n + 1)).const_mul 2).div_const ((n : ℝ) + 1)).const_mul a
      have h3 := (((hasDerivAt_id (cos θ)).const_mul (5 / 10)).add h2).div_const (4 * π)
      have e : (5 / 10 + a * (5 / 10 * (1 + cos θ)) ^ n) / (4 * π) =
          (5 / 10 * 1 + a * (2 * (((n + 1 : ℕ) : ℝ) * (5 / 10 * (1 + cos θ)) ^ (n + 1 - 1) * (5 / 10)) / ((n : ℝ) + 1))) / (4 * π) := by
        have : (n : ℝ) + 1 ≠ 0 := by positivity
        rw [Nat.add_sub_cancel]; push_cast; field_simp; ring
      rw [e]; exact h3
    · exact (by fun_prop : Continuous fun θ => (5 / 10 + a * (5 / 10 * (1 + cos θ)) ^ n) / (4 * π)).continuousOn

/-- **C56** hazy Mie scattering. -/
theorem C56_mie_hazy : IsPhase phaseMieHazy := by
  have := mie 8 (by decide) (45 / 10) (by norm_num)
  exact this

/-- **C56** murky Mie scattering. -/
theorem C56_mie_murky : IsPhase phaseMieMurky := by
  have := mie 32 (by decide) (165 / 10) (by norm_num)
  exact this

/-! ### Henyey-Greenstein -/

theorem hg_den_pos (g c : ℝ) (hg : |g| < 1) (h0 : -1 ≤ c) (h1 : c ≤ 1) : 0 < 1 + g * g - 2 * g * c := by
  obtain ⟨a, b⟩ := abs_lt.1 hg
  nlinarith [mul_self_nonneg (g - c), mul_self_nonneg (g + c), mul_self_nonneg (1 - g * c), mul_pos (show 0 < 1 - g by linarith) (show 0 < 1 + g by linarith)]

/-- Henyey-Greenstein density as a function of the cosine -/
noncomputable def hgf (g c : ℝ) : ℝ := (1 - g * g) / (1 + g * g - 2 * g * c) ^ (3 / 2 : ℝ) / (4 * π)

theorem hg_mass (g t0 t1 : ℝ) (hg : |g| < 1) (hg0 : g ≠ 0) :
    capMass (hgf g) t0 t1 = (1 - g * g) / (2 * g) * (1 / √(1 + g * g - 2 * g * cos t0) - 1 / √(1 + g * g - 2 * g * cos t1)) := by
  have hpi := Real.pi_pos
  rw [capMass_eq _ (fun c => (1 - g * g) / (4 * π * g) * (1 + g * g - 2 * g * c) ^ (-(1 / 2) : ℝ))]
  · have conv : ∀ t, (1 + g * g - 2 * g * cos t) ^ (-(1 / 2) : ℝ) = 1 / √(1 + g * g - 2 * g * cos t) := by
      intro t
      rw [Real.rpow_neg (hg_den_pos g _ hg (Real.neg_one_le_cos t) (Real.cos_le_one t)).le, ← Real.sqrt_eq_rpow, one_div]
    rw [conv, conv]
    field_simp; ring
  · intro θ _
    have hp := hg_den_pos g _ hg (Real.neg_one_le_cos θ) (Real.cos_le_one θ)
    have h1 : HasDerivAt (fun c : ℝ => 1 + g * g - 2 * g * c) (-(2 * g)) (cos θ) := by
      simpa using ((hasDerivAt_id (cos θ)).const_mul (2 * g)).const_sub (1 + g * g)
    have h2 := (h1.rpow_const (p := (-(1 / 2) : ℝ)) (Or.inl hp.ne')).const_mul ((1 - g * g) / (4 * π * g))
    have e : hgf g (cos θ) = (1 - g * g) / (4 * π * g) * (-(2 * g) * (-(1 / 2) : ℝ) * (1 + g * g - 2 * g * cos θ) ^ (-(1 / 2) - 1 : ℝ)) := by
      rw [hgf, show (-(1 / 2) - 1 : ℝ) = -(3 / 2) by norm_num, Real.rpow_neg hp.le]
      have := (Real.rpow_pos_of_pos hp (3 / 2)).ne'
      field_simp
    rw [e]; exact h2
  · unfold hgf
    apply ContinuousOn.div_const
    apply ContinuousOn.div continuousOn_const
    · apply ContinuousOn.rpow_const
      · exact (by fun_prop : Continuous fun θ => 1 + g * g - 2 * g * cos θ).continuousOn
      · intro θ _; right; norm_num
    · intro θ _
      exact (Real.rpow_pos_of_pos (hg_den_pos g _ hg (Real.neg_one_le_cos θ) (Real.cos_le_one θ)) _).ne'

/-- **C56** Henyey-Greenstein scattering for every asymmetry `|g| < 1`. -/
theorem C56_hg (g : ℝ) (hg : |g| < 1) : IsPhase (fun w wp => phaseHg w wp g) := by
  have hpi := Real.pi_pos
  obtain ⟨g0, g1⟩ := abs_lt.1 hg
  refine ⟨fun w wp h1 h2 => ?_, fun w wp => by simp only [phaseHg, dot_comm w wp], hgf g, fun _ _ => rfl, ?_⟩
  · obtain ⟨a, b⟩ := abs_dot_le_one h1 h2
    have hp := hg_den_pos g _ hg a b
    simp only [phaseHg]
    have : 0 ≤ 1 - g * g := by nlinarith
    have := Real.rpow_pos_of_pos hp (3 / 2)
    positivity
  · by_cases h : g = 0
    · subst h
      have : hgf 0 = fun _ => 1 / (4 * π) := by funext c; simp [hgf]
      rw [this, capMass_const, Real.cos_zero, Real.cos_pi]; field_simp; ring
    · rw [hg_mass g 0 π hg h, Real.cos_zero, Real.cos_pi]
      have e1 : √(1 + g * g - 2 * g * 1) = 1 - g := by
        rw [show 1 + g * g - 2 * g * 1 = (1 - g) ^ 2 by ring, Real.sqrt_sq (by linarith)]
      have e2 : √(1 + g * g - 2 * g * -1) = 1 + g := by
        rw [show 1 + g * g - 2 * g * -1 = (1 + g) ^ 2 by ring, Real.sqrt_sq (by linarith)]
      rw [e1, e2]
      have : (1 - g) ≠ 0 := by linarith
      have : (1 + g) ≠ 0 := by linarith
      field_simp; ring

/-- **C56 is false of the code** for the Schlick approximation: `a / b * b` is evaluated left to right, so the function is
constant and, for `g = 1/2`, has total mass below one. -/
theorem C56_schlick_false : ¬ ∀ g : ℝ, |g| < 1 → IsPhase (fun w wp => phaseSchlick w wp g) := by
  intro h
  have hpi := Real.pi_pos
  obtain ⟨-, -, f, hf, hm⟩ := h (1 / 2) (by rw [abs_of_pos] <;> norm_num)
  have hfc : ∀ c, -1 ≤ c → c ≤ 1 → f c = (1 - (11300 / 16000 : ℝ) ^ 2) / (4 * π) := by
    intro c h0 h1
    have := hf ⟨1, 0, 0⟩ ⟨c, 0, 0⟩
    simp only [dot, phaseSchlick] at this
    rw [show (1 * c + 0 * 0 + 0 * 0 : ℝ) = c by ring] at this
    rw [← this]
    have hne : (1 - (155 / 100 * (1 / 2) - 55 / 100 * (1 / 2) * (1 / 2) * (1 / 2)) * c : ℝ) ≠ 0 := by
      have : (155 / 100 * (1 / 2) - 55 / 100 * (1 / 2) * (1 / 2) * (1 / 2) : ℝ) * c ≤ 11300 / 16000 := by nlinarith
      intro h; linarith
    rw [div_mul_cancel₀ _ hne]; norm_num
  have : capMass f 0 π = capMass (fun _ => (1 - (11300 / 16000 : ℝ) ^ 2) / (4 * π)) 0 π := by
    unfold capMass
    congr 1; funext φ
    congr 1; funext θ
    rw [hfc _ (Real.neg_one_le_cos θ) (Real.cos_le_one θ)]
  rw [this, capMass_const, Real.cos_zero, Real.cos_pi] at hm
  have e : 2 * π * ((1 - (11300 / 16000 : ℝ) ^ 2) / (4 * π) * 1 - (1 - (11300 / 16000 : ℝ) ^ 2) / (4 * π) * -1) = 1 - (11300 / 16000 : ℝ) ^ 2 := by
    field_simp; ring
  rw [e] at hm
  norm_num at hm

/-- **C56 is false of the code** for the Schlick approximation in another way: close to `g = 1` it is negative. -/
theorem C56_schlick_negative_false : ¬ ∀ (g : ℝ) (w wp : V3 ℝ), |g| < 1 → length w = 1 → length wp = 1 → 0 ≤ phaseSchlick w wp g := by
  intro h
  have hpi := Real.pi_pos
  have := h (97 / 100) ⟨1, 0, 0⟩ ⟨0, 1, 0⟩ (by rw [abs_of_pos] <;> norm_num) (by simp [length, sqLength]) (by simp [length, sqLength])
  simp only [phaseSchlick, dot] at this
  norm_num at this
  have h2 := div_nonneg_iff.1 this
  rcases h2 with h2 | h2
  · norm_num at h2
  · linarith

/-- **C56 (part)** what the Schlick approximation does give for `|g| ≤ 9/10`: a non-negative constant, at most the isotropic value, wherever the
divisor is not zero. Missing: normalisation and dependence on the angle. -/
theorem C56_schlick_partial (w wp : V3 ℝ) (g : ℝ) (hg : |g| ≤ 9 / 10) (hk : 1 - (155 / 100 * g - 55 / 100 * g * g * g) * dot w wp ≠ 0) :
    0 ≤ phaseSchlick w wp g ∧ phaseSchlick w wp g ≤ 1 / (4 * π) ∧ phaseSchlick w wp g = phaseSchlick wp w g := by
  have hpi := Real.pi_pos
  have e : phaseSchlick w wp g = (1 - (155 / 100 * g - 55 / 100 * g * g * g) * (155 / 100 * g - 55 / 100 * g * g * g)) / (4 * π) := by
    simp only [phaseSchlick]; rw [div_mul_cancel₀ _ hk]
  have hk2 : |155 / 100 * g - 55 / 100 * g * g * g| ≤ 1 := by
    obtain ⟨a, b⟩ := abs_le.1 hg
    rw [abs_le]
    constructor
    · nlinarith [mul_nonneg (show (0:ℝ) ≤ 1 + g by linarith) (show (0:ℝ) ≤ 1 + 55 / 100 * g - 55 / 100 * g * g by nlinarith)]
    · nlinarith [mul_nonneg (show (0:ℝ) ≤ 1 - g by linarith) (show (0:ℝ) ≤ 1 - 55 / 100 * g - 55 / 100 * g * g by nlinarith)]
  have hk3 : (155 / 100 * g - 55 / 100 * g * g * g) * (155 / 100 * g - 55 / 100 * g * g * g) ≤ 1 := by
    have := abs_le.1 hk2; nlinarith
  refine ⟨?_, ?_, by simp only [phaseSchlick, dot_comm w wp]⟩
  · rw [e]; apply div_nonneg <;> [linarith; positivity]
  · rw [e]; apply div_le_div_of_nonneg_right _ (by positivity)
    nlinarith [mul_self_nonneg (155 / 100 * g - 55 / 100 * g * g * g)]

/-! ### C67 sampling -/

theorem hg_lin (g u : ℝ) (g0 : -1 < g) (g1 : g < 1) (h0 : 0 ≤ u) (h1 : u ≤ 1) : 0 < 1 - g + 2 * g * u := by
  rcases le_total u (1 / 2) with h | h
  · nlinarith [mul_nonneg h0 (show (0:ℝ) ≤ 1 + g by linarith), mul_pos (show (0:ℝ) < 1 - u by linarith) (show (0:ℝ) < 1 - g by linarith)]
  · nlinarith [mul_pos (show (0:ℝ) < u by linarith) (show (0:ℝ) < 1 + g by linarith), mul_nonneg (show (0:ℝ) ≤ 1 - u by linarith) (show (0:ℝ) ≤ 1 - g by linarith)]

/-- the cosine drawn by `sample_hg` is between -1 and 1 -/
theorem hgCos_range (g u : ℝ) (hg : |g| < 1) (h0 : 0 ≤ u) (h1 : u ≤ 1) : -1 ≤ hgCos g u ∧ hgCos g u ≤ 1 := by
  obtain ⟨g0, g1⟩ := abs_lt.1 hg
  unfold hgCos
  split_ifs with h
  · constructor <;> linarith
  · have hgne : g ≠ 0 := by rintro rfl; apply h; unfold EPS; norm_num
    have hd : 0 < 1 - g + 2 * g * u := hg_lin g u g0 g1 h0 h1
    have hs1 : 0 < 1 - g * g := by nlinarith
    simp only
    have hdne := hd.ne'
    have e0 : (1 + g * g - (1 - g * g) / (1 - g + 2 * g * u) * ((1 - g * g) / (1 - g + 2 * g * u))) / (2 * g) =
      ((1 + g * g) * (1 - g + 2 * g * u) ^ 2 - (1 - g * g) ^ 2) / (2 * g * (1 - g + 2 * g * u) ^ 2) := by
      rw [div_mul_div_comm, eq_div_iff (by positivity), sub_div, sub_mul, div_div, div_mul_eq_mul_div, div_mul_eq_mul_div]
      rw [div_sub_div _ _ (by positivity) (by positivity), div_eq_iff (by positivity)]; ring
    rw [e0]
    have e1 : ((1 + g * g) * (1 - g + 2 * g * u) ^ 2 - (1 - g * g) ^ 2) / (2 * g * (1 - g + 2 * g * u) ^ 2) + 1 =
        2 * u * (1 + g) ^ 2 * (1 - g + g * u) / (1 - g + 2 * g * u) ^ 2 := by
      rw [div_add_one (by positivity), div_eq_div_iff (by positivity) (by positivity)]; ring
    have e2 : 1 - ((1 + g * g) * (1 - g + 2 * g * u) ^ 2 - (1 - g * g) ^ 2) / (2 * g * (1 - g + 2 * g * u) ^ 2) =
        2 * (1 - u) * (1 - g) ^ 2 * (1 + g * u) / (1 - g + 2 * g * u) ^ 2 := by
      rw [one_sub_div (by positivity), div_eq_div_iff (by positivity) (by positivity)]; ring
    have a1 : 0 ≤ 1 - g + g * u := by nlinarith
    have a2 : 0 ≤ 1 + g * u := by nlinarith
    have a3 : 0 ≤ 1 - u := by linarith
    have b1 : 0 ≤ 2 * u * (1 + g) ^ 2 * (1 - g + g * u) / (1 - g + 2 * g * u) ^ 2 := by positivity
    have b2 : 0 ≤ 2 * (1 - u) * (1 - g) ^ 2 * (1 + g * u) / (1 - g + 2 * g * u) ^ 2 := by positivity
    constructor <;> linarith

/-- **C67** `sample_hg` around a unit vector gives a unit vector, whose cosine to it is the drawn one, in `[-1, 1]`. -/
theorem C67_hg_direction (w : V3 ℝ) (g u1 u2 : ℝ) (hw : length w = 1) (hg : |g| < 1) (h0 : 0 ≤ u1) (h1 : u1 ≤ 1) :
    length (sampleHg w g u1 u2) = 1 ∧ dot w (sampleHg w g u1 u2) = hgCos g u1 ∧ -1 ≤ hgCos g u1 ∧ hgCos g u1 ≤ 1 := by
  obtain ⟨r0, r1⟩ := hgCos_range g u1 hg h0 h1
  obtain ⟨c1, c2, -⟩ := C05_frame_orthonormal w hw
  rw [c1] at c2
  obtain ⟨a1, a2, a3, a4, a5, a6⟩ := c2
  have hnn : 0 ≤ 1 - hgCos g u1 * hgCos g u1 := by nlinarith
  have hs := Real.sq_sqrt hnn
  refine ⟨?_, ?_, r0, r1⟩
  · have := (C60_spherical_direction_unit (√(max 0 (1 - hgCos g u1 * hgCos g u1))) (hgCos g u1) (2 * π * u2)
      (by rw [max_eq_right hnn]; linarith) _ _ _ (⟨a2, a3, a1, a6, by rw [dot_comm]; exact a4, by rw [dot_comm]; exact a5⟩ :
        Orthonormal3 (coordinateSystem w).2.1 (coordinateSystem w).2.2 w)).2
    exact this
  · have hz := dot_self_of_length a1
    simp only [sampleHg, sphericalDirectionBasis]
    generalize √(max 0 (1 - hgCos g u1 * hgCos g u1)) = s
    generalize hgCos g u1 = ct
    generalize (coordinateSystem w).2.1 = y at *
    generalize (coordinateSystem w).2.2 = z at *
    simp only [dot] at *
    simp only [add_x, add_y, add_z, smul_x, smul_y, smul_z]
    linear_combination s * cos (2 * π * u2) * a4 + s * sin (2 * π * u2) * a5 + ct * hz

/-- **C67** the drawn cosines follow `hg_pdf`: the directions at least as far from `w` as the sample have mass exactly `u1`,
for asymmetries the formula is used for. -/
theorem C67_hg_follows (g u : ℝ) (hg : |g| < 1) (hg0 : EPS ≤ |g|) (h0 : 0 ≤ u) (h1 : u ≤ 1) (w : V3 ℝ) :
    ∃ f : ℝ → ℝ, (∀ wp, phaseHg w wp g = f (dot w wp)) ∧ capMass f (arccos (hgCos g u)) π = u := by
  refine ⟨hgf g, fun _ => rfl, ?_⟩
  obtain ⟨g0, g1⟩ := abs_lt.1 hg
  have hgne : g ≠ 0 := by rintro rfl; rw [abs_zero] at hg0; unfold EPS at hg0; norm_num at hg0
  obtain ⟨r0, r1⟩ := hgCos_range g u hg h0 h1
  rw [hg_mass g _ _ hg hgne, Real.cos_arccos r0 r1, Real.cos_pi]
  have hd : 0 < 1 - g + 2 * g * u := hg_lin g u g0 g1 h0 h1
  have hs1 : 0 < 1 - g * g := by nlinarith
  have e1 : √(1 + g * g - 2 * g * hgCos g u) = (1 - g * g) / (1 - g + 2 * g * u) := by
    have : 1 + g * g - 2 * g * hgCos g u = ((1 - g * g) / (1 - g + 2 * g * u)) ^ 2 := by
      simp only [hgCos, if_neg (not_lt.2 hg0)]
      rw [mul_div_cancel₀ _ (by simpa using hgne)]; ring
    rw [this, Real.sqrt_sq (by positivity)]
  have e2 : √(1 + g * g - 2 * g * -1) = 1 + g := by
    rw [show 1 + g * g - 2 * g * -1 = (1 + g) ^ 2 by ring, Real.sqrt_sq (by linarith)]
  rw [e1, e2]
  have : (1 + g) ≠ 0 := by linarith
  have := hs1.ne'
  rw [show 1 - g * g = (1 - g) * (1 + g) by ring] at *
  have : (1 - g) ≠ 0 := by linarith
  field_simp; ring

example : |(1 / 2 : ℝ)| < 1 ∧ EPS ≤ |(1 / 2 : ℝ)| ∧ length (⟨1, 0, 0⟩ : V3 ℝ) = 1 := by
  refine ⟨by rw [abs_of_pos] <;> norm_num, by rw [abs_of_pos] <;> norm_num [EPS], by simp [length, sqLength]⟩

end Verif.MC
