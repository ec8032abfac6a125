import Verif.MC.Model
import Verif.Geom.Props
import Mathlib.Analysis.SpecialFunctions.Integrals.Basic
import Mathlib.MeasureTheory.Integral.IntervalIntegral.IntegrationByParts
import Mathlib.Tactic.Positivity
import Mathlib.Tactic.FieldSimp
import Mathlib.Tactic.LinearCombination

/-! # Monte Carlo helpers: C20, C21, C66, C67, and phase functions C56 -/

namespace Verif.MC
open Verif V3 Verif.Geom Real
set_option linter.unusedSectionVars false

/-! ## C20 multiple importance weights -/
section
variable {K : Type*} [Field K] [LinearOrder K] [IsStrictOrderedRing K]

/-- **C20** balance heuristic: whenever one of the two scaled densities is positive the two weights exist, lie in
`[0,1]` and add up to one; scaling both densities by the same positive factor changes nothing. -/
theorem C20_balance (nf ng : ℕ) (f g : K) (hf : 0 ≤ f) (hg : 0 ≤ g) (h : 0 < nf * f ∨ 0 < ng * g) :
    ∃ a b : K, balance nf f ng g = some a ∧ balance ng g nf f = some b ∧ a + b = 1 ∧ 0 ≤ a ∧ a ≤ 1 ∧ 0 ≤ b ∧ b ≤ 1 ∧
      ∀ s : K, 0 < s → balance nf (s * f) ng (s * g) = some a := by
  have hF : (0 : K) ≤ nf * f := mul_nonneg (Nat.cast_nonneg _) hf
  have hG : (0 : K) ≤ ng * g := mul_nonneg (Nat.cast_nonneg _) hg
  have hs : 0 < (nf : K) * f + ng * g := by rcases h with h | h <;> linarith
  have hs' : 0 < (ng : K) * g + nf * f := by linarith
  refine ⟨_, _, if_neg hs.ne', if_neg hs'.ne', ?_, div_nonneg hF hs.le, (div_le_one hs).2 (by linarith), div_nonneg hG hs'.le,
    (div_le_one hs').2 (by linarith), ?_⟩
  · rw [add_comm (ng * g : K), ← add_div, div_self hs.ne']
  · intro s hp
    have e : (nf : K) * (s * f) + ng * (s * g) = s * (nf * f + ng * g) := by ring
    rw [balance, qdiv, e, if_neg (mul_pos hp hs).ne', show (nf : K) * (s * f) = s * (nf * f) by ring, mul_div_mul_left _ _ hp.ne']

/-- **C20** power heuristic, the same; in addition the larger scaled density gets at least its balance weight. -/
theorem C20_power (nf ng : ℕ) (f g : K) (hf : 0 ≤ f) (hg : 0 ≤ g) (h : 0 < nf * f ∨ 0 < ng * g) :
    ∃ a b : K, power nf f ng g = some a ∧ power ng g nf f = some b ∧ a + b = 1 ∧ 0 ≤ a ∧ a ≤ 1 ∧ 0 ≤ b ∧ b ≤ 1 ∧
      (∀ s : K, 0 < s → power nf (s * f) ng (s * g) = some a) ∧
      (ng * g ≤ nf * f → ∀ c : K, balance nf f ng g = some c → c ≤ a) := by
  have hF : (0 : K) ≤ nf * f := mul_nonneg (Nat.cast_nonneg _) hf
  have hG : (0 : K) ≤ ng * g := mul_nonneg (Nat.cast_nonneg _) hg
  have hs1 : 0 < (nf : K) * f + ng * g := by rcases h with h | h <;> linarith
  generalize hFe : (nf : K) * f = F at *
  generalize hGe : (ng : K) * g = G at *
  have hs : 0 < F * F + G * G := by
    rcases h with h | h
    · nlinarith [mul_pos h h, mul_self_nonneg G]
    · nlinarith [mul_pos h h, mul_self_nonneg F]
  have hs' : 0 < G * G + F * F := by linarith
  have e1 : power nf f ng g = some (F * F / (F * F + G * G)) := by
    simp only [power, hFe, hGe, qdiv, if_neg hs.ne']
  have e2 : power ng g nf f = some (G * G / (G * G + F * F)) := by
    simp only [power, hFe, hGe, qdiv, if_neg hs'.ne']
  refine ⟨_, _, e1, e2, ?_, div_nonneg (mul_self_nonneg _) hs.le, (div_le_one hs).2 (by nlinarith [mul_self_nonneg G]),
    div_nonneg (mul_self_nonneg _) hs'.le, (div_le_one hs').2 (by nlinarith [mul_self_nonneg F]), ?_, ?_⟩
  · rw [add_comm (G * G), ← add_div, div_self hs.ne']
  · intro s hp
    have a1 : (nf : K) * (s * f) = s * F := by rw [← hFe]; ring
    have a2 : (ng : K) * (s * g) = s * G := by rw [← hGe]; ring
    have e : s * F * (s * F) + s * G * (s * G) = (s * s) * (F * F + G * G) := by ring
    simp only [power, qdiv, a1, a2]
    rw [e, if_neg (mul_pos (mul_pos hp hp) hs).ne', show s * F * (s * F) = (s * s) * (F * F) by ring, mul_div_mul_left _ _ (mul_pos hp hp).ne']
  · intro hle c hc
    rw [balance, hFe, hGe, qdiv, if_neg hs1.ne', Option.some.injEq] at hc
    rw [← hc, div_le_div_iff₀ hs1 hs]
    nlinarith [mul_nonneg (mul_nonneg hF hG) (sub_nonneg.2 hle)]

/-- **C20** with both scaled densities zero there is no weight (0/0). -/
theorem C20_no_density (nf ng : ℕ) : balance nf (0 : K) ng 0 = none ∧ power nf (0 : K) ng 0 = none := by
  simp [balance, power, qdiv]

example : balance 1 (3 : ℚ) 2 (1 : ℚ) = some (3 / 5) ∧ power 1 (3 : ℚ) 2 (1 : ℚ) = some (9 / 13) := by
  constructor <;> decide +kernel

/-! ## C21 rejection sampling -/

/-- **C21** `rejection_sample_disk` returns, for every stream of draws, exactly the first pair of the stream that
lies in the closed unit disk, if there is one. -/
theorem C21_rejection (d : ℕ → K) (p : K × K) :
    RejRun d 0 p ↔ ∃ n, p = (1 - 2 * d (2 * n), 1 - 2 * d (2 * n + 1)) ∧ p.1 ^ 2 + p.2 ^ 2 ≤ 1 ∧
      ∀ m < n, 1 < (1 - 2 * d (2 * m)) ^ 2 + (1 - 2 * d (2 * m + 1)) ^ 2 := by
  have gen : ∀ k, RejRun d k p ↔ ∃ n, k ≤ n ∧ p = rejPair d n ∧ p.1 ^ 2 + p.2 ^ 2 ≤ 1 ∧
      ∀ m, k ≤ m → m < n → 1 < (rejPair d m).1 ^ 2 + (rejPair d m).2 ^ 2 := by
    intro k
    constructor
    · intro h
      induction h with
      | stop n h =>
        refine ⟨n, le_rfl, rfl, ?_, fun m h1 h2 => absurd h2 (by omega)⟩
        have := not_lt.1 h; rw [sq, sq]; exact this
      | loop n p h r ih =>
        obtain ⟨j, h1, h2, h3, h4⟩ := ih
        refine ⟨j, by omega, h2, h3, fun m a b => ?_⟩
        rcases Nat.eq_or_lt_of_le a with rfl | a
        · rw [sq, sq]; exact h
        · exact h4 m a b
    · rintro ⟨n, h1, rfl, h3, h4⟩
      obtain ⟨j, rfl⟩ := Nat.exists_eq_add_of_le h1
      clear h1
      induction j generalizing k with
      | zero =>
        apply RejRun.stop
        rw [sq, sq] at h3; exact not_lt.2 h3
      | succ j ih =>
        apply RejRun.loop
        · have := h4 k le_rfl (by omega); rw [sq, sq] at this; exact this
        · have := ih (k + 1) (by rw [show k + 1 + j = k + (j + 1) by omega]; exact h3)
            (fun m a b => h4 m (by omega) (by omega))
          rw [show k + 1 + j = k + (j + 1) by omega] at this
          exact this
  rw [gen 0]
  constructor
  · rintro ⟨n, -, h2, h3, h4⟩; exact ⟨n, h2, h3, fun m hm => h4 m (Nat.zero_le _) hm⟩
  · rintro ⟨n, h2, h3, h4⟩; exact ⟨n, Nat.zero_le _, h2, h3, fun m _ hm => h4 m hm⟩

end

/-! ## C21 samplers stay on their domain -/

theorem length_one_of (v : V3 ℝ) (h : v.x ^ 2 + v.y ^ 2 + v.z ^ 2 = 1) : length v = 1 := by
  have : sqLength v = 1 := by simp only [sqLength]; linarith
  simp [length, this]

/-- **C21** `uniform_sample_hemisphere`: a unit vector with `z ≥ 0`. -/
theorem C21_hemisphere (u1 u2 : ℝ) (h0 : 0 ≤ u1) (h1 : u1 ≤ 1) : length (hemisphere u1 u2) = 1 ∧ 0 ≤ (hemisphere u1 u2).z := by
  refine ⟨length_one_of _ ?_, h0⟩
  simp only [hemisphere]
  have : 0 ≤ 1 - u1 * u1 := by nlinarith
  rw [max_eq_right this]
  have hs := Real.sq_sqrt this
  have hc := Real.sin_sq_add_cos_sq (2 * π * u2)
  linear_combination (√(1 - u1 * u1)) ^ 2 * hc + hs

/-- **C21** `uniform_sample_sphere`: a unit vector. -/
theorem C21_sphere (u1 u2 : ℝ) (h0 : 0 ≤ u1) (h1 : u1 ≤ 1) : length (sphere u1 u2) = 1 := by
  apply length_one_of
  simp only [sphere]
  have : 0 ≤ 1 - (1 - 2 * u1) * (1 - 2 * u1) := by nlinarith
  rw [max_eq_right this]
  have hs := Real.sq_sqrt this
  have hc := Real.sin_sq_add_cos_sq (2 * π * u2)
  linear_combination (√(1 - (1 - 2 * u1) * (1 - 2 * u1))) ^ 2 * hc + hs

/-- **C21** `cosine_sample_hemisphere`: a unit vector with `z ≥ 0`. -/
theorem C21_cosine_hemisphere (u1 u2 : ℝ) (h0 : 0 ≤ u1) (h1 : u1 ≤ 1) :
    length (cosineHemisphere u1 u2) = 1 ∧ 0 ≤ (cosineHemisphere u1 u2).z := by
  refine ⟨length_one_of _ ?_, Real.sqrt_nonneg _⟩
  have h := C21_sphere u1 u2 h0 h1
  have h2 : sqLength (sphere u1 u2) = 1 := by
    have := Real.sq_sqrt (sqLength_nonneg (sphere u1 u2))
    rw [show √(sqLength (sphere u1 u2)) = 1 from h] at this; linarith
  simp only [cosineHemisphere]
  generalize sphere u1 u2 = v at *
  simp only [sqLength] at h2
  have : 0 ≤ 1 - v.x * v.x - v.y * v.y := by nlinarith [mul_self_nonneg v.z]
  rw [max_eq_right this, Real.sq_sqrt this]; ring

/-- **C21** `uniform_sample_disk`: the squared distance from the centre is `u1`, so the point is in the closed unit disk. -/
theorem C21_disk (u1 u2 : ℝ) (h0 : 0 ≤ u1) (h1 : u1 ≤ 1) :
    (disk u1 u2).1 ^ 2 + (disk u1 u2).2 ^ 2 = u1 ∧ (disk u1 u2).1 ^ 2 + (disk u1 u2).2 ^ 2 ≤ 1 := by
  have : (disk u1 u2).1 ^ 2 + (disk u1 u2).2 ^ 2 = u1 := by
    simp only [disk]
    have hs := Real.sq_sqrt h0
    have hc := Real.sin_sq_add_cos_sq (2 * π * u2)
    linear_combination (√u1) ^ 2 * hc + hs
  exact ⟨this, by rw [this]; exact h1⟩

/-- **C21** `uniform_sample_triangle`: barycentric coordinates of a point of the triangle. -/
theorem C21_triangle (u1 u2 : ℝ) (h1 : u1 ≤ 1) (h2 : 0 ≤ u2) (h3 : u2 ≤ 1) :
    0 ≤ (triangle u1 u2).1 ∧ 0 ≤ (triangle u1 u2).2 ∧ (triangle u1 u2).1 + (triangle u1 u2).2 ≤ 1 := by
  have hs := Real.sqrt_nonneg u1
  have hs1 : √u1 ≤ 1 := by rw [← Real.sqrt_one]; exact Real.sqrt_le_sqrt h1
  simp only [triangle]
  refine ⟨by linarith, by positivity, by nlinarith⟩

/-- the polar coordinates chosen by `concentric_sample_disk` -/
theorem concentricPolar_spec (u1 u2 : ℝ) : ∃ r θ : ℝ, concentricPolar u1 u2 = some (r, θ) ∧
    r = max |2 * u1 - 1| |2 * u2 - 1| ∧ 0 ≤ θ ∧ θ ≤ 2 * π := by
  generalize hx : 2 * u1 - 1 = sx
  generalize hy : 2 * u2 - 1 = sy
  have hpi := Real.pi_pos
  simp only [concentricPolar, hx, hy]
  by_cases hc : sx = 0 ∧ sy = 0
  · rw [if_pos hc]; exact ⟨0, 0, rfl, by simp [hc.1, hc.2], le_rfl, by positivity⟩
  rw [if_neg hc]
  have ang : ∀ q : ℝ, 0 ≤ q → q ≤ 8 → 0 ≤ q * (π / 4) ∧ q * (π / 4) ≤ 2 * π := by
    intro q a b; exact ⟨by positivity, by nlinarith⟩
  by_cases h1 : sx > -sy
  · rw [if_pos h1]
    by_cases h2 : sx > sy
    · have hp : 0 < sx := by linarith
      rw [if_pos h2, qdiv, if_neg hp.ne']
      have q1 : sy / sx < 1 := by rw [div_lt_one hp]; exact h2
      have q2 : -1 < sy / sx := by rw [lt_div_iff₀ hp]; linarith
      refine ⟨_, _, rfl, ?_, ?_⟩
      · rw [abs_of_pos hp, max_eq_left]; rw [abs_le]; constructor <;> linarith
      · simp only
        by_cases h3 : sy ≤ 0
        · rw [if_pos h3]
          have := div_nonpos_of_nonpos_of_nonneg h3 hp.le
          exact ang _ (by linarith) (by linarith)
        · rw [if_neg h3]
          have := div_nonneg (not_le.1 h3).le hp.le
          exact ang _ this (by linarith)
    · have hp : 0 < sy := by linarith
      rw [if_neg h2, qdiv, if_neg hp.ne']
      have q1 : sx / sy ≤ 1 := by rw [div_le_one hp]; exact not_lt.1 h2
      have q2 : -1 < sx / sy := by rw [lt_div_iff₀ hp]; linarith
      refine ⟨_, _, rfl, ?_, ?_⟩
      · rw [abs_of_pos hp, max_eq_right]; rw [abs_le]; constructor <;> linarith
      · exact ang _ (by linarith) (by linarith)
  · rw [if_neg h1]
    have h1' := not_lt.1 h1
    by_cases h2 : sx > sy
    · have hp : sy < 0 := by linarith
      rw [if_pos h2, qdiv, if_neg hp.ne]
      have q1 : sx / sy < 1 := by rw [div_lt_one_of_neg hp]; exact h2
      have q2 : -1 ≤ sx / sy := by rw [le_div_iff_of_neg hp]; linarith
      refine ⟨_, _, rfl, ?_, ?_⟩
      · rw [abs_of_neg hp, max_eq_right]; rw [abs_le]; constructor <;> linarith
      · exact ang _ (by linarith) (by linarith)
    · have h2' := not_lt.1 h2
      have hp : sx < 0 := by
        rcases lt_or_eq_of_le (show sx ≤ 0 by linarith) with h | h
        · exact h
        · exact absurd ⟨h, by linarith⟩ hc
      rw [if_neg h2, qdiv, if_neg hp.ne]
      have q1 : sy / sx ≤ 1 := by rw [div_le_one_of_neg hp]; exact h2'
      have q2 : -1 ≤ sy / sx := by rw [le_div_iff_of_neg hp]; linarith
      refine ⟨_, _, rfl, ?_, ?_⟩
      · rw [abs_of_neg hp, max_eq_left]; rw [abs_le]; constructor <;> linarith
      · exact ang _ (by linarith) (by linarith)

/-- **C21** `concentric_sample_disk` never divides by zero; the distance of the point from the centre is the larger of
`|2 u1 - 1|` and `|2 u2 - 1|`, so the point is in the closed unit disk. -/
theorem C21_concentric (u1 u2 : ℝ) (h0 : 0 ≤ u1) (h1 : u1 ≤ 1) (h2 : 0 ≤ u2) (h3 : u2 ≤ 1) :
    ∃ x y : ℝ, concentric u1 u2 = some (x, y) ∧ x ^ 2 + y ^ 2 = (max |2 * u1 - 1| |2 * u2 - 1|) ^ 2 ∧ x ^ 2 + y ^ 2 ≤ 1 := by
  obtain ⟨r, θ, e, hr, -, -⟩ := concentricPolar_spec u1 u2
  have hn : (r * cos θ) ^ 2 + (r * sin θ) ^ 2 = r ^ 2 := by
    have hc := Real.sin_sq_add_cos_sq θ
    linear_combination r ^ 2 * hc
  refine ⟨r * cos θ, r * sin θ, by rw [concentric, e]; rfl, by rw [hn, hr], ?_⟩
  rw [hn]
  have hr1 : r ≤ 1 := by
    rw [hr]; apply max_le <;> rw [abs_le] <;> constructor <;> linarith
  have hr0 : 0 ≤ r := by rw [hr]; exact le_max_of_le_left (abs_nonneg _)
  nlinarith

/-! ## Solid angle -/

/-- mass, over the directions whose polar angle is between `t0` and `t1`, of a density (per solid angle) that depends on
the cosine of the polar angle only: the integral over `φ` and `θ` with `dω = sin θ dθ dφ`. -/
noncomputable def capMass (f : ℝ → ℝ) (t0 t1 : ℝ) : ℝ := ∫ _φ in (0 : ℝ)..(2 * π), ∫ θ in t0..t1, f (cos θ) * sin θ

/-- `capMass` in terms of the cosine, by an antiderivative of the density. -/
theorem capMass_eq (f F : ℝ → ℝ) (t0 t1 : ℝ) (hF : ∀ θ ∈ Set.uIcc t0 t1, HasDerivAt F (f (cos θ)) (cos θ))
    (hc : ContinuousOn (fun θ => f (cos θ)) (Set.uIcc t0 t1)) :
    capMass f t0 t1 = 2 * π * (F (cos t0) - F (cos t1)) := by
  have h1 : ∫ θ in t0..t1, f (cos θ) * sin θ = F (cos t0) - F (cos t1) := by
    have hd : ∀ θ ∈ Set.uIcc t0 t1, HasDerivAt (fun θ => - F (cos θ)) (f (cos θ) * sin θ) θ := by
      intro θ hθ
      have := ((hF θ hθ).comp θ (Real.hasDerivAt_cos θ)).neg
      rw [show f (cos θ) * sin θ = -(f (cos θ) * -sin θ) by ring]; exact this
    rw [intervalIntegral.integral_eq_sub_of_hasDerivAt hd]
    · ring
    · apply ContinuousOn.intervalIntegrable
      exact hc.mul Real.continuous_sin.continuousOn
  rw [capMass, h1, intervalIntegral.integral_const]
  simp

theorem capMass_const (p t0 t1 : ℝ) : capMass (fun _ => p) t0 t1 = 2 * π * (p * cos t0 - p * cos t1) := by
  apply capMass_eq (fun _ => p) (fun c => p * c)
  · intro θ _
    simpa using (hasDerivAt_id (cos θ)).const_mul p
  · exact continuousOn_const

/-- **C21** the densities are positive and normalise: the hemisphere density over the upper hemisphere, the sphere density
over the sphere, the cosine density over the upper hemisphere (where it is non-negative), the cone density over the cone. -/
theorem C21_pdfs : 0 < hemispherePdf ∧ capMass (fun _ => hemispherePdf) 0 (π / 2) = 1 ∧
    0 < spherePdf ∧ capMass (fun _ => spherePdf) 0 π = 1 ∧
    (∀ c, 0 < c → 0 < cosineHemispherePdf c 0) ∧ capMass (fun c => cosineHemispherePdf c 0) 0 (π / 2) = 1 ∧
    (∀ c, -1 ≤ c → c < 1 → 0 < conePdf c ∧ capMass (fun _ => conePdf c) 0 (arccos c) = 1) := by
  have hpi := Real.pi_pos
  refine ⟨by unfold hemispherePdf inv2Pi; positivity, ?_, by unfold spherePdf; positivity, ?_, ?_, ?_, ?_⟩
  · rw [capMass_const, Real.cos_zero, Real.cos_pi_div_two, hemispherePdf, inv2Pi]; field_simp; ring
  · rw [capMass_const, Real.cos_zero, Real.cos_pi, spherePdf]; field_simp; ring
  · intro c hc; unfold cosineHemispherePdf invPi; positivity
  · rw [capMass_eq _ (fun c => c ^ 2 / 2 * invPi)]
    · rw [Real.cos_zero, Real.cos_pi_div_two, invPi]; field_simp; norm_num
    · intro θ _
      have := ((hasDerivAt_pow 2 (cos θ)).div_const 2).mul_const invPi
      have e : cosineHemispherePdf (cos θ) 0 = (2 : ℕ) * cos θ ^ (2 - 1) / 2 * invPi := by simp [cosineHemispherePdf]
      rw [e]; exact this
    · unfold cosineHemispherePdf
      exact (Real.continuous_cos.mul continuous_const).continuousOn
  · intro c h0 h1
    have : 0 < 1 - c := by linarith
    refine ⟨by unfold conePdf; positivity, ?_⟩
    rw [capMass_const, Real.cos_zero, Real.cos_arccos h0 h1.le, conePdf]
    field_simp

/-! ## C66 samplers follow the densities they report -/

/-- **C66** points of `uniform_sample_disk` within distance `ρ` of the centre are those with `u1 ≤ ρ²`, the area fraction. -/
theorem C66_disk (u1 u2 ρ : ℝ) (h0 : 0 ≤ u1) (hρ : 0 ≤ ρ) : √((disk u1 u2).1 ^ 2 + (disk u1 u2).2 ^ 2) ≤ ρ ↔ u1 ≤ π * ρ ^ 2 / π := by
  have : (disk u1 u2).1 ^ 2 + (disk u1 u2).2 ^ 2 = u1 := by
    simp only [disk]
    have hs := Real.sq_sqrt h0
    have hc := Real.sin_sq_add_cos_sq (2 * π * u2)
    linear_combination (√u1) ^ 2 * hc + hs
  rw [this, Real.sqrt_le_left hρ, mul_div_cancel_left₀ _ Real.pi_ne_zero]

/-- **C66** points of `concentric_sample_disk` within distance `ρ` of the centre are those from the centred square whose
area fraction is `ρ²`. -/
theorem C66_concentric (u1 u2 ρ x y : ℝ) (hρ : 0 ≤ ρ) (h : concentric u1 u2 = some (x, y)) :
    √(x ^ 2 + y ^ 2) ≤ ρ ↔ (1 / 2 - ρ / 2 ≤ u1 ∧ u1 ≤ 1 / 2 + ρ / 2) ∧ (1 / 2 - ρ / 2 ≤ u2 ∧ u2 ≤ 1 / 2 + ρ / 2) := by
  obtain ⟨r, θ, e, hr, -, -⟩ := concentricPolar_spec u1 u2
  rw [concentric, e] at h
  simp only [Option.map_some, Option.some.injEq, Prod.mk.injEq] at h
  have hn : x ^ 2 + y ^ 2 = r ^ 2 := by
    rw [← h.1, ← h.2]
    have hc := Real.sin_sq_add_cos_sq θ
    linear_combination r ^ 2 * hc
  have hr0 : 0 ≤ r := by rw [hr]; exact le_max_of_le_left (abs_nonneg _)
  rw [hn, Real.sqrt_sq hr0, hr, max_le_iff, abs_le, abs_le]
  constructor
  · rintro ⟨⟨a, b⟩, c, d⟩; refine ⟨⟨?_, ?_⟩, ?_, ?_⟩ <;> linarith
  · rintro ⟨⟨a, b⟩, c, d⟩; refine ⟨⟨?_, ?_⟩, ?_, ?_⟩ <;> linarith

theorem cosineHemisphere_z (u1 u2 : ℝ) (h0 : 0 ≤ u1) (h1 : u1 ≤ 1) : (cosineHemisphere u1 u2).z = |1 - 2 * u1| := by
  simp only [cosineHemisphere, sphere]
  have : 0 ≤ 1 - (1 - 2 * u1) * (1 - 2 * u1) := by nlinarith
  rw [max_eq_right this]
  have hs := Real.sq_sqrt this
  have hc := Real.sin_sq_add_cos_sq (2 * π * u2)
  generalize √(1 - (1 - 2 * u1) * (1 - 2 * u1)) = r at *
  have e : 1 - r * cos (2 * π * u2) * (r * cos (2 * π * u2)) - r * sin (2 * π * u2) * (r * sin (2 * π * u2)) = (1 - 2 * u1) ^ 2 := by
    linear_combination -r ^ 2 * hc - hs
  rw [e, max_eq_right (sq_nonneg _), Real.sqrt_sq_eq_abs]

/-- a sampler of directions follows a density over the polar angles up to `tmax`: for every smaller polar angle, the
canonical samples `u1` in `[0,1]` that give a direction within it have Lebesgue measure equal to the density's mass there. -/
def Follows (smp : ℝ → ℝ → V3 ℝ) (pdf : ℝ → ℝ) (tmax : ℝ) : Prop :=
  ∀ u2 t, 0 ≤ t → t ≤ tmax →
    MeasureTheory.volume {u1 : ℝ | 0 ≤ u1 ∧ u1 ≤ 1 ∧ cos t ≤ (smp u1 u2).z} = ENNReal.ofReal (capMass pdf 0 t)

/-- **C66** `uniform_sample_hemisphere` follows `uniform_hemisphere_pdf`. -/
theorem C66_hemisphere_follows : Follows hemisphere (fun _ => hemispherePdf) (π / 2) := by
  intro u2 t h0 h1
  have hpi := Real.pi_pos
  have hc : 0 ≤ cos t := Real.cos_nonneg_of_neg_pi_div_two_le_of_le (by linarith) h1
  have : {u1 : ℝ | 0 ≤ u1 ∧ u1 ≤ 1 ∧ cos t ≤ (hemisphere u1 u2).z} = Set.Icc (cos t) 1 := by
    ext u; simp only [hemisphere, Set.mem_ofPred_eq, Set.mem_Icc]
    exact ⟨fun h => ⟨h.2.2, h.2.1⟩, fun h => ⟨hc.trans h.1, h.2, h.1⟩⟩
  rw [this, Real.volume_Icc, capMass_const, Real.cos_zero, hemispherePdf, inv2Pi]
  congr 1; field_simp

/-- **C66** `uniform_sample_sphere` follows `uniform_sphere_pdf`. -/
theorem C66_sphere_follows : Follows sphere (fun _ => spherePdf) π := by
  intro u2 t h0 h1
  have hpi := Real.pi_pos
  have hc := Real.neg_one_le_cos t
  have : {u1 : ℝ | 0 ≤ u1 ∧ u1 ≤ 1 ∧ cos t ≤ (sphere u1 u2).z} = Set.Icc 0 ((1 - cos t) / 2) := by
    ext u; simp only [sphere, Set.mem_ofPred_eq, Set.mem_Icc]
    exact ⟨fun h => ⟨h.1, by linarith⟩, fun h => ⟨h.1, by linarith, by linarith⟩⟩
  rw [this, Real.volume_Icc, capMass_const, Real.cos_zero, spherePdf]
  congr 1; field_simp; ring

/-- **C66 is false of the code** for the cosine-weighted sampler: it projects points of the uniform sphere instead of
points of the disk.  Within 60° of the pole `cosine_hemisphere_pdf` has mass 3/4, but only half of the samples fall there. -/
theorem C66_cosine_false : ¬ Follows cosineHemisphere (fun c => cosineHemispherePdf c 0) (π / 2) := by
  intro h
  have hpi := Real.pi_pos
  have h3 := h 0 (π / 3) (by positivity) (by linarith)
  have hm : capMass (fun c => cosineHemispherePdf c 0) 0 (π / 3) = 3 / 4 := by
    rw [capMass_eq _ (fun c => c ^ 2 / 2 * invPi)]
    · rw [Real.cos_zero, Real.cos_pi_div_three, invPi]; field_simp; norm_num
    · intro θ _
      have := ((hasDerivAt_pow 2 (cos θ)).div_const 2).mul_const invPi
      have e : cosineHemispherePdf (cos θ) 0 = (2 : ℕ) * cos θ ^ (2 - 1) / 2 * invPi := by simp [cosineHemispherePdf]
      rw [e]; exact this
    · unfold cosineHemispherePdf
      exact (Real.continuous_cos.mul continuous_const).continuousOn
  have hset : {u1 : ℝ | 0 ≤ u1 ∧ u1 ≤ 1 ∧ cos (π / 3) ≤ (cosineHemisphere u1 0).z} = Set.Icc 0 (1 / 4) ∪ Set.Icc (3 / 4) 1 := by
    ext u
    simp only [Set.mem_ofPred_eq, Set.mem_union, Set.mem_Icc, Real.cos_pi_div_three]
    constructor
    · rintro ⟨a, b, c⟩
      rw [cosineHemisphere_z u 0 a b, le_abs] at c
      rcases c with c | c
      · left; constructor <;> linarith
      · right; constructor <;> linarith
    · rintro (⟨a, b⟩ | ⟨a, b⟩)
      · refine ⟨a, by linarith, ?_⟩
        rw [cosineHemisphere_z u 0 a (by linarith), le_abs]; left; linarith
      · refine ⟨by linarith, b, ?_⟩
        rw [cosineHemisphere_z u 0 (by linarith) b, le_abs]; right; linarith
  rw [hset, hm, MeasureTheory.measure_union _ measurableSet_Icc, Real.volume_Icc, Real.volume_Icc, ← ENNReal.ofReal_add (by norm_num) (by norm_num),
    ENNReal.ofReal_eq_ofReal_iff (by norm_num) (by norm_num)] at h3
  · norm_num at h3
  · rw [Set.disjoint_left]; rintro u ⟨-, a⟩ ⟨b, -⟩; linarith

/-! ## C67 cones and Henyey-Greenstein sampling -/

theorem dot_self_of_length {v : V3 ℝ} (h : length v = 1) : dot v v = 1 := by
  rw [← (C06_length_is_norm v 0).2.2.1, h]; norm_num

/-- **C67** `uniform_sample_cone` with an orthonormal frame gives a unit direction whose cosine to the axis is between
`ct_max` and 1, and the directions are distributed as `uniform_cone_pdf` says. -/
theorem C67_cone (u1 u2 cm : ℝ) (h0 : 0 ≤ u1) (h1 : u1 ≤ 1) (hc0 : -1 ≤ cm) (hc1 : cm < 1) (x y z : V3 ℝ) (hf : Orthonormal3 x y z) :
    ∃ d, cone u1 u2 cm (some (x, y, z)) = some d ∧ length d = 1 ∧ cm ≤ dot d z ∧ dot d z ≤ 1 ∧
      ∀ c, cm ≤ c → c ≤ 1 → (dot d z ≤ c ↔ u1 ≤ capMass (fun _ => conePdf cm) (arccos c) (arccos cm)) := by
  have hpi := Real.pi_pos
  have hd : dot ((cos (u2 * 2 * π) * √(1 - ((1 - u1) * cm + u1 * 1) * ((1 - u1) * cm + u1 * 1))) * x +
      (sin (u2 * 2 * π) * √(1 - ((1 - u1) * cm + u1 * 1) * ((1 - u1) * cm + u1 * 1))) * y + ((1 - u1) * cm + u1 * 1) * z) z =
      (1 - u1) * cm + u1 := by
    obtain ⟨-, -, a3, -, a5, a6⟩ := hf
    have hz := dot_self_of_length a3
    generalize √(1 - ((1 - u1) * cm + u1 * 1) * ((1 - u1) * cm + u1 * 1)) = s
    simp only [dot] at *
    simp only [add_x, add_y, add_z, smul_x, smul_y, smul_z]
    linear_combination cos (u2 * 2 * π) * s * a5 + sin (u2 * 2 * π) * s * a6 + ((1 - u1) * cm + u1) * hz
  have hct1 : (1 - u1) * cm + u1 ≤ 1 := by nlinarith
  have hct0 : cm ≤ (1 - u1) * cm + u1 := by nlinarith
  refine ⟨_, rfl, ?_, ?_, ?_, ?_⟩
  · have hnn : 0 ≤ 1 - ((1 - u1) * cm + u1 * 1) * ((1 - u1) * cm + u1 * 1) := by nlinarith
    have hs := Real.sq_sqrt hnn
    have := (C60_spherical_direction_unit (√(1 - ((1 - u1) * cm + u1 * 1) * ((1 - u1) * cm + u1 * 1))) ((1 - u1) * cm + u1 * 1)
      (u2 * 2 * π) (by linarith) x y z hf).2
    rw [sphericalDirectionBasis] at this
    simp only [mul_comm (cos (u2 * 2 * π)), mul_comm (sin (u2 * 2 * π))]
    exact this
  · rw [hd]; exact hct0
  · rw [hd]; exact hct1
  · intro c h2 h3
    rw [hd, capMass_const, Real.cos_arccos (by linarith) h3, Real.cos_arccos hc0 hc1.le, conePdf]
    have hp : 0 < 1 - cm := by linarith
    have : 2 * π * (1 / (2 * π * (1 - cm)) * c - 1 / (2 * π * (1 - cm)) * cm) = (c - cm) / (1 - cm) := by field_simp
    rw [this, le_div_iff₀ hp]
    constructor <;> intro h <;> linarith

/-- **C67 is false of the code** when no frame is given: no direction is returned. -/
theorem C67_cone_no_frame_false : ¬ ∀ u1 u2 cm : ℝ, 0 ≤ u1 → u1 ≤ 1 → -1 ≤ cm → cm < 1 → ∃ d, cone u1 u2 cm none = some d ∧ length d = 1 := by
  intro h
  obtain ⟨d, e, -⟩ := h 0 0 0 le_rfl zero_le_one (by norm_num) one_pos
  simp [cone] at e

end Verif.MC
