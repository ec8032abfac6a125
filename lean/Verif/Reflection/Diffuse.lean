import Verif.Reflection.Fresnel
import Verif.MC.Props
import Mathlib.Analysis.SpecialFunctions.Trigonometric.Bounds

/-!
# Diffuse reflection: the `BDF` base class, `Lambertian`, `OrenNayar` and the two adapters
(`pytracer/reflection/bdf/bdf.py:73-226, 310-338`, `pytracer/reflection/bdf/orennayar.py`)

Real arithmetic; a spectrum is represented by one of its samples.
-/

namespace Verif.Refl
open Verif V3 Verif.Geom Verif.Bsdf Real

/-- `BDF.pdf`, the base class density (`bdf.py:97-106`). -/
noncomputable def basePdf (wo wi : V3 ℝ) : ℝ := if wo.z * wi.z > 0 then absCosTheta wi * MC.invPi else 0

/-- the direction drawn by `BDF.sample_f` (`bdf.py:121-124`). -/
noncomputable def baseDir (wo : V3 ℝ) (u1 u2 : ℝ) : V3 ℝ :=
  let wi := MC.cosineHemisphere u1 u2
  if wo.z < 0 then ⟨wi.x, wi.y, wi.z * -1⟩ else wi

/-- a `BDF` subclass that only defines `f`: everything else is the base class (`bdf.py:73-126`). -/
noncomputable def baseBdf (t : Flags) (f : V3 ℝ → V3 ℝ → ℝ) : Bdf ℝ where
  type := t
  f := f
  pdf := basePdf
  sample := fun wo u1 u2 => let wi := baseDir wo u1 u2; ⟨basePdf wo wi, some (wi, f wo wi)⟩

/-- `BDF.rho_hd` (`bdf.py:128-144`), for a component returning a direction for every sample (`none` otherwise, and
for an empty sample list, where the code divides by zero). -/
noncomputable def rhoHd (d : Bdf ℝ) (w : V3 ℝ) (samples : List (ℝ × ℝ)) : Option ℝ :=
  if samples = [] then none
  else
    (samples.foldl (fun (r : Option ℝ) s => r.bind (fun r =>
      let sm := d.sample w s.1 s.2
      if sm.pdf > 0 then sm.dv.map (fun p => r + p.2 * absCosTheta p.1 / sm.pdf) else some r)) (some 0)).map
      (fun r => r / samples.length)

/-- `Lambertian` (`bdf.py:310-338`). -/
noncomputable def lambertian (R : ℝ) : Bdf ℝ := baseBdf (REFLECTION ||| DIFFUSE) (fun _ _ => MC.invPi * R)

/-- `Lambertian.rho_hd` (`bdf.py:334-335`). -/
def lambertianRhoHd (R : ℝ) (_w : V3 ℝ) (_samples : List (ℝ × ℝ)) : ℝ := R

/-! ## C77: base class sampling -/

/-- The base class draws a unit direction on the side `wo` is on, reports the base density of that direction (positive
except for grazing directions) and the value of `f` there. -/
theorem C77_base (t : Flags) (f : V3 ℝ → V3 ℝ → ℝ) (wo : V3 ℝ) (hz : wo.z ≠ 0) (u1 u2 : ℝ) (h0 : 0 ≤ u1) (h1 : u1 ≤ 1) :
    ∃ wi, (baseBdf t f).sample wo u1 u2 = ⟨(baseBdf t f).pdf wo wi, some (wi, f wo wi)⟩ ∧ Geom.length wi = 1 ∧
      0 ≤ wi.z * wo.z ∧ |wi.z| = |1 - 2 * u1| ∧ (baseBdf t f).pdf wo wi = |dot wi up| / π := by
  have hc := MC.C21_cosine_hemisphere u1 u2 h0 h1
  have hzz := MC.cosineHemisphere_z u1 u2 h0 h1
  have hpi := Real.pi_pos
  refine ⟨baseDir wo u1 u2, rfl, ?_, ?_, ?_, ?_⟩
  · unfold baseDir
    simp only []
    split_ifs
    · have := hc.1
      unfold Geom.length sqLength at *
      refine Eq.trans ?_ this
      congr 1; ring
    · exact hc.1
  · unfold baseDir
    simp only []
    split_ifs with h
    · simp only []; nlinarith [hc.2]
    · exact mul_nonneg hc.2 (not_lt.mp h)
  · unfold baseDir
    simp only []
    split_ifs with h
    · simp only []; rw [hzz]; simp
    · rw [hzz]; simp
  · have hd : ∀ w : V3 ℝ, dot w up = w.z := by intro w; simp [dot, up]
    rw [hd]
    show basePdf wo (baseDir wo u1 u2) = _
    unfold basePdf absCosTheta MC.invPi
    split_ifs with h
    · rw [mul_one_div]
    · have hz0 : (baseDir wo u1 u2).z = 0 := by
        by_contra hne
        apply h
        have h' : 0 ≤ wo.z * (baseDir wo u1 u2).z := by
          unfold baseDir
          simp only []
          split_ifs with hlt
          · simp only []; nlinarith [hc.2]
          · exact mul_nonneg (not_lt.mp hlt) hc.2
        exact lt_of_le_of_ne h' (mul_ne_zero hz hne).symm
      rw [hz0]; simp

example : (⟨3/5, 0, -4/5⟩ : V3 ℝ).z ≠ 0 := by norm_num

/-- The base density has total mass one over the directions on `wo`'s side (polar angle measured from the pole on
that side), and none on the other. -/
theorem C77_density (wo : V3 ℝ) (hz : wo.z ≠ 0) :
    (∃ p : ℝ → ℝ, (∀ wi : V3 ℝ, 0 < wi.z * wo.z → basePdf wo wi = p (|wi.z|)) ∧ MC.capMass p 0 (π / 2) = 1) ∧
    (∀ wi : V3 ℝ, wi.z * wo.z ≤ 0 → basePdf wo wi = 0) := by
  refine ⟨⟨fun c => MC.cosineHemispherePdf c 0, fun wi h => ?_, MC.C21_pdfs.2.2.2.2.2.1⟩, fun wi h => ?_⟩
  · unfold basePdf absCosTheta MC.cosineHemispherePdf
    rw [if_pos (by linarith)]
  · unfold basePdf
    rw [if_neg (by linarith)]

theorem baseDir_pdf (wo : V3 ℝ) (hz : wo.z ≠ 0) (u1 u2 : ℝ) (h0 : 0 ≤ u1) (h1 : u1 ≤ 1) (hu : u1 ≠ 1 / 2) :
    0 < basePdf wo (baseDir wo u1 u2) ∧ absCosTheta (baseDir wo u1 u2) / basePdf wo (baseDir wo u1 u2) = π := by
  obtain ⟨wi, hs, _, _, hzz, hp⟩ := C77_base 0#32 (fun _ _ => 0) wo hz u1 u2 h0 h1
  have e : baseDir wo u1 u2 = wi := by
    have := congrArg Smp.dv hs
    simp only [baseBdf, Option.some.injEq, Prod.mk.injEq] at this
    exact this.1
  have hd : dot wi up = wi.z := by simp [dot, up]
  rw [hd] at hp
  have hp' : basePdf wo wi = |wi.z| / π := hp
  rw [e, hp']
  have hpos : 0 < |wi.z| := by
    rw [hzz]; apply abs_pos.mpr; intro h; apply hu; linarith
  have hpi := Real.pi_pos
  refine ⟨by positivity, ?_⟩
  unfold absCosTheta
  field_simp

/-- With the base class's sampling the reflectance estimate of a constant `f = c` is exactly `π c` for every
non-empty list of samples (none of them drawing a grazing direction). -/
theorem C77_rho (t : Flags) (c : ℝ) (wo : V3 ℝ) (hz : wo.z ≠ 0) (samples : List (ℝ × ℝ)) (hne : samples ≠ [])
    (hs : ∀ s ∈ samples, 0 ≤ s.1 ∧ s.1 ≤ 1 ∧ s.1 ≠ 1 / 2) :
    rhoHd (baseBdf t (fun _ _ => c)) wo samples = some (π * c) := by
  unfold rhoHd
  rw [if_neg hne]
  have key : ∀ (l : List (ℝ × ℝ)) (r : ℝ), (∀ s ∈ l, 0 ≤ s.1 ∧ s.1 ≤ 1 ∧ s.1 ≠ 1 / 2) →
      l.foldl (fun (r : Option ℝ) s => r.bind (fun r =>
        let sm := (baseBdf t (fun _ _ => c)).sample wo s.1 s.2
        if sm.pdf > 0 then sm.dv.map (fun p => r + p.2 * absCosTheta p.1 / sm.pdf) else some r)) (some r) = some (r + l.length * (π * c)) := by
    intro l
    induction l with
    | nil => intro r _; simp
    | cons s ds ih =>
      intro r h
      obtain ⟨a, b, d⟩ := h s (by simp)
      obtain ⟨hp, hq⟩ := baseDir_pdf wo hz s.1 s.2 a b d
      rw [List.foldl_cons]
      have : (some r : Option ℝ).bind (fun r =>
          let sm := (baseBdf t (fun _ _ => c)).sample wo s.1 s.2
          if sm.pdf > 0 then sm.dv.map (fun p => r + p.2 * absCosTheta p.1 / sm.pdf) else some r) = some (r + π * c) := by
        simp only [Option.bind_some]
        rw [if_pos (show ((baseBdf t (fun _ _ => c)).sample wo s.1 s.2).pdf > 0 from hp)]
        show some (r + c * absCosTheta (baseDir wo s.1 s.2) / basePdf wo (baseDir wo s.1 s.2)) = _
        rw [mul_div_assoc, hq, mul_comm c]
      rw [this, ih _ (fun s hs => h s (by simp [hs]))]
      congr 1
      simp only [List.length_cons]; push_cast; ring
  rw [key samples 0 hs]
  have hl : (samples.length : ℝ) ≠ 0 := by
    have := List.length_pos_iff.mpr hne
    positivity
  simp only [Option.map_some, zero_add]
  congr 1
  field_simp

example : ∀ s ∈ [((1/4 : ℝ), (1/4 : ℝ)), (3/4, 1/4)], 0 ≤ s.1 ∧ s.1 ≤ 1 ∧ s.1 ≠ 1 / 2 := by
  intro s hs
  simp only [List.mem_cons, List.not_mem_nil, or_false] at hs
  rcases hs with rfl | rfl <;> norm_num

/-! ## C78: Lambertian reflection -/

/-- energy reflected by a reflection function that depends on the incident polar cosine only -/
noncomputable def albedo (f : ℝ → ℝ) : ℝ := MC.capMass (fun c => f c * c) 0 (π / 2)

/-- Lambertian reflection is reciprocal, non-negative for a non-negative reflectance, reflects exactly the fraction
`R` of the light, which is also what `rho_hd` says and what the generic estimator gives for the base class's samples. -/
theorem C78_lambertian (R : ℝ) :
    (∀ wo wi, (lambertian R).f wo wi = (lambertian R).f wi wo) ∧ (0 ≤ R → ∀ wo wi, 0 ≤ (lambertian R).f wo wi) ∧
    (∃ g : ℝ → ℝ, (∀ wo wi : V3 ℝ, (lambertian R).f wo wi = g wi.z) ∧ albedo g = R) ∧
    (∀ w samples, lambertianRhoHd R w samples = R) ∧
    (∀ (wo : V3 ℝ) (samples : List (ℝ × ℝ)), wo.z ≠ 0 → samples ≠ [] → (∀ s ∈ samples, 0 ≤ s.1 ∧ s.1 ≤ 1 ∧ s.1 ≠ 1 / 2) →
      rhoHd (lambertian R) wo samples = some (lambertianRhoHd R wo samples)) := by
  have hpi := Real.pi_pos
  refine ⟨fun _ _ => rfl, fun h wo wi => ?_, ⟨fun _ => MC.invPi * R, fun _ _ => rfl, ?_⟩, fun _ _ => rfl, ?_⟩
  · show 0 ≤ MC.invPi * R
    unfold MC.invPi; positivity
  · unfold albedo
    rw [MC.capMass_eq _ (fun c => MC.invPi * R * (c ^ 2 / 2))]
    · rw [Real.cos_zero, Real.cos_pi_div_two, MC.invPi]; field_simp; norm_num
    · intro θ _
      have := ((hasDerivAt_pow 2 (cos θ)).div_const 2).const_mul (MC.invPi * R)
      refine this.congr_deriv ?_
      push_cast; ring
    · exact (by fun_prop : Continuous fun θ => MC.invPi * R * cos θ).continuousOn
  · intro wo samples hz hne hs
    have := C77_rho (REFLECTION ||| DIFFUSE) (MC.invPi * R) wo hz samples hne hs
    unfold lambertian lambertianRhoHd
    rw [this, MC.invPi]
    congr 1; field_simp

/-! ## C79: adapters -/

/-- `BRDF2BTDF.switch` (`bdf.py:186-188`) -/
def switch (w : V3 ℝ) : V3 ℝ := ⟨w.x, w.y, -w.z⟩

/-- `BRDF2BTDF` (`bdf.py:174-200`): `pdf` is not forwarded, so it is the base class's.  (`switch(None)` raises when the
wrapped component hands back nothing; the model keeps "nothing".) -/
noncomputable def brdf2btdf (b : Bdf ℝ) : Bdf ℝ where
  type := b.type ^^^ (REFLECTION ||| TRANSMISSION)
  f := fun wo wi => b.f wo (switch wi)
  pdf := basePdf
  sample := fun wo u1 u2 => let s := b.sample wo u1 u2; ⟨s.pdf, s.dv.map (fun p => (switch p.1, p.2))⟩

/-- `ScaledBDF` (`bdf.py:204-226`): every method reads `self.brdf`, but the constructor stores `self.bdf` (line 213), so
each of them raises `AttributeError` (`none`). -/
def scaledF (_b : Bdf ℝ) (_s : ℝ) (_wo _wi : V3 ℝ) : Option ℝ := none
/-- `ScaledBDF.sample_f` (`bdf.py:219-221`), likewise -/
def scaledSample (_b : Bdf ℝ) (_s : ℝ) (_wo : V3 ℝ) (_u1 _u2 : ℝ) : Option (Smp ℝ) := none

/-- What holds for the transmission adapter: it exchanges the reflection and transmission flags of a component having
exactly one of them and keeps the others, mirrors the incident direction to the other side of the surface, and reports the wrapped
component's density and value there.  Missing: the adapter's own `pdf` (next theorem). -/
theorem C79_transmission_adapter_partial (b : Bdf ℝ) :
    (reflects b.type → ¬ transmits b.type → transmits (brdf2btdf b).type ∧ ¬ reflects (brdf2btdf b).type) ∧
    (∀ i, 2 ≤ i → i < 32 → (brdf2btdf b).type.getLsbD i = b.type.getLsbD i) ∧
    (∀ wo wi, (brdf2btdf b).f wo ⟨wi.x, wi.y, -wi.z⟩ = b.f wo wi) ∧
    (∀ wo u1 u2 wi v, (b.sample wo u1 u2).dv = some (wi, v) →
      ((brdf2btdf b).sample wo u1 u2).dv = some (⟨wi.x, wi.y, -wi.z⟩, v) ∧ ((brdf2btdf b).sample wo u1 u2).pdf = (b.sample wo u1 u2).pdf) := by
  refine ⟨fun h1 h2 => ?_, fun i h2 hi => ?_, fun wo wi => ?_, fun wo u1 u2 wi v h => ?_⟩
  · have k0 : (REFLECTION ||| TRANSMISSION : Flags).getLsbD 0 = true := by decide
    have k1 : (REFLECTION ||| TRANSMISSION : Flags).getLsbD 1 = true := by decide
    unfold transmits reflects at *
    simp only [brdf2btdf, BitVec.getLsbD_xor, k0, k1, h1]
    simp at h2
    simp [h2]
  · have k : ∀ i < 32, 2 ≤ i → (REFLECTION ||| TRANSMISSION : Flags).getLsbD i = false := by decide
    simp only [brdf2btdf, BitVec.getLsbD_xor, k i hi h2, Bool.xor_false]
  · simp [brdf2btdf, switch]
  · simp [brdf2btdf, switch, h]

/-- The adapter's `pdf` is not the density its own `sample_f` reports: for a Lambertian it is zero at every direction
sampled. -/
theorem C79_adapter_pdf_false : ¬ ∀ (b : Bdf ℝ), (∀ wo u1 u2 wi v, (b.sample wo u1 u2).dv = some (wi, v) → (b.sample wo u1 u2).pdf = b.pdf wo wi) →
    ∀ wo u1 u2 wi v, ((brdf2btdf b).sample wo u1 u2).dv = some (wi, v) → ((brdf2btdf b).sample wo u1 u2).pdf = (brdf2btdf b).pdf wo wi := by
  intro H
  have h := H (lambertian 1) (by
    intro wo u1 u2 wi v h
    simp only [lambertian, baseBdf, Option.some.injEq, Prod.mk.injEq] at *
    rw [h.1]) ⟨0, 0, 1⟩ 0 0 (switch (baseDir ⟨0, 0, 1⟩ 0 0)) _ rfl
  have hp := baseDir_pdf ⟨0, 0, 1⟩ one_ne_zero 0 0 le_rfl zero_le_one (by norm_num)
  have h2 : basePdf ⟨0, 0, 1⟩ (baseDir ⟨0, 0, 1⟩ 0 0) = basePdf ⟨0, 0, 1⟩ (switch (baseDir ⟨0, 0, 1⟩ 0 0)) := h
  have h3 : basePdf ⟨0, 0, 1⟩ (switch (baseDir ⟨0, 0, 1⟩ 0 0)) = 0 := by
    unfold basePdf
    rw [if_neg]
    have : (0 : ℝ) ≤ (baseDir ⟨0, 0, 1⟩ 0 0).z := by
      unfold baseDir
      simp only []
      rw [if_neg (by norm_num)]
      exact (MC.C21_cosine_hemisphere 0 0 le_rfl zero_le_one).2
    simp only [switch]
    linarith
  rw [h3] at h2
  linarith [hp.1]

/-- The scaling adapter never returns: `f` scaled by the given amount is what its documentation promises. -/
theorem C79_scaled_false : ¬ ∀ (b : Bdf ℝ) (s : ℝ) (wo wi : V3 ℝ), scaledF b s wo wi = some (s * b.f wo wi) := by
  intro H
  have := H (lambertian 1) 1 0 0
  simp [scaledF] at this

/-! ## C80: Oren-Nayar -/

/-- `sin_theta` (`reflection/utility.py:31-32`) -/
noncomputable def sinTheta (w : V3 ℝ) : ℝ := √(max 0 (1 - w.z * w.z))
/-- `cos_phi` (`reflection/utility.py:35-37`) -/
noncomputable def cosPhi (w : V3 ℝ) : ℝ :=
  if max 0 (1 - w.z * w.z) = 0 then 1 else clip1 (w.x / √(max 0 (1 - w.z * w.z)))
/-- `sin_phi` (`reflection/utility.py:40-42`) -/
noncomputable def sinPhi (w : V3 ℝ) : ℝ :=
  if max 0 (1 - w.z * w.z) = 0 then 0 else clip1 (w.y / √(max 0 (1 - w.z * w.z)))

/-- `OrenNayar` (`orennayar.py:36-42`): reflectance and the two coefficients; `np.deg2rad` is `· π/180`. -/
structure ON where
  R : ℝ
  A : ℝ
  B : ℝ

/-- `OrenNayar.__init__` (`orennayar.py:36-42`) -/
noncomputable def ON.init (R sig : ℝ) : ON :=
  let sig := sig * (π / 180)
  let sq := sig * sig
  ⟨R, 1 - sq / (2 * (sq + 33 / 100)), 45 / 100 * sq / (sq + 9 / 100)⟩

open Classical in
/-- `OrenNayar.f` (`orennayar.py:44-62`); `none` is the division by zero for two grazing directions. -/
noncomputable def ON.f (o : ON) (wo wi : V3 ℝ) : Option ℝ :=
  let sti := sinTheta wi
  let sto := sinTheta wo
  let mc := if sti > MC.EPS ∧ sto > MC.EPS then max 0 (cosPhi wi * cosPhi wo + sinPhi wi * sinPhi wo) else 0
  if absCosTheta wi > absCosTheta wo then
    some (o.R * MC.invPi * (o.A + o.B * mc * sto * (sti / absCosTheta wi)))
  else if absCosTheta wo = 0 then none
  else some (o.R * MC.invPi * (o.A + o.B * mc * sti * (sto / absCosTheta wo)))

/-- The coefficients: `A` in `[1/2, 1]`, `B` in `[0, 9/20)`; a smooth surface gives `A = 1`, `B = 0`. -/
theorem C80_coefficients (R sig : ℝ) : 1 / 2 ≤ (ON.init R sig).A ∧ (ON.init R sig).A ≤ 1 ∧ 0 ≤ (ON.init R sig).B ∧
    (ON.init R sig).B < 45 / 100 ∧ (ON.init R 0).A = 1 ∧ (ON.init R 0).B = 0 := by
  simp only [ON.init, zero_mul, mul_zero, zero_div, sub_zero, and_true]
  have h : 0 ≤ sig * (π / 180) * (sig * (π / 180)) := mul_self_nonneg _
  generalize sig * (π / 180) * (sig * (π / 180)) = q at *
  have d1 : 0 < 2 * (q + 33 / 100) := by linarith
  have d2 : 0 < q + 9 / 100 := by linarith
  refine ⟨?_, ?_, by positivity, ?_⟩
  · have : q / (2 * (q + 33 / 100)) ≤ 1 / 2 := by rw [div_le_div_iff₀ d1 two_pos]; linarith
    linarith
  · have : 0 ≤ q / (2 * (q + 33 / 100)) := by positivity
    linarith
  · rw [div_lt_iff₀ d2]; linarith

/-- Reciprocal: exchanging the two directions changes nothing. -/
theorem C80_reciprocal (o : ON) (wo wi : V3 ℝ) : o.f wo wi = o.f wi wo := by
  unfold ON.f
  simp only []
  have e1 : (sinTheta wi > MC.EPS ∧ sinTheta wo > MC.EPS) ↔ (sinTheta wo > MC.EPS ∧ sinTheta wi > MC.EPS) := and_comm
  rw [show cosPhi wo * cosPhi wi + sinPhi wo * sinPhi wi = cosPhi wi * cosPhi wo + sinPhi wi * sinPhi wo by ring]
  simp only [e1]
  generalize (if sinTheta wo > MC.EPS ∧ sinTheta wi > MC.EPS then max 0 (cosPhi wi * cosPhi wo + sinPhi wi * sinPhi wo) else 0) = m
  rcases lt_trichotomy (absCosTheta wi) (absCosTheta wo) with h | h | h
  · have hp : 0 ≤ absCosTheta wi := abs_nonneg _
    rw [if_neg (by linarith), if_neg (by linarith), if_pos (by linarith)]
  · have hs : sinTheta wi = sinTheta wo := by
      have : wi.z * wi.z = wo.z * wo.z := by
        unfold absCosTheta at h
        rw [← abs_mul_abs_self wi.z, ← abs_mul_abs_self wo.z, h]
      unfold sinTheta; rw [this]
    rw [if_neg (by linarith), h, hs, if_neg (lt_irrefl _)]
  · have hp : 0 ≤ absCosTheta wo := abs_nonneg _
    rw [if_pos (by linarith), if_neg (by linarith), if_neg (by linarith)]

/-- Defined whenever not both directions are grazing, and then not negative for a non-negative reflectance. -/
theorem C80_nonneg (R sig : ℝ) (hR : 0 ≤ R) (wo wi : V3 ℝ) (h : wo.z ≠ 0 ∨ wi.z ≠ 0) : ∃ v, (ON.init R sig).f wo wi = some v ∧ 0 ≤ v := by
  obtain ⟨hA, _, hB, _⟩ := C80_coefficients R sig
  have hpi := Real.pi_pos
  have hRR : (ON.init R sig).R = R := rfl
  generalize ON.init R sig = o at *
  have hm : 0 ≤ (if sinTheta wi > MC.EPS ∧ sinTheta wo > MC.EPS then max 0 (cosPhi wi * cosPhi wo + sinPhi wi * sinPhi wo) else 0) := by
    split_ifs
    · exact le_max_left _ _
    · exact le_rfl
  unfold ON.f
  simp only []
  generalize (if sinTheta wi > MC.EPS ∧ sinTheta wo > MC.EPS then max 0 (cosPhi wi * cosPhi wo + sinPhi wi * sinPhi wo) else 0) = m at *
  have hsi : 0 ≤ sinTheta wi := Real.sqrt_nonneg _
  have hso : 0 ≤ sinTheta wo := Real.sqrt_nonneg _
  have hci : 0 ≤ absCosTheta wi := abs_nonneg _
  have hco : 0 ≤ absCosTheta wo := abs_nonneg _
  have hA0 : 0 ≤ o.A := by linarith
  rw [hRR]
  have hI : 0 ≤ MC.invPi := by unfold MC.invPi; positivity
  split_ifs with h1 h2
  · exact ⟨_, rfl, by positivity⟩
  · exfalso
    have hz : absCosTheta wi = 0 := le_antisymm (by linarith) hci
    unfold absCosTheta at h2 hz
    rw [abs_eq_zero] at h2 hz
    rcases h with h | h <;> contradiction
  · exact ⟨_, rfl, by positivity⟩

/-- the direction with polar angle `θ` and azimuth `φ` -/
noncomputable def direction (θ φ : ℝ) : V3 ℝ := ⟨sin θ * cos φ, sin θ * sin φ, cos θ⟩

theorem sinTheta_direction {θ φ : ℝ} (h0 : 0 ≤ θ) (h1 : θ ≤ π / 2) : sinTheta (direction θ φ) = sin θ := by
  have hs : 0 ≤ sin θ := Real.sin_nonneg_of_nonneg_of_le_pi h0 (by linarith [Real.pi_pos])
  unfold sinTheta direction
  simp only []
  have : 1 - cos θ * cos θ = sin θ * sin θ := by nlinarith [Real.sin_sq_add_cos_sq θ]
  rw [this, max_eq_right (by positivity), Real.sqrt_mul_self hs]

theorem phi_direction {θ φ : ℝ} (h0 : 0 ≤ θ) (h1 : θ ≤ π / 2) (hs : 0 < sin θ) :
    cosPhi (direction θ φ) = cos φ ∧ sinPhi (direction θ φ) = sin φ := by
  have e := sinTheta_direction (φ := φ) h0 h1
  unfold sinTheta at e
  have e2 : ¬ max 0 (1 - (direction θ φ).z * (direction θ φ).z) = 0 := by
    intro h
    rw [h] at e
    simp at e
    linarith
  unfold cosPhi sinPhi
  rw [if_neg e2, if_neg e2, e]
  unfold direction
  simp only []
  rw [mul_div_cancel_left₀ _ hs.ne', mul_div_cancel_left₀ _ hs.ne']
  exact ⟨clip1_of_mem (Real.neg_one_le_cos φ) (Real.cos_le_one φ), clip1_of_mem (Real.neg_one_le_sin φ) (Real.sin_le_one φ)⟩

/-- The Oren-Nayar formula of the class's documentation, for two directions above the surface that are not within
`EPS` of the normal: with `α` the larger and `β` the smaller polar angle,
`R/π (A + B max(0, cos(φi - φo)) sin α tan β)`. -/
theorem C80_formula (o : ON) (θo φo θi φi : ℝ) (ho0 : 0 ≤ θo) (ho1 : θo < π / 2) (hi0 : 0 ≤ θi) (hi1 : θi < π / 2)
    (heo : MC.EPS < sin θo) (hei : MC.EPS < sin θi) :
    o.f (direction θo φo) (direction θi φi) =
      some (o.R / π * (o.A + o.B * max 0 (cos (φi - φo)) * sin (max θi θo) * tan (min θi θo))) := by
  have heps : 0 < MC.EPS := by unfold MC.EPS; norm_num
  obtain ⟨pci, psi⟩ := phi_direction (φ := φi) hi0 hi1.le (heps.trans hei)
  obtain ⟨pco, pso⟩ := phi_direction (φ := φo) ho0 ho1.le (heps.trans heo)
  have hco : 0 < cos θo := Real.cos_pos_of_mem_Ioo ⟨by linarith [Real.pi_pos], ho1⟩
  have hci : 0 < cos θi := Real.cos_pos_of_mem_Ioo ⟨by linarith [Real.pi_pos], hi1⟩
  have zi : absCosTheta (direction θi φi) = cos θi := by unfold absCosTheta direction; simp only []; exact abs_of_pos hci
  have zo : absCosTheta (direction θo φo) = cos θo := by unfold absCosTheta direction; simp only []; exact abs_of_pos hco
  unfold ON.f
  simp only []
  rw [sinTheta_direction hi0 hi1.le, sinTheta_direction ho0 ho1.le, pci, psi, pco, pso, zi, zo, if_pos (show sin θi > MC.EPS ∧ sin θo > MC.EPS from ⟨hei, heo⟩),
    ← Real.cos_sub]
  have hlt : cos θi > cos θo ↔ θi < θo := by
    constructor
    · intro h
      by_contra hc
      have := Real.cos_le_cos_of_nonneg_of_le_pi ho0 (by linarith [Real.pi_pos]) (not_lt.mp hc)
      linarith
    · intro h
      exact Real.cos_lt_cos_of_nonneg_of_le_pi_div_two hi0 ho1.le h
  unfold MC.invPi
  split_ifs with h h2
  · rw [max_eq_right (hlt.mp h).le, min_eq_left (hlt.mp h).le, Real.tan_eq_sin_div_cos]
    congr 1; ring
  · linarith
  · have : θo ≤ θi := not_lt.mp (fun hh => h (hlt.mpr hh))
    rw [max_eq_left this, min_eq_right this, Real.tan_eq_sin_div_cos]
    congr 1; ring

/-- two directions 30° and 45° from the normal -/
example : (0 : ℝ) ≤ π / 6 ∧ π / 6 < π / 2 ∧ MC.EPS < sin (π / 6) ∧ 0 ≤ π / 4 ∧ π / 4 < π / 2 := by
  have := Real.pi_pos
  refine ⟨by positivity, by linarith, ?_, by positivity, by linarith⟩
  rw [Real.sin_pi_div_six]; unfold MC.EPS; norm_num

/-- A perfectly smooth Oren-Nayar surface is Lambertian. -/
theorem C80_smooth (R : ℝ) (wo wi : V3 ℝ) (h : wo.z ≠ 0 ∨ wi.z ≠ 0) : (ON.init R 0).f wo wi = some ((lambertian R).f wo wi) := by
  obtain ⟨_, _, _, _, hA, hB⟩ := C80_coefficients R 0
  obtain ⟨v, hv, _⟩ := C80_nonneg 0 0 le_rfl wo wi h
  have e : (lambertian R).f wo wi = MC.invPi * R := rfl
  rw [e]
  have hR : (ON.init R 0).R = R := rfl
  unfold ON.f at *
  simp only [hA, hB, hR] at *
  split_ifs at * with h1 h2
  all_goals first
    | (congr 1; ring)
    | simp at hv

end Verif.Refl
