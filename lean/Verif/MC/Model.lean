import Verif.Geom.Model
import Mathlib.Analysis.SpecialFunctions.Pow.Real

/-!
# Monte Carlo helpers (`pytracer/montecarlo/utility.py`) and phase functions (`pytracer/volume/utility.py:21-52`)

Real arithmetic.  A division by zero is kept visible: such results are `none`.
-/

namespace Verif.MC
open Verif V3 Verif.Geom

section heur
variable {K : Type*} [Field K] [LinearOrder K]

/-- division, `none` if the divisor is zero (numpy: NaN or infinity) -/
def qdiv (a b : K) : Option K := if b = 0 then none else some (a / b)

/-- `balance_heuristic` (`montecarlo/utility.py:23-30`). -/
def balance (nf : ℕ) (f : K) (ng : ℕ) (g : K) : Option K := qdiv (nf * f) (nf * f + ng * g)

/-- `power_heuristic` (`montecarlo/utility.py:33-42`). -/
def power (nf : ℕ) (fpdf : K) (ng : ℕ) (gpdf : K) : Option K :=
  let f := nf * fpdf
  let g := ng * gpdf
  qdiv (f * f) (f * f + g * g)

/-- the `n`-th pair drawn in `rejection_sample_disk` (`montecarlo/utility.py:51-52, 54-55`) from the stream of
`rng` results `d`. -/
def rejPair (d : ℕ → K) (n : ℕ) : K × K := (1 - 2 * d (2 * n), 1 - 2 * d (2 * n + 1))

/-- `rejection_sample_disk` (`montecarlo/utility.py:45-56`), from its `n`-th loop test on: the loop test fails and
the pair is returned, or a new pair is drawn. -/
inductive RejRun (d : ℕ → K) : ℕ → K × K → Prop
  | stop (n : ℕ) (h : ¬ ((rejPair d n).1 * (rejPair d n).1 + (rejPair d n).2 * (rejPair d n).2 > 1)) : RejRun d n (rejPair d n)
  | loop (n : ℕ) (p : K × K) (h : (rejPair d n).1 * (rejPair d n).1 + (rejPair d n).2 * (rejPair d n).2 > 1)
      (r : RejRun d (n + 1) p) : RejRun d n p

end heur

open Real

/-- `INV_PI` and `INV_2PI` (`pytracer/__init__.py:26-27`), exact. -/
noncomputable def invPi : ℝ := 1 / π
noncomputable def inv2Pi : ℝ := 1 / (2 * π)

/-- `uniform_sample_hemisphere` (`montecarlo/utility.py:59-70`). -/
noncomputable def hemisphere (u1 u2 : ℝ) : V3 ℝ :=
  let r := √(max 0 (1 - u1 * u1))
  let phi := 2 * π * u2
  ⟨r * cos phi, r * sin phi, u1⟩

/-- `uniform_hemisphere_pdf` (`montecarlo/utility.py:73-80`). -/
noncomputable def hemispherePdf : ℝ := inv2Pi

/-- `uniform_sample_sphere` (`montecarlo/utility.py:83-95`). -/
noncomputable def sphere (u1 u2 : ℝ) : V3 ℝ :=
  let z := 1 - 2 * u1
  let r := √(max 0 (1 - z * z))
  let phi := 2 * π * u2
  ⟨r * cos phi, r * sin phi, z⟩

/-- `uniform_sphere_pdf` (`montecarlo/utility.py:98-105`). -/
noncomputable def spherePdf : ℝ := 1 / (4 * π)

/-- `uniform_sample_disk` (`montecarlo/utility.py:108-119`). -/
noncomputable def disk (u1 u2 : ℝ) : ℝ × ℝ := (√u1 * cos (2 * π * u2), √u1 * sin (2 * π * u2))

open Classical in
/-- radius and angle of `concentric_sample_disk` (`montecarlo/utility.py:134-166`); `none` would be a division by
zero.  The centre is radius 0, angle 0. -/
noncomputable def concentricPolar (u1 u2 : ℝ) : Option (ℝ × ℝ) :=
  let sx := 2 * u1 - 1
  let sy := 2 * u2 - 1
  if sx = 0 ∧ sy = 0 then some (0, 0)
  else
    let rt : Option (ℝ × ℝ) :=
      if sx > -sy then
        if sx > sy then
          (qdiv sy sx).map (fun q => (sx, if sy ≤ 0 then q + 8 else q))
        else (qdiv sx sy).map (fun q => (sy, 2 - q))
      else
        if sx > sy then (qdiv sx sy).map (fun q => (-sy, 6 + q))
        else (qdiv sy sx).map (fun q => (-sx, 4 - q))
    rt.map (fun p => (p.1, p.2 * (π / 4)))

/-- `concentric_sample_disk` (`montecarlo/utility.py:122-168`). -/
noncomputable def concentric (u1 u2 : ℝ) : Option (ℝ × ℝ) :=
  (concentricPolar u1 u2).map (fun p => (p.1 * cos p.2, p.1 * sin p.2))

/-- `cosine_sample_hemisphere` (`montecarlo/utility.py:171-184`): built on `uniform_sample_sphere`, as in the code. -/
noncomputable def cosineHemisphere (u1 u2 : ℝ) : V3 ℝ :=
  let vec := sphere u1 u2
  ⟨vec.x, vec.y, √(max 0 (1 - vec.x * vec.x - vec.y * vec.y))⟩

/-- `cosine_hemisphere_pdf` (`montecarlo/utility.py:187-194`). -/
noncomputable def cosineHemispherePdf (ct _phi : ℝ) : ℝ := ct * invPi

/-- `uniform_sample_triangle` (`montecarlo/utility.py:197-206`). -/
noncomputable def triangle (u1 u2 : ℝ) : ℝ × ℝ := (1 - √u1, u2 * √u1)

/-- `uniform_sample_cone` with a frame (`montecarlo/utility.py:222-226`); `util.lerp` is `utility/utility.py:89-91`.
The branch without a frame (lines 217-221) calls `np.scos`, which does not exist: it raises `AttributeError`
(`none`). -/
noncomputable def cone (u1 u2 ctMax : ℝ) (frame : Option (V3 ℝ × V3 ℝ × V3 ℝ)) : Option (V3 ℝ) :=
  match frame with
  | none => none
  | some (x, y, z) =>
    let ct := (1 - u1) * ctMax + u1 * 1
    let st := √(1 - ct * ct)
    let phi := u2 * 2 * π
    some ((cos phi * st) * x + (sin phi * st) * y + ct * z)

/-- `uniform_cone_pdf` (`montecarlo/utility.py:229-233`). -/
noncomputable def conePdf (ctMax : ℝ) : ℝ := 1 / (2 * π * (1 - ctMax))

/-- `EPS` (`pytracer/__init__.py:23`). -/
noncomputable def EPS : ℝ := 1 / 100000

open Classical in
/-- the cosine chosen by `sample_hg` (`montecarlo/utility.py:246-250`). -/
noncomputable def hgCos (g u1 : ℝ) : ℝ :=
  if |g| < EPS then 1 - 2 * u1
  else
    let sqr := (1 - g * g) / (1 - g + 2 * g * u1)
    (1 + g * g - sqr * sqr) / (2 * g)

/-- `sample_hg` (`montecarlo/utility.py:236-255`). -/
noncomputable def sampleHg (w : V3 ℝ) (g u1 u2 : ℝ) : V3 ℝ :=
  let ct := hgCos g u1
  let st := √(max 0 (1 - ct * ct))
  let phi := 2 * π * u2
  sphericalDirectionBasis st ct phi (coordinateSystem w).2.1 (coordinateSystem w).2.2 w

/-! Phase functions -/

/-- `phase_isotrophic` (`volume/utility.py:21-22`). -/
noncomputable def phaseIsotropic (_w _wp : V3 ℝ) : ℝ := 1 / (4 * π)

/-- `phase_rayleigh` (`volume/utility.py:25-27`). -/
noncomputable def phaseRayleigh (w wp : V3 ℝ) : ℝ :=
  let ct := dot w wp
  3 / (16 * π) * (1 + ct * ct)

/-- `phase_mie_hazy` (`volume/utility.py:30-32`); `np.power(x, 8.)`. -/
noncomputable def phaseMieHazy (w wp : V3 ℝ) : ℝ :=
  let ct := dot w wp
  (5 / 10 + 45 / 10 * (5 / 10 * (1 + ct)) ^ 8) / (4 * π)

/-- `phase_mie_murky` (`volume/utility.py:35-37`). -/
noncomputable def phaseMieMurky (w wp : V3 ℝ) : ℝ :=
  let ct := dot w wp
  (5 / 10 + 165 / 10 * (5 / 10 * (1 + ct)) ^ 32) / (4 * π)

/-- `phase_hg` (`volume/utility.py:40-46`); `np.power(x, 1.5)` is the real power. -/
noncomputable def phaseHg (w wp : V3 ℝ) (g : ℝ) : ℝ :=
  let ct := dot w wp
  (1 - g * g) / (1 + g * g - 2 * g * ct) ^ (3 / 2 : ℝ) / (4 * π)

/-- `phase_schlick` (`volume/utility.py:49-52`), with Python's left-to-right `/` and `*`. -/
noncomputable def phaseSchlick (w wp : V3 ℝ) (g : ℝ) : ℝ :=
  let k := 155 / 100 * g - 55 / 100 * g * g * g
  let kct := k * dot w wp
  ((1 - k * k) / (1 - kct) * (1 - kct)) / (4 * π)

end Verif.MC
