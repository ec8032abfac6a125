import Verif.BBox.SlabProps
import Verif.BBox.Props
import Verif.Xform.Props
import Verif.MC.Phase
import Mathlib.MeasureTheory.Integral.Bochner.Set
import Mathlib.MeasureTheory.Measure.Lebesgue.Basic
import Mathlib.Data.EReal.Basic

/-!
# Volume regions (C55, C108, C109, C110)

Models `pytracer/volume/volume.py`.  Spectra are treated one sample at a time (all operations are per sample), numbers are real; parameter
ranges of rays may be infinite.  Not modelled: rounding, `VolumeGridDensity` (its constructor calls `super().__init__()` without the five
required arguments and raises), `lve` of the aggregate beyond the fact that it calls the spectrum `le` (TypeError).
-/
namespace Verif.Volume
open Verif V3 Verif.Geom Verif.Xform Verif.MC MeasureTheory

/-! ### Model -/

/-- a finite box seen as a box with float sides -/
def finBox (b : BBox ℝ) : BBox (F ℝ) := ⟨⟨.fin b.pMin.x, .fin b.pMin.y, .fin b.pMin.z⟩, ⟨.fin b.pMax.x, .fin b.pMax.y, .fin b.pMax.z⟩⟩

/-- fields of `HomogeneousVolumeDensity` (volume.py 124-132), one spectral sample -/
structure Homog where
  sigA : ℝ
  sigS : ℝ
  g : ℝ
  le : ℝ
  extent : BBox ℝ
  w2v : Transform ℝ

/-- `intersect_p` (volume.py 139-141): the transformed ray is computed and then not used -/
noncomputable def Homog.intersectP (h : Homog) (r : FRay ℝ) : Option (F ℝ × F ℝ) := BBox.intersectP (finBox h.extent) r

/-- `sigma_a` (volume.py 143-144) -/
noncomputable def Homog.sigmaA (h : Homog) (p : V3 ℝ) : ℝ := if h.extent.inside (h.w2v.pt p) then h.sigA else 0

/-- `sigma_s` (volume.py 147-148) -/
noncomputable def Homog.sigmaS (h : Homog) (p : V3 ℝ) : ℝ := if h.extent.inside (h.w2v.pt p) then h.sigS else 0

/-- `sigma_t` (volume.py 150-151) -/
noncomputable def Homog.sigmaT (h : Homog) (p : V3 ℝ) : ℝ := if h.extent.inside (h.w2v.pt p) then h.sigS + h.sigA else 0

/-- `lve` (volume.py 153-154) -/
noncomputable def Homog.lve (h : Homog) (p : V3 ℝ) : ℝ := if h.extent.inside (h.w2v.pt p) then h.le else 0

/-- `p` (volume.py 156-160): the third argument of `phase_hg` is the time -/
noncomputable def Homog.p (h : Homog) (pnt wi wo : V3 ℝ) (tm : ℝ) : ℝ := if ¬ h.extent.inside (h.w2v.pt pnt) = true then 0 else phaseHg wi wo tm

/-- `tau` (volume.py 162-166); `none` stands for a result that is not a finite number (infinite parameters) -/
noncomputable def Homog.tau (h : Homog) (r : FRay ℝ) : Option ℝ :=
  match h.intersectP r with
  | none => some 0
  | some (.fin t0, .fin t1) => some (length (BBox.FRay.at r t1 - BBox.FRay.at r t0) * (h.sigA + h.sigS))
  | some _ => none

/-- a `DensityRegion` (volume.py 176-183) with density `dens` in its own space (`__call__`) -/
structure Dens where
  sigA : ℝ
  sigS : ℝ
  g : ℝ
  le : ℝ
  w2v : Transform ℝ
  dens : V3 ℝ → ℝ
  /-- `intersect_p` of the concrete class -/
  hit : FRay ℝ → Option (F ℝ × F ℝ)

/-- `sigma_a` (volume.py 197-198) -/
noncomputable def Dens.sigmaA (d : Dens) (p : V3 ℝ) : ℝ := d.dens (d.w2v.pt p) * d.sigA
/-- `sigma_s` (volume.py 200-201) -/
noncomputable def Dens.sigmaS (d : Dens) (p : V3 ℝ) : ℝ := d.sigS * d.dens (d.w2v.pt p)
/-- `lve` (volume.py 203-204) -/
noncomputable def Dens.lve (d : Dens) (p : V3 ℝ) : ℝ := d.dens (d.w2v.pt p) * d.le
/-- `sigma_t` (volume.py 215-216) -/
noncomputable def Dens.sigmaT (d : Dens) (p : V3 ℝ) : ℝ := d.dens (d.w2v.pt p) * (d.sigA + d.sigS)
/-- `p` (volume.py 206-213): again the time in place of the asymmetry -/
noncomputable def Dens.p (_ : Dens) (_pnt w wp : V3 ℝ) (tm : ℝ) : ℝ := phaseHg w wp tm

/-- a positive finite factor times a float -/
def mulPos (l : ℝ) : F ℝ → F ℝ
  | .fin x => .fin (x * l)
  | .pinf => .pinf
  | .ninf => .ninf
  | .nan => .nan

/-- `rn` (volume.py 225) -/
noncomputable def unitRay (r : FRay ℝ) : FRay ℝ :=
  let l := length ⟨r.d.x.val, r.d.y.val, r.d.z.val⟩
  ⟨r.o, ⟨⟨r.d.x.val / l, r.d.x.negZero⟩, ⟨r.d.y.val / l, r.d.y.negZero⟩, ⟨r.d.z.val / l, r.d.z.negZero⟩⟩, mulPos l r.mint, mulPos l r.maxt⟩

/-- the loop `while t0 < t1` (volume.py 231-233): `Marched σ step t1 t0 acc res` says that it stops with `res` -/
inductive Marched (σ : ℝ → ℝ) (step t1 : ℝ) : ℝ → ℝ → ℝ → Prop
  | stop {t0 acc : ℝ} : ¬ t0 < t1 → Marched σ step t1 t0 acc acc
  | more {t0 acc res : ℝ} : t0 < t1 → Marched σ step t1 (t0 + step) (acc + σ t0) res → Marched σ step t1 t0 acc res

/-- `DensityRegion.tau` (volume.py 218-235) returns `res` -/
inductive Dens.Tau (d : Dens) (r : FRay ℝ) (step u : ℝ) : ℝ → Prop
  | zero : length ⟨r.d.x.val, r.d.y.val, r.d.z.val⟩ = 0 → Dens.Tau d r step u 0
  | miss : length ⟨r.d.x.val, r.d.y.val, r.d.z.val⟩ ≠ 0 → d.hit (unitRay r) = none → Dens.Tau d r step u 0
  | march {t0 t1 s : ℝ} : length ⟨r.d.x.val, r.d.y.val, r.d.z.val⟩ ≠ 0 → d.hit (unitRay r) = some (.fin t0, .fin t1) →
      Marched (fun t => d.sigmaT (BBox.FRay.at (unitRay r) t)) step t1 (t0 + u * step) 0 s → Dens.Tau d r step u (s * step)

/-- `ExponentialDensity` (volume.py 313-326) -/
structure Expo where
  extent : BBox ℝ
  a : ℝ
  b : ℝ
  up : V3 ℝ

/-- `__call__` (volume.py 322-326), with `up` already normalised (volume.py 319) -/
noncomputable def Expo.dens (e : Expo) (p : V3 ℝ) : ℝ :=
  if ¬ e.extent.inside p = true then 0
  else
    let h := dot (p - e.extent.pMin) (normalize e.up)
    e.a * Real.exp (-e.b * h)

/-- what an aggregate asks of its regions: one sample of each coefficient, and the parameter interval (finite or infinite, never nan) -/
structure Region where
  sigmaA : V3 ℝ → ℝ
  sigmaS : V3 ℝ → ℝ
  sigmaT : V3 ℝ → ℝ
  phase : V3 ℝ → V3 ℝ → V3 ℝ → ℝ → ℝ
  tau : FRay ℝ → ℝ
  interval : FRay ℝ → Option (EReal × EReal)

/-- the `for` loops of the aggregate (volume.py 350-366, 374-384) -/
noncomputable def sumLoop (rs : List Region) (f : Region → ℝ) : ℝ := rs.foldl (fun s r => s + f r) 0

noncomputable def aggSigmaA (rs : List Region) (p : V3 ℝ) : ℝ := sumLoop rs (fun r => r.sigmaA p)
noncomputable def aggSigmaS (rs : List Region) (p : V3 ℝ) : ℝ := sumLoop rs (fun r => r.sigmaS p)
noncomputable def aggSigmaT (rs : List Region) (p : V3 ℝ) : ℝ := sumLoop rs (fun r => r.sigmaT p)
noncomputable def aggPhase (rs : List Region) (p wi wo : V3 ℝ) (tm : ℝ) : ℝ := sumLoop rs (fun r => r.phase p wi wo tm)
noncomputable def aggTau (rs : List Region) (r : FRay ℝ) : ℝ := sumLoop rs (fun x => x.tau r)

/-- `AggregateVolume.lve` (volume.py 368-372): `region.le` is a spectrum and cannot be called -/
noncomputable def aggLve (rs : List Region) : Except String ℝ :=
  match rs with
  | [] => .ok 0
  | _ :: _ => .error "TypeError"

/-- `AggregateVolume.intersect_p` (volume.py 390-398) -/
noncomputable def aggInterval (rs : List Region) (ray : FRay ℝ) : Prop × EReal × EReal :=
  let t := rs.foldl (fun (t : EReal × EReal) r =>
    match r.interval ray with
    | some (r0, r1) => (min t.1 r0, max t.2 r1)
    | none => t) (⊤, ⊥)
  (t.1 < t.2, t.1, t.2)

/-! ### Homogeneous regions -/

theorem inBox_finBox (b : BBox ℝ) (p : V3 ℝ) : BBox.InBox (finBox b) p ↔ BBox.Mem p b := by
  simp only [BBox.InBox, finBox, BBox.Mem, F.le, decide_eq_true_eq]

/-- the parameters at which the ray is in the box -/
def Inside (b : BBox ℝ) (r : FRay ℝ) : Set ℝ := {t | BBox.InRange r t ∧ BBox.Mem (BBox.FRay.at r t) b}

/-- a ray for which the box test is exact -/
structure Good (b : BBox ℝ) (r : FRay ℝ) : Prop where
  proper : BBox.Proper b
  mint : r.mint ≠ F.nan
  maxt : r.maxt ≠ F.nan
  graze : BBox.NoGraze (finBox b) r
  dir : r.d.x.val ≠ 0 ∨ r.d.y.val ≠ 0 ∨ r.d.z.val ≠ 0

theorem hit_cases {b : BBox ℝ} {r : FRay ℝ} (hg : Good b r) :
    (BBox.intersectP (finBox b) r = none ∧ Inside b r = ∅) ∨
    ∃ s0 s1 : ℝ, s0 ≤ s1 ∧ BBox.intersectP (finBox b) r = some (.fin s0, .fin s1) ∧ Inside b r = Set.Icc s0 s1 := by
  have hp : BBox.FProper (finBox b) := by
    obtain ⟨h1, h2, h3⟩ := hg.proper
    simp only [BBox.FProper, finBox, F.le, decide_eq_true_eq]
    exact ⟨h1, h2, h3⟩
  have hex := BBox.C02_slab_exact_partial (finBox b) r hp hg.mint hg.maxt hg.graze
  have hfin : BBox.FiniteBox (finBox b) := ⟨b.pMin, b.pMax, rfl⟩
  unfold BBox.SlabExact at hex
  cases e : BBox.intersectP (finBox b) r with
  | none =>
    left
    rw [e] at hex
    refine ⟨rfl, Set.eq_empty_iff_forall_notMem.2 (fun t ht => ?_)⟩
    exact hex t ht.1 ((inBox_finBox _ _).2 ht.2)
  | some q =>
    right
    obtain ⟨t0, t1⟩ := q
    rw [e] at hex
    obtain ⟨s0, s1, rfl, rfl, hle, -, -⟩ := BBox.C02_true_means_hit_partial (finBox b) r hp hfin hg.mint hg.maxt hg.graze hg.dir t0 t1 e
    refine ⟨s0, s1, hle, rfl, ?_⟩
    ext t
    have := hex t
    simp only [BBox.In, F.le, decide_eq_true_eq] at this
    rw [inBox_finBox] at this
    rw [Set.mem_Icc]
    exact this.symm

/-- the direction of the ray -/
def dirOf (r : FRay ℝ) : V3 ℝ := ⟨r.d.x.val, r.d.y.val, r.d.z.val⟩

theorem length_chord (r : FRay ℝ) (s0 s1 : ℝ) (h : s0 ≤ s1) : length (BBox.FRay.at r s1 - BBox.FRay.at r s0) = (s1 - s0) * length (dirOf r) := by
  have e : sqLength (BBox.FRay.at r s1 - BBox.FRay.at r s0) = (s1 - s0) ^ 2 * sqLength (dirOf r) := by
    simp only [sqLength, BBox.FRay.at, dirOf, sub_x, sub_y, sub_z]; ring
  unfold length
  rw [e, Real.sqrt_mul (sq_nonneg _), Real.sqrt_sq (sub_nonneg.2 h)]

theorem tau_measure (h : Homog) (r : FRay ℝ) (hg : Good h.extent r) :
    h.tau r = some (volume.real (Inside h.extent r) * length (dirOf r) * (h.sigA + h.sigS)) ∧ MeasurableSet (Inside h.extent r) ∧
      volume (Inside h.extent r) ≠ ⊤ := by
  unfold Homog.tau Homog.intersectP
  rcases hit_cases hg with ⟨e, hs⟩ | ⟨s0, s1, hle, e, hs⟩
  · rw [e, hs]; simp
  · rw [e, hs]
    refine ⟨?_, measurableSet_Icc, by simp⟩
    simp only [length_chord r s0 s1 hle, Measure.real, Real.volume_Icc, ENNReal.toReal_ofReal (sub_nonneg.2 hle)]

/-- **C55** the optical depth of a homogeneous region is the integral of its attenuation along the ray, in world units, whenever the region is not
transformed (for transformed regions the claim is false: `C55_tau_transformed_false`) -/
theorem C55_tau_homogeneous_partial (h : Homog) (r : FRay ℝ) (hg : Good h.extent r) (hid : ∀ p, h.w2v.pt p = p) :
    h.tau r = some (∫ t in {t | BBox.InRange r t}, h.sigmaT (BBox.FRay.at r t) * length (dirOf r)) := by
  obtain ⟨e, hm, hf⟩ := tau_measure h r hg
  rw [e]
  congr 1
  have key : ∀ t ∈ {t | BBox.InRange r t}, h.sigmaT (BBox.FRay.at r t) * length (dirOf r) =
      (Inside h.extent r).indicator (fun _ => (h.sigS + h.sigA) * length (dirOf r)) t := by
    intro t ht
    unfold Homog.sigmaT
    rw [hid]
    by_cases hc : BBox.Mem (BBox.FRay.at r t) h.extent
    · rw [if_pos ((BBox.C04_inside_iff _ _).2 hc), Set.indicator_of_mem (show t ∈ Inside h.extent r from ⟨ht, hc⟩)]
    · rw [if_neg (fun hh => hc ((BBox.C04_inside_iff _ _).1 hh)), Set.indicator_of_notMem (fun hh => hc hh.2), zero_mul]
  have hmr : MeasurableSet {t | BBox.InRange r t} := by
    have : {t | BBox.InRange r t} = {t | F.le r.mint (.fin t) = true} ∩ {t | F.le (.fin t) r.maxt = true} := rfl
    rw [this]
    apply MeasurableSet.inter
    · cases hh : r.mint with
      | fin x =>
        have : {t | F.le (F.fin x) (F.fin t) = true} = Set.Ici x := by ext t; simp [F.le]
        rw [this]; exact measurableSet_Ici
      | _ => simp [F.le]
    · cases hh : r.maxt with
      | fin x =>
        have : {t | F.le (F.fin t) (F.fin x) = true} = Set.Iic x := by ext t; simp [F.le]
        rw [this]; exact measurableSet_Iic
      | _ => simp [F.le]
  have hsub : {t | BBox.InRange r t} ∩ Inside h.extent r = Inside h.extent r := by
    ext t; exact ⟨fun ht => ht.2, fun ht => ⟨ht.1, ht⟩⟩
  rw [setIntegral_congr_fun hmr key, setIntegral_indicator hm, setIntegral_const, smul_eq_mul, hsub]
  ring

/-- the ray cut at parameter `m`: the part before -/
def before (r : FRay ℝ) (m : ℝ) : FRay ℝ := ⟨r.o, r.d, r.mint, .fin m⟩
/-- the ray cut at parameter `m`: the part after -/
def after (r : FRay ℝ) (m : ℝ) : FRay ℝ := ⟨r.o, r.d, .fin m, r.maxt⟩

/-- **C55** the optical depth of a homogeneous region is additive over adjacent segments of a ray, transformed or not -/
theorem C55_tau_additive (h : Homog) (r : FRay ℝ) (m : ℝ) (hm : BBox.InRange r m) (hg : Good h.extent r) :
    ∃ x y, h.tau (before r m) = some x ∧ h.tau (after r m) = some y ∧ h.tau r = some (x + y) := by
  have g1 : Good h.extent (before r m) := ⟨hg.proper, hg.mint, by simp [before], hg.graze, hg.dir⟩
  have g2 : Good h.extent (after r m) := ⟨hg.proper, by simp [after], hg.maxt, hg.graze, hg.dir⟩
  obtain ⟨e0, m0, f0⟩ := tau_measure h r hg
  obtain ⟨e1, m1, f1⟩ := tau_measure h _ g1
  obtain ⟨e2, m2, f2⟩ := tau_measure h _ g2
  refine ⟨_, _, e1, e2, ?_⟩
  rw [e0]
  congr 1
  have i1 : Inside h.extent (before r m) = Inside h.extent r ∩ Set.Iic m := by
    ext t
    simp only [Inside, before, BBox.InRange, Set.mem_ofPred_eq, Set.mem_inter_iff, Set.mem_Iic, F.le, decide_eq_true_eq, BBox.FRay.at]
    constructor
    · rintro ⟨⟨a, b⟩, c⟩
      refine ⟨⟨⟨a, ?_⟩, c⟩, b⟩
      have := hm.2
      cases hh : r.maxt <;> simp [hh, F.le] at this ⊢
      linarith
    · rintro ⟨⟨⟨a, b⟩, c⟩, d⟩
      exact ⟨⟨a, d⟩, c⟩
  have i2 : Inside h.extent (after r m) = Inside h.extent r ∩ Set.Ici m := by
    ext t
    simp only [Inside, after, BBox.InRange, Set.mem_ofPred_eq, Set.mem_inter_iff, Set.mem_Ici, F.le, decide_eq_true_eq, BBox.FRay.at]
    constructor
    · rintro ⟨⟨a, b⟩, c⟩
      refine ⟨⟨⟨?_, b⟩, c⟩, a⟩
      have := hm.1
      cases hh : r.mint <;> simp [hh, F.le] at this ⊢
      linarith
    · rintro ⟨⟨⟨a, b⟩, c⟩, d⟩
      exact ⟨⟨d, b⟩, c⟩
  have hsum : volume.real (Inside h.extent r) = volume.real (Inside h.extent (before r m)) + volume.real (Inside h.extent (after r m)) := by
    rw [i1, i2]
    have hae : volume.real (Inside h.extent r ∩ Set.Ici m) = volume.real (Inside h.extent r ∩ Set.Ioi m) := by
      apply measureReal_congr
      exact Filter.EventuallyEq.inter (Filter.EventuallyEq.refl _ _) Ioi_ae_eq_Ici.symm
    rw [hae]
    have := measureReal_inter_add_sdiff (μ := volume) (s := Inside h.extent r) (t := Set.Iic m) measurableSet_Iic f0
    rw [← this]
    congr 2
    ext t; simp
  have hd1 : dirOf (before r m) = dirOf r := rfl
  have hd2 : dirOf (after r m) = dirOf r := rfl
  rw [hsum, hd1, hd2]
  ring

/-- **C55** for a transformed region the optical depth is wrong: a unit box moved ten units away still attenuates a ray through the origin, where its
attenuation is zero -/
theorem C55_tau_transformed_false : ∃ (h : Homog) (r : FRay ℝ), Good h.extent r ∧ (∀ t, BBox.InRange r t → h.sigmaT (BBox.FRay.at r t) = 0) ∧ h.tau r = some 1 := by
  refine ⟨⟨1, 0, 0, 0, ⟨⟨0, 0, 0⟩, ⟨1, 1, 1⟩⟩, translate ⟨-10, 0, 0⟩⟩,
    ⟨⟨0, 1 / 2, 1 / 2⟩, ⟨⟨1, false⟩, ⟨0, false⟩, ⟨0, false⟩⟩, .fin 0, .fin 1⟩, ⟨?_, by simp, by simp, ?_, by simp⟩, ?_, ?_⟩
  · simp [BBox.Proper]
  · simp [BBox.NoGraze, BBox.GrazesNegZero]
  · intro t ht
    simp only [BBox.InRange, F.le, decide_eq_true_eq] at ht
    have : ¬ BBox.inside (⟨⟨0, 0, 0⟩, ⟨1, 1, 1⟩⟩ : BBox ℝ) ((translate ⟨-10, 0, 0⟩ : Transform ℝ).pt (BBox.FRay.at (⟨⟨0, 1 / 2, 1 / 2⟩, ⟨⟨1, false⟩, ⟨0, false⟩, ⟨0, false⟩⟩, .fin 0, .fin 1⟩ : FRay ℝ) t)) = true := by
      rw [BBox.C04_inside_iff]
      rw [(C08_translate_scale _ _ 0 1 1 1).1]
      simp only [BBox.Mem, BBox.FRay.at]
      rintro ⟨⟨a, -⟩, -⟩
      norm_num at a
      linarith [ht.2]
    simp only [Homog.sigmaT]
    exact if_neg this
  · simp only [Homog.tau, Homog.intersectP, BBox.intersectP, finBox, BBox.slabAxis, F.subFin, F.divFin, F.fmax, F.fmin, F.gt, F.lt, F.isNan]
    norm_num [length, sqLength, BBox.FRay.at]

/-- the hypotheses of `C55_tau_homogeneous_partial` and `C55_tau_additive` hold for a ray that crosses a box -/
example : ∃ (h : Homog) (r : FRay ℝ), Good h.extent r ∧ (∀ p, h.w2v.pt p = p) ∧ BBox.InRange r (1 / 2) := by
  refine ⟨⟨1, 2, 0, 0, ⟨⟨0, 0, 0⟩, ⟨1, 1, 1⟩⟩, translate ⟨0, 0, 0⟩⟩,
    ⟨⟨-1, 1 / 2, 1 / 2⟩, ⟨⟨2, false⟩, ⟨0, false⟩, ⟨0, false⟩⟩, .fin 0, .pinf⟩, ⟨?_, by simp, by simp, ?_, by simp⟩, ?_, ?_⟩
  · simp [BBox.Proper]
  · simp [BBox.NoGraze, BBox.GrazesNegZero]
  · intro p
    rw [(C08_translate_scale _ _ 0 1 1 1).1]
    ext <;> simp
  · simp [BBox.InRange, F.le]

/-! ### Coefficients (C110) -/

/-- **C110** homogeneous regions: zero outside the transformed box, the given values inside, attenuation is absorption plus scattering -/
theorem C110_homogeneous (h : Homog) (p : V3 ℝ) :
    h.sigmaT p = h.sigmaA p + h.sigmaS p ∧
    (BBox.Mem (h.w2v.pt p) h.extent → h.sigmaA p = h.sigA ∧ h.sigmaS p = h.sigS ∧ h.lve p = h.le) ∧
    (¬ BBox.Mem (h.w2v.pt p) h.extent → h.sigmaA p = 0 ∧ h.sigmaS p = 0 ∧ h.sigmaT p = 0 ∧ h.lve p = 0) := by
  unfold Homog.sigmaT Homog.sigmaA Homog.sigmaS Homog.lve
  refine ⟨?_, fun hm => ?_, fun hm => ?_⟩
  · split_ifs
    · ring
    · simp
  · rw [if_pos ((BBox.C04_inside_iff _ _).2 hm), if_pos ((BBox.C04_inside_iff _ _).2 hm), if_pos ((BBox.C04_inside_iff _ _).2 hm)]
    exact ⟨rfl, rfl, rfl⟩
  · have : ¬ BBox.inside h.extent (h.w2v.pt p) = true := fun hh => hm ((BBox.C04_inside_iff _ _).1 hh)
    simp [this]

/-- **C110** density regions: attenuation is absorption plus scattering and all coefficients scale with the density -/
theorem C110_density (d : Dens) (p : V3 ℝ) :
    d.sigmaT p = d.sigmaA p + d.sigmaS p ∧ (d.dens (d.w2v.pt p) = 0 → d.sigmaA p = 0 ∧ d.sigmaS p = 0 ∧ d.sigmaT p = 0 ∧ d.lve p = 0) ∧
    ∀ k, d.dens (d.w2v.pt p) = k → d.sigmaA p = k * d.sigA ∧ d.sigmaS p = k * d.sigS ∧ d.lve p = k * d.le := by
  unfold Dens.sigmaT Dens.sigmaA Dens.sigmaS Dens.lve
  refine ⟨by ring, fun h => by simp [h], ?_⟩
  rintro k rfl
  exact ⟨rfl, mul_comm _ _, rfl⟩

/-- **C110** aggregates: every coefficient is the sum over the regions, and attenuation is absorption plus scattering if it is so for the regions -/
theorem C110_aggregate (rs : List Region) (p : V3 ℝ) (h : ∀ r ∈ rs, r.sigmaT p = r.sigmaA p + r.sigmaS p) :
    aggSigmaT rs p = aggSigmaA rs p + aggSigmaS rs p := by
  have gen : ∀ (l : List Region) (a b : ℝ), (∀ r ∈ l, r.sigmaT p = r.sigmaA p + r.sigmaS p) →
      l.foldl (fun s r => s + r.sigmaT p) (a + b) = l.foldl (fun s r => s + r.sigmaA p) a + l.foldl (fun s r => s + r.sigmaS p) b := by
    intro l
    induction l with
    | nil => intro a b _; rfl
    | cons x l ih =>
      intro a b hl
      simp only [List.foldl_cons]
      rw [hl x (by simp), ← ih _ _ (fun r hr => hl r (by simp [hr]))]
      congr 1; ring
  have := gen rs 0 0 h
  rw [add_zero] at this
  exact this

/-- **C110** exponential densities: zero outside the box; inside, for a non-negative falloff, positive scale and `up` a direction in which the box
extends upwards, between zero and the scale, and falling by the factor `exp(-b Δh)` over a rise of `Δh` -/
theorem C110_exponential (e : Expo) (p : V3 ℝ) :
    (¬ BBox.Mem p e.extent → e.dens p = 0) ∧
    (BBox.Mem p e.extent → 0 ≤ e.a → 0 ≤ e.b → 0 ≤ e.up.x → 0 ≤ e.up.y → 0 ≤ e.up.z → 0 ≤ e.dens p ∧ e.dens p ≤ e.a) ∧
    (∀ (k : ℝ), length e.up ≠ 0 → BBox.Mem p e.extent → BBox.Mem (p + V3.smul k (normalize e.up)) e.extent →
      e.dens (p + V3.smul k (normalize e.up)) = Real.exp (-e.b * k) * e.dens p) := by
  refine ⟨fun hm => ?_, fun hm ha hb hx hy hz => ?_, fun k hu hm hm' => ?_⟩
  · have : ¬ BBox.inside e.extent p = true := fun hh => hm ((BBox.C04_inside_iff _ _).1 hh)
    simp [Expo.dens, this]
  · have hi := (BBox.C04_inside_iff _ _).2 hm
    simp only [Expo.dens, hi, not_true_eq_false, if_false]
    obtain ⟨⟨x0, -⟩, ⟨y0, -⟩, ⟨z0, -⟩⟩ := hm
    have hl : 0 ≤ length e.up := Real.sqrt_nonneg _
    have hn : 0 ≤ dot (p - e.extent.pMin) (normalize e.up) := by
      unfold Geom.normalize
      simp only
      split_ifs with hc
      · simp only [dot, sub_x, sub_y, sub_z]; nlinarith [mul_nonneg (sub_nonneg.2 x0) hx, mul_nonneg (sub_nonneg.2 y0) hy, mul_nonneg (sub_nonneg.2 z0) hz]
      · simp only [dot, sub_x, sub_y, sub_z]
        have a1 := mul_nonneg (sub_nonneg.2 x0) (div_nonneg hx hl)
        have a2 := mul_nonneg (sub_nonneg.2 y0) (div_nonneg hy hl)
        have a3 := mul_nonneg (sub_nonneg.2 z0) (div_nonneg hz hl)
        linarith
    have hexp : Real.exp (-e.b * dot (p - e.extent.pMin) (normalize e.up)) ≤ 1 := Real.exp_le_one_iff.2 (by nlinarith)
    have hpos := Real.exp_pos (-e.b * dot (p - e.extent.pMin) (normalize e.up))
    constructor
    · positivity
    · nlinarith
  · have hi := (BBox.C04_inside_iff _ _).2 hm
    have hi' := (BBox.C04_inside_iff _ _).2 hm'
    simp only [Expo.dens, hi, hi', not_true_eq_false, if_false]
    have h1 : dot (normalize e.up) (normalize e.up) = 1 := by
      have hl : length e.up * length e.up = sqLength e.up := Real.mul_self_sqrt (by unfold sqLength; nlinarith [mul_self_nonneg e.up.x, mul_self_nonneg e.up.y, mul_self_nonneg e.up.z])
      unfold Geom.normalize
      simp only [hu, not_false_eq_true, if_true, dot]
      field_simp
      rw [pow_two (length e.up), hl]; unfold sqLength; ring
    have h2 : dot (p + V3.smul k (normalize e.up) - e.extent.pMin) (normalize e.up) = k + dot (p - e.extent.pMin) (normalize e.up) := by
      have : dot (p + V3.smul k (normalize e.up) - e.extent.pMin) (normalize e.up) = k * dot (normalize e.up) (normalize e.up) + dot (p - e.extent.pMin) (normalize e.up) := by
        simp only [dot, sub_x, sub_y, sub_z, add_x, add_y, add_z, V3.smul]; ring
      rw [this, h1, mul_one]
    rw [h2, mul_add, Real.exp_add]; ring

/-! ### Aggregates (C55) -/

theorem sumLoop_eq (rs : List Region) (f : Region → ℝ) : sumLoop rs f = (rs.map f).sum := by
  have gen : ∀ (l : List Region) (a : ℝ), l.foldl (fun s r => s + f r) a = a + (l.map f).sum := by
    intro l
    induction l with
    | nil => intro a; simp
    | cons x l ih => intro a; simp only [List.foldl_cons, List.map_cons, List.sum_cons]; rw [ih]; ring
  unfold sumLoop; rw [gen]; simp

/-- **C55** absorption, scattering, attenuation and optical depth of an aggregate are the sums over its regions -/
theorem C55_sums (rs : List Region) (p : V3 ℝ) (r : FRay ℝ) :
    aggSigmaA rs p = (rs.map (fun x => x.sigmaA p)).sum ∧ aggSigmaS rs p = (rs.map (fun x => x.sigmaS p)).sum ∧
    aggSigmaT rs p = (rs.map (fun x => x.sigmaT p)).sum ∧ aggTau rs r = (rs.map (fun x => x.tau r)).sum :=
  ⟨sumLoop_eq _ _, sumLoop_eq _ _, sumLoop_eq _ _, sumLoop_eq _ _⟩

/-- **C55** the emission of an aggregate with any region raises -/
theorem C55_emission_false (r : Region) (rs : List Region) : ∃ e, aggLve (r :: rs) = .error e := ⟨_, rfl⟩

/-- **C55** an aggregate without regions does not emit, absorb, scatter or attenuate -/
theorem C55_empty (p : V3 ℝ) (r : FRay ℝ) : aggLve [] = .ok 0 ∧ aggSigmaA [] p = 0 ∧ aggSigmaS [] p = 0 ∧ aggSigmaT [] p = 0 ∧ aggTau [] r = 0 :=
  ⟨rfl, rfl, rfl, rfl, rfl⟩

/-- **C55** the interval of an aggregate is the smallest one that contains the interval of every region that is hit (empty when none is), and the
answer is that there is a hit exactly when this interval has positive length -/
theorem C55_interval_partial (rs : List Region) (ray : FRay ℝ) :
    (∀ r ∈ rs, ∀ r0 r1, r.interval ray = some (r0, r1) → (aggInterval rs ray).2.1 ≤ r0 ∧ r1 ≤ (aggInterval rs ray).2.2) ∧
    (∀ a b, (∀ r ∈ rs, ∀ r0 r1, r.interval ray = some (r0, r1) → a ≤ r0 ∧ r1 ≤ b) → a ≤ (aggInterval rs ray).2.1 ∧ (aggInterval rs ray).2.2 ≤ b) ∧
    ((aggInterval rs ray).1 ↔ (aggInterval rs ray).2.1 < (aggInterval rs ray).2.2) ∧
    ((∃ r ∈ rs, ∃ r0 r1, r.interval ray = some (r0, r1) ∧ r0 < r1) → (aggInterval rs ray).1) ∧
    ((aggInterval rs ray).1 → ∃ r ∈ rs, ∃ q, r.interval ray = some q) := by
  set step : EReal × EReal → Region → EReal × EReal := fun t r =>
    match r.interval ray with
    | some (r0, r1) => (min t.1 r0, max t.2 r1)
    | none => t with hstep
  have gen : ∀ (l : List Region) (t : EReal × EReal),
      (∀ r ∈ l, ∀ r0 r1, r.interval ray = some (r0, r1) → (l.foldl step t).1 ≤ r0 ∧ r1 ≤ (l.foldl step t).2) ∧
      ((l.foldl step t).1 ≤ t.1 ∧ t.2 ≤ (l.foldl step t).2) ∧
      (∀ a b, a ≤ t.1 → t.2 ≤ b → (∀ r ∈ l, ∀ r0 r1, r.interval ray = some (r0, r1) → a ≤ r0 ∧ r1 ≤ b) → a ≤ (l.foldl step t).1 ∧ (l.foldl step t).2 ≤ b) ∧
      ((∀ r ∈ l, r.interval ray = none) → l.foldl step t = t) := by
    intro l
    induction l with
    | nil => intro t; exact ⟨by simp, ⟨le_rfl, le_rfl⟩, fun a b h1 h2 _ => ⟨h1, h2⟩, fun _ => rfl⟩
    | cons x l ih =>
      intro t
      obtain ⟨i1, i2, i3, i4⟩ := ih (step t x)
      simp only [List.foldl_cons]
      have hx : (∀ r0 r1, x.interval ray = some (r0, r1) → step t x = (min t.1 r0, max t.2 r1)) ∧ (x.interval ray = none → step t x = t) := by
        constructor
        · intro r0 r1 h; simp [hstep, h]
        · intro h; simp [hstep, h]
      have hmono : (step t x).1 ≤ t.1 ∧ t.2 ≤ (step t x).2 := by
        cases h : x.interval ray with
        | none => rw [hx.2 h]; exact ⟨le_rfl, le_rfl⟩
        | some q => obtain ⟨r0, r1⟩ := q; rw [hx.1 r0 r1 h]; exact ⟨min_le_left _ _, le_max_left _ _⟩
      refine ⟨?_, ⟨i2.1.trans hmono.1, hmono.2.trans i2.2⟩, ?_, ?_⟩
      · intro r hr r0 r1 h
        rcases List.mem_cons.1 hr with rfl | hr
        · have e := hx.1 r0 r1 h
          rw [e] at i2 ⊢
          exact ⟨i2.1.trans (min_le_right _ _), (le_max_right _ _).trans i2.2⟩
        · exact i1 r hr r0 r1 h
      · intro a b ha hb hl
        refine i3 a b ?_ ?_ (fun r hr => hl r (by simp [hr]))
        · cases h : x.interval ray with
          | none => rw [hx.2 h]; exact ha
          | some q => obtain ⟨r0, r1⟩ := q; rw [hx.1 r0 r1 h]; exact le_min ha (hl x (by simp) r0 r1 h).1
        · cases h : x.interval ray with
          | none => rw [hx.2 h]; exact hb
          | some q => obtain ⟨r0, r1⟩ := q; rw [hx.1 r0 r1 h]; exact max_le hb (hl x (by simp) r0 r1 h).2
      · intro hl
        rw [i4 (fun r hr => hl r (by simp [hr])), hx.2 (hl x (by simp))]
  obtain ⟨g1, g2, g3, g4⟩ := gen rs (⊤, ⊥)
  have e : aggInterval rs ray = ((rs.foldl step (⊤, ⊥)).1 < (rs.foldl step (⊤, ⊥)).2, (rs.foldl step (⊤, ⊥)).1, (rs.foldl step (⊤, ⊥)).2) := rfl
  rw [e]
  refine ⟨g1, fun a b h => g3 a b le_top bot_le h, Iff.rfl, ?_, ?_⟩
  · rintro ⟨r, hr, r0, r1, h, hlt⟩
    obtain ⟨a, b⟩ := g1 r hr r0 r1 h
    exact (a.trans_lt hlt).trans_le b
  · intro h
    by_contra hc
    have : ∀ r ∈ rs, r.interval ray = none := by
      intro r hr
      cases hh : r.interval ray with
      | none => rfl
      | some q => exact absurd ⟨r, hr, q, hh⟩ hc
    rw [g4 this] at h
    exact absurd h (by simp)

/-- **C55** a region that is only touched is reported by itself but not through an aggregate, so "hits exactly when some region is hit" is false -/
theorem C55_interval_false : ∃ (r : Region) (ray : FRay ℝ), (∃ q, r.interval ray = some q) ∧ ¬ (aggInterval [r] ray).1 := by
  refine ⟨⟨fun _ => 0, fun _ => 0, fun _ => 0, fun _ _ _ _ => 0, fun _ => 0, fun _ => some (1, 1)⟩, ⟨⟨0, 0, 0⟩, ⟨⟨1, false⟩, ⟨0, false⟩, ⟨0, false⟩⟩, .fin 0, .pinf⟩, ⟨_, rfl⟩, ?_⟩
  simp [aggInterval]

/-! ### Phase functions of regions (C108) -/

/-- **C108** inside, the phase function of a region is the Henyey-Greenstein function of the *time*; it is right only when the time equals the
asymmetry parameter; outside a homogeneous region it is zero -/
theorem C108_phase_partial (h : Homog) (d : Dens) (p wi wo : V3 ℝ) :
    (∀ tm, ¬ BBox.Mem (h.w2v.pt p) h.extent → h.p p wi wo tm = 0) ∧
    (BBox.Mem (h.w2v.pt p) h.extent → h.p p wi wo h.g = phaseHg wi wo h.g) ∧ d.p p wi wo d.g = phaseHg wi wo d.g := by
  refine ⟨fun tm hm => ?_, fun hm => ?_, rfl⟩
  · have : ¬ BBox.inside h.extent (h.w2v.pt p) = true := fun hh => hm ((BBox.C04_inside_iff _ _).1 hh)
    simp [Homog.p, this]
  · simp [Homog.p, (BBox.C04_inside_iff _ _).2 hm]

/-- **C108** at time zero every region scatters isotropically whatever its asymmetry parameter, and at time one it does not scatter at all in any
direction other than straight ahead -/
theorem C108_phase_ignores_asymmetry_false (d : Dens) (p wi wo : V3 ℝ) :
    d.p p wi wo 0 = 1 / (4 * Real.pi) ∧ d.p p wi wo 1 = 0 := by
  constructor
  · simp [Dens.p, phaseHg]
  · simp [Dens.p, phaseHg]

/-- **C108** the phase function of an aggregate of one region is that region's; of two copies of a region it has mass two, so it is no phase
function -/
theorem C108_aggregate_phase_false (g tm : ℝ) (hg : |tm| < 1) :
    let d : Dens := ⟨1, 1, g, 0, ident, fun _ => 1, fun _ => none⟩
    let r : Region := ⟨d.sigmaA, d.sigmaS, d.sigmaT, d.p, fun _ => 0, fun _ => none⟩
    (∀ p wi wo, aggPhase [r] p wi wo tm = d.p p wi wo tm) ∧ (∀ p, IsPhase (fun wi wo => aggPhase [r] p wi wo tm)) ∧
    ∀ p, ¬ IsPhase (fun wi wo => aggPhase [r, r] p wi wo tm) := by
  intro d r
  have e1 : ∀ p wi wo, aggPhase [r] p wi wo tm = phaseHg wi wo tm := by
    intro p wi wo; simp only [aggPhase, sumLoop_eq]; simp [r, Dens.p]
  have e2 : ∀ p wi wo, aggPhase [r, r] p wi wo tm = 2 * phaseHg wi wo tm := by
    intro p wi wo; simp only [aggPhase, sumLoop_eq]; simp [r, Dens.p]; ring
  have hph := C56_hg tm hg
  refine ⟨e1, fun p => by simpa only [e1] using hph, fun p hc => ?_⟩
  simp only [e2] at hc
  obtain ⟨f, hf, hm⟩ := hph.angle
  obtain ⟨f', hf', hm'⟩ := hc.angle
  have hff : f' = fun c => 2 * f c := by
    funext c
    have a := hf ⟨1, 0, 0⟩ ⟨c, 0, 0⟩
    have b := hf' ⟨1, 0, 0⟩ ⟨c, 0, 0⟩
    simp only [dot, one_mul, zero_mul, add_zero] at a b
    rw [← a, ← b]
  rw [hff] at hm'
  have : capMass (fun c => 2 * f c) 0 Real.pi = 2 * capMass f 0 Real.pi := by
    unfold capMass
    simp only [mul_assoc, intervalIntegral.integral_const_mul]
  rw [this, hm] at hm'
  norm_num at hm'

/-! ### Optical thickness of density regions (C109) -/

/-- how many samples: those `k` with `t0 + k step < t1` -/
theorem count_spec {step t0 t1 : ℝ} (hs : 0 < step) (k : ℕ) : k < ⌈(t1 - t0) / step⌉₊ ↔ t0 + k * step < t1 := by
  rw [Nat.lt_ceil, lt_div_iff₀ hs]
  constructor <;> intro h <;> linarith

theorem marched_exists (σ : ℝ → ℝ) (step t1 : ℝ) (hs : 0 < step) : ∀ (n : ℕ) (t0 acc : ℝ), ⌈(t1 - t0) / step⌉₊ = n →
    Marched σ step t1 t0 acc (acc + ∑ k ∈ Finset.range n, σ (t0 + k * step)) := by
  intro n
  induction n with
  | zero =>
    intro t0 acc hn
    have : ¬ t0 < t1 := by
      intro hc
      have := (count_spec (t0 := t0) (t1 := t1) hs 0).2 (by simpa using hc)
      omega
    simpa using Marched.stop this
  | succ n ih =>
    intro t0 acc hn
    have hlt : t0 < t1 := by
      have := (count_spec (t0 := t0) (t1 := t1) hs 0).1 (by omega)
      simpa using this
    have hn' : ⌈(t1 - (t0 + step)) / step⌉₊ = n := by
      have e : (t1 - (t0 + step)) / step = (t1 - t0) / step - 1 := by field_simp; ring
      rw [e, Nat.ceil_sub_one, hn]; rfl
    have := ih (t0 + step) (acc + σ t0) hn'
    refine Marched.more hlt ?_
    convert this using 1
    rw [Finset.sum_range_succ']
    have e : ∀ k : ℕ, t0 + ((k + 1 : ℕ) : ℝ) * step = t0 + step + k * step := by intro k; push_cast; ring
    simp only [e]
    simp
    ring

theorem marched_unique {σ : ℝ → ℝ} {step t1 t0 acc a b : ℝ} (ha : Marched σ step t1 t0 acc a) (hb : Marched σ step t1 t0 acc b) : a = b := by
  induction ha with
  | stop h =>
    cases hb with
    | stop _ => rfl
    | more h' _ => exact absurd h' h
  | more h _ ih =>
    cases hb with
    | stop h' => exact absurd h h'
    | more _ h2 => exact ih h2

/-- **C109** for a positive step the loop stops, with exactly one result: the step times the sum of the attenuation at the points `(k+u) step` past the
entry that lie before the exit -/
theorem C109_tau (d : Dens) (r : FRay ℝ) (step u t0 t1 : ℝ) (hs : 0 < step) (hl : length (dirOf r) ≠ 0)
    (hh : d.hit (unitRay r) = some (.fin t0, .fin t1)) :
    ∃ n : ℕ, (∀ k : ℕ, k < n ↔ t0 + (k + u) * step < t1) ∧
      ∀ res, d.Tau r step u res ↔ res = step * ∑ k ∈ Finset.range n, d.sigmaT (BBox.FRay.at (unitRay r) (t0 + (k + u) * step)) := by
  refine ⟨⌈(t1 - (t0 + u * step)) / step⌉₊, fun k => ?_, fun res => ?_⟩
  · rw [count_spec hs]
    constructor <;> intro h <;> linarith
  · have hm := marched_exists (fun t => d.sigmaT (BBox.FRay.at (unitRay r) t)) step t1 hs _ (t0 + u * step) 0 rfl
    have e : ∀ k : ℕ, t0 + u * step + k * step = t0 + (k + u) * step := by intro k; ring
    simp only [zero_add, e] at hm
    constructor
    · intro ht
      cases ht with
      | zero h => exact absurd h hl
      | miss _ h => rw [hh] at h; simp at h
      | march _ h h' =>
        rw [hh] at h
        simp only [Option.some.injEq, Prod.mk.injEq, F.fin.injEq] at h
        obtain ⟨rfl, rfl⟩ := h
        rw [marched_unique h' hm]; ring
    · rintro rfl
      have := Dens.Tau.march (d := d) (r := r) (step := step) (u := u) hl hh hm
      rwa [mul_comm] at this

/-- **C109** a ray that misses has thickness zero, and so has a ray without direction -/
theorem C109_miss (d : Dens) (r : FRay ℝ) (step u : ℝ) (h : length (dirOf r) = 0 ∨ d.hit (unitRay r) = none) (res : ℝ) : d.Tau r step u res ↔ res = 0 := by
  constructor
  · intro ht
    cases ht with
    | zero _ => rfl
    | miss _ _ => rfl
    | march h1 h2 _ =>
      rcases h with h | h
      · exact absurd h h1
      · rw [h] at h2; simp at h2
  · rintro rfl
    by_cases hl : length (dirOf r) = 0
    · exact .zero hl
    · exact .miss hl (h.resolve_left hl)

/-- **C109** the loop measures distance in world units: its ray has the same points as the caller's, with a direction of length one and the range
scaled to match, and zeros of the direction keep their signs (they matter for the box test) -/
theorem C109_world_units (r : FRay ℝ) (hl : length (dirOf r) ≠ 0) :
    length (dirOf (unitRay r)) = 1 ∧ (∀ t, BBox.FRay.at (unitRay r) (t * length (dirOf r)) = BBox.FRay.at r t) ∧
    (∀ t, BBox.InRange (unitRay r) (t * length (dirOf r)) ↔ BBox.InRange r t) ∧
    (unitRay r).d.x.negZero = r.d.x.negZero ∧ (unitRay r).d.y.negZero = r.d.y.negZero ∧ (unitRay r).d.z.negZero = r.d.z.negZero := by
  have hpos : 0 < length (dirOf r) := lt_of_le_of_ne (Real.sqrt_nonneg _) (Ne.symm hl)
  have hsq : length (dirOf r) * length (dirOf r) = sqLength (dirOf r) :=
    Real.mul_self_sqrt (by unfold sqLength; nlinarith [mul_self_nonneg (dirOf r).x, mul_self_nonneg (dirOf r).y, mul_self_nonneg (dirOf r).z])
  refine ⟨?_, fun t => ?_, fun t => ?_, rfl, rfl, rfl⟩
  · have e : sqLength (dirOf (unitRay r)) = 1 := by
      have : sqLength (dirOf (unitRay r)) = sqLength (dirOf r) / (length (dirOf r) * length (dirOf r)) := by
        simp only [sqLength, unitRay, dirOf]
        field_simp
      rw [this, ← hsq]; field_simp
    unfold length at e ⊢
    rw [e, Real.sqrt_one]
  · have h' : length (dirOf r) = length ⟨r.d.x.val, r.d.y.val, r.d.z.val⟩ := rfl
    rw [h'] at hl ⊢
    simp only [BBox.FRay.at, unitRay]
    ext <;> simp only <;> field_simp
  · have h' : length (dirOf r) = length ⟨r.d.x.val, r.d.y.val, r.d.z.val⟩ := rfl
    rw [h'] at hpos ⊢
    simp only [BBox.InRange, unitRay]
    apply and_congr
    · cases r.mint <;> simp [mulPos, F.le, mul_le_mul_iff_left₀ hpos]
    · cases r.maxt <;> simp [mulPos, F.le, mul_le_mul_iff_left₀ hpos]

/-- the number of samples times the step is within one step of the length -/
theorem count_close {step u t0 t1 : ℝ} (hs : 0 < step) (hu0 : 0 ≤ u) (hu1 : u ≤ 1) (h01 : t0 ≤ t1) {n : ℕ}
    (hn : ∀ k : ℕ, k < n ↔ t0 + (k + u) * step < t1) : |n * step - (t1 - t0)| ≤ step := by
  have h1 : ¬ (t0 + (n + u) * step < t1) := fun h => absurd ((hn n).2 h) (lt_irrefl _)
  rw [abs_le]
  constructor
  · push Not at h1
    nlinarith
  · rcases n with _ | n
    · simp; linarith
    · have h2 := (hn n).1 (by omega)
      push_cast
      nlinarith

/-- **C109** for constant attenuation along the ray the result is within one step of the exact optical thickness -/
theorem C109_constant (d : Dens) (r : FRay ℝ) (step u t0 t1 c res : ℝ) (hs : 0 < step) (hl : length (dirOf r) ≠ 0) (hu0 : 0 ≤ u) (hu1 : u ≤ 1) (h01 : t0 ≤ t1)
    (hh : d.hit (unitRay r) = some (.fin t0, .fin t1)) (hc : ∀ t, t0 ≤ t → t < t1 → d.sigmaT (BBox.FRay.at (unitRay r) t) = c) (hres : d.Tau r step u res) :
    |res - c * (t1 - t0)| ≤ |c| * step := by
  obtain ⟨n, hn, hiff⟩ := C109_tau d r step u t0 t1 hs hl hh
  rw [hiff] at hres
  have : ∑ k ∈ Finset.range n, d.sigmaT (BBox.FRay.at (unitRay r) (t0 + (k + u) * step)) = n * c := by
    rw [Finset.sum_congr rfl (g := fun _ => c)]
    · simp
    · intro k hk
      refine hc _ ?_ ((hn k).1 (Finset.mem_range.1 hk))
      have : (0:ℝ) ≤ k := Nat.cast_nonneg k
      nlinarith [mul_nonneg (add_nonneg this hu0) hs.le]
  rw [hres, this]
  have e : step * (n * c) - c * (t1 - t0) = c * (n * step - (t1 - t0)) := by ring
  rw [e, abs_mul]
  exact mul_le_mul_of_nonneg_left (count_close hs hu0 hu1 h01 hn) (abs_nonneg _)

/-- **C109** for densities that vary smoothly inside the region (agreeing there with a bounded function of bounded slope) the error of the result is at
most a constant times the step -/
theorem C109_converges (d : Dens) (r : FRay ℝ) (step u t0 t1 M B res : ℝ) (f : ℝ → ℝ) (hs : 0 < step) (hl : length (dirOf r) ≠ 0) (hu0 : 0 ≤ u) (hu1 : u ≤ 1)
    (h01 : t0 ≤ t1) (hh : d.hit (unitRay r) = some (.fin t0, .fin t1)) (hf : ∀ t, t0 ≤ t → t < t1 → d.sigmaT (BBox.FRay.at (unitRay r) t) = f t)
    (hM0 : 0 ≤ M) (hM : ∀ x y, |f x - f y| ≤ M * |x - y|) (hB : ∀ x, |f x| ≤ B) (hres : d.Tau r step u res) :
    |res - ∫ t in t0..t1, d.sigmaT (BBox.FRay.at (unitRay r) t)| ≤ (M * (t1 - t0 + step) + B) * step := by
  obtain ⟨n, hn, hiff⟩ := C109_tau d r step u t0 t1 hs hl hh
  rw [hiff] at hres
  have hcont : Continuous f := by
    have : LipschitzWith ⟨M, hM0⟩ f := LipschitzWith.of_dist_le_mul (fun x y => by rw [Real.dist_eq, Real.dist_eq]; exact hM x y)
    exact this.continuous
  have hint : ∀ a b, IntervalIntegrable f volume a b := fun a b => hcont.intervalIntegrable a b
  have hI : ∫ t in t0..t1, d.sigmaT (BBox.FRay.at (unitRay r) t) = ∫ t in t0..t1, f t := by
    apply intervalIntegral.integral_congr_ae
    have : ∀ᵐ t ∂(volume : Measure ℝ), t ≠ t1 := by
      rw [ae_iff]; simp
    filter_upwards [this] with t ht hmem
    rw [Set.uIoc_of_le h01] at hmem
    exact hf t hmem.1.le (lt_of_le_of_ne hmem.2 ht)
  have hS : ∑ k ∈ Finset.range n, d.sigmaT (BBox.FRay.at (unitRay r) (t0 + (k + u) * step)) = ∑ k ∈ Finset.range n, f (t0 + (k + u) * step) := by
    apply Finset.sum_congr rfl
    intro k hk
    refine hf _ ?_ ((hn k).1 (Finset.mem_range.1 hk))
    have : (0:ℝ) ≤ k := Nat.cast_nonneg k
    nlinarith [mul_nonneg (add_nonneg this hu0) hs.le]
  -- each cell
  have cell : ∀ k : ℕ, |step * f (t0 + (k + u) * step) - ∫ t in (t0 + k * step)..(t0 + (k + 1 : ℕ) * step), f t| ≤ M * step * step := by
    intro k
    have hle : t0 + k * step ≤ t0 + (k + 1 : ℕ) * step := by push_cast; nlinarith
    have e : step * f (t0 + (k + u) * step) = ∫ _ in (t0 + k * step)..(t0 + (k + 1 : ℕ) * step), f (t0 + (k + u) * step) := by
      rw [intervalIntegral.integral_const, smul_eq_mul]; push_cast; ring
    rw [e, ← intervalIntegral.integral_sub intervalIntegrable_const (hint _ _)]
    have := intervalIntegral.norm_integral_le_of_norm_le_const (a := t0 + k * step) (b := t0 + (k + 1 : ℕ) * step) (C := M * step)
      (f := fun t => f (t0 + (k + u) * step) - f t) ?_
    · rw [Real.norm_eq_abs] at this
      refine this.trans (le_of_eq ?_)
      have : t0 + (k + 1 : ℕ) * step - (t0 + k * step) = step := by push_cast; ring
      rw [this, abs_of_pos hs]
    · intro t ht
      rw [Set.uIoc_of_le hle] at ht
      rw [Real.norm_eq_abs]
      refine (hM _ _).trans (mul_le_mul_of_nonneg_left ?_ hM0)
      have h1 := ht.1
      have h2 := ht.2
      push_cast at h2
      rw [abs_le]
      constructor <;> nlinarith
  have sumcells : ∑ k ∈ Finset.range n, ∫ t in (t0 + k * step)..(t0 + (k + 1 : ℕ) * step), f t = ∫ t in t0..(t0 + n * step), f t := by
    have := intervalIntegral.sum_integral_adjacent_intervals (f := f) (μ := volume) (a := fun k : ℕ => t0 + k * step) (n := n) (fun k _ => hint _ _)
    simpa using this
  have close := count_close hs hu0 hu1 h01 hn
  have part1 : |step * ∑ k ∈ Finset.range n, f (t0 + (k + u) * step) - ∫ t in t0..(t0 + n * step), f t| ≤ n * (M * step * step) := by
    rw [← sumcells, Finset.mul_sum, ← Finset.sum_sub_distrib]
    refine (Finset.abs_sum_le_sum_abs _ _).trans ((Finset.sum_le_sum (fun k _ => cell k)).trans (le_of_eq ?_))
    simp
  have part2 : |(∫ t in t0..(t0 + n * step), f t) - ∫ t in t0..t1, f t| ≤ B * step := by
    rw [intervalIntegral.integral_interval_sub_left (hint _ _) (hint _ _)]
    have := intervalIntegral.norm_integral_le_of_norm_le_const (a := t1) (b := t0 + n * step) (C := B) (f := f) (fun t _ => by rw [Real.norm_eq_abs]; exact hB t)
    rw [Real.norm_eq_abs] at this
    refine this.trans (mul_le_mul_of_nonneg_left ?_ ((abs_nonneg _).trans (hB 0)))
    have e : t0 + n * step - t1 = n * step - (t1 - t0) := by ring
    rw [e]; exact close
  rw [hI, hres, hS]
  have hn' : n * step ≤ t1 - t0 + step := by linarith [(abs_le.1 close).2]
  have tri := abs_sub_le (step * ∑ k ∈ Finset.range n, f (t0 + (k + u) * step)) (∫ t in t0..(t0 + n * step), f t) (∫ t in t0..t1, f t)
  have : n * (M * step * step) ≤ M * (t1 - t0 + step) * step := by
    have := mul_le_mul_of_nonneg_left hn' (mul_nonneg hM0 hs.le)
    nlinarith
  nlinarith

/-- **C109** with a step that is not positive the loop never stops on a segment of positive length -/
theorem C109_step_not_positive (σ : ℝ → ℝ) (step t1 t0 acc : ℝ) (hs : step ≤ 0) (h : t0 < t1) : ¬ ∃ res, Marched σ step t1 t0 acc res := by
  rintro ⟨res, hm⟩
  induction hm with
  | stop h' => exact h' h
  | more _ _ ih => exact ih (by linarith)

/-- the hypotheses of `C109_constant` hold for a region of unit density -/
example : ∃ (d : Dens) (r : FRay ℝ) (t0 t1 : ℝ), length (dirOf r) ≠ 0 ∧ t0 ≤ t1 ∧ d.hit (unitRay r) = some (.fin t0, .fin t1) ∧
    (∀ t, t0 ≤ t → t < t1 → d.sigmaT (BBox.FRay.at (unitRay r) t) = 3) :=
  ⟨⟨1, 2, 0, 0, ident, fun _ => 1, fun _ => some (.fin 0, .fin 5)⟩, ⟨⟨0, 0, 0⟩, ⟨⟨2, false⟩, ⟨0, false⟩, ⟨0, false⟩⟩, .fin 0, .pinf⟩, 0, 5,
    by norm_num [length, sqLength, dirOf], by norm_num, rfl, fun _ _ _ => by norm_num [Dens.sigmaT]⟩

end Verif.Volume
