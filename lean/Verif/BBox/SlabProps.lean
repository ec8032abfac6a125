import Verif.BBox.SlabLemmas
import Mathlib.Tactic.NormNum

/-!
# Property C02 (ray/box slab test)
-/

namespace Verif.BBox
open F
set_option linter.unusedSectionVars false
variable {K : Type*} [Field K] [LinearOrder K] [IsStrictOrderedRing K]

/-! ## Specification -/

/-- the point of the ray at finite parameter `t` -/
def FRay.at (r : FRay K) (t : K) : V3 K :=
  ⟨r.o.x + r.d.x.val * t, r.o.y + r.d.y.val * t, r.o.z + r.d.z.val * t⟩

/-- a finite point is in the closed box (box sides may be infinite) -/
def InBox (b : BBox (F K)) (p : V3 K) : Prop :=
  (F.le b.pMin.x (fin p.x) = true ∧ F.le (fin p.x) b.pMax.x = true) ∧
  (F.le b.pMin.y (fin p.y) = true ∧ F.le (fin p.y) b.pMax.y = true) ∧
  (F.le b.pMin.z (fin p.z) = true ∧ F.le (fin p.z) b.pMax.z = true)

/-- the parameter is in the ray's range -/
def InRange (r : FRay K) (t : K) : Prop := F.le r.mint (fin t) = true ∧ F.le (fin t) r.maxt = true

/-- proper box: `pMin ≤ pMax` on each axis (this also excludes NaN sides) -/
def FProper (b : BBox (F K)) : Prop :=
  F.le b.pMin.x b.pMax.x = true ∧ F.le b.pMin.y b.pMax.y = true ∧ F.le b.pMin.z b.pMax.z = true

/-- the one excluded situation: a direction component `-0.0` with the origin exactly on one of the
two face planes of that axis -/
def GrazesNegZero (lo hi : F K) (o : K) (d : Dir K) : Prop :=
  d.val = 0 ∧ d.negZero = true ∧ (lo = fin o ∨ hi = fin o)

def NoGraze (b : BBox (F K)) (r : FRay K) : Prop :=
  ¬ GrazesNegZero b.pMin.x b.pMax.x r.o.x r.d.x ∧ ¬ GrazesNegZero b.pMin.y b.pMax.y r.o.y r.d.y ∧
  ¬ GrazesNegZero b.pMin.z b.pMax.z r.o.z r.d.z

/-- all six sides finite -/
def FiniteBox (b : BBox (F K)) : Prop :=
  ∃ lo hi : V3 K, b = ⟨⟨fin lo.x, fin lo.y, fin lo.z⟩, ⟨fin hi.x, fin hi.y, fin hi.z⟩⟩

/-- the full English claim of C02 for one box and ray -/
def SlabExact (b : BBox (F K)) (r : FRay K) : Prop :=
  match intersectP b r with
  | none => ∀ t, InRange r t → ¬ InBox b (FRay.at r t)
  | some (t0, t1) => ∀ t, In t0 t1 t ↔ InRange r t ∧ InBox b (FRay.at r t)

/-- **C02 (main part)**: the test is exact for every proper box (finite or not) and every ray,
axis-parallel rays included, except when a `-0.0` component meets an origin on a face plane of
that axis.  Full statement: `∀ b r, FProper b → … → SlabExact b r` without `NoGraze`; it is false
(`C02_negative_zero_false`). -/
theorem C02_slab_exact_partial (b : BBox (F K)) (r : FRay K) (hb : FProper b)
    (h0 : r.mint ≠ nan) (h1 : r.maxt ≠ nan) (hg : NoGraze b r) : SlabExact b r := by
  obtain ⟨bx, by', bz⟩ := hb
  obtain ⟨gx, gy, gz⟩ := hg
  unfold SlabExact
  obtain ⟨x0, x1, hx⟩ := slabAxis_spec b.pMin.x b.pMax.x r.o.x r.d.x r.mint r.maxt h0 h1 bx gx
  set ax := slabAxis b.pMin.x b.pMax.x r.o.x r.d.x r.mint r.maxt with hax
  obtain ⟨y0, y1, hy⟩ := slabAxis_spec b.pMin.y b.pMax.y r.o.y r.d.y ax.1 ax.2 x0 x1 by' gy
  set ay := slabAxis b.pMin.y b.pMax.y r.o.y r.d.y ax.1 ax.2 with hay
  obtain ⟨z0, z1, hz⟩ := slabAxis_spec b.pMin.z b.pMax.z r.o.z r.d.z ay.1 ay.2 y0 y1 bz gz
  set az := slabAxis b.pMin.z b.pMax.z r.o.z r.d.z ay.1 ay.2 with haz
  have hI : intersectP b r = if F.gt ax.1 ax.2 then none else if F.gt ay.1 ay.2 then none else
    if F.gt az.1 az.2 then none else some az := rfl
  rw [hI]
  have all : ∀ t, In az.1 az.2 t ↔ InRange r t ∧ InBox b (FRay.at r t) := by
    intro t
    rw [hz t, hy t, hx t]
    simp only [InRange, InBox, FRay.at, In]; tauto
  by_cases c1 : F.gt ax.1 ax.2 = true
  · rw [if_pos c1]
    intro t ht hin
    exact gt_true_not_In c1 t ((hx t).2 ⟨ht, hin.1⟩)
  by_cases c2 : F.gt ay.1 ay.2 = true
  · rw [if_neg c1, if_pos c2]
    intro t ht hin
    exact gt_true_not_In c2 t ((hy t).2 ⟨(hx t).2 ⟨ht, hin.1⟩, hin.2.1⟩)
  by_cases c3 : F.gt az.1 az.2 = true
  · rw [if_neg c1, if_neg c2, if_pos c3]
    intro t ht hin
    exact gt_true_not_In c3 t ((all t).2 ⟨ht, hin⟩)
  · rw [if_neg c1, if_neg c2, if_neg c3]
    exact all

/-- **C02 (answer True means a real hit)**: for a finite box and a non-zero direction, `True` comes
with finite `t0 ≤ t1`, both of which are parameters of points inside the box. -/
theorem C02_true_means_hit_partial (b : BBox (F K)) (r : FRay K) (hb : FProper b)
    (hfin : FiniteBox b) (h0 : r.mint ≠ nan) (h1 : r.maxt ≠ nan) (hg : NoGraze b r)
    (hd : r.d.x.val ≠ 0 ∨ r.d.y.val ≠ 0 ∨ r.d.z.val ≠ 0) (t0 t1 : F K)
    (h : intersectP b r = some (t0, t1)) :
    ∃ s0 s1 : K, t0 = fin s0 ∧ t1 = fin s1 ∧ s0 ≤ s1 ∧
      (InRange r s0 ∧ InBox b (FRay.at r s0)) ∧ (InRange r s1 ∧ InBox b (FRay.at r s1)) := by
  have hex := C02_slab_exact_partial b r hb h0 h1 hg
  simp only [SlabExact, h] at hex
  obtain ⟨bx, by', bz⟩ := hb
  obtain ⟨gx, gy, gz⟩ := hg
  unfold intersectP at h
  obtain ⟨x0, x1, hx⟩ := slabAxis_spec b.pMin.x b.pMax.x r.o.x r.d.x r.mint r.maxt h0 h1 bx gx
  set ax := slabAxis b.pMin.x b.pMax.x r.o.x r.d.x r.mint r.maxt with hax
  obtain ⟨y0, y1, hy⟩ := slabAxis_spec b.pMin.y b.pMax.y r.o.y r.d.y ax.1 ax.2 x0 x1 by' gy
  obtain ⟨ys0, ys1⟩ := slabAxis_shrinks b.pMin.y b.pMax.y r.o.y r.d.y ax.1 ax.2 x0 x1
  set ay := slabAxis b.pMin.y b.pMax.y r.o.y r.d.y ax.1 ax.2 with hay
  obtain ⟨z0, z1, hz⟩ := slabAxis_spec b.pMin.z b.pMax.z r.o.z r.d.z ay.1 ay.2 y0 y1 bz gz
  obtain ⟨zs0, zs1⟩ := slabAxis_shrinks b.pMin.z b.pMax.z r.o.z r.d.z ay.1 ay.2 y0 y1
  set az := slabAxis b.pMin.z b.pMax.z r.o.z r.d.z ay.1 ay.2 with haz
  simp only at h
  split_ifs at h with c1 c2 c3
  simp only [Option.some.injEq] at h
  have h' : az = (t0, t1) := h
  have e0 : az.1 = t0 := by rw [h']
  have e1 : az.2 = t1 := by rw [h']
  have hle := gt_false_le z0 z1 (Bool.not_eq_true _ ▸ c3)
  obtain ⟨lo, hi, rfl⟩ := hfin
  have hbd : (∃ x, F.le (fin x) az.1 = true) ∧ (∃ x, F.le az.2 (fin x) = true) := by
    rcases hd with hd | hd | hd
    · obtain ⟨⟨u, hu⟩, ⟨v, hv⟩⟩ := slabAxis_bounded lo.x hi.x r.o.x r.d.x hd r.mint r.maxt h0 h1
      exact ⟨⟨u, F_le_trans (F_le_trans hu ys0) zs0⟩, ⟨v, F_le_trans zs1 (F_le_trans ys1 hv)⟩⟩
    · obtain ⟨⟨u, hu⟩, ⟨v, hv⟩⟩ := slabAxis_bounded lo.y hi.y r.o.y r.d.y hd ax.1 ax.2 x0 x1
      exact ⟨⟨u, F_le_trans hu zs0⟩, ⟨v, F_le_trans zs1 hv⟩⟩
    · exact slabAxis_bounded lo.z hi.z r.o.z r.d.z hd ay.1 ay.2 y0 y1
  rw [e0, e1] at hbd
  rw [e0, e1] at hle
  obtain ⟨⟨u, hu⟩, ⟨v, hv⟩⟩ := hbd
  cases t0 <;> cases t1 <;> simp [F.le] at hu hv hle
  rename_i s0 s1
  exact ⟨s0, s1, rfl, rfl, hle, (hex s0).1 (by simp [In, F.le, hle]), (hex s1).1 (by simp [In, F.le, hle])⟩

/-- **C02 (no true hit is lost for `+0.0`)**: with no `-0.0` component the exclusion is empty, so
the test is exact for *every* origin, face planes included. -/
theorem C02_exact_without_negative_zero_partial (b : BBox (F K)) (r : FRay K) (hb : FProper b)
    (h0 : r.mint ≠ nan) (h1 : r.maxt ≠ nan)
    (hp : r.d.x.negZero = false ∧ r.d.y.negZero = false ∧ r.d.z.negZero = false) :
    SlabExact b r := by
  obtain ⟨p1, p2, p3⟩ := hp
  apply C02_slab_exact_partial b r hb h0 h1
  refine ⟨?_, ?_, ?_⟩ <;> simp [GrazesNegZero, p1, p2, p3]

/-- the box [0,1]³ -/
def unitBox : BBox (F ℚ) := ⟨⟨fin 0, fin 0, fin 0⟩, ⟨fin 1, fin 1, fin 1⟩⟩

/-- **C02 is violated** with `-0.0`: a ray running inside the face x = 0 of the unit box, with x
direction `-0.0`, is reported as a miss although the point at t = 1/2 is in the box. -/
theorem C02_negative_zero_false :
    ∃ r : FRay ℚ, r.mint = fin 0 ∧ r.maxt = pinf ∧ intersectP unitBox r = none ∧
      InRange r (1/2) ∧ InBox unitBox (FRay.at r (1/2)) :=
  ⟨⟨⟨0, 0, 1/2⟩, ⟨⟨0, true⟩, ⟨1, false⟩, ⟨0, false⟩⟩, fin 0, pinf⟩, rfl, rfl, by decide +kernel,
    by simp [InRange, F.le], by simp [InBox, unitBox, FRay.at, F.le]; norm_num⟩

/-- **C02 is violated** for the default (empty) box: every ray with a non-zero direction is
reported to hit `BBox()`, although no point is inside it. -/
theorem C02_empty_box_reports_hit_false :
    ∃ b : BBox (F ℚ), b = ⟨⟨pinf, pinf, pinf⟩, ⟨ninf, ninf, ninf⟩⟩ ∧
      ∃ r : FRay ℚ, (intersectP b r).isSome = true ∧ ∀ p, ¬ InBox b p :=
  ⟨_, rfl, ⟨⟨0, 0, 0⟩, ⟨⟨1, false⟩, ⟨1, false⟩, ⟨1, false⟩⟩, fin 0, pinf⟩, by decide +kernel,
    by simp [InBox, F.le]⟩

/-- non-vacuity: an axis-parallel ray that hits, with its exact interval -/
example : intersectP unitBox ⟨⟨-1, 1/2, 0⟩, ⟨⟨2, false⟩, ⟨0, true⟩, ⟨0, false⟩⟩, fin 0, pinf⟩ =
    some (fin (1/2), fin 1) := by decide +kernel
example : FProper unitBox ∧ FiniteBox unitBox ∧
    NoGraze unitBox (⟨⟨-1, 1/2, 0⟩, ⟨⟨2, false⟩, ⟨0, true⟩, ⟨0, false⟩⟩, fin 0, pinf⟩ : FRay ℚ) := by
  refine ⟨by simp [FProper, unitBox, F.le], ⟨⟨0, 0, 0⟩, ⟨1, 1, 1⟩, rfl⟩, ?_⟩
  simp [NoGraze, GrazesNegZero, unitBox]

end Verif.BBox
