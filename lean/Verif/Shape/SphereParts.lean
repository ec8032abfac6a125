import Verif.Shape.CylRounded

/-!
# Parts of spheres in rounded arithmetic (C194)

`Sphere.intersect` (`pytracer/shape/sphere.py` 121-183) for spheres cut by two planes and a sector of angles, with every operation rounded to binary64: the model is `Verif.SphereR.HitR`
(`Verif/Shape/SphereRounded.lean`), whose complete spheres are C191.
-/

namespace Verif.SphereParts
open V3 Verif.Rnd Verif.XformR Verif.Shape Verif.GeomR Verif.SphereR
open Verif.Xform (Transform M4 homog)
open Verif.DiskR (RayR Arctan2 HasAngle axisDist angleR twoPi angle_close angle_near arctan2_round)
open Verif.CylR (Within Before After place_pos le_max gt_max ge_min lt_min)

/-! ### Specification -/

/-- `p`, a point of the sphere, is in the part that `s` keeps, by a margin that belongs to `δ` -/
structure Inside (s : Sphere) (p : V3 ℝ) (δ : ℝ) : Prop where
  low : s.zmin ≤ -s.radius ∨ s.zmin + δ ≤ p.z
  high : s.radius ≤ s.zmax ∨ p.z + δ ≤ s.zmax
  angle : s.phiMax = twoPi ∨ ∃ θ, HasAngle p δ θ ∧ θ + (8 * δ / axisDist p + 2 ^ (-46 : ℤ)) ≤ s.phiMax

/-- `p` is in the rest, by such a margin -/
def Outside (s : Sphere) (p : V3 ℝ) (δ : ℝ) : Prop :=
  (-s.radius < s.zmin ∧ p.z + δ < s.zmin) ∨ (s.zmax < s.radius ∧ s.zmax + δ < p.z) ∨ ∃ θ, HasAngle p δ θ ∧ s.phiMax + (8 * δ / axisDist p + 2 ^ (-46 : ℤ)) < θ

/-! ### The clipping tests -/

section
variable {at2 : ℝ → ℝ → ℝ} {roots : ℝ → ℝ → ℝ → Option (ℝ × ℝ)} {s : Sphere} {w2o : Transform ℝ} {r q : Shape.Ray ℝ} {τ0 τ1 κ ε σ δ : ℝ}

theorem nudge_z (s : Sphere) (p : V3 ℝ) : (nudgeR s p).z = p.z := by
  simp only [nudgeR]; split_ifs <;> rfl

/-- a point with an angle is not on the axis -/
theorem nudge_angle (s : Sphere) {p P : V3 ℝ} {θ : ℝ} (δ0 : 0 < δ) (hx : |p.x - P.x| ≤ δ) (hy : |p.y - P.y| ≤ δ) (h : HasAngle P δ θ) : nudgeR s p = p := by
  simp only [nudgeR]
  rw [if_neg]
  rintro ⟨e1, e2⟩
  rw [e1, zero_sub, abs_neg] at hx
  rw [e2, zero_sub, abs_neg] at hy
  have f := h.far
  have k1 : P.x ^ 2 ≤ δ ^ 2 := by rw [← sq_abs]; gcongr
  have k2 : P.y ^ 2 ≤ δ ^ 2 := by rw [← sq_abs]; gcongr
  have : axisDist P ≤ 2 * δ := by
    rw [axisDist]
    exact Real.sqrt_le_iff.2 ⟨by linarith, by nlinarith⟩
  linarith

theorem kept (h2 : Arctan2 at2) {p P : V3 ℝ} (δ0 : 0 < δ) (hp : ∀ i, |p.get i - P.get i| ≤ δ) (hin : Inside s P δ) : ¬ ClippedR at2 s (nudgeR s p) := by
  have px := hp 0
  have py := hp 1
  have pz := hp 2
  change |p.x - P.x| ≤ δ at px
  change |p.y - P.y| ≤ δ at py
  change |p.z - P.z| ≤ δ at pz
  obtain ⟨z1, z2⟩ := abs_le.1 pz
  rintro (⟨h', h⟩ | ⟨h', h⟩ | h)
  · rw [nudge_z] at h
    rcases hin.low with e | e <;> linarith
  · rw [nudge_z] at h
    rcases hin.high with e | e <;> linarith
  · rcases hin.angle with e | ⟨θ, hθ, hm⟩
    · rw [e] at h; exact absurd (angle_close h2 _).2.1 (not_le.2 h)
    · rw [nudge_angle s δ0 px py hθ] at h
      have := le_of_abs_le (angle_near h2 δ0 px py hθ)
      have z : (2 : ℝ) ^ (-47 : ℤ) ≤ 2 ^ (-46 : ℤ) := zpow_le_zpow_right₀ (by norm_num) (by norm_num)
      linarith

theorem cut (h2 : Arctan2 at2) {p P : V3 ℝ} (δ0 : 0 < δ) (hp : ∀ i, |p.get i - P.get i| ≤ δ) (hout : Outside s P δ) : ClippedR at2 s (nudgeR s p) := by
  have px := hp 0
  have py := hp 1
  have pz := hp 2
  change |p.x - P.x| ≤ δ at px
  change |p.y - P.y| ≤ δ at py
  change |p.z - P.z| ≤ δ at pz
  obtain ⟨z1, z2⟩ := abs_le.1 pz
  rcases hout with ⟨h', h⟩ | ⟨h', h⟩ | ⟨θ, hθ, hm⟩
  · exact Or.inl ⟨h', by rw [nudge_z]; linarith⟩
  · exact Or.inr (Or.inl ⟨h', by rw [nudge_z]; linarith⟩)
  · refine Or.inr (Or.inr ?_)
    rw [nudge_angle s δ0 px py hθ]
    have := neg_le_of_abs_le (angle_near h2 δ0 px py hθ)
    have z : (2 : ℝ) ^ (-47 : ℤ) ≤ 2 ^ (-46 : ℤ) := zpow_le_zpow_right₀ (by norm_num) (by norm_num)
    linarith

/-! ### The intersection -/

/-- **C194** A ray that clearly meets the part of the sphere where it enters the sphere is reported to hit it there … -/
theorem C194_near (h2 : Arctan2 at2) (hr : RootsOk ε roots) (ε0 : 0 ≤ ε) (ok : RayOk w2o r s.radius) (h : Passes s w2o r τ0 τ1 κ ε σ) (hp : Place w2o r τ0 σ δ)
    (hw : Within r τ0 σ) (hin : Inside s (w2o.pt (r.pos τ0)) δ) (x : Res) (hx : HitR at2 roots s w2o r x) :
    ∃ t p p', x = .hit t p' ∧ OffAxis s.radius p p' ∧ |t - τ0| ≤ σ ∧ ∀ i, |p.get i - (w2o.pt (r.pos τ0)).get i| ≤ δ := by
  obtain ⟨q, d, hq, hd, rfl⟩ := hx
  obtain ⟨t0, t1, e, c0, c1⟩ := solved (at2 := at2) hr ε0 ok hq hd h
  have σ0 : 0 ≤ σ := (abs_nonneg _).trans c0
  have ap := h.apart
  have lt := h.lt
  have k := kept h2 (place_pos σ0 hp) (position ok hq hp c0) hin
  have l0 := ge_min hq c0 hw.1
  have l1 : ¬ t1 < q.mint := ge_min hq c1 (by linarith [hw.1])
  refine ⟨t0, atR q.o q.d t0, nudgeR s (atR q.o q.d t0), ?_, nudge_off _ _, c0, position ok hq hp c0⟩
  rw [e]
  simp only [chooseR]
  rw [if_neg (not_or.2 ⟨le_max hq c0 hw.2, l1⟩), if_neg (fun hc => l0 hc.1), if_neg l0, if_neg k]

/-- … one that clearly meets it where it leaves, having started inside the sphere or entered where it is cut away, is reported to hit it there … -/
theorem C194_far (h2 : Arctan2 at2) (hr : RootsOk ε roots) (ε0 : 0 ≤ ε) (ok : RayOk w2o r s.radius) (h : Passes s w2o r τ0 τ1 κ ε σ) (hp0 : Place w2o r τ0 σ δ) (hp1 : Place w2o r τ1 σ δ)
    (h0 : Before r τ0 σ ∨ (Within r τ0 σ ∧ Outside s (w2o.pt (r.pos τ0)) δ)) (hw : Within r τ1 σ) (hin : Inside s (w2o.pt (r.pos τ1)) δ) (x : Res) (hx : HitR at2 roots s w2o r x) :
    ∃ t p p', x = .hit t p' ∧ OffAxis s.radius p p' ∧ |t - τ1| ≤ σ ∧ ∀ i, |p.get i - (w2o.pt (r.pos τ1)).get i| ≤ δ := by
  obtain ⟨q, d, hq, hd, rfl⟩ := hx
  obtain ⟨t0, t1, e, c0, c1⟩ := solved (at2 := at2) hr ε0 ok hq hd h
  have σ0 : 0 ≤ σ := (abs_nonneg _).trans c0
  have ap := h.apart
  have lt := h.lt
  have k := kept h2 (place_pos σ0 hp1) (position ok hq hp1 c1) hin
  have l1 := ge_min hq c1 hw.1
  have m1 := le_max hq c1 hw.2
  have m0 : ¬ (t0 : WithTop ℝ) > q.maxt := fun hc => m1 (lt_of_lt_of_le hc (WithTop.coe_le_coe.2 (by linarith [(abs_le.1 c0).2, (abs_le.1 c1).1])))
  refine ⟨t1, atR q.o q.d t1, nudgeR s (atR q.o q.d t1), ?_, nudge_off _ _, c1, position ok hq hp1 c1⟩
  rw [e]
  simp only [chooseR]
  rw [if_neg (not_or.2 ⟨m0, l1⟩), if_neg (fun hc => m1 hc.2)]
  rcases h0 with h0 | ⟨h0, ho⟩
  · rw [if_pos (lt_min hq c0 h0), if_neg k]
  · have ne : ¬ t0 = t1 := fun hc => by
      linarith [(abs_le.1 c0).2, (abs_le.1 c1).1]
    rw [if_neg (ge_min hq c0 h0.1), if_pos (cut h2 (place_pos σ0 hp0) (position ok hq hp0 c0) ho), if_neg (not_or.2 ⟨ne, m1⟩), if_neg k]

/-- … and one for which both points are clearly out of its range or where the sphere is cut away is not reported. -/
theorem C194_neither (h2 : Arctan2 at2) (hr : RootsOk ε roots) (ε0 : 0 ≤ ε) (ok : RayOk w2o r s.radius) (h : Passes s w2o r τ0 τ1 κ ε σ) (hp0 : Place w2o r τ0 σ δ) (hp1 : Place w2o r τ1 σ δ)
    (h0 : Before r τ0 σ ∨ After r τ0 σ ∨ Outside s (w2o.pt (r.pos τ0)) δ) (h1 : Before r τ1 σ ∨ After r τ1 σ ∨ Outside s (w2o.pt (r.pos τ1)) δ) (x : Res) (hx : HitR at2 roots s w2o r x) : x = .miss := by
  obtain ⟨q, d, hq, hd, rfl⟩ := hx
  obtain ⟨t0, t1, e, c0, c1⟩ := solved (at2 := at2) hr ε0 ok hq hd h
  have σ0 : 0 ≤ σ := (abs_nonneg _).trans c0
  have f0 : t0 < q.mint ∨ (t0 : WithTop ℝ) > q.maxt ∨ ClippedR at2 s (nudgeR s (atR q.o q.d t0)) := by
    rcases h0 with h0 | h0 | h0
    · exact Or.inl (lt_min hq c0 h0)
    · exact Or.inr (Or.inl (gt_max hq c0 h0))
    · exact Or.inr (Or.inr (cut h2 (place_pos σ0 hp0) (position ok hq hp0 c0) h0))
  have f1 : t1 < q.mint ∨ (t1 : WithTop ℝ) > q.maxt ∨ ClippedR at2 s (nudgeR s (atR q.o q.d t1)) := by
    rcases h1 with h0 | h0 | h0
    · exact Or.inl (lt_min hq c1 h0)
    · exact Or.inr (Or.inl (gt_max hq c1 h0))
    · exact Or.inr (Or.inr (cut h2 (place_pos σ0 hp1) (position ok hq hp1 c1) h0))
  rw [e]
  simp only [chooseR]
  by_cases g1 : (t0 : WithTop ℝ) > q.maxt ∨ t1 < q.mint
  · rw [if_pos g1]
  rw [if_neg g1]
  obtain ⟨n1, n2⟩ := not_or.1 g1
  by_cases g2 : t0 < q.mint ∧ (t1 : WithTop ℝ) > q.maxt
  · rw [if_pos g2]
  rw [if_neg g2]
  by_cases g3 : t0 < q.mint
  · have cl : ClippedR at2 s (nudgeR s (atR q.o q.d t1)) := by
      rcases f1 with f | f | f
      · exact absurd f n2
      · exact absurd ⟨g3, f⟩ g2
      · exact f
    rw [if_pos g3, if_pos cl, if_pos (Or.inl rfl)]
  · have cl : ClippedR at2 s (nudgeR s (atR q.o q.d t0)) := by
      rcases f0 with f | f | f
      · exact absurd f g3
      · exact absurd f n1
      · exact f
    rw [if_neg g3, if_pos cl]
    by_cases g4 : t0 = t1 ∨ (t1 : WithTop ℝ) > q.maxt
    · rw [if_pos g4]
    · rw [if_neg g4]
      have cl1 : ClippedR at2 s (nudgeR s (atR q.o q.d t1)) := by
        rcases f1 with f | f | f
        · exact absurd f n2
        · exact absurd (Or.inr f) g4
        · exact f
      rw [if_pos cl1]

end

/-! ### Concrete cases -/

/-- the lower half of the unit ball -/
noncomputable def bowl : Sphere := ⟨1, -1, 0, twoPi⟩

theorem down_place (t : ℝ) (ht : |t| ≤ 5) : Place Xform.ident downRay t (2 ^ (-35 : ℤ)) (2 ^ (-33 : ℤ)) := fun i => by
  have tiny' : (2 : ℝ) ^ (-500 : ℤ) ≤ 2 ^ (-60 : ℤ) := zpow_le_zpow_right₀ (by norm_num) (by norm_num)
  generalize (2 : ℝ) ^ (-500 : ℤ) = e at *
  have := abs_nonneg t
  fin_cases i <;> simp [Xform.ident, sizeVec, size, downRay] <;> norm_num at tiny' ⊢ <;> linarith

/-- a ray from above enters the ball where the bowl is cut away and is reported to hit it at the bottom, at the distance 5 -/
example : ∀ x, HitR (fun y x => double (Complex.arg ⟨x, y⟩)) exactRoots bowl Xform.ident downRay x → ∃ t p, x = .hit t p ∧ |t - 5| ≤ 2 ^ (-35 : ℤ) := fun x hx => by
  have hp : Passes bowl Xform.ident downRay 3 5 1 0 (2 ^ (-35 : ℤ)) := by
    obtain ⟨a1, a2, a3, a4, a5, a6, a7, a8, a9, a10, a11⟩ := down_passes
    exact ⟨a1, a2, a3, a4, a5, a6, a7, a8, a9, a10, a11⟩
  obtain ⟨t, _, p, e, -, c, -⟩ := C194_far (s := bowl) arctan2_round exactRoots_ok le_rfl down_ok hp (down_place 3 (by norm_num [abs_of_pos])) (down_place 5 (by norm_num [abs_of_pos]))
    (Or.inr ⟨⟨by norm_num [downRay], le_top⟩, Or.inr (Or.inl ⟨by norm_num [bowl], by simp [Xform.ident, Transform.pt, homog, Shape.Ray.pos, V3.rayAt, downRay, bowl]; norm_num⟩)⟩)
    ⟨by norm_num [downRay], le_top⟩ ⟨Or.inl (by norm_num [bowl]), Or.inr (by simp [Xform.ident, Transform.pt, homog, Shape.Ray.pos, V3.rayAt, downRay, bowl]; norm_num), Or.inl rfl⟩ x hx
  exact ⟨t, p, e, c⟩

end Verif.SphereParts
