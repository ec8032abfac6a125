import Verif.Shape.Cylinder
import Verif.Shape.SphereRounded

/-!
# Cylinders in rounded arithmetic (C193)

`Cylinder.intersect` and `Cylinder.intersect_p` (`pytracer/shape/cylinder.py` 52-109 and 142-189) with every operation rounded to binary64, the ray being transformed by `self.w2o` with every order of
summation in `numpy.dot`.  `np.roots` and `np.arctan2` are as in `Verif.Shape.SphereRounded`: the exact roots of a polynomial with coefficients perturbed by a relative `ε`, and accurate to `2^-50`.
-/

namespace Verif.CylR
open V3 Verif.Rnd Verif.XformR Verif.Shape Verif.GeomR
open Verif.Xform (Transform M4 homog)
open Verif.DiskR (RayR Arctan2 HasAngle axisDist angleR twoPi angle_close angle_near arctan2_round)
open Verif.SphereR (RootsOk RayOk Place position root_close coeff_close real_roots rel48 o_flt d_flt two_flt four_flt exactRoots exactRoots_ok)

/-! ### Model -/

/-- what `intersect` does: `typeError` if `np.roots` returns complex numbers, which are compared in line 74; `attributeError` on every hit, as line 109 reads `self.thetaMax` -/
inductive Res
  | typeError
  | attributeError
  | miss
deriving DecidableEq

/-- cylinder.py 63 and 146 -/
noncomputable def coefA (ray : Shape.Ray ℝ) : ℝ := double (double (ray.d.x * ray.d.x) + double (ray.d.y * ray.d.y))
/-- cylinder.py 64 and 147 -/
noncomputable def coefB (ray : Shape.Ray ℝ) : ℝ := double (2 * double (double (ray.d.x * ray.o.x) + double (ray.d.y * ray.o.y)))
/-- cylinder.py 65 and 148 -/
noncomputable def coefC (R : ℝ) (ray : Shape.Ray ℝ) : ℝ := double (double (double (ray.o.x * ray.o.x) + double (ray.o.y * ray.o.y)) - double (R * R))
/-- cylinder.py 67 and 150 -/
noncomputable def coefD (R : ℝ) (ray : Shape.Ray ℝ) : ℝ :=
  double (double (coefB ray * coefB ray) - double (double (4 * coefA ray) * coefC R ray))

/-- cylinder.py 86-91, 98-102 and 169-174, 181-185 -/
def ClippedR (at2 : ℝ → ℝ → ℝ) (s : Cylinder) (p : V3 ℝ) : Prop := p.z < s.zmin ∨ p.z > s.zmax ∨ angleR at2 p > s.phiMax

open Classical in
/-- cylinder.py 76-109, from the roots in increasing order (the test in line 103 always holds, as line 96 has set `thit = t1`) -/
noncomputable def chooseR (at2 : ℝ → ℝ → ℝ) (s : Cylinder) (ray : Shape.Ray ℝ) (t0 t1 : ℝ) : Res :=
  if (t0 : WithTop ℝ) > ray.maxt ∨ t1 < ray.mint then .miss else
  if t0 < ray.mint ∧ (t1 : WithTop ℝ) > ray.maxt then .miss else
  let thit := if t0 < ray.mint then t1 else t0
  if ClippedR at2 s (atR ray.o ray.d thit) then
    if thit = t1 ∨ (t1 : WithTop ℝ) > ray.maxt then .miss else
    if ClippedR at2 s (atR ray.o ray.d t1) then .miss else .attributeError
  else .attributeError

/-- cylinder.py 63-109, the ray being in object space -/
noncomputable def hitObjR (at2 : ℝ → ℝ → ℝ) (roots : ℝ → ℝ → ℝ → Option (ℝ × ℝ)) (s : Cylinder) (ray : Shape.Ray ℝ) : Res :=
  if coefD s.radius ray ≤ 0 then .miss else
  match roots (coefA ray) (coefB ray) (coefC s.radius ray) with
  | none => .typeError
  | some (t0, t1) => if t0 > t1 then chooseR at2 s ray t1 t0 else chooseR at2 s ray t0 t1

open Classical in
/-- `intersect_p`, cylinder.py 159-189 (the test in line 186 always holds) -/
noncomputable def choosePR (at2 : ℝ → ℝ → ℝ) (s : Cylinder) (ray : Shape.Ray ℝ) (t0 t1 : ℝ) : Bool :=
  if (t0 : WithTop ℝ) > ray.maxt ∨ t1 < ray.mint then false else
  if t0 < ray.mint ∧ (t1 : WithTop ℝ) > ray.maxt then false else
  let thit := if t0 < ray.mint then t1 else t0
  if ClippedR at2 s (atR ray.o ray.d thit) then
    if thit = t1 ∨ (t1 : WithTop ℝ) > ray.maxt then false else
    if ClippedR at2 s (atR ray.o ray.d t1) then false else true
  else true

/-- `intersect_p`, cylinder.py 146-189; `none` is the `TypeError` -/
noncomputable def hitObjPR (at2 : ℝ → ℝ → ℝ) (roots : ℝ → ℝ → ℝ → Option (ℝ × ℝ)) (s : Cylinder) (ray : Shape.Ray ℝ) : Option Bool :=
  if coefD s.radius ray ≤ 0 then some false else
  match roots (coefA ray) (coefB ray) (coefC s.radius ray) with
  | none => none
  | some (t0, t1) => some (if t0 > t1 then choosePR at2 s ray t1 t0 else choosePR at2 s ray t0 t1)

/-- `intersect_p(r)` may return `b` (`none`: it raises) -/
def HitPR (at2 : ℝ → ℝ → ℝ) (roots : ℝ → ℝ → ℝ → Option (ℝ × ℝ)) (s : Cylinder) (w2o : Transform ℝ) (r : Shape.Ray ℝ) (b : Option Bool) : Prop :=
  ∃ q, RayR w2o r q ∧ b = hitObjPR at2 roots s q

/-! ### Specification -/

/-- sizes of the terms in the coefficients of the quadratic equation -/
noncomputable def sizeA (m : M4 ℝ) (r : Shape.Ray ℝ) : ℝ := sizeVec m r.d 0 ^ 2 + sizeVec m r.d 1 ^ 2
noncomputable def sizeB (m : M4 ℝ) (r : Shape.Ray ℝ) : ℝ := 2 * (sizeVec m r.d 0 * size m r.o 0 + sizeVec m r.d 1 * size m r.o 1)
noncomputable def sizeC (m : M4 ℝ) (r : Shape.Ray ℝ) (R : ℝ) : ℝ := size m r.o 0 ^ 2 + size m r.o 1 ^ 2 + R ^ 2

/-- the product of the parts of two vectors across the axis -/
def across (u v : V3 ℝ) : ℝ := u.x * v.x + u.y * v.y

/-- the discriminant, and the size of its terms -/
noncomputable def disc (w2o : Transform ℝ) (r : Shape.Ray ℝ) (R : ℝ) : ℝ :=
  (2 * across (w2o.vec r.d) (w2o.pt r.o)) ^ 2 - 4 * across (w2o.vec r.d) (w2o.vec r.d) * (across (w2o.pt r.o) (w2o.pt r.o) - R ^ 2)
noncomputable def sizeD (m : M4 ℝ) (r : Shape.Ray ℝ) (R : ℝ) : ℝ := sizeB m r ^ 2 + 4 * sizeA m r * sizeC m r R

/-- the line of the ray passes through the infinite cylinder between the parameters `τ0` and `τ1`, and the margins hold the rounding errors: `κ` is the condition of the coefficients, `ε` the accuracy of
`np.roots`, `σ` the error of the parameters -/
structure Passes (R : ℝ) (w2o : Transform ℝ) (r : Shape.Ray ℝ) (τ0 τ1 κ ε σ : ℝ) : Prop where
  lt : τ0 < τ1
  enters : (w2o.pt (r.pos τ0)).x ^ 2 + (w2o.pt (r.pos τ0)).y ^ 2 = R ^ 2
  leaves : (w2o.pt (r.pos τ1)).x ^ 2 + (w2o.pt (r.pos τ1)).y ^ 2 = R ^ 2
  A : 0 < across (w2o.vec r.d) (w2o.vec r.d)
  condA : sizeA w2o.m r ≤ κ * across (w2o.vec r.d) (w2o.vec r.d)
  condB : sizeB w2o.m r ≤ κ * (1 + |τ0 + τ1| + |τ0 * τ1|) * across (w2o.vec r.d) (w2o.vec r.d)
  condC : sizeC w2o.m r R ≤ κ * (1 + |τ0 + τ1| + |τ0 * τ1|) * across (w2o.vec r.d) (w2o.vec r.d)
  small : 2 ^ (-46 : ℤ) * κ + 2 * ε ≤ 1 / 64
  time : 6 * (2 ^ (-46 : ℤ) * κ + 2 * ε) * (1 + |τ0 + τ1| + |τ0 * τ1|) ^ 2 / (τ1 - τ0) ≤ σ
  apart : σ ≤ (τ1 - τ0) / 8
  deep : 2 ^ (-45 : ℤ) * sizeD w2o.m r R < disc w2o r R

/-- `p`, a point of the infinite cylinder, is in the piece that `s` keeps, by a margin that belongs to `δ` -/
structure Inside (s : Cylinder) (p : V3 ℝ) (δ : ℝ) : Prop where
  low : s.zmin + δ ≤ p.z
  high : p.z + δ ≤ s.zmax
  angle : s.phiMax = twoPi ∨ ∃ θ, HasAngle p δ θ ∧ θ + (8 * δ / axisDist p + 2 ^ (-46 : ℤ)) ≤ s.phiMax

/-- `p` is in the rest, by such a margin -/
def Outside (s : Cylinder) (p : V3 ℝ) (δ : ℝ) : Prop :=
  p.z + δ < s.zmin ∨ s.zmax + δ < p.z ∨ ∃ θ, HasAngle p δ θ ∧ s.phiMax + (8 * δ / axisDist p + 2 ^ (-46 : ℤ)) < θ

/-- the parameter `t` is in the range of the ray by the margin `σ` … -/
def Within (r : Shape.Ray ℝ) (t σ : ℝ) : Prop := r.mint + σ ≤ t ∧ ((t + σ : ℝ) : WithTop ℝ) ≤ r.maxt
/-- … before it … -/
def Before (r : Shape.Ray ℝ) (t σ : ℝ) : Prop := t + σ < r.mint
/-- … after it -/
def After (r : Shape.Ray ℝ) (t σ : ℝ) : Prop := r.maxt < ((t - σ : ℝ) : WithTop ℝ)

/-! ### The coefficients -/

section
variable {s : Cylinder} {w2o : Transform ℝ} {r q : Shape.Ray ℝ} {R : ℝ}

theorem pair_flt {k l : ℕ} {a b c d A B C D SA SB SC SD : ℝ} (ha : Flt k (-240) a A SA) (hb : Flt l (-240) b B SB) (hc : Flt k (-240) c C SC) (hd : Flt l (-240) d D SD) :
    Flt (k + l + 2) (-480) (double (double (a * b) + double (c * d))) (A * B + C * D) (SA * SB + SC * SD) :=
  Flt.radd (by norm_num) (Flt.rmul (by norm_num) ha hb) (Flt.rmul (by norm_num) hc hd)

theorem A_flt (ok : RayOk w2o r R) (hq : RayR w2o r q) : Flt 8 (-480) (coefA q) (across (w2o.vec r.d) (w2o.vec r.d)) (sizeA w2o.m r) := by
  have := pair_flt (d_flt ok hq.2.1 0) (d_flt ok hq.2.1 0) (d_flt ok hq.2.1 1) (d_flt ok hq.2.1 1)
  rw [sizeA, sq, sq]
  exact this

theorem B_flt (ok : RayOk w2o r R) (hq : RayR w2o r q) : Flt 10 (-480) (coefB q) (2 * across (w2o.vec r.d) (w2o.pt r.o)) (sizeB w2o.m r) := by
  have := pair_flt (d_flt ok hq.2.1 0) (o_flt ok hq.1 0) (d_flt ok hq.2.1 1) (o_flt ok hq.1 1)
  exact Flt.rmul (by norm_num) two_flt this

theorem C_flt (ok : RayOk w2o r R) (hq : RayR w2o r q) : Flt 11 (-480) (coefC R q) (across (w2o.pt r.o) (w2o.pt r.o) - R ^ 2) (sizeC w2o.m r R) := by
  have a := pair_flt (o_flt ok hq.1 0) (o_flt ok hq.1 0) (o_flt ok hq.1 1) (o_flt ok hq.1 1)
  have b := Flt.rmul (by norm_num) (Flt.refl ok.R) (Flt.refl ok.R)
  have b' : Flt 10 (-480) (double (R * R)) (R ^ 2) (R ^ 2) := by
    refine ⟨?_, b.grid.mono (by norm_num)⟩
    have := b.err.mono (show 0 + 0 + 1 ≤ 10 by norm_num) (le_of_eq (show |R| * |R| = R ^ 2 by rw [← abs_mul, ← sq, abs_of_nonneg (sq_nonneg _)]))
    rwa [← sq] at this ⊢
  rw [sizeC, sq (size w2o.m r.o 0), sq (size w2o.m r.o 1)]
  exact Flt.rsub (by norm_num) a b'

theorem D_close (ok : RayOk w2o r R) (hq : RayR w2o r q) : |coefD R q - disc w2o r R| ≤ 2 ^ (-45 : ℤ) * sizeD w2o.m r R := by
  have b := Flt.rmul (by norm_num) (B_flt ok hq) (B_flt ok hq)
  have a := Flt.rmul (by norm_num) four_flt (A_flt ok hq)
  have ac := Flt.rmul (by norm_num) a (C_flt ok hq)
  have := (Flt.rsub (by norm_num) (b.mono (show _ ≤ 23 by norm_num) le_rfl) (ac.mono (show _ ≤ 23 by norm_num) le_rfl)).err
  have e : disc w2o r R = 2 * across (w2o.vec r.d) (w2o.pt r.o) * (2 * across (w2o.vec r.d) (w2o.pt r.o)) - 4 * across (w2o.vec r.d) (w2o.vec r.d) * (across (w2o.pt r.o) (w2o.pt r.o) - R ^ 2) := by
    rw [disc]; ring
  rw [e]
  have n := this.nonneg
  refine (this.rel (by norm_num)).trans ?_
  rw [sizeD, sq]
  refine mul_le_mul_of_nonneg_right ?_ n
  norm_num

theorem quadratic (ok : RayOk w2o r R) (t : ℝ) :
    (w2o.pt (r.pos t)).x ^ 2 + (w2o.pt (r.pos t)).y ^ 2 = across (w2o.vec r.d) (w2o.vec r.d) * t ^ 2 + 2 * across (w2o.vec r.d) (w2o.pt r.o) * t + across (w2o.pt r.o) (w2o.pt r.o) := by
  have p : ∀ i, (w2o.pt (r.pos t)).get i = (w2o.pt r.o).get i + (w2o.vec r.d).get i * t := fun i => by rw [DiskR.pt_pos ok.affine, DiskR.pt_get ok.affine, DiskR.vec_get]
  have p0 := p 0
  have p1 := p 1
  change V3.x _ = V3.x _ + V3.x _ * t at p0
  change V3.y _ = V3.y _ + V3.y _ * t at p1
  simp only [across, p0, p1]
  ring

end

/-! ### The intersection -/

section
variable {at2 : ℝ → ℝ → ℝ} {roots : ℝ → ℝ → ℝ → Option (ℝ × ℝ)} {s : Cylinder} {w2o : Transform ℝ} {r q : Shape.Ray ℝ} {τ0 τ1 κ ε σ δ : ℝ}

/-- the two methods take the same path -/
theorem C193_p (at2 : ℝ → ℝ → ℝ) (roots : ℝ → ℝ → ℝ → Option (ℝ × ℝ)) (s : Cylinder) (q : Shape.Ray ℝ) :
    hitObjR at2 roots s q = match hitObjPR at2 roots s q with | none => .typeError | some false => .miss | some true => .attributeError := by
  have key : ∀ t0 t1, chooseR at2 s q t0 t1 = match some (choosePR at2 s q t0 t1) with | none => .typeError | some false => .miss | some true => .attributeError := fun t0 t1 => by
    simp only [choosePR, chooseR]
    generalize (if t0 < q.mint then t1 else t0) = th
    split_ifs <;> rfl
  simp only [hitObjPR, hitObjR]
  split_ifs
  · rfl
  · rcases roots (coefA q) (coefB q) (coefC s.radius q) with _ | ⟨t0, t1⟩
    · rfl
    · simp only
      by_cases hc : t0 > t1
      · rw [if_pos hc, if_pos hc]; exact key _ _
      · rw [if_neg hc, if_neg hc]; exact key _ _

theorem solved (hr : RootsOk ε roots) (ε0 : 0 ≤ ε) (ok : RayOk w2o r s.radius) (hq : RayR w2o r q) (h : Passes s.radius w2o r τ0 τ1 κ ε σ) :
    ∃ t0 t1, hitObjPR at2 roots s q = some (choosePR at2 s q t0 t1) ∧ |t0 - τ0| ≤ σ ∧ |t1 - τ1| ≤ σ := by
  obtain ⟨lt, enters, leaves, A0, condA, condB, condC, small, time, apart, deep⟩ := h
  have eA := rel48 (by norm_num) (A_flt ok hq)
  have eB := rel48 (by norm_num) (B_flt ok hq)
  have eC := rel48 (by norm_num) (C_flt ok hq)
  have eD := neg_le_of_abs_le (D_close ok hq)
  have notle : ¬ coefD s.radius q ≤ 0 := by rw [not_le]; linarith
  rw [quadratic ok] at enters leaves
  have s0 : 0 ≤ sizeA w2o.m r := by rw [sizeA]; positivity
  simp only [hitObjPR]
  rw [if_neg notle]
  clear notle eD deep
  generalize coefA q = A at *
  generalize coefB q = B at *
  generalize coefC s.radius q = C at *
  generalize across (w2o.vec r.d) (w2o.vec r.d) = A' at *
  generalize 2 * across (w2o.vec r.d) (w2o.pt r.o) = B' at *
  generalize across (w2o.pt r.o) (w2o.pt r.o) = C' at *
  generalize sizeA w2o.m r = sA at *
  generalize sizeB w2o.m r = sB at *
  generalize sizeC w2o.m r s.radius = sC at *
  obtain ⟨N, hN⟩ : ∃ N, N = 1 + |τ0 + τ1| + |τ0 * τ1| := ⟨_, rfl⟩
  rw [← hN] at condB condC time
  have κ0 : 0 ≤ κ := by
    by_contra hn
    push Not at hn
    have := mul_neg_of_neg_of_pos hn A0
    linarith
  obtain ⟨x, hx⟩ : ∃ x, x = (2 : ℝ) ^ (-48 : ℤ) * κ := ⟨_, rfl⟩
  have z : (2 : ℝ) ^ (-46 : ℤ) * κ = 4 * x := by rw [hx, show (2 : ℝ) ^ (-46 : ℤ) = 4 * 2 ^ (-48 : ℤ) by norm_num]; ring
  rw [z] at small time
  have z48 : (0 : ℝ) ≤ 2 ^ (-48 : ℤ) := by positivity
  have x0 : 0 ≤ x := by rw [hx]; exact mul_nonneg z48 κ0
  have fA : |A - A'| ≤ x * A' := eA.trans (by rw [hx, mul_assoc]; exact mul_le_mul_of_nonneg_left condA z48)
  have fB : |B - B'| ≤ x * N * A' := eB.trans (by rw [hx, mul_assoc, mul_assoc, ← mul_assoc κ]; exact mul_le_mul_of_nonneg_left condB z48)
  have fC : |C - (C' - s.radius ^ 2)| ≤ x * N * A' := eC.trans (by rw [hx, mul_assoc, mul_assoc, ← mul_assoc κ]; exact mul_le_mul_of_nonneg_left condC z48)
  have Apos : A ≠ 0 := fun e => by
    rw [e, zero_sub, abs_neg, abs_of_pos A0] at fA
    have : x * A' ≤ 1 / 64 * A' := mul_le_mul_of_nonneg_right (by linarith) A0.le
    linarith
  obtain ⟨b, c, hb, hc, hsome, hnone⟩ := hr A B C Apos
  obtain ⟨hb', hc'⟩ := coeff_close lt A0 x0 ε0 small hN (by linarith) (by linarith) fA fB fC hb hc
  rcases hroot : roots A B C with _ | ⟨t0, t1⟩
  · exact absurd (hnone hroot) (not_lt.2 (real_roots lt hN hb' hc' time apart))
  · have hp := hsome t0 t1 hroot
    by_cases hlt : t0 > t1
    · have := root_close lt hN small hb' hc' time apart (t0 := t1) (t1 := t0) (fun x => by rw [hp, mul_comm]) hlt.le
      exact ⟨t1, t0, by simp only [if_pos hlt], this.1, this.2⟩
    · have := root_close lt hN small hb' hc' time apart hp (not_lt.1 hlt)
      exact ⟨t0, t1, by simp only [if_neg hlt], this.1, this.2⟩

theorem place_pos {t : ℝ} (σ0 : 0 ≤ σ) (hp : Place w2o r t σ δ) : 0 < δ := by
  have := hp 0
  have a : 0 ≤ sizeVec w2o.m r.d (Fin.castSucc 0) := by rw [sizeVec]; positivity
  have b : 0 ≤ size w2o.m r.o (Fin.castSucc 0) := by rw [size]; positivity
  refine lt_of_lt_of_le ?_ this
  positivity

theorem kept (h2 : Arctan2 at2) {p P : V3 ℝ} (δ0 : 0 < δ) (hp : ∀ i, |p.get i - P.get i| ≤ δ) (hin : Inside s P δ) : ¬ ClippedR at2 s p := by
  have px := hp 0
  have py := hp 1
  have pz := hp 2
  change |p.x - P.x| ≤ δ at px
  change |p.y - P.y| ≤ δ at py
  change |p.z - P.z| ≤ δ at pz
  obtain ⟨z1, z2⟩ := abs_le.1 pz
  rintro (h | h | h)
  · linarith [hin.low]
  · linarith [hin.high]
  · rcases hin.angle with e | ⟨θ, hθ, hm⟩
    · rw [e] at h; exact absurd (angle_close h2 p).2.1 (not_le.2 h)
    · have := le_of_abs_le (angle_near h2 δ0 px py hθ)
      have z : (2 : ℝ) ^ (-47 : ℤ) ≤ 2 ^ (-46 : ℤ) := zpow_le_zpow_right₀ (by norm_num) (by norm_num)
      linarith

theorem cut (h2 : Arctan2 at2) {p P : V3 ℝ} (δ0 : 0 < δ) (hp : ∀ i, |p.get i - P.get i| ≤ δ) (hout : Outside s P δ) : ClippedR at2 s p := by
  have px := hp 0
  have py := hp 1
  have pz := hp 2
  change |p.x - P.x| ≤ δ at px
  change |p.y - P.y| ≤ δ at py
  change |p.z - P.z| ≤ δ at pz
  obtain ⟨z1, z2⟩ := abs_le.1 pz
  rcases hout with h | h | ⟨θ, hθ, hm⟩
  · exact Or.inl (by linarith)
  · exact Or.inr (Or.inl (by linarith))
  · refine Or.inr (Or.inr ?_)
    have := neg_le_of_abs_le (angle_near h2 δ0 px py hθ)
    have z : (2 : ℝ) ^ (-47 : ℤ) ≤ 2 ^ (-46 : ℤ) := zpow_le_zpow_right₀ (by norm_num) (by norm_num)
    linarith

theorem le_max {t τ : ℝ} (hq : RayR w2o r q) (h : |t - τ| ≤ σ) (hw : ((τ + σ : ℝ) : WithTop ℝ) ≤ r.maxt) : ¬ (t : WithTop ℝ) > q.maxt := fun hc => by
  rw [hq.2.2.2] at hc
  exact absurd (lt_of_lt_of_le hc (le_trans (WithTop.coe_le_coe.2 (by linarith [(abs_le.1 h).2])) hw)) (lt_irrefl _)

theorem gt_max {t τ : ℝ} (hq : RayR w2o r q) (h : |t - τ| ≤ σ) (hw : After r τ σ) : (t : WithTop ℝ) > q.maxt := by
  rw [hq.2.2.2]
  exact lt_of_lt_of_le hw (WithTop.coe_le_coe.2 (by linarith [(abs_le.1 h).1]))

theorem ge_min {t τ : ℝ} (hq : RayR w2o r q) (h : |t - τ| ≤ σ) (hw : r.mint + σ ≤ τ) : ¬ t < q.mint := by
  rw [hq.2.2.1]; linarith [(abs_le.1 h).1]

theorem lt_min {t τ : ℝ} (hq : RayR w2o r q) (h : |t - τ| ≤ σ) (hw : Before r τ σ) : t < q.mint := by
  rw [hq.2.2.1]; unfold Before at hw; linarith [(abs_le.1 h).2]

/-- **C193** A ray that clearly meets the cylinder where it enters the infinite cylinder is reported by `intersect_p` (and `intersect` raises, by `C193_p`) … -/
theorem C193_near (h2 : Arctan2 at2) (hr : RootsOk ε roots) (ε0 : 0 ≤ ε) (ok : RayOk w2o r s.radius) (h : Passes s.radius w2o r τ0 τ1 κ ε σ) (hp : Place w2o r τ0 σ δ)
    (hw : Within r τ0 σ) (hin : Inside s (w2o.pt (r.pos τ0)) δ) (b : Option Bool) (hb : HitPR at2 roots s w2o r b) : b = some true := by
  obtain ⟨q, hq, rfl⟩ := hb
  obtain ⟨t0, t1, e, c0, c1⟩ := solved (at2 := at2) hr ε0 ok hq h
  have σ0 : 0 ≤ σ := (abs_nonneg _).trans c0
  have ap := h.apart
  have lt := h.lt
  have k := kept h2 (place_pos σ0 hp) (position ok hq hp c0) hin
  have l0 := ge_min hq c0 hw.1
  have l1 : ¬ t1 < q.mint := ge_min hq c1 (by linarith [hw.1])
  rw [e]
  simp only [choosePR]
  rw [if_neg (not_or.2 ⟨le_max hq c0 hw.2, l1⟩), if_neg (fun hc => l0 hc.1), if_neg l0, if_neg k]

/-- … so is one that clearly meets it where it leaves, having started after it entered or entered where the cylinder is cut away … -/
theorem C193_far (h2 : Arctan2 at2) (hr : RootsOk ε roots) (ε0 : 0 ≤ ε) (ok : RayOk w2o r s.radius) (h : Passes s.radius w2o r τ0 τ1 κ ε σ) (hp0 : Place w2o r τ0 σ δ) (hp1 : Place w2o r τ1 σ δ)
    (h0 : Before r τ0 σ ∨ (Within r τ0 σ ∧ Outside s (w2o.pt (r.pos τ0)) δ)) (hw : Within r τ1 σ) (hin : Inside s (w2o.pt (r.pos τ1)) δ) (b : Option Bool) (hb : HitPR at2 roots s w2o r b) :
    b = some true := by
  obtain ⟨q, hq, rfl⟩ := hb
  obtain ⟨t0, t1, e, c0, c1⟩ := solved (at2 := at2) hr ε0 ok hq h
  have σ0 : 0 ≤ σ := (abs_nonneg _).trans c0
  have ap := h.apart
  have lt := h.lt
  have k := kept h2 (place_pos σ0 hp1) (position ok hq hp1 c1) hin
  have l1 := ge_min hq c1 hw.1
  have m1 := le_max hq c1 hw.2
  have m0 : ¬ (t0 : WithTop ℝ) > q.maxt := fun hc => m1 (lt_of_lt_of_le hc (WithTop.coe_le_coe.2 (by linarith [(abs_le.1 c0).2, (abs_le.1 c1).1])))
  rw [e]
  simp only [choosePR]
  rw [if_neg (not_or.2 ⟨m0, l1⟩), if_neg (fun hc => m1 hc.2)]
  rcases h0 with h0 | ⟨h0, ho⟩
  · rw [if_pos (lt_min hq c0 h0), if_neg k]
  · have ne : ¬ t0 = t1 := fun hc => by
      linarith [(abs_le.1 c0).2, (abs_le.1 c1).1]
    rw [if_neg (ge_min hq c0 h0.1), if_pos (cut h2 (place_pos σ0 hp0) (position ok hq hp0 c0) ho), if_neg (not_or.2 ⟨ne, m1⟩), if_neg k]

/-- … one for which both points are clearly out of the range of the ray or where the cylinder is cut away is not … -/
theorem C193_neither (h2 : Arctan2 at2) (hr : RootsOk ε roots) (ε0 : 0 ≤ ε) (ok : RayOk w2o r s.radius) (h : Passes s.radius w2o r τ0 τ1 κ ε σ) (hp0 : Place w2o r τ0 σ δ) (hp1 : Place w2o r τ1 σ δ)
    (h0 : Before r τ0 σ ∨ After r τ0 σ ∨ Outside s (w2o.pt (r.pos τ0)) δ) (h1 : Before r τ1 σ ∨ After r τ1 σ ∨ Outside s (w2o.pt (r.pos τ1)) δ) (b : Option Bool) (hb : HitPR at2 roots s w2o r b) :
    b = some false := by
  obtain ⟨q, hq, rfl⟩ := hb
  obtain ⟨t0, t1, e, c0, c1⟩ := solved (at2 := at2) hr ε0 ok hq h
  have σ0 : 0 ≤ σ := (abs_nonneg _).trans c0
  have f0 : t0 < q.mint ∨ (t0 : WithTop ℝ) > q.maxt ∨ ClippedR at2 s (atR q.o q.d t0) := by
    rcases h0 with h0 | h0 | h0
    · exact Or.inl (lt_min hq c0 h0)
    · exact Or.inr (Or.inl (gt_max hq c0 h0))
    · exact Or.inr (Or.inr (cut h2 (place_pos σ0 hp0) (position ok hq hp0 c0) h0))
  have f1 : t1 < q.mint ∨ (t1 : WithTop ℝ) > q.maxt ∨ ClippedR at2 s (atR q.o q.d t1) := by
    rcases h1 with h0 | h0 | h0
    · exact Or.inl (lt_min hq c1 h0)
    · exact Or.inr (Or.inl (gt_max hq c1 h0))
    · exact Or.inr (Or.inr (cut h2 (place_pos σ0 hp1) (position ok hq hp1 c1) h0))
  rw [e]
  congr 1
  simp only [choosePR]
  by_cases g1 : (t0 : WithTop ℝ) > q.maxt ∨ t1 < q.mint
  · rw [if_pos g1]
  rw [if_neg g1]
  obtain ⟨n1, n2⟩ := not_or.1 g1
  by_cases g2 : t0 < q.mint ∧ (t1 : WithTop ℝ) > q.maxt
  · rw [if_pos g2]
  rw [if_neg g2]
  by_cases g3 : t0 < q.mint
  · have cl : ClippedR at2 s (atR q.o q.d t1) := by
      rcases f1 with f | f | f
      · exact absurd f n2
      · exact absurd ⟨g3, f⟩ g2
      · exact f
    rw [if_pos g3, if_pos cl, if_pos (Or.inl rfl)]
  · have cl : ClippedR at2 s (atR q.o q.d t0) := by
      rcases f0 with f | f | f
      · exact absurd f g3
      · exact absurd f n1
      · exact f
    rw [if_neg g3, if_pos cl]
    by_cases g4 : t0 = t1 ∨ (t1 : WithTop ℝ) > q.maxt
    · rw [if_pos g4]
    · rw [if_neg g4]
      have cl1 : ClippedR at2 s (atR q.o q.d t1) := by
        rcases f1 with f | f | f
        · exact absurd f n2
        · exact absurd (Or.inr f) g4
        · exact f
      rw [if_pos cl1]

/-- … nor is one whose line clearly passes by the infinite cylinder. -/
theorem C193_passes_by (ok : RayOk w2o r s.radius) (h : disc w2o r s.radius + 2 ^ (-45 : ℤ) * sizeD w2o.m r s.radius ≤ 0) (b : Option Bool) (hb : HitPR at2 roots s w2o r b) : b = some false := by
  obtain ⟨q, hq, rfl⟩ := hb
  have eD := le_of_abs_le (D_close ok hq)
  simp only [hitObjPR]
  rw [if_pos (by linarith)]

end

/-! ### Concrete cases -/

/-- a cylinder of radius 1 between the heights -1 and 1, and a ray that comes along the x-axis from 4 -/
noncomputable def tube : Cylinder := ⟨1, -1, 1, twoPi⟩
noncomputable def sideRay : Shape.Ray ℝ := ⟨⟨4, 0, 0⟩, ⟨-1, 0, 0⟩, 0, ⊤⟩

theorem side_ok : RayOk Xform.ident sideRay tube.radius := by
  have g0 : Grid (-120) (0 : ℝ) := ⟨0, by simp⟩
  have g : ∀ {n : ℤ} {x : ℝ}, x = n * 2 ^ (0 : ℤ) → Grid (-120) x := fun {n x} h => Grid.mono (show (-120 : ℤ) ≤ 0 by norm_num) ⟨n, h⟩
  refine ⟨by simp [Affine, Xform.ident], fun i j => ?_, fun i => ?_, fun i => ?_, g (n := 1) (by norm_num [tube])⟩
  · have : (Xform.ident : Transform ℝ).m i j = if i = j then 1 else 0 := by
      fin_cases i <;> fin_cases j <;> simp [Xform.ident]
    rw [this]
    split_ifs
    · exact g (n := 1) (by norm_num)
    · exact g0
  · fin_cases i
    · exact g (n := 4) (by norm_num [sideRay, V3.get])
    · exact g0
    · exact g0
  · fin_cases i
    · exact g (n := -1) (by norm_num [sideRay, V3.get])
    · exact g0
    · exact g0

theorem side_passes : Passes tube.radius Xform.ident sideRay 3 5 1 0 (2 ^ (-35 : ℤ)) := by
  constructor
  · norm_num
  · simp [Xform.ident, Transform.pt, homog, Shape.Ray.pos, V3.rayAt, sideRay, tube]; norm_num
  · simp [Xform.ident, Transform.pt, homog, Shape.Ray.pos, V3.rayAt, sideRay, tube]; norm_num
  · simp [Xform.ident, Transform.vec, sideRay, across]
  · simp [Xform.ident, Transform.vec, sideRay, across, sizeA, sizeVec]
  · simp [Xform.ident, Transform.vec, sideRay, across, sizeB, sizeVec, size]; norm_num
  · simp [Xform.ident, Transform.vec, sideRay, across, sizeC, size, tube]; norm_num
  · norm_num
  · norm_num
  · norm_num
  · simp [Xform.ident, Transform.vec, Transform.pt, homog, sideRay, across, disc, sizeD, sizeA, sizeB, sizeC, sizeVec, size, tube]
    norm_num

theorem side_place (t : ℝ) (ht : |t| ≤ 5) : Place Xform.ident sideRay t (2 ^ (-35 : ℤ)) (2 ^ (-33 : ℤ)) := fun i => by
  have tiny' : (2 : ℝ) ^ (-500 : ℤ) ≤ 2 ^ (-60 : ℤ) := zpow_le_zpow_right₀ (by norm_num) (by norm_num)
  generalize (2 : ℝ) ^ (-500 : ℤ) = e at *
  have := abs_nonneg t
  fin_cases i <;> simp [Xform.ident, sizeVec, size, sideRay] <;> norm_num at tiny' ⊢ <;> linarith

/-- the cylinder blocks the ray, whatever the order of summation; and there is an answer -/
example : (∀ b, HitPR (fun y x => double (Complex.arg ⟨x, y⟩)) exactRoots tube Xform.ident sideRay b → b = some true) ∧
    ∃ b, HitPR (fun y x => double (Complex.arg ⟨x, y⟩)) exactRoots tube Xform.ident sideRay b := by
  constructor
  · intro b hb
    refine C193_near arctan2_round exactRoots_ok le_rfl side_ok side_passes (side_place 3 (by norm_num [abs_of_pos])) ⟨by norm_num [sideRay], le_top⟩ ⟨?_, ?_, Or.inl rfl⟩ b hb
    · simp [Xform.ident, Transform.pt, homog, Shape.Ray.pos, V3.rayAt, sideRay, tube]; norm_num
    · simp [Xform.ident, Transform.pt, homog, Shape.Ray.pos, V3.rayAt, sideRay, tube]; norm_num
  · obtain ⟨⟨o, ho⟩, -⟩ := C182_total (Xform.ident : Transform ℝ) Xform.ident sideRay.o
    obtain ⟨-, ⟨d, hd⟩, -⟩ := C182_total (Xform.ident : Transform ℝ) Xform.ident sideRay.d
    exact ⟨_, ⟨o, d, 0, ⊤⟩, ⟨ho, hd, rfl, rfl⟩, rfl⟩

/-- a ray from within is blocked where it leaves: its start is after it entered -/
example : Before ⟨⟨4, 0, 0⟩, ⟨-1, 0, 0⟩, 4, ⊤⟩ 3 (2 ^ (-35 : ℤ)) ∧ Within ⟨⟨4, 0, 0⟩, ⟨-1, 0, 0⟩, 4, ⊤⟩ 5 (2 ^ (-35 : ℤ)) := by
  refine ⟨?_, ?_, le_top⟩ <;> norm_num [Before]

/-- a shorter cylinder, all above the ray, does not block it: both points are cut away -/
example : ∀ b, HitPR (fun y x => double (Complex.arg ⟨x, y⟩)) exactRoots ⟨1, 1 / 2, 1, twoPi⟩ Xform.ident sideRay b → b = some false := fun b hb =>
  C193_neither (s := ⟨1, 1 / 2, 1, twoPi⟩) arctan2_round exactRoots_ok le_rfl side_ok side_passes (side_place 3 (by norm_num [abs_of_pos])) (side_place 5 (by norm_num [abs_of_pos]))
    (Or.inr (Or.inr (Or.inl (by simp [Xform.ident, Transform.pt, homog, Shape.Ray.pos, V3.rayAt, sideRay]; norm_num))))
    (Or.inr (Or.inr (Or.inl (by simp [Xform.ident, Transform.pt, homog, Shape.Ray.pos, V3.rayAt, sideRay]; norm_num)))) b hb

/-- a ray beside the cylinder: the discriminant is negative -/
example : disc (Xform.ident : Transform ℝ) ⟨⟨4, 2, 0⟩, ⟨-1, 0, 0⟩, 0, ⊤⟩ tube.radius + 2 ^ (-45 : ℤ) * sizeD (Xform.ident : Transform ℝ).m ⟨⟨4, 2, 0⟩, ⟨-1, 0, 0⟩, 0, ⊤⟩ tube.radius ≤ 0 := by
  simp [Xform.ident, Transform.vec, Transform.pt, homog, across, disc, sizeD, sizeA, sizeB, sizeC, sizeVec, size, tube]
  norm_num

end Verif.CylR
