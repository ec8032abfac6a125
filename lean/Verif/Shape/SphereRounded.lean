import Verif.Shape.DiskRounded

/-!
# Spheres in rounded arithmetic (C191)

`Sphere.intersect` (`pytracer/shape/sphere.py` 125-183) and `Sphere.intersect_p` (226-279) for complete spheres, every operation rounded to binary64, the ray being transformed by `self.w2o` with
every order of summation in `numpy.dot`.  `np.roots` (the eigenvalues of the companion matrix) is a function that returns the roots of a monic polynomial whose coefficients are those of the given one,
divided by the leading one, up to `ε`; it returns complex numbers, whose comparison raises `TypeError`, where that polynomial has none.
-/

namespace Verif.SphereR
open V3 Verif.Rnd Verif.XformR Verif.Shape Verif.DiskR
open Verif.Xform (Transform M4 homog)
open Verif.ShadowR (EPS)

/-! ### Model -/

/-- `sq_length` (`geometry/__init__.py` 84-85, 181-182) -/
noncomputable def sqLenR (v : V3 ℝ) : ℝ := double (double (double (v.x * v.x) + double (v.y * v.y)) + double (v.z * v.z))

/-- the outcome of `intersect` -/
inductive Res
  | typeError
  | miss
  | hit (t : ℝ) (p : V3 ℝ)

/-- sphere.py 159-160 -/
noncomputable def nudgeR (s : Sphere) (p : V3 ℝ) : V3 ℝ := if p.x = 0 ∧ p.y = 0 then ⟨double (EPS * s.radius), p.y, p.z⟩ else p

/-- sphere.py 161-168 -/
def ClippedR (at2 : ℝ → ℝ → ℝ) (s : Sphere) (p : V3 ℝ) : Prop :=
  (s.zmin > -s.radius ∧ p.z < s.zmin) ∨ (s.zmax < s.radius ∧ p.z > s.zmax) ∨ angleR at2 p > s.phiMax

open Classical in
/-- sphere.py 147-183, from the roots in increasing order -/
noncomputable def chooseR (at2 : ℝ → ℝ → ℝ) (s : Sphere) (ray : Shape.Ray ℝ) (t0 t1 : ℝ) : Res :=
  if (t0 : WithTop ℝ) > ray.maxt ∨ t1 < ray.mint then .miss else
  if t0 < ray.mint ∧ (t1 : WithTop ℝ) > ray.maxt then .miss else
  let thit := if t0 < ray.mint then t1 else t0
  let phit := nudgeR s (atR ray.o ray.d thit)
  if ClippedR at2 s phit then
    if thit = t1 ∨ (t1 : WithTop ℝ) > ray.maxt then .miss else
    let phit := nudgeR s (atR ray.o ray.d t1)
    if ClippedR at2 s phit then .miss else .hit t1 phit
  else .hit thit phit

/-- sphere.py 136-183, the ray being in object space and `dot` what `ray.d.dot(ray.o)` returns -/
noncomputable def hitObjR (at2 : ℝ → ℝ → ℝ) (roots : ℝ → ℝ → ℝ → Option (ℝ × ℝ)) (s : Sphere) (ray : Shape.Ray ℝ) (dot : ℝ) : Res :=
  let A := sqLenR ray.d
  let B := double (2 * dot)
  let C := double (sqLenR ray.o - double (s.radius * s.radius))
  let D := double (double (B * B) - double (double (4 * A) * C))
  if D ≤ EPS then .miss else
  match roots A B C with
  | none => .typeError
  | some (t0, t1) => if t0 > t1 then chooseR at2 s ray t1 t0 else chooseR at2 s ray t0 t1

/-- `intersect(r)` may return `x` -/
def HitR (at2 : ℝ → ℝ → ℝ) (roots : ℝ → ℝ → ℝ → Option (ℝ × ℝ)) (s : Sphere) (w2o : Transform ℝ) (r : Shape.Ray ℝ) (x : Res) : Prop :=
  ∃ q dot, RayR w2o r q ∧ DotR q.d.get q.o.get [0, 1, 2] dot ∧ x = hitObjR at2 roots s q dot

open Classical in
/-- `intersect_p`, sphere.py 243-279 -/
noncomputable def choosePR (at2 : ℝ → ℝ → ℝ) (s : Sphere) (ray : Shape.Ray ℝ) (t0 t1 : ℝ) : Bool :=
  if (t0 : WithTop ℝ) > ray.maxt ∨ t1 < ray.mint then false else
  if t0 < ray.mint ∧ (t1 : WithTop ℝ) > ray.maxt then false else
  let thit := if t0 < ray.mint then t1 else t0
  let phit := nudgeR s (atR ray.o ray.d thit)
  if ClippedR at2 s phit then
    if thit = t1 ∨ (t1 : WithTop ℝ) > ray.maxt then false else
    let phit := nudgeR s (atR ray.o ray.d t1)
    if ClippedR at2 s phit then false else true
  else true

/-- `intersect_p`, sphere.py 231-279; `none` is the `TypeError` -/
noncomputable def hitObjPR (at2 : ℝ → ℝ → ℝ) (roots : ℝ → ℝ → ℝ → Option (ℝ × ℝ)) (s : Sphere) (ray : Shape.Ray ℝ) (dot : ℝ) : Option Bool :=
  let A := sqLenR ray.d
  let B := double (2 * dot)
  let C := double (sqLenR ray.o - double (s.radius * s.radius))
  let D := double (double (B * B) - double (double (4 * A) * C))
  if D ≤ EPS then some false else
  match roots A B C with
  | none => none
  | some (t0, t1) => some (if t0 > t1 then choosePR at2 s ray t1 t0 else choosePR at2 s ray t0 t1)

/-! ### Specification -/

/-- `np.roots([A, B, C])` for `A ≠ 0`: the roots of a nearby monic polynomial, complex if that has none -/
def RootsOk (ε : ℝ) (roots : ℝ → ℝ → ℝ → Option (ℝ × ℝ)) : Prop :=
  ∀ A B C, A ≠ 0 → ∃ b c, |b - B / A| ≤ ε * (1 + |B / A| + |C / A|) ∧ |c - C / A| ≤ ε * (1 + |B / A| + |C / A|) ∧
    (∀ t0 t1, roots A B C = some (t0, t1) → ∀ x, x ^ 2 + b * x + c = (x - t0) * (x - t1)) ∧ (roots A B C = none → b ^ 2 - 4 * c < 0)

/-- the reported position `p'`: the computed one `p`, but a point on the axis is moved off it by `EPS` times the radius -/
def OffAxis (R : ℝ) (p p' : V3 ℝ) : Prop :=
  (¬ (p.x = 0 ∧ p.y = 0) ∧ p' = p) ∨ (p.x = 0 ∧ p.y = 0 ∧ p'.x = double (EPS * R) ∧ p'.y = 0 ∧ p'.z = p.z)

/-- a complete sphere -/
structure Complete (s : Sphere) : Prop where
  zmin : s.zmin = -s.radius
  zmax : s.zmax = s.radius
  phi : s.phiMax = twoPi

/-- sizes of the terms in the coefficients of the quadratic equation -/
noncomputable def sizeA (m : M4 ℝ) (r : Shape.Ray ℝ) : ℝ := sizeVec m r.d 0 ^ 2 + sizeVec m r.d 1 ^ 2 + sizeVec m r.d 2 ^ 2
noncomputable def sizeB (m : M4 ℝ) (r : Shape.Ray ℝ) : ℝ := 2 * (sizeVec m r.d 0 * size m r.o 0 + sizeVec m r.d 1 * size m r.o 1 + sizeVec m r.d 2 * size m r.o 2)
noncomputable def sizeC (m : M4 ℝ) (r : Shape.Ray ℝ) (R : ℝ) : ℝ := size m r.o 0 ^ 2 + size m r.o 1 ^ 2 + size m r.o 2 ^ 2 + R ^ 2

/-- the discriminant, and the size of its terms -/
noncomputable def disc (w2o : Transform ℝ) (r : Shape.Ray ℝ) (R : ℝ) : ℝ :=
  (2 * dot (w2o.vec r.d) (w2o.pt r.o)) ^ 2 - 4 * sqLength (w2o.vec r.d) * (sqLength (w2o.pt r.o) - R ^ 2)
noncomputable def sizeD (m : M4 ℝ) (r : Shape.Ray ℝ) (R : ℝ) : ℝ := sizeB m r ^ 2 + 4 * sizeA m r * sizeC m r R

/-- the numbers: an affine transformation, everything a multiple of `2^-120` -/
structure RayOk (w2o : Transform ℝ) (r : Shape.Ray ℝ) (R : ℝ) : Prop where
  affine : Affine w2o.m
  m : ∀ i j, Grid (-120) (w2o.m i j)
  o : ∀ i, Grid (-120) (r.o.get i)
  d : ∀ i, Grid (-120) (r.d.get i)
  R : Grid (-120) R

/-- the ray passes through the sphere between the parameters `τ0` and `τ1`, and the margins hold the rounding errors: `κ` is the condition of the coefficients, `ε` the accuracy of `np.roots`, `σ` the error
of the parameters -/
structure Passes (s : Sphere) (w2o : Transform ℝ) (r : Shape.Ray ℝ) (τ0 τ1 κ ε σ : ℝ) : Prop where
  lt : τ0 < τ1
  enters : sqLength (w2o.pt (r.pos τ0)) = s.radius ^ 2
  leaves : sqLength (w2o.pt (r.pos τ1)) = s.radius ^ 2
  A : 0 < sqLength (w2o.vec r.d)
  condA : sizeA w2o.m r ≤ κ * sqLength (w2o.vec r.d)
  condB : sizeB w2o.m r ≤ κ * (1 + |τ0 + τ1| + |τ0 * τ1|) * sqLength (w2o.vec r.d)
  condC : sizeC w2o.m r s.radius ≤ κ * (1 + |τ0 + τ1| + |τ0 * τ1|) * sqLength (w2o.vec r.d)
  small : 2 ^ (-46 : ℤ) * κ + 2 * ε ≤ 1 / 64
  time : 6 * (2 ^ (-46 : ℤ) * κ + 2 * ε) * (1 + |τ0 + τ1| + |τ0 * τ1|) ^ 2 / (τ1 - τ0) ≤ σ
  apart : σ ≤ (τ1 - τ0) / 8
  deep : EPS + 2 ^ (-45 : ℤ) * sizeD w2o.m r s.radius < disc w2o r s.radius

/-! ### The coefficients -/

section
variable {s : Sphere} {w2o : Transform ℝ} {r q : Shape.Ray ℝ} {d : ℝ}

theorem o_flt {R : ℝ} (ok : RayOk w2o r R) (h : PtR w2o r.o q.o) (i : Fin 3) : Flt 4 (-240) (q.o.get i) ((w2o.pt r.o).get i) (size w2o.m r.o i.castSucc) := by
  rw [pt_get ok.affine]
  have := homog_flt (k := 0) (k' := 0) (g := -120) (g' := -120) (by norm_num) (by norm_num) (affine_pt ok.affine h i) (M := w2o.m) (N := fun i j => |w2o.m i j|)
    (fun j => Flt.refl (ok.m _ j)) (x := r.o) (A := ⟨|r.o.x|, |r.o.y|, |r.o.z|⟩) (fun j => by rw [← abs_get]; exact Flt.refl (ok.o j))
  exact this

theorem d_flt {R : ℝ} (ok : RayOk w2o r R) (h : VecR w2o r.d q.d) (i : Fin 3) : Flt 3 (-240) (q.d.get i) ((w2o.vec r.d).get i) (sizeVec w2o.m r.d i.castSucc) := by
  rw [vec_get]
  have := (h i).flt (k := 0) (g := -240) (by norm_num) (x := fun j => w2o.m i.castSucc j.castSucc * r.d.get j) (A := fun j => |w2o.m i.castSucc j.castSucc| * |r.d.get j|)
    fun j _ => ⟨by rw [← abs_mul]; exact Err.refl _, (ok.m i.castSucc j.castSucc).mul (ok.d j)⟩
  simpa [V3.get, lin, sizeVec, add_assoc] using this

theorem sq_flt {k : ℕ} {v V : V3 ℝ} {S0 S1 S2 : ℝ} (h0 : Flt k (-240) v.x V.x S0) (h1 : Flt k (-240) v.y V.y S1) (h2 : Flt k (-240) v.z V.z S2) :
    Flt (2 * k + 3) (-480) (sqLenR v) (sqLength V) (S0 ^ 2 + S1 ^ 2 + S2 ^ 2) := by
  have a := Flt.rmul (by norm_num) h0 h0
  have b := Flt.rmul (by norm_num) h1 h1
  have c := Flt.rmul (by norm_num) h2 h2
  have ab := Flt.radd (by norm_num) a b
  have abc := Flt.radd (by norm_num) ab (c.mono (Nat.le_succ _) le_rfl)
  have e : sqLength V = V.x * V.x + V.y * V.y + V.z * V.z := rfl
  rw [e, sq, sq, sq, show 2 * k + 3 = k + k + 1 + 1 + 1 by ring]
  exact abc

theorem A_flt {R : ℝ} (ok : RayOk w2o r R) (hq : RayR w2o r q) : Flt 9 (-480) (sqLenR q.d) (sqLength (w2o.vec r.d)) (sizeA w2o.m r) :=
  sq_flt (d_flt ok hq.2.1 0) (d_flt ok hq.2.1 1) (d_flt ok hq.2.1 2)

theorem two_flt : Flt 0 0 (2 : ℝ) 2 2 := ⟨by simpa using Err.refl (2 : ℝ), 2, by norm_num⟩
theorem four_flt : Flt 0 0 (4 : ℝ) 4 4 := ⟨by simpa using Err.refl (4 : ℝ), 4, by norm_num⟩

theorem B_flt {R : ℝ} (ok : RayOk w2o r R) (hq : RayR w2o r q) (hd : DotR q.d.get q.o.get [0, 1, 2] d) :
    Flt 11 (-480) (double (2 * d)) (2 * dot (w2o.vec r.d) (w2o.pt r.o)) (sizeB w2o.m r) := by
  have := hd.flt (k := 7) (g := -480) (by norm_num) (x := fun j => (w2o.vec r.d).get j * (w2o.pt r.o).get j) (A := fun j => sizeVec w2o.m r.d j.castSucc * size w2o.m r.o j.castSucc)
    fun j _ => ⟨(d_flt ok hq.2.1 j).err.mul (o_flt ok hq.1 j).err, (d_flt ok hq.2.1 j).grid.mul (o_flt ok hq.1 j).grid⟩
  have h := Flt.rmul (by norm_num) two_flt this
  have e1 : ([0, 1, 2].map fun j : Fin 3 => (w2o.vec r.d).get j * (w2o.pt r.o).get j).sum = dot (w2o.vec r.d) (w2o.pt r.o) := by
    simp [V3.get, dot, add_assoc]
  have e2 : 2 * ([0, 1, 2].map fun j : Fin 3 => sizeVec w2o.m r.d j.castSucc * size w2o.m r.o j.castSucc).sum = sizeB w2o.m r := by
    simp [sizeB, add_assoc]
  rw [e1, e2] at h
  exact h

theorem C_flt (ok : RayOk w2o r s.radius) (hq : RayR w2o r q) :
    Flt 12 (-480) (double (sqLenR q.o - double (s.radius * s.radius))) (sqLength (w2o.pt r.o) - s.radius ^ 2) (sizeC w2o.m r s.radius) := by
  have a := sq_flt (o_flt ok hq.1 0) (o_flt ok hq.1 1) (o_flt ok hq.1 2)
  have b := Flt.rmul (by norm_num) (Flt.refl ok.R) (Flt.refl ok.R)
  have b' : Flt 11 (-480) (double (s.radius * s.radius)) (s.radius ^ 2) (s.radius ^ 2) := by
    refine ⟨?_, b.grid.mono (by norm_num)⟩
    have := b.err.mono (show 0 + 0 + 1 ≤ 11 by norm_num) (le_of_eq (show |s.radius| * |s.radius| = s.radius ^ 2 by rw [← abs_mul, ← sq, abs_of_nonneg (sq_nonneg _)]))
    rwa [← sq] at this ⊢
  exact Flt.rsub (by norm_num) a b'

theorem D_close (ok : RayOk w2o r s.radius) (hq : RayR w2o r q) (hd : DotR q.d.get q.o.get [0, 1, 2] d) :
    |double (double (double (2 * d) * double (2 * d)) - double (double (4 * sqLenR q.d) * double (sqLenR q.o - double (s.radius * s.radius)))) - disc w2o r s.radius| ≤
      2 ^ (-45 : ℤ) * sizeD w2o.m r s.radius := by
  have b := Flt.rmul (by norm_num) (B_flt ok hq hd) (B_flt ok hq hd)
  have a := Flt.rmul (by norm_num) four_flt (A_flt ok hq)
  have ac := Flt.rmul (by norm_num) a (C_flt ok hq)
  have := (Flt.rsub (by norm_num) (b.mono (show _ ≤ 23 by norm_num) le_rfl) (ac.mono (show _ ≤ 23 by norm_num) le_rfl)).err
  have e : disc w2o r s.radius = 2 * dot (w2o.vec r.d) (w2o.pt r.o) * (2 * dot (w2o.vec r.d) (w2o.pt r.o)) - 4 * sqLength (w2o.vec r.d) * (sqLength (w2o.pt r.o) - s.radius ^ 2) := by
    rw [disc]; ring
  rw [e]
  have n := this.nonneg
  refine (this.rel (by norm_num)).trans ?_
  rw [sizeD, sq]
  refine mul_le_mul_of_nonneg_right ?_ n
  norm_num

theorem rel48 {k : ℕ} (hk : k ≤ 16) {g : ℤ} {xc x A : ℝ} (h : Flt k g xc x A) : |xc - x| ≤ 2 ^ (-48 : ℤ) * A := by
  refine (h.err.rel (hk.trans (by norm_num))).trans (mul_le_mul_of_nonneg_right ?_ h.err.nonneg)
  have : (k : ℝ) ≤ 16 := by exact_mod_cast hk
  calc (k : ℝ) * 2 ^ (-52 : ℤ) ≤ 16 * 2 ^ (-52 : ℤ) := by gcongr
    _ = _ := by norm_num

end

/-! ### The roots -/

/-- the roots of a quadratic polynomial under a perturbation of the coefficients -/
theorem root_close {τ0 τ1 b c N μ σ t0 t1 : ℝ} (lt : τ0 < τ1) (hN : N = 1 + |τ0 + τ1| + |τ0 * τ1|) (hμ : μ ≤ 1 / 64) (hb : |b + (τ0 + τ1)| ≤ μ * N) (hc : |c - τ0 * τ1| ≤ μ * N)
    (hσ : 6 * μ * N ^ 2 / (τ1 - τ0) ≤ σ) (ha : σ ≤ (τ1 - τ0) / 8) (h : ∀ x, x ^ 2 + b * x + c = (x - t0) * (x - t1)) (ho : t0 ≤ t1) : |t0 - τ0| ≤ σ ∧ |t1 - τ1| ≤ σ := by
  obtain ⟨g, hg⟩ : ∃ g, g = τ1 - τ0 := ⟨_, rfl⟩
  rw [← hg] at hσ ha
  have g0 : 0 < g := by rw [hg]; linarith
  have N1 : 1 ≤ N := by rw [hN]; linarith [abs_nonneg (τ0 + τ1), abs_nonneg (τ0 * τ1)]
  have μ0 : 0 ≤ μ := by
    have := (abs_nonneg _).trans hb
    by_contra hn; push Not at hn; nlinarith
  have hσ' : 6 * μ * N ^ 2 ≤ σ * g := by rwa [div_le_iff₀ g0] at hσ
  have gN : g ≤ 3 * N := by
    have k1 : g ^ 2 = (τ0 + τ1) ^ 2 - 4 * (τ0 * τ1) := by rw [hg]; ring
    have k2 : (τ0 + τ1) ^ 2 = |τ0 + τ1| ^ 2 := (sq_abs _).symm
    have k3 := neg_abs_le (τ0 * τ1)
    have p1 := abs_nonneg (τ0 + τ1)
    have p2 := abs_nonneg (τ0 * τ1)
    refine abs_le_of_sq_le_sq' ?_ (by linarith) |>.2
    rw [k1, k2, hN]
    nlinarith
  have σ0 : 0 ≤ σ := by
    have : 0 ≤ σ * g := le_trans (by positivity) hσ'
    by_contra hn; push Not at hn; nlinarith
  -- the coefficients
  have b1 : |b| ≤ N - 1 - |τ0 * τ1| + μ * N := by
    have := abs_sub_abs_le_abs_sub b (-(τ0 + τ1))
    rw [abs_neg, sub_neg_eq_add] at this
    linarith
  have c1 : |c| ≤ N - 1 - |τ0 + τ1| + μ * N := by
    have := abs_sub_abs_le_abs_sub c (τ0 * τ1)
    linarith
  have μN : μ * N ≤ N / 64 := by nlinarith
  -- every root is within `2 N`, and close to one of the two
  have root : ∀ x, x ^ 2 + b * x + c = 0 → |x| ≤ 2 * N ∧ (|x - τ0| ≤ σ ∨ |x - τ1| ≤ σ) := fun x hx => by
    have bc : |b| + |c| ≤ 2 * N - 1 := by
      have : |τ0 * τ1| + |τ0 + τ1| = N - 1 := by rw [hN]; ring
      linarith
    have x2 : |x| ≤ 2 * N := by
      by_contra hn
      push Not at hn
      have x1 : 1 ≤ |x| := by linarith
      have e : |x| ^ 2 ≤ |b| * |x| + |c| := by
        rw [← abs_pow, show x ^ 2 = -(b * x + c) by linarith, abs_neg]
        exact (abs_add_le _ _).trans (by rw [abs_mul])
      have : |c| ≤ |c| * |x| := le_mul_of_one_le_right (abs_nonneg _) x1
      nlinarith
    refine ⟨x2, ?_⟩
    have e : (x - τ0) * (x - τ1) = -((b + (τ0 + τ1)) * x + (c - τ0 * τ1)) := by linear_combination hx
    have e1 : |x - τ0| * |x - τ1| ≤ 3 * μ * N ^ 2 := by
      rw [← abs_mul, e, abs_neg]
      refine (abs_add_le _ _).trans ?_
      rw [abs_mul]
      have k := mul_le_mul hb x2 (abs_nonneg _) (by positivity)
      have : μ * N ≤ μ * N ^ 2 := by nlinarith [mul_nonneg μ0 (by linarith : (0 : ℝ) ≤ N)]
      nlinarith
    by_cases hx0 : g / 2 ≤ |x - τ1|
    · left
      by_contra hn
      push Not at hn
      nlinarith [abs_nonneg (x - τ1)]
    · right
      push Not at hx0
      have : g / 2 ≤ |x - τ0| := by
        have : g ≤ |x - τ0| + |x - τ1| := by
          have := abs_sub (x - τ0) (x - τ1)
          rw [show x - τ0 - (x - τ1) = g by rw [hg]; ring, abs_of_pos g0] at this
          exact this
        linarith
      by_contra hn
      push Not at hn
      nlinarith [abs_nonneg (x - τ0)]
  have r0 := (root t0 (by rw [h]; ring)).2
  have r1 := (root t1 (by rw [h]; ring)).2
  -- the sum
  have sum : t0 + t1 = -b := by
    have e0 := h 0
    have e1 := h 1
    linarith
  have bl := abs_le.1 hb
  have μg : μ * N ≤ g / 16 := by
    have k : 6 * μ * N ^ 2 ≤ g ^ 2 / 8 := hσ'.trans (by nlinarith)
    by_contra hn
    push Not at hn
    nlinarith
  rcases r0 with r0 | r0 <;> rcases r1 with r1 | r1
  · exfalso
    obtain ⟨a1, a2⟩ := abs_le.1 r0
    obtain ⟨a3, a4⟩ := abs_le.1 r1
    linarith [bl.1, bl.2]
  · exact ⟨r0, r1⟩
  · exfalso
    obtain ⟨a1, a2⟩ := abs_le.1 r0
    obtain ⟨a3, a4⟩ := abs_le.1 r1
    linarith
  · exfalso
    obtain ⟨a1, a2⟩ := abs_le.1 r0
    obtain ⟨a3, a4⟩ := abs_le.1 r1
    linarith [bl.1, bl.2]

/-! ### The intersection -/

section
variable {at2 : ℝ → ℝ → ℝ} {roots : ℝ → ℝ → ℝ → Option (ℝ × ℝ)} {s : Sphere} {w2o : Transform ℝ} {r q : Shape.Ray ℝ} {d τ0 τ1 κ ε σ : ℝ}

theorem quadratic {R : ℝ} (ok : RayOk w2o r R) (t : ℝ) :
    sqLength (w2o.pt (r.pos t)) = sqLength (w2o.vec r.d) * t ^ 2 + 2 * dot (w2o.vec r.d) (w2o.pt r.o) * t + sqLength (w2o.pt r.o) := by
  have p : ∀ i, (w2o.pt (r.pos t)).get i = (w2o.pt r.o).get i + (w2o.vec r.d).get i * t := fun i => by rw [pt_pos ok.affine, pt_get ok.affine, vec_get]
  have p0 := p 0
  have p1 := p 1
  have p2 := p 2
  change V3.x _ = V3.x _ + V3.x _ * t at p0
  change V3.y _ = V3.y _ + V3.y _ * t at p1
  change V3.z _ = V3.z _ + V3.z _ * t at p2
  simp only [sqLength, dot, p0, p1, p2]
  ring

/-- the coefficients of the monic polynomial whose roots `np.roots` returns -/
theorem coeff_close {A A' B B' C C' N x ε τ0 τ1 b c : ℝ} (lt : τ0 < τ1) (A0 : 0 < A') (x0 : 0 ≤ x) (ε0 : 0 ≤ ε) (small : 4 * x + 2 * ε ≤ 1 / 64) (hN : N = 1 + |τ0 + τ1| + |τ0 * τ1|)
    (enters : A' * τ0 ^ 2 + B' * τ0 + C' = 0) (leaves : A' * τ1 ^ 2 + B' * τ1 + C' = 0) (fA : |A - A'| ≤ x * A') (fB : |B - B'| ≤ x * N * A') (fC : |C - C'| ≤ x * N * A')
    (hb : |b - B / A| ≤ ε * (1 + |B / A| + |C / A|)) (hc : |c - C / A| ≤ ε * (1 + |B / A| + |C / A|)) :
    |b + (τ0 + τ1)| ≤ (4 * x + 2 * ε) * N ∧ |c - τ0 * τ1| ≤ (4 * x + 2 * ε) * N := by
  have N1 : 1 ≤ N := by rw [hN]; linarith [abs_nonneg (τ0 + τ1), abs_nonneg (τ0 * τ1)]
  have vB : B' = -(τ0 + τ1) * A' := by
    have : (τ1 - τ0) * (A' * (τ0 + τ1) + B') = 0 := by linear_combination leaves - enters
    rcases mul_eq_zero.1 this with h0 | h0
    · linarith
    · linarith
  have vC : C' = τ0 * τ1 * A' := by
    rw [vB] at enters
    linear_combination enters
  have hA2 : A' / 2 ≤ A := by
    have := neg_le_of_abs_le fA
    have : x * A' ≤ 1 / 64 * A' := by gcongr; linarith
    linarith
  have Apos : 0 < A := by linarith
  have sN : |τ0 + τ1| ≤ N := by rw [hN]; linarith [abs_nonneg (τ0 * τ1)]
  have pN : |τ0 * τ1| ≤ N := by rw [hN]; linarith [abs_nonneg (τ0 + τ1)]
  have xN : 0 ≤ x * N := by positivity
  have quot : ∀ X X' v : ℝ, X' = v * A' → |v| ≤ N → |X - X'| ≤ x * N * A' → |X / A - v| ≤ 4 * x * N := fun X X' v e hv hX => by
    have : X / A - v = ((X - X') + v * (A' - A)) / A := by
      rw [e]; field_simp; ring
    rw [this, abs_div, abs_of_pos Apos, div_le_iff₀ Apos]
    refine (abs_add_le _ _).trans ?_
    rw [abs_mul, abs_sub_comm A' A]
    have k : |v| * |A - A'| ≤ N * (x * A') := mul_le_mul hv fA (abs_nonneg _) (by linarith)
    have k2 : x * N * A' ≤ x * N * (2 * A) := mul_le_mul_of_nonneg_left (by linarith) xN
    linarith
  have qB := quot B B' (-(τ0 + τ1)) vB (by rwa [abs_neg]) fB
  have qC := quot C C' (τ0 * τ1) vC pN fC
  have N2 : 1 + |B / A| + |C / A| ≤ 2 * N := by
    have k1 := abs_sub_abs_le_abs_sub (B / A) (-(τ0 + τ1))
    have k2 := abs_sub_abs_le_abs_sub (C / A) (τ0 * τ1)
    rw [abs_neg] at k1
    have : 4 * x * N ≤ 1 / 64 * N := by gcongr; linarith
    linarith
  have εN : ε * (1 + |B / A| + |C / A|) ≤ 2 * ε * N := by
    have := mul_le_mul_of_nonneg_left N2 ε0
    linarith
  constructor
  · calc |b + (τ0 + τ1)| = |(b - B / A) + (B / A - -(τ0 + τ1))| := by congr 1; ring
      _ ≤ |b - B / A| + |B / A - -(τ0 + τ1)| := abs_add_le _ _
      _ ≤ _ := by linarith
  · calc |c - τ0 * τ1| = |(c - C / A) + (C / A - τ0 * τ1)| := by congr 1; ring
      _ ≤ |c - C / A| + |C / A - τ0 * τ1| := abs_add_le _ _
      _ ≤ _ := by linarith

/-- that polynomial has real roots -/
theorem real_roots {τ0 τ1 b c N μ σ : ℝ} (lt : τ0 < τ1) (hN : N = 1 + |τ0 + τ1| + |τ0 * τ1|) (hb : |b + (τ0 + τ1)| ≤ μ * N) (hc : |c - τ0 * τ1| ≤ μ * N)
    (hσ : 6 * μ * N ^ 2 / (τ1 - τ0) ≤ σ) (ha : σ ≤ (τ1 - τ0) / 8) : 0 ≤ b ^ 2 - 4 * c := by
  have g0 : 0 < τ1 - τ0 := by linarith
  have hσ' : 6 * μ * N ^ 2 ≤ σ * (τ1 - τ0) := by rwa [div_le_iff₀ g0] at hσ
  have N1 : 1 ≤ N := by rw [hN]; linarith [abs_nonneg (τ0 + τ1), abs_nonneg (τ0 * τ1)]
  have sN : |τ0 + τ1| ≤ N := by rw [hN]; linarith [abs_nonneg (τ0 * τ1)]
  have μN0 : 0 ≤ μ * N := (abs_nonneg _).trans hb
  have k1 : |(τ0 + τ1) * (b + (τ0 + τ1))| ≤ N * (μ * N) := by rw [abs_mul]; exact mul_le_mul sN hb (abs_nonneg _) (by linarith)
  have k2 := le_of_abs_le k1
  have k3 := le_of_abs_le hc
  have k4 : μ * N ≤ N * (μ * N) := le_mul_of_one_le_left μN0 N1
  have k5 : σ * (τ1 - τ0) ≤ (τ1 - τ0) / 8 * (τ1 - τ0) := mul_le_mul_of_nonneg_right ha g0.le
  have e : b ^ 2 - 4 * c = (τ1 - τ0) ^ 2 - 2 * ((τ0 + τ1) * (b + (τ0 + τ1))) + (b + (τ0 + τ1)) ^ 2 - 4 * (c - τ0 * τ1) := by ring
  have k6 := sq_nonneg (b + (τ0 + τ1))
  have k7 := sq_nonneg (τ1 - τ0)
  have e2 : (τ1 - τ0) / 8 * (τ1 - τ0) = (τ1 - τ0) ^ 2 / 8 := by ring
  have e3 : 6 * μ * N ^ 2 = 6 * (N * (μ * N)) := by ring
  rw [e2] at k5
  rw [e3] at hσ'
  rw [e]
  linarith

theorem solved (hr : RootsOk ε roots) (ε0 : 0 ≤ ε) (ok : RayOk w2o r s.radius) (hq : RayR w2o r q) (hd : DotR q.d.get q.o.get [0, 1, 2] d) (h : Passes s w2o r τ0 τ1 κ ε σ) :
    ∃ t0 t1, hitObjR at2 roots s q d = chooseR at2 s q t0 t1 ∧ |t0 - τ0| ≤ σ ∧ |t1 - τ1| ≤ σ := by
  obtain ⟨lt, enters, leaves, A0, condA, condB, condC, small, time, apart, deep⟩ := h
  have eA := rel48 (by norm_num) (A_flt ok hq)
  have eB := rel48 (by norm_num) (B_flt ok hq hd)
  have eC := rel48 (by norm_num) (C_flt ok hq)
  have eD := neg_le_of_abs_le (D_close ok hq hd)
  have notle : ¬ double (double (double (2 * d) * double (2 * d)) - double (double (4 * sqLenR q.d) * double (sqLenR q.o - double (s.radius * s.radius)))) ≤ EPS := by
    rw [not_le]; linarith
  rw [quadratic ok] at enters leaves
  have s0 : 0 ≤ sizeA w2o.m r := by rw [sizeA]; positivity
  simp only [hitObjR]
  rw [if_neg notle]
  clear notle eD deep
  generalize sqLenR q.d = A at *
  generalize double (2 * d) = B at *
  generalize double (sqLenR q.o - double (s.radius * s.radius)) = C at *
  generalize sqLength (w2o.vec r.d) = A' at *
  generalize 2 * dot (w2o.vec r.d) (w2o.pt r.o) = B' at *
  generalize sizeA w2o.m r = sA at *
  generalize sizeB w2o.m r = sB at *
  generalize sizeC w2o.m r s.radius = sC at *
  obtain ⟨N, hN⟩ : ∃ N, N = 1 + |τ0 + τ1| + |τ0 * τ1| := ⟨_, rfl⟩
  rw [← hN] at condB condC time
  have κ0 : 0 ≤ κ := by
    by_contra hn
    push Not at hn
    have := mul_neg_of_neg_of_pos hn A0
    linarith
  obtain ⟨x, hx⟩ : ∃ x, x = (2 : ℝ) ^ (-48 : ℤ) * κ := ⟨_, rfl⟩
  have z : (2 : ℝ) ^ (-46 : ℤ) * κ = 4 * x := by rw [hx, show (2 : ℝ) ^ (-46 : ℤ) = 4 * 2 ^ (-48 : ℤ) by norm_num]; ring
  rw [z] at small time
  have z48 : (0 : ℝ) ≤ 2 ^ (-48 : ℤ) := by positivity
  have x0 : 0 ≤ x := by rw [hx]; exact mul_nonneg z48 κ0
  have fA : |A - A'| ≤ x * A' := eA.trans (by rw [hx, mul_assoc]; exact mul_le_mul_of_nonneg_left condA z48)
  have fB : |B - B'| ≤ x * N * A' := eB.trans (by rw [hx, mul_assoc, mul_assoc, ← mul_assoc κ]; exact mul_le_mul_of_nonneg_left condB z48)
  have fC : |C - (sqLength (w2o.pt r.o) - s.radius ^ 2)| ≤ x * N * A' := eC.trans (by rw [hx, mul_assoc, mul_assoc, ← mul_assoc κ]; exact mul_le_mul_of_nonneg_left condC z48)
  have Apos : A ≠ 0 := fun e => by
    rw [e, zero_sub, abs_neg, abs_of_pos A0] at fA
    have : x * A' ≤ 1 / 64 * A' := mul_le_mul_of_nonneg_right (by linarith) A0.le
    linarith
  obtain ⟨b, c, hb, hc, hsome, hnone⟩ := hr A B C Apos
  obtain ⟨hb', hc'⟩ := coeff_close lt A0 x0 ε0 small hN (by linarith) (by linarith) fA fB fC hb hc
  rcases hroot : roots A B C with _ | ⟨t0, t1⟩
  · exact absurd (hnone hroot) (not_lt.2 (real_roots lt hN hb' hc' time apart))
  · have hp := hsome t0 t1 hroot
    by_cases hlt : t0 > t1
    · have := root_close lt hN small hb' hc' time apart (t0 := t1) (t1 := t0) (fun x => by rw [hp, mul_comm]) hlt.le
      exact ⟨t1, t0, by simp only [if_pos hlt], this.1, this.2⟩
    · have := root_close lt hN small hb' hc' time apart hp (not_lt.1 hlt)
      exact ⟨t0, t1, by simp only [if_neg hlt], this.1, this.2⟩

theorem complete_clip (h2 : Arctan2 at2) (hs : Complete s) (p : V3 ℝ) : ¬ ClippedR at2 s p := by
  rintro (h | h | h)
  · exact absurd h.1 (by rw [hs.zmin]; exact lt_irrefl _)
  · exact absurd h.1 (by rw [hs.zmax]; exact lt_irrefl _)
  · rw [hs.phi] at h
    exact absurd (angle_close h2 p).2.1 (not_le.2 h)

/-- the error of the position at a parameter with the error `σ` -/
def Place (w2o : Transform ℝ) (r : Shape.Ray ℝ) (t σ δ : ℝ) : Prop :=
  ∀ i : Fin 3, 2 * sizeVec w2o.m r.d i.castSucc * σ + 2 ^ (-49 : ℤ) * (size w2o.m r.o i.castSucc + |t| * sizeVec w2o.m r.d i.castSucc) + 2 ^ (-500 : ℤ) ≤ δ

theorem position {t t' δ R : ℝ} (ok : RayOk w2o r R) (hq : RayR w2o r q) (hp : Place w2o r t σ δ) (ht : |t' - t| ≤ σ) (i : Fin 3) :
    |(atR q.o q.d t').get i - (w2o.pt (r.pos t)).get i| ≤ δ := by
  have g : ∀ {x : ℝ}, Grid (-120) x → Grid (-200) x := fun h => h.mono (by norm_num)
  have ho := C182_point w2o ok.affine (fun i j => g (ok.m i j)) r.o q.o (fun i => g (ok.o i)) hq.1 i
  have hd := C182_vector w2o (fun i j => g (ok.m i j)) r.d q.d (fun i => g (ok.d i)) hq.2.1 i
  rw [z50] at ho hd
  rw [atR_get, pt_pos ok.affine]
  refine (place_close ho hd (homog_le _ _ _) (lin_le _ _ _) ht).trans (le_trans ?_ (hp i))
  have z49 : (2 : ℝ) ^ (-49 : ℤ) = 16 * uu := by rw [uu, show (-49 : ℤ) = 4 + -53 by norm_num, zpow_add₀ two_ne_zero]; norm_num
  rw [z49]
  have : 3 * (2 : ℝ) ^ (-1075 : ℤ) ≤ 2 ^ (-500 : ℤ) := by
    calc 3 * (2 : ℝ) ^ (-1075 : ℤ) ≤ 2 ^ (2 : ℤ) * 2 ^ (-1075 : ℤ) := by gcongr; norm_num
      _ = 2 ^ (-1073 : ℤ) := by rw [← zpow_add₀ two_ne_zero]; norm_num
      _ ≤ _ := zpow_le_zpow_right₀ (by norm_num) (by norm_num)
  gcongr

theorem nudge_off (s : Sphere) (p : V3 ℝ) : OffAxis s.radius p (nudgeR s p) := by
  simp only [nudgeR, OffAxis]
  by_cases h : p.x = 0 ∧ p.y = 0
  · rw [if_pos h]; exact Or.inr ⟨h.1, h.2, rfl, h.2, rfl⟩
  · rw [if_neg h]; exact Or.inl ⟨h, rfl⟩

/-- **C191** A ray that clearly enters a complete sphere within its range is reported to hit it there: the parameter up to `σ`, the position (before it is moved off the axis) up to `δ` … -/
theorem C191_enters (h2 : Arctan2 at2) (hr : RootsOk ε roots) (ε0 : 0 ≤ ε) (hs : Complete s) (ok : RayOk w2o r s.radius) (h : Passes s w2o r τ0 τ1 κ ε σ) (δ : ℝ) (hp : Place w2o r τ0 σ δ)
    (lo : r.mint + σ ≤ τ0) (hi : ((τ0 + σ : ℝ) : WithTop ℝ) ≤ r.maxt) (x : Res) (hx : HitR at2 roots s w2o r x) :
    ∃ t p p', x = .hit t p' ∧ OffAxis s.radius p p' ∧ |t - τ0| ≤ σ ∧ ∀ i, |p.get i - (w2o.pt (r.pos τ0)).get i| ≤ δ := by
  obtain ⟨q, d, hq, hd, rfl⟩ := hx
  obtain ⟨t0, t1, e, c0, c1⟩ := solved (at2 := at2) hr ε0 ok hq hd h
  obtain ⟨a1, a2⟩ := abs_le.1 c0
  obtain ⟨a3, a4⟩ := abs_le.1 c1
  have σ0 : 0 ≤ σ := (abs_nonneg _).trans c0
  have ap := h.apart
  have l0 : ¬ t0 < q.mint := by rw [hq.2.2.1]; linarith
  have l1 : ¬ ((t0 : WithTop ℝ) > q.maxt ∨ t1 < q.mint) := by
    rintro (hc | hc)
    · rw [hq.2.2.2] at hc
      exact absurd (lt_of_lt_of_le hc (le_trans (WithTop.coe_le_coe.2 (by linarith)) hi)) (lt_irrefl _)
    · rw [hq.2.2.1] at hc; linarith
  refine ⟨t0, atR q.o q.d t0, nudgeR s (atR q.o q.d t0), ?_, nudge_off _ _, c0, position ok hq hp c0⟩
  rw [e]
  simp only [chooseR]
  rw [if_neg l1, if_neg (fun hc => l0 hc.1), if_neg l0, if_neg (complete_clip h2 hs _)]

/-- … one that starts clearly within it is reported to hit it where it leaves … -/
theorem C191_leaves (h2 : Arctan2 at2) (hr : RootsOk ε roots) (ε0 : 0 ≤ ε) (hs : Complete s) (ok : RayOk w2o r s.radius) (h : Passes s w2o r τ0 τ1 κ ε σ) (δ : ℝ) (hp : Place w2o r τ1 σ δ)
    (ins : τ0 + σ < r.mint) (lo : r.mint + σ ≤ τ1) (hi : ((τ1 + σ : ℝ) : WithTop ℝ) ≤ r.maxt) (x : Res) (hx : HitR at2 roots s w2o r x) :
    ∃ t p p', x = .hit t p' ∧ OffAxis s.radius p p' ∧ |t - τ1| ≤ σ ∧ ∀ i, |p.get i - (w2o.pt (r.pos τ1)).get i| ≤ δ := by
  obtain ⟨q, d, hq, hd, rfl⟩ := hx
  obtain ⟨t0, t1, e, c0, c1⟩ := solved (at2 := at2) hr ε0 ok hq hd h
  obtain ⟨a1, a2⟩ := abs_le.1 c0
  obtain ⟨a3, a4⟩ := abs_le.1 c1
  have σ0 : 0 ≤ σ := (abs_nonneg _).trans c0
  have ap := h.apart
  have l0 : t0 < q.mint := by rw [hq.2.2.1]; linarith
  have l2 : ¬ (t1 : WithTop ℝ) > q.maxt := fun hc => by
    rw [hq.2.2.2] at hc
    exact absurd (lt_of_lt_of_le hc (le_trans (WithTop.coe_le_coe.2 (by linarith)) hi)) (lt_irrefl _)
  have l1 : ¬ ((t0 : WithTop ℝ) > q.maxt ∨ t1 < q.mint) := by
    rintro (hc | hc)
    · exact l2 (lt_of_lt_of_le hc (WithTop.coe_le_coe.2 (by linarith)))
    · rw [hq.2.2.1] at hc; linarith
  refine ⟨t1, atR q.o q.d t1, nudgeR s (atR q.o q.d t1), ?_, nudge_off _ _, c1, position ok hq hp c1⟩
  rw [e]
  simp only [chooseR]
  rw [if_neg l1, if_neg (fun hc => l2 hc.2), if_pos l0, if_neg (complete_clip h2 hs _)]

/-- … one whose range clearly ends before it enters, starts after it leaves, or lies between the two is not … -/
theorem C191_range (hr : RootsOk ε roots) (ε0 : 0 ≤ ε) (ok : RayOk w2o r s.radius) (h : Passes s w2o r τ0 τ1 κ ε σ)
    (out : r.maxt < ((τ0 - σ : ℝ) : WithTop ℝ) ∨ τ1 + σ < r.mint ∨ (τ0 + σ < r.mint ∧ r.maxt < ((τ1 - σ : ℝ) : WithTop ℝ))) (x : Res) (hx : HitR at2 roots s w2o r x) : x = .miss := by
  obtain ⟨q, d, hq, hd, rfl⟩ := hx
  obtain ⟨t0, t1, e, c0, c1⟩ := solved (at2 := at2) hr ε0 ok hq hd h
  obtain ⟨a1, a2⟩ := abs_le.1 c0
  obtain ⟨a3, a4⟩ := abs_le.1 c1
  rw [e]
  simp only [chooseR]
  rcases out with o | o | ⟨o, o'⟩
  · rw [if_pos (Or.inl ?_)]
    rw [hq.2.2.2]
    exact lt_of_lt_of_le o (WithTop.coe_le_coe.2 (by linarith))
  · rw [if_pos (Or.inr ?_)]
    rw [hq.2.2.1]; linarith
  · have k : t0 < q.mint ∧ (t1 : WithTop ℝ) > q.maxt := by
      rw [hq.2.2.1, hq.2.2.2]
      exact ⟨by linarith, lt_of_lt_of_le o' (WithTop.coe_le_coe.2 (by linarith))⟩
    split_ifs
    · rfl
    · rfl

/-- … nor is one whose line clearly passes by (or only grazes the sphere): the discriminant is clearly below `EPS` … -/
theorem C191_passes_by (ok : RayOk w2o r s.radius) (h : disc w2o r s.radius + 2 ^ (-45 : ℤ) * sizeD w2o.m r s.radius ≤ EPS) (x : Res) (hx : HitR at2 roots s w2o r x) : x = .miss := by
  obtain ⟨q, d, hq, hd, rfl⟩ := hx
  have eD := le_of_abs_le (D_close ok hq hd)
  simp only [hitObjR]
  rw [if_pos (by linarith)]

/-- … and `intersect_p` says the same as `intersect`, always. -/
theorem C191_p : hitObjPR at2 roots s q d = match hitObjR at2 roots s q d with | .typeError => none | .miss => some false | .hit _ _ => some true := by
  have key : ∀ t0 t1, some (choosePR at2 s q t0 t1) = match chooseR at2 s q t0 t1 with | .typeError => none | .miss => some false | .hit _ _ => some true := fun t0 t1 => by
    simp only [choosePR, chooseR]
    generalize (if t0 < q.mint then t1 else t0) = th
    split_ifs <;> rfl
  simp only [hitObjPR, hitObjR]
  split_ifs
  · rfl
  · rcases roots (sqLenR q.d) (double (2 * d)) (double (sqLenR q.o - double (s.radius * s.radius))) with _ | ⟨t0, t1⟩
    · rfl
    · simp only
      by_cases hc : t0 > t1
      · rw [if_pos hc, if_pos hc]; exact key _ _
      · rw [if_neg hc, if_neg hc]; exact key _ _

end

/-! ### Concrete case -/

/-- the exact roots are a case of `RootsOk` -/
noncomputable def exactRoots (A B C : ℝ) : Option (ℝ × ℝ) :=
  if (B / A) ^ 2 - 4 * (C / A) < 0 then none
  else some ((-(B / A) + Real.sqrt ((B / A) ^ 2 - 4 * (C / A))) / 2, (-(B / A) - Real.sqrt ((B / A) ^ 2 - 4 * (C / A))) / 2)

theorem exactRoots_ok : RootsOk 0 exactRoots := fun A B C _ => by
  refine ⟨B / A, C / A, by simp, by simp, fun t0 t1 h x => ?_, fun h => ?_⟩
  · simp only [exactRoots] at h
    split_ifs at h with hd
    have sq := Real.sq_sqrt (not_lt.1 hd)
    simp only [Option.some.injEq, Prod.mk.injEq] at h
    rw [← h.1, ← h.2]
    linear_combination (1 / 4) * sq
  · simp only [exactRoots] at h
    split_ifs at h with hd
    exact hd

/-- a ray that looks down on the unit sphere from the height 4 -/
noncomputable def downRay : Shape.Ray ℝ := ⟨⟨0, 0, 4⟩, ⟨0, 0, -1⟩, 0, ⊤⟩
noncomputable def ball : Sphere := ⟨1, -1, 1, twoPi⟩

theorem ball_complete : Complete ball := ⟨rfl, rfl, rfl⟩

theorem down_ok : RayOk Xform.ident downRay ball.radius := by
  have g0 : Grid (-120) (0 : ℝ) := ⟨0, by simp⟩
  have g : ∀ {n : ℤ} {x : ℝ}, x = n * 2 ^ (0 : ℤ) → Grid (-120) x := fun {n x} h => Grid.mono (show (-120 : ℤ) ≤ 0 by norm_num) ⟨n, h⟩
  refine ⟨by simp [Affine, Xform.ident], fun i j => ?_, fun i => ?_, fun i => ?_, g (n := 1) (by norm_num [ball])⟩
  · have : (Xform.ident : Transform ℝ).m i j = if i = j then 1 else 0 := by
      fin_cases i <;> fin_cases j <;> simp [Xform.ident]
    rw [this]
    split_ifs
    · exact g (n := 1) (by norm_num)
    · exact g0
  · fin_cases i
    · exact g0
    · exact g0
    · exact g (n := 4) (by norm_num [downRay, V3.get])
  · fin_cases i
    · exact g0
    · exact g0
    · exact g (n := -1) (by norm_num [downRay, V3.get])

theorem down_passes : Passes ball Xform.ident downRay 3 5 1 0 (2 ^ (-35 : ℤ)) := by
  have e1 : EPS ≤ 1 / 32 := by
    have := double_mono (show (1 / 100000 : ℝ) ≤ 1 / 32 by norm_num)
    rwa [show double (1 / 32 : ℝ) = 1 / 32 from double_of_isDouble ⟨1, -5, by norm_num, by norm_num, by norm_num⟩] at this
  constructor
  · norm_num
  · simp [Xform.ident, Transform.pt, homog, Shape.Ray.pos, V3.rayAt, downRay, ball, sqLength]; norm_num
  · simp [Xform.ident, Transform.pt, homog, Shape.Ray.pos, V3.rayAt, downRay, ball, sqLength]; norm_num
  · simp [Xform.ident, Transform.vec, downRay, sqLength]
  · simp [Xform.ident, Transform.vec, downRay, sqLength, sizeA, sizeVec]
  · simp [Xform.ident, Transform.vec, downRay, sqLength, sizeB, sizeVec, size]; norm_num
  · simp [Xform.ident, Transform.vec, downRay, sqLength, sizeC, size, ball]; norm_num
  · norm_num
  · norm_num
  · norm_num
  · simp [Xform.ident, Transform.vec, Transform.pt, homog, downRay, sqLength, dot, disc, sizeD, sizeA, sizeB, sizeC, sizeVec, size, ball]
    norm_num
    linarith

/-- it is reported to hit the sphere at the distance 3, whatever the order of summation; and there is an answer -/
example : (∀ x, HitR (fun y x => double (Complex.arg ⟨x, y⟩)) exactRoots ball Xform.ident downRay x → ∃ t p, x = .hit t p ∧ |t - 3| ≤ 2 ^ (-35 : ℤ)) ∧
    ∃ x, HitR (fun y x => double (Complex.arg ⟨x, y⟩)) exactRoots ball Xform.ident downRay x := by
  have tiny' : (2 : ℝ) ^ (-500 : ℤ) ≤ 2 ^ (-60 : ℤ) := zpow_le_zpow_right₀ (by norm_num) (by norm_num)
  constructor
  · intro x hx
    obtain ⟨t, _, p, e, -, c, -⟩ := C191_enters arctan2_round exactRoots_ok le_rfl ball_complete down_ok down_passes (2 ^ (-33 : ℤ)) (fun i => by
      generalize (2 : ℝ) ^ (-500 : ℤ) = e at *
      fin_cases i <;> simp [Xform.ident, sizeVec, size, downRay] <;> norm_num at tiny' ⊢ <;> linarith) (by norm_num [downRay]) le_top x hx
    exact ⟨t, p, e, c⟩
  · obtain ⟨⟨o, ho⟩, -⟩ := C182_total (Xform.ident : Transform ℝ) Xform.ident downRay.o
    obtain ⟨-, ⟨d, hd⟩, -⟩ := C182_total (Xform.ident : Transform ℝ) Xform.ident downRay.d
    obtain ⟨v, hv⟩ := DotR.total d.get o.get [0, 1, 2]
    exact ⟨_, ⟨o, d, 0, ⊤⟩, v, ⟨ho, hd, rfl, rfl⟩, hv, rfl⟩

/-- a ray beside the sphere: the discriminant is negative -/
example : disc (Xform.ident : Transform ℝ) ⟨⟨2, 0, 4⟩, ⟨0, 0, -1⟩, 0, ⊤⟩ ball.radius + 2 ^ (-45 : ℤ) * sizeD (Xform.ident : Transform ℝ).m ⟨⟨2, 0, 4⟩, ⟨0, 0, -1⟩, 0, ⊤⟩ ball.radius ≤ EPS := by
  have e := eps_ge
  simp [Xform.ident, Transform.vec, Transform.pt, homog, sqLength, dot, disc, sizeD, sizeA, sizeB, sizeC, sizeVec, size, ball]
  norm_num at e ⊢
  linarith

end Verif.SphereR
