import Verif.Shape.SphereParts
import Verif.Shape.Disk

/-!
# Rays that leave a sphere or a disk (C198)

`Sphere.intersect` and `Disk.intersect` return with the distance `t` of a hit the number `EPS * t` (`pytracer/shape/sphere.py` 224, `pytracer/shape/disk.py` 112), at which every ray that starts at the point of
the hit begins (`integrator/utility.py:132`, `168`, `215`, `245`, `integrator/surface/path.py:114`, `integrator/surface/whitted.py:44`), so that the ray does not hit the surface it comes from.  The point itself
is computed in object space and transformed to the world with `o2w`; the new ray is transformed back with `w2o`.
-/

namespace Verif.SelfQ
open V3 Verif.Rnd Verif.XformR Verif.DiskR
open Verif.Xform (Transform M4 homog AffineM)
open Verif.Shape (Sphere Disk)
open Verif.SphereR (RootsOk Res HitR)
open Verif.ShadowR (EPS)

/-! ### Model -/

/-- the offset that comes with a hit at distance `t` (`sphere.py` 224, `disk.py` 112) -/
noncomputable def rEps (t : ℝ) : ℝ := double (EPS * t)

/-- a ray that starts at the point `o` of a hit at distance `t` (`integrator/utility.py:132`, `geometry/__init__.py` 306-312) -/
noncomputable def secondary (o d : V3 ℝ) (t : ℝ) (maxt : WithTop ℝ) : Shape.Ray ℝ := ⟨o, d, rEps t, maxt⟩

/-- the same without rounding -/
noncomputable def secondaryX (o d : V3 ℝ) (t : ℝ) (maxt : WithTop ℝ) : Shape.Ray ℝ := ⟨o, d, Shape.eps * t, maxt⟩

/-! ### Specification -/

/-- a point of the object that goes to the world and comes back is known up to `δ` -/
def Returns (o2w w2o : Transform ℝ) (p : V3 ℝ) (δ : ℝ) : Prop := ∀ o, PtR o2w p o → ∀ i, |(w2o.pt o).get i - p.get i| ≤ δ

/-- the sum of the absolute values of the components -/
def norm1 (v : V3 ℝ) : ℝ := |v.x| + |v.y| + |v.z|

/-! ### Lemmas -/

theorem sq_pos (O D : V3 ℝ) (t : ℝ) : sqLength (⟨O.x + D.x * t, O.y + D.y * t, O.z + D.z * t⟩ : V3 ℝ) = sqLength D * t ^ 2 + 2 * dot D O * t + sqLength O := by
  simp only [sqLength, dot]; ring

theorem pos_eq {w2o : Transform ℝ} (ha : Affine w2o.m) (r : Shape.Ray ℝ) (t : ℝ) :
    w2o.pt (r.pos t) = ⟨(w2o.pt r.o).x + (w2o.vec r.d).x * t, (w2o.pt r.o).y + (w2o.vec r.d).y * t, (w2o.pt r.o).z + (w2o.vec r.d).z * t⟩ := by
  have k : ∀ i, (w2o.pt (r.pos t)).get i = (w2o.pt r.o).get i + (w2o.vec r.d).get i * t := fun i => by rw [pt_pos ha, pt_get ha, vec_get]
  exact V3.ext (k 0) (k 1) (k 2)

theorem rEps_ge {t : ℝ} (h : (2 : ℝ) ^ (-400 : ℤ) ≤ t) : t / 262144 ≤ rEps t := by
  have t0 : 0 < t := lt_of_lt_of_le (by positivity) h
  have e1 : (1 : ℝ) / 131072 ≤ EPS := by have := eps_ge; norm_num at this ⊢; exact this
  have e2 := double_err (EPS * t)
  have s0 : (2 : ℝ) ^ (-1075 : ℤ) ≤ 1 / 1048576 * t := by
    have e : (2 : ℝ) ^ (-1075 : ℤ) = 2 ^ (-655 : ℤ) * 2 ^ (-20 : ℤ) * 2 ^ (-400 : ℤ) := by rw [← zpow_add₀ two_ne_zero, ← zpow_add₀ two_ne_zero]; norm_num
    have l : (2 : ℝ) ^ (-655 : ℤ) ≤ 1 := zpow_le_one_of_nonpos₀ (by norm_num) (by norm_num)
    rw [e]
    refine mul_le_mul ?_ h (two_zpow_pos _).le (by norm_num)
    rw [show (2 : ℝ) ^ (-20 : ℤ) = 1 / 1048576 by norm_num]
    exact mul_le_of_le_one_left (by norm_num) l
  generalize (2 : ℝ) ^ (-1075 : ℤ) = s at *
  have u : (2 : ℝ) ^ (-53 : ℤ) ≤ 1 / 1024 := by norm_num
  generalize (2 : ℝ) ^ (-53 : ℤ) = v at *
  have c2 : 0 < EPS * t := mul_pos (by linarith) t0
  rw [abs_of_pos c2] at e2
  have m := (abs_le.1 e2).1
  have l1 := mul_le_mul_of_nonneg_right e1 t0.le
  have l2 := mul_le_mul_of_nonneg_right u c2.le
  rw [rEps]
  linarith

/-! ### Theorems: exact arithmetic -/

/-- **C198** in exact arithmetic a ray that leaves the point of a hit on a sphere to the outside never meets that sphere, nor the part of it that is there. -/
theorem C198_exact_sphere (s : Sphere) (hs : s.Ok) (o2w w2o : Transform ℝ) (hw : AffineM w2o.m) (r : Shape.Ray ℝ) (t phi : ℝ) (p : V3 ℝ) (h : s.hit w2o r = some (t, p, phi)) (ht : 0 < t)
    (inv : w2o.pt (o2w.pt p) = p) (d : V3 ℝ) (out : 0 ≤ dot (w2o.vec d) p) (maxt : WithTop ℝ) :
    s.hit w2o (secondaryX (o2w.pt p) d t maxt) = none ∧ s.hitP w2o (secondaryX (o2w.pt p) d t maxt) = false := by
  have main : s.hit w2o (secondaryX (o2w.pt p) d t maxt) = none := by
    by_contra hn
    obtain ⟨⟨t', p', phi'⟩, h'⟩ := Option.ne_none_iff_exists'.1 hn
    obtain ⟨⟨⟨-, -, on, -⟩, -⟩, off, py, pz, -⟩ := Shape.C41_hit s hs w2o hw r t phi p h
    obtain ⟨⟨⟨lo, -, on', -⟩, -⟩, -⟩ := Shape.C41_hit s hs w2o hw _ t' phi' p' h'
    have lo : Shape.eps * t ≤ t' := lo
    have t'0 : 0 < t' := lt_of_lt_of_le (mul_pos Shape.eps_pos ht) lo
    rw [pos_eq hw, sq_pos] at on'
    change sqLength (w2o.vec d) * t' ^ 2 + 2 * dot (w2o.vec d) (w2o.pt (o2w.pt p)) * t' + sqLength (w2o.pt (o2w.pt p)) = _ at on'
    rw [inv] at on'
    have far : s.radius ^ 2 ≤ sqLength p := by
      rw [← on]
      by_cases hc : (w2o.pt (r.pos t)).x = 0 ∧ (w2o.pt (r.pos t)).y = 0
      · simp only [sqLength, hc.1, hc.2, py, pz]
        nlinarith [mul_self_nonneg p.x]
      · rw [off hc]
    have A0 : 0 ≤ sqLength (w2o.vec d) := by
      simp only [sqLength]; nlinarith [mul_self_nonneg (w2o.vec d).x, mul_self_nonneg (w2o.vec d).y, mul_self_nonneg (w2o.vec d).z]
    have k1 : 0 ≤ 2 * dot (w2o.vec d) p * t' := by positivity
    have k2 : 0 ≤ sqLength (w2o.vec d) * t' ^ 2 := by positivity
    have z : sqLength (w2o.vec d) * t' ^ 2 = 0 := by linarith
    have A1 : sqLength (w2o.vec d) = 0 := by
      rcases mul_eq_zero.1 z with h | h
      · exact h
      · exact absurd h (by positivity)
    have B1 : dot (w2o.vec d) p = 0 := by
      have : 2 * dot (w2o.vec d) p * t' = 0 := by linarith
      rcases mul_eq_zero.1 this with h | h
      · linarith
      · exact absurd h t'0.ne'
    refine hn ?_
    simp only [Sphere.hit, Sphere.hitObj, Shape.Ray.map, secondaryX, inv, A1, B1]
    rw [if_pos (by have := Shape.eps_pos; linarith)]
  refine ⟨main, ?_⟩
  rw [Shape.C41_intersect_p_agrees, main]; rfl

/-- **C198** … nor a disk that it leaves, in any direction. -/
theorem C198_exact_disk (s : Disk) (hs : s.Ok) (o2w w2o : Transform ℝ) (hw : AffineM w2o.m) (r : Shape.Ray ℝ) (t phi : ℝ) (p : V3 ℝ) (h : s.hit w2o r = some (t, p, phi)) (ht : 0 < t)
    (inv : w2o.pt (o2w.pt p) = p) (d : V3 ℝ) (maxt : WithTop ℝ) :
    s.hit w2o (secondaryX (o2w.pt p) d t maxt) = none ∧ s.hitP w2o (secondaryX (o2w.pt p) d t maxt) = false := by
  have main : s.hit w2o (secondaryX (o2w.pt p) d t maxt) = none := by
    obtain ⟨⟨-, -, on⟩, e⟩ := (Shape.C42_sound s hs w2o hw r).1 t p phi h
    have pz : p.z = s.height := by rw [e]; exact on.1
    simp only [Disk.hit, Disk.hitObj, Shape.Ray.map, secondaryX, inv]
    by_cases hd : |(w2o.vec d).z| < Shape.eps
    · rw [if_pos hd]
    · rw [if_neg hd, pz, sub_self, zero_div, if_pos (Or.inl (mul_pos Shape.eps_pos ht))]
  refine ⟨main, ?_⟩
  rw [Shape.C42_intersect_p_agrees, main]; rfl

/-! ### Theorems: rounded -/

section
variable {at2 : ℝ → ℝ → ℝ} {roots : ℝ → ℝ → ℝ → Option (ℝ × ℝ)} {s : Sphere} {o2w w2o : Transform ℝ} {ε τ0 τ1 κ σ : ℝ}

/-- **C198** a ray that starts near the surface of a sphere, not inside by more than `η`, and goes outwards by more than `b`, is not reported to meet the sphere: whatever the direction, the end of the ray and
the part of the sphere. -/
theorem C198_outwards (hroots : RootsOk ε roots) (ε0 : 0 ≤ ε) (r : Shape.Ray ℝ) (ok : SphereR.RayOk w2o r s.radius) (h : SphereR.Passes s w2o r τ0 τ1 κ ε σ) (η b : ℝ) (η0 : 0 ≤ η) (b0 : 0 < b)
    (near : s.radius ^ 2 - η ≤ sqLength (w2o.pt r.o)) (out : b ≤ dot (w2o.vec r.d) (w2o.pt r.o)) (hm : η / (2 * b) + σ < r.mint) (x : Res) (hx : HitR at2 roots s w2o r x) : x = .miss := by
  refine SphereR.C191_range hroots ε0 ok h (Or.inr (Or.inl (lt_of_le_of_lt (add_le_add_left ?_ σ) hm))) x hx
  have on := h.leaves
  rw [pos_eq ok.affine, sq_pos] at on
  rw [le_div_iff₀ (by positivity)]
  rcases le_or_gt τ1 0 with h0 | h0
  · nlinarith
  · have k1 : 0 ≤ sqLength (w2o.vec r.d) * τ1 ^ 2 := mul_nonneg h.A.le (sq_nonneg _)
    have k2 := mul_le_mul_of_nonneg_right out h0.le
    linarith

/-- **C198** … and a ray that starts near the surface, not outside by more than `η`, and goes inwards by more than `b`, is reported to meet the sphere (if it is complete) on the other side, at `τ1`, not where
it starts. -/
theorem C198_across (h2 : Arctan2 at2) (hroots : RootsOk ε roots) (ε0 : 0 ≤ ε) (hs : SphereR.Complete s) (r : Shape.Ray ℝ) (ok : SphereR.RayOk w2o r s.radius) (h : SphereR.Passes s w2o r τ0 τ1 κ ε σ)
    (η b δ : ℝ) (η0 : 0 ≤ η) (b0 : 0 < b) (hp : SphereR.Place w2o r τ1 σ δ) (near : sqLength (w2o.pt r.o) ≤ s.radius ^ 2 + η) (inw : dot (w2o.vec r.d) (w2o.pt r.o) ≤ -b)
    (hm : η / b + σ < r.mint) (lo : r.mint + σ ≤ τ1) (hi : ((τ1 + σ : ℝ) : WithTop ℝ) ≤ r.maxt) (x : Res) (hx : HitR at2 roots s w2o r x) :
    ∃ t p p', x = .hit t p' ∧ SphereR.OffAxis s.radius p p' ∧ |t - τ1| ≤ σ ∧ ∀ i, |p.get i - (w2o.pt (r.pos τ1)).get i| ≤ δ := by
  refine SphereR.C191_leaves h2 hroots ε0 hs ok h δ hp (lt_of_le_of_lt (add_le_add_left ?_ σ) hm) lo hi x hx
  have on0 := h.enters
  have on1 := h.leaves
  have lt := h.lt
  have A0 := h.A
  rw [pos_eq ok.affine, sq_pos] at on0 on1
  generalize sqLength (w2o.vec r.d) = A at *
  generalize dot (w2o.vec r.d) (w2o.pt r.o) = B at *
  rw [le_div_iff₀ b0]
  rcases le_or_gt τ0 0 with h0 | h0
  · nlinarith
  · have sum : A * (τ0 + τ1) + 2 * B = 0 := by
      have : (τ1 - τ0) * (A * (τ0 + τ1) + 2 * B) = 0 := by linarith
      rcases mul_eq_zero.1 this with h | h
      · linarith
      · exact h
    have k1 : A * τ0 ≤ -B := by nlinarith
    have k2 := mul_le_mul_of_nonneg_right k1 h0.le
    have k3 := mul_le_mul_of_nonneg_right inw h0.le
    nlinarith

/-- **C198** where `w2o` is the exact inverse of `o2w` (translations, stretches by powers of two, exchanges of axes), a point of the object comes back up to the rounding error of one transformation. -/
theorem C198_returns (ha : Affine o2w.m) (hb : Affine w2o.m) (gm : ∀ i j, Grid (-200) (o2w.m i j)) (inv : w2o.m * o2w.m = 1) (p : V3 ℝ) (gp : ∀ i, Grid (-200) (p.get i)) (δ : ℝ)
    (hδ : ∀ i : Fin 3, 2 ^ (-50 : ℤ) * (|w2o.m i.castSucc 0| * size o2w.m p 0 + |w2o.m i.castSucc 1| * size o2w.m p 1 + |w2o.m i.castSucc 2| * size o2w.m p 2) ≤ δ) : Returns o2w w2o p δ := by
  intro o ho i
  have c := fun j => C182_point o2w ha gm p o gp ho j
  have c0 := c 0
  have c1 := c 1
  have c2 := c 2
  change |o.x - homog o2w.m p 0| ≤ _ * size o2w.m p 0 at c0
  change |o.y - homog o2w.m p 1| ≤ _ * size o2w.m p 1 at c1
  change |o.z - homog o2w.m p 2| ≤ _ * size o2w.m p 2 at c2
  refine le_trans ?_ (hδ i)
  have key : p.get i = w2o.m i.castSucc 0 * homog o2w.m p 0 + w2o.m i.castSucc 1 * homog o2w.m p 1 + w2o.m i.castSucc 2 * homog o2w.m p 2 + w2o.m i.castSucc 3 := by
    have e : ∀ j, w2o.m i.castSucc 0 * o2w.m 0 j + w2o.m i.castSucc 1 * o2w.m 1 j + w2o.m i.castSucc 2 * o2w.m 2 j + w2o.m i.castSucc 3 * o2w.m 3 j = (1 : M4 ℝ) i.castSucc j := fun j => by
      rw [← inv, Matrix.mul_apply, Fin.sum_univ_four]
    have e0 := e 0
    have e1 := e 1
    have e2 := e 2
    have e3 := e 3
    obtain ⟨a0, a1, a2, a3⟩ := ha
    rw [a0] at e0
    rw [a1] at e1
    rw [a2] at e2
    rw [a3] at e3
    simp only [homog]
    have : p.get i = (1 : M4 ℝ) i.castSucc 0 * p.x + (1 : M4 ℝ) i.castSucc 1 * p.y + (1 : M4 ℝ) i.castSucc 2 * p.z + (1 : M4 ℝ) i.castSucc 3 := by
      fin_cases i <;> simp [V3.get, Matrix.one_apply]
    rw [this, ← e0, ← e1, ← e2, ← e3]; ring
  rw [pt_get hb, key]
  have e : homog w2o.m o i.castSucc - (w2o.m i.castSucc 0 * homog o2w.m p 0 + w2o.m i.castSucc 1 * homog o2w.m p 1 + w2o.m i.castSucc 2 * homog o2w.m p 2 + w2o.m i.castSucc 3) =
      w2o.m i.castSucc 0 * (o.x - homog o2w.m p 0) + w2o.m i.castSucc 1 * (o.y - homog o2w.m p 1) + w2o.m i.castSucc 2 * (o.z - homog o2w.m p 2) := by simp only [homog]; ring
  rw [e]
  have m : ∀ {a b c : ℝ}, |b| ≤ c → |a * b| ≤ |a| * c := fun {a b c} h => by rw [abs_mul]; exact mul_le_mul_of_nonneg_left h (abs_nonneg _)
  have := (abs_add_le _ _).trans (add_le_add ((abs_add_le _ _).trans (add_le_add (m (a := w2o.m i.castSucc 0) c0) (m (a := w2o.m i.castSucc 1) c1))) (m (a := w2o.m i.castSucc 2) c2))
  refine this.trans (le_of_eq ?_)
  ring

/-! The whole way: hit, point in the world, new ray. -/

theorem get_le_norm1 (v : V3 ℝ) (i : Fin 3) : |v.get i| ≤ norm1 v := by
  have := abs_nonneg v.x
  have := abs_nonneg v.y
  have := abs_nonneg v.z
  fin_cases i <;> simp only [norm1, V3.get] <;> linarith

/-- the reported point is not inside by more than a multiple of the errors, and close to the exact one -/
theorem hit_near {R δ δ' : ℝ} {P p p' O : V3 ℝ} (R0 : 0 ≤ R) (gR : Grid (-120) R) (on : sqLength P = R ^ 2) (hδ : δ ≤ R / 4) (hp : ∀ i, |p.get i - P.get i| ≤ δ) (off : SphereR.OffAxis R p p') (hO : ∀ i, |O.get i - p'.get i| ≤ δ') :
    R ^ 2 - (6 * R * δ + 12 * R * δ') ≤ sqLength O ∧ ∀ i, |O.get i - P.get i| ≤ δ + δ' + double (EPS * R) := by
  have e0 : 0 ≤ double (EPS * R) := by
    have := double_mono (show (0 : ℝ) ≤ EPS * R from mul_nonneg ((by positivity : (0 : ℝ) ≤ 2 ^ (-17 : ℤ)).trans eps_ge) R0)
    rwa [double_zero] at this
  have e1 : double (EPS * R) ≤ R / 2 := by
    rcases R0.eq_or_lt with h | h
    · rw [← h]; simp [double_zero]
    have hR : (2 : ℝ) ^ (-120 : ℤ) ≤ R := by
      obtain ⟨n, e⟩ := gR
      have z : (0 : ℝ) < 2 ^ (-120 : ℤ) := two_zpow_pos _
      have : 0 < n := by
        rw [e] at h
        exact_mod_cast (pos_of_mul_pos_left h z.le)
      have : (1 : ℝ) ≤ n := by exact_mod_cast this
      rw [e]
      exact le_mul_of_one_le_left z.le this
    have e1 : EPS ≤ 1 / 32 := by
      have := double_mono (show (1 / 100000 : ℝ) ≤ 1 / 32 by norm_num)
      rwa [show double (1 / 32 : ℝ) = 1 / 32 from double_of_isDouble ⟨1, -5, by norm_num, by norm_num, by norm_num⟩] at this
    have tiny : (2 : ℝ) ^ (-1075 : ℤ) ≤ 2 ^ (-122 : ℤ) := zpow_le_zpow_right₀ (by norm_num) (by norm_num)
    have tiny2 : (2 : ℝ) ^ (-122 : ℤ) = 1 / 4 * 2 ^ (-120 : ℤ) := by norm_num
    have := (abs_le.1 (double_err (EPS * R))).2
    have E0 : 0 ≤ EPS * R := mul_nonneg ((by positivity : (0 : ℝ) ≤ 2 ^ (-17 : ℤ)).trans eps_ge) R0
    rw [abs_of_nonneg E0] at this
    have m := mul_le_mul_of_nonneg_right e1 R0
    have u : (2 : ℝ) ^ (-53 : ℤ) * (EPS * R) ≤ 1 * (EPS * R) := mul_le_mul_of_nonneg_right (by norm_num) E0
    generalize (2 : ℝ) ^ (-53 : ℤ) = v at *
    generalize (2 : ℝ) ^ (-1075 : ℤ) = w at *
    generalize (2 : ℝ) ^ (-122 : ℤ) = w' at *
    generalize (2 : ℝ) ^ (-120 : ℤ) = w'' at *
    linarith
  have Px : ∀ i, |P.get i| ≤ R := fun i => by
    refine abs_le_of_sq_le_sq ?_ R0
    rw [← on]
    simp only [sqLength]
    fin_cases i <;> simp only [V3.get] <;> nlinarith [mul_self_nonneg P.x, mul_self_nonneg P.y, mul_self_nonneg P.z]
  have δ0 : 0 ≤ δ := (abs_nonneg _).trans (hp 0)
  have δ0' : 0 ≤ δ' := (abs_nonneg _).trans (hO 0)
  have comp : ∀ {a A c B : ℝ}, |a - A| ≤ c → |A| ≤ B → 0 ≤ B → A * A - 2 * B * c ≤ a * a := fun {a A c B} h1 h2 hB => by
    have c0 : 0 ≤ c := (abs_nonneg _).trans h1
    obtain ⟨u1, u2⟩ := abs_le.1 h1
    obtain ⟨v1, v2⟩ := abs_le.1 h2
    have : |A * (a - A)| ≤ B * c := by rw [abs_mul]; exact mul_le_mul h2 h1 (abs_nonneg _) hB
    nlinarith [(abs_le.1 this).1, mul_self_nonneg (a - A)]
  have kp : R ^ 2 - 6 * R * δ ≤ sqLength p := by
    have a := comp (hp 0) (Px 0) R0
    have b := comp (hp 1) (Px 1) R0
    have c := comp (hp 2) (Px 2) R0
    rw [← on]
    simp only [sqLength]
    simp only [V3.get] at a b c
    linarith
  have kq : sqLength p ≤ sqLength p' := by
    rcases off with ⟨-, e⟩ | ⟨ex, ey, -, fy, fz⟩
    · rw [e]
    · simp only [sqLength, ex, ey, fy, fz]; nlinarith [mul_self_nonneg p'.x]
  have close : ∀ i, |p'.get i - P.get i| ≤ δ + double (EPS * R) := fun i => by
    rcases off with ⟨-, e⟩ | ⟨ex, ey, fx, fy, fz⟩
    · rw [e]; exact (hp i).trans (by linarith)
    · have := hp i
      fin_cases i
      · change |p'.x - P.x| ≤ _
        change |p.x - P.x| ≤ _ at this
        rw [fx]
        rw [ex] at this
        have := abs_sub_le (double (EPS * R)) 0 P.x
        rw [sub_zero, abs_of_nonneg e0] at this
        linarith
      · change |p'.y - P.y| ≤ _
        change |p.y - P.y| ≤ _ at this
        rw [fy, ← ey]; linarith
      · change |p'.z - P.z| ≤ _
        change |p.z - P.z| ≤ _ at this
        rw [fz]; linarith
  have big : ∀ i, |p'.get i| ≤ 2 * R := fun i => by
    have := abs_sub_le (p'.get i) (P.get i) 0
    rw [sub_zero, sub_zero] at this
    linarith [close i, Px i]
  refine ⟨?_, fun i => ?_⟩
  · have a := comp (hO 0) (big 0) (by linarith)
    have b := comp (hO 1) (big 1) (by linarith)
    have c := comp (hO 2) (big 2) (by linarith)
    simp only [sqLength] at kp kq ⊢
    simp only [V3.get] at a b c
    linarith
  · have := abs_sub_le (O.get i) (p'.get i) (P.get i)
    linarith [close i, hO i]

/-- **C198** a ray hits a sphere (or part of one) at `τ`, where it enters or leaves; the point is computed, taken to the world, and a new ray starts there in a direction `d` that leads outwards.  With every
operation rounded the new ray is not reported to meet that sphere, if the distance `τ` is large enough against the errors: `δ`, `δ'` of the point, `σ'` of the roots. -/
theorem C198_sphere (hroots : RootsOk ε roots) (ε0 : 0 ≤ ε) (R0 : 0 ≤ s.radius) (r : Shape.Ray ℝ) (τ σ δ δ' : ℝ) (on : sqLength (w2o.pt (r.pos τ)) = s.radius ^ 2) (hδ : δ ≤ s.radius / 4)
    (t : ℝ) (p p' : V3 ℝ) (ht : |t - τ| ≤ σ) (off : SphereR.OffAxis s.radius p p') (hp : ∀ i, |p.get i - (w2o.pt (r.pos τ)).get i| ≤ δ)
    (back : Returns o2w w2o p' δ') (o : V3 ℝ) (ho : PtR o2w p' o) (d : V3 ℝ) (maxt : WithTop ℝ) (τ0 τ1 κ σ' b : ℝ)
    (ok : SphereR.RayOk w2o (secondary o d t maxt) s.radius) (h : SphereR.Passes s w2o (secondary o d t maxt) τ0 τ1 κ ε σ') (b0 : 0 < b)
    (out : b + (δ + δ' + double (EPS * s.radius)) * norm1 (w2o.vec d) ≤ dot (w2o.vec d) (w2o.pt (r.pos τ)))
    (far : (2 : ℝ) ^ (-400 : ℤ) ≤ τ - σ) (hm : s.radius * (3 * δ + 6 * δ') / b + σ' < (τ - σ) / 262144) (x : Res) (hx : HitR at2 roots s w2o (secondary o d t maxt) x) : x = .miss := by
  obtain ⟨n1, n2⟩ := hit_near R0 ok.R on hδ hp off (back o ho)
  have δ0 : 0 ≤ δ := (abs_nonneg _).trans (hp 0)
  have δ0' : 0 ≤ δ' := (abs_nonneg _).trans (back o ho 0)
  refine C198_outwards hroots ε0 _ ok h (6 * s.radius * δ + 12 * s.radius * δ') b (by positivity) b0 n1 ?_ ?_ x hx
  · change b ≤ dot (w2o.vec d) (w2o.pt o)
    have key : ∀ {a c e f : ℝ}, |c - f| ≤ e → -(e * |a|) ≤ a * c - a * f := fun {a c e f} h => by
      have : |a * (c - f)| ≤ |a| * e := by rw [abs_mul]; exact mul_le_mul_of_nonneg_left h (abs_nonneg _)
      linarith [(abs_le.1 this).1]
    have x1 := key (a := (w2o.vec d).x) (n2 0)
    have x2 := key (a := (w2o.vec d).y) (n2 1)
    have x3 := key (a := (w2o.vec d).z) (n2 2)
    simp only [V3.get] at x1 x2 x3
    simp only [norm1, dot] at out ⊢
    linarith
  · have := rEps_ge (t := t) (by linarith [(abs_le.1 ht).1])
    change _ < rEps t
    have e : (6 * s.radius * δ + 12 * s.radius * δ') / (2 * b) = s.radius * (3 * δ + 6 * δ') / b := by field_simp; ring
    rw [e]
    linarith [(abs_le.1 ht).1]

end

/-- **C198** a disk: the new ray may go in any direction, and it is not reported to meet the disk it leaves. -/
theorem C198_disk {at2 : ℝ → ℝ → ℝ} (h2 : Arctan2 at2) (s : Disk) (rad : 0 ≤ s.radius) (o2w w2o : Transform ℝ) (r : Shape.Ray ℝ) (τ σ δ δ' : ℝ) (on : (w2o.pt (r.pos τ)).z = s.height)
    (t : ℝ) (p : V3 ℝ) (ht : |t - τ| ≤ σ) (hp : ∀ i, |p.get i - (w2o.pt (r.pos τ)).get i| ≤ δ)
    (back : Returns o2w w2o p δ') (o : V3 ℝ) (ho : PtR o2w p o) (d : V3 ℝ) (maxt : WithTop ℝ) (ok : DiskR.RayOk w2o (secondary o d t maxt)) (τ' σ' δ'' : ℝ)
    (h : |(w2o.vec d).z| + 2 ^ (-50 : ℤ) * sizeVec w2o.m d 2 < EPS ∨
      DiskR.Crosses s w2o (secondary o d t maxt) τ' σ' δ'' ∧ (2 : ℝ) ^ (-400 : ℤ) ≤ τ - σ ∧ (δ + δ') / |(w2o.vec d).z| + σ' < (τ - σ) / 262144)
    (q : Shape.Ray ℝ) (hq : RayR w2o (secondary o d t maxt) q) : DiskR.hitObjR at2 s q = none ∧ DiskR.hitObjPR at2 s q = false := by
  have main : DiskR.hitObjR at2 s q = none := by
    rcases h with h | ⟨h, far, hm⟩
    · exact DiskR.C190_parallel ok hq h
    refine DiskR.C190_miss h2 ok hq h rad (Or.inl ?_)
    have pl := h.plane
    rw [pos_eq ok.affine] at pl
    change (w2o.pt o).z + (w2o.vec d).z * τ' = s.height at pl
    have n : |(w2o.pt o).z - s.height| ≤ δ + δ' := by
      have a := hp 2
      have b := back o ho 2
      change |p.z - (w2o.pt (r.pos τ)).z| ≤ _ at a
      change |(w2o.pt o).z - p.z| ≤ _ at b
      rw [on] at a
      linarith [abs_sub_le (w2o.pt o).z p.z s.height]
    have z0 : 0 < |(w2o.vec d).z| := by
      have := h.steep
      have e := eps_ge
      have e' : (0 : ℝ) < 2 ^ (-17 : ℤ) := by positivity
      have : 0 ≤ (2 : ℝ) ^ (-50 : ℤ) * sizeVec w2o.m d 2 := by
        have := abs_nonneg (w2o.m 2 0); simp only [sizeVec]; positivity
      change EPS + _ * sizeVec w2o.m d 2 ≤ |(w2o.vec d).z| at *
      linarith
    have k : τ' ≤ (δ + δ') / |(w2o.vec d).z| := by
      rw [le_div_iff₀ z0]
      have : |τ'| * |(w2o.vec d).z| ≤ δ + δ' := by
        rw [← abs_mul, show τ' * (w2o.vec d).z = -((w2o.pt o).z - s.height) by linarith, abs_neg]; exact n
      exact (mul_le_mul_of_nonneg_right (le_abs_self _) z0.le).trans this
    have := rEps_ge (t := t) (by linarith [(abs_le.1 ht).1])
    change τ' + σ' < rEps t
    linarith [(abs_le.1 ht).1]
  refine ⟨main, ?_⟩
  rw [DiskR.C190_p, main]; rfl

/-! ### Concrete case -/

theorem ident_ok : Affine (Xform.ident : Transform ℝ).m ∧ ∀ {h : ℤ}, h ≤ 0 → ∀ i j, Grid h ((Xform.ident : Transform ℝ).m i j) := by
  refine ⟨by simp [Affine, Xform.ident], fun hh i j => ?_⟩
  have : (Xform.ident : Transform ℝ).m i j = if i = j then 1 else 0 := by
    fin_cases i <;> fin_cases j <;> simp [Xform.ident]
  rw [this]
  split_ifs
  · exact Grid.mono hh ⟨1, by norm_num⟩
  · exact ⟨0, by simp⟩

theorem ident_pt (p : V3 ℝ) : (Xform.ident : Transform ℝ).pt p = p := by
  have k : ∀ i, ((Xform.ident : Transform ℝ).pt p).get i = p.get i := fun i => by
    rw [pt_get ident_ok.1]
    fin_cases i <;> simp [homog, Xform.ident, V3.get]
  exact V3.ext (k 0) (k 1) (k 2)

theorem ident_ptR {p o : V3 ℝ} (gp : ∀ i, IsDouble (p.get i)) (h : PtR Xform.ident p o) : o = p := by
  have k : ∀ i, o.get i = p.get i := fun i => by
    obtain ⟨t, ht, e⟩ := affine_pt ident_ok.1 h i
    have e1 : t = double ((Xform.ident : Transform ℝ).m i.castSucc i.castSucc * p.get i) :=
      ht.single i (by simp) (by fin_cases i <;> simp) fun j _ hj => by fin_cases i <;> fin_cases j <;> simp_all [Xform.ident]
    have e2 : (Xform.ident : Transform ℝ).m i.castSucc i.castSucc = 1 ∧ (Xform.ident : Transform ℝ).m i.castSucc 3 = 0 := by fin_cases i <;> simp [Xform.ident]
    rw [e, e1, e2.1, e2.2, one_mul, add_zero, double_of_isDouble (isDouble_double _), double_of_isDouble (gp i)]
  exact V3.ext (k 0) (k 1) (k 2)

/-- a ray from the right on the unit sphere, and a new ray from the point of the hit, slanting upwards and to the right: all hypotheses hold, and the sphere is not met again -/
example (at2 : ℝ → ℝ → ℝ) (roots : ℝ → ℝ → ℝ → Option (ℝ × ℝ)) (hroots : RootsOk 0 roots) (x : Res) (hx : HitR at2 roots SphereR.ball Xform.ident (secondary ⟨1, 0, 0⟩ ⟨1, 0, 1⟩ 3 ⊤) x) : x = .miss := by
  have e1 : EPS ≤ 1 / 32 := by
    have := double_mono (show (1 / 100000 : ℝ) ≤ 1 / 32 by norm_num)
    rwa [show double (1 / 32 : ℝ) = 1 / 32 from double_of_isDouble ⟨1, -5, by norm_num, by norm_num, by norm_num⟩] at this
  have g : ∀ {n : ℤ} {x : ℝ} {h : ℤ}, h ≤ 0 → x = n → Grid h x := fun {n x h} hh e => Grid.mono hh ⟨n, by rw [e]; norm_num⟩
  have gp : ∀ {h : ℤ}, h ≤ 0 → ∀ i, Grid h ((⟨1, 0, 0⟩ : V3 ℝ).get i) := fun hh i => by
    fin_cases i <;> [exact g (n := 1) hh (by simp [V3.get]); exact g (n := 0) hh (by simp [V3.get]); exact g (n := 0) hh (by simp [V3.get])]
  have dp : ∀ i, IsDouble ((⟨1, 0, 0⟩ : V3 ℝ).get i) := fun i => by
    fin_cases i <;> [exact isDouble_one; exact isDouble_zero; exact isDouble_zero]
  obtain ⟨⟨o, ho⟩, -⟩ := C182_total (Xform.ident : Transform ℝ) Xform.ident ⟨1, 0, 0⟩
  obtain rfl := ident_ptR dp ho
  have e : (Xform.ident : Transform ℝ).pt ((⟨⟨4, 0, 0⟩, ⟨-1, 0, 0⟩, 0, ⊤⟩ : Shape.Ray ℝ).pos 3) = ⟨1, 0, 0⟩ := by
    rw [ident_pt]; simp [Shape.Ray.pos, V3.rayAt]; norm_num
  have v : (Xform.ident : Transform ℝ).vec ⟨1, 0, 1⟩ = ⟨1, 0, 1⟩ := by simp [Transform.vec, Xform.ident]
  have tiny : (2 : ℝ) ^ (-400 : ℤ) ≤ 1 := zpow_le_one_of_nonpos₀ (by norm_num) (by norm_num)
  have ps : ∀ t, (Xform.ident : Transform ℝ).pt ((secondary ⟨1, 0, 0⟩ ⟨1, 0, 1⟩ 3 ⊤).pos t) = ⟨1 + t, 0, t⟩ := fun t => by
    rw [ident_pt]; simp [Shape.Ray.pos, V3.rayAt, secondary]
  refine C198_sphere (o2w := Xform.ident) hroots le_rfl (by simp [SphereR.ball]) ⟨⟨4, 0, 0⟩, ⟨-1, 0, 0⟩, 0, ⊤⟩ 3 0 (2 ^ (-33 : ℤ)) (2 ^ (-40 : ℤ)) ?_ ?_ 3 ⟨1, 0, 0⟩ ⟨1, 0, 0⟩ (by simp) (Or.inl ⟨by simp, rfl⟩) ?_
    ?_ ⟨1, 0, 0⟩ ho ⟨1, 0, 1⟩ ⊤ (-1) 0 1 (2 ^ (-41 : ℤ)) (1 / 2) ?_ ?_ (by norm_num) ?_ ?_ ?_ x hx
  · rw [e]; simp [sqLength, SphereR.ball]
  · simp [SphereR.ball]; norm_num
  · intro i
    rw [e, sub_self, abs_zero]; positivity
  · refine C198_returns ident_ok.1 ident_ok.1 (ident_ok.2 (by norm_num)) (by simp [Xform.ident]) _ (gp (by norm_num)) _ fun i => ?_
    fin_cases i <;> simp [Xform.ident, size] <;> norm_num
  · refine ⟨ident_ok.1, ident_ok.2 (by norm_num), gp (by norm_num), fun i => ?_, g (n := 1) (by norm_num) (by simp [SphereR.ball])⟩
    fin_cases i <;> [exact g (n := 1) (by norm_num) (by simp [secondary, V3.get]); exact g (n := 0) (by norm_num) (by simp [secondary, V3.get]); exact g (n := 1) (by norm_num) (by simp [secondary, V3.get])]
  · have v' : (Xform.ident : Transform ℝ).vec (secondary ⟨1, 0, 0⟩ ⟨1, 0, 1⟩ 3 ⊤).d = ⟨1, 0, 1⟩ := v
    refine ⟨by norm_num, ?_, ?_, ?_, ?_, ?_, ?_, by norm_num, by norm_num, by norm_num, ?_⟩
    · rw [ps]; simp [sqLength, SphereR.ball]
    · rw [ps]; simp [sqLength, SphereR.ball]
    · rw [v']; norm_num [sqLength]
    · rw [v']; simp [sqLength, SphereR.sizeA, sizeVec, Xform.ident, secondary]; try norm_num
    · rw [v']; simp [sqLength, SphereR.sizeB, sizeVec, size, Xform.ident, secondary]; try norm_num
    · rw [v']; simp [sqLength, SphereR.sizeC, size, Xform.ident, secondary, SphereR.ball]; try norm_num
    · have d4 : SphereR.disc Xform.ident (secondary ⟨1, 0, 0⟩ ⟨1, 0, 1⟩ 3 ⊤) SphereR.ball.radius = 4 := by
        rw [SphereR.disc, v', ident_pt]; norm_num [sqLength, dot, secondary, SphereR.ball]
      have d5 : SphereR.sizeD (Xform.ident : Transform ℝ).m (secondary ⟨1, 0, 0⟩ ⟨1, 0, 1⟩ 3 ⊤) SphereR.ball.radius = 20 := by
        simp [SphereR.sizeD, SphereR.sizeA, SphereR.sizeB, SphereR.sizeC, sizeVec, size, Xform.ident, secondary, SphereR.ball]; norm_num
      rw [d4, d5]; norm_num; linarith
  · have : double (EPS * SphereR.ball.radius) ≤ 1 / 32 := by
      have h := double_mono (show EPS * SphereR.ball.radius ≤ 1 / 32 by simpa [SphereR.ball] using by linarith)
      rwa [show double (1 / 32 : ℝ) = 1 / 32 from double_of_isDouble ⟨1, -5, by norm_num, by norm_num, by norm_num⟩] at h
    rw [e, v]
    norm_num [norm1, dot]
    linarith
  · linarith
  · simp only [SphereR.ball]; norm_num

/-- a ray from above on a disk, and a new ray from the point of the hit, slanting back upwards -/
example (at2 : ℝ → ℝ → ℝ) (h2 : Arctan2 at2) (q : Shape.Ray ℝ) (hq : RayR Xform.ident (secondary ⟨0, 0, -3⟩ ⟨1, 0, 1⟩ 7 ⊤) q) : DiskR.hitObjR at2 ⟨-3, 2, 0, twoPi⟩ q = none := by
  have e1 : EPS ≤ 1 / 32 := by
    have := double_mono (show (1 / 100000 : ℝ) ≤ 1 / 32 by norm_num)
    rwa [show double (1 / 32 : ℝ) = 1 / 32 from double_of_isDouble ⟨1, -5, by norm_num, by norm_num, by norm_num⟩] at this
  have g : ∀ {n : ℤ} {x : ℝ} {h : ℤ}, h ≤ 0 → x = n → Grid h x := fun {n x h} hh e => Grid.mono hh ⟨n, by rw [e]; norm_num⟩
  have gp : ∀ {h : ℤ}, h ≤ 0 → ∀ i, Grid h ((⟨0, 0, -3⟩ : V3 ℝ).get i) := fun hh i => by
    fin_cases i <;> [exact g (n := 0) hh (by simp [V3.get]); exact g (n := 0) hh (by simp [V3.get]); exact g (n := -3) hh (by simp [V3.get])]
  have dp : ∀ i, IsDouble ((⟨0, 0, -3⟩ : V3 ℝ).get i) := fun i => by
    fin_cases i <;> [exact isDouble_zero; exact isDouble_zero; exact isDouble_neg ⟨3, 0, by norm_num, by norm_num, by norm_num⟩]
  obtain ⟨⟨o, ho⟩, -⟩ := C182_total (Xform.ident : Transform ℝ) Xform.ident ⟨0, 0, -3⟩
  obtain rfl := ident_ptR dp ho
  have e : (Xform.ident : Transform ℝ).pt ((⟨⟨0, 0, 4⟩, ⟨0, 0, -1⟩, 0, ⊤⟩ : Shape.Ray ℝ).pos 7) = ⟨0, 0, -3⟩ := by
    rw [ident_pt]; simp [Shape.Ray.pos, V3.rayAt]; norm_num
  have v : (Xform.ident : Transform ℝ).vec ⟨1, 0, 1⟩ = ⟨1, 0, 1⟩ := by simp [Transform.vec, Xform.ident]
  have tiny : (2 : ℝ) ^ (-400 : ℤ) ≤ 1 := zpow_le_one_of_nonpos₀ (by norm_num) (by norm_num)
  have tiny1 : (2 : ℝ) ^ (-1050 : ℤ) ≤ 2 ^ (-60 : ℤ) := zpow_le_zpow_right₀ (by norm_num) (by norm_num)
  have tiny2 : (2 : ℝ) ^ (-500 : ℤ) ≤ 2 ^ (-60 : ℤ) := zpow_le_zpow_right₀ (by norm_num) (by norm_num)
  refine (C198_disk h2 ⟨-3, 2, 0, twoPi⟩ (by norm_num) Xform.ident Xform.ident ⟨⟨0, 0, 4⟩, ⟨0, 0, -1⟩, 0, ⊤⟩ 7 0 (2 ^ (-40 : ℤ)) (2 ^ (-40 : ℤ)) ?_ 7 ⟨0, 0, -3⟩ (by simp) ?_
    ?_ ⟨0, 0, -3⟩ ho ⟨1, 0, 1⟩ ⊤ ?_ 0 (2 ^ (-44 : ℤ)) (2 ^ (-40 : ℤ)) (Or.inr ⟨?_, ?_, ?_⟩) q hq).1
  · rw [e]
  · intro i
    rw [e, sub_self, abs_zero]; positivity
  · refine C198_returns ident_ok.1 ident_ok.1 (ident_ok.2 (by norm_num)) (by simp [Xform.ident]) _ (gp (by norm_num)) _ fun i => ?_
    fin_cases i <;> simp [Xform.ident, size] <;> norm_num
  · refine ⟨ident_ok.1, ident_ok.2 (by norm_num), gp (by norm_num), fun i => ?_⟩
    fin_cases i <;> [exact g (n := 1) (by norm_num) (by simp [secondary, V3.get]); exact g (n := 0) (by norm_num) (by simp [secondary, V3.get]); exact g (n := 1) (by norm_num) (by simp [secondary, V3.get])]
  · refine ⟨?_, ?_, ?_, ?_, fun i => ?_⟩
    · rw [ident_pt]; simp [Shape.Ray.pos, V3.rayAt, secondary]
    · simp [Xform.ident, Transform.vec, secondary, sizeVec]; norm_num; linarith
    · simp [Xform.ident, Transform.vec, secondary, sizeVec]; norm_num
    · generalize (2 : ℝ) ^ (-1050 : ℤ) = e at *
      simp [Xform.ident, Transform.vec, secondary, sizeVec, size]
      norm_num at tiny1 ⊢
      linarith
    · generalize (2 : ℝ) ^ (-500 : ℤ) = e at *
      fin_cases i <;> simp [Xform.ident, sizeVec, size, secondary] <;> norm_num at tiny2 ⊢ <;> linarith
  · linarith
  · rw [v]; norm_num

end Verif.SelfQ
