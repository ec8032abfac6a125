import Verif.Reflection.Diffuse
import Verif.MC.Rounded
import Verif.Integrator.MatteRounded

/-!
# Diffuse reflection in rounded arithmetic (C200)

`OrenNayar` (`pytracer/reflection/bdf/orennayar.py` 36-62) with every operation rounded to binary64.  A spectrum is represented by one of its samples.  The exact model is in `Verif.Reflection.Diffuse`.
-/

namespace Verif.DiffR
open V3 Verif.Rnd Verif.MCR
open Verif.DiskR (npPi npPi_close)
open Verif.MatteR (INVPI invpi_err)
open Verif.Refl

/-! ### Model -/

/-- the constant `EPS` of `pytracer/__init__.py` 23 -/
noncomputable def EPSR : ℝ := double (1 / 100000)

/-- `sin_theta`, reflection/utility.py 31-32 -/
noncomputable def sinThetaR (w : V3 ℝ) : ℝ := double (√(max 0 (double (1 - double (w.z * w.z)))))

open Classical in
/-- `cos_phi`, reflection/utility.py 35-37 -/
noncomputable def cosPhiR (w : V3 ℝ) : ℝ :=
  if max 0 (double (1 - double (w.z * w.z))) = 0 then 1 else clip1 (double (w.x / double (√(max 0 (double (1 - double (w.z * w.z)))))))

open Classical in
/-- `sin_phi`, reflection/utility.py 40-42 -/
noncomputable def sinPhiR (w : V3 ℝ) : ℝ :=
  if max 0 (double (1 - double (w.z * w.z))) = 0 then 0 else clip1 (double (w.y / double (√(max 0 (double (1 - double (w.z * w.z)))))))

/-- `OrenNayar.__init__`, orennayar.py 36-42; `np.deg2rad` multiplies by the rounded `π/180` -/
noncomputable def initR (R sig : ℝ) : ON :=
  let sig := double (sig * double (npPi / 180))
  let sq := double (sig * sig)
  ⟨R, double (1 - double (sq / double (2 * double (sq + double (33 / 100))))),
    double (double (double (45 / 100) * sq) / double (sq + double (9 / 100)))⟩

open Classical in
/-- the variable `mc`, orennayar.py 49-52 -/
noncomputable def mcR (wo wi : V3 ℝ) : ℝ :=
  if sinThetaR wi > EPSR ∧ sinThetaR wo > EPSR then
    max 0 (double (double (cosPhiR wi * cosPhiR wo) + double (sinPhiR wi * sinPhiR wo))) else 0

/-- the returned expression, orennayar.py 62, for `tb = st / c` -/
noncomputable def valueR (o : ON) (mc sa st c : ℝ) : ℝ :=
  double (double (o.R * INVPI) * double (o.A + double (double (double (o.B * mc) * sa) * double (st / c))))

open Classical in
/-- `OrenNayar.f`, orennayar.py 44-62; `none` is the division by zero for two grazing directions -/
noncomputable def fR (o : ON) (wo wi : V3 ℝ) : Option ℝ :=
  let sti := sinThetaR wi
  let sto := sinThetaR wo
  let mc := mcR wo wi
  if |wi.z| > |wo.z| then some (valueR o mc sto sti |wi.z|)
  else if |wo.z| = 0 then none
  else some (valueR o mc sti sto |wo.z|)

/-- `Lambertian.f`, bdf.py 328-329 -/
noncomputable def lambertR (R : ℝ) : ℝ := double (INVPI * R)

/-! ### Sines and azimuths -/

theorem sq_le_of {z : ℝ} (h : 1 < |z|) : 1 ≤ z * z := by
  rw [← abs_mul_abs_self]; nlinarith

theorem sin_close (w : V3 ℝ) : 0 ≤ sinThetaR w ∧ sinThetaR w ≤ 1 ∧ 0 ≤ sinTheta w ∧ sinTheta w ≤ 1 ∧
    |sinThetaR w ^ 2 - sinTheta w ^ 2| ≤ 4 * 2 ^ (-52 : ℤ) ∧ |sinThetaR w - sinTheta w| ≤ 2 ^ (-25 : ℤ) := by
  have s0 : 0 ≤ sinTheta w := Real.sqrt_nonneg _
  have s1 : sinTheta w ≤ 1 := sqrt_le_one' (max_le zero_le_one (by nlinarith [mul_self_nonneg w.z]))
  rcases le_or_gt |w.z| 1 with h | h
  · obtain ⟨r0, r1, q⟩ := ringR_near h
    have e : sinTheta w ^ 2 = 1 - w.z ^ 2 := by
      unfold sinTheta
      have : 0 ≤ 1 - w.z * w.z := by have := mul_le_one' h h; rw [abs_of_nonneg (mul_self_nonneg _)] at this; linarith
      rw [Real.sq_sqrt (le_max_left _ _), max_eq_right this]; ring
    have q' : |sinThetaR w ^ 2 - sinTheta w ^ 2| ≤ 4 * 2 ^ (-52 : ℤ) := by rw [e]; exact q
    refine ⟨r0, r1, s0, s1, q', ?_⟩
    have := sqrt_sub (sq_nonneg (sinThetaR w)) (sq_nonneg (sinTheta w)) (d := 2 ^ (-25 : ℤ)) (by positivity) (q'.trans (by norm_num))
    rwa [Real.sqrt_sq (show 0 ≤ sinThetaR w from r0), Real.sqrt_sq s0] at this
  · have hz := sq_le_of h
    have e : sinTheta w = 0 := by unfold sinTheta; rw [max_eq_left (by linarith)]; simp
    have hz' : 1 ≤ double (w.z * w.z) := by have := double_mono hz; rwa [d_one] at this
    have e' : sinThetaR w = 0 := by
      unfold sinThetaR
      have : double (1 - double (w.z * w.z)) ≤ 0 := by have := double_mono (show 1 - double (w.z * w.z) ≤ 0 by linarith); rwa [double_zero] at this
      rw [max_eq_left this]; simp [double_zero]
    rw [e, e']; norm_num

theorem epsR : |EPSR - 1 / 100000| ≤ 2 ^ (-50 : ℤ) ∧ 2 ^ (-17 : ℤ) ≤ EPSR ∧ EPSR ≤ 2 ^ (-16 : ℤ) - 2 ^ (-18 : ℤ) := by
  have := near (x := 1 / 100000) (by norm_num)
  have h : |EPSR - 1 / 100000| ≤ 2 ^ (-52 : ℤ) := this
  refine ⟨h.trans (by norm_num), ?_, ?_⟩
  · obtain ⟨a, b⟩ := abs_le.1 h; norm_num at *; linarith
  · obtain ⟨a, b⟩ := abs_le.1 h; norm_num at *; linarith

theorem clip1_abs (x : ℝ) : |clip1 x| ≤ 1 := by
  unfold clip1
  exact abs_le.2 ⟨le_min (le_max_right _ _) (by norm_num), min_le_right _ _⟩

/-- a clipped quotient times the divisor is the dividend, clipped -/
theorem clip_mul {a s : ℝ} (hs : 0 < s) : clip1 a * s = min (max (a * s) (-s)) s := by
  unfold clip1
  rw [min_mul_of_nonneg _ _ hs.le, max_mul_of_nonneg _ _ hs.le, one_mul, neg_one_mul]

theorem clip_close {a b s t d e : ℝ} (h : |a - b| ≤ d) (h' : |s - t| ≤ d) (he : d ≤ e) : |min (max a (-s)) s - min (max b (-t)) t| ≤ e := by
  refine le_trans ?_ he
  rw [abs_le] at *
  constructor
  · rcases min_cases (max a (-s)) s with ⟨e1, _⟩ | ⟨e1, _⟩ <;> rw [e1]
    · rcases max_cases a (-s) with ⟨e2, _⟩ | ⟨e2, _⟩ <;> rw [e2]
      · rcases max_cases b (-t) with ⟨e3, _⟩ | ⟨e3, _⟩ <;> rw [e3]
        · have := min_le_left b t; linarith
        · have := min_le_left (-t) t; linarith
      · rcases max_cases b (-t) with ⟨e3, _⟩ | ⟨e3, _⟩ <;> rw [e3]
        · have := min_le_left b t; linarith
        · have := min_le_left (-t) t; linarith
    · have := min_le_right (max b (-t)) t; linarith
  · rcases min_cases (max b (-t)) t with ⟨e1, _⟩ | ⟨e1, _⟩ <;> rw [e1]
    · rcases max_cases b (-t) with ⟨e2, _⟩ | ⟨e2, _⟩ <;> rw [e2]
      · rcases max_cases a (-s) with ⟨e3, _⟩ | ⟨e3, _⟩ <;> rw [e3]
        · have := min_le_left a s; linarith
        · have := min_le_left (-s) s; linarith
      · rcases max_cases a (-s) with ⟨e3, _⟩ | ⟨e3, _⟩ <;> rw [e3]
        · have := min_le_left a s; linarith
        · have := min_le_left (-s) s; linarith
    · have := min_le_right (max a (-s)) s; linarith

/-- rounding a quotient, and multiplying back -/
theorem quot_back {x s : ℝ} (hx : |x| ≤ 3 / 2) (s0 : 0 < s) (s1 : s ≤ 1) : |double (x / s) * s - x| ≤ 2 ^ (-52 : ℤ) := by
  have h := double_err (x / s)
  have k : |double (x / s) * s - x| = |double (x / s) - x / s| * s := by
    rw [← abs_of_pos s0, ← abs_mul, abs_of_pos s0, sub_mul, div_mul_cancel₀ _ s0.ne']
  rw [k]
  refine (mul_le_mul_of_nonneg_right h s0.le).trans ?_
  rw [add_mul, mul_assoc, abs_div, abs_of_pos s0, div_mul_cancel₀ _ s0.ne']
  have t := tiny
  have t0 : (0 : ℝ) ≤ 2 ^ (-1075 : ℤ) := by positivity
  generalize (2 : ℝ) ^ (-1075 : ℤ) = η at *
  have := mul_le_of_le_one_right t0 s1
  norm_num at *
  linarith

/-- the sines of two directions that both count are close -/
theorem sin_closer {w : V3 ℝ} (h : 1 / 100000 < sinTheta w) (h' : EPSR < sinThetaR w) : |sinThetaR w - sinTheta w| ≤ 2 ^ (-34 : ℤ) := by
  obtain ⟨r0, r1, s0, s1, q, -⟩ := sin_close w
  obtain ⟨-, e1, -⟩ := epsR
  generalize sinThetaR w = s at *
  generalize sinTheta w = t at *
  have hs : 2 ^ (-16 : ℤ) ≤ s + t := by norm_num at *; linarith
  have k : |s ^ 2 - t ^ 2| = |s - t| * (s + t) := by
    have := abs_mul (s - t) (s + t)
    rw [abs_of_nonneg (show 0 ≤ s + t by linarith)] at this
    rw [← this]; congr 1; ring
  rw [k] at q
  have := mul_le_mul_of_nonneg_left hs (abs_nonneg (s - t))
  norm_num at *
  linarith

theorem phi_close {w : V3 ℝ} (hx : |w.x| ≤ 3 / 2) (hy : |w.y| ≤ 3 / 2) (h : 1 / 100000 < sinTheta w) (h' : EPSR < sinThetaR w) :
    |cosPhiR w * sinThetaR w - cosPhi w * sinTheta w| ≤ 2 ^ (-34 : ℤ) ∧ |sinPhiR w * sinThetaR w - sinPhi w * sinTheta w| ≤ 2 ^ (-34 : ℤ) ∧
    |cosPhiR w| ≤ 1 ∧ |sinPhiR w| ≤ 1 ∧ |cosPhi w| ≤ 1 ∧ |sinPhi w| ≤ 1 := by
  have k := sin_closer h h'
  obtain ⟨r0, r1, s0, s1, -, -⟩ := sin_close w
  obtain ⟨-, e1, -⟩ := epsR
  have sp : 0 < sinTheta w := by linarith [show (0:ℝ) < 1 / 100000 by norm_num]
  have rp : 0 < sinThetaR w := lt_of_le_of_lt (le_trans (by positivity) e1) h'
  have n : max 0 (1 - w.z * w.z) ≠ 0 := fun hh => by unfold sinTheta at sp; rw [hh] at sp; simp at sp
  have n' : max 0 (double (1 - double (w.z * w.z))) ≠ 0 := fun hh => by unfold sinThetaR at rp; rw [hh] at rp; simp [double_zero] at rp
  have key : ∀ x : ℝ, |x| ≤ 3 / 2 → |clip1 (double (x / sinThetaR w)) * sinThetaR w - clip1 (x / sinTheta w) * sinTheta w| ≤ 2 ^ (-34 : ℤ) := fun x hx => by
    rw [clip_mul rp, clip_mul sp, div_mul_cancel₀ _ sp.ne']
    exact clip_close ((quot_back hx rp r1).trans (by norm_num)) k le_rfl
  have kx := key _ hx
  have ky := key _ hy
  unfold cosPhiR sinPhiR cosPhi sinPhi
  rw [if_neg n, if_neg n, if_neg n', if_neg n']
  exact ⟨kx, ky, clip1_abs _, clip1_abs _, clip1_abs _, clip1_abs _⟩

theorem max_mul' {g p : ℝ} (hp : 0 ≤ p) : max 0 g * p = max 0 (g * p) := by rw [max_mul_of_nonneg _ _ hp, zero_mul]

theorem max_close {a b d : ℝ} (h : |a - b| ≤ d) : |max 0 a - max 0 b| ≤ d :=
  (abs_max_sub_max_le_max 0 a 0 b).trans (by rw [sub_self, abs_zero]; exact max_le ((abs_nonneg _).trans h) h)

/-- the variable `mc` of the exact computation -/
noncomputable def mcE (wo wi : V3 ℝ) : ℝ :=
  if sinTheta wi > MC.EPS ∧ sinTheta wo > MC.EPS then max 0 (cosPhi wi * cosPhi wo + sinPhi wi * sinPhi wo) else 0

theorem cosphi_abs (w : V3 ℝ) : |cosPhi w| ≤ 1 ∧ |sinPhi w| ≤ 1 ∧ |cosPhiR w| ≤ 1 ∧ |sinPhiR w| ≤ 1 := by
  unfold cosPhi sinPhi cosPhiR sinPhiR
  refine ⟨?_, ?_, ?_, ?_⟩ <;> split_ifs <;> first | exact clip1_abs _ | norm_num

theorem sum_le_two {a b c d : ℝ} (ha : |a| ≤ 1) (hb : |b| ≤ 1) (hc : |c| ≤ 1) (hd : |d| ≤ 1) : |a * b + c * d| ≤ 2 :=
  (abs_add_le _ _).trans (by have := mul_le_one' ha hb; have := mul_le_one' hc hd; linarith)

theorem d_two : double (2 : ℝ) = 2 := double_of_isDouble ⟨2, 0, by norm_num, by norm_num, by simp⟩

theorem mc_bounds (wo wi : V3 ℝ) : 0 ≤ mcR wo wi ∧ mcR wo wi ≤ 2 ∧ 0 ≤ mcE wo wi ∧ mcE wo wi ≤ 2 := by
  obtain ⟨a1, a2, a3, a4⟩ := cosphi_abs wo
  obtain ⟨b1, b2, b3, b4⟩ := cosphi_abs wi
  unfold mcR mcE
  refine ⟨?_, ?_, ?_, ?_⟩
  · split_ifs
    · exact le_max_left _ _
    · exact le_rfl
  · split_ifs
    · refine max_le (by norm_num) ?_
      have c1 := (abs_le.1 (d_abs (mul_le_one' b3 a3))).2
      have c2 := (abs_le.1 (d_abs (mul_le_one' b4 a4))).2
      have := double_mono (show double (cosPhiR wi * cosPhiR wo) + double (sinPhiR wi * sinPhiR wo) ≤ 2 by linarith)
      rwa [d_two] at this
    · norm_num
  · split_ifs
    · exact le_max_left _ _
    · exact le_rfl
  · split_ifs
    · exact max_le (by norm_num) (abs_le.1 (sum_le_two b1 a1 b2 a2)).2
    · norm_num

/-- `mc * sin_theta(wi) * sin_theta(wo)` when both computations take the same branch -/
theorem prod_close {wo wi : V3 ℝ} (hox : |wo.x| ≤ 3 / 2) (hoy : |wo.y| ≤ 3 / 2) (hix : |wi.x| ≤ 3 / 2) (hiy : |wi.y| ≤ 3 / 2)
    (h1 : 1 / 100000 < sinTheta wo) (h1' : EPSR < sinThetaR wo) (h2 : 1 / 100000 < sinTheta wi) (h2' : EPSR < sinThetaR wi) :
    |mcR wo wi * (sinThetaR wi * sinThetaR wo) - mcE wo wi * (sinTheta wi * sinTheta wo)| ≤ 2 ^ (-31 : ℤ) := by
  obtain ⟨ko, lo, o1, o2, o3, o4⟩ := phi_close hox hoy h1 h1'
  obtain ⟨ki, li, i1, i2, i3, i4⟩ := phi_close hix hiy h2 h2'
  obtain ⟨p0, p1, q0, q1, -, -⟩ := sin_close wo
  obtain ⟨r0, r1, s0, s1, -, -⟩ := sin_close wi
  unfold mcR mcE
  rw [if_pos ⟨h2', h1'⟩, if_pos (show sinTheta wi > MC.EPS ∧ sinTheta wo > MC.EPS from ⟨by unfold MC.EPS; linarith, by unfold MC.EPS; linarith⟩)]
  rw [max_mul' (mul_nonneg r0 p0), max_mul' (mul_nonneg s0 q0)]
  apply max_close
  have n1 := near (x := cosPhiR wi * cosPhiR wo) ((mul_le_one' i1 o1).trans (by norm_num))
  have n2 := near (x := sinPhiR wi * sinPhiR wo) ((mul_le_one' i2 o2).trans (by norm_num))
  have c1 := d_abs (mul_le_one' i1 o1)
  have c2 := d_abs (mul_le_one' i2 o2)
  have n3 := near8 (x := double (cosPhiR wi * cosPhiR wo) + double (sinPhiR wi * sinPhiR wo)) ((abs_add_le _ _).trans (by linarith))
  have k1 : |(cosPhiR wi * sinThetaR wi) * (cosPhiR wo * sinThetaR wo) - (cosPhi wi * sinTheta wi) * (cosPhi wo * sinTheta wo)| ≤ 2 ^ (-34 : ℤ) + 2 ^ (-34 : ℤ) :=
    mul_near (mul_le_one' o1 (by rwa [abs_of_nonneg p0])) (mul_le_one' i3 (by rwa [abs_of_nonneg s0])) ki ko
  have k2 : |(sinPhiR wi * sinThetaR wi) * (sinPhiR wo * sinThetaR wo) - (sinPhi wi * sinTheta wi) * (sinPhi wo * sinTheta wo)| ≤ 2 ^ (-34 : ℤ) + 2 ^ (-34 : ℤ) :=
    mul_near (mul_le_one' o2 (by rwa [abs_of_nonneg p0])) (mul_le_one' i4 (by rwa [abs_of_nonneg s0])) li lo
  set g := double (double (cosPhiR wi * cosPhiR wo) + double (sinPhiR wi * sinPhiR wo)) with hg
  have kg : |g - (cosPhiR wi * cosPhiR wo + sinPhiR wi * sinPhiR wo)| ≤ 2 ^ (-49 : ℤ) := by
    clear_value g
    rw [abs_le] at n1 n2 n3 ⊢
    norm_num at *
    constructor <;> linarith
  have rs : |sinThetaR wi * sinThetaR wo| ≤ 1 := mul_le_one' (by rwa [abs_of_nonneg r0]) (by rwa [abs_of_nonneg p0])
  have kg' : |(g - (cosPhiR wi * cosPhiR wo + sinPhiR wi * sinPhiR wo)) * (sinThetaR wi * sinThetaR wo)| ≤ 2 ^ (-49 : ℤ) := by
    rw [abs_mul]; exact (mul_le_of_le_one_right (abs_nonneg _) rs).trans kg
  have e : g * (sinThetaR wi * sinThetaR wo) - (cosPhi wi * cosPhi wo + sinPhi wi * sinPhi wo) * (sinTheta wi * sinTheta wo)
      = (g - (cosPhiR wi * cosPhiR wo + sinPhiR wi * sinPhiR wo)) * (sinThetaR wi * sinThetaR wo)
        + ((cosPhiR wi * sinThetaR wi) * (cosPhiR wo * sinThetaR wo) - (cosPhi wi * sinTheta wi) * (cosPhi wo * sinTheta wo))
        + ((sinPhiR wi * sinThetaR wi) * (sinPhiR wo * sinThetaR wo) - (sinPhi wi * sinTheta wi) * (sinPhi wo * sinTheta wo)) := by ring
  rw [e]
  refine (abs_add_le _ _).trans ((add_le_add (abs_add_le _ _) le_rfl).trans ((add_le_add (add_le_add kg' k1) k2).trans ?_))
  norm_num

theorem prod_small {m a b c : ℝ} (m0 : 0 ≤ m) (m2 : m ≤ 2) (a0 : 0 ≤ a) (a1 : a ≤ 1) (b0 : 0 ≤ b) (b1 : b ≤ 1) (h : a ≤ c ∨ b ≤ c) : 0 ≤ m * (a * b) ∧ m * (a * b) ≤ 2 * c := by
  have ab : a * b ≤ c := by
    rcases h with h | h
    · exact (mul_le_of_le_one_right a0 b1).trans h
    · exact (mul_le_of_le_one_left b0 a1).trans h
  have ab0 := mul_nonneg a0 b0
  exact ⟨mul_nonneg m0 ab0, mul_le_mul m2 ab ab0 (by norm_num)⟩

/-- … and in general -/
theorem prod_any {wo wi : V3 ℝ} (hox : |wo.x| ≤ 3 / 2) (hoy : |wo.y| ≤ 3 / 2) (hix : |wi.x| ≤ 3 / 2) (hiy : |wi.y| ≤ 3 / 2) :
    |mcR wo wi * (sinThetaR wi * sinThetaR wo) - mcE wo wi * (sinTheta wi * sinTheta wo)| ≤ 2 ^ (-15 : ℤ) := by
  obtain ⟨p0, p1, q0, q1, -, do'⟩ := sin_close wo
  obtain ⟨r0, r1, s0, s1, -, di⟩ := sin_close wi
  obtain ⟨m0, m1, n0, n1⟩ := mc_bounds wo wi
  obtain ⟨-, e1, e2⟩ := epsR
  rw [abs_le] at do' di
  by_cases hE : 1 / 100000 < sinTheta wi ∧ 1 / 100000 < sinTheta wo
  · by_cases hR : EPSR < sinThetaR wi ∧ EPSR < sinThetaR wo
    · exact (prod_close hox hoy hix hiy hE.2 hR.2 hE.1 hR.1).trans (by norm_num)
    · have e : mcR wo wi = 0 := by unfold mcR; rw [if_neg hR]
      rw [e, zero_mul, zero_sub, abs_neg]
      have c : sinTheta wi ≤ 2 ^ (-16 : ℤ) ∨ sinTheta wo ≤ 2 ^ (-16 : ℤ) := by
        rw [not_and_or, not_lt, not_lt] at hR
        rcases hR with h | h
        · left; norm_num at *; linarith
        · right; norm_num at *; linarith
      obtain ⟨t0, t1⟩ := prod_small n0 n1 s0 s1 q0 q1 c
      rw [abs_of_nonneg t0]
      exact t1.trans (by norm_num)
  · have e : mcE wo wi = 0 := by unfold mcE MC.EPS; rw [if_neg hE]
    rw [e, zero_mul, sub_zero]
    have c : sinThetaR wi ≤ 2 ^ (-16 : ℤ) ∨ sinThetaR wo ≤ 2 ^ (-16 : ℤ) := by
      rw [not_and_or, not_lt, not_lt] at hE
      rcases hE with h | h
      · left; norm_num at *; linarith
      · right; norm_num at *; linarith
    obtain ⟨t0, t1⟩ := prod_small m0 m1 r0 r1 p0 p1 c
    rw [abs_of_nonneg t0]
    exact t1.trans (by norm_num)

theorem side {w : V3 ℝ} (h : 2 ^ (-24 : ℤ) ≤ |sinTheta w - 1 / 100000|) : (1 / 100000 < sinTheta w ∧ EPSR < sinThetaR w) ∨ (sinTheta w ≤ 1 / 100000 ∧ sinThetaR w ≤ EPSR) := by
  obtain ⟨-, -, -, -, -, d⟩ := sin_close w
  obtain ⟨e, -, -⟩ := epsR
  rw [abs_le] at d e
  rcases le_total 0 (sinTheta w - 1 / 100000) with k | k
  · rw [abs_of_nonneg k] at h
    left
    norm_num at *
    constructor <;> linarith
  · rw [abs_of_nonpos k] at h
    right
    norm_num at *
    constructor <;> linarith

/-- … and away from the cutoff -/
theorem prod_away {wo wi : V3 ℝ} (hox : |wo.x| ≤ 3 / 2) (hoy : |wo.y| ≤ 3 / 2) (hix : |wi.x| ≤ 3 / 2) (hiy : |wi.y| ≤ 3 / 2)
    (ho : 2 ^ (-24 : ℤ) ≤ |sinTheta wo - 1 / 100000|) (hi : 2 ^ (-24 : ℤ) ≤ |sinTheta wi - 1 / 100000|) :
    |mcR wo wi * (sinThetaR wi * sinThetaR wo) - mcE wo wi * (sinTheta wi * sinTheta wo)| ≤ 2 ^ (-31 : ℤ) := by
  rcases side ho with ⟨a, a'⟩ | ⟨a, a'⟩
  · rcases side hi with ⟨b, b'⟩ | ⟨b, b'⟩
    · exact prod_close hox hoy hix hiy a a' b b'
    · have e : mcR wo wi = 0 := by unfold mcR; rw [if_neg (fun h => absurd h.1 (not_lt.2 b'))]
      have e' : mcE wo wi = 0 := by unfold mcE MC.EPS; rw [if_neg (fun h => absurd h.1 (not_lt.2 b))]
      rw [e, e']; simp
  · have e : mcR wo wi = 0 := by unfold mcR; rw [if_neg (fun h => absurd h.2 (not_lt.2 a'))]
    have e' : mcE wo wi = 0 := by unfold mcE MC.EPS; rw [if_neg (fun h => absurd h.2 (not_lt.2 a))]
    rw [e, e']; simp

/-! ### The value -/

theorem back {x c : ℝ} (x0 : 0 ≤ x) (h : x ≤ 5 / 4) (c0 : 0 < c) (c1 : c ≤ 3 / 2) : |double (x / c) * c - x| ≤ 2 ^ (-52 : ℤ) := by
  have h' := double_err (x / c)
  have k : |double (x / c) * c - x| = |double (x / c) - x / c| * c := by
    rw [← abs_of_pos c0, ← abs_mul, abs_of_pos c0, sub_mul, div_mul_cancel₀ _ c0.ne']
  rw [k]
  refine (mul_le_mul_of_nonneg_right h' c0.le).trans ?_
  rw [add_mul, mul_assoc, abs_div, abs_of_pos c0, div_mul_cancel₀ _ c0.ne', abs_of_nonneg x0]
  have t := tiny
  have t0 : (0 : ℝ) ≤ 2 ^ (-1075 : ℤ) := by positivity
  generalize (2 : ℝ) ^ (-1075 : ℤ) = η at *
  have := mul_le_mul_of_nonneg_left c1 t0
  norm_num at *
  linarith

/-- rounding a number, seen through a positive factor -/
theorem scaled {x c b : ℝ} (x0 : 0 ≤ x) (c0 : 0 < c) (c1 : c ≤ 3 / 2) (h : x * c ≤ b) : |double x * c - x * c| ≤ 2 ^ (-53 : ℤ) * b + 2 * 2 ^ (-1075 : ℤ) := by
  have h' := double_err x
  rw [← sub_mul, abs_mul, abs_of_pos c0]
  refine (mul_le_mul_of_nonneg_right h' c0.le).trans ?_
  rw [add_mul, abs_of_nonneg x0, mul_assoc]
  have t0 : (0 : ℝ) ≤ 2 ^ (-1075 : ℤ) := by positivity
  have t1 : (0 : ℝ) ≤ 2 ^ (-53 : ℤ) := by positivity
  have := mul_le_mul_of_nonneg_left c1 t0
  have := mul_le_mul_of_nonneg_left h t1
  linarith

theorem invpi_close : |INVPI - 1 / Real.pi| ≤ 2 ^ (-52 : ℤ) ∧ 0 ≤ INVPI ∧ INVPI ≤ 1 / 2 ∧ 0 ≤ 1 / Real.pi ∧ 1 / Real.pi ≤ 1 / 3 := by
  have p3 := Real.pi_gt_three
  have q : 1 / Real.pi ≤ 1 / 3 := one_div_le_one_div_of_le (by norm_num) p3.le
  have q0 : 0 ≤ 1 / Real.pi := by positivity
  have h := invpi_err.1.rel (by norm_num)
  have h1 : |INVPI - 1 / Real.pi| ≤ 2 ^ (-52 : ℤ) := by
    refine h.trans ?_
    have := mul_le_mul_of_nonneg_left q (show (0 : ℝ) ≤ ((3 : ℕ) : ℝ) * 2 ^ (-52 : ℤ) by positivity)
    refine this.trans ?_
    norm_num
  refine ⟨h1, d_nonneg (div_nonneg zero_le_one (d_nonneg Real.pi_pos.le)), ?_, q0, q⟩
  rw [abs_le] at h1
  norm_num at *
  linarith

theorem value_close {o : ON} {mc' sa' st' mc sa st c δ : ℝ} (hR : 0 ≤ o.R) (hA0 : 0 ≤ o.A) (hA1 : o.A ≤ 1) (hB0 : 0 ≤ o.B) (hB1 : o.B ≤ 1 / 2)
    (m0 : 0 ≤ mc') (m2 : mc' ≤ 2) (a0 : 0 ≤ sa') (a1 : sa' ≤ 1) (t0 : 0 ≤ st') (t1 : st' ≤ 1) (c0 : 0 < c) (c1 : c ≤ 3 / 2)
    (hδ : |mc' * (sa' * st') - mc * (sa * st)| ≤ δ) :
    |valueR o mc' sa' st' c - o.R * MC.invPi * (o.A + o.B * mc * sa * (st / c))| ≤ (o.R * (2 ^ (-48 : ℤ) + δ / 4) + 2 ^ (-1070 : ℤ)) / c := by
  obtain ⟨ip, ip0, ip1, q0, q1⟩ := invpi_close
  have ht := tiny
  have η0 : (0 : ℝ) ≤ 2 ^ (-1075 : ℤ) := by positivity
  have hη : (2 : ℝ) ^ (-1070 : ℤ) = 32 * 2 ^ (-1075 : ℤ) := by
    rw [show (-1070 : ℤ) = 5 + -1075 by norm_num, zpow_add₀ (by norm_num)]; norm_num
  rw [hη]
  unfold MC.invPi
  have p0 : 0 ≤ o.B * mc' := mul_nonneg hB0 m0
  have p1 : o.B * mc' ≤ 1 := by have := mul_le_mul hB1 m2 m0 (by norm_num); linarith
  have nP := near (x := o.B * mc') (by rw [abs_of_nonneg p0]; linarith)
  have P0 := d_nonneg p0
  have P1 := d_le_one p1
  have s0 := mul_nonneg P0 a0
  have s1 : double (o.B * mc') * sa' ≤ 1 := mul_le_one₀ P1 a0 a1
  have nQ := near (x := double (o.B * mc') * sa') (by rw [abs_of_nonneg s0]; linarith)
  have Q0 := d_nonneg s0
  have Q1 := d_le_one s1
  have nS := back t0 (by linarith) c0 c1
  have S0 : 0 ≤ double (st' / c) := d_nonneg (div_nonneg t0 c0.le)
  -- X
  simp only [valueR]
  generalize double (double (o.B * mc') * sa') = Q at *
  generalize double (o.B * mc') = P at *
  generalize double (st' / c) = S at *
  have QS0 := mul_nonneg Q0 S0
  have Sc : S * c ≤ 1 + 2 ^ (-52 : ℤ) := by rw [abs_le] at nS; linarith
  have Sc0 : 0 ≤ S * c := mul_nonneg S0 c0.le
  have QSc : Q * S * c ≤ 1 + 2 ^ (-52 : ℤ) := by rw [mul_assoc]; exact (mul_le_of_le_one_left Sc0 Q1).trans Sc
  have nX := scaled QS0 c0 c1 QSc
  have X0 := d_nonneg QS0
  generalize double (Q * S) = X at *
  have kQ : |Q - o.B * mc' * sa'| ≤ 2 * 2 ^ (-52 : ℤ) := by
    have h : |P * sa' - o.B * mc' * sa'| ≤ 2 ^ (-52 : ℤ) := by
      rw [← sub_mul, abs_mul, abs_of_nonneg a0]; exact (mul_le_of_le_one_right (abs_nonneg _) a1).trans nP
    have := abs_sub_le Q (P * sa') (o.B * mc' * sa')
    linarith
  have kX : |X * c - o.B * (mc' * (sa' * st'))| ≤ 5 * 2 ^ (-52 : ℤ) := by
    have h1 : |Q * (S * c - st')| ≤ 2 ^ (-52 : ℤ) := by
      rw [abs_mul, abs_of_nonneg Q0]; exact (mul_le_of_le_one_left (abs_nonneg _) Q1).trans nS
    have h2 : |(Q - o.B * mc' * sa') * st'| ≤ 2 * 2 ^ (-52 : ℤ) := by
      rw [abs_mul, abs_of_nonneg t0]; exact (mul_le_of_le_one_right (abs_nonneg _) t1).trans kQ
    have e : X * c - o.B * (mc' * (sa' * st')) = (X * c - Q * S * c) + Q * (S * c - st') + (Q - o.B * mc' * sa') * st' := by ring
    rw [e]
    refine (abs_add_le _ _).trans ((add_le_add (abs_add_le _ _) le_rfl).trans ((add_le_add (add_le_add nX h1) h2).trans ?_))
    generalize (2 : ℝ) ^ (-1075 : ℤ) = η at *
    norm_num at *
    linarith
  have kB : |o.B * (mc' * (sa' * st')) - o.B * (mc * (sa * st))| ≤ δ / 2 := by
    rw [← mul_sub, abs_mul, abs_of_nonneg hB0]
    have := mul_le_mul hB1 hδ (abs_nonneg _) (by norm_num)
    linarith
  have b0 : 0 ≤ o.B * (mc' * (sa' * st')) := by positivity
  have b1 : o.B * (mc' * (sa' * st')) ≤ 1 := by
    rw [← mul_assoc]
    exact mul_le_one₀ p1 (by positivity) (mul_le_one₀ a1 t0 t1)
  have Xc : X * c ≤ 5 / 4 := by rw [abs_le] at kX; norm_num at *; linarith
  have Ac : o.A * c ≤ 3 / 2 := (mul_le_of_le_one_left c0.le hA1).trans c1
  have nY := scaled (add_nonneg hA0 X0) c0 c1 (b := 3) (by rw [add_mul]; linarith)
  have Y0 := d_nonneg (add_nonneg hA0 X0)
  generalize double (o.A + X) = Y at *
  have kY : |Y * c - (o.A * c + o.B * (mc * (sa * st)))| ≤ 7 * 2 ^ (-52 : ℤ) + δ / 2 := by
    have e : Y * c - (o.A * c + o.B * (mc * (sa * st))) = (Y * c - (o.A + X) * c) + (X * c - o.B * (mc' * (sa' * st'))) + (o.B * (mc' * (sa' * st')) - o.B * (mc * (sa * st))) := by ring
    rw [e]
    refine (abs_add_le _ _).trans ((add_le_add (abs_add_le _ _) le_rfl).trans ((add_le_add (add_le_add nY kX) kB).trans ?_))
    generalize (2 : ℝ) ^ (-1075 : ℤ) = η at *
    norm_num at *
    linarith
  have Yc : Y * c ≤ 3 := by
    rw [abs_le] at nY
    have := nY.2
    generalize (2 : ℝ) ^ (-1075 : ℤ) = η at *
    rw [add_mul] at this
    norm_num at *
    linarith
  have Yc0 : 0 ≤ Y * c := mul_nonneg Y0 c0.le
  -- the reflectance
  have W0 : 0 ≤ double (o.R * INVPI) := d_nonneg (mul_nonneg hR ip0)
  have RI : o.R * INVPI ≤ o.R * (1 / 2) := mul_le_mul_of_nonneg_left ip1 hR
  have kW : |double (o.R * INVPI) - o.R * (1 / Real.pi)| ≤ o.R * (2 * 2 ^ (-52 : ℤ)) + 2 ^ (-1075 : ℤ) := by
    have h1 := double_err (o.R * INVPI)
    rw [abs_of_nonneg (mul_nonneg hR ip0)] at h1
    have h2 : |o.R * INVPI - o.R * (1 / Real.pi)| ≤ o.R * 2 ^ (-52 : ℤ) := by
      rw [← mul_sub, abs_mul, abs_of_nonneg hR]; exact mul_le_mul_of_nonneg_left ip hR
    have h3 := abs_sub_le (double (o.R * INVPI)) (o.R * INVPI) (o.R * (1 / Real.pi))
    generalize (2 : ℝ) ^ (-1075 : ℤ) = η at *
    norm_num at *
    linarith
  generalize double (o.R * INVPI) = W at *
  have Rq : o.R * (1 / Real.pi) ≤ o.R * (1 / 3) := mul_le_mul_of_nonneg_left q1 hR
  have W1 : W ≤ o.R + 2 ^ (-1075 : ℤ) := by
    rw [abs_le] at kW
    generalize (2 : ℝ) ^ (-1075 : ℤ) = η at *
    norm_num at *
    linarith
  have WYc : W * Y * c ≤ (o.R + 2 ^ (-1075 : ℤ)) * 3 := by rw [mul_assoc]; exact mul_le_mul W1 Yc Yc0 (by positivity)
  have nF := scaled (mul_nonneg W0 Y0) c0 c1 WYc
  generalize double (W * Y) = F at *
  have kF : |F * c - o.R * (1 / Real.pi) * (o.A * c + o.B * (mc * (sa * st)))| ≤ o.R * (2 ^ (-48 : ℤ) + δ / 4) + 32 * 2 ^ (-1075 : ℤ) := by
    have h1 : |(W - o.R * (1 / Real.pi)) * (Y * c)| ≤ (o.R * (2 * 2 ^ (-52 : ℤ)) + 2 ^ (-1075 : ℤ)) * 3 := by
      rw [abs_mul, abs_of_nonneg Yc0]; exact mul_le_mul kW Yc Yc0 (by positivity)
    have h2 : |o.R * (1 / Real.pi) * (Y * c - (o.A * c + o.B * (mc * (sa * st))))| ≤ o.R * (1 / 3) * (7 * 2 ^ (-52 : ℤ) + δ / 2) := by
      rw [abs_mul, abs_of_nonneg (mul_nonneg hR q0)]; exact mul_le_mul Rq kY (abs_nonneg _) (by positivity)
    have e : F * c - o.R * (1 / Real.pi) * (o.A * c + o.B * (mc * (sa * st))) = (F * c - W * Y * c) + (W - o.R * (1 / Real.pi)) * (Y * c) + o.R * (1 / Real.pi) * (Y * c - (o.A * c + o.B * (mc * (sa * st)))) := by ring
    rw [e]
    refine (abs_add_le _ _).trans ((add_le_add (abs_add_le _ _) le_rfl).trans ((add_le_add (add_le_add nF h1) h2).trans ?_))
    have δ0 : 0 ≤ o.R * δ := mul_nonneg hR ((abs_nonneg _).trans hδ)
    generalize (2 : ℝ) ^ (-1075 : ℤ) = η at *
    clear * - δ0 hR η0
    norm_num
    nlinarith
  rw [le_div_iff₀ c0]
  have e : |F - o.R * (1 / Real.pi) * (o.A + o.B * mc * sa * (st / c))| * c = |F * c - o.R * (1 / Real.pi) * (o.A * c + o.B * (mc * (sa * st)))| := by
    rw [← abs_of_pos c0, ← abs_mul, abs_of_pos c0]
    congr 1
    field_simp
  rw [e]
  exact kF

/-! ### The coefficients -/

theorem half_le {x : ℝ} (h : Normal x) : |x| / 2 ≤ |double x| := by
  have := h.err
  have k := abs_sub_abs_le_abs_sub x (double x)
  rw [abs_sub_comm] at k
  norm_num at *
  linarith [abs_nonneg x]

theorem normal_of {x : ℝ} {k : ℤ} (hk : -1022 ≤ k) (h : (2 : ℝ) ^ k ≤ |x|) : Normal x := Or.inr ((zpow_le_zpow_right₀ (by norm_num) hk).trans h)

theorem deg_err : Err 2 (double (npPi / 180)) (Real.pi / 180) (Real.pi / 180) ∧ 2 ^ (-7 : ℤ) ≤ double (npPi / 180) ∧ double (npPi / 180) ≤ 1 := by
  obtain ⟨-, a, b⟩ := npPi_close
  have p3 := Real.pi_gt_three
  have e1 : Err 1 npPi Real.pi Real.pi := by
    have := (Err.refl Real.pi).round (normal_of (k := 0) (by norm_num) (by rw [abs_of_pos Real.pi_pos]; norm_num; linarith))
    rwa [abs_of_pos Real.pi_pos] at this
  have e2 := e1.mul (Err.refl (1 / 180 : ℝ))
  rw [abs_of_pos (by norm_num), mul_one_div, mul_one_div] at e2
  have n : Normal (npPi / 180) := normal_of (k := -6) (by norm_num) (by rw [abs_of_pos (by linarith)]; norm_num; linarith)
  refine ⟨e2.round n, ?_, d_le_one (by linarith)⟩
  have h := half_le n
  have d0 : 0 ≤ double (npPi / 180) := d_nonneg (by linarith)
  rw [abs_of_nonneg d0, abs_of_pos (by linarith)] at h
  norm_num
  linarith

/-- the rounded square of the roughness in radians -/
noncomputable def sqR (sig : ℝ) : ℝ := double (double (sig * double (npPi / 180)) * double (sig * double (npPi / 180)))
/-- … and the exact one -/
noncomputable def sqE (sig : ℝ) : ℝ := sig * (Real.pi / 180) * (sig * (Real.pi / 180))

theorem sq_err {sig : ℝ} (h : 2 ^ (-400 : ℤ) ≤ |sig|) : Err 7 (sqR sig) (sqE sig) (sqE sig) ∧ 2 ^ (-812 : ℤ) ≤ sqE sig := by
  obtain ⟨e, d1, -⟩ := deg_err
  have p3 := Real.pi_gt_three
  have d0 : 0 < double (npPi / 180) := lt_of_lt_of_le (by positivity) d1
  have e1 : Err (0 + 2) (sig * double (npPi / 180)) (sig * (Real.pi / 180)) (|sig| * (Real.pi / 180)) := (Err.refl sig).mul e
  have l1 : (2 : ℝ) ^ (-407 : ℤ) ≤ |sig * double (npPi / 180)| := by
    rw [abs_mul, abs_of_pos d0, show (-407 : ℤ) = -400 + -7 by norm_num, zpow_add₀ (by norm_num)]
    exact mul_le_mul h d1 (by positivity) (abs_nonneg _)
  have n1 := normal_of (by norm_num) l1
  have e2 := e1.round n1
  have l2 := half_le n1
  have l3 : (2 : ℝ) ^ (-408 : ℤ) ≤ |double (sig * double (npPi / 180))| := by
    refine le_trans ?_ l2
    rw [show (-408 : ℤ) = -407 + -1 by norm_num, zpow_add₀ (by norm_num)]
    have : (2 : ℝ) ^ (-1 : ℤ) = 1 / 2 := by norm_num
    rw [this]; linarith
  have l4 : (2 : ℝ) ^ (-816 : ℤ) ≤ |double (sig * double (npPi / 180)) * double (sig * double (npPi / 180))| := by
    rw [abs_mul, show (-816 : ℤ) = -408 + -408 by norm_num, zpow_add₀ (by norm_num)]
    exact mul_le_mul l3 l3 (by positivity) (abs_nonneg _)
  have e3 := (e2.mul e2).round (normal_of (by norm_num) l4)
  have k : |sig| * (Real.pi / 180) * (|sig| * (Real.pi / 180)) = sqE sig := by
    unfold sqE
    have := abs_mul_abs_self sig
    calc _ = (|sig| * |sig|) * (Real.pi / 180) ^ 2 := by ring
      _ = _ := by rw [this]; ring
  have s0 : 0 < |sig| := lt_of_lt_of_le (by positivity) h
  rw [k] at e3
  refine ⟨e3.mono (by norm_num) le_rfl, ?_⟩
  have pk : (2 : ℝ) ^ (-6 : ℤ) ≤ Real.pi / 180 := by norm_num; linarith
  have hk : (2 : ℝ) ^ (-406 : ℤ) ≤ |sig| * (Real.pi / 180) := by
    rw [show (-406 : ℤ) = -400 + -6 by norm_num, zpow_add₀ (by norm_num)]
    exact mul_le_mul h pk (by positivity) (abs_nonneg _)
  rw [← k, show (-812 : ℤ) = -406 + -406 by norm_num, zpow_add₀ (by norm_num)]
  exact mul_le_mul hk hk (by positivity) (by positivity)

theorem sq_nonneg' (sig : ℝ) : 0 ≤ sqR sig ∧ 0 ≤ sqE sig := ⟨d_nonneg (mul_self_nonneg _), mul_self_nonneg _⟩

theorem const_err {x : ℝ} (h0 : 2 ^ (-4 : ℤ) ≤ x) : Err 1 (double x) x x := by
  have hx : 0 < x := lt_of_lt_of_le (by positivity) h0
  have := (Err.refl x).round (normal_of (k := -4) (by norm_num) (by rwa [abs_of_pos hx]))
  rwa [abs_of_pos hx] at this

theorem d16 {x : ℝ} (h : 2 ^ (-4 : ℤ) ≤ x) : 2 ^ (-4 : ℤ) ≤ double x := by
  have := double_mono h
  rwa [double_of_isDouble ⟨1, -4, by norm_num, by norm_num, by simp⟩] at this

theorem d_half {x : ℝ} (h : 1 / 2 ≤ x) : 1 / 2 ≤ double x := by
  have := double_mono h
  rwa [double_of_isDouble ⟨1, -1, by norm_num, by norm_num, by norm_num⟩] at this

theorem d_le_half {x : ℝ} (h : x ≤ 1 / 2) : double x ≤ 1 / 2 := by
  have := double_mono h
  rwa [double_of_isDouble (x := (1 / 2 : ℝ)) ⟨1, -1, by norm_num, by norm_num, by norm_num⟩] at this

/-- `A`, given the square of the roughness -/
noncomputable def coefA (q : ℝ) : ℝ := double (1 - double (q / double (2 * double (q + double (33 / 100)))))
/-- `B`, given the square of the roughness -/
noncomputable def coefB (q : ℝ) : ℝ := double (double (double (45 / 100) * q) / double (q + double (9 / 100)))

theorem coefA_range {q : ℝ} (q0 : 0 ≤ q) (hq : IsDouble q) : 1 / 2 ≤ coefA q ∧ coefA q ≤ 1 ∧ 0 ≤ double (q / double (2 * double (q + double (33 / 100)))) := by
  have c0 : 0 ≤ double (33 / 100 : ℝ) := d_nonneg (by norm_num)
  have D1 : q ≤ double (q + double (33 / 100)) := by
    have := double_mono (show q ≤ q + double (33 / 100) by linarith); rwa [double_of_isDouble hq] at this
  have D2 : 2 * q ≤ double (2 * double (q + double (33 / 100))) := by
    have h2 : IsDouble (2 * q) := by
      obtain ⟨m, e, hm, he, rfl⟩ := hq
      exact ⟨m, e + 1, hm, by omega, by rw [zpow_add₀ (by norm_num)]; ring⟩
    have := double_mono (show 2 * q ≤ 2 * double (q + double (33 / 100)) by linarith); rwa [double_of_isDouble h2] at this
  have D3 : 0 ≤ double (2 * double (q + double (33 / 100))) := le_trans (by linarith) D2
  unfold coefA
  generalize double (2 * double (q + double (33 / 100))) = D at *
  have r0 : 0 ≤ double (q / D) := d_nonneg (div_nonneg q0 D3)
  have r1 : double (q / D) ≤ 1 / 2 := d_le_half (by
    rcases D3.lt_or_eq with h | h
    · rw [div_le_iff₀ h]; linarith
    · rw [← h]; simp)
  exact ⟨d_half (by linarith), d_le_one (by linarith), r0⟩

theorem coefA_close {q' q : ℝ} (h : Err 7 q' q q) (hq : IsDouble q') (q0 : 0 < q) (q0' : 0 ≤ q') : |coefA q' - (1 - q / (2 * (q + 33 / 100)))| ≤ 2 ^ (-46 : ℤ) := by
  have e1 := (h.radd ((const_err (x := 33 / 100) (by norm_num)).mono (by norm_num) le_rfl) hq (isDouble_double _))
  have c16 : (2 : ℝ) ^ (-4 : ℤ) ≤ double (33 / 100) := d16 (by norm_num)
  have g1 : (2 : ℝ) ^ (-4 : ℤ) ≤ double (q' + double (33 / 100)) := d16 (by linarith)
  have e2 := (Err.refl (2 : ℝ)).mul e1
  rw [abs_of_pos (by norm_num : (0 : ℝ) < 2)] at e2
  have g2 : (2 : ℝ) ^ (-4 : ℤ) ≤ 2 * double (q' + double (33 / 100)) := by linarith [show (0 : ℝ) < 2 ^ (-4 : ℤ) by positivity]
  have e3 := e2.round (normal_of (k := -4) (by norm_num) (by rw [abs_of_nonneg (le_trans (by positivity) g2)]; exact g2))
  have pos : (0 : ℝ) < 2 * (q + 33 / 100) := by linarith
  have e4 := Verif.GeomR.err_inv (by rw [abs_of_pos pos]; exact e3) pos.ne' (Verif.GeomR.pow_half _ (by norm_num))
  have e5 := h.mul e4
  rw [abs_of_pos (by positivity), mul_one_div, mul_one_div] at e5
  have small : q / (2 * (q + 33 / 100)) ≤ 1 / 2 := by rw [div_le_iff₀ pos]; linarith
  have k := e5.rel (by norm_num)
  have r0 : 0 ≤ q / (2 * (q + 33 / 100)) := by positivity
  unfold coefA
  have x0 : 0 ≤ q' / double (2 * double (q' + double (33 / 100))) := div_nonneg q0' (le_trans (by positivity) (d16 g2))
  generalize q' / double (2 * double (q' + double (33 / 100))) = x at *
  generalize q / (2 * (q + 33 / 100)) = r at *
  have k' : |x - r| ≤ 13 * 2 ^ (-52 : ℤ) := by
    refine k.trans ?_
    push_cast
    norm_num
    linarith
  have x1 : x ≤ 1 := by rw [abs_le] at k'; norm_num at *; linarith
  have n1 := near (x := x) (by rw [abs_of_nonneg x0]; linarith)
  have y0 := d_nonneg x0
  have y1 := d_le_one x1
  have n2 := near (x := 1 - double x) (by rw [abs_of_nonneg (by linarith)]; linarith)
  rw [abs_le] at *
  norm_num at *
  constructor <;> linarith

theorem coefB_close {q' q : ℝ} (h : Err 7 q' q q) (hq : IsDouble q') (qb : 2 ^ (-812 : ℤ) ≤ q) (q0' : 0 ≤ q') : 0 ≤ coefB q' ∧ |coefB q' - 45 / 100 * q / (q + 9 / 100)| ≤ 2 ^ (-46 : ℤ) := by
  have q0 : 0 < q := lt_of_lt_of_le (by positivity) qb
  have e1 := (h.radd ((const_err (x := 9 / 100) (by norm_num)).mono (by norm_num) le_rfl) hq (isDouble_double _))
  have c16 : (2 : ℝ) ^ (-4 : ℤ) ≤ double (9 / 100) := d16 (by norm_num)
  have g1 : (2 : ℝ) ^ (-4 : ℤ) ≤ double (q' + double (9 / 100)) := d16 (by linarith)
  have e2 := (const_err (x := 45 / 100) (by norm_num)).mul h
  have d16' : (2 : ℝ) ^ (-4 : ℤ) ≤ double (45 / 100) := d16 (by norm_num)
  have ql : (2 : ℝ) ^ (-813 : ℤ) ≤ q' := by
    have := h.rel (by norm_num)
    have hh : q / 2 ≤ q' := by
      rw [abs_le] at this
      have := this.1
      push_cast at this
      norm_num at this
      linarith
    refine le_trans ?_ hh
    rw [show (-813 : ℤ) = -812 + -1 by norm_num, zpow_add₀ (by norm_num)]
    have : (2 : ℝ) ^ (-1 : ℤ) = 1 / 2 := by norm_num
    rw [this]; linarith
  have l : (2 : ℝ) ^ (-817 : ℤ) ≤ double (45 / 100) * q' := by
    rw [show (-817 : ℤ) = -4 + -813 by norm_num, zpow_add₀ (by norm_num)]
    exact mul_le_mul d16' ql (by positivity) (le_trans (by positivity) d16')
  have l0 : 0 ≤ double (45 / 100) * q' := le_trans (by positivity) l
  have e3 := e2.round (normal_of (k := -817) (by norm_num) (by rwa [abs_of_nonneg l0]))
  have pos : (0 : ℝ) < q + 9 / 100 := by linarith
  have e4 := Verif.GeomR.err_inv (by rw [abs_of_pos pos]; exact e1) pos.ne' (Verif.GeomR.pow_half _ (by norm_num))
  have e5 := e3.mul e4
  rw [abs_of_pos (by positivity), mul_one_div, mul_one_div] at e5
  have small : 45 / 100 * q / (q + 9 / 100) ≤ 1 / 2 := by rw [div_le_iff₀ pos]; linarith
  have k := e5.rel (by norm_num)
  have r0 : 0 ≤ 45 / 100 * q / (q + 9 / 100) := by positivity
  unfold coefB
  have x0 : 0 ≤ double (double (45 / 100) * q') / double (q' + double (9 / 100)) := div_nonneg (d_nonneg l0) (le_trans (by positivity) g1)
  generalize double (double (45 / 100) * q') / double (q' + double (9 / 100)) = x at *
  generalize 45 / 100 * q / (q + 9 / 100) = r at *
  have k' : |x - r| ≤ 13 * 2 ^ (-52 : ℤ) := by
    refine k.trans ?_
    push_cast
    norm_num
    linarith
  have x1 : x ≤ 1 := by rw [abs_le] at k'; norm_num at *; linarith
  have n1 := near (x := x) (by rw [abs_of_nonneg x0]; linarith)
  refine ⟨d_nonneg x0, ?_⟩
  rw [abs_le] at *
  norm_num at *
  constructor <;> linarith

/-- a nearly smooth surface -/
theorem tiny_sq {sig : ℝ} (h : |sig| ≤ 2 ^ (-400 : ℤ)) : sqR sig ≤ 2 ^ (-100 : ℤ) ∧ sqE sig ≤ 2 ^ (-100 : ℤ) := by
  obtain ⟨-, d1, d2⟩ := deg_err
  have d0 : 0 ≤ double (npPi / 180) := le_trans (by positivity) d1
  have pw : ∀ k : ℤ, -1000 ≤ k → double ((2 : ℝ) ^ k) = 2 ^ k := fun k hk => double_of_isDouble ⟨1, k, by norm_num, by omega, by simp⟩
  have key : ∀ x : ℝ, |x| ≤ 2 ^ (-400 : ℤ) → x * x ≤ 2 ^ (-100 : ℤ) := fun x hx => by
    have := mul_le_mul hx hx (abs_nonneg _) (by positivity)
    rw [abs_mul_abs_self, ← zpow_add₀ (by norm_num)] at this
    exact this.trans (zpow_le_zpow_right₀ (by norm_num) (by norm_num))
  have b : |sig * double (npPi / 180)| ≤ 2 ^ (-400 : ℤ) := by
    rw [abs_mul, abs_of_nonneg d0]; exact (mul_le_of_le_one_right (abs_nonneg _) d2).trans h
  have b' : |double (sig * double (npPi / 180))| ≤ 2 ^ (-400 : ℤ) := by
    rw [abs_le] at b ⊢
    have h1 := double_mono b.1
    have h2 := double_mono b.2
    rw [double_neg, pw _ (by norm_num)] at h1
    rw [pw _ (by norm_num)] at h2
    exact ⟨h1, h2⟩
  constructor
  · have := double_mono (key _ b')
    rwa [pw _ (by norm_num)] at this
  · apply key
    have p4 := Real.pi_lt_four
    rw [abs_mul, abs_of_pos (show 0 < Real.pi / 180 by positivity)]
    exact (mul_le_of_le_one_right (abs_nonneg _) (by linarith)).trans h

theorem coef_tiny {q' q : ℝ} (q0' : 0 ≤ q') (q0 : 0 ≤ q) (h' : q' ≤ 2 ^ (-100 : ℤ)) (h : q ≤ 2 ^ (-100 : ℤ)) :
    |coefA q' - (1 - q / (2 * (q + 33 / 100)))| ≤ 2 ^ (-46 : ℤ) ∧ 0 ≤ coefB q' ∧ |coefB q' - 45 / 100 * q / (q + 9 / 100)| ≤ 2 ^ (-46 : ℤ) := by
  have pw : ∀ k : ℤ, -1000 ≤ k → double ((2 : ℝ) ^ k) = 2 ^ k := fun k hk => double_of_isDouble ⟨1, k, by norm_num, by omega, by simp⟩
  have c33 : (2 : ℝ) ^ (-4 : ℤ) ≤ double (33 / 100) := d16 (by norm_num)
  have c9 : (2 : ℝ) ^ (-4 : ℤ) ≤ double (9 / 100) := d16 (by norm_num)
  have g1 : (2 : ℝ) ^ (-4 : ℤ) ≤ double (q' + double (33 / 100)) := d16 (by linarith)
  have g2 : (2 : ℝ) ^ (-4 : ℤ) ≤ double (2 * double (q' + double (33 / 100))) := d16 (by linarith [show (0 : ℝ) < 2 ^ (-4 : ℤ) by positivity])
  have g3 : (2 : ℝ) ^ (-4 : ℤ) ≤ double (q' + double (9 / 100)) := d16 (by linarith)
  have quot : ∀ a D : ℝ, 0 ≤ a → a ≤ 2 ^ (-100 : ℤ) → 2 ^ (-4 : ℤ) ≤ D → 0 ≤ a / D ∧ a / D ≤ 2 ^ (-96 : ℤ) := fun a D a0 a1 hD => by
    have D0 : 0 < D := lt_of_lt_of_le (by positivity) hD
    refine ⟨div_nonneg a0 D0.le, ?_⟩
    rw [div_le_iff₀ D0]
    refine a1.trans ?_
    rw [show (-100 : ℤ) = -96 + -4 by norm_num, zpow_add₀ (by norm_num)]
    exact mul_le_mul_of_nonneg_left hD (by positivity)
  have rnd : ∀ x : ℝ, 0 ≤ x ∧ x ≤ 2 ^ (-96 : ℤ) → 0 ≤ double x ∧ double x ≤ 2 ^ (-96 : ℤ) := fun x hx => by
    have := double_mono hx.2
    rw [pw _ (by norm_num)] at this
    exact ⟨d_nonneg hx.1, this⟩
  have a1 := rnd _ (quot _ _ q0' h' g2)
  have a2 := quot q (2 * (q + 33 / 100)) q0 h (by norm_num; linarith)
  have d45 : double (45 / 100 : ℝ) ≤ 1 := d_le_one (by norm_num)
  have d45' : 0 ≤ double (45 / 100 : ℝ) := d_nonneg (by norm_num)
  have b0 : double (double (45 / 100) * q') ≤ 2 ^ (-100 : ℤ) := by
    have := double_mono ((mul_le_of_le_one_left q0' d45).trans h')
    rwa [pw _ (by norm_num)] at this
  have b1 := rnd _ (quot _ _ (d_nonneg (mul_nonneg d45' q0')) b0 g3)
  have b2 := quot (45 / 100 * q) (q + 9 / 100) (by positivity) ((mul_le_of_le_one_left q0 (by norm_num)).trans h) (by norm_num; linarith)
  unfold coefA coefB
  generalize double (q' / double (2 * double (q' + double (33 / 100)))) = x at *
  have x1 : x ≤ 1 := a1.2.trans (by norm_num)
  have n2 := near (x := 1 - x) (by rw [abs_of_nonneg (by linarith)]; linarith [a1.1])
  generalize double (1 - x) = y at *
  generalize double (double (double (45 / 100) * q') / double (q' + double (9 / 100))) = z at *
  generalize q / (2 * (q + 33 / 100)) = r at *
  generalize 45 / 100 * q / (q + 9 / 100) = t at *
  obtain ⟨a10, a11⟩ := a1
  obtain ⟨a20, a21⟩ := a2
  obtain ⟨b10, b11⟩ := b1
  obtain ⟨b20, b21⟩ := b2
  clear * - a10 a11 a20 a21 b10 b11 b20 b21 n2
  rw [abs_le] at *
  norm_num at *
  refine ⟨⟨?_, ?_⟩, b10, abs_le.2 ⟨?_, ?_⟩⟩ <;> linarith

theorem init_close (R sig : ℝ) : |(initR R sig).A - (ON.init R sig).A| ≤ 2 ^ (-46 : ℤ) ∧ |(initR R sig).B - (ON.init R sig).B| ≤ 2 ^ (-46 : ℤ) ∧
    1 / 2 ≤ (initR R sig).A ∧ (initR R sig).A ≤ 1 ∧ 0 ≤ (initR R sig).B ∧ (initR R sig).B ≤ 1 / 2 := by
  have eA : (initR R sig).A = coefA (sqR sig) := rfl
  have eB : (initR R sig).B = coefB (sqR sig) := rfl
  have fA : (ON.init R sig).A = 1 - sqE sig / (2 * (sqE sig + 33 / 100)) := rfl
  have fB : (ON.init R sig).B = 45 / 100 * sqE sig / (sqE sig + 9 / 100) := rfl
  obtain ⟨q0', q0⟩ := sq_nonneg' sig
  obtain ⟨A0, A1, -⟩ := coefA_range q0' (isDouble_double _)
  have key : |coefA (sqR sig) - (1 - sqE sig / (2 * (sqE sig + 33 / 100)))| ≤ 2 ^ (-46 : ℤ) ∧ 0 ≤ coefB (sqR sig) ∧ |coefB (sqR sig) - 45 / 100 * sqE sig / (sqE sig + 9 / 100)| ≤ 2 ^ (-46 : ℤ) := by
    rcases le_total (2 ^ (-400 : ℤ)) |sig| with h | h
    · obtain ⟨e, p⟩ := sq_err h
      exact ⟨coefA_close e (isDouble_double _) (lt_of_lt_of_le (by positivity) p) q0', coefB_close e (isDouble_double _) p q0'⟩
    · obtain ⟨a, b⟩ := tiny_sq h
      exact coef_tiny q0' q0 a b
  rw [eA, eB, fA, fB]
  obtain ⟨k1, k2, k3⟩ := key
  refine ⟨k1, k3, A0, A1, k2, ?_⟩
  have hb : 45 / 100 * sqE sig / (sqE sig + 9 / 100) ≤ 45 / 100 := by rw [div_le_iff₀ (by linarith)]; linarith
  rw [abs_le] at k3
  norm_num at *
  linarith

/-- **C200** The coefficients: within `2^-46` of the exact ones, `A` in `[1/2, 1]` and `B` in `[0, 1/2]`, for every roughness (in degrees, not beyond `2^400`, where the square would overflow); a smooth surface
gets exactly `A = 1` and `B = 0`. -/
theorem C200_coefficients (R sig : ℝ) (_hs : |sig| ≤ 2 ^ (400 : ℤ)) : |(initR R sig).A - (ON.init R sig).A| ≤ 2 ^ (-46 : ℤ) ∧ |(initR R sig).B - (ON.init R sig).B| ≤ 2 ^ (-46 : ℤ) ∧
    1 / 2 ≤ (initR R sig).A ∧ (initR R sig).A ≤ 1 ∧ 0 ≤ (initR R sig).B ∧ (initR R sig).B ≤ 1 / 2 ∧ (initR R 0).A = 1 ∧ (initR R 0).B = 0 := by
  obtain ⟨a, b, c, d, e, f⟩ := init_close R sig
  refine ⟨a, b, c, d, e, f, ?_, ?_⟩
  · simp [initR, double_zero, d_one]
  · simp [initR, double_zero]

/-- **C200** Reciprocal, bit for bit: exchanging the two directions changes nothing. -/
theorem C200_reciprocal (o : ON) (wo wi : V3 ℝ) : fR o wo wi = fR o wi wo := by
  have em : mcR wo wi = mcR wi wo := by
    unfold mcR
    rw [mul_comm (cosPhiR wi), mul_comm (sinPhiR wi)]
    by_cases h : sinThetaR wi > EPSR ∧ sinThetaR wo > EPSR
    · rw [if_pos h, if_pos h.symm]
    · rw [if_neg h, if_neg (fun h' => h h'.symm)]
  unfold fR
  simp only []
  rw [em]
  generalize mcR wi wo = m
  rcases lt_trichotomy |wi.z| |wo.z| with h | h | h
  · have hp : 0 ≤ |wi.z| := abs_nonneg _
    rw [if_neg (by linarith), if_neg (by linarith), if_pos (by linarith)]
  · have hs : sinThetaR wi = sinThetaR wo := by
      have : wi.z * wi.z = wo.z * wo.z := by rw [← abs_mul_abs_self wi.z, ← abs_mul_abs_self wo.z, h]
      unfold sinThetaR; rw [this]
    rw [if_neg (by linarith), h, hs, if_neg (lt_irrefl _)]
  · have hp : 0 ≤ |wo.z| := abs_nonneg _
    rw [if_pos (by linarith), if_neg (by linarith), if_neg (by linarith)]

/-- **C200** A smooth surface (`sig = 0`) reflects exactly as a Lambertian one, bit for bit. -/
theorem C200_smooth (R : ℝ) (wo wi : V3 ℝ) (h : wo.z ≠ 0 ∨ wi.z ≠ 0) : fR (initR R 0) wo wi = some (lambertR R) := by
  have hA : (initR R 0).A = 1 := by simp [initR, double_zero, d_one]
  have hB : (initR R 0).B = 0 := by simp [initR, double_zero]
  have hR : (initR R 0).R = R := rfl
  have v : ∀ mc sa st c : ℝ, valueR (initR R 0) mc sa st c = lambertR R := fun mc sa st c => by
    unfold valueR lambertR
    rw [hA, hB, hR, zero_mul, double_zero, zero_mul, double_zero, zero_mul, double_zero, add_zero, d_one, mul_one, double_of_isDouble (isDouble_double _), mul_comm]
  unfold fR
  simp only []
  split_ifs with h1 h2
  · rw [v]
  · exfalso
    have : |wi.z| = 0 := le_antisymm (by linarith) (abs_nonneg _)
    rw [abs_eq_zero] at this h2
    rcases h with h | h <;> contradiction
  · rw [v]

theorem nearly_le {w : V3 ℝ} (h : NearlyUnit w) : |w.x| ≤ 3 / 2 ∧ |w.y| ≤ 3 / 2 ∧ |w.z| ≤ 3 / 2 := by
  unfold NearlyUnit at h
  rw [abs_le] at h
  have h2 := h.2
  have : w.x ^ 2 + w.y ^ 2 + w.z ^ 2 ≤ 2 := by norm_num at *; linarith
  refine ⟨?_, ?_, ?_⟩ <;>
    exact abs_le_of_sq_le_sq (by nlinarith [sq_nonneg w.x, sq_nonneg w.y, sq_nonneg w.z]) (by norm_num)

/-- the exact value, in one formula -/
theorem exact_f (o : ON) (wo wi : V3 ℝ) (h : wo.z ≠ 0 ∨ wi.z ≠ 0) :
    o.f wo wi = some (if |wi.z| > |wo.z| then o.R * MC.invPi * (o.A + o.B * mcE wo wi * sinTheta wo * (sinTheta wi / |wi.z|)) else o.R * MC.invPi * (o.A + o.B * mcE wo wi * sinTheta wi * (sinTheta wo / |wo.z|))) := by
  unfold ON.f absCosTheta mcE
  simp only []
  split_ifs with h1 h2 h3 h4
  all_goals first | rfl | skip
  all_goals
    exfalso
    have : |wi.z| = 0 := le_antisymm (by linarith) (abs_nonneg _)
    simp only [abs_eq_zero] at *
    rcases h with h | h <;> contradiction

theorem change {R A' A B' B mc sa st c : ℝ} (hR : 0 ≤ R) (hA : |A' - A| ≤ 2 ^ (-46 : ℤ)) (hB : |B' - B| ≤ 2 ^ (-46 : ℤ)) (m0 : 0 ≤ mc) (m2 : mc ≤ 2) (a0 : 0 ≤ sa) (a1 : sa ≤ 1) (t0 : 0 ≤ st) (t1 : st ≤ 1)
    (c0 : 0 < c) (c1 : c ≤ 3 / 2) : |R * MC.invPi * (A' + B' * mc * sa * (st / c)) - R * MC.invPi * (A + B * mc * sa * (st / c))| ≤ R * 2 ^ (-44 : ℤ) / c := by
  obtain ⟨-, -, -, q0, q1⟩ := invpi_close
  rw [le_div_iff₀ c0]
  have e : (R * MC.invPi * (A' + B' * mc * sa * (st / c)) - R * MC.invPi * (A + B * mc * sa * (st / c))) * c = R * (1 / Real.pi * ((A' - A) * c + (B' - B) * (mc * (sa * st)))) := by
    unfold MC.invPi; field_simp; ring
  rw [← abs_of_pos c0, ← abs_mul, abs_of_pos c0, e, abs_mul, abs_of_nonneg hR, abs_mul, abs_of_nonneg q0]
  apply mul_le_mul_of_nonneg_left _ hR
  have k1 : |(A' - A) * c| ≤ 2 ^ (-46 : ℤ) * (3 / 2) := by rw [abs_mul, abs_of_pos c0]; exact mul_le_mul hA c1 c0.le (by positivity)
  have p := prod_small m0 m2 a0 a1 t0 t1 (Or.inl a1)
  have k2 : |(B' - B) * (mc * (sa * st))| ≤ 2 ^ (-46 : ℤ) * (2 * 1) := by rw [abs_mul, abs_of_nonneg p.1]; exact mul_le_mul hB p.2 p.1 (by positivity)
  have k3 := (abs_add_le ((A' - A) * c) ((B' - B) * (mc * (sa * st)))).trans (add_le_add k1 k2)
  refine (mul_le_mul q1 k3 (abs_nonneg _) (by norm_num)).trans ?_
  norm_num

theorem pair {R sig mc' sa' st' mc sa st c δ : ℝ} (hR : 0 ≤ R) (m0 : 0 ≤ mc') (m2 : mc' ≤ 2) (n0 : 0 ≤ mc) (n2 : mc ≤ 2) (a0 : 0 ≤ sa') (a1 : sa' ≤ 1) (t0 : 0 ≤ st') (t1 : st' ≤ 1)
    (b0 : 0 ≤ sa) (b1 : sa ≤ 1) (u0 : 0 ≤ st) (u1 : st ≤ 1) (c0 : 0 < c) (c1 : c ≤ 3 / 2) (hδ : |mc' * (sa' * st') - mc * (sa * st)| ≤ δ) :
    |valueR (initR R sig) mc' sa' st' c - (ON.init R sig).R * MC.invPi * ((ON.init R sig).A + (ON.init R sig).B * mc * sa * (st / c))| ≤ (R * (2 ^ (-43 : ℤ) + δ / 4) + 2 ^ (-1070 : ℤ)) / c := by
  obtain ⟨iA, iB, A0, A1, B0, B1⟩ := init_close R sig
  have k1 := value_close (o := initR R sig) hR (by linarith) A1 B0 B1 m0 m2 a0 a1 t0 t1 c0 c1 hδ
  have k2 := change hR iA iB n0 n2 b0 b1 u0 u1 c0 c1
  have e : (initR R sig).R = R := rfl
  have e' : (ON.init R sig).R = R := rfl
  rw [e] at k1
  rw [e']
  refine (abs_sub_le _ _ _).trans ((add_le_add k1 k2).trans ?_)
  rw [← add_div]
  apply div_le_div_of_nonneg_right _ c0.le
  generalize (2 : ℝ) ^ (-1070 : ℤ) = η
  norm_num
  nlinarith

/-- **C200** Accuracy.  For directions that are unit vectors up to `2^-48` in the square of the length and not both grazing, the computed value, construction included, is not negative, and is within
`(2^-16 R + 2^-1070) / max(|cos θo|, |cos θi|)` of the exact one; and within `(2^-32 R + 2^-1070) / max(|cos θo|, |cos θi|)` if no direction's sine is within `2^-24` of the cutoff `10^-5` below which the azimuths are ignored.
`R ≤ 2^100`, `max ≥ 2^-900` and the bound on the roughness exclude overflow. -/
theorem C200_accurate (R sig : ℝ) (hR : 0 ≤ R) (_hR1 : R ≤ 2 ^ (100 : ℤ)) (_hs : |sig| ≤ 2 ^ (400 : ℤ)) (wo wi : V3 ℝ) (ho : NearlyUnit wo) (hi : NearlyUnit wi) (hz : 2 ^ (-900 : ℤ) ≤ max |wo.z| |wi.z|) :
    ∃ v' v, fR (initR R sig) wo wi = some v' ∧ (ON.init R sig).f wo wi = some v ∧ 0 ≤ v' ∧
      |v' - v| ≤ (2 ^ (-16 : ℤ) * R + 2 ^ (-1070 : ℤ)) / max |wo.z| |wi.z| ∧
      (2 ^ (-24 : ℤ) ≤ |√(max 0 (1 - wo.z ^ 2)) - 1 / 100000| → 2 ^ (-24 : ℤ) ≤ |√(max 0 (1 - wi.z ^ 2)) - 1 / 100000| → |v' - v| ≤ (2 ^ (-32 : ℤ) * R + 2 ^ (-1070 : ℤ)) / max |wo.z| |wi.z|) := by
  obtain ⟨ox, oy, oz⟩ := nearly_le ho
  obtain ⟨ix, iy, iz⟩ := nearly_le hi
  obtain ⟨p0, p1, q0, q1, -, -⟩ := sin_close wo
  obtain ⟨r0, r1, s0, s1, -, -⟩ := sin_close wi
  obtain ⟨m0, m2, n0, n2⟩ := mc_bounds wo wi
  have hpos : 0 < max |wo.z| |wi.z| := lt_of_lt_of_le (by positivity) hz
  have hne : wo.z ≠ 0 ∨ wi.z ≠ 0 := by
    by_contra hc
    push Not at hc
    rw [hc.1, hc.2] at hpos
    simp at hpos
  have any := prod_any ox oy ix iy
  have fin1 : R * (2 ^ (-43 : ℤ) + 2 ^ (-15 : ℤ) / 4) + 2 ^ (-1070 : ℤ) ≤ 2 ^ (-16 : ℤ) * R + 2 ^ (-1070 : ℤ) := by
    generalize (2 : ℝ) ^ (-1070 : ℤ) = η; norm_num; nlinarith
  have fin2 : R * (2 ^ (-43 : ℤ) + 2 ^ (-31 : ℤ) / 4) + 2 ^ (-1070 : ℤ) ≤ 2 ^ (-32 : ℤ) * R + 2 ^ (-1070 : ℤ) := by
    generalize (2 : ℝ) ^ (-1070 : ℤ) = η; norm_num; nlinarith
  have v0 : ∀ mc sa st c : ℝ, 0 ≤ mc → 0 ≤ sa → 0 ≤ st → 0 ≤ c → 0 ≤ valueR (initR R sig) mc sa st c := fun mc sa st c hm ha ht hc => by
    obtain ⟨-, -, A0, -, B0, -⟩ := init_close R sig
    obtain ⟨-, ip0, -⟩ := invpi_close
    unfold valueR
    exact d_nonneg (mul_nonneg (d_nonneg (mul_nonneg hR ip0)) (d_nonneg (add_nonneg (by linarith)
      (d_nonneg (mul_nonneg (d_nonneg (mul_nonneg (d_nonneg (mul_nonneg B0 hm)) ha)) (d_nonneg (div_nonneg ht hc)))))))
  rw [exact_f _ _ _ hne]
  by_cases hlt : |wi.z| > |wo.z|
  · rw [max_eq_right hlt.le]
    have c0 : 0 < |wi.z| := lt_of_le_of_lt (abs_nonneg _) hlt
    have sw : ∀ a b c d e f : ℝ, a * (b * c) - d * (e * f) = a * (c * b) - d * (f * e) := fun a b c d e f => by ring
    refine ⟨_, _, by unfold fR; simp only []; rw [if_pos hlt], by rw [if_pos hlt], v0 _ _ _ _ m0 p0 r0 (abs_nonneg _), ?_, fun a b => ?_⟩
    · refine (pair hR m0 m2 n0 n2 p0 p1 r0 r1 q0 q1 s0 s1 c0 iz (δ := 2 ^ (-15 : ℤ)) (by rw [sw] at any; exact any)).trans ?_
      exact div_le_div_of_nonneg_right fin1 c0.le
    · rw [sq] at a b
      refine (pair hR m0 m2 n0 n2 p0 p1 r0 r1 q0 q1 s0 s1 c0 iz (δ := 2 ^ (-31 : ℤ)) (by have := prod_away ox oy ix iy a b; rw [sw] at this; exact this)).trans ?_
      exact div_le_div_of_nonneg_right fin2 c0.le
  · have hle := not_lt.1 hlt
    rw [max_eq_left hle] at hpos ⊢
    have c0 := hpos
    refine ⟨_, _, by unfold fR; simp only []; rw [if_neg hlt, if_neg c0.ne'], by rw [if_neg hlt], v0 _ _ _ _ m0 r0 p0 (abs_nonneg _), ?_, fun a b => ?_⟩
    · refine (pair hR m0 m2 n0 n2 r0 r1 p0 p1 s0 s1 q0 q1 c0 oz any).trans ?_
      exact div_le_div_of_nonneg_right fin1 c0.le
    · rw [sq] at a b
      refine (pair hR m0 m2 n0 n2 r0 r1 p0 p1 s0 s1 q0 q1 c0 oz (prod_away ox oy ix iy a b)).trans ?_
      exact div_le_div_of_nonneg_right fin2 c0.le

/-- Two directions off the axis, and a roughness of 20 degrees. -/
example : ∃ v' v, fR (initR (1 / 2) 20) ⟨3 / 5, 0, 4 / 5⟩ ⟨0, 3 / 5, 4 / 5⟩ = some v' ∧ (ON.init (1 / 2) 20).f ⟨3 / 5, 0, 4 / 5⟩ ⟨0, 3 / 5, 4 / 5⟩ = some v ∧ |v' - v| ≤ 2 ^ (-32 : ℤ) := by
  have hs : √(max 0 (1 - (4 / 5 : ℝ) ^ 2)) = 3 / 5 := by rw [max_eq_right (by norm_num), show (1 - (4 / 5 : ℝ) ^ 2) = (3 / 5) ^ 2 by norm_num, Real.sqrt_sq (by norm_num)]
  have tz : (2 : ℝ) ^ (-900 : ℤ) ≤ 2 ^ (-1 : ℤ) := zpow_le_zpow_right₀ (by norm_num) (by norm_num)
  have tη : (2 : ℝ) ^ (-1070 : ℤ) ≤ 2 ^ (-40 : ℤ) := zpow_le_zpow_right₀ (by norm_num) (by norm_num)
  obtain ⟨v', v, a, b, -, -, d⟩ := C200_accurate (1 / 2) 20 (by norm_num) (by norm_num) (by rw [abs_of_pos (by norm_num)]; exact le_trans (by norm_num) (zpow_le_zpow_right₀ (show (1 : ℝ) ≤ 2 by norm_num) (show (5 : ℤ) ≤ 400 by norm_num))) ⟨3 / 5, 0, 4 / 5⟩ ⟨0, 3 / 5, 4 / 5⟩
    (by unfold NearlyUnit; norm_num) (by unfold NearlyUnit; norm_num) (tz.trans (by norm_num))
  refine ⟨v', v, a, b, ?_⟩
  have := d (by simp only []; rw [hs]; norm_num) (by simp only []; rw [hs]; norm_num)
  refine this.trans ?_
  generalize (2 : ℝ) ^ (-1070 : ℤ) = η at *
  norm_num at *
  linarith

end Verif.DiffR
