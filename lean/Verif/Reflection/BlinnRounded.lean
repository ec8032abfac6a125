import Verif.Reflection.Microfacet
import Verif.Reflection.DiffuseRounded
import Verif.MC.Rounded
import Verif.Geom.Rounded

/-!
# Blinn's microfacet distribution in rounded arithmetic (C205)

`Blinn` and `Microfacet.G` (`pytracer/reflection/bdf/torrance.py` 52-102, 214-216) with every operation rounded to binary64.  `wo.dot(wh)` is `numpy.dot` with any order of summation (`DotR`); it is computed
several times for the same vectors, always with the same result.  The exact model is in `Verif.Reflection.Microfacet`.
-/

namespace Verif.BlinnR
open V3 Verif.Rnd Verif.MCR Verif.XformR
open Verif.DiskR (npPi npPi_close)
open Verif.Refl

/-! ### Model -/

/-- the cosine, torrance.py 75; `e` is `self.e` -/
noncomputable def ctR (powR : ℝ → ℝ → ℝ) (e u1 : ℝ) : ℝ := powR u1 (double (1 / double (e + 1)))

/-- the azimuth, torrance.py 77 -/
noncomputable def phiR (u2 : ℝ) : ℝ := double (double (u2 * 2) * npPi)

/-- the half vector, torrance.py 75-78 with `geo.spherical_direction` (`geometry/utility.py`, no frame given) -/
noncomputable def halfR (powR : ℝ → ℝ → ℝ) (cosR sinR : ℝ → ℝ) (e u1 u2 : ℝ) : V3 ℝ :=
  let ct := ctR powR e u1
  let st := double (√(max 0 (double (1 - double (ct * ct)))))
  ⟨double (st * cosR (phiR u2)), double (st * sinR (phiR u2)), ct⟩

open Classical in
/-- torrance.py 80-81 -/
noncomputable def toSideR (wo wh : V3 ℝ) : V3 ℝ := if double (wo.z * wh.z) ≤ 0 then -wh else wh

/-- torrance.py 84, `s` being `wo.dot(wh)` -/
noncomputable def mirrorR (wo wh : V3 ℝ) (s : ℝ) : V3 ℝ :=
  ⟨double (-wo.x + double (double (2 * s) * wh.x)), double (-wo.y + double (double (2 * s) * wh.y)), double (-wo.z + double (double (2 * s) * wh.z))⟩

open Classical in
/-- torrance.py 87-91 and 97-102: the division by zero is replaced by the test for `s <= 0` -/
noncomputable def pdfR (powR : ℝ → ℝ → ℝ) (e ct s : ℝ) : ℝ :=
  if s ≤ 0 then 0 else double (double (double (e + 1) * powR ct e) / double (double (double (2 * npPi) * 4) * s))

/-- `Blinn.sample_f` may return this, torrance.py 72-93 -/
def SampleR (powR : ℝ → ℝ → ℝ) (cosR sinR : ℝ → ℝ) (e : ℝ) (wo : V3 ℝ) (u1 u2 : ℝ) (pdf : ℝ) (wi : V3 ℝ) : Prop :=
  ∃ s, DotR wo.get (toSideR wo (halfR powR cosR sinR e u1 u2)).get [0, 1, 2] s ∧
    wi = mirrorR wo (toSideR wo (halfR powR cosR sinR e u1 u2)) s ∧ pdf = pdfR powR e (ctR powR e u1) s

/-- `Microfacet.G`, torrance.py 214-216, `s` being `wo.dot(wh)` -/
noncomputable def geomR (wo wi wh : V3 ℝ) (s : ℝ) : ℝ :=
  min 1 (min (double (double (double (2 * |wh.z|) * |wo.z|) / |s|)) (double (double (double (2 * |wh.z|) * |wi.z|) / |s|)))

/-! ### Specification -/

/-- an accurate `np.power` on `[0, 1]` with exponents that are not negative -/
structure Power (powR : ℝ → ℝ → ℝ) : Prop where
  nonneg : ∀ x y, 0 ≤ x → x ≤ 1 → 0 ≤ y → 0 ≤ powR x y
  le_one : ∀ x y, 0 ≤ x → x ≤ 1 → 0 ≤ y → powR x y ≤ 1
  near : ∀ x y, 0 ≤ x → x ≤ 1 → 0 ≤ y → |powR x y - x ^ y| ≤ 2 ^ (-52 : ℤ) * x ^ y + 2 ^ (-1074 : ℤ)

/-! ### Lemmas -/

/-- `numpy.dot` of nearly unit vectors -/
theorem dot_abs {a b B : Fin 3 → ℝ} {l : List (Fin 3)} {r : ℝ} (h : DotR a b l r) (hB : ∀ i, |a i * b i| ≤ B i) (hs : (l.map B).sum ≤ 5 / 2) (hl : l.length ≤ 3) :
    |r - (l.map fun i => a i * b i).sum| ≤ (2 * l.length - 1 : ℕ) * 2 ^ (-51 : ℤ) := by
  have B0 : ∀ i, 0 ≤ B i := fun i => (abs_nonneg _).trans (hB i)
  have S0 : ∀ l : List (Fin 3), 0 ≤ (l.map B).sum := fun l => List.sum_nonneg (by simp only [List.mem_map]; rintro x ⟨i, -, rfl⟩; exact B0 i)
  have S1 : ∀ l : List (Fin 3), |(l.map fun i => a i * b i).sum| ≤ (l.map B).sum := fun l => by
    induction l with
    | nil => simp
    | cons i l ih => simp only [List.map_cons, List.sum_cons]; exact (abs_add_le _ _).trans (add_le_add (hB i) ih)
  have rd : ∀ x : ℝ, |x| ≤ 3 → |double x - x| ≤ 2 ^ (-51 : ℤ) := fun x hx => by
    have e := double_err x
    have t := tiny
    generalize (2 : ℝ) ^ (-1075 : ℤ) = η at *
    norm_num at *; linarith
  have u : (0 : ℝ) < 2 ^ (-51 : ℤ) := by positivity
  have u1 : (2 : ℝ) ^ (-51 : ℤ) ≤ 1 / 100 := by norm_num
  generalize (2 : ℝ) ^ (-51 : ℤ) = υ at *
  have cst : ∀ n : ℕ, n ≤ 3 → ((2 * n - 1 : ℕ) : ℝ) * υ ≤ 1 / 20 := fun n hn => by
    have : ((2 * n - 1 : ℕ) : ℝ) ≤ 5 := by exact_mod_cast (by omega : 2 * n - 1 ≤ 5)
    nlinarith
  induction h with
  | nil => simp
  | mul i =>
    simp only [List.map_cons, List.map_nil, List.sum_cons, List.sum_nil, add_zero, List.length_cons, List.length_nil] at *
    have := rd (a i * b i) ((hB i).trans (by linarith))
    norm_num; exact this
  | fma i l r _ ih =>
    simp only [List.map_cons, List.sum_cons, List.length_cons] at *
    have hi := ih (by linarith [B0 i]) (by omega)
    have c := cst l.length (by omega)
    have k : |a i * b i + r| ≤ 3 := by
      have e1 := hB i; have e2 := S1 l
      rw [abs_le] at *; constructor <;> linarith [hi.1, hi.2, e1.1, e1.2, e2.1, e2.2]
    have := rd _ k
    have q : ((2 * (l.length + 1) - 1 : ℕ) : ℝ) * υ ≥ ((2 * l.length - 1 : ℕ) : ℝ) * υ + υ := by
      have : ((2 * (l.length + 1) - 1 : ℕ) : ℝ) ≥ ((2 * l.length - 1 : ℕ) : ℝ) + 1 := by exact_mod_cast (by omega : 2 * (l.length + 1) - 1 ≥ 2 * l.length - 1 + 1)
      nlinarith
    rw [abs_le] at *; constructor <;> linarith [hi.1, hi.2]
  | add l l' r r' h1 h2 ih ih' =>
    rw [List.map_append, List.sum_append, List.length_append] at *
    have hi := ih (by linarith [S0 l']) (by omega)
    have hi' := ih' (by linarith [S0 l]) (by omega)
    rcases l with _ | ⟨i, l⟩
    · rw [h1.nil_eq rfl, zero_add, double_of_isDouble h2.isDouble]; simpa using hi'
    rcases l' with _ | ⟨i', l'⟩
    · rw [h2.nil_eq rfl, add_zero, double_of_isDouble h1.isDouble]; simpa using hi
    have c := cst _ (show (i :: l).length ≤ 3 by omega)
    have c' := cst _ (show (i' :: l').length ≤ 3 by omega)
    have k : |r + r'| ≤ 3 := by
      have e1 := S1 (i :: l); have e2 := S1 (i' :: l')
      rw [abs_le] at *; constructor <;> linarith [hi.1, hi.2, e1.1, e1.2, e2.1, e2.2, hi'.1, hi'.2]
    have := rd _ k
    have q : ((2 * ((i :: l).length + (i' :: l').length) - 1 : ℕ) : ℝ) * υ = ((2 * (i :: l).length - 1 : ℕ) : ℝ) * υ + ((2 * (i' :: l').length - 1 : ℕ) : ℝ) * υ + υ := by
      have : ((2 * ((i :: l).length + (i' :: l').length) - 1 : ℕ) : ℝ) = ((2 * (i :: l).length - 1 : ℕ) : ℝ) + ((2 * (i' :: l').length - 1 : ℕ) : ℝ) + 1 := by
        exact_mod_cast (by simp only [List.length_cons]; omega)
      rw [this]; ring
    rw [q]
    rw [abs_le] at *; constructor <;> linarith [hi.1, hi.2, hi'.1, hi'.2]
  | perm l l' r hp _ ih =>
    have e := ih (by rwa [(hp.map B).sum_eq]) (by rwa [hp.length_eq])
    rwa [(hp.map fun i => a i * b i).sum_eq, hp.length_eq] at e

/-- `wo.dot(wh)` -/
theorem dot_near {v w : V3 ℝ} {s : ℝ} (h : DotR v.get w.get [0, 1, 2] s) (hv : sqLength v ≤ 9 / 8) (hw : sqLength w ≤ 9 / 8) : |s - dot v w| ≤ 2 ^ (-48 : ℤ) := by
  have := dot_abs h (B := fun i => (v.get i * v.get i + w.get i * w.get i) / 2) (fun i => by
    rw [abs_le]; constructor <;> nlinarith [sq_nonneg (v.get i + w.get i), sq_nonneg (v.get i - w.get i)]) (by
    simp only [List.map_cons, List.map_nil, List.sum_cons, List.sum_nil, V3.get, sqLength] at *; linarith) (by simp)
  have e : ([0, 1, 2] : List (Fin 3)).map (fun i => v.get i * w.get i) = [v.x * w.x, v.y * w.y, v.z * w.z] := rfl
  rw [e] at this
  simp only [List.sum_cons, List.sum_nil, List.length_cons, List.length_nil] at this
  rw [show v.x * w.x + (v.y * w.y + (v.z * w.z + 0)) = dot v w by simp only [dot]; ring] at this
  refine this.trans ?_
  norm_num

/-- powers with close exponents -/
theorem pow_near {x y y' δ : ℝ} (x0 : 0 ≤ x) (x1 : x ≤ 1) (y0 : 0 < y) (h : |y' - y| ≤ δ * y) (hδ : δ ≤ 1 / 2) (y0' : 0 < y') : |x ^ y' - x ^ y| ≤ δ := by
  have δ0 : 0 ≤ δ := by
    by_contra hc
    have := (abs_nonneg _).trans h
    nlinarith
  rcases x0.eq_or_lt with rfl | xp
  · rw [Real.zero_rpow y0'.ne', Real.zero_rpow y0.ne']; simpa using δ0
  rw [Real.rpow_def_of_pos xp, Real.rpow_def_of_pos xp]
  set t := -(Real.log x * y) with ht
  have t0 : 0 ≤ t := by have := Real.log_nonpos x0 x1; rw [ht]; nlinarith
  have hd : |Real.log x * y' - Real.log x * y| ≤ δ * t := by
    rw [← mul_sub, abs_mul, abs_of_nonpos (Real.log_nonpos x0 x1), ht]
    have := Real.log_nonpos x0 x1
    nlinarith
  have e2 : Real.log x * y = -t := by rw [ht]; ring
  rw [e2] at hd ⊢
  set w := Real.log x * y' with hw
  have key : ∀ p q : ℝ, q ≤ p → p ≤ -t / 2 → p - q ≤ δ * t → Real.exp p - Real.exp q ≤ δ := fun p q hpq hp hdd => by
    have h1 : Real.exp p - Real.exp q ≤ Real.exp p * (p - q) := by
      have := Real.add_one_le_exp (q - p)
      have e : Real.exp q = Real.exp p * Real.exp (q - p) := by rw [← Real.exp_add]; congr 1; ring
      rw [e]
      nlinarith [Real.exp_pos p]
    have h2 : Real.exp p * t ≤ 1 := by
      have a := Real.add_one_le_exp (t / 4)
      have b : Real.exp (t / 4) * Real.exp (t / 4) * Real.exp (-t / 2) = 1 := by rw [← Real.exp_add, ← Real.exp_add, ← Real.exp_zero]; congr 1; ring
      have c : Real.exp p ≤ Real.exp (-t / 2) := Real.exp_le_exp.2 hp
      have d : t ≤ Real.exp (t / 4) * Real.exp (t / 4) := by nlinarith [sq_nonneg (t / 4 - 1)]
      have ep := Real.exp_pos (-t / 2)
      calc Real.exp p * t ≤ Real.exp (-t / 2) * (Real.exp (t / 4) * Real.exp (t / 4)) := mul_le_mul c d t0 ep.le
        _ = 1 := by rw [← b]; ring
    calc Real.exp p - Real.exp q ≤ Real.exp p * (p - q) := h1
      _ ≤ Real.exp p * (δ * t) := mul_le_mul_of_nonneg_left hdd (Real.exp_pos p).le
      _ = δ * (Real.exp p * t) := by ring
      _ ≤ δ := mul_le_of_le_one_right δ0 h2
  obtain ⟨a, b⟩ := abs_le.1 hd
  have wt : w ≤ -t / 2 := by nlinarith
  rcases le_total w (-t) with c | c
  · rw [abs_sub_comm, abs_of_nonneg (sub_nonneg.2 (Real.exp_le_exp.2 c))]
    exact key _ _ c (by linarith) (by linarith)
  · rw [abs_of_nonneg (sub_nonneg.2 (Real.exp_le_exp.2 c))]
    exact key _ _ c wt (by linarith)

/-- the exponent, torrance.py 75 -/
theorem expo_near {e : ℝ} (e0 : 0 ≤ e) (e1 : e ≤ 10000) : |double (1 / double (e + 1)) - 1 / (e + 1)| ≤ 2 ^ (-51 : ℤ) * (1 / (e + 1)) ∧ 0 < double (1 / double (e + 1)) := by
  have sm : (2 : ℝ) ^ (-1022 : ℤ) ≤ 1 / 20000 := by
    have : (2 : ℝ) ^ (-1022 : ℤ) ≤ 2 ^ (-15 : ℤ) := zpow_le_zpow_right₀ (by norm_num) (by norm_num)
    exact this.trans (by norm_num)
  have a := double_err_rel (x := e + 1) (by rw [abs_of_pos (by linarith)]; linarith)
  rw [abs_of_pos (show 0 < e + 1 by linarith)] at a
  set d := double (e + 1) with hd
  obtain ⟨a1, a2⟩ := abs_le.1 a
  have u1 : (2 : ℝ) ^ (-53 : ℤ) ≤ 1 / 1000 := by norm_num
  have u0 : (0 : ℝ) < 2 ^ (-53 : ℤ) := by positivity
  have e51 : (2 : ℝ) ^ (-51 : ℤ) = 4 * 2 ^ (-53 : ℤ) := by norm_num
  rw [e51]
  generalize hυ : (2 : ℝ) ^ (-53 : ℤ) = υ at *
  have d0 : 0 < d := by nlinarith
  have d2 : d ≤ 20000 := by nlinarith
  have b0 : 0 < 1 / d := by positivity
  have b := double_err_rel (x := 1 / d) (by rw [abs_of_pos b0]; exact sm.trans (one_div_le_one_div_of_le d0 d2))
  rw [abs_of_pos b0, hυ] at b
  have c : |1 / d - 1 / (e + 1)| ≤ 2 * υ * (1 / (e + 1)) := by
    rw [show 1 / d - 1 / (e + 1) = ((e + 1) - d) / d * (1 / (e + 1)) by field_simp, abs_mul, abs_of_pos (show 0 < 1 / (e + 1) by positivity)]
    refine mul_le_mul_of_nonneg_right ?_ (by positivity)
    rw [abs_div, abs_of_pos d0, div_le_iff₀ d0, abs_sub_comm]
    refine a.trans ?_
    nlinarith
  have y0 : 0 < 1 / (e + 1) := by positivity
  generalize 1 / (e + 1) = y at *
  generalize 1 / d = w at *
  obtain ⟨b1, b2⟩ := abs_le.1 b
  obtain ⟨c1, c2⟩ := abs_le.1 c
  have q : υ * w ≤ 5 / 4 * υ * y := by nlinarith [mul_pos u0 y0]
  have q2 : υ * y ≤ y / 1000 := by nlinarith
  exact ⟨abs_le.2 ⟨by linarith [mul_pos u0 y0], by linarith [mul_pos u0 y0]⟩, by linarith⟩

variable {powR : ℝ → ℝ → ℝ} {cosR sinR : ℝ → ℝ}

theorem ct_near (hp : Power powR) {e u1 : ℝ} (e0 : 0 ≤ e) (e1 : e ≤ 10000) (h0 : 0 ≤ u1) (h1 : u1 ≤ 1) :
    0 ≤ ctR powR e u1 ∧ ctR powR e u1 ≤ 1 ∧ |ctR powR e u1 - u1 ^ (1 / (e + 1))| ≤ 2 ^ (-50 : ℤ) := by
  obtain ⟨a, b⟩ := expo_near e0 e1
  refine ⟨hp.nonneg _ _ h0 h1 b.le, hp.le_one _ _ h0 h1 b.le, ?_⟩
  have n := hp.near u1 _ h0 h1 b.le
  have p := pow_near h0 h1 (by positivity) a (by norm_num) b
  have l := Real.rpow_le_one h0 h1 b.le
  have l0 := Real.rpow_nonneg h0 (double (1 / double (e + 1)))
  have t : (2 : ℝ) ^ (-1074 : ℤ) ≤ 2 ^ (-60 : ℤ) := zpow_le_zpow_right₀ (by norm_num) (by norm_num)
  unfold ctR
  generalize powR u1 (double (1 / double (e + 1))) = x at *
  generalize u1 ^ (double (1 / double (e + 1))) = y at *
  generalize u1 ^ (1 / (e + 1)) = z at *
  generalize (2 : ℝ) ^ (-1074 : ℤ) = η at *
  have : |x - z| ≤ |x - y| + |y - z| := abs_sub_le _ _ _
  norm_num at *
  linarith

theorem phi_near {u2 : ℝ} (h0 : 0 ≤ u2) (h1 : u2 ≤ 1) : |phiR u2 - u2 * 2 * Real.pi| ≤ 2 ^ (-47 : ℤ) := by
  obtain ⟨p1, p2, p3⟩ := npPi_close
  have n1 : |double (u2 * 2) - u2 * 2| ≤ 2 ^ (-50 : ℤ) := near8 (by rw [abs_of_nonneg (by linarith)]; linarith)
  have d0 : 0 ≤ double (u2 * 2) := d_nonneg (by linarith)
  have d2 : double (u2 * 2) ≤ 2 := by
    have := double_mono (show u2 * 2 ≤ 2 by linarith)
    rwa [show double (2 : ℝ) = 2 from double_of_isDouble ⟨2, 0, by norm_num, by norm_num, by simp⟩] at this
  have n2 : |phiR u2 - double (u2 * 2) * npPi| ≤ 2 ^ (-50 : ℤ) := near8 (by rw [abs_of_nonneg (by positivity)]; nlinarith)
  have k : |double (u2 * 2) * npPi - u2 * 2 * Real.pi| ≤ 13 / 4 * 2 ^ (-50 : ℤ) + 2 * (4 * uu) := by
    rw [show double (u2 * 2) * npPi - u2 * 2 * Real.pi = (double (u2 * 2) - u2 * 2) * npPi + u2 * 2 * (npPi - Real.pi) by ring]
    refine (abs_add_le _ _).trans (add_le_add ?_ ?_)
    · rw [abs_mul, abs_of_pos (show 0 < npPi by linarith), mul_comm]
      exact mul_le_mul p3 n1 (abs_nonneg _) (by norm_num)
    · rw [abs_mul, abs_of_nonneg (show 0 ≤ u2 * 2 by linarith)]
      exact mul_le_mul (by linarith) p1 (abs_nonneg _) (by norm_num)
  have e := abs_sub_le (phiR u2) (double (u2 * 2) * npPi) (u2 * 2 * Real.pi)
  rw [uu_eq] at k
  norm_num at *
  linarith

/-! ### Theorems -/

/-- **C205** the half vector has length one up to rounding, does not point down, and is the exact one up to the loss of digits near the pole -/
theorem C205_half (hp : Power powR) (ht : Trig cosR sinR) (e u1 u2 : ℝ) (e0 : 0 ≤ e) (e1 : e ≤ 10000) (h0 : 0 ≤ u1) (h1 : u1 ≤ 1) (k0 : 0 ≤ u2) (k1 : u2 ≤ 1) :
    NearlyUnit (halfR powR cosR sinR e u1 u2) ∧ 0 ≤ (halfR powR cosR sinR e u1 u2).z ∧ |(halfR powR cosR sinR e u1 u2).z - u1 ^ (1 / (e + 1))| ≤ 2 ^ (-50 : ℤ) ∧
      Within (2 ^ (-23 : ℤ)) (halfR powR cosR sinR e u1 u2) (blinnHalf e u1 u2) := by
  obtain ⟨c0, c1, c2⟩ := ct_near hp e0 e1 h0 h1
  have ca : |ctR powR e u1| ≤ 1 := hemi_z c0 c1
  have C0 : 0 ≤ u1 ^ (1 / (e + 1)) := Real.rpow_nonneg h0 _
  have C1 : u1 ^ (1 / (e + 1)) ≤ 1 := Real.rpow_le_one h0 h1 (by positivity)
  obtain ⟨r0, r1, q⟩ := ringR_near ca
  have m0 : 0 ≤ 1 - u1 ^ (1 / (e + 1)) * u1 ^ (1 / (e + 1)) := by nlinarith
  set ρ := √(max 0 (1 - u1 ^ (1 / (e + 1)) * u1 ^ (1 / (e + 1)))) with hρ
  have ρ0 : 0 ≤ ρ := Real.sqrt_nonneg _
  have ρ1 : ρ ≤ 1 := sqrt_le_one' (max_le zero_le_one (by nlinarith))
  have ρ2 : ρ ^ 2 = 1 - u1 ^ (1 / (e + 1)) * u1 ^ (1 / (e + 1)) := by rw [hρ, Real.sq_sqrt (le_max_left _ _), max_eq_right m0]
  have d : |ringR (ctR powR e u1) - ρ| ≤ 2 ^ (-24 : ℤ) := by
    have s := sq_sub ca (hemi_z C0 C1) c2
    have := sqrt_sub (sq_nonneg (ringR (ctR powR e u1))) (sq_nonneg ρ) (d := 2 ^ (-24 : ℤ)) (by positivity) (by
      rw [ρ2]
      obtain ⟨a1, a2⟩ := abs_le.1 s
      obtain ⟨b1, b2⟩ := abs_le.1 q
      generalize u1 ^ (1 / (e + 1)) = x at *
      norm_num at *
      exact abs_le.2 ⟨by nlinarith, by nlinarith⟩)
    rwa [Real.sqrt_sq r0, Real.sqrt_sq ρ0] at this
  obtain ⟨x, y⟩ := coords ht (ring_abs ca) (hemi_z ρ0 ρ1) d (phi_near k0 k1)
  have w : (2 : ℝ) ^ (-24 : ℤ) + 2 ^ (-46 : ℤ) ≤ 2 ^ (-23 : ℤ) := by norm_num
  exact ⟨unit_of ht ca _, c0, c2, x.trans w, y.trans w, c2.trans (by norm_num)⟩

/-- the side of the half vector -/
theorem toSide_cases (wo wh : V3 ℝ) : (toSideR wo wh = wh ∨ toSideR wo wh = -wh) ∧ (2 ^ (-1074 : ℤ) ≤ |wo.z * wh.z| → 0 < wo.z * (toSideR wo wh).z) := by
  unfold toSideR
  split_ifs with h
  · refine ⟨Or.inr rfl, fun ht => ?_⟩
    show 0 < wo.z * -wh.z
    rcases le_abs.1 ht with c | c
    · have := double_mono c
      rw [show double ((2 : ℝ) ^ (-1074 : ℤ)) = 2 ^ (-1074 : ℤ) from double_of_isDouble ⟨1, -1074, by norm_num, le_rfl, by rw [Int.cast_one, one_mul]⟩] at this
      have p : (0 : ℝ) < 2 ^ (-1074 : ℤ) := by positivity
      linarith
    · have p : (0 : ℝ) < 2 ^ (-1074 : ℤ) := by positivity
      linarith
  · exact ⟨Or.inl rfl, fun _ => by by_contra hc; exact h (by have := double_mono (not_lt.1 hc); rwa [double_zero] at this)⟩

theorem neg_sq {w : V3 ℝ} : sqLength (-w) = sqLength w := by show (-w.x) * (-w.x) + (-w.y) * (-w.y) + (-w.z) * (-w.z) = _; simp only [sqLength]; ring

/-- one coordinate of the incident direction -/
theorem mirror_one {o w s D : ℝ} (ho : |o| ≤ 9 / 8) (hw : |w| ≤ 65 / 64) (hD : |D| ≤ 9 / 8) (h : |s - D| ≤ 2 ^ (-48 : ℤ)) : |double (-o + double (double (2 * s) * w)) - (-o + 2 * D * w)| ≤ 2 ^ (-46 : ℤ) := by
  have s2 : |2 * s| ≤ 5 / 2 := by obtain ⟨a, b⟩ := abs_le.1 h; obtain ⟨c, d⟩ := abs_le.1 hD; norm_num at a b; exact abs_le.2 ⟨by linarith, by linarith⟩
  have n1 : |double (2 * s) - 2 * s| ≤ 2 ^ (-50 : ℤ) := near8 (s2.trans (by norm_num))
  generalize double (2 * s) = t at *
  have t3 : |t| ≤ 51 / 20 := by obtain ⟨a, b⟩ := abs_le.1 n1; obtain ⟨c, d⟩ := abs_le.1 s2; norm_num at a b; exact abs_le.2 ⟨by linarith, by linarith⟩
  have tw : |t * w| ≤ 3 := by rw [abs_mul]; nlinarith [abs_nonneg t, abs_nonneg w]
  have n2 : |double (t * w) - t * w| ≤ 2 ^ (-50 : ℤ) := near8 (tw.trans (by norm_num))
  generalize double (t * w) = p at *
  have op : |-o + p| ≤ 15 / 2 := by
    obtain ⟨a, b⟩ := abs_le.1 n2; obtain ⟨c, d⟩ := abs_le.1 tw; obtain ⟨f, g⟩ := abs_le.1 ho; norm_num at a b; exact abs_le.2 ⟨by linarith, by linarith⟩
  have n3 : |double (-o + p) - (-o + p)| ≤ 2 ^ (-50 : ℤ) := near8 op
  have k : |t * w - 2 * D * w| ≤ (2 ^ (-50 : ℤ) + 2 * 2 ^ (-48 : ℤ)) * (65 / 64) := by
    rw [← sub_mul, abs_mul]
    refine mul_le_mul ?_ hw (abs_nonneg _) (by positivity)
    obtain ⟨a, b⟩ := abs_le.1 n1
    obtain ⟨c, d⟩ := abs_le.1 h
    exact abs_le.2 ⟨by linarith, by linarith⟩
  generalize double (-o + p) = r at *
  generalize t * w = x at *
  generalize 2 * D * w = y at *
  obtain ⟨a, b⟩ := abs_le.1 n2
  obtain ⟨c, d⟩ := abs_le.1 n3
  obtain ⟨f, g⟩ := abs_le.1 k
  norm_num at *
  exact abs_le.2 ⟨by linarith, by linarith⟩

theorem comp_le' {v : V3 ℝ} {b : ℝ} (h : sqLength v ≤ b * b) (hb : 0 ≤ b) : |v.x| ≤ b ∧ |v.y| ≤ b ∧ |v.z| ≤ b :=
  ⟨GeomR.comp_le h hb 0, GeomR.comp_le h hb 1, GeomR.comp_le h hb 2⟩

theorem dot_le {v w : V3 ℝ} (hv : sqLength v ≤ 9 / 8) (hw : sqLength w ≤ 65 / 64) : |dot v w| ≤ 9 / 8 := by
  simp only [sqLength, dot] at *
  exact abs_le.2 ⟨by nlinarith [sq_nonneg (v.x + w.x), sq_nonneg (v.y + w.y), sq_nonneg (v.z + w.z)], by nlinarith [sq_nonneg (v.x - w.x), sq_nonneg (v.y - w.y), sq_nonneg (v.z - w.z)]⟩

theorem sq_one {a m : ℝ} (hm : |m| ≤ 9 / 8) (h : |a - m| ≤ 2 ^ (-46 : ℤ)) : |a * a - m * m| ≤ 3 * 2 ^ (-46 : ℤ) := by
  rw [show a * a - m * m = (a - m) * (a - m + 2 * m) by ring, abs_mul]
  have : |a - m + 2 * m| ≤ 3 := by
    obtain ⟨c, d⟩ := abs_le.1 h; obtain ⟨f, g⟩ := abs_le.1 hm; norm_num at c d; exact abs_le.2 ⟨by linarith, by linarith⟩
  calc |a - m| * |a - m + 2 * m| ≤ 2 ^ (-46 : ℤ) * 3 := mul_le_mul h this (abs_nonneg _) (by positivity)
    _ = _ := by ring

/-- the incident direction -/
theorem mirror_near {wo wh : V3 ℝ} {s : ℝ} (ho : |sqLength wo - 1| ≤ 1 / 8) (hh : |sqLength wh - 1| ≤ 2 ^ (-48 : ℤ)) (h : |s - dot wo wh| ≤ 2 ^ (-48 : ℤ)) :
    Within (2 ^ (-46 : ℤ)) (mirrorR wo wh s) (mirror wo wh) ∧ |sqLength (mirrorR wo wh s) - sqLength wo| ≤ 2 ^ (-42 : ℤ) := by
  have ex : sqLength (mirror wo wh) = sqLength wo + 4 * dot wo wh ^ 2 * (sqLength wh - 1) := by
    simp only [mirror, sqLength, dot]; show _ = _
    simp; ring
  obtain ⟨o1, o2⟩ := abs_le.1 ho
  obtain ⟨w1, w2⟩ := abs_le.1 hh
  have hw : sqLength wh ≤ 65 / 64 := by norm_num at w2; linarith
  have D := dot_le (show sqLength wo ≤ 9 / 8 by linarith) hw
  have D2 : dot wo wh ^ 2 ≤ 5 / 4 + 1 / 64 := by rw [← sq_abs]; nlinarith [abs_nonneg (dot wo wh)]
  obtain ⟨ox, oy, oz⟩ := comp_le' (v := wo) (b := 9 / 8) (by norm_num; linarith) (by norm_num)
  obtain ⟨hx, hy, hz⟩ := comp_le' (v := wh) (b := 65 / 64) (by norm_num; linarith) (by norm_num)
  have kx := mirror_one ox hx D h
  have ky := mirror_one oy hy D h
  have kz := mirror_one oz hz D h
  have ke : |4 * dot wo wh ^ 2 * (sqLength wh - 1)| ≤ 6 * 2 ^ (-48 : ℤ) := by
    rw [abs_mul, abs_of_nonneg (by positivity)]
    exact mul_le_mul (by linarith) hh (abs_nonneg _) (by norm_num)
  have W : Within (2 ^ (-46 : ℤ)) (mirrorR wo wh s) (mirror wo wh) := by
    refine ⟨?_, ?_, ?_⟩
    · simpa [mirrorR, mirror] using kx
    · simpa [mirrorR, mirror] using ky
    · simpa [mirrorR, mirror] using kz
  refine ⟨W, ?_⟩
  obtain ⟨mx, my, mz⟩ := comp_le' (v := mirror wo wh) (b := 9 / 8) (by
    rw [ex]
    obtain ⟨a, b⟩ := abs_le.1 ke
    norm_num at b ⊢
    linarith) (by norm_num)
  have q1 := sq_one mx W.1
  have q2 := sq_one my W.2.1
  have q3 := sq_one mz W.2.2
  have e1 : sqLength (mirrorR wo wh s) - sqLength wo = ((mirrorR wo wh s).x * (mirrorR wo wh s).x - (mirror wo wh).x * (mirror wo wh).x) + ((mirrorR wo wh s).y * (mirrorR wo wh s).y - (mirror wo wh).y * (mirror wo wh).y) +
      ((mirrorR wo wh s).z * (mirrorR wo wh s).z - (mirror wo wh).z * (mirror wo wh).z) + 4 * dot wo wh ^ 2 * (sqLength wh - 1) := by
    have := ex
    simp only [sqLength] at this ⊢
    linarith
  rw [e1]
  refine ((abs_add_le _ _).trans (add_le_add ((abs_add_le _ _).trans (add_le_add ((abs_add_le _ _).trans (add_le_add q1 q2)) q3)) ke)).trans ?_
  norm_num

/-- a quotient -/
theorem quot_rel {N Q den M a b c : ℝ} (Q0 : 0 ≤ Q) (M0 : 0 < M) (hN : |N - Q| ≤ a * Q + c) (hd : |den - M| ≤ b * M) (hb : b ≤ 1 / 2) :
    0 < den ∧ |N / den - Q / M| ≤ 2 * (a + b) * (Q / M) + 2 * c / M := by
  obtain ⟨d1, d2⟩ := abs_le.1 hd
  have dh : M / 2 ≤ den := by nlinarith
  have d0 : 0 < den := by linarith
  refine ⟨d0, ?_⟩
  have e : N / den - Q / M = ((N - Q) + Q / M * (M - den)) / den := by field_simp; ring
  rw [e, abs_div, abs_of_pos d0, div_le_iff₀ d0]
  have qm : 0 ≤ Q / M := by positivity
  have k : |N - Q + Q / M * (M - den)| ≤ a * Q + c + Q / M * (b * M) := by
    refine (abs_add_le _ _).trans (add_le_add hN ?_)
    rw [abs_mul, abs_of_nonneg qm, abs_sub_comm]
    exact mul_le_mul_of_nonneg_left hd qm
  refine k.trans ?_
  have e2 : a * Q + c + Q / M * (b * M) = (2 * (a + b) * (Q / M) + 2 * c / M) * (M / 2) := by field_simp; ring
  rw [e2]
  have pos : 0 ≤ 2 * (a + b) * (Q / M) + 2 * c / M := by
    have := (abs_nonneg _).trans k
    rw [e2] at this
    exact nonneg_of_mul_nonneg_left this (by linarith)
  exact mul_le_mul_of_nonneg_left dh pos

/-- the numerator of the density -/
theorem num_near {E A P p N : ℝ} (E1 : 1 ≤ E) (E2 : E ≤ 10001) (p0 : 0 ≤ p) (P0 : 0 ≤ P) (hA : |A - E| ≤ 2 ^ (-53 : ℤ) * E) (hP : |P - p| ≤ 2 ^ (-52 : ℤ) * p + 2 ^ (-1074 : ℤ))
    (hN : |N - A * P| ≤ 2 ^ (-53 : ℤ) * |A * P| + 2 ^ (-1075 : ℤ)) (t : (2 : ℝ) ^ (-1075 : ℤ) ≤ 2 ^ (-1074 : ℤ)) (t0 : (0 : ℝ) < 2 ^ (-1074 : ℤ)) :
    |N - E * p| ≤ 2 ^ (-50 : ℤ) * (E * p) + 20000 * 2 ^ (-1074 : ℤ) := by
  generalize (2 : ℝ) ^ (-1074 : ℤ) = η at *
  generalize (2 : ℝ) ^ (-1075 : ℤ) = η' at *
  rw [show (2 : ℝ) ^ (-52 : ℤ) = 2 * 2 ^ (-53 : ℤ) by norm_num] at hP
  rw [show (2 : ℝ) ^ (-50 : ℤ) = 8 * 2 ^ (-53 : ℤ) by norm_num]
  have u0 : (0 : ℝ) < 2 ^ (-53 : ℤ) := by positivity
  have u1 : (2 : ℝ) ^ (-53 : ℤ) ≤ 1 / 1000 := by norm_num
  generalize (2 : ℝ) ^ (-53 : ℤ) = υ at *
  obtain ⟨a1, a2⟩ := abs_le.1 hA
  have A0 : 0 ≤ A := by nlinarith
  have A2 : A ≤ 1001 / 1000 * E := by nlinarith
  have Q0 : 0 ≤ E * p := by positivity
  have v0 : 0 ≤ υ * (E * p) := by positivity
  have k1 : |A * P - E * p| ≤ 7 / 2 * (υ * (E * p)) + 1001 / 1000 * E * η := by
    rw [show A * P - E * p = A * (P - p) + (A - E) * p by ring]
    have b1 : |A * (P - p)| ≤ 1001 / 1000 * E * (2 * υ * p + η) := by
      rw [abs_mul, abs_of_nonneg A0]; exact mul_le_mul A2 hP (abs_nonneg _) (by positivity)
    have b2 : |(A - E) * p| ≤ υ * E * p := by rw [abs_mul, abs_of_nonneg p0]; exact mul_le_mul_of_nonneg_right hA p0
    refine (abs_add_le _ _).trans ((add_le_add b1 b2).trans ?_)
    nlinarith
  have Eη : E * η ≤ 10001 * η := mul_le_mul_of_nonneg_right E2 t0.le
  have k2 : A * P ≤ 2 * (E * p) + 10100 * η := by
    have := (abs_le.1 k1).2
    nlinarith
  rw [abs_of_nonneg (mul_nonneg A0 P0)] at hN
  have k3 : υ * (A * P) ≤ 2 * (υ * (E * p)) + 20 * η := by
    have := mul_le_mul_of_nonneg_left k2 u0.le
    nlinarith
  have tt := abs_sub_le N (A * P) (E * p)
  nlinarith

/-- **C205** the density: never negative, zero where the computed scalar product is not positive, and accurate where the scalar product is not small -/
theorem C205_pdf (hp : Power powR) (e ct s D : ℝ) (e0 : 0 ≤ e) (e1 : e ≤ 10000) (h0 : 0 ≤ ct) (h1 : ct ≤ 1) (hs : |s - D| ≤ 2 ^ (-48 : ℤ)) :
    0 ≤ pdfR powR e ct s ∧ (D ≤ -2 ^ (-48 : ℤ) → pdfR powR e ct s = 0) ∧
      (2 ^ (-30 : ℤ) ≤ D → D ≤ 2 → |pdfR powR e ct s - (e + 1) * ct ^ e / (8 * Real.pi * D)| ≤ 2 ^ (-45 : ℤ) / D * ((e + 1) * ct ^ e / (8 * Real.pi * D)) + 2 ^ (-1000 : ℤ)) := by
  obtain ⟨P1, P2, P3⟩ := npPi_close
  have pw0 := hp.nonneg ct e h0 h1 e0
  have pw := hp.near ct e h0 h1 e0
  have c0 : 0 ≤ ct ^ e := Real.rpow_nonneg h0 _
  have c1 : ct ^ e ≤ 1 := Real.rpow_le_one h0 h1 e0
  have d1 : 0 ≤ double (e + 1) := d_nonneg (by linarith)
  have four : double (double (2 * npPi) * 4) = 8 * npPi := by
    obtain ⟨m, k, hm, hk, he⟩ := isDouble_double Real.pi
    have e1 : double (2 * npPi) = 2 * npPi := double_of_isDouble ⟨m, k + 1, hm, by omega, by
      show 2 * double Real.pi = _
      rw [he, zpow_add₀ two_ne_zero]; ring⟩
    rw [e1]
    have : double (2 * npPi * 4) = 2 * npPi * 4 := double_of_isDouble ⟨m, k + 3, hm, by omega, by
      show 2 * double Real.pi * 4 = _
      rw [he, zpow_add₀ two_ne_zero]; norm_num; ring⟩
    rw [this]; ring
  refine ⟨?_, fun hD => ?_, fun hD hD2 => ?_⟩
  · unfold pdfR
    split_ifs with h
    · exact le_rfl
    · push Not at h
      rw [four]
      exact d_nonneg (div_nonneg (d_nonneg (mul_nonneg d1 pw0)) (d_nonneg (by nlinarith)))
  · unfold pdfR
    rw [if_pos (by have := (abs_le.1 hs).2; linarith)]
  · have D0 : 0 < D := lt_of_lt_of_le (by positivity) hD
    have s30 : D / 2 ≤ s := by
      have := (abs_le.1 hs).1
      norm_num at this hD ⊢
      linarith
    have s0 : 0 < s := by linarith
    have s2 : s ≤ 2 * D := by
      have := (abs_le.1 hs).2
      norm_num at this hD ⊢
      linarith
    unfold pdfR
    rw [if_neg (not_le.2 s0), four]
    have sm : (2 : ℝ) ^ (-1022 : ℤ) ≤ 2 ^ (-31 : ℤ) := zpow_le_zpow_right₀ (by norm_num) (by norm_num)
    -- numerator
    have n1 := double_err_rel (x := e + 1) (by rw [abs_of_pos (by linarith)]; exact sm.trans ((show (2 : ℝ) ^ (-31 : ℤ) ≤ 1 by norm_num).trans (by linarith)))
    rw [abs_of_pos (show 0 < e + 1 by linarith)] at n1
    have n2 := double_err (double (e + 1) * powR ct e)
    have t75 : (2 : ℝ) ^ (-1075 : ℤ) ≤ 2 ^ (-1074 : ℤ) := zpow_le_zpow_right₀ (by norm_num) (by norm_num)
    have t74 : (0 : ℝ) < 2 ^ (-1074 : ℤ) := by positivity
    have hN : |double (double (e + 1) * powR ct e) - (e + 1) * ct ^ e| ≤ 2 ^ (-50 : ℤ) * ((e + 1) * ct ^ e) + 20000 * 2 ^ (-1074 : ℤ) := num_near (by linarith) (by linarith) c0 pw0 n1 pw n2 t75 t74
    -- denominator
    have n3 := double_err_rel (x := 8 * npPi * s) (by rw [abs_of_pos (by positivity)]; norm_num at hD sm ⊢; nlinarith)
    have hd : |double (8 * npPi * s) - 8 * Real.pi * D| ≤ 2 ^ (-47 : ℤ) / D * (8 * Real.pi * D) := by
      rw [show 2 ^ (-47 : ℤ) / D * (8 * Real.pi * D) = 2 ^ (-47 : ℤ) * 8 * Real.pi by field_simp]
      rw [abs_of_pos (show 0 < 8 * npPi * s by positivity)] at n3
      have k : |8 * npPi * s - 8 * Real.pi * D| ≤ 26 * 2 ^ (-48 : ℤ) + 16 * (4 * uu) := by
        rw [show 8 * npPi * s - 8 * Real.pi * D = 8 * npPi * (s - D) + 8 * D * (npPi - Real.pi) by ring]
        refine (abs_add_le _ _).trans (add_le_add ?_ ?_)
        · rw [abs_mul, abs_of_pos (show 0 < 8 * npPi by linarith)]
          exact mul_le_mul (by linarith) hs (abs_nonneg _) (by norm_num)
        · rw [abs_mul, abs_of_pos (show 0 < 8 * D by linarith)]
          exact mul_le_mul (by linarith) P1 (abs_nonneg _) (by norm_num)
      have sx : 8 * npPi * s ≤ 104 := by nlinarith
      have p3 := Real.pi_gt_three
      have t := abs_sub_le (double (8 * npPi * s)) (8 * npPi * s) (8 * Real.pi * D)
      rw [uu_eq] at k
      generalize |double (8 * npPi * s) - 8 * npPi * s| = x at *
      generalize |8 * npPi * s - 8 * Real.pi * D| = y at *
      generalize |double (8 * npPi * s) - 8 * Real.pi * D| = z at *
      generalize 8 * npPi * s = g at *
      clear * - n3 k sx p3 t
      norm_num at *
      linarith
    have b2 : 2 ^ (-47 : ℤ) / D ≤ 2 ^ (-17 : ℤ) := by
      rw [div_le_iff₀ D0]
      have : (2 : ℝ) ^ (-47 : ℤ) = 2 ^ (-17 : ℤ) * 2 ^ (-30 : ℤ) := by norm_num
      rw [this]
      exact mul_le_mul_of_nonneg_left hD (by positivity)
    have Q0 : 0 ≤ (e + 1) * ct ^ e := by positivity
    have M0 : 0 < 8 * Real.pi * D := by have := Real.pi_pos; positivity
    obtain ⟨dp, q⟩ := quot_rel Q0 M0 hN hd (b2.trans (by norm_num))
    have r := double_err (double (double (e + 1) * powR ct e) / double (8 * npPi * s))
    have X0 : 0 ≤ (e + 1) * ct ^ e / (8 * Real.pi * D) := by positivity
    have y0 : 0 ≤ double (double (e + 1) * powR ct e) / double (8 * npPi * s) := div_nonneg (d_nonneg (mul_nonneg d1 pw0)) dp.le
    have cM : 2 * (20000 * 2 ^ (-1074 : ℤ)) / (8 * Real.pi * D) ≤ 2 ^ (-1002 : ℤ) := by
      rw [div_le_iff₀ M0]
      have e1 : (2 : ℝ) ^ (-1074 : ℤ) = 2 ^ (-1002 : ℤ) * 2 ^ (-72 : ℤ) := by rw [← zpow_add₀ two_ne_zero]; norm_num
      rw [e1]
      have p3 := Real.pi_gt_three
      have w : (0 : ℝ) < 2 ^ (-1002 : ℤ) := by positivity
      generalize (2 : ℝ) ^ (-1002 : ℤ) = w at *
      have : 2 * (20000 * (2 : ℝ) ^ (-72 : ℤ)) ≤ 8 * Real.pi * D := by
        clear * - p3 hD D0
        norm_num at *
        nlinarith
      nlinarith
    have β1 : (2 : ℝ) ^ (-48 : ℤ) ≤ 2 ^ (-47 : ℤ) / D := by
      rw [le_div_iff₀ D0]
      have : (2 : ℝ) ^ (-47 : ℤ) = 2 ^ (-48 : ℤ) * 2 := by norm_num
      rw [this]
      exact mul_le_mul_of_nonneg_left hD2 (by positivity)
    have e45 : (2 : ℝ) ^ (-45 : ℤ) / D = 4 * (2 ^ (-47 : ℤ) / D) := by
      rw [show (2 : ℝ) ^ (-45 : ℤ) = 4 * 2 ^ (-47 : ℤ) by norm_num]; ring
    have e1000 : (2 : ℝ) ^ (-1000 : ℤ) = 4 * 2 ^ (-1002 : ℤ) := by
      rw [show (-1000 : ℤ) = 2 + -1002 by norm_num, zpow_add₀ two_ne_zero]; norm_num
    have t02 : (2 : ℝ) ^ (-1075 : ℤ) ≤ 2 ^ (-1002 : ℤ) := zpow_le_zpow_right₀ (by norm_num) (by norm_num)
    have w0 : (0 : ℝ) < 2 ^ (-1002 : ℤ) := by positivity
    rw [e45, e1000]
    rw [abs_of_nonneg y0] at r
    generalize double (double (e + 1) * powR ct e) / double (8 * npPi * s) = y at *
    generalize (e + 1) * ct ^ e / (8 * Real.pi * D) = X at *
    generalize 2 * (20000 * 2 ^ (-1074 : ℤ)) / (8 * Real.pi * D) = c at *
    generalize (2 : ℝ) ^ (-1002 : ℤ) = w at *
    generalize (2 : ℝ) ^ (-1075 : ℤ) = w' at *
    generalize (2 : ℝ) ^ (-47 : ℤ) / D = β at *
    generalize double y = z at *
    clear * - q r X0 y0 cM β1 b2 t02 w0
    have h53 : (2 : ℝ) ^ (-53 : ℤ) ≤ β / 32 := by norm_num at *; linarith
    have h50 : (2 : ℝ) ^ (-50 : ℤ) ≤ β / 4 := by norm_num at *; linarith
    have β0 : 0 < β := lt_of_lt_of_le (by positivity) β1
    have b3 : β ≤ 1 / 100 := b2.trans (by norm_num)
    have u : (0 : ℝ) < 2 ^ (-53 : ℤ) := by positivity
    generalize (2 : ℝ) ^ (-53 : ℤ) = υ at *
    generalize (2 : ℝ) ^ (-50 : ℤ) = φ at *
    have bX : 0 ≤ β * X := mul_nonneg β0.le X0
    have q' : |y - X| ≤ 5 / 2 * (β * X) + w := by
      refine q.trans (add_le_add ?_ cM)
      nlinarith
    have yX : y ≤ 2 * X + w := by
      have := (abs_le.1 q').2
      nlinarith
    have uy : υ * y ≤ 1 / 16 * (β * X) + w := by
      have a1 : υ * y ≤ υ * (2 * X + w) := mul_le_mul_of_nonneg_left yX u.le
      have a2 : υ * X ≤ β / 32 * X := mul_le_mul_of_nonneg_right h53 X0
      have a3 : υ * w ≤ w := by nlinarith
      nlinarith
    have t := abs_sub_le z y X
    nlinarith

/-- **C205** `Blinn.sample_f`: the direction is, up to rounding, the mirror image of `wo` at the half vector of `C205_half` or its opposite, on the side of `wo`; its length is that of `wo`; the density is not
negative and is that of the distribution where the scalar product of `wo` and the half vector is not small -/
theorem C205_sample (hp : Power powR) (ht : Trig cosR sinR) (e : ℝ) (e0 : 0 ≤ e) (e1 : e ≤ 10000) (wo : V3 ℝ) (ho : |sqLength wo - 1| ≤ 1 / 8) (u1 u2 : ℝ) (h0 : 0 ≤ u1) (h1 : u1 ≤ 1) (k0 : 0 ≤ u2) (k1 : u2 ≤ 1)
    (pdf : ℝ) (wi : V3 ℝ) (h : SampleR powR cosR sinR e wo u1 u2 pdf wi) :
    ∃ wh, (wh = halfR powR cosR sinR e u1 u2 ∨ wh = -halfR powR cosR sinR e u1 u2) ∧ (2 ^ (-1074 : ℤ) ≤ |wo.z * wh.z| → 0 < wo.z * wh.z) ∧
      Within (2 ^ (-46 : ℤ)) wi (mirror wo wh) ∧ |sqLength wi - sqLength wo| ≤ 2 ^ (-42 : ℤ) ∧ 0 ≤ pdf ∧ (dot wo wh ≤ -2 ^ (-48 : ℤ) → pdf = 0) ∧
      (2 ^ (-30 : ℤ) ≤ dot wo wh → |pdf - (e + 1) * |wh.z| ^ e / (8 * Real.pi * dot wo wh)| ≤ 2 ^ (-45 : ℤ) / dot wo wh * ((e + 1) * |wh.z| ^ e / (8 * Real.pi * dot wo wh)) + 2 ^ (-1000 : ℤ)) := by
  obtain ⟨s, hs, rfl, rfl⟩ := h
  obtain ⟨nu, z0, -, -⟩ := C205_half hp ht e u1 u2 e0 e1 h0 h1 k0 k1
  obtain ⟨c0, c1, -⟩ := ct_near hp e0 e1 h0 h1
  obtain ⟨cs, sd⟩ := toSide_cases wo (halfR powR cosR sinR e u1 u2)
  have zz : |(toSideR wo (halfR powR cosR sinR e u1 u2)).z| = ctR powR e u1 := by
    have : (halfR powR cosR sinR e u1 u2).z = ctR powR e u1 := rfl
    rcases cs with c | c <;> rw [c]
    · rw [this, abs_of_nonneg c0]
    · show |-(halfR powR cosR sinR e u1 u2).z| = _
      rw [abs_neg, this, abs_of_nonneg c0]
  have un : |sqLength (toSideR wo (halfR powR cosR sinR e u1 u2)) - 1| ≤ 2 ^ (-48 : ℤ) := by
    have e1 : sqLength (toSideR wo (halfR powR cosR sinR e u1 u2)) = sqLength (halfR powR cosR sinR e u1 u2) := by
      rcases cs with c | c <;> rw [c]
      exact neg_sq
    rw [e1]
    have : |(halfR powR cosR sinR e u1 u2).x ^ 2 + (halfR powR cosR sinR e u1 u2).y ^ 2 + (halfR powR cosR sinR e u1 u2).z ^ 2 - 1| ≤ 2 ^ (-48 : ℤ) := nu
    simpa only [sqLength, pow_two] using this
  have az : |wo.z * (toSideR wo (halfR powR cosR sinR e u1 u2)).z| = |wo.z * (halfR powR cosR sinR e u1 u2).z| := by
    rw [abs_mul, abs_mul, zz, abs_of_nonneg z0]; rfl
  generalize toSideR wo (halfR powR cosR sinR e u1 u2) = wh at *
  have w8 : sqLength wh ≤ 65 / 64 := by have := (abs_le.1 un).2; norm_num at this; linarith
  have o8 : sqLength wo ≤ 9 / 8 := by have := (abs_le.1 ho).2; linarith
  have sn := dot_near hs o8 (by linarith)
  obtain ⟨m1, m2⟩ := mirror_near ho un sn
  obtain ⟨p1, p2, p3⟩ := C205_pdf hp e (ctR powR e u1) s (dot wo wh) e0 e1 c0 c1 sn
  refine ⟨wh, cs, fun ht => sd (by rwa [← az]), m1, m2, p1, p2, fun hD => ?_⟩
  rw [zz]
  exact p3 hD ((le_abs_self _).trans ((dot_le o8 w8).trans (by norm_num)))

/-- one of the two quotients in the geometric term -/
theorem geom_one {h w s D : ℝ} (hh : |h| ≤ 9 / 8) (hw : |w| ≤ 9 / 8) (hs : |s - D| ≤ 2 ^ (-48 : ℤ)) (hD : 2 ^ (-30 : ℤ) ≤ |D|) (hD2 : |D| ≤ 2) :
    |min 1 (double (double (double (2 * |h|) * |w|) / |s|)) - min 1 (2 * |h| * |w| / |D|)| ≤ 2 ^ (-44 : ℤ) / |D| := by
  have n1 : |double (2 * |h|) - (2 * |h|)| ≤ 2 ^ (-50 : ℤ) := near8 (by rw [abs_of_nonneg (by positivity)]; linarith)
  have d0 : 0 ≤ double (2 * |h|) := d_nonneg (by positivity)
  have d3 : double (2 * |h|) ≤ 5 / 2 := by have := (abs_le.1 n1).2; norm_num at this; linarith
  have n2 : |double (double (2 * |h|) * |w|) - (double (2 * |h|) * |w|)| ≤ 2 ^ (-50 : ℤ) := near8 (by rw [abs_of_nonneg (by positivity)]; nlinarith [abs_nonneg w])
  have x0 : 0 ≤ double (double (2 * |h|) * |w|) := d_nonneg (by positivity)
  have k : |(double (2 * |h|) * |w|) - (2 * |h| * |w|)| ≤ 2 ^ (-50 : ℤ) * (9 / 8) := by
    rw [← sub_mul, abs_mul, abs_abs]; exact mul_le_mul n1 hw (abs_nonneg _) (by positivity)
  have xX : |double (double (2 * |h|) * |w|) - (2 * |h| * |w|)| ≤ 2 ^ (-48 : ℤ) := by
    refine (abs_sub_le _ (double (2 * |h|) * |w|) _).trans ((add_le_add n2 k).trans ?_)
    norm_num
  have X0 : 0 ≤ 2 * |h| * |w| := by positivity
  have sD : |(|s| - |D|)| ≤ 2 ^ (-48 : ℤ) := (abs_abs_sub_abs_le_abs_sub s D).trans hs
  generalize double (double (2 * |h|) * |w|) = x at *
  generalize 2 * |h| * |w| = X at *
  generalize |s| = σ at *
  generalize |D| = Δ at *
  clear * - xX X0 x0 sD hD hD2
  have D0 : 0 < Δ := lt_of_lt_of_le (by positivity) hD
  have β0 : (0 : ℝ) < 2 ^ (-48 : ℤ) / Δ := by positivity
  have hd : |σ - Δ| ≤ 2 ^ (-48 : ℤ) / Δ * Δ := by rwa [div_mul_cancel₀ _ D0.ne']
  have b2 : 2 ^ (-48 : ℤ) / Δ ≤ 2 ^ (-18 : ℤ) := by
    rw [div_le_iff₀ D0, show (2 : ℝ) ^ (-48 : ℤ) = 2 ^ (-18 : ℤ) * 2 ^ (-30 : ℤ) by norm_num]
    exact mul_le_mul_of_nonneg_left hD (by positivity)
  obtain ⟨σ0, q⟩ := quot_rel (a := 0) (b := 2 ^ (-48 : ℤ) / Δ) (c := 2 ^ (-48 : ℤ)) X0 D0 (by simpa using xX) hd (b2.trans (by norm_num))
  have y0 : 0 ≤ x / σ := div_nonneg x0 σ0.le
  have r := double_err (x / σ)
  have t := tiny
  rw [abs_of_nonneg y0] at r
  have β1 : (2 : ℝ) ^ (-49 : ℤ) ≤ 2 ^ (-48 : ℤ) / Δ := by
    rw [le_div_iff₀ D0, show (2 : ℝ) ^ (-48 : ℤ) = 2 ^ (-49 : ℤ) * 2 by norm_num]
    exact mul_le_mul_of_nonneg_left hD2 (by positivity)
  rw [show 2 * (2 : ℝ) ^ (-48 : ℤ) / Δ = 2 * (2 ^ (-48 : ℤ) / Δ) by ring] at q
  rw [show (2 : ℝ) ^ (-44 : ℤ) / Δ = 16 * (2 ^ (-48 : ℤ) / Δ) by rw [show (2 : ℝ) ^ (-44 : ℤ) = 16 * 2 ^ (-48 : ℤ) by norm_num]; ring]
  generalize hb : X / Δ = b at *
  have b0 : 0 ≤ b := by rw [← hb]; positivity
  generalize (2 : ℝ) ^ (-48 : ℤ) / Δ = β at *
  generalize (2 : ℝ) ^ (-1075 : ℤ) = η at *
  rw [zero_add] at q
  rcases le_or_gt b 2 with hb2 | hb2
  · refine (abs_min_sub_min_le_max 1 _ 1 _).trans ?_
    rw [sub_self, abs_zero, max_eq_right (abs_nonneg _)]
    have q' : |x / σ - b| ≤ 6 * β := q.trans (by nlinarith)
    have tt := abs_sub_le (double (x / σ)) (x / σ) b
    have yb := (abs_le.1 q').2
    generalize x / σ = y at *
    generalize double y = z at *
    clear * - tt r t q' yb β1 hb2 b2 y0
    norm_num at *
    linarith
  · have y1 : 1 ≤ x / σ := by
      have := (abs_le.1 q).1
      have b3 : β ≤ 1 / 100 := b2.trans (by norm_num)
      nlinarith
    have z1 : 1 ≤ double (x / σ) := by have := double_mono y1; rwa [d_one] at this
    rw [min_eq_left z1, min_eq_left (by linarith)]
    simp; exact β0.le

/-- **C205** the geometric term is between 0 and 1, and accurate where the scalar product is not small -/
theorem C205_geometric (wo wi wh : V3 ℝ) (ho : |sqLength wo - 1| ≤ 1 / 8) (hi : |sqLength wi - 1| ≤ 1 / 8) (hh : |sqLength wh - 1| ≤ 2 ^ (-46 : ℤ)) (s : ℝ) (hs : DotR wo.get wh.get [0, 1, 2] s) :
    0 ≤ geomR wo wi wh s ∧ geomR wo wi wh s ≤ 1 ∧ (2 ^ (-30 : ℤ) ≤ |dot wo wh| → |geomR wo wi wh s - geomTerm wo wi wh| ≤ 2 ^ (-44 : ℤ) / |dot wo wh|) := by
  refine ⟨?_, min_le_left _ _, fun hD => ?_⟩
  · refine le_min zero_le_one (le_min ?_ ?_)
    · exact d_nonneg (div_nonneg (d_nonneg (mul_nonneg (d_nonneg (by positivity)) (abs_nonneg _))) (abs_nonneg _))
    · exact d_nonneg (div_nonneg (d_nonneg (mul_nonneg (d_nonneg (by positivity)) (abs_nonneg _))) (abs_nonneg _))
  · have o8 : sqLength wo ≤ 9 / 8 := by have := (abs_le.1 ho).2; linarith
    have i8 : sqLength wi ≤ 9 / 8 := by have := (abs_le.1 hi).2; linarith
    have w8 : sqLength wh ≤ 65 / 64 := by have := (abs_le.1 hh).2; norm_num at this; linarith
    have sn := dot_near hs o8 (by linarith)
    have oz := (comp_le' (v := wo) (b := 9 / 8) (by norm_num; linarith) (by norm_num)).2.2
    have iz := (comp_le' (v := wi) (b := 9 / 8) (by norm_num; linarith) (by norm_num)).2.2
    have hz := (comp_le' (v := wh) (b := 9 / 8) (by norm_num; linarith) (by norm_num)).2.2
    have D2 := (dot_le o8 w8).trans (show (9 / 8 : ℝ) ≤ 2 by norm_num)
    have sp : ∀ a b : ℝ, min 1 (min a b) = min (min 1 a) (min 1 b) := fun a b => by rw [min_min_min_comm, min_self]
    have e : geomTerm wo wi wh = min (min 1 (2 * |wh.z| * |wo.z| / |dot wo wh|)) (min 1 (2 * |wh.z| * |wi.z| / |dot wo wh|)) := by rw [← sp]; rfl
    rw [e, geomR, sp]
    exact (abs_min_sub_min_le_max _ _ _ _).trans (max_le (geom_one hz oz sn hD D2) (geom_one hz iz sn hD D2))

/-! ### Concrete case -/

/-- the exact power is one, and so is any that is accurate -/
theorem exact_power : Power fun x y => x ^ y :=
  ⟨fun _ y h _ _ => Real.rpow_nonneg h y, fun _ _ h h1 hy => Real.rpow_le_one h h1 hy, fun x y h _ _ => by
    have := Real.rpow_nonneg h y
    simp only [sub_self, abs_zero]; positivity⟩

theorem exact_trig : Trig Real.cos Real.sin := ⟨Real.abs_cos_le_one, Real.abs_sin_le_one, fun x => by simp, fun x => by simp⟩

/-- a sample with a positive scalar product: a vertical `wo` and `u1 = 1` -/
example : ∃ pdf wi, SampleR (fun x y => x ^ y) Real.cos Real.sin 5 ⟨0, 0, 1⟩ 1 0 pdf wi ∧ dot ⟨0, 0, 1⟩ (toSideR ⟨0, 0, 1⟩ (halfR (fun x y => x ^ y) Real.cos Real.sin 5 1 0)) = 1 ∧ 0 < pdf := by
  have hz : (halfR (fun x y => x ^ y) Real.cos Real.sin 5 1 0).z = 1 := by simp [halfR, ctR]
  have ts : toSideR ⟨0, 0, 1⟩ (halfR (fun x y => x ^ y) Real.cos Real.sin 5 1 0) = halfR (fun x y => x ^ y) Real.cos Real.sin 5 1 0 := by
    unfold toSideR
    rw [hz, if_neg]
    simp [d_one]
  obtain ⟨s, hs⟩ := DotR.total (⟨0, 0, 1⟩ : V3 ℝ).get (toSideR ⟨0, 0, 1⟩ (halfR (fun x y => x ^ y) Real.cos Real.sin 5 1 0)).get [0, 1, 2]
  have d1 : dot ⟨0, 0, 1⟩ (toSideR ⟨0, 0, 1⟩ (halfR (fun x y => x ^ y) Real.cos Real.sin 5 1 0)) = 1 := by rw [ts]; simp [dot, hz]
  have nu := (C205_half exact_power exact_trig 5 1 0 (by norm_num) (by norm_num) zero_le_one le_rfl le_rfl zero_le_one).1
  refine ⟨_, _, ⟨s, hs, rfl, rfl⟩, d1, ?_⟩
  have sn := dot_near hs (by norm_num [sqLength]) (by
    rw [ts]
    have := (abs_le.1 nu).2
    simp only [sqLength]
    norm_num at this
    nlinarith)
  rw [d1] at sn
  have p := (C205_pdf exact_power 5 1 s 1 (by norm_num) (by norm_num) zero_le_one le_rfl sn).2.2 (by norm_num) (by norm_num)
  have c : ctR (fun x y => x ^ y) 5 1 = 1 := by simp [ctR]
  rw [c]
  have t : (2 : ℝ) ^ (-1000 : ℤ) ≤ 2 ^ (-10 : ℤ) := zpow_le_zpow_right₀ (by norm_num) (by norm_num)
  generalize (2 : ℝ) ^ (-1000 : ℤ) = η at *
  have X : 1 / 10 ≤ (5 + 1 : ℝ) * 1 ^ (5 : ℝ) / (8 * Real.pi * 1) := by
    rw [Real.one_rpow, div_le_div_iff₀ (by norm_num) (by have := Real.pi_pos; positivity)]
    nlinarith [Real.pi_lt_four]
  generalize (5 + 1 : ℝ) * 1 ^ (5 : ℝ) / (8 * Real.pi * 1) = x at *
  have := (abs_le.1 p).1
  norm_num at *
  linarith

end Verif.BlinnR
