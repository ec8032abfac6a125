import Verif.Reflection.Diffuse
import Mathlib.Analysis.SpecialFunctions.Exp

/-!
# Measured reflection (`pytracer/reflection/utility.py:76-90`, `pytracer/reflection/bdf/measured.py`)

Real arithmetic; a spectrum is represented by one of its samples.
-/

namespace Verif.Refl
open Verif V3 Verif.Geom Real

/-- `brdf_remap` (`reflection/utility.py:76-90`) -/
noncomputable def remap (wo wi : V3 ℝ) : V3 ℝ :=
  let d0 := sphericalPhi wi - sphericalPhi wo
  let d1 := if d0 < 0 then d0 + 2 * π else d0
  let d2 := if d1 > 2 * π then d1 - 2 * π else d1
  let d3 := if d2 > π then 2 * π - d2 else d2
  ⟨sinTheta wi * sinTheta wo, d3 * MC.invPi, cosTheta wi * cosTheta wo⟩

theorem sphericalPhi_range (v : V3 ℝ) : 0 < sphericalPhi v ∧ sphericalPhi v ≤ 2 * π := by
  have h := Complex.arg_mem_Ioc ⟨v.x, v.y⟩
  have hpi := Real.pi_pos
  unfold sphericalPhi
  simp only []
  split_ifs with hp
  · exact ⟨hp, by linarith [h.2]⟩
  · exact ⟨by linarith [h.1], by linarith⟩

/-- the smaller of the two angles between two azimuths in `(0, 2π]` -/
noncomputable def azimuthGap (a b : ℝ) : ℝ := min |a - b| (2 * π - |a - b|)

/-- The mapped coordinates: product of the sines, angle between the azimuths as a fraction of `π`, product of the
cosines; the middle one is always in `[0,1]`. -/
theorem C85_remap (wo wi : V3 ℝ) :
    (remap wo wi).x = sinTheta wi * sinTheta wo ∧ (remap wo wi).z = wi.z * wo.z ∧
    (remap wo wi).y = azimuthGap (sphericalPhi wi) (sphericalPhi wo) / π ∧ 0 ≤ (remap wo wi).y ∧ (remap wo wi).y ≤ 1 := by
  have hpi := Real.pi_pos
  obtain ⟨a0, a1⟩ := sphericalPhi_range wi
  obtain ⟨b0, b1⟩ := sphericalPhi_range wo
  have key : (remap wo wi).y = azimuthGap (sphericalPhi wi) (sphericalPhi wo) / π := by
    unfold remap azimuthGap
    simp only [MC.invPi]
    generalize sphericalPhi wi = a at *
    generalize sphericalPhi wo = b at *
    rw [mul_one_div]
    congr 1
    by_cases h : a - b < 0
    · rw [if_pos h, abs_of_neg h, if_neg (show ¬ (a - b + 2 * π > 2 * π) by linarith)]
      split_ifs with h2
      · rw [min_eq_left (by linarith)]; ring
      · rw [min_eq_right (by linarith)]; ring
    · rw [if_neg h, abs_of_nonneg (not_lt.mp h), if_neg (show ¬ (a - b > 2 * π) by linarith)]
      split_ifs with h2
      · rw [min_eq_right (by linarith)]
      · rw [min_eq_left (by linarith)]
  refine ⟨rfl, rfl, key, ?_, ?_⟩ <;> rw [key] <;> unfold azimuthGap
  · apply div_nonneg _ hpi.le
    apply le_min (abs_nonneg _)
    have : |sphericalPhi wi - sphericalPhi wo| ≤ 2 * π := abs_le.mpr ⟨by linarith, by linarith⟩
    linarith
  · rw [div_le_one hpi]
    rcases le_total |sphericalPhi wi - sphericalPhi wo| π with h | h
    · exact (min_le_left _ _).trans h
    · exact (min_le_right _ _).trans (by linarith)

/-- Reciprocity of the mapping, hence of every table looked up through it. -/
theorem C85_reciprocal (wo wi : V3 ℝ) : remap wo wi = remap wi wo := by
  obtain ⟨x1, z1, y1, _⟩ := C85_remap wo wi
  obtain ⟨x2, z2, y2, _⟩ := C85_remap wi wo
  ext
  · rw [x1, x2]; ring
  · rw [y1, y2]; unfold azimuthGap; rw [abs_sub_comm]
  · rw [z1, z2]; ring

/-! ## Irregular isotropic tables -/

/-- an `IrIsotropicBRDFSample` (`measured.py:23-36`) -/
structure IrSample where
  p : V3 ℝ
  v : ℝ

open Classical in
/-- `self.data[self.tree.query_ball_point(m, r)]` (`measured.py:55, 59`): the samples within distance `r` (inclusive). -/
noncomputable def ball (data : List IrSample) (m : V3 ℝ) (r : ℝ) : List IrSample :=
  data.filter (fun s => √(sqDist s.p m) ≤ r)

/-- the weight of a sample (`measured.py:60`) -/
noncomputable def irWeight (m : V3 ℝ) (s : IrSample) : ℝ := exp (sqLength (s.p - m) * -100)

/-- the search radius after `k` enlargements (`measured.py:53, 66`) -/
noncomputable def irRadius (k : ℕ) : ℝ := (1 / 100) * (1414 / 1000) ^ k

/-- the weighted mean returned (`measured.py:57-64`); `none` if no sample was found (0/0). -/
noncomputable def irMean (m : V3 ℝ) (l : List IrSample) : Option ℝ :=
  let acc := l.foldl (fun (a : ℝ × ℝ) s => (a.1 + irWeight m s, a.2 + s.v * irWeight m s)) (0, 0)
  if acc.1 = 0 then none else some (max 0 acc.2 / acc.1)

/-- `IrIsotropicBRDF.f` (`measured.py:51-66`) from the `k`-th pass of its loop on. -/
inductive IrRun (data : List IrSample) (m : V3 ℝ) : ℕ → Option ℝ → Prop
  | stop (k : ℕ) (h : (ball data m (irRadius k)).length > 2 ∨ irRadius k > 3 / 2) : IrRun data m k (irMean m (ball data m (irRadius k)))
  | loop (k : ℕ) (r : Option ℝ) (h : ¬ ((ball data m (irRadius k)).length > 2 ∨ irRadius k > 3 / 2)) (t : IrRun data m (k + 1) r) : IrRun data m k r

theorem irRadius_15 : irRadius 15 > 3 / 2 := by unfold irRadius; norm_num

theorem irRun_exists (data : List IrSample) (m : V3 ℝ) (n : ℕ) : ∀ k, k + n = 15 → ∃ j, k ≤ j ∧ j ≤ 15 ∧
    ((ball data m (irRadius j)).length > 2 ∨ irRadius j > 3 / 2) ∧
    (∀ i, k ≤ i → i < j → ¬ ((ball data m (irRadius i)).length > 2 ∨ irRadius i > 3 / 2)) ∧
    (∀ r, IrRun data m k r ↔ r = irMean m (ball data m (irRadius j))) := by
  have stopCase : ∀ k, ((ball data m (irRadius k)).length > 2 ∨ irRadius k > 3 / 2) →
      (∀ r, IrRun data m k r ↔ r = irMean m (ball data m (irRadius k))) := by
    intro k h r
    constructor
    · rintro (⟨_, _⟩ | ⟨_, _, hn, _⟩)
      · rfl
      · exact absurd h hn
    · rintro rfl; exact IrRun.stop k h
  induction n with
  | zero =>
    intro k hk
    have : k = 15 := by omega
    subst this
    exact ⟨15, le_rfl, le_rfl, Or.inr irRadius_15, fun i h1 h2 => by omega, stopCase 15 (Or.inr irRadius_15)⟩
  | succ n ih =>
    intro k hk
    by_cases h : (ball data m (irRadius k)).length > 2 ∨ irRadius k > 3 / 2
    · exact ⟨k, le_rfl, by omega, h, fun i h1 h2 => by omega, stopCase k h⟩
    · obtain ⟨j, h1, h2, h3, h4, h5⟩ := ih (k + 1) (by omega)
      refine ⟨j, by omega, h2, h3, fun i hi1 hi2 => ?_, fun r => ?_⟩
      · rcases Nat.eq_or_lt_of_le hi1 with rfl | hlt
        · exact h
        · exact h4 i hlt hi2
      · rw [← h5]
        constructor
        · rintro (⟨_, hs⟩ | ⟨_, _, _, t⟩)
          · exact absurd hs h
          · exact t
        · exact fun t => IrRun.loop k r h t

/-- The search always ends, after at most fifteen enlargements, with the first radius at which three samples are found
or the limit is passed, and its result is determined. -/
theorem C86_terminates (data : List IrSample) (m : V3 ℝ) : ∃ j, j ≤ 15 ∧
    ((ball data m (irRadius j)).length > 2 ∨ irRadius j > 3 / 2) ∧
    (∀ i, i < j → ¬ ((ball data m (irRadius i)).length > 2 ∨ irRadius i > 3 / 2)) ∧
    (∀ r, IrRun data m 0 r ↔ r = irMean m (ball data m (irRadius j))) := by
  obtain ⟨j, _, h2, h3, h4, h5⟩ := irRun_exists data m 15 0 rfl
  exact ⟨j, h2, h3, fun i hi => h4 i (Nat.zero_le _) hi, h5⟩

theorem irFold (m : V3 ℝ) (l : List IrSample) (a : ℝ × ℝ) :
    l.foldl (fun (a : ℝ × ℝ) s => (a.1 + irWeight m s, a.2 + s.v * irWeight m s)) a =
      (a.1 + (l.map (irWeight m)).sum, a.2 + (l.map (fun s => s.v * irWeight m s)).sum) := by
  induction l generalizing a with
  | nil => simp
  | cons s ds ih => rw [List.foldl_cons, ih]; simp [add_assoc]

/-- If all samples lie in `[lo, hi]` with `lo ≥ 0` and at least one sample is within the last radius, the value
returned lies in `[lo, hi]`; if there is none, there is no value (0/0 in the code). -/
theorem C86_mean (data : List IrSample) (m : V3 ℝ) (lo hi : ℝ) (h0 : 0 ≤ lo) (hd : ∀ s ∈ data, lo ≤ s.v ∧ s.v ≤ hi)
    (r : Option ℝ) (hr : IrRun data m 0 r) :
    (∀ x, r = some x → lo ≤ x ∧ x ≤ hi) ∧ (r = none ↔ ∀ s ∈ data, ¬ √(sqDist s.p m) ≤ irRadius 15) := by
  obtain ⟨j, hj15, hstop, _, hiff⟩ := C86_terminates data m
  have e := (hiff r).mp hr
  set l := ball data m (irRadius j) with hl
  have hmem : ∀ s ∈ l, lo ≤ s.v ∧ s.v ≤ hi := fun s hs => hd s (List.mem_of_mem_filter hs)
  have hw : ∀ s, 0 < irWeight m s := fun s => Real.exp_pos _
  have hsum : ∀ (l : List IrSample), (∀ s ∈ l, lo ≤ s.v ∧ s.v ≤ hi) →
      lo * (l.map (irWeight m)).sum ≤ (l.map (fun s => s.v * irWeight m s)).sum ∧
      (l.map (fun s => s.v * irWeight m s)).sum ≤ hi * (l.map (irWeight m)).sum ∧ 0 ≤ (l.map (irWeight m)).sum ∧
      ((l.map (irWeight m)).sum = 0 ↔ l = []) := by
    intro l
    induction l with
    | nil => intro _; simp
    | cons s ds ih =>
      intro h
      obtain ⟨i1, i2, i3, _⟩ := ih (fun s hs => h s (by simp [hs]))
      obtain ⟨s1, s2⟩ := h s (by simp)
      have := hw s
      simp only [List.map_cons, List.sum_cons]
      refine ⟨by nlinarith, by nlinarith, by linarith, ⟨fun h => by linarith, fun h => nomatch h⟩⟩
  obtain ⟨s1, s2, s3, s4⟩ := hsum l hmem
  rw [e]
  unfold irMean
  rw [irFold]
  simp only [zero_add]
  constructor
  · intro x hx
    split_ifs at hx with hz
    have hpos : 0 < (l.map (irWeight m)).sum := lt_of_le_of_ne s3 (Ne.symm hz)
    simp only [Option.some.injEq] at hx
    rw [← hx, le_div_iff₀ hpos, div_le_iff₀ hpos]
    have hnn : 0 ≤ (l.map (fun s => s.v * irWeight m s)).sum := le_trans (mul_nonneg h0 s3) s1
    rw [max_eq_right hnn]
    exact ⟨s1, s2⟩
  · have hj : l = [] ↔ ∀ s ∈ data, ¬ √(sqDist s.p m) ≤ irRadius j := by
      rw [hl, ball, List.filter_eq_nil_iff]
      simp
    have hle : irRadius j ≤ irRadius 15 := by
      unfold irRadius
      have := pow_le_pow_right₀ (show (1 : ℝ) ≤ 1414 / 1000 by norm_num) hj15
      linarith
    have h15 : l = [] → j = 15 := by
      intro hnil
      have hr := hstop.resolve_left (by rw [hnil]; simp)
      by_contra hne
      have hlt : j ≤ 14 := by omega
      have : irRadius j ≤ irRadius 14 := by
        unfold irRadius
        have := pow_le_pow_right₀ (show (1 : ℝ) ≤ 1414 / 1000 by norm_num) hlt
        linarith
      have h14 : irRadius 14 ≤ 3 / 2 := by unfold irRadius; norm_num
      linarith
    constructor
    · intro h
      split_ifs at h with hz
      have hnil := s4.mp hz
      have := hj.mp hnil
      rw [h15 hnil] at this
      exact this
    · intro h
      have hnil : l = [] := hj.mpr (fun s hs hle' => h s hs (hle'.trans hle))
      rw [if_pos (s4.mpr hnil)]

/-- the weight of a sample at distance `r`: a Gaussian -/
noncomputable def gauss (r : ℝ) : ℝ := exp (-100 * r ^ 2)

/-- The value is the mean of the samples within the last radius, weighted with a Gaussian of their distance (and never negative). -/
theorem C86_weights (data : List IrSample) (m : V3 ℝ) : ∃ j, j ≤ 15 ∧ ((ball data m (irRadius j)).length > 2 ∨ irRadius j > 3 / 2) ∧
    (∀ i, i < j → ¬ ((ball data m (irRadius i)).length > 2 ∨ irRadius i > 3 / 2)) ∧
    ∀ x, IrRun data m 0 (some x) →
      x = max 0 (((ball data m (irRadius j)).map (fun s => gauss (Geom.length (s.p - m)) * s.v)).sum) / ((ball data m (irRadius j)).map (fun s => gauss (Geom.length (s.p - m)))).sum := by
  obtain ⟨j, h1, h2, h3, h4⟩ := C86_terminates data m
  refine ⟨j, h1, h2, h3, fun x hx => ?_⟩
  have e := (h4 _).1 hx
  have hw : ∀ s, irWeight m s = gauss (Geom.length (s.p - m)) := fun s => by
    unfold irWeight gauss Geom.length
    rw [Real.sq_sqrt (by unfold sqLength; nlinarith [mul_self_nonneg (s.p - m).x, mul_self_nonneg (s.p - m).y, mul_self_nonneg (s.p - m).z])]
    ring_nf
  unfold irMean at e
  rw [irFold] at e
  simp only [zero_add] at e
  split_ifs at e with hz
  have e := Option.some.inj e
  rw [e]
  have hw' : irWeight m = fun s => gauss (Geom.length (s.p - m)) := funext hw
  simp only [hw', mul_comm]

/-- three samples around the point: the value is between their bounds -/
example : ∃ data : List IrSample, data.length = 3 ∧ (∀ s ∈ data, (1 : ℝ) ≤ s.v ∧ s.v ≤ 3) := by
  refine ⟨[⟨⟨0, 0, 0⟩, 1⟩, ⟨⟨1, 0, 0⟩, 2⟩, ⟨⟨0, 1, 0⟩, 3⟩], rfl, ?_⟩
  intro s hs
  simp only [List.mem_cons, List.not_mem_nil, or_false] at hs
  rcases hs with rfl | rfl | rfl <;> norm_num

/-! ## Regular half-angle tables -/

/-- `np.clip(INT(x), 0, n - 1)`; `INT` truncates towards zero. -/
noncomputable def tabIndex (x : ℝ) (n : ℤ) : ℤ := min (max (if 0 ≤ x then ⌊x⌋ else ⌈x⌉) 0) (n - 1)

/-- the direction `wi` in half-angle coordinates and the half vector (`measured.py:85-97`) -/
noncomputable def halfCoords (wo wi : V3 ℝ) : V3 ℝ × V3 ℝ :=
  let wh := Geom.normalize (wi + wo)
  let cp := cosPhi wh
  let sp := sinPhi wh
  let ct := cosTheta wh
  let st := sinTheta wh
  let x : V3 ℝ := ⟨cp * ct, sp * ct, -st⟩
  let y : V3 ℝ := ⟨-sp, cp, 0⟩
  (wh, ⟨dot wi x, dot wi y, dot wi wh⟩)

/-- the three table indices computed by `ReHalfangleBRDF.f` (`measured.py:99-107`) -/
noncomputable def halfIndices (nth ntd npd : ℤ) (wo wi : V3 ℝ) : ℤ × ℤ × ℤ :=
  let t := sphericalTheta (halfCoords wo wi).1
  let wdt := sphericalTheta (halfCoords wo wi).2
  let wdp0 := sphericalPhi (halfCoords wo wi).2
  let wdp := if wdp0 > π then wdp0 - π else wdp0
  (tabIndex (√(max 0 (t / (π / 2))) / nth) nth, tabIndex (wdt / (ntd * π)) ntd, tabIndex (wdp / (npd * π)) npd)

/-- The half-angle coordinates of `wi` are its coordinates in a right-handed orthonormal frame whose third axis is the half vector, a unit vector halfway between the directions, and
whose second axis is horizontal; they are the coordinates of a unit vector. -/
theorem C87_half_frame (wo wi : V3 ℝ) (ho : sqLength wo = 1) (hi : sqLength wi = 1) (hne : wi + wo ≠ 0) :
    ∃ X Y : V3 ℝ, Orthonormal3 X Y (halfCoords wo wi).1 ∧ cross X Y = (halfCoords wo wi).1 ∧ Y.z = 0 ∧ X.z ≤ 0 ∧
      (halfCoords wo wi).2 = ⟨dot wi X, dot wi Y, dot wi (halfCoords wo wi).1⟩ ∧ (halfCoords wo wi).1 = Geom.normalize (wi + wo) ∧
      dot wi (halfCoords wo wi).1 = dot wo (halfCoords wo wi).1 ∧ sqLength (halfCoords wo wi).2 = 1 := by
  obtain ⟨n1, n2, n3⟩ := (C06_normalize _).1 hne
  have hdd : dot wi (Geom.normalize (wi + wo)) = dot wo (Geom.normalize (wi + wo)) := by
    have h : Geom.length (wi + wo) * (dot wi (Geom.normalize (wi + wo)) - dot wo (Geom.normalize (wi + wo))) = 0 := by
      have e : Geom.length (wi + wo) * (dot wi (Geom.normalize (wi + wo)) - dot wo (Geom.normalize (wi + wo)))
          = dot (wi - wo) (Geom.length (wi + wo) * Geom.normalize (wi + wo)) := by
        simp [dot]; ring
      rw [e, n2]
      unfold sqLength at ho hi
      simp only [dot, sub_x, sub_y, sub_z, add_x, add_y, add_z]
      linarith
    exact sub_eq_zero.1 ((mul_eq_zero.1 h).resolve_left n3.ne')
  have hw1 : sqLength (Geom.normalize (wi + wo)) = 1 := by
    have := Real.sq_sqrt (show 0 ≤ sqLength (Geom.normalize (wi + wo)) by unfold sqLength; nlinarith [mul_self_nonneg (Geom.normalize (wi + wo)).x, mul_self_nonneg (Geom.normalize (wi + wo)).y, mul_self_nonneg (Geom.normalize (wi + wo)).z])
    unfold Geom.length at n1
    rw [n1] at this; linarith
  simp only [halfCoords]
  generalize Geom.normalize (wi + wo) = wh at *
  -- the azimuth of the half vector
  have hst : sinTheta wh ^ 2 = 1 - wh.z ^ 2 ∧ 0 ≤ sinTheta wh := by
    refine ⟨?_, Real.sqrt_nonneg _⟩
    have h0 : 0 ≤ 1 - wh.z * wh.z := by unfold sqLength at hw1; nlinarith [mul_self_nonneg wh.x, mul_self_nonneg wh.y]
    unfold sinTheta
    rw [max_eq_right h0, Real.sq_sqrt h0]; ring
  have hphi : cosPhi wh ^ 2 + sinPhi wh ^ 2 = 1 ∧ wh.x = sinTheta wh * cosPhi wh ∧ wh.y = sinTheta wh * sinPhi wh := by
    have h0 : 0 ≤ 1 - wh.z * wh.z := by unfold sqLength at hw1; nlinarith [mul_self_nonneg wh.x, mul_self_nonneg wh.y]
    have hxy : wh.x * wh.x + wh.y * wh.y = 1 - wh.z * wh.z := by unfold sqLength at hw1; linarith
    unfold cosPhi sinPhi sinTheta
    rw [max_eq_right h0]
    by_cases hz : 1 - wh.z * wh.z = 0
    · have hx : wh.x = 0 := by nlinarith [mul_self_nonneg wh.x, mul_self_nonneg wh.y]
      have hy : wh.y = 0 := by nlinarith [mul_self_nonneg wh.x, mul_self_nonneg wh.y]
      rw [if_pos hz, if_pos hz, hz]; simp [hx, hy]
    · have hp : 0 < 1 - wh.z * wh.z := lt_of_le_of_ne h0 (Ne.symm hz)
      have hs := Real.sqrt_pos.2 hp
      have hs2 := Real.mul_self_sqrt h0
      generalize √(1 - wh.z * wh.z) = s at *
      have bx : -1 ≤ wh.x / s ∧ wh.x / s ≤ 1 := by
        rw [le_div_iff₀ hs, div_le_one hs]
        constructor <;> nlinarith [mul_self_nonneg wh.y]
      have bY : -1 ≤ wh.y / s ∧ wh.y / s ≤ 1 := by
        rw [le_div_iff₀ hs, div_le_one hs]
        constructor <;> nlinarith [mul_self_nonneg wh.x]
      rw [if_neg hz, if_neg hz, clip1_of_mem bx.1 bx.2, clip1_of_mem bY.1 bY.2]
      refine ⟨?_, by field_simp, by field_simp⟩
      field_simp
      nlinarith
  obtain ⟨p1, px, py⟩ := hphi
  obtain ⟨t1, t0⟩ := hst
  have hcz : cosTheta wh = wh.z := rfl
  rw [hcz]
  generalize cosPhi wh = cp at *
  generalize sinPhi wh = sp at *
  generalize sinTheta wh = st at *
  obtain ⟨x, y, z⟩ := wh
  simp only at *
  subst px py
  have sq1 : ∀ v : V3 ℝ, sqLength v = 1 → Geom.length v = 1 := fun v h => by rw [Geom.length, h, Real.sqrt_one]
  have o1 : sqLength (⟨cp * z, sp * z, -st⟩ : V3 ℝ) = 1 := by simp only [sqLength]; linear_combination z ^ 2 * p1 + t1
  have o2 : sqLength (⟨-sp, cp, 0⟩ : V3 ℝ) = 1 := by simp only [sqLength]; linear_combination p1
  refine ⟨⟨cp * z, sp * z, -st⟩, ⟨-sp, cp, 0⟩, ⟨sq1 _ o1, sq1 _ o2, n1, ?_, ?_, ?_⟩, ?_, rfl, by simpa using t0, rfl, trivial, hdd, ?_⟩
  · simp only [dot]; ring
  · simp only [dot]; linear_combination (st * z) * p1
  · simp only [dot]; ring
  · ext
    · simp only [cross]; ring
    · simp only [cross]; ring
    · simp only [cross]; linear_combination z * p1
  · have e : ∀ v : V3 ℝ, dot v ⟨cp * z, sp * z, -st⟩ ^ 2 + dot v ⟨-sp, cp, 0⟩ ^ 2 + dot v ⟨st * cp, st * sp, z⟩ ^ 2 = sqLength v := by
      intro v
      simp only [dot, sqLength]
      have hs2 : st ^ 2 = 1 - z ^ 2 := t1
      have hc2 : cp ^ 2 = 1 - sp ^ 2 := by linarith
      ring_nf
      simp only [hs2, hc2]
      ring
    rw [← hi, ← e wi]
    simp only [sqLength]; ring

theorem tabIndex_range (x : ℝ) (n : ℤ) (hn : 1 ≤ n) : 0 ≤ tabIndex x n ∧ tabIndex x n < n := by
  unfold tabIndex; omega

/-- The lookup never leaves the table, for any two vectors. -/
theorem C87_in_range (nth ntd npd : ℤ) (h1 : 1 ≤ nth) (h2 : 1 ≤ ntd) (h3 : 1 ≤ npd) (wo wi : V3 ℝ) :
    (0 ≤ (halfIndices nth ntd npd wo wi).1 ∧ (halfIndices nth ntd npd wo wi).1 < nth) ∧
    (0 ≤ (halfIndices nth ntd npd wo wi).2.1 ∧ (halfIndices nth ntd npd wo wi).2.1 < ntd) ∧
    (0 ≤ (halfIndices nth ntd npd wo wi).2.2 ∧ (halfIndices nth ntd npd wo wi).2.2 < npd) :=
  ⟨tabIndex_range _ _ h1, tabIndex_range _ _ h2, tabIndex_range _ _ h3⟩

theorem tabIndex_zero (x : ℝ) (n : ℤ) (hn : 1 ≤ n) (h0 : 0 ≤ x) (h1 : x < 1) : tabIndex x n = 0 := by
  unfold tabIndex
  rw [if_pos h0, Int.floor_eq_zero_iff.mpr ⟨h0, h1⟩]
  omega

theorem sphericalTheta_range (v : V3 ℝ) : 0 ≤ sphericalTheta v ∧ sphericalTheta v ≤ π :=
  ⟨Real.arccos_nonneg _, Real.arccos_le_pi _⟩

/-- What the code does instead of a lookup: the angle is divided by the table size instead of multiplied, so with at
least two entries per axis every pair of directions reads entry `(0,0,0)`. -/
theorem C87_always_first_entry (nth ntd npd : ℤ) (h1 : 2 ≤ nth) (h2 : 2 ≤ ntd) (h3 : 2 ≤ npd) (wo wi : V3 ℝ) :
    halfIndices nth ntd npd wo wi = (0, 0, 0) := by
  have hpi := Real.pi_pos
  have n1 : (2 : ℝ) ≤ nth := by exact_mod_cast h1
  have n2 : (2 : ℝ) ≤ ntd := by exact_mod_cast h2
  have n3 : (2 : ℝ) ≤ npd := by exact_mod_cast h3
  unfold halfIndices
  simp only []
  obtain ⟨t0, t1⟩ := sphericalTheta_range (halfCoords wo wi).1
  obtain ⟨d0, d1⟩ := sphericalTheta_range (halfCoords wo wi).2
  obtain ⟨p0, p1⟩ := sphericalPhi_range (halfCoords wo wi).2
  generalize sphericalTheta (halfCoords wo wi).1 = t at *
  generalize sphericalTheta (halfCoords wo wi).2 = d at *
  generalize sphericalPhi (halfCoords wo wi).2 = p at *
  rw [tabIndex_zero _ nth (by omega), tabIndex_zero _ ntd (by omega), tabIndex_zero _ npd (by omega)]
  · split_ifs with h
    · apply div_nonneg (by linarith) (by positivity)
    · apply div_nonneg (by linarith) (by positivity)
  · rw [div_lt_one (by positivity)]
    split_ifs with h <;> nlinarith
  · apply div_nonneg d0 (by positivity)
  · rw [div_lt_one (by positivity)]; nlinarith
  · positivity
  · rw [div_lt_one (by positivity)]
    have hq : t / (π / 2) ≤ 2 := by rw [div_le_iff₀ (by positivity)]; linarith
    have : √(max 0 (t / (π / 2))) < 2 := by
      rw [Real.sqrt_lt' two_pos]
      rw [max_lt_iff]; constructor <;> linarith
    linarith

/-- The property a table lookup is for is false of the code: the entry read for the difference polar angle is not the
one of the cell `[i π/n, (i+1) π/n)` containing that angle. -/
theorem C87_cell_false : ¬ ∀ (n : ℤ) (wo wi : V3 ℝ), 2 ≤ n → sqLength wo = 1 → sqLength wi = 1 → wo + wi ≠ 0 →
    ∀ i : ℤ, (halfIndices 2 n 2 wo wi).2.1 = i →
      i * (π / n) ≤ sphericalTheta (halfCoords wo wi).2 ∧ sphericalTheta (halfCoords wo wi).2 < (i + 1) * (π / n) := by
  intro H
  have hne : (⟨-3/5, 0, 4/5⟩ : V3 ℝ) + ⟨3/5, 0, 4/5⟩ ≠ 0 := by
    intro h
    have := congrArg V3.z h
    norm_num at this
  have h := (H 6 ⟨-3/5, 0, 4/5⟩ ⟨3/5, 0, 4/5⟩ (by norm_num) (by norm_num [sqLength]) (by norm_num [sqLength]) hne 0
    (by rw [C87_always_first_entry 2 6 2 le_rfl (by norm_num) le_rfl])).2
  have hwh : Geom.normalize ((⟨3/5, 0, 4/5⟩ : V3 ℝ) + ⟨-3/5, 0, 4/5⟩) = ⟨0, 0, 1⟩ := by
    have e : (⟨3/5, 0, 4/5⟩ : V3 ℝ) + ⟨-3/5, 0, 4/5⟩ = ⟨0, 0, 8/5⟩ := by ext <;> simp <;> norm_num
    have hl : Geom.length (⟨0, 0, 8/5⟩ : V3 ℝ) = 8/5 := by
      unfold Geom.length sqLength
      simp only [mul_zero, zero_add]
      exact Real.sqrt_mul_self (by norm_num)
    rw [e]
    unfold Geom.normalize
    simp only [hl]
    rw [if_pos (by norm_num)]
    norm_num
  have hz : (halfCoords ⟨-3/5, 0, 4/5⟩ ⟨3/5, 0, 4/5⟩).2.z = 4/5 := by
    unfold halfCoords
    simp only []
    rw [hwh]
    norm_num [dot]
  unfold sphericalTheta at h
  rw [hz, min_eq_left (by norm_num), max_eq_right (by norm_num)] at h
  have h6 : π / 6 ≤ arccos (4/5) := by
    have h1 : (4/5 : ℝ) ≤ cos (π / 6) := by
      rw [Real.cos_pi_div_six]
      have : (8/5 : ℝ) ≤ √3 := Real.le_sqrt_of_sq_le (by norm_num)
      linarith
    have h2 := Real.arccos_le_arccos h1
    rwa [Real.arccos_cos (by positivity) (by linarith [Real.pi_pos])] at h2
  push_cast at h
  linarith

end Verif.Refl
