import Verif.Spectral.Average
import Mathlib.Data.List.Sort
import Mathlib.Analysis.Real.Pi.Bounds
import Mathlib.Tactic.Positivity
import Mathlib.Tactic.FinCases

/-!
# Spectra as vectors of samples (C58, C105, C106, C107)

Models the pointwise operations, colour conversions and constructors of `pytracer/spectral/spectrum.py` over the real numbers.
Not modelled: rounding, nan, the measured tables of `pytracer/data/spectral.py` (they are parameters).
-/
namespace Verif.Spectral

/-- the RGB (or XYZ) triple -/
@[ext] structure T3 where
  a : ℝ
  b : ℝ
  c : ℝ

/-- `xyz2rgb` (spectrum.py 25-28) -/
noncomputable def xyz2rgb (p : T3) : T3 :=
  ⟨3.240479 * p.a - 1.537150 * p.b - 0.498535 * p.c,
   -0.969256 * p.a + 1.875991 * p.b + 0.041556 * p.c,
   0.055648 * p.a - 0.204043 * p.b + 1.057311 * p.c⟩

/-- `rgb2xyz` (spectrum.py 31-34) -/
noncomputable def rgb2xyz (p : T3) : T3 :=
  ⟨0.412453 * p.a + 0.357580 * p.b + 0.180423 * p.c,
   0.212671 * p.a + 0.715160 * p.b + 0.072169 * p.c,
   0.019334 * p.a + 0.119193 * p.b + 0.950227 * p.c⟩

/-- `RGBSpectrum.y` (spectrum.py 587-589) -/
noncomputable def lum (p : T3) : ℝ := 0.212671 * p.a + 0.715160 * p.b + 0.072169 * p.c

/-- `EPS` (pytracer/__init__.py 23) -/
noncomputable def EPS : ℝ := 1 / 100000

/-- `CoefficientSpectrum.is_black` (spectrum.py 182-187): `(self < EPS).all()` -/
noncomputable def isBlack (s : List ℝ) : Bool := s.all (fun x => decide (x < EPS))

/-- `util.is_black` on an array (`utility/utility.py` 119-124): `(np.abs(s - 0.) < EPS).all()` -/
noncomputable def utilIsBlack (s : List ℝ) : Bool := s.all (fun x => decide (|x - 0| < EPS))

/-- `np.clip(x, min, max)`: minimum applied last wins for max, as numpy does (spectrum.py 219-220); `none` is `np.inf` -/
noncomputable def clip1 (lo : ℝ) (hi : Option ℝ) (x : ℝ) : ℝ :=
  match hi with
  | none => max x lo
  | some h => min (max x lo) h

/-- `CoefficientSpectrum.clip` (spectrum.py 219-220) -/
noncomputable def clip (lo : ℝ) (hi : Option ℝ) (s : List ℝ) : List ℝ := s.map (clip1 lo hi)

/-- `CoefficientSpectrum.lerp` (spectrum.py 210-214) through `util.ufunc_lerp` (`utility/utility.py` 128-133), arrays of equal length -/
noncomputable def slerp (t : ℝ) (s o : List ℝ) : List ℝ := List.zipWith (lerp t) s o

/-- numpy's elementwise `+` on spectra of equal length -/
noncomputable def add (s o : List ℝ) : List ℝ := List.zipWith (· + ·) s o

/-- numpy's scalar multiple of a spectrum -/
noncomputable def smul (k : ℝ) (s : List ℝ) : List ℝ := s.map (k * ·)

/-- **C58** `y()` is the Y component of the conversion to XYZ -/
theorem C58_y (p : T3) : lum p = (rgb2xyz p).b := rfl

/-- **C58** `y()` is linear and monotone in the samples; white has luminance one -/
theorem C58_y_linear (p q : T3) (k : ℝ) :
    lum ⟨p.a + k * q.a, p.b + k * q.b, p.c + k * q.c⟩ = lum p + k * lum q ∧
    (p.a ≤ q.a → p.b ≤ q.b → p.c ≤ q.c → lum p ≤ lum q) ∧ lum ⟨1, 1, 1⟩ = 1 := by
  unfold lum
  refine ⟨by ring, fun h1 h2 h3 => by linarith, by norm_num⟩

/-- **C58** RGB to XYZ and back: every sample returns within 7 in a million of the largest sample -/
theorem C58_roundtrip (p : T3) (M : ℝ) (ha : |p.a| ≤ M) (hb : |p.b| ≤ M) (hc : |p.c| ≤ M) :
    |(xyz2rgb (rgb2xyz p)).a - p.a| ≤ 7 / 1000000 * M ∧ |(xyz2rgb (rgb2xyz p)).b - p.b| ≤ 7 / 1000000 * M ∧
    |(xyz2rgb (rgb2xyz p)).c - p.c| ≤ 7 / 1000000 * M := by
  rw [abs_le] at ha hb hc
  simp only [xyz2rgb, rgb2xyz]
  refine ⟨abs_le.2 ⟨?_, ?_⟩, abs_le.2 ⟨?_, ?_⟩, abs_le.2 ⟨?_, ?_⟩⟩ <;> norm_num <;> linarith [ha.1, ha.2, hb.1, hb.2, hc.1, hc.2]

/-- **C58** the two conversions are not exact inverses of each other -/
theorem C58_roundtrip_exact_false : (xyz2rgb (rgb2xyz ⟨1, 0, 0⟩)).a ≠ 1 := by
  simp only [xyz2rgb, rgb2xyz]; norm_num

/-- **C58** `is_black` holds exactly when every sample is below EPS -/
theorem C58_is_black (s : List ℝ) : isBlack s = true ↔ ∀ x ∈ s, x < 1 / 100000 := by
  simp [isBlack, EPS]

/-- **C58** for spectra without negative samples the two blackness tests of the code agree -/
theorem C58_is_black_agree (s : List ℝ) (h : ∀ x ∈ s, 0 ≤ x) : isBlack s = utilIsBlack s := by
  unfold isBlack utilIsBlack
  rw [Bool.eq_iff_iff, List.all_eq_true, List.all_eq_true]
  constructor <;> intro g x hx <;> have := g x hx <;> simp only [decide_eq_true_eq, sub_zero, abs_of_nonneg (h x hx)] at this ⊢ <;> exact this

/-- **C58** the two tests of the code disagree on spectra with negative samples: the method calls a spectrum of −1 black, the function does not -/
theorem C58_is_black_agree_false : isBlack [-1, -1, -1] = true ∧ utilIsBlack [-1, -1, -1] = false := by
  constructor
  · rw [C58_is_black]; intro x hx; simp at hx; subst hx; norm_num
  · simp [utilIsBlack, EPS]; norm_num

/-- **C58** clipping: same number of samples, each in range, samples already in range untouched, and clipping again changes nothing -/
theorem C58_clip (lo : ℝ) (hi : Option ℝ) (hlh : ∀ h, hi = some h → lo ≤ h) (s : List ℝ) :
    (clip lo hi s).length = s.length ∧
    (∀ x ∈ clip lo hi s, lo ≤ x ∧ ∀ h, hi = some h → x ≤ h) ∧
    ((∀ x ∈ s, lo ≤ x ∧ ∀ h, hi = some h → x ≤ h) → clip lo hi s = s) ∧
    clip lo hi (clip lo hi s) = clip lo hi s := by
  have h2 : ∀ x ∈ clip lo hi s, lo ≤ x ∧ ∀ h, hi = some h → x ≤ h := by
    intro x hx
    simp only [clip, List.mem_map] at hx
    obtain ⟨y, -, rfl⟩ := hx
    cases hi with
    | none => exact ⟨le_max_right _ _, by simp⟩
    | some h => exact ⟨le_min (le_max_right _ _) (hlh h rfl), by rintro h' ⟨⟩; exact min_le_right _ _⟩
  have h3 : ∀ s : List ℝ, (∀ x ∈ s, lo ≤ x ∧ ∀ h, hi = some h → x ≤ h) → clip lo hi s = s := by
    intro s hs
    unfold clip
    conv_rhs => rw [← List.map_id s]
    apply List.map_congr_left
    intro x hx
    obtain ⟨g1, g2⟩ := hs x hx
    cases hi with
    | none => simp [clip1, g1]
    | some h => simp [clip1, g1, g2 h rfl]
  exact ⟨by simp [clip], h2, h3 s, h3 _ h2⟩

/-- **C58** interpolation and arithmetic act on each sample -/
theorem C58_pointwise (t k : ℝ) (s o : List ℝ) (h : s.length = o.length) :
    (slerp t s o).length = s.length ∧ (add s o).length = s.length ∧ (smul k s).length = s.length ∧
    (∀ i, i < s.length → rd (slerp t s o) i = (1 - t) * rd s i + t * rd o i) ∧
    (∀ i, i < s.length → rd (add s o) i = rd s i + rd o i) ∧ (∀ i, i < s.length → rd (smul k s) i = k * rd s i) ∧
    slerp 0 s o = s ∧ slerp 1 s o = o := by
  have z : ∀ (f : ℝ → ℝ → ℝ) (i : ℕ), i < s.length → rd (List.zipWith f s o) i = f (rd s i) (rd o i) := by
    intro f i hi
    have hi' : i < o.length := by omega
    simp [rd, List.getD_eq_getElem?_getD, hi, hi']
  refine ⟨by simp [slerp, h], by simp [add, h], by simp [smul], fun i hi => z _ i hi, fun i hi => z _ i hi, ?_, ?_, ?_⟩
  · intro i hi; simp [smul, rd, List.getD_eq_getElem?_getD, hi]
  · refine ext_rd (by simp [slerp, h]) (fun i hi => ?_)
    have hi : i < s.length := by simp [slerp, h] at hi; omega
    unfold slerp; rw [z _ i hi]; unfold lerp; ring
  · refine ext_rd (by simp [slerp, h]) (fun i hi => ?_)
    have hi : i < s.length := by simp [slerp, h] at hi; omega
    unfold slerp; rw [z _ i hi]; unfold lerp; ring

/-- **C58** interpolating with a parameter between zero and one stays between the two samples -/
theorem C58_lerp_between (t a b : ℝ) (h0 : 0 ≤ t) (h1 : t ≤ 1) : min a b ≤ lerp t a b ∧ lerp t a b ≤ max a b := by
  unfold lerp
  constructor
  · nlinarith [min_le_left a b, min_le_right a b]
  · nlinarith [le_max_left a b, le_max_right a b]

/-! ### RGB to sampled spectrum (C105) -/

/-- the seven basis spectra of one type at one wavelength -/
structure Basis where
  white : ℝ
  cyan : ℝ
  magenta : ℝ
  yellow : ℝ
  red : ℝ
  green : ℝ
  blue : ℝ

/-- `lo, me, hi = np.argsort(rgb)` for three numbers (spectrum.py 498; insertion sort, so stable) -/
noncomputable def argsort3 (c : Fin 3 → ℝ) : Fin 3 × Fin 3 × Fin 3 :=
  if c 1 < c 0 then
    if c 2 < c 1 then (2, 1, 0) else if c 2 < c 0 then (1, 2, 0) else (1, 0, 2)
  else
    if c 2 < c 0 then (2, 0, 1) else if c 2 < c 1 then (0, 2, 1) else (0, 1, 2)

/-- the list `spec` (spectrum.py 502-507 and 517-522) -/
def specList (B : Basis) (lo : Fin 3) : Fin 3 → ℝ :=
  if lo = 0 then ![B.cyan, B.green, B.blue]
  else if lo = 1 then ![B.magenta, B.red, B.blue]
  else ![B.yellow, B.red, B.green]

/-- the scale factor of the type (spectrum.py 513, 528) -/
noncomputable def scaleOf (illum : Bool) : ℝ := if illum then 0.86445 else 0.94

/-- one sample of `SampledSpectrum.from_rgb` (spectrum.py 495-533) -/
noncomputable def fromRgb (illum : Bool) (B : Basis) (c : Fin 3 → ℝ) : ℝ :=
  let s := argsort3 c
  let lo := s.1
  let me := s.2.1
  let hi := s.2.2
  let v := c lo * B.white + (c me - c lo) * specList B lo lo + (c hi - c me) * specList B lo hi
  clip1 0 none (v * scaleOf illum)

/-! #### specification -/

/-- the secondary colour opposite a primary -/
def secondary (B : Basis) : Fin 3 → ℝ := ![B.cyan, B.magenta, B.yellow]

/-- the primary colours -/
def primary (B : Basis) : Fin 3 → ℝ := ![B.red, B.green, B.blue]

/-- `(lo, me, hi)` orders the components -/
def Sorted3 (c : Fin 3 → ℝ) (lo me hi : Fin 3) : Prop := c lo ≤ c me ∧ c me ≤ c hi ∧ lo ≠ me ∧ me ≠ hi ∧ lo ≠ hi

/-- the documented decomposition -/
noncomputable def Decomposed (illum : Bool) (B : Basis) (c : Fin 3 → ℝ) (lo me hi : Fin 3) (r : ℝ) : Prop :=
  r = max 0 ((if illum then 0.86445 else 0.94) * (c lo * B.white + (c me - c lo) * secondary B lo + (c hi - c me) * primary B hi))

theorem argsort3_sorted (c : Fin 3 → ℝ) : Sorted3 c (argsort3 c).1 (argsort3 c).2.1 (argsort3 c).2.2 := by
  unfold argsort3 Sorted3
  split_ifs with h1 h2 h3 h4 h5 <;> simp <;> constructor <;> linarith

/-- **C105** the index triple always orders the components, whatever the ties -/
theorem C105_order (c : Fin 3 → ℝ) : Sorted3 c (argsort3 c).1 (argsort3 c).2.1 (argsort3 c).2.2 := argsort3_sorted c

/-- **C105** no sample is negative, and a grey gives its multiple of white -/
theorem C105_nonneg_grey (illum : Bool) (B : Basis) (c : Fin 3 → ℝ) :
    0 ≤ fromRgb illum B c ∧ (c 0 = c 1 → c 1 = c 2 → 0 ≤ c 0 → 0 ≤ B.white → fromRgb illum B c = (if illum then 0.86445 else 0.94) * (c 0 * B.white)) := by
  refine ⟨le_max_right _ _, fun h1 h2 h0 hw => ?_⟩
  have e : ∀ i : Fin 3, c i = c 0 := by
    intro i; fin_cases i
    · rfl
    · exact h1.symm
    · exact h2.symm.trans h1.symm
  simp only [fromRgb, clip1, e, sub_self, zero_mul, add_zero]
  rw [max_eq_left (mul_nonneg (mul_nonneg h0 hw) (by cases illum <;> norm_num [scaleOf]))]
  unfold scaleOf; ring

/-- **C105** when red is the (strictly) smallest component the result is the documented decomposition; for other colours the claim is false -/
theorem C105_from_rgb_partial (illum : Bool) (B : Basis) (c : Fin 3 → ℝ) (h1 : c 0 < c 1) (h2 : c 0 < c 2) :
    ∃ lo me hi, Sorted3 c lo me hi ∧ Decomposed illum B c lo me hi (fromRgb illum B c) := by
  refine ⟨_, _, _, argsort3_sorted c, ?_⟩
  unfold Decomposed fromRgb argsort3
  rw [if_neg (not_lt.2 h1.le), if_neg (not_lt.2 h2.le)]
  split_ifs <;> simp [specList, clip1, secondary, primary, scaleOf, *, mul_comm, max_comm]

/-- **C105** every colour with a strictly smallest green or blue component is decomposed over the wrong basis spectra: the closed forms -/
theorem C105_wrong_basis (illum : Bool) (B : Basis) (c : Fin 3 → ℝ) :
    (c 1 < c 2 → c 2 < c 0 → fromRgb illum B c = max ((c 1 * B.white + (c 2 - c 1) * B.red + (c 0 - c 2) * B.magenta) * scaleOf illum) 0) ∧
    (c 1 < c 0 → c 0 ≤ c 2 → fromRgb illum B c = max ((c 1 * B.white + (c 0 - c 1) * B.red + (c 2 - c 0) * B.blue) * scaleOf illum) 0) ∧
    (c 2 < c 1 → c 1 < c 0 → fromRgb illum B c = max ((c 2 * B.white + (c 1 - c 2) * B.green + (c 0 - c 1) * B.yellow) * scaleOf illum) 0) ∧
    (c 2 < c 0 → c 0 ≤ c 1 → fromRgb illum B c = max ((c 2 * B.white + (c 0 - c 2) * B.green + (c 1 - c 0) * B.red) * scaleOf illum) 0) := by
  unfold fromRgb argsort3
  refine ⟨fun h1 h2 => ?_, fun h1 h2 => ?_, fun h1 h2 => ?_, fun h1 h2 => ?_⟩
  · rw [if_pos (h1.trans h2), if_neg (not_lt.2 h1.le), if_pos h2]; simp [specList, clip1]
  · rw [if_pos h1, if_neg (not_lt.2 (h1.le.trans h2)), if_neg (not_lt.2 h2)]; simp [specList, clip1]
  · rw [if_pos h2, if_pos h1]; simp [specList, clip1]
  · rw [if_neg (not_lt.2 h2), if_pos h1]; simp [specList, clip1]

/-- **C105** pure red becomes a multiple of the magenta basis and pure green of the red one, so the claim is false -/
theorem C105_from_rgb_false (B : Basis) (hm : 0 ≤ B.magenta) (hne : B.magenta ≠ B.red) (hr : 0 ≤ B.red) :
    fromRgb false B ![1, 0, 0] = 0.94 * B.magenta ∧
    ¬ ∃ lo me hi, Sorted3 ![1, 0, 0] lo me hi ∧ Decomposed false B ![1, 0, 0] lo me hi (fromRgb false B ![1, 0, 0]) := by
  have e : fromRgb false B ![1, 0, 0] = 0.94 * B.magenta := by
    simp [fromRgb, argsort3, specList, clip1, scaleOf]
    rw [max_eq_left (by positivity)]; ring
  refine ⟨e, ?_⟩
  rintro ⟨lo, me, hi, ⟨h1, h2, h3, h4, h5⟩, hd⟩
  rw [e] at hd
  unfold Decomposed at hd
  have key : hi = 0 := by
    by_contra hc
    have : (![1, 0, 0] : Fin 3 → ℝ) hi = 0 := by fin_cases hi <;> simp at hc ⊢
    rw [this] at h2
    fin_cases lo <;> fin_cases me <;> fin_cases hi <;> simp at h1 h2 h3 h4 h5 hc <;> linarith
  subst key
  have hme : (![1, 0, 0] : Fin 3 → ℝ) me = 0 := by fin_cases me <;> simp at h4 ⊢
  have hlo : (![1, 0, 0] : Fin 3 → ℝ) lo = 0 := by fin_cases lo <;> simp at h5 ⊢
  rw [hme, hlo] at hd
  simp [primary] at hd
  rw [max_eq_right (by positivity)] at hd
  apply hne
  linarith

/-- the hypotheses of `C105_from_rgb_partial` hold for a colour with little red -/
example : (![0.1, 0.5, 0.3] : Fin 3 → ℝ) 0 < (![0.1, 0.5, 0.3] : Fin 3 → ℝ) 1 ∧ (![0.1, 0.5, 0.3] : Fin 3 → ℝ) 0 < (![0.1, 0.5, 0.3] : Fin 3 → ℝ) 2 := by
  constructor <;> simp <;> norm_num

/-! ### Bands (C106) -/

/-- the band of sample `i` in `from_sampled` (spectrum.py 423-424; `i+1 / N` is `i + (1/N)`) -/
noncomputable def sampledBand (i : ℕ) : ℝ × ℝ := (lerp ((i:ℝ) / 30) 400 700, lerp ((i:ℝ) + 1 / 30) 400 700)

/-- the band of sample `i` of the start-up tables (spectrum.py 345-348) -/
noncomputable def initBand (i : ℕ) : ℝ × ℝ := (lerp ((i:ℝ) / 30) 400 700, lerp (((i:ℝ) + 1) / 30) 400 700)

/-- `v = v[argsort(lam)]; lam = sort(lam)` (spectrum.py 417-418), on pairs -/
noncomputable def sortPairs (d : List (ℝ × ℝ)) : List (ℝ × ℝ) := d.insertionSort (fun x y => x.1 ≤ y.1)

/-- `SampledSpectrum.from_sampled` (spectrum.py 414-427).  Each call leaves the arrays as they were (`C58_arrays_restored`), so they are passed
on unchanged. -/
noncomputable def fromSampled (d : List (ℝ × ℝ)) : List ℝ :=
  let s := sortPairs d
  (List.range 30).map (fun i => (average (s.map Prod.fst) (s.map Prod.snd) (sampledBand i).1 (sampledBand i).2).1)

/-- **C106** the start-up tables use thirty adjacent bands of equal width that cover 400..700 -/
theorem C106_init_bands : (initBand 0).1 = 400 ∧ (initBand 29).2 = 700 ∧ (∀ i, (initBand i).2 = (initBand (i + 1)).1) ∧
    ∀ i, (initBand i).2 - (initBand i).1 = 10 := by
  simp only [initBand, lerp]
  refine ⟨by norm_num, by norm_num, fun i => by push_cast; ring, fun i => by ring⟩

/-- **C106** `from_sampled` starts its bands at the right places and its first band is right -/
theorem C106_sampled_bands_partial (i : ℕ) : (sampledBand i).1 = (initBand i).1 ∧ (sampledBand i).1 = 400 + 10 * i ∧ sampledBand 0 = (400, 410) := by
  simp only [sampledBand, initBand, lerp]
  refine ⟨trivial, by ring, ?_⟩
  norm_num

/-- **C106** every other band of `from_sampled` ends in the wrong place: it is thirty times too far out -/
theorem C106_sampled_bands_false (i : ℕ) (hi : 0 < i) :
    (sampledBand i).2 = 410 + 300 * i ∧ (sampledBand i).2 ≠ (initBand i).2 ∧ 700 < (sampledBand i).2 := by
  have h : (1:ℝ) ≤ i := by exact_mod_cast hi
  have e : (sampledBand i).2 = 410 + 300 * i := by simp only [sampledBand, lerp]; ring
  refine ⟨e, ?_, by rw [e]; linarith⟩
  rw [e]; simp only [initBand, lerp]
  intro hc; linarith

theorem sortPairs_perm {d e : List (ℝ × ℝ)} (h : d.Perm e) (hd : (d.map Prod.fst).Nodup) : sortPairs d = sortPairs e := by
  have p : (sortPairs d).Perm (sortPairs e) := (List.perm_insertionSort _ d).trans (h.trans (List.perm_insertionSort _ e).symm)
  have tr : IsTrans (ℝ × ℝ) (fun x y => x.1 ≤ y.1) := ⟨fun _ _ _ => le_trans⟩
  have tt : Std.Total (α := ℝ × ℝ) (fun x y => x.1 ≤ y.1) := ⟨fun x y => le_total _ _⟩
  have s1 : (sortPairs d).Pairwise (fun x y => x.1 ≤ y.1) := List.pairwise_insertionSort _ d
  have s2 : (sortPairs e).Pairwise (fun x y => x.1 ≤ y.1) := List.pairwise_insertionSort _ e
  refine p.eq_of_pairwise ?_ s1 s2
  intro x y hx hy h1 h2
  have hx' : x ∈ d := (List.perm_insertionSort _ d).mem_iff.1 hx
  have hy' : y ∈ d := h.mem_iff.2 ((List.perm_insertionSort _ e).mem_iff.1 hy)
  exact List.inj_on_of_nodup_map hd hx' hy' (le_antisymm h1 h2)

/-- **C106** the order in which distinct wavelengths are given does not matter -/
theorem C106_order (d e : List (ℝ × ℝ)) (h : d.Perm e) (hd : (d.map Prod.fst).Nodup) : fromSampled d = fromSampled e := by
  unfold fromSampled
  rw [sortPairs_perm h hd]

/-- **C106** the sorted data form a table whenever there is data and the wavelengths are distinct, and hold the same pairs -/
theorem C106_sorted (d : List (ℝ × ℝ)) (hne : d ≠ []) (hd : (d.map Prod.fst).Nodup) :
    (sortPairs d).Perm d ∧ Table ((sortPairs d).map Prod.fst) ((sortPairs d).map Prod.snd) := by
  have p := List.perm_insertionSort (fun (x y : ℝ × ℝ) => x.1 ≤ y.1) d
  have tr : IsTrans (ℝ × ℝ) (fun x y => x.1 ≤ y.1) := ⟨fun _ _ _ => le_trans⟩
  have tt : Std.Total (α := ℝ × ℝ) (fun x y => x.1 ≤ y.1) := ⟨fun x y => le_total _ _⟩
  have s1 : (sortPairs d).Pairwise (fun x y => x.1 ≤ y.1) := List.pairwise_insertionSort _ d
  refine ⟨p, ⟨?_, by simp, ?_⟩⟩
  · have hl := p.length_eq
    have : 0 < d.length := List.length_pos_iff.2 hne
    simp only [sortPairs, List.length_map]
    omega
  · intro i hi
    have hnd : ((sortPairs d).map Prod.fst).Nodup := (p.map Prod.fst).nodup_iff.2 hd
    have s2 : ((sortPairs d).map Prod.fst).Pairwise (· ≤ ·) := List.pairwise_map.2 s1
    have g := List.pairwise_iff_getElem.1 s2 i (i + 1) (by omega) hi (by omega)
    have hi0 : i < ((sortPairs d).map Prod.fst).length := by omega
    have r1 : rd ((sortPairs d).map Prod.fst) i = ((sortPairs d).map Prod.fst)[i] := by
      unfold rd; rw [List.getD_eq_getElem?_getD, List.getElem?_eq_getElem hi0]; rfl
    have r2 : rd ((sortPairs d).map Prod.fst) (i + 1) = ((sortPairs d).map Prod.fst)[i + 1] := by
      unfold rd; rw [List.getD_eq_getElem?_getD, List.getElem?_eq_getElem hi]; rfl
    rw [r1, r2]
    refine lt_of_le_of_ne g (fun hc => ?_)
    have := (List.Nodup.getElem_inj_iff hnd).1 hc
    omega

/-- **C106** the samples of `from_sampled`: sample `i` is the mean, over its band, of the spectrum the given data describe (linear between neighbouring
wavelengths, constant outside).  Proved for the bands that the code uses (right only for `i = 0`, see `C106_sampled_bands_false`) that do not end at one
of the given wavelengths. -/
theorem C106_values_partial (d : List (ℝ × ℝ)) (hne : d ≠ []) (hd : (d.map Prod.fst).Nodup) :
    (fromSampled d).length = 30 ∧ ∀ i < 30, (sampledBand i).2 ∉ d.map Prod.fst → ∃ f, Interp ((sortPairs d).map Prod.fst) ((sortPairs d).map Prod.snd) f ∧
      rd (fromSampled d) i = (∫ t in (sampledBand i).1..(sampledBand i).2, f t) / ((sampledBand i).2 - (sampledBand i).1) := by
  obtain ⟨hp, ht⟩ := C106_sorted d hne hd
  refine ⟨by simp [fromSampled], fun i hi hk => ?_⟩
  have hlt : (sampledBand i).1 < (sampledBand i).2 := by
    have : (0:ℝ) ≤ i := Nat.cast_nonneg i
    simp only [sampledBand, lerp]
    linarith
  have hk' : ¬ InteriorKnot ((sortPairs d).map Prod.fst) (sampledBand i).2 := by
    rintro ⟨j, h1, h2, h3⟩
    apply hk
    rw [← h3, ← (hp.map Prod.fst).mem_iff]
    have hj : j < ((sortPairs d).map Prod.fst).length := by omega
    simp only [rd, List.getD_eq_getElem?_getD, List.getElem?_eq_getElem hj, Option.getD_some]
    exact List.getElem_mem hj
  obtain ⟨⟨f, hf⟩, h⟩ := C58_average_partial _ _ _ _ ht hlt hk'
  refine ⟨f, hf, ?_⟩
  rw [← h f hf]
  simp [fromSampled, rd, List.getD_eq_getElem?_getD, hi]

/-- the hypotheses of `C106_values_partial` hold for band 0 of two samples -/
example : [((500:ℝ), (1:ℝ)), (600, 2)] ≠ [] ∧ ([((500:ℝ), (1:ℝ)), (600, 2)].map Prod.fst).Nodup ∧ (sampledBand 0).2 ∉ [((500:ℝ), (1:ℝ)), (600, 2)].map Prod.fst := by
  rw [(C106_sampled_bands_partial 0).2.2]
  refine ⟨by simp, by simp, by simp⟩

/-- the hypotheses of `C106_order` hold for two orders of the same two samples -/
example : [((600:ℝ), (1:ℝ)), (500, 2)].Perm [(500, 2), (600, 1)] ∧ ([((600:ℝ), (1:ℝ)), (500, 2)].map Prod.fst).Nodup := by
  refine ⟨List.Perm.swap _ _ _, by simp⟩

/-! ### Constructors (C107) -/

/-- what a caller passes -/
inductive Arg where
  /-- a spectrum with these samples -/
  | spectrum (s : List ℝ)
  /-- a list or plain array of floats -/
  | floats (s : List ℝ)
  /-- a list of Python integers -/
  | ints (s : List ℤ)
  /-- a number -/
  | number (x : ℝ)

/-- what comes back -/
inductive Res where
  /-- an array of class `RGBSpectrum` with these samples -/
  | spectrum (s : List ℝ)
  /-- an array of this shape whose elements were never set -/
  | uninit (shape : List ℕ)
  | typeError
  | valueError

/-- `RGBSpectrum.create` (spectrum.py 575-585).  `np.ndarray(arg)` takes `arg` as a shape: floats are a `TypeError`, negative sizes a `ValueError`. -/
def create : Arg → Res
  | .spectrum s => if s.length = 3 then .spectrum s else .typeError
  | .floats s => if s.length = 3 then .typeError else .typeError
  | .ints s => if s.length = 3 then (if ∀ k ∈ s, 0 ≤ k then .uninit (s.map Int.toNat) else .valueError) else .typeError
  | .number _ => .typeError

/-- `RGBSpectrum.from_rgb` and `RGBSpectrum(v)` (spectrum.py 556-557, 595-597): `np.full(3, v)` broadcasts `v` to three samples -/
def fromRgb3 : Arg → Res
  | .spectrum s | .floats s => if s.length = 3 then .spectrum s else if s.length = 1 then .spectrum (s ++ s ++ s) else .valueError
  | .ints s => if s.length = 3 then .spectrum (s.map (fun k => (k : ℝ))) else if s.length = 1 then .spectrum ((s ++ s ++ s).map (fun k => (k : ℝ))) else .valueError
  | .number x => .spectrum [x, x, x]

/-- **C107** three samples are kept by `from_rgb` and by the constructor, one number fills all three, wrong lengths are refused, and `create` keeps
the samples of a spectrum -/
theorem C107_constructors_partial :
    (∀ x y z : ℝ, fromRgb3 (.floats [x, y, z]) = .spectrum [x, y, z] ∧ create (.spectrum [x, y, z]) = .spectrum [x, y, z]) ∧
    (∀ x : ℝ, fromRgb3 (.number x) = .spectrum [x, x, x]) ∧
    (∀ s : List ℝ, s.length ≠ 3 → s.length ≠ 1 → fromRgb3 (.floats s) = .valueError) ∧
    (∀ s : List ℝ, s.length ≠ 3 → create (.spectrum s) = .typeError ∧ create (.floats s) = .typeError) ∧
    (∀ x y z : ℝ, fromRgb3 (.spectrum [x, y, z]) = .spectrum [x, y, z]) ∧ (∀ x : ℝ, fromRgb3 (.floats [x]) = .spectrum [x, x, x]) ∧
    (∀ a b c : ℤ, fromRgb3 (.ints [a, b, c]) = .spectrum [(a : ℝ), b, c]) ∧ (∀ a : ℤ, fromRgb3 (.ints [a]) = .spectrum [(a : ℝ), a, a]) ∧
    (∀ s : List ℤ, s.length ≠ 3 → s.length ≠ 1 → fromRgb3 (.ints s) = .valueError) := by
  refine ⟨fun x y z => ⟨by simp [fromRgb3], by simp [create]⟩, fun x => rfl, ?_, ?_, fun x y z => by simp [fromRgb3], fun x => by simp [fromRgb3],
    fun a b c => by simp [fromRgb3], fun a => by simp [fromRgb3], ?_⟩
  · intro s h1 h2; simp [fromRgb3, h1, h2]
  · intro s h1; simp [create, h1]
  · intro s h1 h2; simp [fromRgb3, h1, h2]

/-- **C107** `create` never gives a spectrum with the samples of a list: floats are refused, integers give an array of another shape with
unset elements -/
theorem C107_create_false : (∀ x y z : ℝ, create (.floats [x, y, z]) = .typeError) ∧
    (∀ a b c : ℕ, create (.ints [a, b, c]) = .uninit [a, b, c]) := by
  refine ⟨fun x y z => by simp [create], fun a b c => by simp [create]⟩

end Verif.Spectral
