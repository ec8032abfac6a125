import Verif.Texture.MipMap
import Verif.Util.Ints
import Mathlib.Analysis.Real.Pi.Bounds

/-!
# Resampling of images to powers of two (C57, C117)

Models `Lanczos` (utility.py 22-40), `MIPMap.resample` (193-210) and the resampling part of `MIPMap.__init__` (226-287).  Exact arithmetic;
`np.sinc` is the real function.
-/
namespace Verif.Texture
open Real

/-! ### Model -/

/-- `np.sinc` -/
noncomputable def npSinc (x : ℝ) : ℝ := if x = 0 then 1 else sin (π * x) / (π * x)

/-- `Lanczos` with the default `tau = 2` (utility.py 22-40) -/
noncomputable def lanczos (x : ℝ) : ℝ :=
  let x := |x|
  if x < texEps then 1 else if x > 1 then 0 else npSinc (x * 2) * npSinc x

/-- centre of new pixel `i` in the old image (utility.py 203) -/
noncomputable def ctr (ores nres i : ℕ) : ℝ := (i + 0.5) * ores / nres

/-- first tap (utility.py 204) -/
noncomputable def firstTap (ores nres i : ℕ) : ℤ := ⌊ctr ores nres i - 2 + 0.5⌋

/-- weight of tap `k` before normalisation (utility.py 205) -/
noncomputable def rawWt (ores nres i k : ℕ) : ℝ := lanczos ((firstTap ores nres i + k + 0.5 - ctr ores nres i) / 2)

/-- weight of tap `k` (utility.py 208) -/
noncomputable def wt (ores nres i k : ℕ) : ℝ :=
  rawWt ores nres i k / (rawWt ores nres i 0 + rawWt ores nres i 1 + rawWt ores nres i 2 + rawWt ores nres i 3)

variable {V : Type} [AddCommGroup V] [Module ℝ V]

/-- the body of the loop over the taps (utility.py 249-256, 265-272): `acc` is the sum so far, `n` the length of the old axis -/
noncomputable def tap (w : Wrap) (n : ℕ) (start : ℤ) (wts : ℕ → ℝ) (read : ℤ → Option V) (acc : V) (j : ℕ) : Option V :=
  let o : ℤ := start + j
  let o : ℤ := match w with
    | .rep => o % n
    | .clamp => min (max o 0) (n - 1)
    | .black => o
  if 0 ≤ o ∧ o < n then (read o).map fun v => acc + wts j • v else some acc

/-- the loop over the four taps -/
noncomputable def taps (w : Wrap) (n : ℕ) (start : ℤ) (wts : ℕ → ℝ) (read : ℤ → Option V) : Option V := do
  let a ← tap w n start wts read 0 0
  let a ← tap w n start wts read a 1
  let a ← tap w n start wts read a 2
  tap w n start wts read a 3

/-- value `[t, s]` after the first pass (utility.py 244-256): line 256 reads `img[t, orig_s]` although the first axis of `img` has length `sres` -/
noncomputable def passS (w : Wrap) (img : Level V) (sp t s : ℕ) : Option V :=
  taps w img.u (firstTap img.u sp s) (wt img.u sp s) fun o => img.get t o

/-- value `[t, s]` after the second pass (utility.py 258-274) -/
noncomputable def passT (w : Wrap) (img : Level V) (sp tp t s : ℕ) : Option V :=
  taps w img.v (firstTap img.v tp t) (wt img.v tp t) fun o => passS w img sp o.toNat s

open Classical in
/-- the resampled image (utility.py 234-279); `clip` is applied to every texel (lines 275-277) -/
noncomputable def resampled (w : Wrap) (clip : V → V) (img : Level V) : Option (Level V) :=
  let sp := (Ints.nextPow2 img.u).toNat
  let tp := (Ints.nextPow2 img.v).toNat
  if (∀ t < img.v, ∀ s < sp, (passS w img sp t s).isSome) ∧ (∀ s < sp, ∀ t < tp, (passT w img sp tp t s).isSome) then
    some ⟨tp, sp, fun t s => clip ((passT w img sp tp t s).getD 0)⟩
  else none

/-- `MIPMap.__init__` (utility.py 226-301) -/
noncomputable def construct (w : Wrap) (clip : V → V) (img : Level V) : Option (List (Level V)) :=
  if !Ints.isPow2 img.u || !Ints.isPow2 img.v then (resampled w clip img).bind (pyramid w) else pyramid w img

/-! ### The weights -/

theorem npSinc_ne (x : ℝ) (h : x ≠ 0) : npSinc x = sin (π * x) / (π * x) := by simp [npSinc, h]

theorem lanczos_pair (g : ℝ) (h0 : 0 ≤ g) (h1 : g ≤ 1) :
    0 ≤ lanczos (g / 2) + lanczos ((1 + g) / 2) ∧ (g < 1 → 0 < lanczos (g / 2) + lanczos ((1 + g) / 2)) := by
  have hpi := Real.pi_gt_three
  have e2 : lanczos ((1 + g) / 2) = -(sin (π * g) * cos (π * g / 2)) / (π ^ 2 * (1 + g) ^ 2 / 2) := by
    have ha : |(1 + g) / 2| = (1 + g) / 2 := abs_of_nonneg (by linarith)
    simp only [lanczos, ha]
    rw [if_neg (by norm_num [texEps]; linarith), if_neg (by linarith), npSinc_ne _ (by linarith), npSinc_ne _ (by linarith)]
    have s1 : sin (π * ((1 + g) / 2 * 2)) = -sin (π * g) := by
      rw [show π * ((1 + g) / 2 * 2) = π * g + π by ring, sin_add_pi]
    have s2 : sin (π * ((1 + g) / 2)) = cos (π * g / 2) := by
      rw [show π * ((1 + g) / 2) = π * g / 2 + π / 2 by ring, sin_add_pi_div_two]
    rw [s1, s2]
    have : (1 + g) ≠ 0 := by linarith
    field_simp
  have hs0 : 0 ≤ sin (π * g) := sin_nonneg_of_nonneg_of_le_pi (by positivity) (by nlinarith)
  have hs1 : sin (π * g) ≤ 1 := sin_le_one _
  have hc1 : cos (π * g / 2) ≤ 1 := cos_le_one _
  have hc0 : 0 ≤ cos (π * g / 2) := cos_nonneg_of_mem_Icc ⟨by nlinarith, by nlinarith⟩
  by_cases he : g / 2 < texEps
  · have e1 : lanczos (g / 2) = 1 := by
      have ha : |g / 2| = g / 2 := abs_of_nonneg (by linarith)
      simp only [lanczos, ha, he, if_true]
    have hd : 1 < π ^ 2 * (1 + g) ^ 2 / 2 := by nlinarith [mul_nonneg (sq_nonneg π) h0, sq_nonneg g]
    have : sin (π * g) * cos (π * g / 2) ≤ 1 := by nlinarith
    have hlt : 0 < lanczos (g / 2) + lanczos ((1 + g) / 2) := by
      rw [e1, e2, neg_div, ← sub_eq_add_neg, sub_pos, div_lt_one (by linarith)]
      linarith
    exact ⟨hlt.le, fun _ => hlt⟩
  · have hg : 0 < g := by
      have : (0 : ℝ) < texEps := by norm_num [texEps]
      linarith [not_lt.1 he]
    have e1 : lanczos (g / 2) = sin (π * g) * sin (π * g / 2) / (π ^ 2 * g ^ 2 / 2) := by
      have ha : |g / 2| = g / 2 := abs_of_nonneg (by linarith)
      simp only [lanczos, ha]
      rw [if_neg he, if_neg (by linarith), npSinc_ne _ (by linarith), npSinc_ne _ (by linarith)]
      rw [show π * (g / 2 * 2) = π * g by ring, show π * (g / 2) = π * g / 2 by ring]
      field_simp
    have hj : g ≤ sin (π * g / 2) := by
      have := mul_le_sin (x := π * g / 2) (by positivity) (by nlinarith)
      have e : 2 / π * (π * g / 2) = g := by field_simp
      rwa [e] at this
    have key : lanczos (g / 2) + lanczos ((1 + g) / 2) = sin (π * g) * ((sin (π * g / 2) * (1 + g) ^ 2 - cos (π * g / 2) * g ^ 2) / (π ^ 2 * g ^ 2 * (1 + g) ^ 2 / 2)) := by
      rw [e1, e2]
      have : (1 + g) ≠ 0 := by linarith
      field_simp
      ring
    have hp : 0 < (sin (π * g / 2) * (1 + g) ^ 2 - cos (π * g / 2) * g ^ 2) / (π ^ 2 * g ^ 2 * (1 + g) ^ 2 / 2) := by
      apply div_pos
      · have a1 : g * (1 + g) ^ 2 ≤ sin (π * g / 2) * (1 + g) ^ 2 := mul_le_mul_of_nonneg_right hj (sq_nonneg _)
        have a2 : cos (π * g / 2) * g ^ 2 ≤ g ^ 2 := by nlinarith [sq_nonneg g]
        nlinarith [sq_nonneg g]
      · positivity
    rw [key]
    refine ⟨mul_nonneg hs0 hp.le, fun hlt => mul_pos ?_ hp⟩
    exact sin_pos_of_pos_of_lt_pi (by positivity) (by nlinarith)

theorem lanczos_neg (x : ℝ) : lanczos (-x) = lanczos x := by simp [lanczos]

theorem rawWt_sum_pos (ores nres i : ℕ) : 0 < rawWt ores nres i 0 + rawWt ores nres i 1 + rawWt ores nres i 2 + rawWt ores nres i 3 := by
  set f := ctr ores nres i - 0.5 - ⌊ctr ores nres i - 0.5⌋ with hf
  have f0 : 0 ≤ f := by linarith [Int.floor_le (ctr ores nres i - 0.5)]
  have f1 : f < 1 := by linarith [Int.lt_floor_add_one (ctr ores nres i - 0.5)]
  have hfirst : firstTap ores nres i = ⌊ctr ores nres i - 0.5⌋ - 1 := by
    rw [firstTap, show ctr ores nres i - 2 + 0.5 = ctr ores nres i - 0.5 - ((1 : ℤ) : ℝ) by push_cast; ring, Int.floor_sub_intCast]
  have hr (k : ℕ) : rawWt ores nres i k = lanczos ((k - 1 - f) / 2) := by
    rw [rawWt, hfirst, hf]
    congr 1
    push_cast
    ring
  have e0 : rawWt ores nres i 0 = lanczos ((1 + f) / 2) := by
    rw [hr, ← lanczos_neg]; congr 1; push_cast; ring
  have e1 : rawWt ores nres i 1 = lanczos (f / 2) := by
    rw [hr, ← lanczos_neg]; congr 1; push_cast; ring
  have e2 : rawWt ores nres i 2 = lanczos ((1 - f) / 2) := by
    rw [hr]; congr 1; push_cast; ring
  have e3 : rawWt ores nres i 3 = lanczos ((1 + (1 - f)) / 2) := by
    rw [hr]; congr 1; push_cast; ring
  have p1 := (lanczos_pair f f0 f1.le).2 f1
  have p2 := (lanczos_pair (1 - f) (by linarith) (by linarith)).1
  rw [e0, e1, e2, e3]
  linarith

/-- **C57** the four resampling weights of every new pixel sum to one, for all old and new sizes: the sum they are divided by is never zero -/
theorem C57_weights (ores nres i : ℕ) : ∑ k ∈ Finset.range 4, wt ores nres i k = 1 := by
  have h := (rawWt_sum_pos ores nres i).ne'
  simp only [Finset.sum_range_succ, Finset.sum_range_zero, zero_add, wt]
  rw [← add_div, ← add_div, ← add_div]
  exact div_self h

/-- **C57** the taps of a new pixel are the four old pixels nearest to its centre: pixel `p` (centre `p + 1/2`) is a tap exactly if `-2 < p + 1/2 - ctr ≤ 2`
up to the choice at exactly two pixels distance -/
theorem C57_taps (ores nres i : ℕ) (k : ℕ) (hk : k < 4) :
    -2 < (firstTap ores nres i + k + 0.5 - ctr ores nres i : ℝ) ∧ (firstTap ores nres i + k + 0.5 - ctr ores nres i : ℝ) ≤ 2 := by
  have a := Int.floor_le (ctr ores nres i - 2 + 0.5)
  have b := Int.lt_floor_add_one (ctr ores nres i - 2 + 0.5)
  have k0 : (0 : ℝ) ≤ k := Nat.cast_nonneg k
  have k3 : (k : ℝ) ≤ 3 := by exact_mod_cast (show k ≤ 3 by omega)
  simp only [firstTap]
  constructor <;> linarith

/-- **C57** an axis that is not enlarged is kept: each new pixel has weight 1 on the old one -/
theorem C57_weights_identity (n i : ℕ) (hn : 0 < n) : firstTap n n i = i - 1 ∧ wt n n i 0 = 0 ∧ wt n n i 1 = 1 ∧ wt n n i 2 = 0 ∧ wt n n i 3 = 0 := by
  have hn' : (n : ℝ) ≠ 0 := by positivity
  have hc : ctr n n i = i + 0.5 := by simp only [ctr]; field_simp
  have hf : firstTap n n i = i - 1 := by
    rw [firstTap, hc, show (i : ℝ) + 0.5 - 2 + 0.5 = ((i - 1 : ℤ) : ℝ) by push_cast; ring, Int.floor_intCast]
  have r (k : ℕ) : rawWt n n i k = lanczos ((k - 1) / 2) := by
    rw [rawWt, hf, hc]; congr 1; push_cast; ring
  have l0 : lanczos 0 = 1 := by
    have : (0 : ℝ) < texEps := by norm_num [texEps]
    simp [lanczos, this]
  have lh : lanczos (1 / 2) = 0 := by
    have ha : |(1 / 2 : ℝ)| = 1 / 2 := abs_of_nonneg (by norm_num)
    simp only [lanczos, ha]
    rw [if_neg (by norm_num [texEps]), if_neg (by norm_num), npSinc_ne _ (by norm_num)]
    rw [show π * (1 / 2 * 2) = π by ring, sin_pi]
    simp
  have l1 : lanczos 1 = 0 := by
    have ha : |(1 : ℝ)| = 1 := abs_of_nonneg (by norm_num)
    simp only [lanczos, ha]
    rw [if_neg (by norm_num [texEps]), if_neg (by norm_num), npSinc_ne 1 (by norm_num)]
    simp
  have r0 : rawWt n n i 0 = 0 := by
    rw [r, ← lanczos_neg, show -((((0 : ℕ) : ℝ) - 1) / 2) = 1 / 2 by push_cast; ring, lh]
  have r1 : rawWt n n i 1 = 1 := by rw [r]; push_cast; rw [show ((1 : ℝ) - 1) / 2 = 0 by ring, l0]
  have r2 : rawWt n n i 2 = 0 := by rw [r]; push_cast; rw [show ((2 : ℝ) - 1) / 2 = 1 / 2 by ring, lh]
  have r3 : rawWt n n i 3 = 0 := by rw [r]; push_cast; rw [show ((3 : ℝ) - 1) / 2 = 1 by ring, l1]
  simp [hf, wt, r0, r1, r2, r3]

/-! ### C117: resampled images -/

/-- extension of one axis to all integers, as for `ext` -/
def ext1 (w : Wrap) (n : ℕ) (f : ℕ → V) (o : ℤ) : V :=
  match w with
  | .rep => f (o % n).toNat
  | .clamp => f (min o.toNat (n - 1))
  | .black => if 0 ≤ o ∧ o < n then f o.toNat else 0

theorem tap_eq (w : Wrap) (n : ℕ) (hn : 0 < n) (start : ℤ) (wts : ℕ → ℝ) (read : ℤ → Option V) (f : ℕ → V)
    (hf : ∀ o : ℤ, 0 ≤ o → o < n → read o = some (f o.toNat)) (acc : V) (j : ℕ) : tap w n start wts read acc j = some (acc + wts j • ext1 w n f (start + j)) := by
  have h1 : (n : ℤ) ≠ 0 := by omega
  cases w with
  | rep =>
    have a1 := Int.emod_nonneg (start + j) h1
    have a2 := Int.emod_lt_of_pos (start + j) (show (0 : ℤ) < n by omega)
    simp only [tap, ext1]
    rw [if_pos ⟨a1, a2⟩, hf _ a1 a2]
    rfl
  | clamp =>
    simp only [tap, ext1]
    rw [if_pos ⟨by omega, by omega⟩, hf _ (by omega) (by omega), Option.map_some]
    congr 4
    omega
  | black =>
    simp only [tap, ext1]
    split_ifs with h
    · rw [hf _ h.1 h.2]; rfl
    · simp

theorem taps_eq (w : Wrap) (n : ℕ) (hn : 0 < n) (start : ℤ) (wts : ℕ → ℝ) (read : ℤ → Option V) (f : ℕ → V)
    (hf : ∀ o : ℤ, 0 ≤ o → o < n → read o = some (f o.toNat)) : taps w n start wts read = some (∑ j ∈ Finset.range 4, wts j • ext1 w n f (start + j)) := by
  simp only [taps, tap_eq w n hn start wts read f hf, Option.bind_eq_bind, Option.bind_some, Finset.sum_range_succ, Finset.sum_range_zero]

theorem ext1_sum (w : Wrap) (n : ℕ) (c : ℕ → ℝ) (g : ℕ → ℕ → V) (o : ℤ) :
    ext1 w n (fun t => ∑ j ∈ Finset.range 4, c j • g t j) o = ∑ j ∈ Finset.range 4, c j • ext1 w n (fun t => g t j) o := by
  cases w with
  | rep => rfl
  | clamp => rfl
  | black =>
    simp only [ext1]
    split_ifs <;> simp

omit [Module ℝ V] in
theorem ext1_ext1 (w : Wrap) (l : Level V) (p q : ℤ) : ext1 w l.u (fun t => ext1 w l.v (l.a t) q) p = ext w l p q := by
  cases w with
  | rep => rfl
  | clamp => rfl
  | black =>
    simp only [ext1, ext]
    by_cases h1 : 0 ≤ p ∧ p < (l.u : ℤ) <;> by_cases h2 : 0 ≤ q ∧ q < (l.v : ℤ) <;> simp [h1, h2]

theorem passS_eq (w : Wrap) (img : Level V) (n sp : ℕ) (hn : 0 < n) (hu : img.u = n) (hv : img.v = n) (t s : ℕ) (ht : t < n) :
    passS w img sp t s = some (∑ j ∈ Finset.range 4, wt n sp s j • ext1 w n (img.a t) (firstTap n sp s + j)) := by
  rw [passS, hu]
  refine taps_eq w n hn _ _ _ _ fun o h0 h1 => ?_
  have := get_eq img t o ⟨by omega, by omega⟩ ⟨h0, by omega⟩
  simpa using this

/-- **C117 (part)** a square image that is not a power of two wide is resampled to the next power of two; each new texel is the clipped weighted mean of the
4 × 4 taps around it, the weights being the product of the weights of the two axes, with the wrap mode deciding about taps outside.  Missing: images
that are not square (`C117_nonsquare_false`). -/
theorem C117_separable_partial (w : Wrap) (clip : V → V) (img : Level V) (n : ℕ) (hn : 0 < n) (hu : img.u = n) (hv : img.v = n) :
    ∃ (k : ℕ) (l : Level V), resampled w clip img = some l ∧ l.u = 2 ^ k ∧ l.v = 2 ^ k ∧ n ≤ 2 ^ k ∧ (∀ j, n ≤ 2 ^ j → 2 ^ k ≤ 2 ^ j) ∧
      ∀ t < 2 ^ k, ∀ s < 2 ^ k, l.a t s = clip (∑ i ∈ Finset.range 4, wt n (2 ^ k) t i • ∑ j ∈ Finset.range 4, wt n (2 ^ k) s j •
        ext w img (firstTap n (2 ^ k) t + i) (firstTap n (2 ^ k) s + j)) := by
  obtain ⟨⟨k, hk⟩, hle, hmin⟩ := Ints.C53_next_pow_2 (n : ℤ) (by exact_mod_cast hn)
  have hN : (Ints.nextPow2 (n : ℤ)).toNat = 2 ^ k := by
    rw [hk]
    have : ((2 : ℤ) ^ k) = ((2 ^ k : ℕ) : ℤ) := by push_cast; rfl
    rw [this, Int.toNat_natCast]
  have pT (t s : ℕ) : passT w img (2 ^ k) (2 ^ k) t s = some (∑ i ∈ Finset.range 4, wt n (2 ^ k) t i •
      ext1 w n (fun t' => ∑ j ∈ Finset.range 4, wt n (2 ^ k) s j • ext1 w n (img.a t') (firstTap n (2 ^ k) s + j)) (firstTap n (2 ^ k) t + i)) := by
    rw [passT, hv]
    exact taps_eq w n hn _ _ _ _ fun o h0 h1 => passS_eq w img n (2 ^ k) hn hu hv o.toNat s (by omega)
  refine ⟨k, ⟨2 ^ k, 2 ^ k, fun t s => clip ((passT w img (2 ^ k) (2 ^ k) t s).getD 0)⟩, ?_, rfl, rfl, ?_, fun j hj => ?_, fun t _ s _ => ?_⟩
  · simp only [resampled, hu, hv, hN]
    rw [if_pos]
    refine ⟨fun t ht s _ => ?_, fun s _ t _ => ?_⟩
    · rw [passS_eq w img n (2 ^ k) hn hu hv t s ht]; rfl
    · rw [pT]; rfl
  · have := hle
    rw [hk] at this
    exact_mod_cast this
  · have := hmin j (by exact_mod_cast hj)
    rw [hk] at this
    exact_mod_cast this
  · simp only [pT, Option.getD_some]
    congr 1
    refine Finset.sum_congr rfl fun i _ => ?_
    rw [ext1_sum]
    congr 1
    refine Finset.sum_congr rfl fun j _ => ?_
    have := ext1_ext1 w img (firstTap n (2 ^ k) t + i) (firstTap n (2 ^ k) s + j)
    rw [hu, hv] at this
    rw [this]

/-- **C117** resampling keeps a constant image constant (repeat and clamp wrapping, colour not changed by the clipping) -/
theorem C117_constant (w : Wrap) (hw : w ≠ .black) (clip : V → V) (img : Level V) (n : ℕ) (hn : 0 < n) (hu : img.u = n) (hv : img.v = n) (c : V)
    (hc : ∀ s < img.u, ∀ t < img.v, img.a s t = c) (hclip : clip c = c) :
    ∃ (k : ℕ) (l : Level V), resampled w clip img = some l ∧ l.u = 2 ^ k ∧ l.v = 2 ^ k ∧ ∀ t < 2 ^ k, ∀ s < 2 ^ k, l.a t s = c := by
  obtain ⟨k, l, hr, h1, h2, -, -, h⟩ := C117_separable_partial w clip img n hn hu hv
  refine ⟨k, l, hr, h1, h2, fun t ht s hs => ?_⟩
  rw [h t ht s hs]
  have e (p q : ℤ) : ext w img p q = c := by
    have := ext_mem w img (by omega) (by omega) {c} (fun s hs t ht => hc s hs t ht) (fun h => absurd h hw) p q
    exact this
  simp only [e, ← Finset.sum_smul, C57_weights, one_smul, hclip]

/-- **C117** hence the whole pyramid is built for every square image and for every image whose sides are powers of two -/
theorem C117_built (w : Wrap) (clip : V → V) (img : Level V) (hu : 0 < img.u)
    (h : img.u = img.v ∨ ∃ a b : ℕ, img.u = 2 ^ a ∧ img.v = 2 ^ b) : ∃ r, construct w clip img = some r ∧ 0 < r.length := by
  have pow (l : Level V) (a b : ℕ) (ha : l.u = 2 ^ a) (hb : l.v = 2 ^ b) : ∃ r, pyramid w l = some r ∧ 0 < r.length := by
    obtain ⟨r, hr, hl, -⟩ := C114_sizes w l a b ha hb
    exact ⟨r, hr, by omega⟩
  by_cases hp : (!Ints.isPow2 img.u || !Ints.isPow2 img.v) = true
  · rcases h with h | ⟨a, b, ha, hb⟩
    · obtain ⟨k, l, hr, h1, h2, -⟩ := C117_separable_partial w clip img img.u hu rfl h.symm
      obtain ⟨r, h3, h4⟩ := pow l k k h1 h2
      exact ⟨r, by rw [construct, if_pos hp, hr]; exact h3, h4⟩
    · exfalso
      have e1 : Ints.isPow2 (img.u : ℤ) = true := (Ints.C53_is_pow_2 _).2 (Or.inr ⟨a, by rw [ha]; push_cast; rfl⟩)
      have e2 : Ints.isPow2 (img.v : ℤ) = true := (Ints.C53_is_pow_2 _).2 (Or.inr ⟨b, by rw [hb]; push_cast; rfl⟩)
      simp [e1, e2] at hp
  · simp only [Bool.or_eq_true, Bool.not_eq_true', not_or, Bool.not_eq_false] at hp
    obtain ⟨p1, p2⟩ := hp
    have q (n : ℕ) (hn : 0 < n) (hi : Ints.isPow2 (n : ℤ) = true) : ∃ a : ℕ, n = 2 ^ a := by
      rcases (Ints.C53_is_pow_2 _).1 hi with h0 | ⟨a, h0⟩
      · omega
      · exact ⟨a, by exact_mod_cast h0⟩
    have hv : 0 < img.v := by
      rcases h with h | ⟨a, b, ha, hb⟩
      · omega
      · rw [hb]; positivity
    obtain ⟨a, ha⟩ := q _ hu p1
    obtain ⟨b, hb⟩ := q _ hv p2
    obtain ⟨r, h3, h4⟩ := pow img a b ha hb
    exact ⟨r, by rw [construct, p1, p2]; exact h3, h4⟩

/-- **C117 fails** for images that are not square: the two axes are confused in the first pass, and the constructor raises for every image that is not
square and has a side that is not a power of two -/
theorem C117_nonsquare_false (w : Wrap) (clip : V → V) (img : Level V) (hu : 0 < img.u) (hv : 0 < img.v) (hne : img.u ≠ img.v)
    (hp : (¬ ∃ a : ℕ, img.u = 2 ^ a) ∨ ¬ ∃ b : ℕ, img.v = 2 ^ b) : construct w clip img = none := by
  have q (n : ℕ) (hn : 0 < n) (h : ¬ ∃ a : ℕ, n = 2 ^ a) : Ints.isPow2 (n : ℤ) = false := by
    by_contra hc
    rw [Bool.not_eq_false] at hc
    rcases (Ints.C53_is_pow_2 _).1 hc with h0 | ⟨a, h0⟩
    · omega
    · exact h ⟨a, by exact_mod_cast h0⟩
  have hb : (!Ints.isPow2 img.u || !Ints.isPow2 img.v) = true := by
    rcases hp with h | h
    · simp [q _ hu h]
    · simp [q _ hv h]
  rw [construct, if_pos hb]
  obtain ⟨⟨k, hk⟩, hle, -⟩ := Ints.C53_next_pow_2 (img.u : ℤ) (by exact_mod_cast hu)
  have hN : (Ints.nextPow2 (img.u : ℤ)).toNat = 2 ^ k := by
    rw [hk]
    have : ((2 : ℤ) ^ k) = ((2 ^ k : ℕ) : ℤ) := by push_cast; rfl
    rw [this, Int.toNat_natCast]
  have hle' : img.u ≤ 2 ^ k := by rw [hk] at hle; exact_mod_cast hle
  -- the last new column reads the old column `u - 1`
  have hlast : passS w img (2 ^ k) (img.v - 1) (2 ^ k - 1) = none := by
    have hN0 : 0 < 2 ^ k := by positivity
    have hc : ctr img.u (2 ^ k) (2 ^ k - 1) = img.u - 0.5 * (img.u / ((2 ^ k : ℕ) : ℝ)) := by
      have : ((2 ^ k : ℕ) : ℝ) ≠ 0 := by positivity
      simp only [ctr]
      rw [Nat.cast_sub (by omega)]
      field_simp
      push_cast
      ring
    have hq1 : (img.u : ℝ) / ((2 ^ k : ℕ) : ℝ) ≤ 1 := by
      rw [div_le_one (by positivity)]
      exact_mod_cast hle'
    have hq0 : 0 < (img.u : ℝ) / ((2 ^ k : ℕ) : ℝ) := by positivity
    have hf : firstTap img.u (2 ^ k) (2 ^ k - 1) = img.u - 2 := by
      rw [firstTap, Int.floor_eq_iff, hc]
      push_cast
      push_cast at hq0 hq1
      constructor <;> linarith
    have hread : img.get ((img.v - 1 : ℕ) : ℤ) ((img.u : ℤ) - 1) = none := by
      rw [Level.get]
      rcases Nat.lt_or_gt_of_ne hne with hlt | hlt
      · have : npIx img.u ((img.v - 1 : ℕ) : ℤ) = none := by
          simp only [npIx]
          rw [if_neg (by omega), if_neg (by omega)]
        rw [this]; rfl
      · have h2 : npIx img.v ((img.u : ℤ) - 1) = none := by
          simp only [npIx]
          rw [if_neg (by omega), if_neg (by omega)]
        rw [h2]
        cases npIx img.u ((img.v - 1 : ℕ) : ℤ) <;> rfl
    have ht (acc : V) : tap w img.u (firstTap img.u (2 ^ k) (2 ^ k - 1)) (wt img.u (2 ^ k) (2 ^ k - 1)) (fun o => img.get ((img.v - 1 : ℕ) : ℤ) o) acc 1 = none := by
      rw [hf]
      have e : ((img.u : ℤ) - 2 + ((1 : ℕ) : ℤ)) = img.u - 1 := by push_cast; ring
      have h3 : ((img.u : ℤ) - 1) % img.u = img.u - 1 := Int.emod_eq_of_lt (by omega) (by omega)
      have h4 : min (max ((img.u : ℤ) - 1) 0) (img.u - 1) = img.u - 1 := by omega
      cases w <;> simp only [tap, e, h3, h4] <;> rw [if_pos (by omega), hread] <;> rfl
    rw [passS, taps]
    simp only [ht]
    cases tap w img.u (firstTap img.u (2 ^ k) (2 ^ k - 1)) (wt img.u (2 ^ k) (2 ^ k - 1)) (fun o => img.get ((img.v - 1 : ℕ) : ℤ) o) 0 0 <;> rfl
  have : resampled w clip img = none := by
    simp only [resampled, hN]
    rw [if_neg]
    rintro ⟨h, -⟩
    have := h (img.v - 1) (by omega) (2 ^ k - 1) (by have : 0 < 2 ^ k := by positivity
                                                     omega)
    rw [hlast] at this
    simp at this
  rw [this]
  rfl

/-- a 3 × 3 image is resampled to 4 × 4 and a 3 × 4 image cannot be made into a mip-map -/
example : (∃ r, construct .rep id (⟨3, 3, fun s _ => (s : ℝ)⟩ : Level ℝ) = some r ∧ 0 < r.length) ∧ construct .rep id (⟨3, 4, fun s _ => (s : ℝ)⟩ : Level ℝ) = none := by
  refine ⟨C117_built _ _ _ (by norm_num) (Or.inl rfl), C117_nonsquare_false _ _ _ (by norm_num) (by norm_num) (by norm_num) (Or.inl ?_)⟩
  rintro ⟨a, ha⟩
  rcases a with _ | a
  · simp at ha
  · simp only [pow_succ] at ha
    omega

end Verif.Texture
