import Mathlib.Algebra.Order.Field.Basic
import Mathlib.Algebra.Order.Floor.Ring
import Mathlib.Data.Finset.Lattice.Fold
import Mathlib.Data.Fintype.Prod
import Mathlib.Data.Rat.Floor
import Mathlib.Tactic.Linarith
import Mathlib.Tactic.NormNum
import Mathlib.Tactic.Positivity
import Mathlib.Tactic.FieldSimp
import Mathlib.Tactic.FinCases
/-!
# Writing the image file (C65)

Models `pytracer/utility/imageio.py` `write_image` 53-93 and the call in `pytracer/film/film.py` 258-260.
Pixels are numbers of a linearly ordered field; a file is an array of rows of byte triples (`PNG`, mode `RGB`, is
lossless, so the encoder is left out).  `astype('uint8')` truncates; outside `[0,256)` its result is
platform dependent, `none` here.
-/
namespace Verif.ImageIO

set_option linter.unusedSectionVars false
variable {K : Type} [Field K] [LinearOrder K] [IsStrictOrderedRing K] [FloorRing K]

/-- an array of shape `(h, w, 3)` -/
abbrev Arr (α : Type*) (h w : ℕ) := Fin h → Fin w → Fin 3 → α

/-- an image file: height, width and bytes -/
structure File where
  h : ℕ
  w : ℕ
  px : ℕ → ℕ → Fin 3 → Option ℕ

/-- outcomes other than a return -/
inductive Err | ioError | valueError | runtimeError | notImplemented
  deriving DecidableEq, Repr

/-- `np.max(rgb[:, :, i])`, imageio.py 61; raises `ValueError` on an empty array -/
def chanMax {h w : ℕ} (a : Arr K h w) (i : Fin 3) : Except Err K :=
  if hn : (Finset.univ : Finset (Fin h × Fin w)).Nonempty then .ok (Finset.univ.sup' hn fun p => a p.1 p.2 i) else .error .valueError

/-- `rgb[:, :, i] = 255 * rgb[:, :, i] / coef` unless `coef == 0`, imageio.py 62-63 -/
def scale (coef v : K) : K := if coef = 0 then v else 255 * v / coef

/-- `astype('uint8')`, imageio.py 65 -/
def toByte (x : K) : Option ℕ := if 0 ≤ x ∧ x < 256 then some ⌊x⌋.toNat else none

/-- the bytes computed from `rgb`, imageio.py 60-65 -/
def bytes {h w : ℕ} (a : Arr K h w) : Except Err (Arr (Option ℕ) h w) := do
  let c0 ← chanMax a 0
  let c1 ← chanMax a 1
  let c2 ← chanMax a 2
  return fun y x i => toByte (scale (if i = 0 then c0 else if i = 1 then c1 else c2) (a y x i))

/-- length of `img[lo:hi]` along an axis of length `n` (non-negative bounds) -/
def sliceLen (n lo hi : ℕ) : ℕ := min hi n - min lo n

/-- `img[xOff:xOff+xRes-1, yOff:yOff+yRes-1, :] = rgb`, imageio.py 84, with `numpy`'s broadcasting: each
axis of the source has the length of the slice or length one, otherwise `ValueError`.  (`xRes`, `yRes` ≥ 1, so the bounds are
not negative.) -/
def assign {h w : ℕ} (f : File) (a : Arr (Option ℕ) h w) (xRes yRes xOff yOff : ℕ) : Except Err File :=
  let l0 := sliceLen f.h xOff (xOff + xRes - 1)
  let l1 := sliceLen f.w yOff (yOff + yRes - 1)
  if (h = l0 ∨ h = 1) ∧ (w = l1 ∨ w = 1) then
    .ok ⟨f.h, f.w, fun r c i =>
      if xOff ≤ r ∧ r < xOff + l0 ∧ yOff ≤ c ∧ c < yOff + l1 then
        let r' := if h = 1 then 0 else r - xOff
        let c' := if w = 1 then 0 else c - yOff
        if hb : r' < h ∧ c' < w then a ⟨r', hb.1⟩ ⟨c', hb.2⟩ i else none
      else f.px r c i⟩
  else .error .valueError

/-- `write_image`, imageio.py 53-93: the file system's old content of the file name and the new content.  `name`/`alpha`
tell whether those arguments are `None`; the argument `rgb` is always given by the film. -/
def writeImage {h w : ℕ} (name alpha : Bool) (old : Option File) (a : Arr K h w) (xRes yRes xFull yFull xOff yOff : ℕ) : Except Err File :=
  if name = false then .error .ioError else do
  let b ← bytes a
  if alpha = false then
    if xRes = xFull ∧ yRes = yFull then
      return ⟨h, w, fun y x i => if hb : y < h ∧ x < w then b ⟨y, hb.1⟩ ⟨x, hb.2⟩ i else none⟩
    else match old with
      | none => .error .runtimeError
      | some f => assign f b xRes yRes xOff yOff
  else .error .notImplemented

/-! ### Specification -/

/-- the byte a non-negative value gets: its share of the largest value of its channel, on the scale 0 … 255, rounded down -/
def byteOf {h w : ℕ} (a : Arr K h w) (y : Fin h) (x : Fin w) (i : Fin 3) (n : ℕ) : Prop :=
  ∃ m : K, (∃ y' x', a y' x' i = m) ∧ (∀ y' x', a y' x' i ≤ m) ∧
    ((m = 0 ∧ n = 0) ∨ (0 < m ∧ (n : K) ≤ 255 * (a y x i / m) ∧ 255 * (a y x i / m) < n + 1))

theorem chanMax_ok {h w : ℕ} (a : Arr K h w) (i : Fin 3) (hh : 0 < h) (hw : 0 < w) :
    ∃ m, chanMax a i = .ok m ∧ (∃ y x, a y x i = m) ∧ ∀ y x, a y x i ≤ m := by
  have hn : (Finset.univ : Finset (Fin h × Fin w)).Nonempty := ⟨(⟨0, hh⟩, ⟨0, hw⟩), Finset.mem_univ _⟩
  refine ⟨_, by rw [chanMax, dif_pos hn], ?_, ?_⟩
  · obtain ⟨p, _, hp⟩ := Finset.exists_mem_eq_sup' hn (fun p : Fin h × Fin w => a p.1 p.2 i)
    exact ⟨p.1, p.2, hp.symm⟩
  · intro y x
    exact Finset.le_sup' (fun p : Fin h × Fin w => a p.1 p.2 i) (Finset.mem_univ (y, x))

theorem toByte_scale {m v : K} (hm : 0 ≤ m) (h0 : 0 ≤ v) (hv : v ≤ m) :
    ∃ n : ℕ, toByte (scale m v) = some n ∧ n ≤ 255 ∧
      ((m = 0 ∧ n = 0) ∨ (0 < m ∧ (n : K) ≤ 255 * (v / m) ∧ 255 * (v / m) < n + 1)) := by
  rcases hm.eq_or_lt with hm | hm
  · have : v = 0 := le_antisymm (hm ▸ hv) h0
    refine ⟨0, ?_, by omega, .inl ⟨hm.symm, rfl⟩⟩
    rw [scale, if_pos hm.symm, this, toByte, if_pos ⟨le_rfl, by norm_num⟩]; simp
  · have e : scale m v = 255 * (v / m) := by rw [scale, if_neg hm.ne', mul_div_assoc]
    have l : v / m ≤ 1 := (div_le_one hm).2 hv
    have z : 0 ≤ v / m := div_nonneg h0 hm.le
    rw [e]
    set q := 255 * (v / m) with hq
    have q0 : 0 ≤ q := by positivity
    have q1 : q ≤ 255 := by linarith
    have f0 : 0 ≤ ⌊q⌋ := Int.floor_nonneg.2 q0
    have cast : ((⌊q⌋.toNat : ℕ) : K) = (⌊q⌋ : K) := by
      have : ((⌊q⌋.toNat : ℕ) : ℤ) = ⌊q⌋ := Int.toNat_of_nonneg f0
      exact_mod_cast congrArg (Int.cast (R := K)) this
    refine ⟨⌊q⌋.toNat, by rw [toByte, if_pos ⟨q0, by linarith⟩], ?_, .inr ⟨hm, ?_, ?_⟩⟩
    · have : ⌊q⌋ ≤ 255 := by
        have := Int.floor_le_floor q1
        simpa using this
      omega
    · rw [cast]; exact Int.floor_le q
    · rw [cast]; exact Int.lt_floor_add_one q

theorem bytes_ok {h w : ℕ} (a : Arr K h w) (hh : 0 < h) (hw : 0 < w) (h0 : ∀ y x i, 0 ≤ a y x i) :
    ∃ b, bytes a = .ok b ∧ ∀ y x i, ∃ n : ℕ, b y x i = some n ∧ n ≤ 255 ∧ byteOf a y x i n := by
  obtain ⟨m0, e0, w0, l0⟩ := chanMax_ok a 0 hh hw
  obtain ⟨m1, e1, w1, l1⟩ := chanMax_ok a 1 hh hw
  obtain ⟨m2, e2, w2, l2⟩ := chanMax_ok a 2 hh hw
  refine ⟨_, by simp only [bytes, e0, e1, e2, bind, Except.bind, pure, Except.pure]; rfl, ?_⟩
  intro y x i
  have key : ∀ (i : Fin 3) (m : K), (∃ y x, a y x i = m) → (∀ y x, a y x i ≤ m) →
      ∃ n : ℕ, toByte (scale m (a y x i)) = some n ∧ n ≤ 255 ∧ byteOf a y x i n := by
    intro i m hw hl
    obtain ⟨y', x', hm⟩ := hw
    obtain ⟨n, h1, h2, h3⟩ := toByte_scale (hm ▸ h0 y' x' i) (h0 y x i) (hl y x)
    exact ⟨n, h1, h2, m, ⟨y', x', hm⟩, hl, h3⟩
  fin_cases i
  · simpa using key 0 m0 w0 l0
  · simpa using key 1 m1 w1 l1
  · simpa using key 2 m2 w2 l2

/-- **C65 (part)** writing the full image (no crop) of a non-empty array of non-negative values always succeeds, whatever
the file held before; the file has the shape of the array and each byte is its value's share of the largest value of its
channel on the scale 0 … 255.  Missing: cropped images, `C65_crop_false`. -/
theorem C65_full_image_partial {h w : ℕ} (old : Option File) (a : Arr K h w) (hh : 0 < h) (hw : 0 < w) (h0 : ∀ y x i, 0 ≤ a y x i)
    (xOff yOff : ℕ) : ∃ f, writeImage true false old a w h w h xOff yOff = .ok f ∧ f.h = h ∧ f.w = w ∧
      ∀ (y : Fin h) (x : Fin w) (i : Fin 3), ∃ n : ℕ, f.px y x i = some n ∧ n ≤ 255 ∧ byteOf a y x i n := by
  obtain ⟨b, e, hb⟩ := bytes_ok a hh hw h0
  refine ⟨_, by simp only [writeImage, e, bind, Except.bind, pure, Except.pure, Bool.true_eq_false, if_false, if_true, and_self]; rfl, rfl, rfl, ?_⟩
  intro y x i
  simpa using hb y x i

/-- **C65** consequences for two pixels of the same channel: a larger value never gets a smaller byte, the largest value of a channel
that is not all zero gets 255, and zero gets 0. -/
theorem C65_bytes_monotone {h w : ℕ} (a : Arr K h w) (h0 : ∀ y x i, 0 ≤ a y x i) (y y' : Fin h) (x x' : Fin w) (i : Fin 3) (n n' : ℕ)
    (hn : byteOf a y x i n) (hn' : byteOf a y' x' i n') :
    (a y x i ≤ a y' x' i → n ≤ n') ∧ (a y x i = 0 → n = 0) ∧ ((∀ v u, a v u i ≤ a y x i) → 0 < a y x i → n = 255) := by
  obtain ⟨m, ⟨v, u, hm⟩, hl, hc⟩ := hn
  obtain ⟨m', ⟨v', u', hm'⟩, hl', hc'⟩ := hn'
  have em : m = m' := le_antisymm (hm ▸ hl' v u) (hm' ▸ hl v' u')
  subst em
  refine ⟨?_, ?_, ?_⟩
  · intro hle
    rcases hc with ⟨_, rfl⟩ | ⟨hp, h1, h2⟩
    · exact Nat.zero_le _
    · rcases hc' with ⟨hz, _⟩ | ⟨_, h1', h2'⟩
      · exact absurd hz hp.ne'
      · have : a y x i / m ≤ a y' x' i / m := div_le_div_of_nonneg_right hle hp.le
        have : (n : K) < n' + 1 := by linarith
        have : n < n' + 1 := by exact_mod_cast this
        omega
  · intro hz
    rcases hc with ⟨_, rfl⟩ | ⟨hp, h1, h2⟩
    · rfl
    · rw [hz, zero_div, mul_zero] at h1
      have : n ≤ 0 := by exact_mod_cast h1
      omega
  · intro hmax hpos
    have e : a y x i = m := le_antisymm (hl y x) (hm ▸ hmax v u)
    rcases hc with ⟨hz, _⟩ | ⟨hp, h1, h2⟩
    · exact absurd (e.trans hz) hpos.ne'
    · rw [e, div_self hp.ne', mul_one] at h1 h2
      have a1 : n ≤ 255 := by exact_mod_cast h1
      have a2 : 255 < n + 1 := by exact_mod_cast h2
      omega

/-- **C65** no file name is an `IOError`; a cropped image without an existing file is a `RuntimeError`; nothing is written. -/
theorem C65_errors {h w : ℕ} (alpha : Bool) (old : Option File) (a : Arr K h w) (hh : 0 < h) (hw : 0 < w)
    (xRes yRes xFull yFull xOff yOff : ℕ) :
    writeImage false alpha old a xRes yRes xFull yFull xOff yOff = .error .ioError ∧
    (¬ (xRes = xFull ∧ yRes = yFull) → writeImage true false none a xRes yRes xFull yFull xOff yOff = .error .runtimeError) := by
  refine ⟨rfl, fun hne => ?_⟩
  obtain ⟨m0, e0, -⟩ := chanMax_ok a 0 hh hw
  obtain ⟨m1, e1, -⟩ := chanMax_ok a 1 hh hw
  obtain ⟨m2, e2, -⟩ := chanMax_ok a 2 hh hw
  simp [writeImage, bytes, e0, e1, e2, bind, Except.bind, pure, Except.pure, hne]

/-- **C65 is false of the code for cropped images**: whatever the window, its position and the existing file, a cropped film either
gets a `ValueError` or, for a one-pixel window, leaves the file as it was: no cropped film ever updates
the file.  (`w`, `h` are the window's pixel counts, as film.py 258-260 passes them.) -/
theorem C65_crop_false {h w : ℕ} (f : File) (a : Arr K h w) (hh : 0 < h) (hw : 0 < w) (xFull yFull xOff yOff : ℕ)
    (hcrop : ¬ (w = xFull ∧ h = yFull)) :
    writeImage true false (some f) a w h xFull yFull xOff yOff =
      if w = 1 ∧ h = 1 then .ok f else .error .valueError := by
  obtain ⟨m0, e0, -⟩ := chanMax_ok a 0 hh hw
  obtain ⟨m1, e1, -⟩ := chanMax_ok a 1 hh hw
  obtain ⟨m2, e2, -⟩ := chanMax_ok a 2 hh hw
  have l0 : sliceLen f.h xOff (xOff + w - 1) ≤ w - 1 := by simp only [sliceLen]; omega
  have l1 : sliceLen f.w yOff (yOff + h - 1) ≤ h - 1 := by simp only [sliceLen]; omega
  simp only [writeImage, bytes, e0, e1, e2, bind, Except.bind, pure, Except.pure, hcrop, Bool.true_eq_false, if_false, if_true, assign]
  by_cases h1 : w = 1 ∧ h = 1
  · rw [if_pos (by omega), if_pos h1]
    congr 1
    obtain ⟨fh, fw, px⟩ := f
    congr 1
    funext r c i
    rw [if_neg (by omega)]
  · rw [if_neg (by omega), if_neg h1]

/-- a 1 × 2 image: channel 0 is (1, 2), channel 1 is (0, 0), channel 2 is (3, 1) -/
def exImg : Arr ℚ 1 2 := fun _ x i => if i = 0 then (if x = 0 then 1 else 2) else if i = 1 then 0 else (if x = 0 then 3 else 1)

/-- the hypotheses of the theorems hold for `exImg`, and its bytes are (127, 0, 255), (255, 0, 85) -/
example : (∀ y x i, 0 ≤ exImg y x i) ∧ byteOf exImg 0 0 0 127 ∧ byteOf exImg 0 1 0 255 ∧ byteOf exImg 0 0 1 0 ∧ byteOf exImg 0 1 2 85 := by
  refine ⟨by decide +kernel, ⟨2, ⟨0, 1, rfl⟩, by decide +kernel, .inr (by norm_num [exImg])⟩, ⟨2, ⟨0, 1, rfl⟩, by decide +kernel, .inr (by norm_num [exImg])⟩,
    ⟨0, ⟨0, 1, rfl⟩, by decide +kernel, .inl (by norm_num)⟩, ⟨3, ⟨0, 0, rfl⟩, by decide +kernel, .inr (by decide +kernel)⟩⟩

/-- a crop meeting the hypotheses of `C65_crop_false` -/
example : writeImage true false (some ⟨4, 4, fun _ _ _ => some 0⟩) (fun _ _ _ => 1 : Arr ℚ 2 2) 2 2 4 4 1 1 = .error .valueError :=
  (C65_crop_false ⟨4, 4, fun _ _ _ => some 0⟩ _ (by norm_num) (by norm_num) 4 4 1 1 (by norm_num)).trans (by norm_num)

end Verif.ImageIO
