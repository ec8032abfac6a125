import Verif.Light.Light
import Verif.Util.Ints

/-!
# Reading pictures, and the lights that use them (`utility/imageio.py:21-50`, `light/light.py:225-467, 550-579`): properties C159, C160

A picture file is what `np.array(PIL.Image.open(...))` makes of it: not readable, an array with two axes (grey) or with three
(rows, columns, channels).  The light's map is identified with the texels it is made from.
-/
namespace Verif.Files
open Verif V3 Geom Light

/-! ### Model -/

/-- an array with three axes -/
structure Arr where
  rows : ℕ
  cols : ℕ
  chn : ℕ
  px : ℕ → ℕ → ℕ → ℕ

/-- a file as PIL presents it -/
inductive Pic where
  | unreadable
  | grey (rows cols : ℕ) (px : ℕ → ℕ → ℕ)
  | colour (a : Arr)

/-- the exceptions -/
inductive Err | ioError | valueError | zeroDivision | attributeError | typeError
  deriving DecidableEq

/-- `read_image(filename)` (`imageio.py:21-50`); `none` is the file name `None`.  `width, height, chn = np.shape(img)` (33) needs
three axes.  `pic.resize` (43) returns the resized picture, which is dropped, and `img` is read from `pic` again (44). -/
def readImage : Option Pic → Except Err Arr
  | none => .error .ioError
  | some .unreadable => .error .ioError
  | some (.grey _ _ _) => .error .valueError
  | some (.colour pic) =>
    let img := pic
    let img := if img.chn ≥ 4 then { img with chn := 3 } else img
    let img := if Ints.isPow2 pic.rows = false ∨ Ints.isPow2 pic.cols = false then pic else img
    .ok img

/-- `texels = read_image(texname); width, height = np.shape(texels)` (`light.py:239-240, 349-350, 569-570`) -/
def loadTexels (f : Option Pic) : Except Err (Arr × ℕ × ℕ) :=
  match readImage f with
  | .error e => .error e
  | .ok a =>
    match [a.rows, a.cols, a.chn] with
    | [w, h] => .ok (a, w, h)
    | _ => .error .valueError

/-- `ProjectionLight.__init__` (`light.py:231-255`) up to `aspect`: the map and the aspect ratio.  All exceptions of the loading are
caught (241-245).  Dividing the integers 0 and 0 raises. -/
def projectionLight (f : Option Pic) : Except Err (Option Arr × ℚ) :=
  let (texels, width, height) := match loadTexels f with
    | .ok (a, w, h) => (some a, w, h)
    | .error _ => (none, 0, 0)
  if height = 0 then .error .zeroDivision else .ok (texels, (width : ℚ) / height)

/-- `GonioPhotometricLight.__init__` (`light.py:341-361`): its map -/
def gonioMap (f : Option Pic) : Option Arr :=
  match loadTexels f with
  | .ok (a, _, _) => some a
  | .error _ => none

/-- `GonioPhotometricLight.__scale` (`light.py:364-384`); with a map it reads the attribute `projMap`, which the object does not
have (384).  `Spectrum(1.)` is one in each channel. -/
def gonioScale {ι : Type*} (map : Option Arr) (_w : V3 ℝ) : Except Err (ι → ℝ) :=
  match map with
  | none => .ok fun _ => 1
  | some _ => .error .attributeError

/-- `GonioPhotometricLight.sample_l` (`light.py:386-392`) -/
noncomputable def gonioSample {ι : Type*} (f : Option Pic) (pos : V3 ℝ) (I : ι → ℝ) (p : V3 ℝ) (pEps : ℝ) : Except Err (LSample ι) :=
  let wi := normalize (pos - p)
  match gonioScale (ι := ι) (gonioMap f) (-wi) with
  | .error e => .error e
  | .ok s => .ok ⟨fun c => I c / s c, wi, 1, setSegment p pEps pos 0⟩

/-- the texels of the map of an `InfiniteAreaLight` (`light.py:563-579`): `rgb` is `l.to_rgb()`; the constant picture if no file is given or
if loading it fails. -/
inductive EnvMap where
  | constant (rgb : Fin 3 → ℝ)
  | picture (a : Arr)

/-- `InfiniteAreaLight.__init__` (`light.py:563-579`): map, width and height -/
def envMap (rgb : Fin 3 → ℝ) : Option Pic → EnvMap × ℕ × ℕ
  | none => (.constant rgb, 1, 1)
  | some f =>
    match loadTexels (some f) with
    | .ok (a, w, h) => (.picture a, w, h)
    | .error _ => (.constant rgb, 1, 1)

/-- a `DistantLight` object: its attributes (`light.py:420-423`); `pos` is one that other lights have -/
structure Distant (ι : Type*) where
  di : V3 ℝ
  l : ι → ℝ
  pos : Option (V3 ℝ)

/-- `DistantLight.__init__` (`light.py:420-423`); `l2w` is the light-to-world map on vectors.  No `pos` is set. -/
noncomputable def Distant.mk' {ι : Type*} (l2w : V3 ℝ → V3 ℝ) (radiance : ι → ℝ) (di : V3 ℝ) : Distant ι := ⟨normalize (l2w di), radiance, none⟩

/-- `DistantLight.sample_l` (`light.py:425-431`): line 430 reads `self.pos`, and passes five arguments to `set_ray`, which takes four
(`light/utility.py:44`) -/
def Distant.sample {ι : Type*} (o : Distant ι) : Except Err (LSample ι) :=
  match o.pos with
  | none => .error .attributeError
  | some _ => .error .typeError

/-! ### Theorems -/

/-- **C159** a picture with sides that are powers of two is read as it is, without its fourth channel.
Missing: other sizes (`C159_resample_false`). -/
theorem C159_read_partial (a : Arr) (hr : ∃ k, a.rows = 2 ^ k) (hc : ∃ k, a.cols = 2 ^ k) :
    ∃ b, readImage (some (.colour a)) = .ok b ∧ b.rows = a.rows ∧ b.cols = a.cols ∧ b.chn = (if 4 ≤ a.chn then 3 else a.chn) ∧
      ∀ i j k, k < b.chn → b.px i j k = a.px i j k := by
  have h1 : Ints.isPow2 a.rows = true := (Ints.C53_is_pow_2 _).2 (.inr (by obtain ⟨k, hk⟩ := hr; exact ⟨k, by rw [hk]; push_cast; rfl⟩))
  have h2 : Ints.isPow2 a.cols = true := (Ints.C53_is_pow_2 _).2 (.inr (by obtain ⟨k, hk⟩ := hc; exact ⟨k, by rw [hk]; push_cast; rfl⟩))
  by_cases h : 4 ≤ a.chn
  · exact ⟨{ a with chn := 3 }, by simp [readImage, h1, h2, h], rfl, rfl, by simp [h], fun _ _ _ _ => rfl⟩
  · exact ⟨a, by simp [readImage, h1, h2, h], rfl, rfl, by simp [h], fun _ _ _ _ => rfl⟩

/-- **C159 is violated**: a picture with another size is not resampled, and its fourth channel is kept.  Grey pictures cannot be read. -/
theorem C159_resample_false (a : Arr) (h : (a.rows ≠ 0 ∧ ∀ k : ℕ, a.rows ≠ 2 ^ k) ∨ (a.cols ≠ 0 ∧ ∀ k : ℕ, a.cols ≠ 2 ^ k)) :
    readImage (some (.colour a)) = .ok a ∧ ∀ r c px, readImage (some (.grey r c px)) = .error .valueError := by
  refine ⟨?_, fun _ _ _ => rfl⟩
  have key : ∀ n : ℕ, n ≠ 0 ∧ (∀ k : ℕ, n ≠ 2 ^ k) → Ints.isPow2 (n : ℤ) = false := by
    rintro n ⟨h0, hk⟩
    by_contra hc
    rcases (Ints.C53_is_pow_2 n).1 (by simpa using hc) with h | ⟨k, h⟩
    · exact h0 (by exact_mod_cast h)
    · exact hk k (by exact_mod_cast h)
  have : Ints.isPow2 a.rows = false ∨ Ints.isPow2 a.cols = false := h.imp (key _) (key _)
  simp only [readImage, this, if_true]

/-- loading texels for a light never succeeds -/
theorem loadTexels_error (f : Option Pic) : ∃ e, loadTexels f = .error e := by
  unfold loadTexels
  cases readImage f with
  | error e => exact ⟨e, rfl⟩
  | ok a => exact ⟨_, rfl⟩

/-- **C160** a goniophotometric light is seen in the direction of its position, with a shadow ray that reaches from the point to the light.
Missing: the pattern and the distance (`C160_pictures_false`). -/
theorem C160_gonio_partial {ι : Type*} (f : Option Pic) (pos p : V3 ℝ) (I : ι → ℝ) (pEps : ℝ) (h : p ≠ pos) :
    ∃ s, gonioSample f pos I p pEps = .ok s ∧ Geom.length s.wi = 1 ∧ pos = p + Geom.length (pos - p) * s.wi ∧ s.pdf = 1 ∧
      s.vis.o = p ∧ s.vis.d = s.wi ∧ s.vis.mint = pEps ∧ s.vis.maxt = (Geom.length (pos - p) : WithTop ℝ) := by
  obtain ⟨e, he⟩ := loadTexels_error f
  obtain ⟨-, h2, h3, -, h5, h6, h7, h8⟩ := C96_point_sample pos p I pEps h
  exact ⟨⟨fun c => I c / 1, normalize (pos - p), 1, setSegment p pEps pos 0⟩, by simp only [gonioSample, gonioMap, he, gonioScale], h2, h3, rfl, h5, h6, h7, h8⟩

/-- **C160 is violated**: whatever the picture file, a projection light cannot be made; a goniophotometric light is equally bright in all directions and at
all distances; an environment light is the constant one; and sampling a distant light raises. -/
theorem C160_pictures_false {ι : Type*} (f : Pic) :
    projectionLight (some f) = .error .zeroDivision ∧
    (∀ (pos p : V3 ℝ) (I : ι → ℝ) (pEps : ℝ), ∃ s, gonioSample (some f) pos I p pEps = .ok s ∧ s.radiance = I) ∧
    (∀ rgb, envMap rgb (some f) = envMap rgb none) ∧
    (∀ (l2w : V3 ℝ → V3 ℝ) (di : V3 ℝ) (L : ι → ℝ), (Distant.mk' l2w L di).sample = .error .attributeError) := by
  obtain ⟨e, he⟩ := loadTexels_error (some f)
  refine ⟨by simp only [projectionLight, he, if_true], ?_, ?_, ?_⟩
  · intro pos p I pEps
    exact ⟨⟨fun c => I c / 1, normalize (pos - p), 1, setSegment p pEps pos 0⟩, by simp only [gonioSample, gonioMap, he, gonioScale], by simp⟩
  · intro rgb; simp only [envMap, he]
  · intro l2w di L
    rfl

/-- non-vacuity -/
example : ∃ a : Arr, (∃ k, a.rows = 2 ^ k) ∧ (∃ k, a.cols = 2 ^ k) ∧ a.chn = 4 := ⟨⟨8, 4, 4, fun _ _ _ => 0⟩, ⟨3, rfl⟩, ⟨2, rfl⟩, rfl⟩

example : ∃ a : Arr, (a.rows ≠ 0 ∧ ∀ k : ℕ, a.rows ≠ 2 ^ k) := by
  refine ⟨⟨3, 4, 4, fun _ _ _ => 0⟩, by simp, ?_⟩
  intro k hk
  rcases k with _ | k
  · simp at hk
  · rw [pow_succ] at hk
    simp only at hk
    omega

end Verif.Files
