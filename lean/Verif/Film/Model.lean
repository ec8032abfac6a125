import Mathlib.Algebra.Order.Field.Basic
import Mathlib.Algebra.Order.Floor.Ring
import Mathlib.Algebra.Module.Pi
import Mathlib.Algebra.BigOperators.Group.List.Basic
import Mathlib.Data.Fin.VecNotation
import Mathlib.Tactic.Ring
import Mathlib.Tactic.Linarith

/-!
# ImageFilm (`pytracer/film/film.py`)

Numbers are elements of an ordered field with floor; rounding, NaN and infinities are not modelled.
-/

namespace Verif.Film

/-- a 3-array (RGB or XYZ). -/
abbrev Vec (K : Type*) := Fin 3 → K

section
variable {K : Type*} [Field K]

/-- `rgb2xyz` (`spectral/spectrum.py:31-34`). -/
def rgb2xyz (c : Vec K) : Vec K :=
  ![412453 / 1000000 * c 0 + 357580 / 1000000 * c 1 + 180423 / 1000000 * c 2,
    212671 / 1000000 * c 0 + 715160 / 1000000 * c 1 + 72169 / 1000000 * c 2,
    19334 / 1000000 * c 0 + 119193 / 1000000 * c 1 + 950227 / 1000000 * c 2]

/-- `xyz2rgb` (`spectral/spectrum.py:25-28`). -/
def xyz2rgb (c : Vec K) : Vec K :=
  ![3240479 / 1000000 * c 0 - 1537150 / 1000000 * c 1 - 498535 / 1000000 * c 2,
    -(969256 / 1000000) * c 0 + 1875991 / 1000000 * c 1 + 41556 / 1000000 * c 2,
    55648 / 1000000 * c 0 - 204043 / 1000000 * c 1 + 1057311 / 1000000 * c 2]

/-- the attributes of a `Filter` the film uses (`filter/filter.py:21-27`): half-widths, their
inverses, and evaluation. -/
structure Filt (K : Type*) where
  xw : K
  yw : K
  xwInv : K
  ywInv : K
  eval : K → K → K

/-- `ImageFilm.Pixel` (`film.py:93-106`) without its lock (see `Film/Conc.lean`). -/
structure Pixel (K : Type*) where
  Lxyz : Vec K
  splatXYZ : Vec K
  w : K

/-- `ImageFilm` after construction (`film.py:108-135`).  `pix i j` is `pixels[i][j]`, an array of
shape `xCnt × yCnt`; only indices inside that shape exist. -/
structure Film (K : Type*) where
  filt : Filt K
  xStart : ℤ
  xCnt : ℕ
  yStart : ℤ
  yCnt : ℕ
  table : ℕ → ℕ → K
  pix : ℕ → ℕ → Pixel K

/-- numpy's `a[i]` on an axis of length `n`: negative indices count from the end; `none` is an
`IndexError`. -/
def npIndex (n : ℕ) (i : ℤ) : Option ℕ :=
  if 0 ≤ i ∧ i < n then some i.toNat else if i < 0 ∧ 0 ≤ i + n then some (i + n).toNat else none

/-- `range(a, b + 1)`. -/
def irange (a b : ℤ) : List ℤ := (List.range (b + 1 - a).toNat).map (fun k : ℕ => a + k)

/-- `FILTER_TABLE_SIZE` (`pytracer/__init__.py:20`). -/
def tableSize : ℕ := 16

end

section
variable {K : Type*} [Field K] [LinearOrder K] [FloorRing K]

/-- extent and storage (`film.py:115-135`).  `cnt` is `max(1, ceil(r * c1) - start)`.  The `y` start
uses the *x* resolution, as in the code. -/
def Film.init (xr yr : ℕ) (filt : Filt K) (c0 c1 c2 c3 : K) : Film K where
  filt := filt
  xStart := ⌈(xr : K) * c0⌉
  xCnt := (max 1 (⌈(xr : K) * c1⌉ - ⌈(xr : K) * c0⌉)).toNat
  yStart := ⌈(xr : K) * c2⌉
  yCnt := (max 1 (⌈(yr : K) * c3⌉ - ⌈(xr : K) * c2⌉)).toNat
  table := fun y x => filt.eval (((x : K) + 1 / 2) * (filt.xw / (tableSize : K))) (((y : K) + 1 / 2) * (filt.yw / (tableSize : K)))
  pix := fun _ _ => ⟨0, 0, 0⟩

/-- one entry of `ifx` / `ify` (`film.py:166-169`). -/
def cellIx (x : ℤ) (d inv : K) : ℤ := min (tableSize - 1 : ℤ) ⌊|((x : K) - d) * (tableSize : K) * inv|⌋

/-- one pixel update: array position, colour increment, weight increment. -/
structure Upd (K : Type*) where
  i : ℕ
  j : ℕ
  dL : Vec K
  dw : K

/-- `l[i]` on a numpy array. -/
def npGet (l : List ℤ) (i : ℤ) : Option ℤ := (npIndex l.length i).bind (fun k => l[k]?)

/-- the body of the loop for raster position `(x, y)` up to the two increments (`film.py:183-188`);
`none` is an `IndexError`. -/
def updAt (f : Film K) (ifx ify : List ℤ) (x0 y0 : ℤ) (xyz : Vec K) (x y : ℤ) : Option (Upd K) :=
  match (npGet ify (y - y0)).bind (npIndex tableSize), (npGet ifx (x - x0)).bind (npIndex tableSize),
    npIndex f.xCnt (x - f.xStart), npIndex f.yCnt (y - f.yStart) with
  | some r, some c, some i, some j => some ⟨i, j, f.table r c • xyz, f.table r c⟩
  | _, _, _, _ => none

/-- the pixel updates made by `add_sample`, in order (`film.py:146-188`). -/
def updates (f : Film K) (imageX imageY : K) (L : Vec K) : Option (List (Upd K)) :=
  let dX := imageX - 1 / 2
  let dY := imageY - 1 / 2
  let x0 := max ⌈dX - f.filt.xw⌉ f.xStart
  let x1 := min ⌊dX + f.filt.xw⌋ (f.xStart + f.xCnt - 1)
  let y0 := max ⌈dY - f.filt.yw⌉ f.yStart
  let y1 := min ⌊dY + f.filt.yw⌋ (f.yStart + f.yCnt - 1)
  if x1 - x0 < 0 ∨ y1 - y0 < 0 then some []
  else
    let xyz := rgb2xyz L
    let ifx := (irange x0 x1).map (fun x => cellIx x dX f.filt.xwInv)
    let ify := (irange y0 y1).map (fun y => cellIx y dY f.filt.ywInv)
    ((irange y0 y1).flatMap (fun y => (irange x0 x1).map (fun x => (x, y)))).mapM
      (fun p => updAt f ifx ify x0 y0 xyz p.1 p.2)

/-- `pxl.Lxyz += wt * xyz; pxl.weight_sum += wt` on one pixel (`film.py:187-188, 196-197`). -/
def applyUpd (f : Film K) (u : Upd K) : Film K :=
  { f with pix := fun i j => if i = u.i ∧ j = u.j then
      { f.pix i j with Lxyz := (f.pix i j).Lxyz + u.dL, w := (f.pix i j).w + u.dw } else f.pix i j }

/-- `ImageFilm.add_sample` (`film.py:137-198`), one thread. -/
def addSample (f : Film K) (imageX imageY : K) (L : Vec K) : Option (Film K) :=
  (updates f imageX imageY L).map (fun us => us.foldl applyUpd f)

/-- `ImageFilm.splat` (`film.py:200-217`). -/
def splat (f : Film K) (imageX imageY : K) (L : Vec K) : Option (Film K) :=
  let xyz := rgb2xyz L
  let x := ⌊imageX⌋
  let y := ⌊imageY⌋
  if x < f.xStart ∨ x - f.xStart ≥ f.xCnt ∨ y < f.yStart ∨ y - f.yStart ≥ f.yCnt then some f
  else
    match npIndex f.xCnt (x - f.xStart), npIndex f.yCnt (y - f.yStart) with
    | some i, some j => some { f with pix := fun a b => if a = i ∧ b = j then
        { f.pix a b with splatXYZ := (f.pix a b).splatXYZ + xyz } else f.pix a b }
    | _, _ => none

/-- one call on the film -/
inductive Ev (K : Type*) where
  | sample (x y : K) (L : Vec K)
  | splat (x y : K) (L : Vec K)

def runEv (f : Film K) : Ev K → Option (Film K)
  | .sample x y L => addSample f x y L
  | .splat x y L => splat f x y L

/-- a history of calls -/
def run (f : Film K) : List (Ev K) → Option (Film K)
  | [] => some f
  | e :: es => (runEv f e).bind (fun f => run f es)

/-- `get_sample_extent` (`film.py:219-227`). -/
def sampleExtent (f : Film K) : ℤ × ℤ × ℤ × ℤ :=
  (⌊(f.xStart : K) + 1 / 2 - f.filt.xw⌋, ⌊(f.xStart : K) + 1 / 2 + f.xCnt + f.filt.xw⌋,
   ⌊(f.yStart : K) + 1 / 2 - f.filt.yw⌋, ⌊(f.yStart : K) + 1 / 2 + f.yCnt + f.filt.yw⌋)

/-- `get_pixel_extent` (`film.py:229-235`). -/
def pixelExtent (f : Film K) : ℤ × ℤ × ℤ × ℤ :=
  (f.xStart, f.xStart + f.xCnt, f.yStart, f.yStart + f.yCnt)

/-- the value `rgb[y, x]` computed by `write_image` (`film.py:243-255`). -/
def imageRgb (f : Film K) (scale : K) (y x : ℕ) : Vec K :=
  let rgb := xyz2rgb (f.pix x y).Lxyz
  let ws := (f.pix x y).w
  let rgb := if ws = 0 then rgb else fun k => max 0 (rgb k / ws)
  rgb + scale • xyz2rgb (f.pix x y).splatXYZ

end
end Verif.Film
