import Mathlib.Algebra.Order.Field.Basic
import Mathlib.Data.List.Perm.Basic

/-!
# Samplers (`pytracer/sampler/`)

Random numbers: `rng(n)` (`np.random.rand`) delivers the next `n` values of an arbitrary sequence of
numbers in `[0, 1)`; `np.random.shuffle` is an arbitrary rearrangement.  Theorems hold for every such
source.  Rounding is not modelled (in floating point `(i + u) / n` can round up to `(i + 1) / n`).
-/

namespace Verif.Sampler

/-- a source of randomness: the values `rng` will deliver and the rearrangements `np.random.shuffle`
will make (the `k`-th call). -/
structure Rand (K : Type*) where
  draw : ℕ → K
  shuf : ℕ → List ℕ → List ℕ

/-- how much of the source is used up: draws and shuffles. -/
structure RS where
  d : ℕ
  s : ℕ

section
variable {K : Type*} [Field K]

/-- apply a rearrangement of positions to a list -/
def permute {α : Type*} (ix : List ℕ) (l : List α) : List α := ix.filterMap (fun i => l[i]?)

/-- `np.random.shuffle(l)`: the next rearrangement of the source. -/
def shuffle {α : Type*} (r : Rand K) (st : RS) (l : List α) : List α × RS :=
  (permute (r.shuf st.s (List.range l.length)) l, { st with s := st.s + 1 })

/-- `rng(n)`: the next `n` draws. -/
def rng (r : Rand K) (st : RS) (n : ℕ) : List K × RS :=
  ((List.range n).map (fun i => r.draw (st.d + i)), { st with d := st.d + n })

/-- `np.arange(n)`. -/
def arange (n : ℕ) : List K := (List.range n).map (fun i : ℕ => (i : K))

/-- `np.tile(a, k)`. -/
def tile {α : Type*} (a : List α) (k : ℕ) : List α := (List.replicate k a).flatten

/-- `np.repeat(a, k)`. -/
def repeatEach {α : Type*} (a : List α) (k : ℕ) : List α := a.flatMap (fun x => List.replicate k x)

/-- `(base + offsets) / n` elementwise. -/
def strata (base offsets : List K) (n : ℕ) : List K := List.zipWith (fun b o => (b + o) / (n : K)) base offsets

/-- `stratified_sample_1d` (`sampler/utility.py:18-22`). -/
def stratified1d (r : Rand K) (st : RS) (n : ℕ) (jitter : Bool) : List K × RS :=
  if !jitter then (strata (arange n) (List.replicate n (1 / 2)) n, st)
  else
    let (u, st) := rng r st n
    (strata (arange n) u n, st)

/-- `stratified_sample_2d` (`sampler/utility.py:25-32`). -/
def stratified2d (r : Rand K) (st : RS) (nx ny : ℕ) (jitter : Bool) : List (K × K) × RS :=
  if jitter then
    let (ux, st) := rng r st (nx * ny)
    let (uy, st) := rng r st (nx * ny)
    (List.zip (strata (tile (arange nx) ny) ux nx) (strata (repeatEach (arange ny) nx) uy ny), st)
  else
    (List.zip (strata (tile (arange nx) ny) (List.replicate (nx * ny) (1 / 2)) nx)
      (strata (repeatEach (arange ny) nx) (List.replicate (nx * ny) (1 / 2)) ny), st)

/-- `latin_hypercube_1d` (`sampler/utility.py:35-38`). -/
def latin1d (r : Rand K) (st : RS) (n : ℕ) : List K × RS :=
  let (u, st) := rng r st n
  shuffle r st (strata (arange n) u n)

/-- `latin_hypercube_2d` (`sampler/utility.py:41-44`). -/
def latin2d (r : Rand K) (st : RS) (n : ℕ) : List (K × K) × RS :=
  let (uy, st) := rng r st n
  let (ys, st) := shuffle r st (strata (arange n) uy n)
  let (ux, st) := rng r st n
  (List.zip (strata (arange n) ux n) ys, st)

/-! ## Samples -/

/-- `Sample` (`sampler/sample.py:15-52`). -/
structure Sample (K : Type*) where
  imageX : K
  imageY : K
  lensU : K
  lensV : K
  time : K
  n1D : List ℕ
  n2D : List ℕ
  oneD : List (Option (List K))
  twoD : List (Option (List (K × K)))

/-- the loop `for j, n in enumerate(sample.n1D): sample.oneD[j] = latin_hypercube_1d(n, rng)`
(`stratified.py:78-79`); `none` is an `IndexError`. -/
def fill1 (r : Rand K) : List ℕ → ℕ → List (Option (List K)) → RS → Option (List (Option (List K)) × RS)
  | [], _, arr, st => some (arr, st)
  | n :: ns, j, arr, st =>
    let (v, st) := latin1d r st n
    if j < arr.length then fill1 r ns (j + 1) (arr.set j (some v)) st else none

/-- the same loop for `twoD` (`stratified.py:80-81`). -/
def fill2 (r : Rand K) : List ℕ → ℕ → List (Option (List (K × K))) → RS → Option (List (Option (List (K × K))) × RS)
  | [], _, arr, st => some (arr, st)
  | n :: ns, j, arr, st =>
    let (v, st) := latin2d r st n
    if j < arr.length then fill2 r ns (j + 1) (arr.set j (some v)) st else none

/-- `util.lerp(t, v1, v2)` (`utility/utility.py:89-91`). -/
def lerp (t v1 v2 : K) : K := (1 - t) * v1 + t * v2

/-! ## StratifiedSampler -/

/-- `StratifiedSampler` (`sampler/sampler/stratified.py:34-43`, `sampler/sampler/__init__.py:27-40`).
Positions are numbers, not integers: `get_subsampler` passes fractions. -/
structure Strat (K : Type*) where
  xs : K
  xe : K
  ys : K
  ye : K
  xSamples : ℕ
  ySamples : ℕ
  jitter : Bool
  sOpen : K
  sClose : K
  xPos : K
  yPos : K

/-- the constructor (`stratified.py:34-43`). -/
def Strat.mk' (xs xe ys ye : K) (xst yst : ℕ) (jitter : Bool) (sOpen sClose : K) : Strat K :=
  ⟨xs, xe, ys, ye, max xst 1, max yst 1, jitter, sOpen, sClose, xs, ys⟩

/-- the loop over the samples of a batch (`stratified.py:70-81`).  `none`: `IndexError`. -/
def fillBatch (r : Rand K) (s : Strat K) : List (Sample K) → List (K × K) → List (K × K) → List K → RS →
    Option (List (Sample K) × RS)
  | [], _, _, _, st => some ([], st)
  | smp :: rest, im :: ims, le :: les, ti :: tis, st =>
    match fill1 r smp.n1D 0 smp.oneD st with
    | none => none
    | some (oneD, st) =>
      match fill2 r smp.n2D 0 smp.twoD st with
      | none => none
      | some (twoD, st) =>
        match fillBatch r s rest ims les tis st with
        | none => none
        | some (out, st) =>
          some ({ smp with
            imageX := im.1, imageY := im.2, lensU := le.1, lensV := le.2,
            time := lerp ti s.sOpen s.sClose, oneD := oneD, twoD := twoD } :: out, st)
  | _ :: _, _, _, _, _ => none

/-- outcome of `generate` -/
inductive Gen (K : Type*) where
  | stop
  | batch (samples : List (Sample K)) (next : Strat K) (st : RS)
  | fail

/-- `StratifiedSampler.generate` (`stratified.py:45-89`): `stop` is `False` (state unchanged), `batch`
is `True` with the filled samples and the advanced sampler, `fail` is the `AssertionError` for a
wrong batch size or an `IndexError`. -/
def Strat.generate [DecidableEq K] (r : Rand K) (s : Strat K) (samples : List (Sample K)) (st : RS) : Gen K :=
  if s.yPos = s.ye then .stop
  else if s.xSamples * s.ySamples ≠ samples.length then .fail
  else
    let (image, st) := stratified2d r st s.xSamples s.ySamples s.jitter
    let (lens, st) := stratified2d r st s.xSamples s.ySamples s.jitter
    let (time, st) := stratified1d r st (s.xSamples * s.ySamples) s.jitter
    let image := image.map (fun p => (p.1 + s.xPos, p.2 + s.yPos))
    let (lens, st) := shuffle r st lens
    let (time, st) := shuffle r st time
    match fillBatch r s samples image lens time st with
    | none => .fail
    | some (out, st) =>
      let xPos := s.xPos + 1
      if xPos = s.xe then .batch out { s with xPos := s.xs, yPos := s.yPos + 1 } st
      else .batch out { s with xPos := xPos } st

/-! ## Sub-windows -/

variable [LinearOrder K]

/-- the tile-count loop (`sampler/sampler/__init__.py:101-103`); `dx`, `dy` are pixel counts. -/
def tileLoop (dx dy : ℕ) (nx ny : ℕ) : ℕ × ℕ :=
  if h : nx % 2 = 0 ∧ 2 * dx * ny < dy * nx then tileLoop dx dy (nx / 2) (ny * 2) else (nx, ny)
termination_by nx
decreasing_by
  rcases Nat.eq_zero_or_pos nx with rfl | hp
  · simp at h
  · omega

/-- `np.clip(v, lo, hi)`. -/
def clip (v lo hi : K) : K := min (max v lo) hi

/-- `compute_subwindow` (`sampler/sampler/__init__.py:87-111`) for an integer pixel window. -/
def subwindow (xs xe ys ye : ℤ) (num cnt : ℕ) : K × K × K × K :=
  let (nx, ny) := tileLoop (xe - xs).toNat (ye - ys).toNat cnt 1
  let x0 := num % nx
  let y0 := num / nx
  let xa := clip ((x0 : K) / (nx : K)) (xs : K) (xe : K)
  let xb := clip (((x0 + 1 : ℕ) : K) / (nx : K)) (xs : K) (xe : K)
  let ya := clip ((y0 : K) / (ny : K)) (ys : K) (ye : K)
  let yb := clip (((y0 + 1 : ℕ) : K) / (ny : K)) (ys : K) (ye : K)
  (lerp xa xs xe, lerp xb xs xe, lerp ya ys ye, lerp yb ys ye)

/-- `get_subsampler` (`stratified.py:102-111`). -/
def Strat.sub (s : Strat K) (xs xe ys ye : ℤ) (num cnt : ℕ) : Option (Strat K) :=
  let w : K × K × K × K := subwindow xs xe ys ye num cnt
  if w.1 = w.2.1 ∨ w.2.2.1 = w.2.2.2 then none
  else some (Strat.mk' w.1 w.2.1 w.2.2.1 w.2.2.2 s.xSamples s.ySamples s.jitter s.sOpen s.sClose)

end
end Verif.Sampler
