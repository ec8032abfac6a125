import Mathlib.Algebra.Order.Field.Basic
import Mathlib.Algebra.Order.Floor.Ring
import Mathlib.Algebra.BigOperators.Group.List.Basic

/-!
# Piecewise-constant distributions (`pytracer/montecarlo/distribution.py`)

Numbers are elements of an ordered field; rounding is not modelled.  An operation that numpy answers with
NaN or an infinity (division by zero) ends in `Err.nonfinite`, an out-of-range index in `Err.index`.
-/

namespace Verif.Dist

inductive Err where
  | nonfinite
  | index
deriving DecidableEq, Repr

section
variable {K : Type*} [Field K] [LinearOrder K]

/-- division as numpy does it, an infinite or NaN quotient being an error -/
def fdiv (a b : K) : Except Err K := if b = 0 then .error .nonfinite else .ok (a / b)

/-- `l[i]`, `i` a natural number -/
def get {α : Type*} (l : List α) (i : ℕ) : Except Err α :=
  match l[i]? with
  | some x => .ok x
  | none => .error .index

/-- the accumulation loop (`distribution.py:36-38`): `acc` is `cdf[i-1]`, `n` is `cnt`. -/
def accum (n : K) (acc : K) : List K → List K
  | [] => [acc]
  | x :: xs => acc :: accum n (acc + x / n) xs

/-- `Distribution1D` attributes. `cdf` is meaningful only when `raw` is non-zero: otherwise every
entry of the code's array is NaN or infinite. -/
structure D1 (K : Type*) where
  cnt : ℕ
  func : List K
  cdf : List K
  raw : K

/-- `Distribution1D.__init__` (`distribution.py:26-42`). -/
def D1.mk' (arr : List K) : D1 K :=
  let cnt := arr.length
  let acc := accum (cnt : K) 0 arr
  let raw := acc.getLastD 0
  ⟨cnt, arr, acc.map (· / raw), raw⟩

/-- `np.searchsorted(a, u)` (side left) on an ascending array: the number of leading entries below `u`. -/
def searchsorted (a : List K) (u : K) : ℕ := (a.takeWhile (fun x => decide (x < u))).length

/-- lines 57-58 and 77-78; with a zero total all comparisons with NaN fail and the answer is 0. -/
def D1.off (d : D1 K) (u : K) : ℕ :=
  let idx : ℤ := (if d.raw = 0 then 0 else searchsorted d.cdf u : ℕ) - 1
  (max 0 idx).toNat

/-- `Distribution1D.sample_cont` (`distribution.py:47-65`). -/
def D1.sampleCont (d : D1 K) (u : K) : Except Err (K × K) := do
  let off := d.off u
  let c0 ← get d.cdf off
  let c1 ← get d.cdf (off + 1)
  if d.raw = 0 then .error .nonfinite
  let du ← fdiv (u - c0) (c1 - c0)
  let x ← fdiv (du + (off : K)) (d.cnt : K)
  let f ← get d.func off
  let p ← fdiv f d.raw
  return (x, p)

/-- `Distribution1D.sample_dis` (`distribution.py:67-80`). -/
def D1.sampleDis (d : D1 K) (u : K) : Except Err (ℕ × K) := do
  let off := d.off u
  let f ← get d.func off
  let p ← fdiv f (d.raw * (d.cnt : K))
  return (off, p)

/-- `Distribution2D` attributes -/
structure D2 (K : Type*) where
  cond : List (D1 K)
  marg : D1 K

/-- `Distribution2D.__init__` (`distribution.py:91-107`); the array is given by its rows. -/
def D2.mk' (rows : List (List K)) : D2 K :=
  let cond := rows.map D1.mk'
  ⟨cond, D1.mk' (cond.map D1.raw)⟩

end

section
variable {K : Type*} [Field K] [LinearOrder K] [FloorRing K]

/-- `np.clip(util.ftoi(x), 0, n - 1)` (`distribution.py:123, 135, 136`; `utility.py:74-76`). `np.clip`
with an empty range (`n = 0`) gives the upper limit -1; the model gives 0, and every use then indexes an
empty list. -/
def cell (x : K) (n : ℕ) : ℕ := (min (max ⌊x⌋ 0) ((n : ℤ) - 1)).toNat

/-- `Distribution2D.sample_cont` (`distribution.py:112-127`): `[[u, v], pdf]`; `v` is the row index, as in
the code. -/
def D2.sampleCont (d : D2 K) (u0 u1 : K) : Except Err ((K × ℕ) × K) := do
  let (v, pdf1) ← d.marg.sampleCont u1
  let vi := cell (v * (d.marg.cnt : K)) d.marg.cnt
  let row ← get d.cond vi
  let (u, pdf0) ← row.sampleCont u0
  return ((u, vi), pdf0 * pdf1)

/-- `Distribution2D.pdf` (`distribution.py:129-142`). -/
def D2.pdf (d : D2 K) (u v : K) : Except Err K := do
  let row0 ← get d.cond 0
  let ui := cell (u * (row0.cnt : K)) row0.cnt
  let vi := cell (v * (d.marg.cnt : K)) d.marg.cnt
  let row ← get d.cond vi
  if row.raw * d.marg.raw = 0 then return 0
  let f ← get row.func ui
  let m ← get d.marg.func vi
  fdiv (f * m) (row.raw * d.marg.raw)

end
end Verif.Dist
