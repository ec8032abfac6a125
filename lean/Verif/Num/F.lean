import Mathlib.Algebra.Order.Field.Basic
import Mathlib.Tactic.Linarith

/-!
# IEEE special values without rounding

`F K`: finite numbers of an ordered field `K`, the two infinities and NaN, with the comparison,
division-by-zero and `fmin`/`fmax` rules of numpy `float64`.  Rounding and overflow are not
modelled.  The sign of a zero matters only in a divisor; it is passed as a flag.
-/

namespace Verif

/-- numpy `float64` values, rounding aside -/
inductive F (K : Type*) where
  | fin (x : K)
  | pinf
  | ninf
  | nan
deriving DecidableEq

namespace F
variable {K : Type*} [Field K] [LinearOrder K]

/-- `a < b` on floats; false whenever an operand is NaN. -/
def lt : F K → F K → Bool
  | fin a, fin b => decide (a < b)
  | fin _, pinf => true
  | ninf, fin _ => true
  | ninf, pinf => true
  | _, _ => false

/-- `a <= b` on floats; false whenever an operand is NaN. -/
def le : F K → F K → Bool
  | fin a, fin b => decide (a ≤ b)
  | fin _, pinf => true
  | ninf, fin _ => true
  | ninf, pinf => true
  | pinf, pinf => true
  | ninf, ninf => true
  | _, _ => false

/-- `a > b` on floats. -/
def gt (a b : F K) : Bool := lt b a

def isNan : F K → Bool
  | nan => true
  | _ => false

/-- `np.fmax`: the larger operand, ignoring NaN. -/
def fmax (a b : F K) : F K :=
  if a.isNan then b else if b.isNan then a else if lt a b then b else a

/-- `np.fmin`: the smaller operand, ignoring NaN. -/
def fmin (a b : F K) : F K :=
  if a.isNan then b else if b.isNan then a else if lt b a then b else a

/-- float minus a finite number -/
def subFin : F K → K → F K
  | fin a, b => fin (a - b)
  | pinf, _ => pinf
  | ninf, _ => ninf
  | nan, _ => nan

/-- float divided by a finite number `d`; `neg` is the sign bit used when `d` is a zero.
`x/0` is `±inf` by the signs, `0/0` is NaN, `inf/d` keeps the sign rule. -/
def divFin (a : F K) (d : K) (neg : Bool) : F K :=
  match a with
  | nan => nan
  | fin x =>
    if d = 0 then
      (if x = 0 then nan else if (decide (0 < x)) != neg then pinf else ninf)
    else fin (x / d)
  | pinf => if d = 0 then (if neg then ninf else pinf) else if 0 < d then pinf else ninf
  | ninf => if d = 0 then (if neg then pinf else ninf) else if 0 < d then ninf else pinf

end F
end Verif
