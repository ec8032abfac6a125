import Mathlib.Analysis.Convex.Basic
import Mathlib.Analysis.SpecialFunctions.Log.Base
import Mathlib.Analysis.SpecialFunctions.Trigonometric.Bounds
import Mathlib.Algebra.Order.Archimedean.Real.Basic
import Mathlib.Data.Rat.Floor
import Mathlib.Data.Nat.Log
import Mathlib.Tactic.Module
import Mathlib.Tactic.NormNum
import Mathlib.Tactic.Linarith
import Mathlib.Tactic.FieldSimp
import Mathlib.Tactic.IntervalCases

/-!
# Mip-maps (C57, C114, C115, C116)

Models `MIPMap` of `pytracer/texture/utility.py` (lines 22-40 and 168-467).  Texel values are elements of a real vector space `V` (spectra); the
image is an array of shape `(u, v)`.  Array accesses are checked as numpy checks them (`none` is an exception).  Rounding is in Texture/MipRounded.  Not modelled: the case
`typename = FLOAT`, in which storing a level in the `float` array `__pyramid` (line 287) raises for every image.
-/
namespace Verif.Texture

/-! ### Model -/

/-- `ImageWrap` (utility.py 168-171) -/
inductive Wrap
  | rep
  | black
  | clamp
  deriving DecidableEq

/-- one level of the pyramid: an array of shape `(u, v)` -/
structure Level (V : Type) where
  u : ℕ
  v : ℕ
  a : ℕ → ℕ → V

/-- a numpy index into an axis of length `n`: negative ones count from the end, others out of range raise -/
def npIx (n : ℕ) (i : ℤ) : Option ℕ :=
  if 0 ≤ i ∧ i < n then some i.toNat else if -n ≤ i ∧ i < 0 then some (i + n).toNat else none

variable {V : Type} [AddCommGroup V] [Module ℝ V]

/-- `l[s, t]` -/
def Level.get (l : Level V) (s t : ℤ) : Option V := do
  let i ← npIx l.u s
  let j ← npIx l.v t
  pure (l.a i j)

/-- `texel` (utility.py 309-323) on the level `l` -/
def texel (w : Wrap) (l : Level V) (s t : ℤ) : Option V :=
  match w with
  | .rep => if l.u = 0 ∨ l.v = 0 then none else l.get (s % l.u) (t % l.v)
  | .clamp => l.get (min (max s 0) (l.u - 1)) (min (max t 0) (l.v - 1))
  | .black => if s < 0 ∨ s ≥ l.u ∨ t < 0 ∨ t ≥ l.v then some 0 else l.get s t

/-- the entry computed in lines 297-301 of the constructor -/
noncomputable def box (w : Wrap) (l : Level V) (s t : ℕ) : Option V := do
  let a ← texel w l (2 * s) (2 * t)
  let b ← texel w l (2 * s + 1) (2 * t)
  let c ← texel w l (2 * s) (2 * t + 1)
  let d ← texel w l (2 * s + 1) (2 * t + 1)
  pure ((0.25 : ℝ) • (a + b + c + d))

open Classical in
/-- one round of the pyramid loop (utility.py 291-301): the new array has shape `(t_res, s_res)` and its entry `[t, s]` is computed from the
texels around `(2s, 2t)` -/
noncomputable def down (w : Wrap) (l : Level V) : Option (Level V) :=
  let sr := max 1 (l.u / 2)
  let tr := max 1 (l.v / 2)
  if ∀ t < tr, ∀ s < sr, (box w l s t).isSome then some ⟨tr, sr, fun t s => (box w l s t).getD 0⟩ else none

/-- `n` rounds of the pyramid loop -/
noncomputable def levels (w : Wrap) (l : Level V) : ℕ → Option (List (Level V))
  | 0 => some [l]
  | n + 1 => do
      let l' ← down w l
      let r ← levels w l' n
      pure (l :: r)

/-- the pyramid of the constructor (utility.py 283-301) over the most detailed level; `log2` of a positive integer, truncated -/
noncomputable def pyramid (w : Wrap) (l : Level V) : Option (List (Level V)) := levels w l (Nat.log 2 (max l.u l.v))

/-- the fields of a `MIPMap` used by lookups (utility.py 221-224, 284-301) -/
structure MipMap (V : Type) where
  wrap : Wrap
  trilinear : Bool
  maxAniso : ℝ
  lev : List (Level V)

/-- `np.clip` on integers -/
def clipZ (x lo hi : ℤ) : ℤ := min (max x lo) hi

/-- `__triangle` (utility.py 337-346) -/
noncomputable def MipMap.triangle (m : MipMap V) (level : ℤ) (s t : ℝ) : Option V := do
  let l ← m.lev[(clipZ level 0 (m.lev.length - 1)).toNat]?
  let s := s * l.u - 0.5
  let t := t * l.v - 0.5
  let s0 := ⌊s⌋
  let t0 := ⌊t⌋
  let ds := s - s0
  let dt := t - t0
  let a ← texel m.wrap l s0 t0
  let b ← texel m.wrap l s0 (t0 + 1)
  let c ← texel m.wrap l (s0 + 1) t0
  let d ← texel m.wrap l (s0 + 1) (t0 + 1)
  pure (((1 - ds) * (1 - dt)) • a + ((1 - ds) * dt) • b + (ds * (1 - dt)) • c + (ds * dt) • d)

/-- `EPS` (pytracer/__init__.py 23) -/
noncomputable def texEps : ℝ := 1e-5

/-- `look_up` with `[s, t, width]` (utility.py 411-435) -/
noncomputable def MipMap.lookUp3 (m : MipMap V) (s t width : ℝ) : Option V :=
  let level := (m.lev.length : ℝ) - 1 + Real.logb 2 (max width texEps)
  if level < 0 then m.triangle 0 s t
  else if level ≥ (m.lev.length : ℝ) - 1 then m.triangle m.lev.length 0 0
  else do
    let delta := level - ⌊level⌋
    let a ← m.triangle ⌊level⌋ s t
    let b ← m.triangle (⌊level⌋ + 1) s t
    pure ((1 - delta) • a + delta • b)

/-- `look_up` with `[s, t]` (utility.py 415-417) -/
noncomputable def MipMap.lookUp2 (m : MipMap V) (s t : ℝ) : Option V := m.lookUp3 s t 0

/-- `__EWA` (utility.py 348-399): for an existing level the call of `np.srqt` (line 378, no such function) raises -/
noncomputable def MipMap.ewa (m : MipMap V) (level : ℤ) : Option V :=
  if level ≥ m.lev.length then
    match m.lev.getLast? with
    | none => none
    | some l => texel m.wrap l 0 0
  else none

/-- `look_up` with `[s, t, dsdx, dtdx, dsdy, dtdy]` (utility.py 437-467) -/
noncomputable def MipMap.lookUp6 (m : MipMap V) (s t ds0 dt0 ds1 dt1 : ℝ) : Option V :=
  if m.trilinear then m.lookUp3 s t (2 * max (max |ds0| |dt0|) (max |ds1| |dt1|))
  else
    let sw := ds0 * ds0 + dt0 * dt0 < ds1 * ds1 + dt1 * dt1
    let l0 := Real.sqrt (ds0 * ds0 + dt0 * dt0)
    let l1 := Real.sqrt (ds1 * ds1 + dt1 * dt1)
    let major := if sw then l1 else l0
    let minor := if sw then l0 else l1
    let minor := if minor * m.maxAniso < major ∧ minor > 0 then minor * (major / (minor * m.maxAniso)) else minor
    if minor = 0 then m.triangle 0 s t
    else
      let lod := max 0 ((m.lev.length : ℝ) - 1 + Real.logb 2 minor)
      do
        let a ← m.ewa ⌊lod⌋
        let b ← m.ewa (⌊lod⌋ + 1)
        pure ((1 - (lod - ⌊lod⌋)) • a + (lod - ⌊lod⌋) • b)

/-! ### Texels -/

/-- specification of a texel: the image extended to all integer coordinates -/
def ext (w : Wrap) (l : Level V) (s t : ℤ) : V :=
  match w with
  | .rep => l.a (s % l.u).toNat (t % l.v).toNat
  | .clamp => l.a (min s.toNat (l.u - 1)) (min t.toNat (l.v - 1))
  | .black => if (0 ≤ s ∧ s < l.u) ∧ 0 ≤ t ∧ t < l.v then l.a s.toNat t.toNat else 0

omit [AddCommGroup V] [Module ℝ V] in
theorem get_eq (l : Level V) (s t : ℤ) (hs : 0 ≤ s ∧ s < l.u) (ht : 0 ≤ t ∧ t < l.v) : l.get s t = some (l.a s.toNat t.toNat) := by
  simp [Level.get, npIx, hs, ht]

omit [Module ℝ V] in
/-- **C57** `texel` returns a value for every wrap mode and all integer coordinates (negative, huge) on every array with at least one texel, and
the value is the image extended periodically, by its border, or by black; the array is never indexed out of range -/
theorem C57_texel (w : Wrap) (l : Level V) (hu : 0 < l.u) (hv : 0 < l.v) (s t : ℤ) : texel w l s t = some (ext w l s t) := by
  cases w with
  | rep =>
    simp only [texel, ext, hu.ne', hv.ne', or_self, if_false]
    have h1 : (l.u : ℤ) ≠ 0 := by omega
    have h2 : (l.v : ℤ) ≠ 0 := by omega
    exact get_eq _ _ _ ⟨Int.emod_nonneg _ h1, Int.emod_lt_of_pos _ (by omega)⟩ ⟨Int.emod_nonneg _ h2, Int.emod_lt_of_pos _ (by omega)⟩
  | clamp =>
    simp only [texel, ext]
    rw [get_eq _ _ _ ⟨by omega, by omega⟩ ⟨by omega, by omega⟩]
    congr 2 <;> omega
  | black =>
    simp only [texel, ext]
    by_cases h : (0 ≤ s ∧ s < (l.u : ℤ)) ∧ 0 ≤ t ∧ t < (l.v : ℤ)
    · rw [if_neg (by omega), if_pos h, get_eq _ _ _ h.1 h.2]
    · rw [if_pos (by omega), if_neg h]

/-- specification of a filtered entry: the mean of the four texels at `(2s, 2t)` -/
noncomputable def boxMean (w : Wrap) (l : Level V) (s t : ℕ) : V :=
  (1 / 4 : ℝ) • (ext w l (2 * s) (2 * t) + ext w l (2 * s + 1) (2 * t) + ext w l (2 * s) (2 * t + 1) + ext w l (2 * s + 1) (2 * t + 1))

theorem box_eq (w : Wrap) (l : Level V) (hu : 0 < l.u) (hv : 0 < l.v) (s t : ℕ) : box w l s t = some (boxMean w l s t) := by
  simp only [box, C57_texel w l hu hv, Option.bind_eq_bind, Option.bind_some, boxMean]
  have : (0.25 : ℝ) = 1 / 4 := by norm_num
  rw [this]
  rfl

theorem down_eq (w : Wrap) (l : Level V) (hu : 0 < l.u) (hv : 0 < l.v) :
    ∃ l', down w l = some l' ∧ l'.u = max 1 (l.v / 2) ∧ l'.v = max 1 (l.u / 2) ∧ ∀ t s, l'.a t s = boxMean w l s t := by
  simp only [down, box_eq w l hu hv, Option.isSome_some, implies_true, if_true, Option.getD_some]
  exact ⟨_, rfl, rfl, rfl, fun _ _ => rfl⟩

/-- a property of levels that passes to the next level holds of the whole pyramid -/
theorem levels_spec (w : Wrap) (n : ℕ) (l : Level V) (hu : 0 < l.u) (hv : 0 < l.v) :
    ∃ r, levels w l n = some r ∧ r.length = n + 1 ∧ r[0]? = some l ∧
      ∀ i < n, ∃ x y, r[i]? = some x ∧ r[i + 1]? = some y ∧ 0 < x.u ∧ 0 < x.v ∧ down w x = some y := by
  induction n generalizing l with
  | zero => exact ⟨[l], rfl, rfl, rfl, fun i hi => absurd hi (by omega)⟩
  | succ n ih =>
    obtain ⟨l', hd, hu', hv', -⟩ := down_eq w l hu hv
    obtain ⟨r, hr, hlen, h0, hi⟩ := ih l' (by rw [hu']; omega) (by rw [hv']; omega)
    refine ⟨l :: r, by simp [levels, hd, hr], by simp [hlen], rfl, fun i hin => ?_⟩
    cases i with
    | zero => exact ⟨l, l', rfl, by simpa using h0, hu, hv, hd⟩
    | succ i =>
      obtain ⟨x, y, h1, h2, h3⟩ := hi i (by omega)
      exact ⟨x, y, by simpa using h1, by simpa using h2, h3⟩

/-- **C57 (part)** the pyramid is always built (no exception, for every image with at least one texel); its level 0 is the image and entry
`[t, s]` of level `i + 1` is the mean of the four texels `(2s, 2t), (2s+1, 2t), (2s, 2t+1), (2s+1, 2t+1)` of level `i`.  Missing: it should be
entry `[s, t]`, i.e. every level is transposed against the one below (`C57_box_false`). -/
theorem C57_box_partial (w : Wrap) (img : Level V) (hu : 0 < img.u) (hv : 0 < img.v) :
    ∃ r, pyramid w img = some r ∧ r.length = 1 + Nat.log 2 (max img.u img.v) ∧ r[0]? = some img ∧
      ∀ i x y, r[i]? = some x → r[i + 1]? = some y →
        ∀ s t : ℕ, y.a t s = (1 / 4 : ℝ) • (ext w x (2 * s) (2 * t) + ext w x (2 * s + 1) (2 * t) + ext w x (2 * s) (2 * t + 1) + ext w x (2 * s + 1) (2 * t + 1)) := by
  obtain ⟨r, hr, hlen, h0, hi⟩ := levels_spec w (Nat.log 2 (max img.u img.v)) img hu hv
  refine ⟨r, hr, by omega, h0, fun i x y hx hy s t => ?_⟩
  have hin : i < Nat.log 2 (max img.u img.v) := by
    have := (List.getElem?_eq_some_iff.1 hy).1
    omega
  obtain ⟨x', y', h1, h2, h3, h4, h5⟩ := hi i hin
  rw [hx] at h1; rw [hy] at h2
  cases h1; cases h2
  obtain ⟨l', hd, -, -, ha⟩ := down_eq w x h3 h4
  rw [h5] at hd
  cases hd
  exact ha t s

/-- an image whose rows `s < 2` are 1 and the others 0 -/
noncomputable def bandImg : Level ℝ := ⟨4, 4, fun s _ => if s < 2 then 1 else 0⟩

/-- **C57 fails**: the finer level is averaged but transposed: in the pyramid of the image that is 1 for `s < 2` and 0 elsewhere, entry `[0, 1]` of
level 1 should be the mean of the texels `s < 2, 2 ≤ t < 4`, which is 1, but is 0 -/
theorem C57_box_false (w : Wrap) :
    ¬ (∀ (img : Level ℝ), 0 < img.u → 0 < img.v → ∀ r, pyramid w img = some r → ∀ x y, r[0]? = some x → r[1]? = some y →
        ∀ s t : ℕ, s < y.u → t < y.v → y.a s t = (1 / 4 : ℝ) • (ext w x (2 * s) (2 * t) + ext w x (2 * s + 1) (2 * t) + ext w x (2 * s) (2 * t + 1) + ext w x (2 * s + 1) (2 * t + 1))) := by
  intro h
  have hlog : Nat.log 2 (max bandImg.u bandImg.v) = 2 := by simp only [bandImg]; decide +kernel
  obtain ⟨r, hr, hlen, h0, hi⟩ := levels_spec w 2 bandImg (by simp [bandImg]) (by simp [bandImg])
  obtain ⟨x, y, h1, h2, h3, h4, h5⟩ := hi 0 (by omega)
  rw [h0] at h1
  cases h1
  obtain ⟨l', hd, hu', hv', ha⟩ := down_eq w bandImg h3 h4
  rw [h5] at hd
  cases hd
  have hp : pyramid w bandImg = some r := by rw [pyramid, hlog]; exact hr
  have := h bandImg h3 h4 r hp bandImg y h0 h2 0 1 (by rw [hu']; simp) (by rw [hv']; simp [bandImg])
  rw [ha] at this
  cases w <;> norm_num [boxMean, ext, bandImg] at this

/-- **C57 (part)** two levels up the orientation is restored: entry `[s, t]` two levels up is the mean of the 4 × 4 texels from `(4s, 4t)` -/
theorem C57_box_two_partial (w : Wrap) (img x y z : Level V) (r : List (Level V)) (hu : 0 < img.u) (hv : 0 < img.v) (hr : pyramid w img = some r) (i : ℕ)
    (hx : r[i]? = some x) (hy : r[i + 1]? = some y) (hz : r[i + 2]? = some z) (s t : ℕ) (hs : 4 * s + 4 ≤ x.u) (ht : 4 * t + 4 ≤ x.v) :
    z.a s t = (1 / 16 : ℝ) • ∑ p ∈ Finset.range 4, ∑ q ∈ Finset.range 4, x.a (4 * s + p) (4 * t + q) := by
  obtain ⟨r', hr', -, -, hb⟩ := C57_box_partial w img hu hv
  rw [hr] at hr'
  cases hr'
  obtain ⟨r', hr', hlen, -, hi⟩ := levels_spec w (Nat.log 2 (max img.u img.v)) img hu hv
  rw [pyramid, hr'] at hr
  cases hr
  have hin : i < Nat.log 2 (max img.u img.v) := by
    have := (List.getElem?_eq_some_iff.1 hy).1
    omega
  obtain ⟨x', y', h1, h2, h3, h4, h5⟩ := hi i hin
  rw [hx] at h1; rw [hy] at h2
  cases h1; cases h2
  obtain ⟨l', hd, hyu, hyv, -⟩ := down_eq w x h3 h4
  rw [h5] at hd
  cases hd
  have ex (p q : ℕ) (hp : p < x.u) (hq : q < x.v) : ext w x (p : ℤ) (q : ℤ) = x.a p q := by
    cases w with
    | rep =>
      simp only [ext]
      rw [Int.emod_eq_of_lt (by omega) (by omega), Int.emod_eq_of_lt (by omega) (by omega)]
      simp
    | clamp => simp only [ext, Int.toNat_natCast]; congr 1 <;> omega
    | black => simp only [ext]; rw [if_pos (by omega)]; simp
  have ey (p q : ℕ) (hp : p < y.u) (hq : q < y.v) : ext w y (p : ℤ) (q : ℤ) = y.a p q := by
    cases w with
    | rep =>
      simp only [ext]
      rw [Int.emod_eq_of_lt (by omega) (by omega), Int.emod_eq_of_lt (by omega) (by omega)]
      simp
    | clamp => simp only [ext, Int.toNat_natCast]; congr 1 <;> omega
    | black => simp only [ext]; rw [if_pos (by omega)]; simp
  have by' := hb i x y hx hy
  have bz := hb (i + 1) y z hy hz
  rw [bz t s]
  have e1 := ey (2 * t) (2 * s) (by omega) (by omega)
  have e2 := ey (2 * t + 1) (2 * s) (by omega) (by omega)
  have e3 := ey (2 * t) (2 * s + 1) (by omega) (by omega)
  have e4 := ey (2 * t + 1) (2 * s + 1) (by omega) (by omega)
  push_cast at e1 e2 e3 e4
  rw [e1, e2, e3, e4, by' (2 * s) (2 * t), by' (2 * s) (2 * t + 1), by' (2 * s + 1) (2 * t), by' (2 * s + 1) (2 * t + 1)]
  have g (p q : ℕ) (hp : p < 4) (hq : q < 4) : ext w x (4 * s + p : ℤ) (4 * t + q : ℤ) = x.a (4 * s + p) (4 * t + q) := by
    have := ex (4 * s + p) (4 * t + q) (by omega) (by omega)
    push_cast at this
    exact this
  have c0 (n : ℕ) : (2 * ((2 * n : ℕ) : ℤ)) = 4 * n + (0 : ℕ) := by push_cast; ring
  have c1 (n : ℕ) : (4 * (n : ℤ) + (0 : ℕ)) + 1 = 4 * n + (1 : ℕ) := by push_cast; ring
  have c2 (n : ℕ) : (2 * ((2 * n + 1 : ℕ) : ℤ)) = 4 * n + (2 : ℕ) := by push_cast; ring
  have c3 (n : ℕ) : (4 * (n : ℤ) + (2 : ℕ)) + 1 = 4 * n + (3 : ℕ) := by push_cast; ring
  simp only [c0, c2]
  simp only [c1, c3]
  simp only [g _ _ (show 0 < 4 by omega) (show 0 < 4 by omega), g _ _ (show 0 < 4 by omega) (show 1 < 4 by omega), g _ _ (show 0 < 4 by omega) (show 2 < 4 by omega), g _ _ (show 0 < 4 by omega) (show 3 < 4 by omega),
    g _ _ (show 1 < 4 by omega) (show 0 < 4 by omega), g _ _ (show 1 < 4 by omega) (show 1 < 4 by omega), g _ _ (show 1 < 4 by omega) (show 2 < 4 by omega), g _ _ (show 1 < 4 by omega) (show 3 < 4 by omega),
    g _ _ (show 2 < 4 by omega) (show 0 < 4 by omega), g _ _ (show 2 < 4 by omega) (show 1 < 4 by omega), g _ _ (show 2 < 4 by omega) (show 2 < 4 by omega), g _ _ (show 2 < 4 by omega) (show 3 < 4 by omega),
    g _ _ (show 3 < 4 by omega) (show 0 < 4 by omega), g _ _ (show 3 < 4 by omega) (show 1 < 4 by omega), g _ _ (show 3 < 4 by omega) (show 2 < 4 by omega), g _ _ (show 3 < 4 by omega) (show 3 < 4 by omega)]
  simp only [Finset.sum_range_succ, Finset.sum_range_zero]
  module

/-! ### C114: sizes of the levels and their mean -/

theorem halve_pow (k : ℕ) : max 1 (2 ^ k / 2) = 2 ^ (k - 1) := by
  cases k with
  | zero => rfl
  | succ k =>
    have : 2 ^ (k + 1) / 2 = 2 ^ k := by rw [pow_succ]; omega
    rw [this, Nat.add_sub_cancel]
    exact max_eq_right Nat.one_le_two_pow

theorem log_max_pow (a b : ℕ) : Nat.log 2 (max (2 ^ a) (2 ^ b)) = max a b := by
  rcases le_total a b with h | h
  · rw [max_eq_right (Nat.pow_le_pow_right (by norm_num) h), max_eq_right h, Nat.log_pow (by norm_num)]
  · rw [max_eq_left (Nat.pow_le_pow_right (by norm_num) h), max_eq_left h, Nat.log_pow (by norm_num)]

/-- **C114** for an image of `2^a × 2^b` texels the pyramid has `1 + max a b` levels, each axis is halved from level to level until it is 1 (the two
axes change places at every level), and the last level is a single texel -/
theorem C114_sizes (w : Wrap) (img : Level V) (a b : ℕ) (hu : img.u = 2 ^ a) (hv : img.v = 2 ^ b) :
    ∃ r, pyramid w img = some r ∧ r.length = 1 + max a b ∧
      (∀ i l, r[i]? = some l → (l.u, l.v) = if i % 2 = 0 then (2 ^ (a - i), 2 ^ (b - i)) else (2 ^ (b - i), 2 ^ (a - i))) ∧
      ∃ l, r.getLast? = some l ∧ l.u = 1 ∧ l.v = 1 := by
  obtain ⟨r, hr, hlen, h0, hi⟩ := levels_spec w (max a b) img (by rw [hu]; positivity) (by rw [hv]; positivity)
  have key : ∀ i l, r[i]? = some l → (l.u, l.v) = if i % 2 = 0 then (2 ^ (a - i), 2 ^ (b - i)) else (2 ^ (b - i), 2 ^ (a - i)) := by
    intro i
    induction i with
    | zero =>
      intro l hl
      rw [h0] at hl
      cases hl
      simp [hu, hv]
    | succ i ih =>
      intro l hl
      have hin : i < max a b := by
        have := (List.getElem?_eq_some_iff.1 hl).1
        omega
      obtain ⟨x, y, h1, h2, h3, h4, h5⟩ := hi i hin
      rw [hl] at h2
      cases h2
      obtain ⟨l', hd, eu, ev, -⟩ := down_eq w x h3 h4
      rw [h5] at hd
      cases hd
      have := ih x h1
      rw [eu, ev]
      rcases Nat.mod_two_eq_zero_or_one i with hm | hm
      · have hm1 : ¬ (i + 1) % 2 = 0 := by omega
        rw [if_pos hm, Prod.mk.injEq] at this
        rw [if_neg hm1, this.1, this.2, halve_pow, halve_pow]
        rfl
      · have hm1 : (i + 1) % 2 = 0 := by omega
        rw [if_neg (by omega), Prod.mk.injEq] at this
        rw [if_pos hm1, this.1, this.2, halve_pow, halve_pow]
        rfl
  refine ⟨r, by rw [pyramid, hu, hv, log_max_pow]; exact hr, by omega, key, ?_⟩
  have hl : r[max a b]? = some (r[max a b]'(by omega)) := List.getElem?_eq_getElem _
  refine ⟨_, by rw [List.getLast?_eq_getElem?, hlen]; exact hl, ?_⟩
  have := key _ _ hl
  have ea : a - max a b = 0 := by omega
  have eb : b - max a b = 0 := by omega
  rw [ea, eb] at this
  simpa using this

/-- the mean of the texels of a level -/
noncomputable def Level.mean (l : Level V) : V := (1 / (l.u * l.v : ℝ)) • ∑ s ∈ Finset.range l.u, ∑ t ∈ Finset.range l.v, l.a s t

theorem sum_pairs {W : Type} [AddCommMonoid W] (m : ℕ) (G : ℕ → W) : ∑ k ∈ Finset.range m, (G (2 * k) + G (2 * k + 1)) = ∑ x ∈ Finset.range (2 * m), G x := by
  induction m with
  | zero => simp
  | succ m ih => rw [Finset.sum_range_succ, ih, show 2 * (m + 1) = 2 * m + 1 + 1 by ring, Finset.sum_range_succ, Finset.sum_range_succ, add_assoc]

theorem half_mean (k : ℕ) (G : ℕ → V) (hG : k = 0 → G 1 = G 0) :
    (1 / ((2 ^ (k - 1) : ℕ) : ℝ)) • ∑ j ∈ Finset.range (2 ^ (k - 1)), ((1 / 2 : ℝ) • (G (2 * j) + G (2 * j + 1))) =
      (1 / ((2 ^ k : ℕ) : ℝ)) • ∑ x ∈ Finset.range (2 ^ k), G x := by
  cases k with
  | zero =>
    simp only [Nat.zero_sub, pow_zero, Finset.range_one, Finset.sum_singleton, mul_zero, zero_add, hG rfl, Nat.cast_one]
    module
  | succ k =>
    rw [Nat.add_sub_cancel, ← Finset.smul_sum, sum_pairs, smul_smul, pow_succ, Nat.mul_comm (2 ^ k) 2]
    congr 1
    have : ((2 ^ k : ℕ) : ℝ) ≠ 0 := by positivity
    push_cast
    field_simp

theorem down_mean (w : Wrap) (x y : Level V) (a b : ℕ) (hu : x.u = 2 ^ a) (hv : x.v = 2 ^ b) (hd : down w x = some y)
    (hw : w ≠ .black ∨ (a ≠ 0 ∧ b ≠ 0)) : y.mean = x.mean := by
  obtain ⟨l', hd', eu, ev, ha⟩ := down_eq w x (by rw [hu]; positivity) (by rw [hv]; positivity)
  rw [hd] at hd'
  cases hd'
  rw [hu, halve_pow] at ev
  rw [hv, halve_pow] at eu
  have hpa : 0 < 2 ^ a := by positivity
  have hpb : 0 < 2 ^ b := by positivity
  -- inside the image the extension is the image
  have ex (p q : ℕ) (hp : p < x.u) (hq : q < x.v) : ext w x (p : ℤ) (q : ℤ) = x.a p q := by
    cases w with
    | rep =>
      simp only [ext]
      rw [Int.emod_eq_of_lt (by omega) (by omega), Int.emod_eq_of_lt (by omega) (by omega)]
      simp
    | clamp => simp only [ext, Int.toNat_natCast]; congr 1 <;> omega
    | black => simp only [ext]; rw [if_pos (by omega)]; simp
  have hwa (q : ℤ) : a = 0 → ext w x ((1 : ℕ) : ℤ) q = ext w x ((0 : ℕ) : ℤ) q := by
    intro h0
    have : x.u = 1 := by rw [hu, h0]; rfl
    cases w with
    | rep => simp [ext, this]
    | clamp => simp [ext, this]
    | black => rcases hw with h | h; exact absurd rfl h; exact absurd h0 h.1
  have hwb (p : ℤ) : b = 0 → ext w x p ((1 : ℕ) : ℤ) = ext w x p ((0 : ℕ) : ℤ) := by
    intro h0
    have : x.v = 1 := by rw [hv, h0]; rfl
    cases w with
    | rep => simp [ext, this]
    | clamp => simp [ext, this]
    | black => rcases hw with h | h; exact absurd rfl h; exact absurd h0 h.2
  have e1 : y.mean = (1 / ((2 ^ (b - 1) : ℕ) : ℝ)) • ∑ t ∈ Finset.range (2 ^ (b - 1)), (1 / 2 : ℝ) •
      ((1 / ((2 ^ (a - 1) : ℕ) : ℝ)) • ∑ s ∈ Finset.range (2 ^ (a - 1)), (1 / 2 : ℝ) • (ext w x ((2 * s : ℕ) : ℤ) ((2 * t : ℕ) : ℤ) + ext w x ((2 * s + 1 : ℕ) : ℤ) ((2 * t : ℕ) : ℤ)) +
       (1 / ((2 ^ (a - 1) : ℕ) : ℝ)) • ∑ s ∈ Finset.range (2 ^ (a - 1)), (1 / 2 : ℝ) • (ext w x ((2 * s : ℕ) : ℤ) ((2 * t + 1 : ℕ) : ℤ) + ext w x ((2 * s + 1 : ℕ) : ℤ) ((2 * t + 1 : ℕ) : ℤ))) := by
    simp only [Level.mean, eu, ev, ha]
    have step (t : ℕ) : ∑ s ∈ Finset.range (2 ^ (a - 1)), boxMean w x s t = (1 / 2 : ℝ) • (∑ s ∈ Finset.range (2 ^ (a - 1)), (1 / 2 : ℝ) • (ext w x ((2 * s : ℕ) : ℤ) ((2 * t : ℕ) : ℤ) + ext w x ((2 * s + 1 : ℕ) : ℤ) ((2 * t : ℕ) : ℤ)) +
       ∑ s ∈ Finset.range (2 ^ (a - 1)), (1 / 2 : ℝ) • (ext w x ((2 * s : ℕ) : ℤ) ((2 * t + 1 : ℕ) : ℤ) + ext w x ((2 * s + 1 : ℕ) : ℤ) ((2 * t + 1 : ℕ) : ℤ))) := by
      rw [← Finset.sum_add_distrib, Finset.smul_sum]
      refine Finset.sum_congr rfl fun s _ => ?_
      simp only [boxMean]
      push_cast
      module
    simp only [step, ← Finset.smul_sum, ← smul_add, ← Finset.sum_add_distrib, smul_smul]
    congr 1
    have h1 : ((2 ^ (a - 1) : ℕ) : ℝ) ≠ 0 := by positivity
    have h2 : ((2 ^ (b - 1) : ℕ) : ℝ) ≠ 0 := by positivity
    field_simp
  rw [e1]
  have inner (t : ℕ) := half_mean a (fun p => ext w x (p : ℤ) (t : ℤ)) (hwa t)
  simp only [inner]
  have outer := half_mean b (fun q => (1 / ((2 ^ a : ℕ) : ℝ)) • ∑ p ∈ Finset.range (2 ^ a), ext w x (p : ℤ) (q : ℤ)) (fun h => by
    simp only [hwb _ h])
  rw [outer]
  simp only [Level.mean, hu, hv, ← Finset.smul_sum, smul_smul]
  rw [Finset.sum_comm]
  have hsum : ∑ p ∈ Finset.range (2 ^ a), ∑ q ∈ Finset.range (2 ^ b), ext w x (p : ℤ) (q : ℤ) = ∑ p ∈ Finset.range (2 ^ a), ∑ q ∈ Finset.range (2 ^ b), x.a p q := by
    refine Finset.sum_congr rfl fun p hp => Finset.sum_congr rfl fun q hq => ex p q ?_ ?_
    · rw [hu]; exact Finset.mem_range.1 hp
    · rw [hv]; exact Finset.mem_range.1 hq
  rw [hsum]
  congr 1
  have h1 : ((2 ^ a : ℕ) : ℝ) ≠ 0 := by positivity
  have h2 : ((2 ^ b : ℕ) : ℝ) ≠ 0 := by positivity
  field_simp

/-- **C114 (part)** with repeat or clamp wrapping every level of the pyramid of a `2^a × 2^b` image has the mean of the image, in particular the
single texel of the last level is the mean of the image; with black wrapping the same for square images.  Missing: black wrapping of other
images (`C114_mean_false`). -/
theorem C114_mean_partial (w : Wrap) (img : Level V) (a b : ℕ) (hu : img.u = 2 ^ a) (hv : img.v = 2 ^ b) (hw : w ≠ .black ∨ a = b) :
    ∃ r, pyramid w img = some r ∧ (∀ (i : ℕ) (l : Level V), r[i]? = some l → l.mean = img.mean) ∧ ∃ l, r.getLast? = some l ∧ l.a 0 0 = img.mean := by
  obtain ⟨r, hr, hlen, hs, l, hlast, hl1, hl2⟩ := C114_sizes w img a b hu hv
  obtain ⟨r', hr', hlen', h0, hi⟩ := levels_spec w (max a b) img (by rw [hu]; positivity) (by rw [hv]; positivity)
  have e := hr
  rw [pyramid, hu, hv, log_max_pow, hr'] at e
  cases e
  have key : ∀ (i : ℕ) (l : Level V), r[i]? = some l → l.mean = img.mean := by
    intro i
    induction i with
    | zero =>
      intro l hl
      rw [h0] at hl
      cases hl
      rfl
    | succ i ih =>
      intro l hl
      have hin : i < max a b := by
        have := (List.getElem?_eq_some_iff.1 hl).1
        omega
      obtain ⟨x, y, h1, h2, h3, h4, h5⟩ := hi i hin
      rw [hl] at h2
      cases h2
      rw [← ih x h1]
      have sx := hs i x h1
      rcases Nat.mod_two_eq_zero_or_one i with hm | hm
      · rw [if_pos hm, Prod.mk.injEq] at sx
        refine down_mean w x l _ _ sx.1 sx.2 h5 ?_
        rcases hw with h | h
        · exact Or.inl h
        · right; omega
      · rw [if_neg (by omega), Prod.mk.injEq] at sx
        refine down_mean w x l _ _ sx.1 sx.2 h5 ?_
        rcases hw with h | h
        · exact Or.inl h
        · right; omega
  refine ⟨r, hr, key, l, hlast, ?_⟩
  rw [List.getLast?_eq_getElem?] at hlast
  have := key _ _ hlast
  rw [← this]
  simp [Level.mean, hl1, hl2]

/-- an all-white image of one row of two texels -/
noncomputable def stripImg : Level ℝ := ⟨1, 2, fun _ _ => 1⟩

/-- **C114 fails** for black wrapping: once one axis has a single texel the other rows read by the filter are black, so an all-white 1 × 2 image
becomes grey (1/2) at the next level -/
theorem C114_mean_false : ∃ r l, pyramid .black stripImg = some r ∧ r.getLast? = some l ∧ l.a 0 0 = 1 / 2 ∧ stripImg.mean = 1 := by
  obtain ⟨r, hr, hlen, h0, hi⟩ := levels_spec .black 1 stripImg (by simp [stripImg]) (by simp [stripImg])
  obtain ⟨x, y, h1, h2, h3, h4, h5⟩ := hi 0 (by omega)
  rw [h0] at h1
  cases h1
  obtain ⟨l', hd, -, -, ha⟩ := down_eq .black stripImg h3 h4
  rw [h5] at hd
  cases hd
  refine ⟨r, y, ?_, ?_, ?_, ?_⟩
  · have hlog : Nat.log 2 (max stripImg.u stripImg.v) = 1 := by simp only [stripImg]; decide +kernel
    rw [pyramid, hlog]; exact hr
  · rw [List.getLast?_eq_getElem?, hlen]; exact h2
  · rw [ha]; norm_num [boxMean, ext, stripImg]
  · norm_num [Level.mean, stripImg, Finset.sum_range_succ]

/-! ### C115: isotropic lookups -/

omit [Module ℝ V] in
theorem ext_mem (w : Wrap) (l : Level V) (hu : 0 < l.u) (hv : 0 < l.v) (C : Set V) (hC : ∀ s < l.u, ∀ t < l.v, l.a s t ∈ C) (h0 : w = .black → (0 : V) ∈ C)
    (s t : ℤ) : ext w l s t ∈ C := by
  cases w with
  | rep =>
    have h1 : (l.u : ℤ) ≠ 0 := by omega
    have h2 : (l.v : ℤ) ≠ 0 := by omega
    have a1 := Int.emod_nonneg s h1
    have a2 := Int.emod_lt_of_pos s (show (0 : ℤ) < l.u by omega)
    have b1 := Int.emod_nonneg t h2
    have b2 := Int.emod_lt_of_pos t (show (0 : ℤ) < l.v by omega)
    exact hC _ (by omega) _ (by omega)
  | clamp => exact hC _ (by omega) _ (by omega)
  | black =>
    simp only [ext]
    split_ifs with h
    · exact hC _ (by omega) _ (by omega)
    · exact h0 rfl

theorem convex4 (C : Set V) (hC : Convex ℝ C) (a b c d : V) (ha : a ∈ C) (hb : b ∈ C) (hc : c ∈ C) (hd : d ∈ C) (x y : ℝ) (hx : 0 ≤ x ∧ x ≤ 1) (hy : 0 ≤ y ∧ y ≤ 1) :
    ((1 - x) * (1 - y)) • a + ((1 - x) * y) • b + (x * (1 - y)) • c + (x * y) • d ∈ C := by
  have h1 : (1 - y) • a + y • b ∈ C := hC ha hb (by linarith [hy.2]) hy.1 (by ring)
  have h2 : (1 - y) • c + y • d ∈ C := hC hc hd (by linarith [hy.2]) hy.1 (by ring)
  have h3 : (1 - x) • ((1 - y) • a + y • b) + x • ((1 - y) • c + y • d) ∈ C := hC h1 h2 (by linarith [hx.2]) hx.1 (by ring)
  have e : ((1 - x) * (1 - y)) • a + ((1 - x) * y) • b + (x * (1 - y)) • c + (x * y) • d = (1 - x) • ((1 - y) • a + y • b) + x • ((1 - y) • c + y • d) := by module
  rw [e]
  exact h3

theorem levels_mem (w : Wrap) (n : ℕ) (img : Level V) (hu : 0 < img.u) (hv : 0 < img.v) (C : Set V) (hC : Convex ℝ C)
    (hi : ∀ s < img.u, ∀ t < img.v, img.a s t ∈ C) (h0 : w = .black → (0 : V) ∈ C) (r : List (Level V)) (hr : levels w img n = some r) :
    ∀ (i : ℕ) (l : Level V), r[i]? = some l → 0 < l.u ∧ 0 < l.v ∧ ∀ s < l.u, ∀ t < l.v, l.a s t ∈ C := by
  obtain ⟨r', hr', hlen, hz, hs⟩ := levels_spec w n img hu hv
  rw [hr] at hr'
  cases hr'
  intro i
  induction i with
  | zero =>
    intro l hl
    rw [hz] at hl
    cases hl
    exact ⟨hu, hv, hi⟩
  | succ i ih =>
    intro l hl
    have hin : i < n := by
      have := (List.getElem?_eq_some_iff.1 hl).1
      omega
    obtain ⟨x, y, h1, h2, h3, h4, h5⟩ := hs i hin
    rw [hl] at h2
    cases h2
    obtain ⟨l', hd, eu, ev, ha⟩ := down_eq w x h3 h4
    rw [h5] at hd
    cases hd
    obtain ⟨-, -, hx⟩ := ih x h1
    refine ⟨by omega, by omega, fun s _ t _ => ?_⟩
    rw [ha]
    have m (p q : ℤ) := ext_mem w x h3 h4 C hx h0 p q
    have := convex4 C hC _ _ _ _ (m (2 * t) (2 * s)) (m (2 * t + 1) (2 * s)) (m (2 * t) (2 * s + 1)) (m (2 * t + 1) (2 * s + 1)) (1 / 2) (1 / 2) (by norm_num) (by norm_num)
    have e : boxMean w x t s = ((1 - 1 / 2 : ℝ) * (1 - 1 / 2)) • ext w x (2 * t) (2 * s) + ((1 - 1 / 2 : ℝ) * (1 / 2)) • ext w x (2 * t + 1) (2 * s) +
        ((1 / 2 : ℝ) * (1 - 1 / 2)) • ext w x (2 * t) (2 * s + 1) + ((1 / 2 : ℝ) * (1 / 2)) • ext w x (2 * t + 1) (2 * s + 1) := by
      simp only [boxMean]
      module
    rw [e]
    exact this

theorem fract_mem (x : ℝ) : 0 ≤ x - ⌊x⌋ ∧ x - ⌊x⌋ ≤ 1 := ⟨by linarith [Int.floor_le x], by linarith [Int.lt_floor_add_one x]⟩

theorem triangle_mem (m : MipMap V) (C : Set V) (hC : Convex ℝ C) (h0 : m.wrap = .black → (0 : V) ∈ C) (hne : 0 < m.lev.length)
    (hl : ∀ (i : ℕ) (l : Level V), m.lev[i]? = some l → 0 < l.u ∧ 0 < l.v ∧ ∀ s < l.u, ∀ t < l.v, l.a s t ∈ C) (level : ℤ) (s t : ℝ) :
    ∃ x ∈ C, m.triangle level s t = some x := by
  have hk : (clipZ level 0 (m.lev.length - 1)).toNat < m.lev.length := by simp only [clipZ]; omega
  have e : m.lev[(clipZ level 0 (m.lev.length - 1)).toNat]? = some (m.lev[(clipZ level 0 (m.lev.length - 1)).toNat]) := List.getElem?_eq_getElem hk
  set l := m.lev[(clipZ level 0 (m.lev.length - 1)).toNat] with hldef
  obtain ⟨hu, hv, hx⟩ := hl _ _ e
  simp only [MipMap.triangle, e, Option.bind_eq_bind, Option.bind_some, C57_texel m.wrap l hu hv]
  exact ⟨_, convex4 C hC _ _ _ _ (ext_mem _ _ hu hv C hx h0 _ _) (ext_mem _ _ hu hv C hx h0 _ _) (ext_mem _ _ hu hv C hx h0 _ _) (ext_mem _ _ hu hv C hx h0 _ _) _ _
    (fract_mem _) (fract_mem _), rfl⟩

/-- **C115** isotropic lookups always return a value, and it is a weighted mean of texels of the image: it lies in every convex set that contains
all texels of the image (and black, for black wrapping).  So lookups never overshoot: bounds on the texels are bounds on the result, for every
position and width. -/
theorem C115_convex (m : MipMap V) (img : Level V) (hu : 0 < img.u) (hv : 0 < img.v) (hm : pyramid m.wrap img = some m.lev) (C : Set V) (hC : Convex ℝ C)
    (hi : ∀ s < img.u, ∀ t < img.v, img.a s t ∈ C) (h0 : m.wrap = .black → (0 : V) ∈ C) (s t width : ℝ) :
    ∃ x ∈ C, m.lookUp3 s t width = some x := by
  have hl := levels_mem m.wrap _ img hu hv C hC hi h0 m.lev hm
  have hne : 0 < m.lev.length := by
    obtain ⟨r, hr, hlen, -⟩ := C57_box_partial m.wrap img hu hv
    rw [hm] at hr
    cases hr
    omega
  have tri := triangle_mem m C hC h0 hne hl
  simp only [MipMap.lookUp3]
  split_ifs with h1 h2
  · exact tri _ _ _
  · exact tri _ _ _
  · set level := (m.lev.length : ℝ) - 1 + Real.logb 2 (max width texEps)
    obtain ⟨a, ha, ea⟩ := tri ⌊level⌋ s t
    obtain ⟨b, hb, eb⟩ := tri (⌊level⌋ + 1) s t
    have f := fract_mem level
    refine ⟨(1 - (level - ⌊level⌋)) • a + (level - ⌊level⌋) • b, hC ha hb (by linarith) f.1 (by ring), ?_⟩
    simp only [ea, eb, Option.bind_eq_bind, Option.bind_some]
    rfl

/-- **C115** in particular an image of one colour looks that colour everywhere and at every width (repeat and clamp wrapping) -/
theorem C115_constant (m : MipMap V) (img : Level V) (hu : 0 < img.u) (hv : 0 < img.v) (hm : pyramid m.wrap img = some m.lev) (c : V)
    (hi : ∀ s < img.u, ∀ t < img.v, img.a s t = c) (hw : m.wrap ≠ .black) (s t width : ℝ) : m.lookUp3 s t width = some c := by
  obtain ⟨x, hx, e⟩ := C115_convex m img hu hv hm {c} (convex_singleton c) (fun s hs t ht => hi s hs t ht) (fun h => absurd h hw) s t width
  rw [e, Set.mem_singleton_iff.1 hx]

theorem logb_eps : Real.logb 2 texEps < -16 := by
  have : Real.logb 2 texEps < Real.logb 2 ((2 : ℝ) ^ (-16 : ℝ)) := by
    refine Real.logb_lt_logb (by norm_num) (by norm_num [texEps]) ?_
    rw [show (-16 : ℝ) = ((-16 : ℤ) : ℝ) by norm_num, Real.rpow_intCast]
    norm_num [texEps]
  rwa [Real.logb_rpow (by norm_num) (by norm_num)] at this

/-- **C115** a lookup without width at the centre of a texel returns that texel exactly (images up to 65536 texels wide, i.e. up to 17 levels) -/
theorem C115_centers (m : MipMap V) (img : Level V) (hm : pyramid m.wrap img = some m.lev) (h17 : m.lev.length ≤ 17)
    (i j : ℕ) (hi : i < img.u) (hj : j < img.v) : m.lookUp2 ((i + 0.5) / img.u) ((j + 0.5) / img.v) = some (img.a i j) := by
  have hu : 0 < img.u := by omega
  have hv : 0 < img.v := by omega
  obtain ⟨r, hr, hlen, h0, -⟩ := C57_box_partial m.wrap img hu hv
  rw [hm] at hr
  cases hr
  have hlev : (m.lev.length : ℝ) - 1 + Real.logb 2 (max 0 texEps) < 0 := by
    have : max 0 texEps = texEps := max_eq_right (by norm_num [texEps])
    rw [this]
    have h17' : (m.lev.length : ℝ) ≤ 17 := by exact_mod_cast h17
    linarith [logb_eps]
  simp only [MipMap.lookUp2, MipMap.lookUp3, hlev, if_true, MipMap.triangle]
  have hclip : (clipZ 0 0 (m.lev.length - 1)).toNat = 0 := by simp only [clipZ]; omega
  rw [hclip, h0]
  have c (k n : ℕ) (hn : 0 < n) : ((k : ℝ) + 0.5) / n * n - 0.5 = ((k : ℤ) : ℝ) := by
    have : (n : ℝ) ≠ 0 := by positivity
    field_simp
    push_cast
    ring
  simp only [Option.bind_eq_bind, Option.bind_some, c _ _ hu, c _ _ hv, Int.floor_intCast, sub_self, C57_texel m.wrap img hu hv]
  have ex : ext m.wrap img (i : ℤ) (j : ℤ) = img.a i j := by
    cases m.wrap with
    | rep =>
      simp only [ext]
      rw [Int.emod_eq_of_lt (by omega) (by omega), Int.emod_eq_of_lt (by omega) (by omega)]
      simp
    | clamp => simp only [ext, Int.toNat_natCast]; congr 2 <;> omega
    | black => simp only [ext]; rw [if_pos (by omega)]; simp
  rw [ex]
  simp

/-- **C115 (part)** a lookup whose width is at least the whole image returns the mean of the image, for repeat and clamp wrapping.  Missing: black
wrapping (`C115_coarse_false`). -/
theorem C115_coarse_partial (m : MipMap V) (img : Level V) (a b : ℕ) (hu : img.u = 2 ^ a) (hv : img.v = 2 ^ b) (hm : pyramid m.wrap img = some m.lev)
    (hw : m.wrap ≠ .black) (s t width : ℝ) (h1 : 1 ≤ width) : m.lookUp3 s t width = some img.mean := by
  obtain ⟨r, hr, hlen, -, l, hlast, hl1, hl2⟩ := C114_sizes m.wrap img a b hu hv
  rw [hm] at hr
  cases hr
  obtain ⟨r, hr, -, l', hlast', hmean⟩ := C114_mean_partial m.wrap img a b hu hv (Or.inl hw)
  rw [hm] at hr
  cases hr
  rw [hlast] at hlast'
  cases hlast'
  have hw1 : max width texEps = width := max_eq_left (by have : texEps ≤ 1 := by norm_num [texEps]
                                                         linarith)
  have hlg : 0 ≤ Real.logb 2 width := Real.logb_nonneg (by norm_num) h1
  have hn : (1 : ℝ) ≤ m.lev.length := by
    have h : 1 ≤ m.lev.length := by omega
    exact_mod_cast h
  simp only [MipMap.lookUp3, hw1]
  rw [if_neg (by linarith), if_pos (by linarith)]
  simp only [MipMap.triangle]
  have hclip : (clipZ m.lev.length 0 (m.lev.length - 1)).toNat = m.lev.length - 1 := by simp only [clipZ]; omega
  rw [List.getLast?_eq_getElem?] at hlast
  rw [hclip, hlast]
  have hlu : 0 < l.u := by omega
  have hlv : 0 < l.v := by omega
  simp only [Option.bind_eq_bind, Option.bind_some, C57_texel m.wrap l hlu hlv]
  have ex (p q : ℤ) : ext m.wrap l p q = l.a 0 0 := by
    revert hw
    cases m.wrap with
    | rep => intro _; simp [ext, hl1, hl2]
    | clamp => intro _; simp [ext, hl1, hl2]
    | black => intro h; exact absurd rfl h
  simp only [ex, hmean]
  have e (x y : ℝ) (v : V) : ((1 - x) * (1 - y)) • v + ((1 - x) * y) • v + (x * (1 - y)) • v + (x * y) • v = v := by module
  rw [e]
  rfl

/-- one white texel -/
noncomputable def dotImg : Level ℝ := ⟨1, 1, fun _ _ => 1⟩

/-- **C115 fails** for black wrapping: the coarsest level is read at the corner of its single texel, so a lookup of a wholly white image over its whole
extent returns a quarter -/
theorem C115_coarse_false (m : MipMap ℝ) (hw : m.wrap = .black) (hm : m.lev = [dotImg]) (s t : ℝ) :
    pyramid m.wrap dotImg = some m.lev ∧ m.lookUp3 s t 1 = some (1 / 4) := by
  refine ⟨by simp [pyramid, dotImg, levels, hm], ?_⟩
  have h1 : max (1 : ℝ) texEps = 1 := max_eq_left (by norm_num [texEps])
  have f : ⌊(-0.5 : ℝ)⌋ = -1 := by rw [Int.floor_eq_iff]; norm_num
  simp only [MipMap.lookUp3, hm, h1, Real.logb_one, List.length_singleton, Nat.cast_one, sub_self, add_zero, lt_self_iff_false, if_false, ge_iff_le, le_refl, if_true,
    MipMap.triangle]
  have hc : (clipZ 1 0 0).toNat = 0 := by decide
  simp only [hc, List.getElem?_cons_zero, Option.bind_eq_bind, Option.bind_some, hw, zero_mul, zero_sub, f]
  norm_num [texel, dotImg, Level.get, npIx]

/-- **C115 fails** for the orientation: in the image that is 1 where `s < 1/2` and 0 elsewhere, a lookup at `(1/4, 3/4)` with width 1/2 covers only texels
equal to 1, and returns 0, because level 1 is transposed -/
theorem C115_orientation_false (m : MipMap ℝ) (hm : pyramid m.wrap bandImg = some m.lev) : m.lookUp3 (1 / 4) (3 / 4) (1 / 2) = some 0 := by
  have hlog : Nat.log 2 (max bandImg.u bandImg.v) = 2 := by simp only [bandImg]; decide +kernel
  obtain ⟨r, hr, hlen, h0, hi⟩ := levels_spec m.wrap 2 bandImg (by simp [bandImg]) (by simp [bandImg])
  rw [pyramid, hlog, hr] at hm
  cases hm
  obtain ⟨x, y, h1, h2, h3, h4, h5⟩ := hi 0 (by omega)
  rw [h0] at h1
  cases h1
  obtain ⟨l', hd, hyu, hyv, hya⟩ := down_eq m.wrap bandImg h3 h4
  rw [h5] at hd
  cases hd
  obtain ⟨x, z, g1, g2, g3, g4, g5⟩ := hi 1 (by omega)
  simp only [zero_add] at h2
  rw [h2] at g1
  cases g1
  obtain ⟨l', hd, hzu, hzv, hza⟩ := down_eq m.wrap y g3 g4
  rw [g5] at hd
  cases hd
  have hy2 : y.u = 2 := by rw [hyu]; simp [bandImg]
  have hy2' : y.v = 2 := by rw [hyv]; simp [bandImg]
  have hw1 : max (1 / 2 : ℝ) texEps = 2⁻¹ := by rw [max_eq_left (by norm_num [texEps])]; norm_num
  have hlg : Real.logb 2 2⁻¹ = -1 := by rw [Real.logb_inv, Real.logb_self_eq_one (by norm_num)]
  have hlevel : ((m.lev.length : ℝ) - 1 + Real.logb 2 (max (1 / 2) texEps)) = 1 := by
    rw [hw1, hlg, hlen]; norm_num
  have hn : (m.lev.length : ℝ) = 3 := by rw [hlen]; norm_num
  have tri1 : m.triangle 1 (1 / 4) (3 / 4) = some 0 := by
    have hc : (clipZ 1 0 (m.lev.length - 1)).toNat = 1 := by rw [hlen]; simp [clipZ]
    have f0 : ⌊(1 / 4 : ℝ) * (2 : ℕ) - 0.5⌋ = 0 := by rw [Int.floor_eq_iff]; norm_num
    have f1 : ⌊(3 / 4 : ℝ) * (2 : ℕ) - 0.5⌋ = 1 := by rw [Int.floor_eq_iff]; norm_num
    simp only [MipMap.triangle, hc, h2, Option.bind_eq_bind, Option.bind_some, hy2, hy2', f0, f1, C57_texel m.wrap y g3 g4]
    have e : ext m.wrap y 0 1 = 0 := by
      have : ext m.wrap y 0 1 = y.a 0 1 := by
        cases m.wrap <;> simp [ext, hy2, hy2']
      rw [this, hya]
      cases m.wrap <;> norm_num [boxMean, ext, bandImg]
    rw [e]
    norm_num
  obtain ⟨v, -, tri2⟩ := triangle_mem m Set.univ convex_univ (fun _ => trivial) (by omega)
    (fun i l hl => by
      have := levels_mem m.wrap 2 bandImg (by simp [bandImg]) (by simp [bandImg]) Set.univ convex_univ (fun _ _ _ _ => trivial) (fun _ => trivial) m.lev hr i l hl
      exact this) 2 (1 / 4) (3 / 4)
  simp only [MipMap.lookUp3, hlevel]
  rw [hn, if_neg (by norm_num), if_neg (by norm_num)]
  simp only [Int.floor_one, Int.cast_one, sub_self, tri1, Option.bind_eq_bind, Option.bind_some]
  norm_num [tri2]

/-! ### C116: anisotropic lookups -/

/-- **C116 (part)** anisotropic lookups of a trilinear map are isotropic ones of twice the largest differential; without a minor axis (two parallel or
zero differentials of which one vanishes) the image is interpolated bilinearly.  Missing: lookups with both differentials raise (`C116_aniso_false`). -/
theorem C116_aniso_partial (m : MipMap V) (s t ds0 dt0 ds1 dt1 : ℝ) :
    (m.trilinear = true → m.lookUp6 s t ds0 dt0 ds1 dt1 = m.lookUp3 s t (2 * max (max |ds0| |dt0|) (max |ds1| |dt1|))) ∧
    (m.trilinear = false → (ds0 = 0 ∧ dt0 = 0) ∨ (ds1 = 0 ∧ dt1 = 0) → m.lookUp6 s t ds0 dt0 ds1 dt1 = m.triangle 0 s t) := by
  refine ⟨fun h => by simp [MipMap.lookUp6, h], fun h hz => ?_⟩
  simp only [MipMap.lookUp6, h, Bool.false_eq_true, if_false]
  have pos (x y : ℝ) : 0 ≤ x * x + y * y := by nlinarith [mul_self_nonneg x, mul_self_nonneg y]
  rcases hz with ⟨rfl, rfl⟩ | ⟨rfl, rfl⟩
  · by_cases hc : (0 : ℝ) * 0 + 0 * 0 < ds1 * ds1 + dt1 * dt1
    · rw [if_pos hc, if_pos hc]
      simp
    · have e : ds1 * ds1 + dt1 * dt1 = 0 := by
        have := pos ds1 dt1
        simp only [mul_zero, add_zero, not_lt] at hc
        exact le_antisymm hc this
      rw [if_neg hc, if_neg hc, e]
      simp
  · have hc : ¬ (ds0 * ds0 + dt0 * dt0 < (0 : ℝ) * 0 + 0 * 0) := by
      have := pos ds0 dt0
      simp only [mul_zero, add_zero, not_lt]
      exact this
    rw [if_neg hc, if_neg hc]
    simp

/-- **C116 (part)** without `trilinear`, a lookup whose smaller differential spans at least two texture widths (within the allowed eccentricity) returns the mean of the image, for images whose sides are powers of two
(equal ones, or with repeat or clamp wrapping, see `C114_mean_false`) -/
theorem C116_coarse_partial (m : MipMap V) (img : Level V) (a b : ℕ) (hu : img.u = 2 ^ a) (hv : img.v = 2 ^ b) (hm : pyramid m.wrap img = some m.lev) (hw : m.wrap ≠ .black ∨ a = b)
    (htri : m.trilinear = false) (s t ds0 dt0 ds1 dt1 : ℝ) (hle : ds1 * ds1 + dt1 * dt1 ≤ ds0 * ds0 + dt0 * dt0) (h4 : 4 ≤ ds1 * ds1 + dt1 * dt1)
    (hecc : Real.sqrt (ds0 * ds0 + dt0 * dt0) ≤ Real.sqrt (ds1 * ds1 + dt1 * dt1) * m.maxAniso) : m.lookUp6 s t ds0 dt0 ds1 dt1 = some img.mean := by
  obtain ⟨r, hr, hlen, -, l, hlast, hl1, hl2⟩ := C114_sizes m.wrap img a b hu hv
  rw [hm] at hr
  cases hr
  obtain ⟨r, hr, -, l', hlast', hmean⟩ := C114_mean_partial m.wrap img a b hu hv hw
  rw [hm] at hr
  cases hr
  rw [hlast] at hlast'
  cases hlast'
  set q := Real.sqrt (ds1 * ds1 + dt1 * dt1) with hq
  have hq2 : 2 ≤ q := Real.le_sqrt_of_sq_le (by linarith)
  simp only [MipMap.lookUp6, htri, Bool.false_eq_true, if_false]
  have hecc' : ¬ (q * m.maxAniso < Real.sqrt (ds0 * ds0 + dt0 * dt0) ∧ q > 0) := fun h => absurd h.1 (not_lt.2 hecc)
  have hq0 : q ≠ 0 := by linarith
  rw [hq] at hecc' hq0
  simp only [not_lt.2 hle, hecc', hq0, if_false]
  rw [← hq]
  have hlg : 1 ≤ Real.logb 2 q := by
    have := Real.logb_le_logb_of_le (by norm_num : (1 : ℝ) < 2) (by norm_num) hq2
    rwa [Real.logb_self_eq_one (by norm_num)] at this
  have hfl : (m.lev.length : ℤ) ≤ ⌊max 0 ((m.lev.length : ℝ) - 1 + Real.logb 2 q)⌋ := by
    rw [Int.le_floor]
    push_cast
    exact le_max_of_le_right (by linarith)
  have hew (z : ℤ) (hz : (m.lev.length : ℤ) ≤ z) : m.ewa z = some img.mean := by
    simp only [MipMap.ewa, ge_iff_le, hz, if_true, hlast]
    rw [C57_texel m.wrap l (by omega) (by omega), ← hmean]
    cases m.wrap <;> simp [ext, hl1, hl2]
  rw [hew _ hfl, hew _ (by omega)]
  simp only [Option.bind_eq_bind, Option.bind_some]
  congr 1
  module

/-- **C116 fails**: without `trilinear`, a lookup whose smaller differential (after the eccentricity clamp) is shorter than 2 texture widths but not zero
raises, for every image: the elliptical filter calls a function that does not exist.  Stated for differentials within the allowed eccentricity. -/
theorem C116_aniso_false (m : MipMap V) (img : Level V) (hu : 0 < img.u) (hv : 0 < img.v) (hm : pyramid m.wrap img = some m.lev) (htri : m.trilinear = false)
    (s t ds0 dt0 ds1 dt1 : ℝ) (hle : ds1 * ds1 + dt1 * dt1 ≤ ds0 * ds0 + dt0 * dt0) (hpos : 0 < ds1 * ds1 + dt1 * dt1) (h4 : ds1 * ds1 + dt1 * dt1 < 4)
    (hecc : Real.sqrt (ds0 * ds0 + dt0 * dt0) ≤ Real.sqrt (ds1 * ds1 + dt1 * dt1) * m.maxAniso) : m.lookUp6 s t ds0 dt0 ds1 dt1 = none := by
  have hne : 0 < m.lev.length := by
    obtain ⟨r, hr, hlen, -⟩ := C57_box_partial m.wrap img hu hv
    rw [hm] at hr
    cases hr
    omega
  set q := Real.sqrt (ds1 * ds1 + dt1 * dt1) with hq
  have hq0 : 0 < q := Real.sqrt_pos.2 hpos
  have hq2 : q < 2 := by
    rw [hq, Real.sqrt_lt' (by norm_num)]
    linarith
  simp only [MipMap.lookUp6, htri, Bool.false_eq_true, if_false]
  have hecc' : ¬ (q * m.maxAniso < Real.sqrt (ds0 * ds0 + dt0 * dt0) ∧ q > 0) := fun h => absurd h.1 (not_lt.2 hecc)
  rw [hq] at hecc' hq0
  simp only [not_lt.2 hle, hecc', hq0.ne', if_false]
  rw [← hq]
  rw [← hq] at hq0
  have hlg : Real.logb 2 q < 1 := by
    have := Real.logb_lt_logb (b := 2) (by norm_num) hq0 hq2
    rwa [Real.logb_self_eq_one (by norm_num)] at this
  have hfl : ⌊max 0 ((m.lev.length : ℝ) - 1 + Real.logb 2 q)⌋ < (m.lev.length : ℤ) := by
    rw [Int.floor_lt]
    refine max_lt (by exact_mod_cast hne) ?_
    push_cast
    linarith
  have : m.ewa ⌊max 0 ((m.lev.length : ℝ) - 1 + Real.logb 2 q)⌋ = none := by
    simp only [MipMap.ewa]
    rw [if_neg (not_le.2 hfl)]
  rw [this]
  rfl

/-- the hypotheses of `C116_aniso_false` and `C115_convex` hold for the 4 × 4 image and differentials of one tenth -/
example : ∃ r, pyramid .rep bandImg = some r ∧
    (0.1 : ℝ) * 0.1 + 0 * 0 ≤ 0.1 * 0.1 + 0 * 0 ∧ Real.sqrt (0.1 * 0.1 + 0 * 0) ≤ Real.sqrt (0.1 * 0.1 + 0 * 0) * 8 := by
  obtain ⟨r, hr, -⟩ := C57_box_partial .rep bandImg (by simp [bandImg]) (by simp [bandImg])
  exact ⟨r, hr, le_rfl, by nlinarith [Real.sqrt_nonneg (0.1 * 0.1 + 0 * 0 : ℝ)]⟩

end Verif.Texture
