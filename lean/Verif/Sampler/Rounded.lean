import Verif.Sampler.Sub
import Verif.Num.Round

/-!
# The stratified sampler in rounded arithmetic

`sampler/utility.py:18-44`, `sampler/sampler/stratified.py:34-111` and `sampler/sampler/__init__.py:87-111` with the result of every operation on floats rounded
(`Num/Round.lean`).  `Sampler/Model.lean` has the same functions in exact arithmetic; random source, shuffles and sample objects are shared with it.
-/

namespace Verif.Sampler
open Verif.Rnd (Rounding)
set_option linter.unusedSectionVars false

section
variable {K : Type*} [Field K] [LinearOrder K]

/-! ### Model -/

/-- `(base + offsets) / n` elementwise (`sampler/utility.py:20, 22, 28-29, 31-32, 36, 42, 44`), rounded -/
def strataR (R : Rounding K) (base offsets : List K) (n : ℕ) : List K := List.zipWith (fun b o => R.div (R.add b o) (n : K)) base offsets

/-- `stratified_sample_1d` (`sampler/utility.py:18-22`), rounded -/
def stratified1dR (R : Rounding K) (r : Rand K) (st : RS) (n : ℕ) (jitter : Bool) : List K × RS :=
  if !jitter then (strataR R (arange n) (List.replicate n (1 / 2)) n, st)
  else
    let (u, st) := rng r st n
    (strataR R (arange n) u n, st)

/-- `stratified_sample_2d` (`sampler/utility.py:25-32`), rounded -/
def stratified2dR (R : Rounding K) (r : Rand K) (st : RS) (nx ny : ℕ) (jitter : Bool) : List (K × K) × RS :=
  if jitter then
    let (ux, st) := rng r st (nx * ny)
    let (uy, st) := rng r st (nx * ny)
    (List.zip (strataR R (tile (arange nx) ny) ux nx) (strataR R (repeatEach (arange ny) nx) uy ny), st)
  else
    (List.zip (strataR R (tile (arange nx) ny) (List.replicate (nx * ny) (1 / 2)) nx)
      (strataR R (repeatEach (arange ny) nx) (List.replicate (nx * ny) (1 / 2)) ny), st)

/-- `latin_hypercube_1d` (`sampler/utility.py:35-38`), rounded -/
def latin1dR (R : Rounding K) (r : Rand K) (st : RS) (n : ℕ) : List K × RS :=
  let (u, st) := rng r st n
  shuffle r st (strataR R (arange n) u n)

/-- `latin_hypercube_2d` (`sampler/utility.py:41-44`), rounded -/
def latin2dR (R : Rounding K) (r : Rand K) (st : RS) (n : ℕ) : List (K × K) × RS :=
  let (uy, st) := rng r st n
  let (ys, st) := shuffle r st (strataR R (arange n) uy n)
  let (ux, st) := rng r st n
  (List.zip (strataR R (arange n) ux n) ys, st)

/-- the loop over the one-dimensional requests (`stratified.py:78-79`) -/
def fill1R (R : Rounding K) (r : Rand K) : List ℕ → ℕ → List (Option (List K)) → RS → Option (List (Option (List K)) × RS)
  | [], _, arr, st => some (arr, st)
  | n :: ns, j, arr, st =>
    let (v, st) := latin1dR R r st n
    if j < arr.length then fill1R R r ns (j + 1) (arr.set j (some v)) st else none

/-- the loop over the two-dimensional requests (`stratified.py:80-81`) -/
def fill2R (R : Rounding K) (r : Rand K) : List ℕ → ℕ → List (Option (List (K × K))) → RS → Option (List (Option (List (K × K))) × RS)
  | [], _, arr, st => some (arr, st)
  | n :: ns, j, arr, st =>
    let (v, st) := latin2dR R r st n
    if j < arr.length then fill2R R r ns (j + 1) (arr.set j (some v)) st else none

/-- `util.lerp(t, v1, v2)` (`utility/utility.py:89-91`), rounded -/
def lerpR (R : Rounding K) (t v1 v2 : K) : K := R.add (R.mul (R.sub' 1 t) v1) (R.mul t v2)

/-- the loop over the samples of a batch (`stratified.py:70-81`) -/
def fillBatchR (R : Rounding K) (r : Rand K) (s : Strat K) : List (Sample K) → List (K × K) → List (K × K) → List K → RS →
    Option (List (Sample K) × RS)
  | [], _, _, _, st => some ([], st)
  | smp :: rest, im :: ims, le :: les, ti :: tis, st =>
    match fill1R R r smp.n1D 0 smp.oneD st with
    | none => none
    | some (oneD, st) =>
      match fill2R R r smp.n2D 0 smp.twoD st with
      | none => none
      | some (twoD, st) =>
        match fillBatchR R r s rest ims les tis st with
        | none => none
        | some (out, st) =>
          some ({ smp with
            imageX := im.1, imageY := im.2, lensU := le.1, lensV := le.2,
            time := lerpR R ti s.sOpen s.sClose, oneD := oneD, twoD := twoD } :: out, st)
  | _ :: _, _, _, _, _ => none

/-- `StratifiedSampler.generate` (`stratified.py:45-89`), rounded; a position that is a Python integer is advanced exactly, one that is a float is rounded: for integers of
up to 53 bits there is no difference -/
def Strat.generateR (R : Rounding K) (r : Rand K) (s : Strat K) (samples : List (Sample K)) (st : RS) : Gen K :=
  if s.yPos = s.ye then .stop
  else if s.xSamples * s.ySamples ≠ samples.length then .fail
  else
    let (image, st) := stratified2dR R r st s.xSamples s.ySamples s.jitter
    let (lens, st) := stratified2dR R r st s.xSamples s.ySamples s.jitter
    let (time, st) := stratified1dR R r st (s.xSamples * s.ySamples) s.jitter
    let image := image.map (fun p => (R.add p.1 s.xPos, R.add p.2 s.yPos))
    let (lens, st) := shuffle r st lens
    let (time, st) := shuffle r st time
    match fillBatchR R r s samples image lens time st with
    | none => .fail
    | some (out, st) =>
      let xPos := R.add s.xPos 1
      if xPos = s.xe then .batch out { s with xPos := s.xs, yPos := R.add s.yPos 1 } st
      else .batch out { s with xPos := xPos } st

/-- `compute_subwindow` (`sampler/sampler/__init__.py:87-111`) for an integer pixel window, rounded -/
def subwindowR (R : Rounding K) (xs xe ys ye : ℤ) (num cnt : ℕ) : K × K × K × K :=
  let (nx, ny) := tileLoop (xe - xs).toNat (ye - ys).toNat cnt 1
  let x0 := num % nx
  let y0 := num / nx
  let xa := clip (R.div (x0 : K) (nx : K)) (xs : K) (xe : K)
  let xb := clip (R.div ((x0 + 1 : ℕ) : K) (nx : K)) (xs : K) (xe : K)
  let ya := clip (R.div (y0 : K) (ny : K)) (ys : K) (ye : K)
  let yb := clip (R.div ((y0 + 1 : ℕ) : K) (ny : K)) (ys : K) (ye : K)
  (lerpR R xa xs xe, lerpR R xb xs xe, lerpR R ya ys ye, lerpR R yb ys ye)

/-- `get_subsampler` (`stratified.py:102-111`), rounded -/
def Strat.subR (R : Rounding K) (s : Strat K) (xs xe ys ye : ℤ) (num cnt : ℕ) : Option (Strat K) :=
  let w : K × K × K × K := subwindowR R xs xe ys ye num cnt
  if w.1 = w.2.1 ∨ w.2.2.1 = w.2.2.2 then none
  else some (Strat.mk' w.1 w.2.1 w.2.2.1 w.2.2.2 s.xSamples s.ySamples s.jitter s.sOpen s.sClose)

/-! ### Specification -/

/-- `n` calls of `generate` in a row; the `k`-th gets the samples `inp k` -/
def scanR (R : Rounding K) (r : Rand K) (inp : ℕ → List (Sample K)) : ℕ → Strat K → RS → Option (List (List (Sample K)) × Strat K × RS)
  | 0, s, st => some ([], s, st)
  | n + 1, s, st =>
    match scanR R r inp n s st with
    | none => none
    | some (bs, s', st') =>
      match s'.generateR R r (inp n) st' with
      | .batch out s'' st'' => some (bs ++ [out], s'', st'')
      | _ => none

/-- `x` lies between the floats nearest to the ends of stratum `i` of `n`, ends included -/
def NearStratum (R : Rounding K) (i n : ℕ) (x : K) : Prop := R.rnd ((i : K) / n) ≤ x ∧ x ≤ R.rnd (((i + 1 : ℕ) : K) / n)

/-- rearranged, the values are in their strata one by one -/
def NearLatin (R : Rounding K) (n : ℕ) (l : List K) : Prop :=
  l.length = n ∧ ∃ s : List K, l.Perm s ∧ ∀ i < n, ∃ x, s[i]? = some x ∧ NearStratum R i n x ∧ 0 ≤ x ∧ x ≤ 1

/-- the caller's part: a full batch, arrays matching the requested counts, counts of at most 53 bits -/
def SmallInput (s : Strat K) (l : List (Sample K)) : Prop :=
  l.length = s.xSamples * s.ySamples ∧
  ∀ p ∈ l, (p.oneD.length = p.n1D.length ∧ ∀ n ∈ p.n1D, n ≤ 2 ^ 53) ∧ (p.twoD.length = p.n2D.length ∧ ∀ n ∈ p.n2D, n ≤ 2 ^ 53)

/-- one filled sample: the shape is kept, the image position is given by two floats and is in the closed pixel `(px, py)` and in the rounded sub-cell of its index, the lens position is in the closed
unit square, the time is interpolated with a parameter from 0 to 1, and each requested array is present, of the requested length and, up to rounding, Latin -/
structure NearFilled (R : Rounding K) (s : Strat K) (px py : K) (i : ℕ) (inp out : Sample K) : Prop where
  shape : out.n1D = inp.n1D ∧ out.n2D = inp.n2D
  x : R.add (R.rnd (((i % s.xSamples : ℕ) : K) / s.xSamples)) px ≤ out.imageX ∧ out.imageX ≤ R.add (R.rnd (((i % s.xSamples + 1 : ℕ) : K) / s.xSamples)) px
  y : R.add (R.rnd (((i / s.xSamples : ℕ) : K) / s.ySamples)) py ≤ out.imageY ∧ out.imageY ≤ R.add (R.rnd (((i / s.xSamples + 1 : ℕ) : K) / s.ySamples)) py
  pixel : (px ≤ out.imageX ∧ out.imageX ≤ px + 1) ∧ (py ≤ out.imageY ∧ out.imageY ≤ py + 1)
  rep : R.Rep out.imageX ∧ R.Rep out.imageY
  lens : (0 ≤ out.lensU ∧ out.lensU ≤ 1) ∧ (0 ≤ out.lensV ∧ out.lensV ≤ 1)
  time : ∃ t : K, R.Rep t ∧ 0 ≤ t ∧ t ≤ 1 ∧ out.time = lerpR R t s.sOpen s.sClose
  one : out.oneD.length = inp.n1D.length ∧
    ∀ (j n : ℕ), inp.n1D[j]? = some n → ∃ v : List K, out.oneD[j]? = some (some v) ∧ NearLatin R n v
  two : out.twoD.length = inp.n2D.length ∧
    ∀ (j n : ℕ), inp.n2D[j]? = some n → ∃ v : List (K × K), out.twoD[j]? = some (some v) ∧ v.length = n ∧
      NearLatin R n (v.map Prod.fst) ∧ NearLatin R n (v.map Prod.snd)

/-- a filled batch -/
def NearBatch (R : Rounding K) (s : Strat K) (px py : K) (inp out : List (Sample K)) : Prop :=
  out.length = inp.length ∧ ∀ (i : ℕ) (a b : Sample K), inp[i]? = some a → out[i]? = some b → NearFilled R s px py i a b

end

section
variable {K : Type*} [Field K] [LinearOrder K] [IsStrictOrderedRing K]

/-! ### Lemmas -/

theorem strataR_getElem? (R : Rounding K) (b o : List K) (n i : ℕ) (x u : K) (hb : b[i]? = some x) (ho : o[i]? = some u) :
    (strataR R b o n)[i]? = some (R.div (R.add x u) n) := by
  simp [strataR, List.getElem?_zipWith, hb, ho]

theorem strataR_length (R : Rounding K) (b o : List K) (n : ℕ) : (strataR R b o n).length = min b.length o.length := by simp [strataR]

/-- one rounded stratified number -/
theorem near_of (R : Rounding K) {i n : ℕ} {u : K} (hi : i < n) (hn : n ≤ 2 ^ 53) (h0 : 0 ≤ u) (h1 : u < 1) :
    NearStratum R i n (R.div (R.add i u) n) ∧ 0 ≤ R.div (R.add (i : K) u) n ∧ R.div (R.add (i : K) u) n ≤ 1 := by
  have hn' : (0 : K) < n := by exact_mod_cast (by omega : 0 < n)
  have a1 : (i : K) ≤ R.add i u := R.le_rnd (R.rep_nat i (by omega)) (by linarith)
  have a2 : R.add (i : K) u ≤ ((i + 1 : ℕ) : K) := R.rnd_le (R.rep_nat (i + 1) (by omega)) (by push_cast; linarith)
  have a3 : ((i + 1 : ℕ) : K) ≤ n := by exact_mod_cast hi
  have i0 : (0 : K) ≤ i := Nat.cast_nonneg i
  refine ⟨⟨R.mono (div_le_div_of_nonneg_right a1 hn'.le), R.mono (div_le_div_of_nonneg_right a2 hn'.le)⟩, ?_, ?_⟩
  · exact R.div_nonneg (i0.trans a1) hn'.le
  · exact R.div_le_one (i0.trans a1) (a2.trans a3)

theorem stratified1dR_getElem? (R : Rounding K) (r : Rand K) (st : RS) (n : ℕ) (jitter : Bool) (i : ℕ) (h : i < n) :
    (stratified1dR R r st n jitter).1[i]? =
      some (R.div (R.add (i : K) (if jitter then r.draw (st.d + i) else 1 / 2)) n) := by
  unfold stratified1dR
  cases jitter
  · simp only [Bool.not_false, if_true, Bool.false_eq_true, if_false]
    exact strataR_getElem? _ _ _ _ _ _ _ (arange_getElem? n i h) (by simp [h])
  · simp only [Bool.not_true, Bool.false_eq_true, if_false, if_true]
    exact strataR_getElem? _ _ _ _ _ _ _ (arange_getElem? n i h) (rng_getElem? r st n i h)

theorem stratified1dR_length (R : Rounding K) (r : Rand K) (st : RS) (n : ℕ) (jitter : Bool) :
    (stratified1dR R r st n jitter).1.length = n := by
  unfold stratified1dR
  cases jitter <;> simp [strataR_length, arange_length, rng]

theorem stratified2dR_length (R : Rounding K) (r : Rand K) (st : RS) (nx ny : ℕ) (jitter : Bool) :
    (stratified2dR R r st nx ny jitter).1.length = nx * ny := by
  unfold stratified2dR
  cases jitter <;>
    simp [strataR_length, tile_length, repeatEach_length, arange_length, rng, Nat.mul_comm ny nx]

theorem stratified2dR_getElem? (R : Rounding K) (r : Rand K) (st : RS) (nx ny : ℕ) (jitter : Bool) (k : ℕ) (h : k < nx * ny) :
    (stratified2dR R r st nx ny jitter).1[k]? =
      some (R.div (R.add ((k % nx : ℕ) : K) (if jitter then r.draw (st.d + k) else 1 / 2)) nx,
            R.div (R.add ((k / nx : ℕ) : K) (if jitter then r.draw (st.d + nx * ny + k) else 1 / 2)) ny) := by
  have hnx : 0 < nx := Nat.pos_of_mul_pos_right (lt_of_le_of_lt (Nat.zero_le k) h)
  have hx : (tile (arange nx : List K) ny)[k]? = some ((k % nx : ℕ) : K) := by
    rw [tile_getElem? _ _ _ (by rw [arange_length]; exact h), arange_length,
      arange_getElem? _ _ (Nat.mod_lt _ hnx)]
  have hy : (repeatEach (arange ny : List K) nx)[k]? = some ((k / nx : ℕ) : K) := by
    rw [repeatEach_getElem? _ _ _ hnx (by rw [arange_length, Nat.mul_comm]; exact h),
      arange_getElem? _ _ (Nat.div_lt_of_lt_mul h)]
  unfold stratified2dR
  cases jitter
  · simp only [Bool.false_eq_true, if_false]
    rw [List.getElem?_zip_eq_some]
    exact ⟨strataR_getElem? _ _ _ _ _ _ _ hx (by simp [h]), strataR_getElem? _ _ _ _ _ _ _ hy (by simp [h])⟩
  · simp only [if_true]
    rw [List.getElem?_zip_eq_some]
    exact ⟨strataR_getElem? _ _ _ _ _ _ _ hx (rng_getElem? r st _ k h),
      strataR_getElem? _ _ _ _ _ _ _ hy (rng_getElem? r _ _ k h)⟩

/-- all entries of a rounded two-dimensional pattern -/
theorem pair_near (R : Rounding K) (r : Rand K) (hr : UnitDraws r) (st : RS) (nx ny : ℕ) (hb : nx * ny ≤ 2 ^ 53) (jitter : Bool) (k : ℕ) (h : k < nx * ny) :
    ∃ x y : K, (stratified2dR R r st nx ny jitter).1[k]? = some (x, y) ∧ NearStratum R (k % nx) nx x ∧ NearStratum R (k / nx) ny y ∧
      (0 ≤ x ∧ x ≤ 1) ∧ (0 ≤ y ∧ y ≤ 1) := by
  have hnx : 0 < nx := Nat.pos_of_mul_pos_right (lt_of_le_of_lt (Nat.zero_le k) h)
  have hny : 0 < ny := Nat.pos_of_mul_pos_left (lt_of_le_of_lt (Nat.zero_le k) h)
  have u1 := offset_unit r hr jitter (st.d + k)
  have u2 := offset_unit r hr jitter (st.d + nx * ny + k)
  obtain ⟨a1, a2⟩ := near_of R (Nat.mod_lt k hnx) ((Nat.le_mul_of_pos_right _ hny).trans hb) u1.1 u1.2
  obtain ⟨b1, b2⟩ := near_of R (Nat.div_lt_of_lt_mul h) ((Nat.le_mul_of_pos_left _ hnx).trans hb) u2.1 u2.2
  exact ⟨_, _, stratified2dR_getElem? R r st nx ny jitter k h, a1, b1, a2, b2⟩

theorem strataR_draws (R : Rounding K) (r : Rand K) (hr : UnitDraws r) (st : RS) (n : ℕ) (hn : n ≤ 2 ^ 53) :
    NearLatin R n (strataR R (arange n) (rng r st n).1 n) := by
  refine ⟨by simp [strataR_length, arange_length, rng_length], _, List.Perm.refl _, fun i hi => ?_⟩
  exact ⟨_, strataR_getElem? _ _ _ _ _ _ _ (arange_getElem? n i hi) (rng_getElem? r st n i hi), near_of R hi hn (hr _).1 (hr _).2⟩

theorem NearLatin.perm {R : Rounding K} {n : ℕ} {l l' : List K} (h : NearLatin R n l) (hp : l'.Perm l) : NearLatin R n l' := by
  obtain ⟨h1, s, h2, h3⟩ := h
  exact ⟨by rw [hp.length_eq, h1], s, hp.trans h2, h3⟩

theorem latin1dR_near (R : Rounding K) (r : Rand K) (hr : UnitDraws r) (hs : Shuffles r) (st : RS) (n : ℕ) (hn : n ≤ 2 ^ 53) :
    NearLatin R n (latin1dR R r st n).1 := (strataR_draws R r hr st n hn).perm (shuffle_perm r hs _ _)

theorem latin2dR_near (R : Rounding K) (r : Rand K) (hr : UnitDraws r) (hs : Shuffles r) (st : RS) (n : ℕ) (hn : n ≤ 2 ^ 53) :
    (latin2dR R r st n).1.length = n ∧
    NearLatin R n ((latin2dR R r st n).1.map Prod.fst) ∧ NearLatin R n ((latin2dR R r st n).1.map Prod.snd) := by
  set st1 := (rng r st n).2
  set sh := shuffle r st1 (strataR R (arange n) (rng r st n).1 n)
  have hy : NearLatin R n sh.1 := (strataR_draws R r hr st n hn).perm (shuffle_perm r hs _ _)
  have hx : NearLatin R n (strataR R (arange n) (rng r sh.2 n).1 n) := strataR_draws R r hr sh.2 n hn
  have e : (latin2dR R r st n).1 = List.zip (strataR R (arange n) (rng r sh.2 n).1 n) sh.1 := rfl
  have hl : (strataR R (arange n) (rng r sh.2 n).1 n).length = sh.1.length := by rw [hx.1, hy.1]
  rw [e]
  refine ⟨by simp [hx.1, hy.1], ?_, ?_⟩
  · rw [List.map_fst_zip (by omega)]; exact hx
  · rw [List.map_snd_zip (by omega)]; exact hy

theorem fill1R_spec (R : Rounding K) (r : Rand K) (hr : UnitDraws r) (hs : Shuffles r) (ns : List ℕ) (j : ℕ)
    (arr : List (Option (List K))) (st : RS) (h : j + ns.length = arr.length) (hb : ∀ n ∈ ns, n ≤ 2 ^ 53) :
    ∃ (arr' : List (Option (List K))) (st' : RS), fill1R R r ns j arr st = some (arr', st') ∧ arr'.length = arr.length ∧
      (∀ k < j, arr'[k]? = arr[k]?) ∧
      ∀ (k n : ℕ), ns[k]? = some n → ∃ v : List K, arr'[j + k]? = some (some v) ∧ NearLatin R n v := by
  induction ns generalizing j arr st with
  | nil => exact ⟨arr, st, rfl, rfl, fun _ _ => rfl, by simp⟩
  | cons n ns ih =>
    simp only [List.length_cons] at h
    obtain ⟨arr', st', h1, h2, h3, h4⟩ := ih (j + 1) (arr.set j (some (latin1dR R r st n).1)) (latin1dR R r st n).2
      (by simp; omega) (fun m hm => hb m (by simp [hm]))
    refine ⟨arr', st', ?_, by simpa using h2, ?_, ?_⟩
    · have hj : j < arr.length := by omega
      simp only [fill1R, hj, if_true, h1]
    · intro k hk
      rw [h3 k (by omega), List.getElem?_set_ne (by omega)]
    · intro k m hk
      cases k with
      | zero =>
        obtain rfl : n = m := by simpa using hk
        refine ⟨(latin1dR R r st n).1, ?_, latin1dR_near R r hr hs st n (hb n (by simp))⟩
        rw [Nat.add_zero, h3 j (by omega), List.getElem?_set_self (by omega)]
      | succ k =>
        obtain ⟨v, hv, hl⟩ := h4 k m (by simpa using hk)
        exact ⟨v, by rw [← hv]; congr 1; omega, hl⟩

theorem fill2R_spec (R : Rounding K) (r : Rand K) (hr : UnitDraws r) (hs : Shuffles r) (ns : List ℕ) (j : ℕ)
    (arr : List (Option (List (K × K)))) (st : RS) (h : j + ns.length = arr.length) (hb : ∀ n ∈ ns, n ≤ 2 ^ 53) :
    ∃ (arr' : List (Option (List (K × K)))) (st' : RS), fill2R R r ns j arr st = some (arr', st') ∧ arr'.length = arr.length ∧
      (∀ k < j, arr'[k]? = arr[k]?) ∧
      ∀ (k n : ℕ), ns[k]? = some n → ∃ v : List (K × K), arr'[j + k]? = some (some v) ∧ v.length = n ∧
        NearLatin R n (v.map Prod.fst) ∧ NearLatin R n (v.map Prod.snd) := by
  induction ns generalizing j arr st with
  | nil => exact ⟨arr, st, rfl, rfl, fun _ _ => rfl, by simp⟩
  | cons n ns ih =>
    simp only [List.length_cons] at h
    obtain ⟨arr', st', h1, h2, h3, h4⟩ := ih (j + 1) (arr.set j (some (latin2dR R r st n).1)) (latin2dR R r st n).2
      (by simp; omega) (fun m hm => hb m (by simp [hm]))
    refine ⟨arr', st', ?_, by simpa using h2, ?_, ?_⟩
    · have hj : j < arr.length := by omega
      simp only [fill2R, hj, if_true, h1]
    · intro k hk
      rw [h3 k (by omega), List.getElem?_set_ne (by omega)]
    · intro k m hk
      cases k with
      | zero =>
        obtain rfl : n = m := by simpa using hk
        refine ⟨(latin2dR R r st n).1, ?_, latin2dR_near R r hr hs st n (hb n (by simp))⟩
        rw [Nat.add_zero, h3 j (by omega), List.getElem?_set_self (by omega)]
      | succ k =>
        obtain ⟨v, hv, hl⟩ := h4 k m (by simpa using hk)
        exact ⟨v, by rw [← hv]; congr 1; omega, hl⟩

theorem fillBatchR_spec (R : Rounding K) (r : Rand K) (hr : UnitDraws r) (hs : Shuffles r) (s : Strat K) (l : List (Sample K))
    (im le : List (K × K)) (ti : List K) (st : RS)
    (h : ∀ p ∈ l, (p.oneD.length = p.n1D.length ∧ ∀ n ∈ p.n1D, n ≤ 2 ^ 53) ∧ (p.twoD.length = p.n2D.length ∧ ∀ n ∈ p.n2D, n ≤ 2 ^ 53))
    (him : im.length = l.length) (hle : le.length = l.length) (hti : ti.length = l.length) :
    ∃ (out : List (Sample K)) (st' : RS), fillBatchR R r s l im le ti st = some (out, st') ∧ out.length = l.length ∧
      ∀ (i : ℕ) (a b : Sample K), l[i]? = some a → out[i]? = some b →
        (b.n1D = a.n1D ∧ b.n2D = a.n2D) ∧ im[i]? = some (b.imageX, b.imageY) ∧ le[i]? = some (b.lensU, b.lensV) ∧
        (∃ t : K, ti[i]? = some t ∧ b.time = lerpR R t s.sOpen s.sClose) ∧
        (b.oneD.length = a.n1D.length ∧ ∀ (j n : ℕ), a.n1D[j]? = some n → ∃ v : List K, b.oneD[j]? = some (some v) ∧ NearLatin R n v) ∧
        (b.twoD.length = a.n2D.length ∧ ∀ (j n : ℕ), a.n2D[j]? = some n → ∃ v : List (K × K), b.twoD[j]? = some (some v) ∧ v.length = n ∧
          NearLatin R n (v.map Prod.fst) ∧ NearLatin R n (v.map Prod.snd)) := by
  induction l generalizing im le ti st with
  | nil => exact ⟨[], st, by simp [fillBatchR], rfl, by simp⟩
  | cons p l ih =>
    obtain ⟨i0, im, rfl⟩ := List.exists_cons_of_length_eq_add_one him
    obtain ⟨l0, le, rfl⟩ := List.exists_cons_of_length_eq_add_one hle
    obtain ⟨t0, ti, rfl⟩ := List.exists_cons_of_length_eq_add_one hti
    obtain ⟨⟨hp1, hq1⟩, hp2, hq2⟩ := h p (by simp)
    obtain ⟨a1, s1, e1, f1, -, g1⟩ := fill1R_spec R r hr hs p.n1D 0 p.oneD st (by omega) hq1
    obtain ⟨a2, s2, e2, f2, -, g2⟩ := fill2R_spec R r hr hs p.n2D 0 p.twoD s1 (by omega) hq2
    obtain ⟨out, st', e3, f3, g3⟩ := ih im le ti s2 (fun q hq => h q (by simp [hq])) (by simpa using him)
      (by simpa using hle) (by simpa using hti)
    refine ⟨⟨i0.1, i0.2, l0.1, l0.2, lerpR R t0 s.sOpen s.sClose, p.n1D, p.n2D, a1, a2⟩ :: out, st',
      by simp only [fillBatchR, e1, e2, e3], by simp [f3], ?_⟩
    intro i a b ha hb
    cases i with
    | zero =>
      obtain rfl : p = a := by simpa using ha
      obtain rfl := Option.some.inj hb
      refine ⟨⟨rfl, rfl⟩, rfl, rfl, ⟨t0, rfl, rfl⟩, ⟨by simp only; omega, ?_⟩, ⟨by simp only; omega, ?_⟩⟩
      · intro j n hj; have := g1 j n hj; simpa using this
      · intro j n hj; have := g2 j n hj; simpa using this
    | succ i => exact g3 i a b (by simpa using ha) (by simpa using hb)

/-- one call of the rounded `generate` before the end of the window, at a pixel whose corners are floats -/
theorem generateR_spec (R : Rounding K) (r : Rand K) (hr : UnitDraws r) (hs : Shuffles r) (s : Strat K) (l : List (Sample K)) (st : RS)
    (hg : SmallInput s l) (hcnt : s.xSamples * s.ySamples ≤ 2 ^ 53) (hy : s.yPos ≠ s.ye) :
    ∃ (out : List (Sample K)) (st' : RS), s.generateR R r l st = .batch out
        (if R.add s.xPos 1 = s.xe then { s with xPos := s.xs, yPos := R.add s.yPos 1 } else { s with xPos := R.add s.xPos 1 }) st' ∧
      (R.Rep s.xPos → R.Rep (s.xPos + 1) → R.Rep s.yPos → R.Rep (s.yPos + 1) → NearBatch R s s.xPos s.yPos l out) := by
  obtain ⟨hlen, hshape⟩ := hg
  set N := s.xSamples * s.ySamples with hN
  set im := stratified2dR R r st s.xSamples s.ySamples s.jitter with him
  set le := stratified2dR R r im.2 s.xSamples s.ySamples s.jitter with hle
  set ti := stratified1dR R r le.2 N s.jitter with hti
  set le' := shuffle r ti.2 le.1 with hle'
  set ti' := shuffle r le'.2 ti.1 with hti'
  have l1 : im.1.length = N := stratified2dR_length R r st _ _ _
  have l2 : le.1.length = N := stratified2dR_length R r im.2 _ _ _
  have l3 : ti.1.length = N := stratified1dR_length R r le.2 _ _
  have p2 : le'.1.Perm le.1 := shuffle_perm r hs _ _
  have p3 : ti'.1.Perm ti.1 := shuffle_perm r hs _ _
  obtain ⟨out, st', e, f, g⟩ := fillBatchR_spec R r hr hs s l (im.1.map (fun p => (R.add p.1 s.xPos, R.add p.2 s.yPos))) le'.1 ti'.1
    ti'.2 hshape (by rw [List.length_map, l1, hlen]) (by rw [p2.length_eq, l2, hlen]) (by rw [p3.length_eq, l3, hlen])
  refine ⟨out, st', ?_, fun hx0 hx1 hy0 hy1 => ⟨f, ?_⟩⟩
  · have : s.generateR R r l st = match fillBatchR R r s l (im.1.map (fun p => (R.add p.1 s.xPos, R.add p.2 s.yPos))) le'.1 ti'.1 ti'.2 with
        | none => .fail
        | some (out, st) =>
          if R.add s.xPos 1 = s.xe then .batch out { s with xPos := s.xs, yPos := R.add s.yPos 1 } st
          else .batch out { s with xPos := R.add s.xPos 1 } st := by
      unfold Strat.generateR
      rw [if_neg hy, if_neg (by rw [hlen, ne_eq, not_not])]
    rw [this, e]
    simp only
    split_ifs <;> rfl
  · intro i a b ha hb
    obtain ⟨h1, h2, h3, ⟨t, ht, h4⟩, h5, h6⟩ := g i a b ha hb
    have hi : i < N := by rw [← hlen]; exact (List.getElem?_eq_some_iff.1 ha).1
    obtain ⟨x, y, g1, g2, g3, g4, g5⟩ := pair_near R r hr st s.xSamples s.ySamples hcnt s.jitter i hi
    rw [← him] at g1
    rw [List.getElem?_map, g1] at h2
    obtain ⟨hx, hy'⟩ : R.add x s.xPos = b.imageX ∧ R.add y s.yPos = b.imageY := by simpa using h2
    have hlens : ∀ q ∈ le.1, (0 ≤ q.1 ∧ q.1 ≤ 1) ∧ (0 ≤ q.2 ∧ q.2 ≤ 1) := by
      intro q hq
      obtain ⟨k, hk, rfl⟩ := List.mem_iff_getElem.1 hq
      obtain ⟨x', y', k1, -, -, k4, k5⟩ := pair_near R r hr im.2 s.xSamples s.ySamples hcnt s.jitter k (by omega)
      rw [← hle, List.getElem?_eq_getElem hk] at k1
      rw [Option.some.inj k1]; exact ⟨k4, k5⟩
    have htime : ∀ q ∈ ti.1, R.Rep q ∧ 0 ≤ q ∧ q ≤ 1 := by
      intro q hq
      obtain ⟨k, hk, rfl⟩ := List.mem_iff_getElem.1 hq
      have k1 := stratified1dR_getElem? R r le.2 N s.jitter k (by omega)
      rw [← hti, List.getElem?_eq_getElem hk] at k1
      have u1 := offset_unit r hr s.jitter (le.2.d + k)
      rw [Option.some.inj k1]; exact ⟨R.rep_rnd _, (near_of R (by omega) hcnt u1.1 u1.2).2⟩
    have htm := htime t (p3.mem_iff.1 (List.mem_of_getElem? ht))
    refine ⟨h1, ?_, ?_, ?_, ⟨by rw [← hx]; exact R.rep_rnd _, by rw [← hy']; exact R.rep_rnd _⟩, hlens _ (p2.mem_iff.1 (List.mem_of_getElem? h3)), ⟨t, htm.1, htm.2.1, htm.2.2, h4⟩, h5, h6⟩
    · rw [← hx]; exact ⟨R.mono (by linarith [g2.1]), R.mono (by linarith [g2.2])⟩
    · rw [← hy']; exact ⟨R.mono (by linarith [g3.1]), R.mono (by linarith [g3.2])⟩
    · rw [← hx, ← hy']
      exact ⟨⟨R.le_rnd hx0 (by linarith [g4.1]), R.rnd_le hx1 (by linarith [g4.2])⟩, R.le_rnd hy0 (by linarith [g5.1]), R.rnd_le hy1 (by linarith [g5.2])⟩

theorem rep_int (R : Rounding K) (n : ℤ) (h : |n| ≤ 2 ^ 53) : R.Rep (n : K) := R.int n h

/-! ### Theorems -/

/-- **C177** the scan in rounded arithmetic (for binary64 and every rounding with the properties of `Rounding`), for a window of whole pixels with coordinates of at most
53 bits: the first `w * h` calls of `generate` succeed, call `k` fills a complete batch for pixel `(x0 + k % w, y0 + k / w)`, up to rounding as in exact arithmetic (C24), and
afterwards every call returns `False`. -/
theorem C177_scan (R : Rounding K) (r : Rand K) (hr : UnitDraws r) (hs : Shuffles r) (x0 y0 : ℤ) (w h : ℕ) (hw : 0 < w) (hh : 0 < h)
    (hx : -2 ^ 53 ≤ x0 ∧ x0 + w ≤ 2 ^ 53) (hy : -2 ^ 53 ≤ y0 ∧ y0 + h ≤ 2 ^ 53)
    (xst yst : ℕ) (hcnt : max xst 1 * max yst 1 ≤ 2 ^ 53) (jitter : Bool) (sOpen sClose : K) (inp : ℕ → List (Sample K)) (st : RS)
    (hin : ∀ k, SmallInput (Strat.mk' (x0 : K) (x0 + w : ℤ) (y0 : K) (y0 + h : ℤ) xst yst jitter sOpen sClose) (inp k)) :
    ∃ (bs : List (List (Sample K))) (s' : Strat K) (st' : RS), scanR R r inp (w * h) (Strat.mk' (x0 : K) (x0 + w : ℤ) (y0 : K) (y0 + h : ℤ) xst yst jitter sOpen sClose) st
        = some (bs, s', st') ∧
      bs.length = w * h ∧
      (∀ k < w * h, ∃ out : List (Sample K), bs[k]? = some out ∧ out.length = max xst 1 * max yst 1 ∧
        NearBatch R (Strat.mk' (x0 : K) (x0 + w : ℤ) (y0 : K) (y0 + h : ℤ) xst yst jitter sOpen sClose)
          ((x0 + (k % w : ℕ) : ℤ) : K) ((y0 + (k / w : ℕ) : ℤ) : K) (inp k) out) ∧
      (∀ l st'', s'.generateR R r l st'' = .stop) := by
  set s0 := Strat.mk' (x0 : K) (x0 + w : ℤ) (y0 : K) (y0 + h : ℤ) xst yst jitter sOpen sClose with hs0
  have addInt : ∀ n : ℤ, -2 ^ 53 ≤ n → n + 1 ≤ 2 ^ 53 → R.add (n : K) 1 = ((n + 1 : ℤ) : K) := fun n h1 h2 => by
    rw [Rounding.add, show (n : K) + 1 = ((n + 1 : ℤ) : K) by push_cast; ring]
    exact R.int _ (abs_le.2 ⟨by omega, by omega⟩)
  have gen : ∀ n ≤ w * h, ∃ (bs : List (List (Sample K))) (st' : RS), scanR R r inp n s0 st = some (bs,
      { s0 with xPos := ((x0 + (n % w : ℕ) : ℤ) : K), yPos := ((y0 + (n / w : ℕ) : ℤ) : K) }, st') ∧
      bs.length = n ∧ ∀ k < n, ∃ out : List (Sample K), bs[k]? = some out ∧
        NearBatch R s0 ((x0 + (k % w : ℕ) : ℤ) : K) ((y0 + (k / w : ℕ) : ℤ) : K) (inp k) out := by
    intro n
    induction n with
    | zero =>
      intro _
      refine ⟨[], st, ?_, rfl, by simp⟩
      simp [scanR, hs0, Strat.mk']
    | succ n ih =>
      intro hn
      obtain ⟨bs, st1, e, hl, hb⟩ := ih (by omega)
      set s1 : Strat K := { s0 with xPos := ((x0 + (n % w : ℕ) : ℤ) : K), yPos := ((y0 + (n / w : ℕ) : ℤ) : K) } with hs1
      have hrow : n / w < h := Nat.div_lt_of_lt_mul (by omega)
      have hcol : n % w < w := Nat.mod_lt _ hw
      have hq : (0 : ℤ) ≤ (n : ℤ) / (w : ℤ) := Int.ediv_nonneg (Int.natCast_nonneg n) (Int.natCast_nonneg w)
      have hye : s1.yPos ≠ s1.ye := by
        change ((y0 + (n / w : ℕ) : ℤ) : K) ≠ ((y0 + h : ℤ) : K)
        intro hc; have := Int.cast_injective hc; omega
      have ax : R.add s1.xPos 1 = ((x0 + (n % w : ℕ) + 1 : ℤ) : K) := addInt _ (by omega) (by omega)
      have ay : R.add s1.yPos 1 = ((y0 + (n / w : ℕ) + 1 : ℤ) : K) := addInt _ (by omega) (by omega)
      obtain ⟨out, st2, e2, f2⟩ := generateR_spec R r hr hs s1 (inp n) st1 (hin n) hcnt hye
      have f2 := f2 (rep_int R _ (abs_le.2 ⟨by omega, by omega⟩))
        (by have := rep_int R (x0 + (n % w : ℕ) + 1) (abs_le.2 ⟨by omega, by omega⟩); simpa [hs1] using this)
        (rep_int R _ (abs_le.2 ⟨by omega, by omega⟩))
        (by have := rep_int R (y0 + (n / w : ℕ) + 1) (abs_le.2 ⟨by omega, by omega⟩); simpa [hs1] using this)
      have hxe : (R.add s1.xPos 1 = s1.xe) ↔ n % w + 1 = w := by
        rw [ax]
        change ((x0 + (n % w : ℕ) + 1 : ℤ) : K) = ((x0 + w : ℤ) : K) ↔ _
        rw [Int.cast_inj]
        omega
      refine ⟨bs ++ [out], st2, ?_, by simp [hl], ?_⟩
      · simp only [scanR, e, e2]
        congr 3
        have hdm := Nat.div_add_mod n w
        by_cases hlast : n % w + 1 = w
        · have e1 : (n + 1) / w = n / w + 1 := by
            rw [show n + 1 = w * (n / w + 1) by rw [Nat.mul_add]; omega, Nat.mul_div_cancel_left _ hw]
          have e2 : (n + 1) % w = 0 := by
            rw [show n + 1 = w * (n / w + 1) by rw [Nat.mul_add]; omega, Nat.mul_mod_right]
          rw [if_pos (hxe.2 hlast), e1, e2, ay]
          simp only [hs1, hs0, Strat.mk']
          push_cast
          congr 1 <;> ring
        · have e1 : (n + 1) / w = n / w := by
            rw [show n + 1 = (n % w + 1) + w * (n / w) by omega, Nat.add_mul_div_left _ _ hw,
              Nat.div_eq_of_lt (by omega), Nat.zero_add]
          have e2 : (n + 1) % w = n % w + 1 := by
            conv_lhs => rw [show n + 1 = (n % w + 1) + w * (n / w) by omega]
            rw [Nat.add_mul_mod_self_left, Nat.mod_eq_of_lt (by omega)]
          rw [if_neg (fun h => hlast (hxe.1 h)), e1, e2, ax]
          simp only [hs1, hs0, Strat.mk']
          push_cast
          congr 1 <;> ring
      · intro k hk
        by_cases hkn : k < n
        · obtain ⟨o, ho, hf⟩ := hb k hkn
          exact ⟨o, by rw [List.getElem?_append_left (by omega)]; exact ho, hf⟩
        · obtain rfl : k = n := by omega
          refine ⟨out, by rw [List.getElem?_append_right (by omega)]; simp [hl], f2.1, fun i a b ha hb => ?_⟩
          obtain ⟨q1, q2, q3, q4, q5, q6, q7, q8, q9⟩ := f2.2 i a b ha hb
          exact ⟨q1, q2, q3, q4, q5, q6, q7, q8, q9⟩
  obtain ⟨bs, st', e, hl, hb⟩ := gen (w * h) le_rfl
  refine ⟨bs, _, st', e, hl, fun k hk => ?_, ?_⟩
  · obtain ⟨out, h1, h2⟩ := hb k hk
    exact ⟨out, h1, by rw [h2.1, (hin k).1]; rfl, h2⟩
  intro l st''
  have : w * h / w = h := Nat.mul_div_cancel_left _ hw
  unfold Strat.generateR
  rw [this]
  simp [hs0, Strat.mk']

/-- a start and a right border less than one pixel apart: `generate` fills batch after batch and never returns `False` -/
theorem never_stopsR (R : Rounding K) (r : Rand K) (hr : UnitDraws r) (hs : Shuffles r) (s : Strat K) (hx : s.xe < R.add s.xs 1)
    (hstart : s.xPos = s.xs ∧ s.yPos = s.ys) (hy : s.ys ≠ s.ye) (hcnt : s.xSamples * s.ySamples ≤ 2 ^ 53)
    (inp : ℕ → List (Sample K)) (st : RS) (hin : ∀ k, SmallInput s (inp k)) (n : ℕ) :
    ∃ (bs : List (List (Sample K))) (s' : Strat K) (st' : RS), scanR R r inp n s st = some (bs, s', st') ∧ bs.length = n ∧ s'.yPos = s.ys ∧
      ∀ l st'', s'.generateR R r l st'' ≠ .stop := by
  have gen : ∃ (bs : List (List (Sample K))) (x : K) (st' : RS), scanR R r inp n s st = some (bs, { s with xPos := x }, st') ∧ bs.length = n ∧
      (s.xs = x ∨ (R.Rep x ∧ R.add s.xs 1 ≤ x)) := by
    induction n with
    | zero => exact ⟨[], s.xs, st, by
        have : ({ s with xPos := s.xs } : Strat K) = s := by cases s; simp_all
        rw [this]; rfl, rfl, Or.inl rfl⟩
    | succ n ih =>
      obtain ⟨bs, x, st1, e, hl, hxx⟩ := ih
      obtain ⟨out, st2, e2, -⟩ := generateR_spec R r hr hs { s with xPos := x } (inp n) st1 (hin n) hcnt
        (by change s.yPos ≠ s.ye; rw [hstart.2]; exact hy)
      have hge : R.add s.xs 1 ≤ R.add x 1 := by
        rcases hxx with rfl | ⟨h1, h2⟩
        · exact le_rfl
        · exact h2.trans (R.le_add h1 zero_le_one)
      refine ⟨bs ++ [out], R.add x 1, st2, ?_, by simp [hl], Or.inr ⟨R.rep_rnd _, hge⟩⟩
      simp only [scanR, e, e2]
      have : ¬ (R.add x 1 = s.xe) := fun h => by rw [h] at hge; exact absurd hx (not_lt.2 hge)
      simp only [this, if_false]
  obtain ⟨bs, x, st', e, hl, -⟩ := gen
  refine ⟨bs, _, st', e, hl, hstart.2, fun l st'' h => ?_⟩
  unfold Strat.generateR at h
  rw [if_neg (by change s.yPos ≠ s.ye; rw [hstart.2]; exact hy)] at h
  split_ifs at h
  revert h
  simp only
  split
  · simp
  · split_ifs <;> simp

end
end Verif.Sampler
