import Verif.Sampler.RoundedSub
import Verif.Film.Average

/-!
# A whole rendering in rounded arithmetic (`renderer/renderer.py:84-111, 132-198`): property C178

The rounded `StratifiedSampler` (`Sampler/Rounded.lean`), the rendering loop and the rounded `ImageFilm` (`Film/Rounded.lean`) together.  What camera, scene and integrators
compute, with or without rounding, is an arbitrary function on an arbitrary state.
-/
set_option linter.unusedSectionVars false

namespace Verif.FullR
open Verif.Sampler Verif.Rnd
open Verif.Film (Vec Film runR addSampleR imageRgbR reach Covers Fits Fair wtAt sumW)

variable {K : Type*} [Field K] [LinearOrder K] [IsStrictOrderedRing K] [FloorRing K] {E : Type*}

/-! ### Model -/

/-- the sampler, the source of random numbers, everything behind camera, scene and integrators, and the film -/
structure State (K E : Type*) where
  samp : Strat K
  rs : RS
  env : E
  film : Film K

/-- the radiances of a batch, in order (`renderer.py:162-193`); `rad` is what the loop body makes of one sample: the sanitised radiance `Ls[i]` -/
def batchR (rad : E → Sample K → Vec K × E) : E → List (Sample K) → List (Sample K × Vec K) × E
  | e, [] => ([], e)
  | e, smp :: rest =>
    let (L, e) := rad e smp
    let (more, e) := batchR rad e rest
    ((smp, L) :: more, e)

/-- `for i, sample in enumerate(samples): film.add_sample(sample, Ls[i])` (`renderer.py:197-198`) -/
def addAllR (R : Rounding K) (f : Film K) : List (Sample K × Vec K) → Option (Film K)
  | [] => some f
  | (smp, L) :: rest =>
    match addSampleR R f smp.imageX smp.imageY L with
    | none => none
    | some f => addAllR R f rest

/-- the `while` loop of `SamplerRendererTask.__call__` (`renderer.py:156-198`); also lists the calls of `add_sample`.  `none`: an exception, or not finished after the given
number of turns. -/
def taskLoopR (R : Rounding K) (rad : E → Sample K → Vec K × E) (r : Rand K) :
    ℕ → List (Sample K) → State K E → Option (State K E × List (Sample K × Vec K))
  | 0, _, _ => none
  | n + 1, buf, s =>
    match s.samp.generateR R r buf s.rs with
    | .stop => some (s, [])
    | .fail => none
    | .batch out samp rs =>
      let (res, env) := batchR rad s.env out
      match addAllR R s.film res with
      | none => none
      | some film =>
        match taskLoopR R rad r n out ⟨samp, rs, env, film⟩ with
        | none => none
        | some (s', more) => some (s', res ++ more)

/-- one of the samples made by `Sample.duplicate` (`sampler/sample.py:57-63`) -/
def blankR (n1 n2 : List ℕ) : Sample K :=
  ⟨0, 0, 0, 0, 0, n1, n2, List.replicate n1.length none, List.replicate n2.length none⟩

/-- `SamplerRenderer.render` (`renderer.py:84-111`, `132-198`) up to `write_image`: one task over the window of the sampler; `n1`, `n2` are the counts the integrators request -/
def renderR (R : Rounding K) (rad : E → Sample K → Vec K × E) (r : Rand K) (n1 n2 : List ℕ) (fuel : ℕ) (s : State K E) :
    Option (State K E × List (Sample K × Vec K)) :=
  taskLoopR R rad r fuel (List.replicate (s.samp.xSamples * s.samp.ySamples) (blankR n1 n2)) s

/-- `get_sample_extent` (`film/film.py:219-227`), rounded -/
def sampleExtentR (R : Rounding K) (f : Film K) : ℤ × ℤ × ℤ × ℤ :=
  (⌊R.sub' (R.add (f.xStart : K) (1 / 2)) f.filt.xw⌋, ⌊R.add (R.add (R.add (f.xStart : K) (1 / 2)) f.xCnt) f.filt.xw⌋,
   ⌊R.sub' (R.add (f.yStart : K) (1 / 2)) f.filt.yw⌋, ⌊R.add (R.add (R.add (f.yStart : K) (1 / 2)) f.yCnt) f.filt.yw⌋)

/-- the picture `write_image` hands to the image writer (`film/film.py:237-260`), `splat_scale` is 1 -/
def pictureR (R : Rounding K) (f : Film K) : ℕ → ℕ → Vec K := fun y x => imageRgbR R f 1 y x

/-! ### Specification -/

/-- positions and colours of the calls of `add_sample` -/
def calls (log : List (Sample K × Vec K)) : List (K × K × Vec K) := log.map fun q => (q.1.imageX, q.1.imageY, q.2)

/-- the sampler over the window `[x0, x0+w) × [y0, y0+h)` -/
def sampler (x0 y0 : ℤ) (w h xst yst : ℕ) (jitter : Bool) (sOpen sClose : K) : Strat K := Strat.mk' (x0 : K) (x0 + w : ℤ) (y0 : K) (y0 + h : ℤ) xst yst jitter sOpen sClose

/-- the position is given by floats and is in the closed pixel `(px, py)` -/
def InPixel (R : Rounding K) (px py : ℤ) (smp : Sample K) : Prop :=
  (R.Rep smp.imageX ∧ (px : K) ≤ smp.imageX ∧ smp.imageX ≤ (px : K) + 1) ∧ (R.Rep smp.imageY ∧ (py : K) ≤ smp.imageY ∧ smp.imageY ≤ (py : K) + 1)

/-! ### Lemmas -/

theorem batchR_fst (rad : E → Sample K → Vec K × E) (e : E) (l : List (Sample K)) : (batchR rad e l).1.map Prod.fst = l := by
  induction l generalizing e with
  | nil => rfl
  | cons smp l ih => simp only [batchR, List.map_cons, ih]

theorem batchR_rad (rad : E → Sample K → Vec K × E) (e : E) (l : List (Sample K)) : ∀ p ∈ (batchR rad e l).1, ∃ e', p.2 = (rad e' p.1).1 := by
  induction l generalizing e with
  | nil => simp [batchR]
  | cons smp l ih =>
    intro p hp
    simp only [batchR, List.mem_cons] at hp
    rcases hp with rfl | hp
    · exact ⟨e, rfl⟩
    · exact ih _ p hp

theorem addAllR_eq (R : Rounding K) (l : List (Sample K × Vec K)) (f : Film K) : addAllR R f l = runR R f (calls l) := by
  induction l generalizing f with
  | nil => rfl
  | cons p l ih =>
    obtain ⟨smp, L⟩ := p
    simp only [addAllR, calls, List.map_cons, runR]
    cases addSampleR R f smp.imageX smp.imageY L with
    | none => rfl
    | some g => exact ih g

theorem runR_append (R : Rounding K) (f g : Film K) (a b : List (K × K × Vec K)) (h : runR R f a = some g) : runR R f (a ++ b) = runR R g b := by
  induction a generalizing f with
  | nil => cases h; rfl
  | cons e a ih =>
    obtain ⟨X, Y, L⟩ := e
    simp only [runR, List.cons_append] at h ⊢
    cases he : addSampleR R f X Y L with
    | none => rw [he] at h; simp at h
    | some f1 => rw [he] at h; exact ih f1 h

section
variable (R : Rounding K) (r : Rand K) (hr : UnitDraws r) (hs : Shuffles r) (x0 y0 : ℤ) (w h : ℕ) (hw : 0 < w)
  (hx : -2 ^ 53 ≤ x0 ∧ x0 + w ≤ 2 ^ 53) (hy : -2 ^ 53 ≤ y0 ∧ y0 + h ≤ 2 ^ 53)
  (xst yst : ℕ) (hcnt : max xst 1 * max yst 1 ≤ 2 ^ 53) (jitter : Bool) (sOpen sClose : K)

/-- the sampler when `n` pixels have been done -/
def at' (n : ℕ) : Strat K :=
  { sampler x0 y0 w h xst yst jitter sOpen sClose with
    xPos := ((x0 + (n % w : ℕ) : ℤ) : K), yPos := ((y0 + (n / w : ℕ) : ℤ) : K) }

theorem at_zero : at' x0 y0 w h xst yst jitter sOpen sClose 0 = sampler x0 y0 w h xst yst jitter sOpen sClose := by
  simp [at', sampler, Strat.mk']

include hw in
theorem at_end (l : List (Sample K)) (st : RS) : (at' x0 y0 w h xst yst jitter sOpen sClose (w * h)).generateR R r l st = .stop := by
  have : w * h / w = h := Nat.mul_div_cancel_left _ hw
  unfold Strat.generateR at'
  rw [this]
  simp [sampler, Strat.mk']

include hr hs hw hx hy hcnt in
theorem at_step (n : ℕ) (hn : n < w * h) (l : List (Sample K)) (st : RS) (hl : SmallInput (at' x0 y0 w h xst yst jitter sOpen sClose n) l) :
    ∃ out st', (at' x0 y0 w h xst yst jitter sOpen sClose n).generateR R r l st = .batch out (at' x0 y0 w h xst yst jitter sOpen sClose (n + 1)) st' ∧
      NearBatch R (at' x0 y0 w h xst yst jitter sOpen sClose n) ((x0 + (n % w : ℕ) : ℤ) : K) ((y0 + (n / w : ℕ) : ℤ) : K) l out := by
  have addInt : ∀ n : ℤ, -2 ^ 53 ≤ n → n + 1 ≤ 2 ^ 53 → R.add (n : K) 1 = ((n + 1 : ℤ) : K) := fun n h1 h2 => by
    rw [Rounding.add, show (n : K) + 1 = ((n + 1 : ℤ) : K) by push_cast; ring]
    exact R.int _ (abs_le.2 ⟨by omega, by omega⟩)
  have hrow : n / w < h := Nat.div_lt_of_lt_mul (by omega)
  have hcol : n % w < w := Nat.mod_lt _ hw
  have hq : (0 : ℤ) ≤ (n : ℤ) / (w : ℤ) := Int.ediv_nonneg (Int.natCast_nonneg n) (Int.natCast_nonneg w)
  set s1 := at' x0 y0 w h xst yst jitter sOpen sClose n with hs1
  have hye : s1.yPos ≠ s1.ye := by
    change ((y0 + (n / w : ℕ) : ℤ) : K) ≠ ((y0 + h : ℤ) : K)
    intro hc; have := Int.cast_injective hc; omega
  have ax : R.add s1.xPos 1 = ((x0 + (n % w : ℕ) + 1 : ℤ) : K) := addInt _ (by omega) (by omega)
  have ay : R.add s1.yPos 1 = ((y0 + (n / w : ℕ) + 1 : ℤ) : K) := addInt _ (by omega) (by omega)
  obtain ⟨out, st2, e2, f2⟩ := generateR_spec R r hr hs s1 l st hl hcnt hye
  have f2 := f2 (rep_int R _ (abs_le.2 ⟨by omega, by omega⟩))
    (by have := rep_int R (x0 + (n % w : ℕ) + 1) (abs_le.2 ⟨by omega, by omega⟩); simpa [hs1, at'] using this)
    (rep_int R _ (abs_le.2 ⟨by omega, by omega⟩))
    (by have := rep_int R (y0 + (n / w : ℕ) + 1) (abs_le.2 ⟨by omega, by omega⟩); simpa [hs1, at'] using this)
  have hxe : (R.add s1.xPos 1 = s1.xe) ↔ n % w + 1 = w := by
    rw [ax]
    change ((x0 + (n % w : ℕ) + 1 : ℤ) : K) = ((x0 + w : ℤ) : K) ↔ _
    rw [Int.cast_inj]
    omega
  refine ⟨out, st2, ?_, f2⟩
  rw [e2]
  congr 1
  have hdm := Nat.div_add_mod n w
  by_cases hlast : n % w + 1 = w
  · have e1 : (n + 1) / w = n / w + 1 := by
      rw [show n + 1 = w * (n / w + 1) by rw [Nat.mul_add]; omega, Nat.mul_div_cancel_left _ hw]
    have e2 : (n + 1) % w = 0 := by
      rw [show n + 1 = w * (n / w + 1) by rw [Nat.mul_add]; omega, Nat.mul_mod_right]
    rw [if_pos (hxe.2 hlast), ay]
    simp only [hs1, at', sampler, Strat.mk', e1, e2]
    push_cast
    congr 1 <;> ring
  · have e1 : (n + 1) / w = n / w := by
      rw [show n + 1 = (n % w + 1) + w * (n / w) by omega, Nat.add_mul_div_left _ _ hw,
        Nat.div_eq_of_lt (by omega), Nat.zero_add]
    have e2 : (n + 1) % w = n % w + 1 := by
      conv_lhs => rw [show n + 1 = (n % w + 1) + w * (n / w) by omega]
      rw [Nat.add_mul_mod_self_left, Nat.mod_eq_of_lt (by omega)]
    rw [if_neg (fun h => hlast (hxe.1 h)), ax]
    simp only [hs1, at', sampler, Strat.mk', e1, e2]
    push_cast
    congr 1; ring

include hr hs hw hx hy hcnt in
theorem taskLoopR_spec (rad : E → Sample K → Vec K × E) (m : ℕ) : ∀ (n : ℕ), n + m = w * h → ∀ (buf : List (Sample K)) (st : RS) (e : E) (f : Film K),
    buf.length = max xst 1 * max yst 1 →
    (∀ p ∈ buf, (p.oneD.length = p.n1D.length ∧ ∀ n ∈ p.n1D, n ≤ 2 ^ 53) ∧ (p.twoD.length = p.n2D.length ∧ ∀ n ∈ p.n2D, n ≤ 2 ^ 53)) →
    ∃ s1 log, taskLoopR R rad r (m + 1) buf ⟨at' x0 y0 w h xst yst jitter sOpen sClose n, st, e, f⟩ = some (s1, log) ∧
      runR R f (calls log) = some s1.film ∧ log.length = m * (max xst 1 * max yst 1) ∧
      (∀ q ∈ log, ∃ e', q.2 = (rad e' q.1).1) ∧
      ∀ t < m * (max xst 1 * max yst 1), ∃ q, log[t]? = some q ∧
        InPixel R (x0 + ((n + t / (max xst 1 * max yst 1)) % w : ℕ)) (y0 + ((n + t / (max xst 1 * max yst 1)) / w : ℕ)) q.1 := by
  have hS : 0 < max xst 1 * max yst 1 := Nat.mul_pos (by omega) (by omega)
  generalize hSe : max xst 1 * max yst 1 = S at *
  induction m with
  | zero =>
    intro n hn buf st e f _ _
    obtain rfl : n = w * h := by omega
    exact ⟨_, [], by simp only [taskLoopR, at_end R r x0 y0 w h hw xst yst jitter sOpen sClose]; rfl, rfl, by simp, by simp, by simp⟩
  | succ m ih =>
    intro n hn buf st e f hb hsh
    have hg : SmallInput (at' x0 y0 w h xst yst jitter sOpen sClose n) buf := ⟨by rw [hb, ← hSe]; rfl, hsh⟩
    obtain ⟨out, st1, e1, hf⟩ := at_step R r hr hs x0 y0 w h hw hx hy xst yst (hSe ▸ hcnt) jitter sOpen sClose n (by omega) buf st hg
    have hol : out.length = S := by rw [hf.1, hb]
    have hcf := batchR_fst rad e out
    have hcl : (batchR rad e out).1.length = S := by rw [← hol, ← congrArg List.length hcf, List.length_map]
    obtain ⟨f1, c1, -⟩ := Film.runR_spec R (calls (batchR rad e out).1) f
    have a1 : addAllR R f (batchR rad e out).1 = some f1 := by rw [addAllR_eq]; exact c1
    obtain ⟨s1, log, i1, i3, i4, i5, i6⟩ := ih (n + 1) (by omega) out st1 (batchR rad e out).2 f1 hol (by
      intro p hp
      obtain ⟨i, hi, rfl⟩ := List.getElem_of_mem hp
      have hi' : i < buf.length := by omega
      have := hf.2 i buf[i] out[i] (List.getElem?_eq_getElem hi') (List.getElem?_eq_getElem hi)
      have hh := hsh buf[i] (List.getElem_mem hi')
      exact ⟨⟨by rw [this.one.1, this.shape.1], by rw [this.shape.1]; exact hh.1.2⟩, by rw [this.two.1, this.shape.2], by rw [this.shape.2]; exact hh.2.2⟩)
    refine ⟨s1, (batchR rad e out).1 ++ log, by rw [taskLoopR]; simp only [e1, a1, i1], ?_, ?_, ?_, ?_⟩
    · rw [show calls ((batchR rad e out).1 ++ log) = calls (batchR rad e out).1 ++ calls log from List.map_append, runR_append R f f1 _ _ c1]; exact i3
    · rw [List.length_append, hcl, i4]; ring
    · intro q hq
      rcases List.mem_append.1 hq with hq | hq
      · exact batchR_rad rad e out q hq
      · exact i5 q hq
    · intro t ht
      by_cases hts : t < S
      · have htc : t < (batchR rad e out).1.length := by omega
        have hto : t < out.length := by omega
        have htb : t < buf.length := by omega
        refine ⟨(batchR rad e out).1[t], by rw [List.getElem?_append_left htc, List.getElem?_eq_getElem htc], ?_⟩
        have he : (batchR rad e out).1[t].1 = out[t] := by
          have := congrArg (·[t]?) hcf
          simp only [List.getElem?_map, List.getElem?_eq_getElem htc, List.getElem?_eq_getElem hto, Option.map_some, Option.some.injEq] at this
          exact this
        have hq := hf.2 t buf[t] out[t] (List.getElem?_eq_getElem htb) (List.getElem?_eq_getElem hto)
        rw [he, Nat.div_eq_of_lt hts]
        exact ⟨⟨hq.rep.1, hq.pixel.1⟩, hq.rep.2, hq.pixel.2⟩
      · obtain ⟨q, q1, q2⟩ := i6 (t - S) (by rw [Nat.add_mul] at ht; omega)
        refine ⟨q, by rw [List.getElem?_append_right (by omega), hcl]; exact q1, ?_⟩
        rw [show n + t / S = n + 1 + (t - S) / S by
          rw [Nat.div_eq_sub_div hS (by omega : S ≤ t)]; omega]
        exact q2
end

/-! ### Theorems -/

/-- **C178** a whole rendering with every operation of sampler and film rounded ends without an exception, whatever camera, scene and integrators compute; the film has then
received the given number of samples for each pixel of the sampler's window, row by row, each in its closed pixel, with the radiance computed for it, and is what these calls
make of it. -/
theorem C178_render (R : Rounding K) (r : Rand K) (hr : UnitDraws r) (hs : Shuffles r) (x0 y0 : ℤ) (w h : ℕ) (hw : 0 < w)
    (hx : -2 ^ 53 ≤ x0 ∧ x0 + w ≤ 2 ^ 53) (hy : -2 ^ 53 ≤ y0 ∧ y0 + h ≤ 2 ^ 53)
    (xst yst : ℕ) (hcnt : max xst 1 * max yst 1 ≤ 2 ^ 53) (jitter : Bool) (sOpen sClose : K) (rad : E → Sample K → Vec K × E)
    (n1 n2 : List ℕ) (h1 : ∀ n ∈ n1, n ≤ 2 ^ 53) (h2 : ∀ n ∈ n2, n ≤ 2 ^ 53) (st : RS) (e : E) (f0 : Film K) :
    ∃ s1 log, renderR R rad r n1 n2 (w * h + 1) ⟨sampler x0 y0 w h xst yst jitter sOpen sClose, st, e, f0⟩ = some (s1, log) ∧
      log.length = w * h * (max xst 1 * max yst 1) ∧
      (∀ i < w, ∀ j < h, ∀ a < max xst 1 * max yst 1, ∃ q, log[(j * w + i) * (max xst 1 * max yst 1) + a]? = some q ∧ InPixel R (x0 + i) (y0 + j) q.1) ∧
      (∀ q ∈ log, ∃ e', q.2 = (rad e' q.1).1) ∧
      runR R f0 (calls log) = some s1.film := by
  set S := max xst 1 * max yst 1 with hS
  have hS0 : 0 < S := Nat.mul_pos (by omega) (by omega)
  obtain ⟨s1, log, e1, e3, e4, e5, e6⟩ := taskLoopR_spec R r hr hs x0 y0 w h hw hx hy xst yst hcnt jitter sOpen sClose rad (w * h) 0 (by omega)
    (List.replicate S (blankR n1 n2)) st e f0 (by simp [hS]) (by
      intro p hp
      obtain ⟨-, rfl⟩ := List.mem_replicate.1 hp
      exact ⟨⟨by simp [blankR], h1⟩, by simp [blankR], h2⟩)
  rw [at_zero] at e1
  refine ⟨s1, log, e1, e4, ?_, e5, e3⟩
  intro i hi j hj a ha
  have hk : j * w + i < w * h := by
    calc j * w + i < j * w + w := by omega
      _ = w * (j + 1) := by ring
      _ ≤ w * h := Nat.mul_le_mul_left _ (by omega)
  have ht : (j * w + i) * S + a < w * h * S := by
    calc (j * w + i) * S + a < (j * w + i) * S + S := by omega
      _ = (j * w + i + 1) * S := by ring
      _ ≤ w * h * S := Nat.mul_le_mul_right _ (by omega)
  obtain ⟨q, q1, q2⟩ := e6 _ ht
  refine ⟨q, q1, ?_⟩
  rwa [Nat.zero_add, Nat.mul_comm _ S, Nat.mul_add_div hS0, Nat.div_eq_of_lt ha, Nat.add_zero, Nat.mul_comm j w, Nat.mul_add_mod, Nat.mod_eq_of_lt hi,
    Nat.mul_add_div hw, Nat.div_eq_of_lt hi, Nat.add_zero] at q2

theorem covers_of_inPixel (f : Film K) (hf : Fits f) (hw : 1 / 2 ≤ f.filt.xw ∧ 1 / 2 ≤ f.filt.yw) (i j : ℕ) (hi : i < f.xCnt) (hj : j < f.yCnt)
    (bx : f.xStart + f.xCnt ≤ 2 ^ 52) (bY : f.yStart + f.yCnt ≤ 2 ^ 52) (smp : Sample K) (h : InPixel ieee (f.xStart + i) (f.yStart + j) smp) :
    Covers ieee f smp.imageX smp.imageY i j := by
  obtain ⟨⟨rx, h1, h2⟩, ry, h3, h4⟩ := h
  have hX : IsDouble smp.imageX := by rw [← rx]; exact isDouble_double _
  have hY : IsDouble smp.imageY := by rw [← ry]; exact isDouble_double _
  push_cast at h1 h2 h3 h4
  have a1 : ((f.xStart + i + 1 : ℤ) : K) ≤ ((2 ^ 52 : ℤ) : K) := by exact_mod_cast (show f.xStart + i + 1 ≤ 2 ^ 52 by omega)
  have a2 : ((f.yStart + j + 1 : ℤ) : K) ≤ ((2 ^ 52 : ℤ) : K) := by exact_mod_cast (show f.yStart + j + 1 ≤ 2 ^ 52 by omega)
  push_cast at a1 a2
  refine ((Film.C176_footprint f hf smp.imageX smp.imageY hX hY (h2.trans (by norm_num at a1 ⊢; exact a1)) (h4.trans (by norm_num at a2 ⊢; exact a2)) i j hi hj).1 ⟨?_, ?_⟩).1
  · have : |Film.off f.xStart i smp.imageX| ≤ 1 / 2 := by rw [Film.off, abs_le]; constructor <;> linarith
    linarith [hw.1]
  · have : |Film.off f.yStart j smp.imageY| ≤ 1 / 2 := by rw [Film.off, abs_le]; constructor <;> linarith
    linarith [hw.2]

theorem reach_block (R : Rounding K) (f : Film K) (i j : ℕ) (es : List (K × K × Vec K)) : ∀ (t S : ℕ),
    (∀ a < S, ∃ q, es[t + a]? = some q ∧ Covers R f q.1 q.2.1 i j) → S ≤ (reach R f i j es).length := by
  induction es with
  | nil =>
    intro t S h
    cases S with
    | zero => simp
    | succ S => obtain ⟨q, hq, -⟩ := h 0 (by omega); simp at hq
  | cons e es ih =>
    obtain ⟨X, Y, L⟩ := e
    intro t S h
    simp only [reach]
    cases t with
    | succ t =>
      have := ih t S (fun a ha => by
        obtain ⟨q, hq, hc⟩ := h a ha
        rw [show t + 1 + a = (t + a) + 1 by ring, List.getElem?_cons_succ] at hq
        exact ⟨q, hq, hc⟩)
      split_ifs
      · rw [List.length_cons]; omega
      · exact this
    | zero =>
      cases S with
      | zero => omega
      | succ S =>
        obtain ⟨q, hq, hc⟩ := h 0 (by omega)
        rw [Nat.zero_add, List.getElem?_cons_zero] at hq
        obtain rfl := Option.some.inj hq
        rw [if_pos hc, List.length_cons]
        have := ih 0 S (fun a ha => by
          obtain ⟨q, hq, hc⟩ := h (a + 1) (by omega)
          rw [Nat.zero_add, List.getElem?_cons_succ] at hq
          exact ⟨q, by rw [Nat.zero_add]; exact hq, hc⟩)
        omega

theorem reach_length_le (R : Rounding K) (f : Film K) (i j : ℕ) (es : List (K × K × Vec K)) : (reach R f i j es).length ≤ es.length := by
  induction es with
  | nil => simp [reach]
  | cons e es ih =>
    obtain ⟨X, Y, L⟩ := e
    simp only [reach]
    split_ifs <;> simp only [List.length_cons] <;> omega

/-- film and sampler fit together: the film is blank, in front of a filter at least a pixel wide, with a table of positive floats, its window in that of the sampler, and
the numbers are small enough to be floats -/
structure Ready (f : Film K) (x0 y0 : ℤ) (w h S : ℕ) : Prop where
  fits : Fits f
  blank : ∀ i j, f.pix i j = ⟨0, 0, 0⟩
  table : ∀ r c, IsDouble (f.table r c) ∧ 2 ^ (-500 : ℤ) ≤ f.table r c
  filt : 1 / 2 ≤ f.filt.xw ∧ 1 / 2 ≤ f.filt.yw
  xs : -2 ^ 53 ≤ x0 ∧ x0 ≤ f.xStart ∧ f.xStart + f.xCnt ≤ x0 + w ∧ x0 + w ≤ 2 ^ 52
  ys : -2 ^ 53 ≤ y0 ∧ y0 ≤ f.yStart ∧ f.yStart + f.yCnt ≤ y0 + h ∧ y0 + h ≤ 2 ^ 52
  few : w * h * S ≤ 2 ^ 40

/-- **C178** the whole rendering in binary64, for film and sampler that fit together and for every camera, scene and integrator whose radiances are finite, not negative
(and not positive numbers below `2^-500`) and at most `M`: it ends without an exception; every pixel of the film has received at least the given number of samples per pixel;
and each channel of each pixel of the picture is the weighted average of the radiances of the `n` samples that reach the pixel, with positive weights, up to
`3·10⁻⁶·M + (n+9)·2^-47·M` and half the smallest float. -/
theorem C178_picture (r : Rand K) (hr : UnitDraws r) (hs : Shuffles r) (x0 y0 : ℤ) (w h : ℕ) (hw : 0 < w) (xst yst : ℕ) (hcnt : max xst 1 * max yst 1 ≤ 2 ^ 53)
    (jitter : Bool) (sOpen sClose : K) (rad : E → Sample K → Vec K × E) (M : K) (hrad : ∀ e smp k, Film.Low (-500) ((rad e smp).1 k) ∧ (rad e smp).1 k ≤ M)
    (n1 n2 : List ℕ) (h1 : ∀ n ∈ n1, n ≤ 2 ^ 53) (h2 : ∀ n ∈ n2, n ≤ 2 ^ 53) (st : RS) (e : E) (f0 : Film K)
    (hf : Ready f0 x0 y0 w h (max xst 1 * max yst 1)) :
    ∃ s1 log, renderR ieee rad r n1 n2 (w * h + 1) ⟨sampler x0 y0 w h xst yst jitter sOpen sClose, st, e, f0⟩ = some (s1, log) ∧
      (∀ q ∈ log, ∃ e', q.2 = (rad e' q.1).1) ∧
      ∀ i < f0.xCnt, ∀ j < f0.yCnt,
        let l := reach ieee f0 i j (calls log)
        max xst 1 * max yst 1 ≤ l.length ∧ (∀ s ∈ l, 0 < s.1) ∧ 0 < (s1.film.pix i j).w ∧
        ∀ k, |pictureR ieee s1.film j i k - (l.map (fun s => s.1 * s.2 k)).sum / sumW l| ≤
          3 / 1000000 * M + ((l.length + 9) * 2 ^ (-47 : ℤ) * M + 2 ^ (-1075 : ℤ)) := by
  have hxs := hf.xs
  have hys := hf.ys
  obtain ⟨s1, log, e1, e2, e3, e4, e5⟩ := C178_render ieee r hr hs x0 y0 w h hw ⟨hxs.1, by omega⟩ ⟨hys.1, by omega⟩ xst yst hcnt jitter sOpen sClose rad n1 n2 h1 h2 st e f0
  refine ⟨s1, log, e1, e4, fun i hi j hj => ?_⟩
  intro l
  have t0 : (0 : K) < 2 ^ (-500 : ℤ) := two_zpow_pos _
  have hS : max xst 1 * max yst 1 ≤ l.length := by
    have ii : (f0.xStart + i - x0).toNat < w := by omega
    have jj : (f0.yStart + j - y0).toNat < h := by omega
    refine reach_block ieee f0 i j (calls log) (((f0.yStart + j - y0).toNat * w + (f0.xStart + i - x0).toNat) * (max xst 1 * max yst 1)) _ (fun a ha => ?_)
    obtain ⟨q, q1, q2⟩ := e3 _ ii _ jj a ha
    refine ⟨(q.1.imageX, q.1.imageY, q.2), by rw [calls, List.getElem?_map, q1]; rfl, ?_⟩
    refine covers_of_inPixel f0 hf.fits hf.filt i j hi hj (by omega) (by omega) q.1 ?_
    rwa [show x0 + ((f0.xStart + i - x0).toNat : ℤ) = f0.xStart + i by omega, show y0 + ((f0.yStart + j - y0).toNat : ℤ) = f0.yStart + j by omega] at q2
  have hpos : ∀ s ∈ l, 0 < s.1 := fun s hs => by
    obtain ⟨⟨r, c, e⟩, -⟩ := Film.reach_mem ieee f0 i j _ s hs
    rw [e]; exact t0.trans_le (hf.table r c).2
  have hne : l ≠ [] := by
    intro hc
    rw [hc, List.length_nil] at hS
    have : 0 < max xst 1 * max yst 1 := Nat.mul_pos (by omega) (by omega)
    omega
  obtain ⟨s, hs⟩ := List.exists_mem_of_ne_nil l hne
  have fair : Fair f0 (calls log) M := ⟨hf.blank, fun r c => ⟨(hf.table r c).1, Or.inr (hf.table r c).2⟩, fun s hs => by
    obtain ⟨q, hq, rfl⟩ := List.mem_map.1 hs
    obtain ⟨e', he⟩ := e4 q hq
    intro k
    change Film.Low (-500) (q.2 k) ∧ q.2 k ≤ M
    rw [he]; exact hrad e' q.1 k⟩
  have hW : sumW l ≠ 0 := by
    have : 0 < sumW l := by
      have a : s.1 ≤ (l.map Prod.fst).sum := List.single_le_sum (fun x hx => by
        obtain ⟨y, hy, rfl⟩ := List.mem_map.1 hx
        exact (hpos y hy).le) _ (List.mem_map.2 ⟨s, hs, rfl⟩)
      exact (hpos s hs).trans_le a
    exact this.ne'
  have hlen : l.length ≤ 2 ^ 40 := by
    have := reach_length_le ieee f0 i j (calls log)
    rw [calls, List.length_map, e2] at this
    exact this.trans hf.few
  refine ⟨hS, hpos, ?_, fun k => (Film.C176_picture f0 s1.film (calls log) M fair e5 i j hlen hW 1 k).2⟩
  exact (hpos s hs).trans_le ((Film.C176_weight ieee f0 s1.film hf.blank (fun r c => ⟨(t0.trans_le (hf.table r c).2).le, double_of_isDouble (hf.table r c).1⟩) (calls log) e5 i j).2 s hs)

theorem avg_between (l : List (K × Vec K)) (k : Fin 3) (a b : K) (hp : ∀ s ∈ l, 0 < s.1) (hl : l ≠ []) (h : ∀ s ∈ l, a ≤ s.2 k ∧ s.2 k ≤ b) :
    a ≤ (l.map (fun s => s.1 * s.2 k)).sum / sumW l ∧ (l.map (fun s => s.1 * s.2 k)).sum / sumW l ≤ b := by
  have key : ∀ l' : List (K × Vec K), (∀ s ∈ l', s ∈ l) → a * sumW l' ≤ (l'.map (fun s => s.1 * s.2 k)).sum ∧ (l'.map (fun s => s.1 * s.2 k)).sum ≤ b * sumW l' ∧ 0 ≤ sumW l' := by
    intro l' hl'
    induction l' with
    | nil => simp [sumW]
    | cons s l' ih =>
      obtain ⟨c, d, e⟩ := ih (fun x hx => hl' x (by simp [hx]))
      have hs := hl' s (by simp)
      have w0 := hp s hs
      simp only [sumW, List.map_cons, List.sum_cons] at *
      refine ⟨?_, ?_, by linarith⟩
      · nlinarith [mul_le_mul_of_nonneg_left (h s hs).1 w0.le]
      · nlinarith [mul_le_mul_of_nonneg_left (h s hs).2 w0.le]
  have hW : 0 < sumW l := by
    obtain ⟨s, hs⟩ := List.exists_mem_of_ne_nil l hl
    have a : s.1 ≤ (l.map Prod.fst).sum := List.single_le_sum (fun x hx => by
      obtain ⟨y, hy, rfl⟩ := List.mem_map.1 hx
      exact (hp y hy).le) _ (List.mem_map.2 ⟨s, hs, rfl⟩)
    exact (hp s hs).trans_le a
  obtain ⟨c, d, -⟩ := key l (fun s hs => hs)
  exact ⟨(le_div_iff₀ hW).2 c, (div_le_iff₀ hW).2 d⟩

/-- **C178** whatever the scene, no pixel of the written picture is darker than the darkest or brighter than the brightest radiance, up to the same bound; a scene of uniform
radiance gives a uniform picture. -/
theorem C178_between (r : Rand K) (hr : UnitDraws r) (hs : Shuffles r) (x0 y0 : ℤ) (w h : ℕ) (hw : 0 < w) (xst yst : ℕ) (hcnt : max xst 1 * max yst 1 ≤ 2 ^ 53)
    (jitter : Bool) (sOpen sClose : K) (rad : E → Sample K → Vec K × E) (M : K) (hrad : ∀ e smp k, Film.Low (-500) ((rad e smp).1 k) ∧ (rad e smp).1 k ≤ M)
    (lo hi : Vec K) (hlo : ∀ e smp k, lo k ≤ (rad e smp).1 k ∧ (rad e smp).1 k ≤ hi k)
    (n1 n2 : List ℕ) (h1 : ∀ n ∈ n1, n ≤ 2 ^ 53) (h2 : ∀ n ∈ n2, n ≤ 2 ^ 53) (st : RS) (e : E) (f0 : Film K)
    (hf : Ready f0 x0 y0 w h (max xst 1 * max yst 1)) :
    ∃ s1 log, renderR ieee rad r n1 n2 (w * h + 1) ⟨sampler x0 y0 w h xst yst jitter sOpen sClose, st, e, f0⟩ = some (s1, log) ∧
      ∀ i < f0.xCnt, ∀ j < f0.yCnt, ∀ k,
        let err : K := 3 / 1000000 * M + ((w * h * (max xst 1 * max yst 1) + 9 : ℕ) * 2 ^ (-47 : ℤ) * M + 2 ^ (-1075 : ℤ))
        lo k - err ≤ pictureR ieee s1.film j i k ∧ pictureR ieee s1.film j i k ≤ hi k + err := by
  have hxs := hf.xs
  have hys := hf.ys
  obtain ⟨s0, log0, z1, z2, -⟩ := C178_render ieee r hr hs x0 y0 w h hw ⟨hxs.1, by omega⟩ ⟨hys.1, by omega⟩ xst yst hcnt jitter sOpen sClose rad n1 n2 h1 h2 st e f0
  obtain ⟨s1, log, e1, e2, e3⟩ := C178_picture r hr hs x0 y0 w h hw xst yst hcnt jitter sOpen sClose rad M hrad n1 n2 h1 h2 st e f0 hf
  have hlog : log.length = w * h * (max xst 1 * max yst 1) := by
    rw [z1] at e1
    obtain ⟨-, rfl⟩ := Prod.mk.inj (Option.some.inj e1)
    exact z2
  refine ⟨s1, log, e1, fun i hi' j hj k => ?_⟩
  intro err
  obtain ⟨a1, a2, -, a4⟩ := e3 i hi' j hj
  set l := reach ieee f0 i j (calls log) with hl
  have hS0 : 0 < max xst 1 * max yst 1 := Nat.mul_pos (by omega) (by omega)
  have hne : l ≠ [] := by
    intro hc
    rw [hc, List.length_nil] at a1; omega
  have hb := avg_between l k (lo k) (hi k) a2 hne (fun s hs => by
    obtain ⟨-, q, hq, hq2⟩ := Film.reach_mem ieee f0 i j _ s hs
    obtain ⟨p, hp, rfl⟩ := List.mem_map.1 hq
    obtain ⟨e', he⟩ := e2 p hp
    change s.2 = p.2 at hq2
    rw [hq2, he]; exact hlo e' p.1 k)
  have M0 : 0 ≤ M := by
    obtain ⟨s, hs⟩ := List.exists_mem_of_ne_nil l hne
    obtain ⟨-, q, hq, -⟩ := Film.reach_mem ieee f0 i j _ s hs
    obtain ⟨p, -, -⟩ := List.mem_map.1 hq
    exact (hrad e p.1 0).1.nonneg.trans (hrad e p.1 0).2
  have hle : ((l.length : K) + 9) * 2 ^ (-47 : ℤ) * M ≤ (w * h * (max xst 1 * max yst 1) + 9 : ℕ) * 2 ^ (-47 : ℤ) * M := by
    have : l.length ≤ w * h * (max xst 1 * max yst 1) := by
      have := reach_length_le ieee f0 i j (calls log)
      rwa [calls, List.length_map, hlog] at this
    have : ((l.length + 9 : ℕ) : K) ≤ ((w * h * (max xst 1 * max yst 1) + 9 : ℕ) : K) := by exact_mod_cast (by omega)
    rw [Nat.cast_add l.length] at this
    exact mul_le_mul_of_nonneg_right (mul_le_mul_of_nonneg_right (by exact_mod_cast this) (two_zpow_pos _).le) M0
  have := a4 k
  rw [abs_le] at this
  have he : 3 / 1000000 * M + (((l.length : K) + 9) * 2 ^ (-47 : ℤ) * M + 2 ^ (-1075 : ℤ)) ≤ err := by
    show _ ≤ 3 / 1000000 * M + ((w * h * (max xst 1 * max yst 1) + 9 : ℕ) * 2 ^ (-47 : ℤ) * M + 2 ^ (-1075 : ℤ))
    exact add_le_add le_rfl (add_le_add hle le_rfl)
  constructor <;> linarith [this.1, this.2, hb.1, hb.2]

/-- **C178** the rounded sample extent contains the window of the film, and goes beyond its end, when the filter is at least a pixel wide. -/
theorem C178_extent (f : Film K) (hx : 0 ≤ f.xStart ∧ f.xStart + f.xCnt < 2 ^ 52) (hy : 0 ≤ f.yStart ∧ f.yStart + f.yCnt < 2 ^ 52)
    (hw : 1 / 2 ≤ f.filt.xw ∧ 1 / 2 ≤ f.filt.yw) :
    (sampleExtentR ieee f).1 ≤ f.xStart ∧ f.xStart + f.xCnt + 1 ≤ (sampleExtentR ieee f).2.1 ∧
    (sampleExtentR ieee f).2.2.1 ≤ f.yStart ∧ f.yStart + f.yCnt + 1 ≤ (sampleExtentR ieee f).2.2.2 := by
  have dh : ∀ n : ℤ, 0 ≤ n → n < 2 ^ 52 → double ((n : K) + 1 / 2) = n + 1 / 2 := fun n h0 h1 => by
    refine double_of_isDouble ⟨2 * n + 1, -1, ?_, by norm_num, by push_cast; norm_num; ring⟩
    rw [abs_of_nonneg (by omega)]; omega
  have di : ∀ n : ℤ, 0 ≤ n → n ≤ 2 ^ 52 → double (n : K) = n := fun n h0 h1 => double_of_isDouble (Film.isDouble_int n (by rw [abs_of_nonneg h0]; omega))
  have ax : ∀ (s : ℤ) (c : ℕ) (v : K), 0 ≤ s → s + c < 2 ^ 52 → 1 / 2 ≤ v →
      ⌊double (double ((s : K) + 1 / 2) - v)⌋ ≤ s ∧ s + c + 1 ≤ ⌊double (double (double ((s : K) + 1 / 2) + c) + v)⌋ := by
    intro s c v h0 h1 hv
    rw [dh s h0 (by omega)]
    constructor
    · have : double ((s : K) + 1 / 2 - v) ≤ s := by
        rw [← di s h0 (by omega)]; rw [di s h0 (by omega)]
        have := double_mono (K := K) (show (s : K) + 1 / 2 - v ≤ s by linarith)
        rwa [di s h0 (by omega)] at this
      exact_mod_cast (Int.floor_le _).trans this
    · rw [Int.le_floor, show (s : K) + 1 / 2 + c = ((s + c : ℤ) : K) + 1 / 2 by push_cast; ring, dh _ (by omega) h1, ← di _ (by omega) (by omega)]
      exact double_mono (by push_cast; linarith)
  obtain ⟨a, b⟩ := ax f.xStart f.xCnt f.filt.xw hx.1 hx.2 hw.1
  obtain ⟨c, d⟩ := ax f.yStart f.yCnt f.filt.yw hy.1 hy.2 hw.2
  exact ⟨a, b, c, d⟩

/-- a film of three by two pixels behind a box filter, for the example -/
def boxFilm : Film ℚ where
  filt := ⟨1, 1, 1, 1, fun _ _ => 1⟩
  xStart := 1
  xCnt := 3
  yStart := 0
  yCnt := 2
  table := fun _ _ => 1
  pix := fun _ _ => ⟨0, 0, 0⟩

/-- the hypotheses are met: a sampler of 2×2 samples per pixel on the sample extent of the film (`[0, 5) × [-1, 3)`), radiances between 1/2 and 3 -/
example : Ready boxFilm 0 (-1) 5 4 (max 2 1 * max 2 1) ∧ UnitDraws (⟨fun _ => 1 / 3, fun _ l => l⟩ : Rand ℚ) ∧ Shuffles (⟨fun _ => 1 / 3, fun _ l => l⟩ : Rand ℚ) ∧
    (∀ (e : Bool) (smp : Sample ℚ) (k : Fin 3), Film.Low (-500) ((fun (e : Bool) (_ : Sample ℚ) => ((fun _ : Fin 3 => if e then (3 : ℚ) else 1 / 2), !e)) e smp |>.1 k) ∧
      ((fun (e : Bool) (_ : Sample ℚ) => ((fun _ : Fin 3 => if e then (3 : ℚ) else 1 / 2), !e)) e smp).1 k ≤ 3) := by
  have one : IsDouble (1 : ℚ) := ⟨1, 0, by norm_num, by norm_num, by simp⟩
  have hh : (1 : ℚ) = (ieee (K := ℚ)).div 1 1 := by
    show (1 : ℚ) = double (1 / 1); rw [div_one]; exact (double_of_isDouble one).symm
  have lt : (2 : ℚ) ^ (-500 : ℤ) ≤ 2 ^ (-1 : ℤ) := zpow_le_zpow_right₀ (by norm_num) (by norm_num)
  have lt1 : (2 : ℚ) ^ (-500 : ℤ) ≤ 1 := zpow_le_one_of_nonpos₀ (by norm_num) (by norm_num)
  refine ⟨⟨⟨by decide, by decide, by norm_num [boxFilm], by norm_num [boxFilm], ⟨one, by norm_num [boxFilm], by norm_num [boxFilm]⟩,
    ⟨one, by norm_num [boxFilm], by norm_num [boxFilm]⟩, hh, hh⟩, fun _ _ => rfl, fun r c => ⟨one, lt1⟩,
    by norm_num [boxFilm], by norm_num [boxFilm], by norm_num [boxFilm], by norm_num⟩, fun i => by norm_num, fun k l => List.Perm.refl _, fun e smp k => ?_⟩
  cases e
  · exact ⟨Or.inr (by show (2 : ℚ) ^ (-500 : ℤ) ≤ 1 / 2; norm_num at lt ⊢; exact lt), by norm_num⟩
  · exact ⟨Or.inr (by show (2 : ℚ) ^ (-500 : ℤ) ≤ 3; linarith), by norm_num⟩

end Verif.FullR
