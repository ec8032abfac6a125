import Verif.Render.Task
import Verif.Sampler.Scan
import Verif.Film.Image

/-!
# A whole rendering (`renderer/renderer.py:84-111, 132-198`): property C157

The `StratifiedSampler`, the rendering task and the `ImageFilm` together.  Camera, scene and integrators are arbitrary
functions on an arbitrary state (`World` of C51).  `preprocess` does nothing in any of the integrators
(`integrator/integrator.py:26-27`).
-/
set_option linter.unusedSectionVars false

namespace Verif.Full
open Verif.Sampler Verif.Render
open Verif.Film (Vec Film Ev Upd)

variable {K : Type*} [Field K] [LinearOrder K] [IsStrictOrderedRing K] [FloorRing K] {E : Type*}

/-! ### Model -/

/-- what the renderer can change: the sampler, the source of random numbers, everything behind camera, scene and
integrators, and the film. -/
structure State (K E : Type*) where
  samp : Strat K
  rs : RS
  env : E
  film : Film K

/-- a radiance as the film takes it.  Simplification: the film model has no infinities, so `none` (no claim) if an entry is
not finite. -/
def toVec (L : Spec K) : Option (Vec K) :=
  match L 0, L 1, L 2 with
  | .fin a, .fin b, .fin c => some ![a, b, c]
  | _, _, _ => none

/-- `for i, sample in enumerate(samples): film.add_sample(sample, Ls[i])` (`renderer.py:197-198`); also lists the calls. -/
def addAll (f : Film K) : List (Sample K × Spec K) → Option (Film K × List (Sample K × Vec K))
  | [] => some (f, [])
  | (smp, L) :: rest =>
    match toVec L with
    | none => none
    | some c =>
      match Film.addSample f smp.imageX smp.imageY c with
      | none => none
      | some f =>
        match addAll f rest with
        | none => none
        | some (f, calls) => some (f, (smp, c) :: calls)

/-- the `while` loop of `SamplerRendererTask.__call__` (`renderer.py:156-198`) with a `StratifiedSampler`, whose
`report_results` always answers `True` (`sampler/sampler/__init__.py:69-74`); `buf` is the list `samples`, filled in place by
`generate`.  Also lists the calls of `add_sample`.  `none`: an exception, or not finished after the given number of turns. -/
def taskLoop (W : World K Unit E (Sample K)) (r : Rand K) (vis : Bool) :
    ℕ → List (Sample K) → State K E → Option (State K E × List (Sample K × Vec K))
  | 0, _, _ => none
  | n + 1, buf, s =>
    match s.samp.generate r buf s.rs with
    | .stop => some (s, [])
    | .fail => none
    | .batch out samp rs =>
      let (res, env) := batch W vis s.env out
      match addAll s.film (res.map fun p => (p.1, p.2.2)) with
      | none => none
      | some (film, calls) =>
        match taskLoop W r vis n out ⟨samp, rs, env, film⟩ with
        | none => none
        | some (s', more) => some (s', calls ++ more)

/-- one of the samples made by `Sample.duplicate` (`sampler/sample.py:57-63`). -/
def blank (n1 n2 : List ℕ) : Sample K :=
  ⟨0, 0, 0, 0, 0, n1, n2, List.replicate n1.length none, List.replicate n2.length none⟩

/-- `SamplerRendererTask.__call__` (`renderer.py:132-198`): `maximum_sample_cnt` (`stratified.py:99-100`) samples with the
requested shape, then the loop. -/
def task (W : World K Unit E (Sample K)) (r : Rand K) (vis : Bool) (n1 n2 : List ℕ) (fuel : ℕ) (s : State K E) :
    Option (State K E × List (Sample K × Vec K)) :=
  taskLoop W r vis fuel (List.replicate (s.samp.xSamples * s.samp.ySamples) (blank n1 n2)) s

/-- `SamplerRenderer.render` (`renderer.py:84-111`) up to `write_image`: one task, `vis_obj_id` is `False`; `n1`, `n2` are the
counts the integrators request (`renderer.py:93`). -/
def render (W : World K Unit E (Sample K)) (r : Rand K) (n1 n2 : List ℕ) (fuel : ℕ) (s : State K E) :
    Option (State K E × List (Sample K × Vec K)) := task W r false n1 n2 fuel s

/-- the picture `write_image` hands to the image writer (`film/film.py:237-260`), `splat_scale` is 1. -/
def picture (f : Film K) : ℕ → ℕ → Vec K := fun y x => Film.imageRgb f 1 y x

/-! ### Specification -/

/-- the history of film calls -/
def events (log : List (Sample K × Vec K)) : List (Ev K) := log.map fun p => .sample p.1.imageX p.1.imageY p.2

/-- the sample's image position is in cell `(a, b)` of the `nx` by `ny` cells of pixel `(px, py)` -/
def InCell (nx ny : ℕ) (px py : ℤ) (a b : ℕ) (smp : Sample K) : Prop :=
  InStratum a nx (smp.imageX - (px : K)) ∧ InStratum b ny (smp.imageY - (py : K))

/-- the integrator returns finite radiance -/
def FiniteLi (W : World K Unit E (Sample K)) : Prop := ∀ e smp, ∃ c : Vec K, (W.li e smp).1 = fun i => .fin (c i)

/-! ### Lemmas -/

theorem toVec_fin (c : Vec K) : toVec (fun i => F.fin (c i)) = some c := by
  simp only [toVec]
  congr 1
  funext i
  fin_cases i <;> rfl

theorem radiance_fin (W : World K Unit E (Sample K)) (hW : FiniteLi W) (e : E) (smp : Sample K) :
    ∃ c : Vec K, (radiance W false e smp).1 = fun i => .fin (c i) := by
  simp only [radiance, Bool.false_eq_true, if_false]
  split
  · obtain ⟨c, hc⟩ := hW (W.hit (W.camera e smp).2 smp).2 smp
    exact ⟨fun i => (W.camera e smp).1 * c i, by funext i; simp only [scaleBy, hc, F.smul]⟩
  · exact ⟨fun _ => 0, rfl⟩

theorem sanitise_fin (c : Vec K) : ∃ d : Vec K, sanitise (fun i => F.fin (c i)) = fun i => .fin (d i) := by
  obtain ⟨-, h1, h2⟩ := sanitised (fun i => F.fin (c i) : Spec K)
  by_cases h : Fit (fun i => F.fin (c i) : Spec K)
  · exact ⟨c, h1 h⟩
  · exact ⟨fun _ => 0, funext fun i => h2 h i⟩

theorem batch_rad (W : World K Unit E (Sample K)) (vis : Bool) (e : E) (l : List (Sample K)) :
    ∀ p ∈ (batch W vis e l).1, ∃ e', p.2.1 = (radiance W vis e' p.1).1 := by
  induction l generalizing e with
  | nil => simp [batch]
  | cons smp l ih =>
    intro p hp
    simp only [batch, List.mem_cons] at hp
    rcases hp with rfl | hp
    · exact ⟨e, rfl⟩
    · exact ih _ p hp

theorem addAll_spec (l : List (Sample K × Spec K)) (f : Film K) (hl : ∀ p ∈ l, ∃ c : Vec K, p.2 = fun i => .fin (c i)) :
    ∃ f' calls, addAll f l = some (f', calls) ∧ Film.run f (events calls) = some f' ∧ calls.map Prod.fst = l.map Prod.fst ∧
      ∀ q ∈ calls, ∃ p ∈ l, p.1 = q.1 ∧ toVec p.2 = some q.2 := by
  induction l generalizing f with
  | nil => exact ⟨f, [], rfl, rfl, rfl, by simp⟩
  | cons p l ih =>
    obtain ⟨smp, L⟩ := p
    obtain ⟨c, hc⟩ := hl (smp, L) (by simp)
    simp only at hc
    obtain ⟨f1, a1, -, -⟩ := Film.addSample_spec f smp.imageX smp.imageY c
    obtain ⟨f2, calls, b1, b2, b3, b4⟩ := ih f1 (fun p hp => hl p (by simp [hp]))
    have hv : toVec L = some c := by rw [hc]; exact toVec_fin c
    refine ⟨f2, (smp, c) :: calls, by simp only [addAll, hv, a1, b1], ?_, by simp [b3], ?_⟩
    · simp only [events, List.map_cons, Film.run, Film.runEv, a1, Option.bind_some]
      exact b2
    · intro q hq
      rcases List.mem_cons.1 hq with rfl | hq
      · exact ⟨(smp, L), by simp, rfl, hv⟩
      · obtain ⟨p, h1, h2⟩ := b4 q hq
        exact ⟨p, by simp [h1], h2⟩

theorem run_append (f g : Film K) (a b : List (Ev K)) (h : Film.run f a = some g) : Film.run f (a ++ b) = Film.run g b := by
  induction a generalizing f with
  | nil => cases h; rfl
  | cons e a ih =>
    simp only [Film.run, List.cons_append] at h ⊢
    cases he : Film.runEv f e with
    | none => rw [he] at h; simp at h
    | some f1 => rw [he] at h; exact ih f1 h

section
variable (r : Rand K) (hr : UnitDraws r) (hs : Shuffles r) (x0 y0 : ℤ) (w h : ℕ) (hw : 0 < w) (xst yst : ℕ) (jitter : Bool) (sOpen sClose : K)

/-- the sampler when `n` pixels have been done -/
def at' (n : ℕ) : Strat K :=
  { Strat.mk' (x0 : K) (x0 + w : ℤ) (y0 : K) (y0 + h : ℤ) xst yst jitter sOpen sClose with
    xPos := ((x0 + (n % w : ℕ) : ℤ) : K), yPos := ((y0 + (n / w : ℕ) : ℤ) : K) }

theorem at_zero : at' x0 y0 w h xst yst jitter sOpen sClose 0 = Strat.mk' (x0 : K) (x0 + w : ℤ) (y0 : K) (y0 + h : ℤ) xst yst jitter sOpen sClose := by
  simp [at', Strat.mk']

theorem at_end (hw : 0 < w) (l : List (Sample K)) (st : RS) : (at' x0 y0 w h xst yst jitter sOpen sClose (w * h)).generate r l st = .stop := by
  have : w * h / w = h := Nat.mul_div_cancel_left _ hw
  unfold Strat.generate at'
  rw [this]
  simp [Strat.mk']

include hr hs hw in
theorem at_step (n : ℕ) (hn : n < w * h) (l : List (Sample K)) (st : RS) (hl : GoodInput (at' x0 y0 w h xst yst jitter sOpen sClose n) l) :
    ∃ out st', (at' x0 y0 w h xst yst jitter sOpen sClose n).generate r l st = .batch out (at' x0 y0 w h xst yst jitter sOpen sClose (n + 1)) st' ∧
      FilledBatch (at' x0 y0 w h xst yst jitter sOpen sClose n) ((x0 + (n % w : ℕ) : ℤ) : K) ((y0 + (n / w : ℕ) : ℤ) : K) l out := by
  have hrow : n / w < h := Nat.div_lt_of_lt_mul (by omega)
  have hye : (at' x0 y0 w h xst yst jitter sOpen sClose n).yPos ≠ (at' x0 y0 w h xst yst jitter sOpen sClose n).ye := by
    change ((y0 + (n / w : ℕ) : ℤ) : K) ≠ ((y0 + h : ℤ) : K)
    intro hc; have := Int.cast_injective hc; omega
  obtain ⟨out, st2, e2, f2⟩ := generate_spec r hr hs (at' x0 y0 w h xst yst jitter sOpen sClose n) l st hl hye
  have hcol : n % w < w := Nat.mod_lt _ hw
  have hxe : ((at' x0 y0 w h xst yst jitter sOpen sClose n).xPos + 1 = (at' x0 y0 w h xst yst jitter sOpen sClose n).xe) ↔ n % w + 1 = w := by
    change ((x0 + (n % w : ℕ) : ℤ) : K) + 1 = ((x0 + w : ℤ) : K) ↔ _
    rw [show ((x0 + (n % w : ℕ) : ℤ) : K) + 1 = ((x0 + (n % w : ℕ) + 1 : ℤ) : K) by push_cast; ring, Int.cast_inj]
    omega
  refine ⟨out, st2, ?_, f2⟩
  rw [e2]
  congr 1
  have hdm := Nat.div_add_mod n w
  by_cases hlast : n % w + 1 = w
  · have e1 : (n + 1) / w = n / w + 1 := by
      rw [show n + 1 = w * (n / w + 1) by rw [Nat.mul_add]; omega, Nat.mul_div_cancel_left _ hw]
    have e2 : (n + 1) % w = 0 := by
      rw [show n + 1 = w * (n / w + 1) by rw [Nat.mul_add]; omega, Nat.mul_mod_right]
    rw [if_pos (hxe.2 hlast)]
    simp only [at', Strat.mk', e1, e2]
    push_cast
    congr 1 <;> ring
  · have e1 : (n + 1) / w = n / w := by
      rw [show n + 1 = (n % w + 1) + w * (n / w) by omega, Nat.add_mul_div_left _ _ hw,
        Nat.div_eq_of_lt (by omega), Nat.zero_add]
    have e2 : (n + 1) % w = n % w + 1 := by
      conv_lhs => rw [show n + 1 = (n % w + 1) + w * (n / w) by omega]
      rw [Nat.add_mul_mod_self_left, Nat.mod_eq_of_lt (by omega)]
    rw [if_neg (fun h => hlast (hxe.1 h))]
    simp only [at', Strat.mk', e1, e2]
    push_cast
    congr 1; ring

/-- sample `i` of the `k`-th pixel -/
structure SampleAt (k i : ℕ) (smp : Sample K) : Prop where
  cell : InCell (max xst 1) (max yst 1) (x0 + (k % w : ℕ)) (y0 + (k / w : ℕ)) (i % max xst 1) (i / max xst 1) smp
  pixel : (((x0 + (k % w : ℕ) : ℤ) : K) ≤ smp.imageX ∧ smp.imageX < ((x0 + (k % w : ℕ) : ℤ) : K) + 1) ∧
    (((y0 + (k / w : ℕ) : ℤ) : K) ≤ smp.imageY ∧ smp.imageY < ((y0 + (k / w : ℕ) : ℤ) : K) + 1)

include hr hs hw in
theorem taskLoop_spec (W : World K Unit E (Sample K)) (hW : FiniteLi W) (m : ℕ) : ∀ (n : ℕ), n + m = w * h → ∀ (buf : List (Sample K)) (st : RS) (e : E) (f : Film K),
    buf.length = max xst 1 * max yst 1 → (∀ p ∈ buf, p.oneD.length = p.n1D.length ∧ p.twoD.length = p.n2D.length) →
    ∃ s1 log, taskLoop W r false (m + 1) buf ⟨at' x0 y0 w h xst yst jitter sOpen sClose n, st, e, f⟩ = some (s1, log) ∧
      s1.samp = at' x0 y0 w h xst yst jitter sOpen sClose (w * h) ∧
      Film.run f (events log) = some s1.film ∧ log.length = m * (max xst 1 * max yst 1) ∧
      (∀ q ∈ log, ∃ e', toVec (sanitise (radiance W false e' q.1).1) = some q.2) ∧
      ∀ t < m * (max xst 1 * max yst 1), ∃ q, log[t]? = some q ∧
        SampleAt x0 y0 w xst yst (n + t / (max xst 1 * max yst 1)) (t % (max xst 1 * max yst 1)) q.1 := by
  have hS : 0 < max xst 1 * max yst 1 := Nat.mul_pos (by omega) (by omega)
  generalize hSe : max xst 1 * max yst 1 = S at *
  induction m with
  | zero =>
    intro n hn buf st e f _ _
    obtain rfl : n = w * h := by omega
    refine ⟨_, [], by simp only [taskLoop, at_end r x0 y0 w h xst yst jitter sOpen sClose hw]; rfl, rfl, rfl, by simp, by simp, by simp⟩
  | succ m ih =>
    intro n hn buf st e f hb hsh
    have hg : GoodInput (at' x0 y0 w h xst yst jitter sOpen sClose n) buf := ⟨by rw [hb, ← hSe]; rfl, hsh⟩
    obtain ⟨out, st1, e1, hf⟩ := at_step r hr hs x0 y0 w h hw xst yst jitter sOpen sClose n (by omega) buf st hg
    have hol : out.length = S := by rw [hf.1, hb]
    obtain ⟨b1, b2⟩ := batch_spec W false e out
    have b3 := batch_rad W false e out
    obtain ⟨f1, calls, c1, c2, c3, c4⟩ := addAll_spec ((batch W false e out).1.map fun p => (p.1, p.2.2)) f (by
      intro p hp
      obtain ⟨q, hq, rfl⟩ := List.mem_map.1 hp
      obtain ⟨e', he'⟩ := b3 q hq
      obtain ⟨c, hc⟩ := radiance_fin W hW e' q.1
      rw [b2 q hq, he', hc]
      exact sanitise_fin c)
    have hcf : calls.map Prod.fst = out := by
      rw [c3, List.map_map]
      exact b1
    have hcl : calls.length = S := by rw [← hol, ← hcf, List.length_map]
    have hval : ∀ q ∈ calls, ∃ e', toVec (sanitise (radiance W false e' q.1).1) = some q.2 := by
      intro q hq
      obtain ⟨p, hp, p1, p2⟩ := c4 q hq
      obtain ⟨u, hu, rfl⟩ := List.mem_map.1 hp
      obtain ⟨e', he'⟩ := b3 u hu
      simp only at p1 p2
      refine ⟨e', ?_⟩
      rw [← p1, ← he', ← b2 u hu]
      exact p2
    obtain ⟨s1, log, i1, i2, i3, i4, i5, i6⟩ := ih (n + 1) (by omega) out st1 (batch W false e out).2 f1 hol (by
      intro p hp
      obtain ⟨i, hi, rfl⟩ := List.getElem_of_mem hp
      have hi' : i < buf.length := by omega
      have := hf.2 i buf[i] out[i] (List.getElem?_eq_getElem hi') (List.getElem?_eq_getElem hi)
      exact ⟨by rw [this.one.1, this.shape.1], by rw [this.two.1, this.shape.2]⟩)
    refine ⟨s1, calls ++ log, by rw [taskLoop]; simp only [e1, c1, i1], i2, ?_, ?_, ?_, ?_⟩
    · rw [show events (calls ++ log) = events calls ++ events log from List.map_append, run_append f f1 _ _ c2]; exact i3
    · rw [List.length_append, hcl, i4]; ring
    · intro q hq
      rcases List.mem_append.1 hq with hq | hq
      · exact hval q hq
      · exact i5 q hq
    · intro t ht
      by_cases hts : t < S
      · have htc : t < calls.length := by omega
        have hto : t < out.length := by omega
        have htb : t < buf.length := by omega
        refine ⟨calls[t], by rw [List.getElem?_append_left htc, List.getElem?_eq_getElem htc], ?_⟩
        have he : calls[t].1 = out[t] := by
          have := congrArg (·[t]?) hcf
          simp only [List.getElem?_map, List.getElem?_eq_getElem htc, List.getElem?_eq_getElem hto, Option.map_some, Option.some.injEq] at this
          exact this
        have hq := hf.2 t buf[t] out[t] (List.getElem?_eq_getElem htb) (List.getElem?_eq_getElem hto)
        rw [he, Nat.div_eq_of_lt hts, Nat.mod_eq_of_lt hts]
        exact ⟨⟨hq.x, hq.y⟩, hq.pixel⟩
      · obtain ⟨q, q1, q2⟩ := i6 (t - S) (by rw [Nat.add_mul] at ht; omega)
        refine ⟨q, by rw [List.getElem?_append_right (by omega), hcl]; exact q1, ?_⟩
        rw [Nat.mod_eq_sub_mod (by omega : t ≥ S)]
        rw [show n + t / S = n + 1 + (t - S) / S by
          rw [Nat.div_eq_sub_div hS (by omega : S ≤ t)]; omega]
        exact q2
end

theorem pixel_unique {p q : ℤ} {x : K} (h1 : (p : K) ≤ x ∧ x < (p : K) + 1) (h2 : (q : K) ≤ x ∧ x < (q : K) + 1) : p = q := by
  rw [← Int.floor_eq_iff] at h1 h2
  omega

theorem inStratum_pixel {a n : ℕ} (ha : a < n) {px : ℤ} {x : K} (h : InStratum a n (x - (px : K))) : (px : K) ≤ x ∧ x < (px : K) + 1 := by
  obtain ⟨h1, h2⟩ := inStratum_unit ha h
  constructor <;> linarith

/-! ### Theorems -/

/-- **C157** rendering with a sampler over the window `[x0, x0+w) × [y0, y0+h)` and `max xst 1 * max yst 1` samples per
pixel ends without an exception; the film has then received exactly one sample in each of the `max xst 1 × max yst 1` cells of each
pixel of the window, none elsewhere, each with the sanitised radiance of its own camera ray; and the film is what those
calls make of it. -/
theorem C157_render (r : Rand K) (hr : UnitDraws r) (hs : Shuffles r) (x0 y0 : ℤ) (w h : ℕ) (hw : 0 < w)
    (xst yst : ℕ) (jitter : Bool) (sOpen sClose : K) (W : World K Unit E (Sample K)) (hW : FiniteLi W) (n1 n2 : List ℕ) (st : RS) (e : E) (f0 : Film K) :
    ∃ s1 log, render W r n1 n2 (w * h + 1) ⟨Strat.mk' (x0 : K) (x0 + w : ℤ) (y0 : K) (y0 + h : ℤ) xst yst jitter sOpen sClose, st, e, f0⟩ = some (s1, log) ∧
      log.length = w * h * (max xst 1 * max yst 1) ∧
      (∀ i < w, ∀ j < h, ∀ a < max xst 1, ∀ b < max yst 1, ∃! t : ℕ, ∃ q, log[t]? = some q ∧ InCell (max xst 1) (max yst 1) (x0 + i) (y0 + j) a b q.1) ∧
      (∀ q ∈ log, ((x0 : K) ≤ q.1.imageX ∧ q.1.imageX < ((x0 + w : ℤ) : K)) ∧ ((y0 : K) ≤ q.1.imageY ∧ q.1.imageY < ((y0 + h : ℤ) : K))) ∧
      (∀ q ∈ log, ∃ e', toVec (sanitise (radiance W false e' q.1).1) = some q.2) ∧
      Film.run f0 (events log) = some s1.film := by
  set S := max xst 1 * max yst 1 with hS
  have hS0 : 0 < S := Nat.mul_pos (by omega) (by omega)
  have hx1 : 0 < max xst 1 := by omega
  have hy1 : 0 < max yst 1 := by omega
  obtain ⟨s1, log, e1, -, e3, e4, e5, e6⟩ := taskLoop_spec r hr hs x0 y0 w h hw xst yst jitter sOpen sClose W hW (w * h) 0 (by omega)
    (List.replicate S (blank n1 n2)) st e f0 (by simp [hS]) (by
      intro p hp
      obtain ⟨-, rfl⟩ := List.mem_replicate.1 hp
      simp [blank])
  rw [at_zero] at e1
  have key : ∀ t q, log[t]? = some q → t < w * h * S ∧ SampleAt x0 y0 w xst yst (t / S) (t % S) q.1 := by
    intro t q hq
    have ht : t < w * h * S := by
      rw [← e4]
      by_contra hc
      rw [List.getElem?_eq_none (by omega)] at hq
      simp at hq
    obtain ⟨q', h1, h2⟩ := e6 t ht
    rw [hq] at h1
    obtain rfl := Option.some.inj h1
    rw [Nat.zero_add] at h2
    exact ⟨ht, h2⟩
  refine ⟨s1, log, e1, e4, ?_, ?_, e5, e3⟩
  · intro i hi j hj a ha b hb
    have hk : j * w + i < w * h := by
      calc j * w + i < j * w + w := by omega
        _ = w * (j + 1) := by ring
        _ ≤ w * h := Nat.mul_le_mul_left _ (by omega)
    have hm : b * max xst 1 + a < S := by
      calc b * max xst 1 + a < b * max xst 1 + max xst 1 := by omega
        _ = max xst 1 * (b + 1) := by ring
        _ ≤ S := Nat.mul_le_mul_left _ (by omega)
    have ht : (j * w + i) * S + (b * max xst 1 + a) < w * h * S := by
      calc (j * w + i) * S + (b * max xst 1 + a) < (j * w + i) * S + S := by omega
        _ = (j * w + i + 1) * S := by ring
        _ ≤ w * h * S := Nat.mul_le_mul_right _ (by omega)
    refine ⟨(j * w + i) * S + (b * max xst 1 + a), ?_, ?_⟩
    · obtain ⟨q, h1, h2⟩ := e6 _ ht
      refine ⟨q, h1, ?_⟩
      have hc := h2.cell
      rw [Nat.zero_add, Nat.mul_comm _ S, Nat.mul_add_div hS0, Nat.div_eq_of_lt hm, Nat.mul_add_mod, Nat.mod_eq_of_lt hm, Nat.add_zero,
        Nat.mul_comm j w, Nat.mul_add_mod, Nat.mod_eq_of_lt hi, Nat.mul_add_div hw, Nat.div_eq_of_lt hi, Nat.add_zero,
        Nat.mul_comm b, Nat.mul_add_mod, Nat.mod_eq_of_lt ha, Nat.mul_add_div hx1, Nat.div_eq_of_lt ha, Nat.add_zero] at hc
      exact hc
    · rintro t ⟨q, hq, hc⟩
      obtain ⟨ht', hs'⟩ := key t q hq
      have p1 := pixel_unique (inStratum_pixel ha hc.1) hs'.pixel.1
      have p2 := pixel_unique (inStratum_pixel hb hc.2) hs'.pixel.2
      have q1 : i = t / S % w := by omega
      have q2 : j = t / S / w := by omega
      have c1 := hs'.cell.1
      have c2 := hs'.cell.2
      rw [← p1] at c1
      rw [← p2] at c2
      have r1 : a = t % S % max xst 1 := inStratum_unique hx1 hc.1 c1
      have r2 : b = t % S / max xst 1 := inStratum_unique hy1 hc.2 c2
      have d1 := Nat.div_add_mod (t / S) w
      have d2 := Nat.div_add_mod (t % S) (max xst 1)
      have d3 := Nat.div_add_mod t S
      rw [q1, q2, r1, r2, Nat.mul_comm _ w, d1, Nat.mul_comm (t % S / max xst 1), d2, Nat.mul_comm (t / S), d3]
  · intro q hq
    obtain ⟨t, ht, rfl⟩ := List.getElem_of_mem hq
    obtain ⟨ht', hs'⟩ := key t _ (List.getElem?_eq_getElem ht)
    have hk : t / S < w * h := Nat.div_lt_of_lt_mul (by rw [Nat.mul_comm]; exact ht')
    have hc : t / S % w < w := Nat.mod_lt _ hw
    have hr' : t / S / w < h := Nat.div_lt_of_lt_mul hk
    obtain ⟨⟨a1, a2⟩, a3, a4⟩ := hs'.pixel
    have hx : ((t / S % w : ℕ) : K) + 1 ≤ w := by exact_mod_cast hc
    have hy : ((t / S / w : ℕ) : K) + 1 ≤ h := by exact_mod_cast hr'
    have zx : (0 : K) ≤ ((t / S % w : ℕ) : K) := Nat.cast_nonneg _
    have zy : (0 : K) ≤ ((t / S / w : ℕ) : K) := Nat.cast_nonneg _
    simp only [Int.cast_add, Int.cast_natCast] at a1 a2 a3 a4 ⊢
    refine ⟨⟨by linarith, by linarith⟩, by linarith, by linarith⟩

/-- **C157** rendering again, with the same renderer and any requests, adds no sample: nothing changes, and the same picture is
written. -/
theorem C157_again (r : Rand K) (hr : UnitDraws r) (hs : Shuffles r) (x0 y0 : ℤ) (w h : ℕ) (hw : 0 < w)
    (xst yst : ℕ) (jitter : Bool) (sOpen sClose : K) (W : World K Unit E (Sample K)) (hW : FiniteLi W) (n1 n2 m1 m2 : List ℕ) (st : RS) (e : E) (f0 : Film K)
    (s1 : State K E) (log : List (Sample K × Vec K))
    (h1 : render W r n1 n2 (w * h + 1) ⟨Strat.mk' (x0 : K) (x0 + w : ℤ) (y0 : K) (y0 + h : ℤ) xst yst jitter sOpen sClose, st, e, f0⟩ = some (s1, log)) :
    ∃ s2, render W r m1 m2 1 s1 = some (s2, []) ∧ s2 = s1 ∧ picture s2.film = picture s1.film := by
  obtain ⟨s1', log', e1, e2, -⟩ := taskLoop_spec r hr hs x0 y0 w h hw xst yst jitter sOpen sClose W hW (w * h) 0 (by omega)
    (List.replicate (max xst 1 * max yst 1) (blank n1 n2)) st e f0 (by simp) (by
      intro p hp
      obtain ⟨-, rfl⟩ := List.mem_replicate.1 hp
      simp [blank])
  rw [at_zero] at e1
  have : s1' = s1 := by
    have := e1.symm.trans h1
    exact (Prod.mk.inj (Option.some.inj this)).1
  subst this
  refine ⟨s1', ?_, rfl, rfl⟩
  simp only [render, task, taskLoop]
  rw [e2, at_end r x0 y0 w h xst yst jitter sOpen sClose hw]

/-- **C157** the picture: with a new film, pixel `(i, j)` of the picture is the filter-weighted mean of the radiances of the samples
under its filter (negative means become 0), or black if their weights are all 0. -/
theorem C157_picture (f0 f : Film K) (hf : Film.Made f0) (hb : ∀ i j, f0.pix i j = ⟨0, 0, 0⟩) (log : List (Sample K × Vec K))
    (hrun : Film.run f0 (events log) = some f) (i j : ℕ) (hi : i < f0.xCnt) (hj : j < f0.yCnt) (k : Fin 3) :
    (((Film.hits f0 i j (events log)).map Prod.fst).sum ≠ 0 → picture f j i k =
      max 0 (((Film.hits f0 i j (events log)).map (fun p => p.1 * Film.rt p.2 k)).sum / ((Film.hits f0 i j (events log)).map Prod.fst).sum)) ∧
    ((∀ p ∈ Film.hits f0 i j (events log), p.1 = 0) → picture f j i k = 0) := by
  have hsp : Film.splats f0 i j (events log) = [] := by
    simp only [events]
    induction log with
    | nil => rfl
    | cons p log ih =>
      have : ∀ l : List (Sample K × Vec K), Film.splats f0 i j (l.map fun p => Ev.sample p.1.imageX p.1.imageY p.2) = [] := by
        intro l
        induction l with
        | nil => rfl
        | cons p l ih => simpa only [List.map_cons, Film.splats] using ih
      exact this _
  obtain ⟨h1, h2⟩ := Film.C30_image f0 f hf hb (events log) hrun 1 i j hi hj k
  rw [hsp] at h1 h2
  constructor
  · intro hne
    have := h1 hne
    simpa only [picture, List.map_nil, List.sum_nil, mul_zero, add_zero] using this
  · intro hz
    have hs0 : ((Film.hits f0 i j (events log)).map Prod.fst).sum = 0 := by
      apply List.sum_eq_zero
      intro x hx
      obtain ⟨p, hp, rfl⟩ := List.mem_map.1 hx
      exact hz p hp
    have := h2 (fun p hp => le_of_eq (hz p hp).symm) hs0
    simpa only [picture, List.map_nil, List.sum_nil, mul_zero] using this

/-- non-vacuity: a world whose integrator returns the radiance 1 -/
example : FiniteLi (⟨fun _ => none, fun e _ => (1, e), fun e _ => (true, e), fun e _ => (fun _ => .fin 1, e), fun s _ => (true, s)⟩ : World ℚ Unit Unit (Sample ℚ)) :=
  fun _ _ => ⟨fun _ => 1, rfl⟩

end Verif.Full
