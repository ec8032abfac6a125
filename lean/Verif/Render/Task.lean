import Verif.Num.F
import Mathlib.Algebra.Order.Field.Rat
import Mathlib.Algebra.BigOperators.Group.List.Basic
import Mathlib.Tactic.NormNum
import Mathlib.Tactic.FinCases
import Mathlib.Data.Fintype.Pi
/-!
# The render task (C51, C69)

Models `pytracer/renderer/renderer.py`: `SamplerRendererTask.__call__` 132-198 and `SamplerRenderer.li` 58-75, with
`RGBSpectrum.y` (`pytracer/spectral/spectrum.py` 587-589) and `has_nans` (216-217).

Values are floats without rounding (`Verif.F`).  The sampler, the camera, the scene and the integrators are arbitrary state
machines: `S` is the sampler's state, `E` everything else (random numbers, the reused `Intersection` objects, …).
Exceptions raised by them are outside the model; so are the progress bar and the log messages.
-/
set_option linter.unusedSectionVars false
namespace Verif
namespace F
variable {K : Type*} [Field K] [LinearOrder K]

/-- float addition: `inf + -inf` is NaN -/
def add : F K → F K → F K
  | nan, _ => nan
  | _, nan => nan
  | fin a, fin b => fin (a + b)
  | fin _, pinf => pinf
  | fin _, ninf => ninf
  | pinf, ninf => nan
  | ninf, pinf => nan
  | pinf, _ => pinf
  | ninf, _ => ninf

/-- a finite number times a float: `0 * inf` is NaN -/
def smul (k : K) : F K → F K
  | nan => nan
  | fin a => fin (k * a)
  | pinf => if k = 0 then nan else if 0 < k then pinf else ninf
  | ninf => if k = 0 then nan else if 0 < k then ninf else pinf

end F

namespace Render

variable {K : Type*} [Field K] [LinearOrder K] [IsStrictOrderedRing K]

/-- an RGB spectrum -/
abbrev Spec (K : Type*) := Fin 3 → F K

/-- `Spectrum(0.)` -/
def black : Spec K := fun _ => .fin 0

/-- `EPS`, pytracer/__init__.py 23 -/
def EPS : K := 1 / 100000

/-- `RGBSpectrum.y`, spectrum.py 587-589 -/
def y (L : Spec K) : F K :=
  ((F.smul (212671 / 1000000) (L 0)).add (F.smul (715160 / 1000000) (L 1))).add (F.smul (72169 / 1000000) (L 2))

/-- `has_nans`, spectrum.py 216-217 -/
def hasNans (L : Spec K) : Bool := (L 0).isNan || (L 1).isNan || (L 2).isNan

/-- renderer.py 185-193 -/
def sanitise (L : Spec K) : Spec K :=
  if hasNans L then black
  else if (y L).lt (.fin (-EPS)) then black
  else match y L with
    | .pinf => black
    | _ => L

/-- `Ls[i] *= wt`, renderer.py 179 -/
def scaleBy (wt : K) (L : Spec K) : Spec K := fun i => F.smul wt (L i)

/-- what the task calls: `S` sampler state, `E` the rest of the world, `Smp` samples.  `camera` is
`camera.generate_ray_differential` (weight; the ray is part of the world), `hit` is `scene.intersect_p`, `li` is `renderer.li`
(first result), `report` is `sampler.report_results` -/
structure World (K S E Smp : Type*) where
  generate : S → Option (List Smp × S)
  camera : E → Smp → K × E
  hit : E → Smp → Bool × E
  li : E → Smp → Spec K × E
  report : S → List (Smp × Spec K) → Bool × S

variable {S E Smp : Type*}

/-- radiance of one sample before the tests, renderer.py 165-183 (`vis` is `vis_obj_id`) -/
def radiance (W : World K S E Smp) (vis : Bool) (e : E) (smp : Smp) : Spec K × E :=
  let (wt, e1) := W.camera e smp
  let (hit, e2) := W.hit e1 smp
  if vis then
    (if hit = true ∧ 0 < wt then (fun _ => .fin 1, e2) else (black, e2))
  else
    if hit = true ∧ 0 < wt then
      let (L, e3) := W.li e2 smp
      (scaleBy wt L, e3)
    else (black, e2)

/-- the inner loop over one batch, renderer.py 161-193: for each sample the raw and the sanitised radiance -/
def batch (W : World K S E Smp) (vis : Bool) : E → List Smp → List (Smp × Spec K × Spec K) × E
  | e, [] => ([], e)
  | e, smp :: r =>
    let (L, e1) := radiance W vis e smp
    let (rest, e2) := batch W vis e1 r
    ((smp, L, sanitise L) :: rest, e2)

/-- what happened in one turn of the `while` loop: the samples with raw radiance, and the answer of `report_results` -/
structure Turn (K Smp : Type*) where
  smps : List (Smp × Spec K)
  reported : Bool
deriving DecidableEq

/-- the `while` loop, renderer.py 156-198: the turns taken (for the specification) and the calls of `film.add_sample` in order;
`none` if it has not ended after the given number of turns -/
def loop (W : World K S E Smp) (vis : Bool) : ℕ → S → E → Option (List (Turn K Smp) × List (Smp × Spec K))
  | 0, _, _ => none
  | n + 1, s, e =>
    match W.generate s with
    | none => some ([], [])
    | some (smps, s1) =>
      let (rs, e1) := batch W vis e smps
      let (ok, s2) := W.report s1 (rs.map fun r => (r.1, r.2.2))
      match loop W vis n s2 e1 with
      | none => none
      | some (ts, log) =>
        some (⟨rs.map fun r => (r.1, r.2.1), ok⟩ :: ts, (if ok then rs.map fun r => (r.1, r.2.2) else []) ++ log)

/-! ### Specification -/

/-- luminance of a spectrum with finite entries -/
def lum (r g b : K) : K := 212671 / 1000000 * r + 715160 / 1000000 * g + 72169 / 1000000 * b

/-- fit for the film: no NaN entry, luminance neither infinite nor below `-EPS` -/
structure Fit (L : Spec K) : Prop where
  noNan : ∀ i, L i ≠ .nan
  notInf : y L ≠ .pinf
  notNegInf : y L ≠ .ninf
  lower : ∀ v, y L = .fin v → -(1 / 100000) ≤ v

/-- the value that reaches the film for raw radiance `L` -/
def Sanitised (L L' : Spec K) : Prop := Fit L' ∧ (Fit L → L' = L) ∧ (¬ Fit L → ∀ i, L' i = .fin 0)

theorem y_fin (r g b : K) : y (fun i : Fin 3 => if i = 0 then F.fin r else if i = 1 then F.fin g else F.fin b) = .fin (lum r g b) := by
  simp [y, F.smul, F.add, lum]

theorem EPS_pos : (0 : K) < EPS := by unfold EPS; norm_num

theorem fit_black : Fit (black : Spec K) := by
  have e : y (black : Spec K) = .fin 0 := by simp [y, black, F.smul, F.add]
  refine ⟨fun i => by simp [black], by simp [e], by simp [e], ?_⟩
  intro v hv
  rw [e] at hv
  cases hv
  linarith [EPS_pos (K := K)]

theorem hasNans_iff (L : Spec K) : hasNans L = true ↔ ∃ i, L i = .nan := by
  have h : ∀ a : F K, a.isNan = true ↔ a = .nan := by intro a; cases a <;> simp [F.isNan]
  simp only [hasNans, Bool.or_eq_true, h]
  constructor
  · rintro ((h | h) | h)
    exacts [⟨0, h⟩, ⟨1, h⟩, ⟨2, h⟩]
  · rintro ⟨i, h⟩
    fin_cases i
    exacts [.inl (.inl h), .inl (.inr h), .inr h]

/-- the tests of lines 185-193 decide `Fit` -/
theorem sanitised (L : Spec K) : Sanitised L (sanitise L) := by
  unfold sanitise
  by_cases h1 : hasNans L = true
  · rw [if_pos h1]
    refine ⟨fit_black, fun f => ?_, fun _ _ => rfl⟩
    obtain ⟨i, hi⟩ := (hasNans_iff L).1 h1
    exact absurd hi (f.noNan i)
  rw [if_neg h1]
  have h1' : ∀ i, L i ≠ .nan := fun i hi => h1 ((hasNans_iff L).2 ⟨i, hi⟩)
  by_cases h2 : (y L).lt (.fin (-EPS)) = true
  · rw [if_pos h2]
    refine ⟨fit_black, fun f => ?_, fun _ _ => rfl⟩
    exfalso
    cases hy : y L with
    | fin v =>
      rw [hy] at h2
      simp only [F.lt, decide_eq_true_eq] at h2
      exact absurd (f.lower v hy) (not_le.2 h2)
    | pinf => exact f.notInf hy
    | ninf => exact f.notNegInf hy
    | nan => rw [hy] at h2; simp [F.lt] at h2
  rw [if_neg h2]
  cases hy : y L with
  | pinf =>
    refine ⟨fit_black, fun f => absurd hy f.notInf, fun _ _ => rfl⟩
  | ninf => rw [hy] at h2; simp [F.lt] at h2
  | fin v =>
    have f : Fit L := by
      refine ⟨h1', by simp [hy], by simp [hy], ?_⟩
      intro w hw
      rw [hy] at h2 hw
      cases hw
      simpa [F.lt, EPS] using h2
    exact ⟨f, fun _ => rfl, fun nf => absurd f nf⟩
  | nan =>
    have f : Fit L := ⟨h1', by simp [hy], by simp [hy], fun v hv => by rw [hy] at hv; cases hv⟩
    exact ⟨f, fun _ => rfl, fun nf => absurd f nf⟩

/-- **C51** the value that reaches the film is fit for it; a fit value is passed on unchanged and any other becomes black. -/
theorem C51_sanitised (L : Spec K) : Sanitised L (sanitise L) := sanitised L

/-- **C51** a spectrum with finite entries is passed on unchanged exactly when its luminance is at least `-EPS`. -/
theorem C51_finite (r g b : K) :
    sanitise (fun i : Fin 3 => if i = 0 then F.fin r else if i = 1 then F.fin g else F.fin b) =
      if -(1 / 100000) ≤ lum r g b then (fun i : Fin 3 => if i = 0 then F.fin r else if i = 1 then F.fin g else F.fin b) else black := by
  have hn : hasNans (fun i : Fin 3 => if i = 0 then F.fin r else if i = 1 then F.fin g else F.fin b) = false := by
    simp [hasNans, F.isNan]
  simp only [sanitise, hn, y_fin, F.lt, decide_eq_true_eq, Bool.false_eq_true, if_false, EPS]
  split <;> rename_i h
  · rw [if_neg (not_le.2 h)]
  · rw [if_pos (not_lt.1 h)]

/-- **C51** (a limit of the tests) opposite infinities pass all three tests although the luminance is NaN. -/
theorem C51_opposite_infinities (b : K) :
    sanitise (fun i : Fin 3 => if i = 0 then F.pinf else if i = 1 then F.ninf else F.fin b) =
      (fun i : Fin 3 => if i = 0 then F.pinf else if i = 1 then F.ninf else F.fin b) ∧
    y (fun i : Fin 3 => if i = 0 then F.pinf else if i = 1 then F.ninf else F.fin b) = .nan := by
  have e : y (fun i : Fin 3 => if i = 0 then F.pinf else if i = 1 then F.ninf else F.fin b) = .nan := by
    simp [y, F.smul, F.add]
  refine ⟨?_, e⟩
  have hn : hasNans (fun i : Fin 3 => if i = 0 then F.pinf else if i = 1 then F.ninf else F.fin b) = false := by
    simp [hasNans, F.isNan]
  simp only [sanitise, hn, e, F.lt, Bool.false_eq_true, if_false]

theorem batch_spec (W : World K S E Smp) (vis : Bool) (e : E) (smps : List Smp) :
    (batch W vis e smps).1.map (·.1) = smps ∧ ∀ r ∈ (batch W vis e smps).1, r.2.2 = sanitise r.2.1 := by
  induction smps generalizing e with
  | nil => exact ⟨rfl, by simp [batch]⟩
  | cons smp r ih =>
    obtain ⟨h1, h2⟩ := ih (radiance W vis e smp).2
    refine ⟨by simp [batch, h1], ?_⟩
    intro q hq
    simp only [batch, List.mem_cons] at hq
    rcases hq with rfl | hq
    · rfl
    · exact h2 q hq

/-- the batches the sampler hands out, in order, when every turn `k` is answered as recorded -/
def Handed (W : World K S E Smp) : S → List (Turn K Smp) → Prop
  | s, [] => W.generate s = none
  | s, t :: ts => ∃ s1 s2, W.generate s = some (t.smps.map (·.1), s1) ∧
      W.report s1 (t.smps.map fun p => (p.1, sanitise p.2)) = (t.reported, s2) ∧ Handed W s2 ts

theorem loop_spec (W : World K S E Smp) (vis : Bool) : ∀ (n : ℕ) (s : S) (e : E) (ts : List (Turn K Smp)) (log : List (Smp × Spec K)),
    loop W vis n s e = some (ts, log) →
    Handed W s ts ∧ log = ts.flatMap fun t => if t.reported then t.smps.map fun p => (p.1, sanitise p.2) else [] := by
  intro n
  induction n with
  | zero => intro s e ts log h; cases h
  | succ n ih =>
    intro s e ts log h
    simp only [loop] at h
    split at h
    · rename_i hg
      cases h
      exact ⟨hg, rfl⟩
    · rename_i smps s1 hg
      obtain ⟨b1, b2⟩ := batch_spec W vis e smps
      have hm : (batch W vis e smps).1.map (fun r => (r.1, r.2.2)) =
          ((batch W vis e smps).1.map fun r => (r.1, r.2.1)).map fun p => (p.1, sanitise p.2) := by
        rw [List.map_map]
        apply List.map_congr_left
        intro r hr
        simp [b2 r hr]
      split at h
      · cases h
      · rename_i ts' log' hl
        cases h
        obtain ⟨i1, i2⟩ := ih _ _ _ _ hl
        refine ⟨⟨s1, _, ?_, ?_, i1⟩, ?_⟩
        · rw [hg]
          have : ((batch W vis e smps).1.map fun r => (r.1, r.2.1)).map (·.1) = smps := by
            rw [List.map_map]; exact b1
          rw [this]
        · rw [← hm]
        · rw [List.flatMap_cons, ← hm, i2]

/-- **C51** when the task ends, the calls of `film.add_sample` are, in order, those of the turns whose batch the sampler accepted:
each sample of the batch once, with the sanitised radiance computed for it; and every value added is fit for the film. -/
theorem C51_film_calls (W : World K S E Smp) (vis : Bool) (n : ℕ) (s : S) (e : E) (ts : List (Turn K Smp)) (log : List (Smp × Spec K))
    (h : loop W vis n s e = some (ts, log)) :
    Handed W s ts ∧ (log = ts.flatMap fun t => if t.reported then t.smps.map fun p => (p.1, sanitise p.2) else []) ∧
    ∀ p ∈ log, Fit p.2 := by
  obtain ⟨h1, h2⟩ := loop_spec W vis n s e ts log h
  refine ⟨h1, h2, ?_⟩
  intro p hp
  rw [h2, List.mem_flatMap] at hp
  obtain ⟨t, -, ht⟩ := hp
  split at ht
  · obtain ⟨q, -, rfl⟩ := List.mem_map.1 ht
    exact (sanitised q.2).1
  · cases ht

theorem batch_raw (W : World K S E Smp) (vis : Bool) (e : E) (smps : List Smp) :
    ∀ r ∈ (batch W vis e smps).1, ∃ e' : E, r.2.1 = (radiance W vis e' r.1).1 := by
  induction smps generalizing e with
  | nil => intro r hr; cases hr
  | cons smp l ih =>
    intro r hr
    simp only [batch, List.mem_cons] at hr
    rcases hr with rfl | hr
    · exact ⟨e, rfl⟩
    · exact ih _ r hr

/-- **C51** the radiance computed for a sample: black unless the camera ray has positive weight and hits something; otherwise white when object
ids are shown, and else the renderer's radiance times the weight. -/
theorem C51_raw (W : World K S E Smp) (vis : Bool) : ∀ (n : ℕ) (s : S) (e : E) (ts : List (Turn K Smp)) (log : List (Smp × Spec K)),
    loop W vis n s e = some (ts, log) → ∀ t ∈ ts, ∀ p ∈ t.smps, ∃ (e0 e1 e2 : E) (wt : K) (hit : Bool),
      W.camera e0 p.1 = (wt, e1) ∧ W.hit e1 p.1 = (hit, e2) ∧
      ((hit = false ∨ wt ≤ 0) → ∀ i, p.2 i = .fin 0) ∧
      (hit = true → 0 < wt → vis = true → ∀ i, p.2 i = .fin 1) ∧
      (hit = true → 0 < wt → vis = false → ∀ i, p.2 i = F.smul wt ((W.li e2 p.1).1 i)) := by
  intro n
  induction n with
  | zero => intro s e ts log h; cases h
  | succ n ih =>
    intro s e ts log h t ht p hp
    simp only [loop] at h
    split at h
    · cases h; cases ht
    · rename_i smps s1 hg
      split at h
      · cases h
      · rename_i ts' log' hl
        cases h
        rcases List.mem_cons.1 ht with rfl | ht
        · simp only [List.mem_map] at hp
          obtain ⟨r, hr, rfl⟩ := hp
          obtain ⟨e', he⟩ := batch_raw W vis e smps r hr
          refine ⟨e', (W.camera e' r.1).2, (W.hit (W.camera e' r.1).2 r.1).2, (W.camera e' r.1).1, (W.hit (W.camera e' r.1).2 r.1).1, rfl, rfl, ?_, ?_, ?_⟩
          · intro hh i
            simp only at hh ⊢
            have hn : ¬ ((W.hit (W.camera e' r.1).2 r.1).1 = true ∧ 0 < (W.camera e' r.1).1) := by
              rintro ⟨h1, h2⟩
              rcases hh with hh | hh
              · rw [h1] at hh; cases hh
              · exact absurd h2 (not_lt.2 hh)
            rw [he]
            simp only [radiance, if_neg hn, ite_self, black]
          · intro h1 h2 hv i
            simp only at h1 h2 ⊢
            rw [he]
            simp only [radiance, hv, if_true, if_pos (And.intro h1 h2)]
          · intro h1 h2 hv i
            simp only at h1 h2 ⊢
            rw [he]
            simp only [radiance, hv, Bool.false_eq_true, if_false, if_pos (And.intro h1 h2), scaleBy]
        · exact ih _ _ _ _ hl t ht p hp

/-- **C51** with a sampler that accepts every batch (all but the adaptive one), the samples that reach the film are exactly the samples the
sampler handed out, each once and in order. -/
theorem C51_each_sample_once (W : World K S E Smp) (vis : Bool) (hacc : ∀ s l, (W.report s l).1 = true) (n : ℕ) (s : S) (e : E)
    (ts : List (Turn K Smp)) (log : List (Smp × Spec K)) (h : loop W vis n s e = some (ts, log)) :
    log.map (·.1) = ts.flatMap fun t => t.smps.map (·.1) := by
  obtain ⟨h1, h2⟩ := loop_spec W vis n s e ts log h
  have hr : ∀ (ts : List (Turn K Smp)) (s : S), Handed W s ts → ∀ t ∈ ts, t.reported = true := by
    intro ts
    induction ts with
    | nil => simp
    | cons t ts ih =>
      rintro s ⟨s1, s2, -, hrep, hrest⟩ t' ht'
      rcases List.mem_cons.1 ht' with rfl | ht'
      · have := hacc s1 (t'.smps.map fun p => (p.1, sanitise p.2))
        rw [hrep] at this; exact this
      · exact ih s2 hrest t' ht'
  rw [h2, List.map_flatMap]
  apply List.flatMap_congr
  intro t ht
  rw [if_pos (hr ts s h1 t ht), List.map_map]
  rfl

/-- **C51** the task ends whenever the sampler's supply does: if the sampler's `generate` ends within `n` batches whatever is reported, the task
ends within `n + 1` turns. -/
theorem C51_terminates (W : World K S E Smp) (vis : Bool) (left : S → ℕ) (hg : ∀ s b s', W.generate s = some (b, s') → left s' < left s)
    (hr : ∀ s l, left (W.report s l).2 ≤ left s) (s : S) (e : E) : (loop W vis (left s + 1) s e).isSome := by
  suffices h : ∀ (n : ℕ) (s : S) (e : E), left s < n → (loop W vis n s e).isSome from h _ s e (Nat.lt_succ_self _)
  intro n
  induction n with
  | zero => intro s e h; omega
  | succ n ih =>
    intro s e h
    simp only [loop]
    split
    · rfl
    · rename_i smps s1 hgen
      have h1 := hg s _ _ hgen
      have h2 := hr s1 ((batch W vis e smps).1.map fun r => (r.1, r.2.2))
      have := ih (W.report s1 ((batch W vis e smps).1.map fun r => (r.1, r.2.2))).2 (batch W vis e smps).2 (by omega)
      obtain ⟨⟨ts, log⟩, hl⟩ := Option.isSome_iff_exists.1 this
      simp [hl]

/-! ### `SamplerRenderer.li` and the background (C69) -/

/-- spectrum addition -/
def sadd (a b : Spec K) : Spec K := fun i => (a i).add (b i)
/-- `SamplerRenderer.li` without a volume integrator, renderer.py 63-68, 75: the surface integrator's answer when
`scene.intersect` finds something, otherwise the sum of the lights' `le` -/
def li (hit : Bool) (surf : Spec K) (les : List (Spec K)) : Spec K :=
  if hit then surf else les.foldl sadd black

/-- what the film gets for a ray of weight `wt` under the task: renderer.py 168-182 with `li` above; `hitP` is `intersect_p`'s answer and
`hit` that of `intersect` -/
def shown (wt : K) (hitP hit : Bool) (surf : Spec K) (les : List (Spec K)) : Spec K :=
  if hitP = true ∧ 0 < wt then scaleBy wt (li hit surf les) else black

/-- `shown` is what `radiance` computes when the world answers so -/
theorem shown_eq (W : World K S E Smp) (e : E) (smp : Smp) (wt : K) (hitP hit : Bool) (surf : Spec K) (les : List (Spec K)) (e1 e2 e3 : E)
    (h1 : W.camera e smp = (wt, e1)) (h2 : W.hit e1 smp = (hitP, e2)) (h3 : W.li e2 smp = (li hit surf les, e3)) :
    (radiance W false e smp).1 = shown wt hitP hit surf les := by
  simp only [radiance, h1, h2, h3, shown, Bool.false_eq_true, if_false]
  split <;> rfl

theorem foldl_fin (ls : List (Fin 3 → K)) (a : Fin 3 → K) :
    (ls.map fun l => (fun i => F.fin (l i) : Spec K)).foldl sadd (fun i => F.fin (a i)) = fun i => F.fin (a i + (ls.map (· i)).sum) := by
  induction ls generalizing a with
  | nil => simp
  | cons l ls ih =>
    rw [List.map_cons, List.foldl_cons]
    have : sadd (fun i => F.fin (a i)) (fun i => F.fin (l i)) = fun i => F.fin (a i + l i) := by funext i; simp [sadd, F.add]
    rw [this, ih]
    funext i
    simp [add_assoc]

/-- **C69 (part)** for a ray on which `intersect` and `intersect_p` agree and which hits something, the film gets the weight times the surface
integrator's value; and `SamplerRenderer.li` itself returns the sum of the lights' emission for a ray that misses. -/
theorem C69_radiance_partial (wt : K) (hw : 0 < wt) (surf : Spec K) (les : List (Spec K)) (ls : List (Fin 3 → K)) :
    shown wt true true surf les = scaleBy wt surf ∧
    li false surf (ls.map fun l => (fun i => F.fin (l i))) = fun i => F.fin ((ls.map (· i)).sum) := by
  refine ⟨by simp [shown, hw, li], ?_⟩
  have := foldl_fin ls (fun _ => 0)
  simp only [zero_add] at this
  exact this

/-- **C69 is false of the code**: a ray that misses everything is black on the film whatever the lights emit, because `li` is only called when
`intersect_p` reports a hit; so with any light that emits towards missed rays the picture differs from `li`. -/
theorem C69_background_lost_false (wt : K) (surf : Spec K) (les : List (Spec K)) : shown wt false false surf les = black := by
  simp [shown]

/-- a light that emits: `li` is not black, the film value is -/
example : li false (black : Spec ℚ) [fun _ => .fin 1] ≠ shown 1 false false black [fun _ => .fin 1] := by
  intro h
  have := congrFun h 0
  simp [li, shown, sadd, black, F.add] at this

/-! ### A concrete task -/

/-- two batches, the first of two samples, the second of one; radiance is the sample's number, NaN for sample 7 and −1 for sample 8 -/
def exWorld : World ℚ ℕ Unit ℕ where
  generate s := if s = 0 then some ([7, 2], 1) else if s = 1 then some ([8], 2) else none
  camera _ _ := (1, ())
  hit _ _ := (true, ())
  li _ n := (fun _ => if n = 7 then .nan else if n = 8 then .fin (-1) else .fin n, ())
  report s _ := (true, s)

/-- its film calls: 7 and 8 become black, 2 is passed on -/
example : ∃ ts, loop exWorld false 3 0 () = some (ts, [(7, black), (2, fun _ => .fin 2), (8, black)]) := by
  refine ⟨[⟨[(7, fun _ => .nan), (2, fun _ => .fin 2)], true⟩, ⟨[(8, fun _ => .fin (-1))], true⟩], ?_⟩
  decide +kernel

end Render
end Verif
