import Mathlib.Algebra.Ring.Basic
import Mathlib.Algebra.Order.Ring.Nat
import Mathlib.Algebra.Order.Ring.Rat
import Mathlib.Data.Int.Basic
import Mathlib.Tactic.Linarith
import Mathlib.Tactic.Ring
import Mathlib.Tactic.NormNum
/-!
# Recursion of the integrators (C52, C70)

Models the call structure of
* `DirectLightingIntegrator.li` (`pytracer/integrator/surface/direct.py` 70-105) and `WhittedIntegrator.li`
  (`pytracer/integrator/surface/whitted.py` 26-59): local part, then reflection and transmission if `ray.depth + 1 < max_depth`;
* `specular_reflect`, `specular_transmit` (`pytracer/integrator/utility.py` 120-200): one child ray made by `from_parent`
  (`geometry/__init__.py` 345-350, depth + 1), handed to `renderer.li`;
* `SamplerRenderer.li` (`renderer/renderer.py` 58-75) without a volume integrator, which returns the pair `(li, Spectrum(0.))`;
* `PathIntegrator.li` (`pytracer/integrator/surface/path.py` 44-144).

The scene, the materials, the lights and the random numbers are arbitrary: `E` is everything the calls may read and change
(random state, the shared `Intersection` object, …), `D` the data of a ray other than its depth.  Spectra are scalars of a ring.
Recursion is by fuel; that the fuel runs out for no scene is one of the theorems.
-/
set_option linter.unusedSectionVars false
namespace Verif.Render.Rec

variable {K E D : Type*}

/-- what the integrators ask of the rest of the program -/
structure Scene (K E D : Type*) where
  /-- `scene.intersect` -/
  intersect : E → D → Bool × E
  /-- emitted light plus direct lighting at the hit point: direct.py 72-97, whitted.py 30-51 -/
  loc : E → D → K × E
  /-- `bsdf.sample_f` for the mirror direction, utility.py 128-150: `none` if line 130 fails, otherwise the factor `f * abs_dot / pdf` and
  the child ray -/
  reflect : E → D → Option (K × D) × E
  /-- the same for the refracted direction, utility.py 164-195 -/
  transmit : E → D → Option (K × D) × E
  /-- the sum of `light.le(ray)`, renderer.py 67-68 -/
  background : E → D → K

section
variable [CommRing K]

/-- `Li, _ = renderer.li(…)` (utility.py 152), `_, Li = renderer.li(…)` (197): `pick` selects from the pair; then
`L = f * Li * abs_dot / pdf` -/
def bounce (pick : K × K → K) (child : E → D → Option ((K × K) × List ℤ × E)) : Option (K × D) × E → Option (K × List ℤ × E)
  | (none, e) => some (0, [], e)
  | (some (c, d), e) => match child e d with
    | none => none
    | some (v, log, e') => some (c * pick v, log, e')

/-- `renderer.li` with the surface integrator inside: the pair it returns, the depths of the rays for which the surface integrator
was run (in order), and the world afterwards; `none` when the fuel runs out -/
def li (S : Scene K E D) (maxDepth : ℤ) : ℕ → E → ℤ → D → Option ((K × K) × List ℤ × E)
  | 0, _, _, _ => none
  | n + 1, e, depth, d =>
    match S.intersect e d with
    | (false, e1) => some ((S.background e1 d, 0), [], e1)
    | (true, e1) =>
      let (L0, e2) := S.loc e1 d
      if depth + 1 < maxDepth then
        match bounce Prod.fst (fun e d => li S maxDepth n e (depth + 1) d) (S.reflect e2 d) with
        | none => none
        | some (Lr, log1, e3) =>
          match bounce Prod.snd (fun e d => li S maxDepth n e (depth + 1) d) (S.transmit e3 d) with
          | none => none
          | some (Lt, log2, e4) => some ((L0 + Lr + Lt, 0), depth :: (log1 ++ log2), e4)
      else some ((L0, 0), [depth], e2)

/-- turns enough for a ray of the given depth -/
def levels (maxDepth depth : ℤ) : ℕ := (maxDepth - depth).toNat + 1

theorem levels_succ {m d : ℤ} (h : d + 1 < m) : levels m d = levels m (d + 1) + 1 := by unfold levels; omega

theorem bounce_isSome {pick : K × K → K} {child : E → D → Option ((K × K) × List ℤ × E)} (h : ∀ e d, (child e d).isSome)
    (o : Option (K × D) × E) : (bounce pick child o).isSome := by
  obtain ⟨_ | ⟨c, d⟩, e⟩ := o
  · rfl
  · obtain ⟨⟨v, log, e'⟩, hv⟩ := Option.isSome_iff_exists.1 (h e d)
    simp [bounce, hv]

/-- **C52** for every scene, world and ray the recursion ends. -/
theorem C52_terminates (S : Scene K E D) (maxDepth : ℤ) (n : ℕ) (e : E) (depth : ℤ) (d : D) (hn : levels maxDepth depth ≤ n) :
    (li S maxDepth n e depth d).isSome := by
  induction n generalizing e depth d with
  | zero => simp [levels] at hn
  | succ n ih =>
    simp only [li]
    split
    · rfl
    · rename_i e1 _
      split
      · rename_i hd
        have hl : levels maxDepth (depth + 1) ≤ n := by rw [levels_succ hd] at hn; omega
        have hc : ∀ e d, (li S maxDepth n e (depth + 1) d).isSome := fun e d => ih e _ d hl
        obtain ⟨⟨Lr, log1, e3⟩, h1⟩ := Option.isSome_iff_exists.1 (bounce_isSome (pick := Prod.fst) hc (S.reflect (S.loc e1 d).2 d))
        obtain ⟨⟨Lt, log2, e4⟩, h2⟩ := Option.isSome_iff_exists.1 (bounce_isSome (pick := Prod.snd) hc (S.transmit e3 d))
        simp [h1, h2]
      · rfl

theorem bounce_mono {pick : K × K → K} {c1 c2 : E → D → Option ((K × K) × List ℤ × E)} (h : ∀ e d r, c1 e d = some r → c2 e d = some r)
    {o : Option (K × D) × E} {r : K × List ℤ × E} (hr : bounce pick c1 o = some r) : bounce pick c2 o = some r := by
  obtain ⟨_ | ⟨c, d⟩, e⟩ := o
  · exact hr
  · simp only [bounce] at hr ⊢
    split at hr
    · cases hr
    · rename_i v log e' hv
      rw [h _ _ _ hv]
      exact hr

/-- **C52** the result does not depend on the fuel: it is a property of the scene. -/
theorem C52_fuel_irrelevant (S : Scene K E D) (maxDepth : ℤ) (n m : ℕ) (hnm : n ≤ m) (e : E) (depth : ℤ) (d : D) (r : (K × K) × List ℤ × E)
    (h : li S maxDepth n e depth d = some r) : li S maxDepth m e depth d = some r := by
  induction n generalizing m e depth d r with
  | zero => cases h
  | succ n ih =>
    obtain ⟨m, rfl⟩ : ∃ k, m = k + 1 := ⟨m - 1, by omega⟩
    have hc : ∀ e d r, li S maxDepth n e (depth + 1) d = some r → li S maxDepth m e (depth + 1) d = some r :=
      fun e d r hr => ih m (by omega) e _ d r hr
    simp only [li] at h ⊢
    split at h
    · exact h
    · split at h
      · rename_i hd
        rw [if_pos hd]
        split at h
        · cases h
        · rename_i Lr log1 e3 h1
          rw [bounce_mono hc h1]
          simp only
          split at h
          · cases h
          · rename_i Lt log2 e4 h2
            rw [bounce_mono hc h2]
            exact h
      · rename_i hd
        rw [if_neg hd]
        exact h

theorem bounce_log {pick : K × K → K} {child : E → D → Option ((K × K) × List ℤ × E)} {P : List ℤ → Prop} (h0 : P [])
    (h : ∀ e d v log e', child e d = some (v, log, e') → P log) {o : Option (K × D) × E} {L : K} {log : List ℤ} {e' : E}
    (hr : bounce pick child o = some (L, log, e')) : P log := by
  obtain ⟨_ | ⟨c, d⟩, e⟩ := o
  · simp only [bounce, Option.some.injEq, Prod.mk.injEq] at hr
    rw [← hr.2.1]; exact h0
  · simp only [bounce] at hr
    split at hr
    · cases hr
    · rename_i v log1 e1 hv
      simp only [Option.some.injEq, Prod.mk.injEq] at hr
      rw [← hr.2.1]; exact h _ _ _ _ _ hv

/-- **C52** every ray the surface integrator is run for is the given ray or has a depth strictly between the given ray's depth and
`max_depth`; and it is run fewer than `2 ^ (max_depth − depth)` times (once if the depth is already at the limit). -/
theorem C52_bounded (S : Scene K E D) (maxDepth : ℤ) (n : ℕ) (e : E) (depth : ℤ) (d : D) (v : K × K) (log : List ℤ) (e' : E)
    (h : li S maxDepth n e depth d = some (v, log, e')) :
    (∀ x ∈ log, x = depth ∨ (depth < x ∧ x < maxDepth)) ∧ log.length < 2 ^ max 1 (maxDepth - depth).toNat := by
  induction n generalizing e depth d v log e' with
  | zero => cases h
  | succ n ih =>
    simp only [li] at h
    split at h
    · cases h
      exact ⟨by simp, by positivity⟩
    · rename_i e1 _
      split at h
      · rename_i hd
        let P : List ℤ → Prop := fun log => (∀ x ∈ log, depth < x ∧ x < maxDepth) ∧ log.length < 2 ^ max 1 (maxDepth - (depth + 1)).toNat
        have hP : ∀ e d v log e', li S maxDepth n e (depth + 1) d = some (v, log, e') → P log := by
          intro e d v log e' hl
          obtain ⟨i1, i2⟩ := ih e (depth + 1) d v log e' hl
          refine ⟨fun x hx => ?_, i2⟩
          rcases i1 x hx with rfl | ⟨a, b⟩
          · exact ⟨by omega, hd⟩
          · exact ⟨by omega, b⟩
        have hP0 : P [] := ⟨by simp, by simp⟩
        split at h
        · cases h
        · rename_i Lr log1 e3 h1
          have p1 := bounce_log hP0 hP h1
          split at h
          · cases h
          · rename_i Lt log2 e4 h2
            have p2 := bounce_log hP0 hP h2
            cases h
            refine ⟨?_, ?_⟩
            · intro x hx
              simp only [List.mem_cons, List.mem_append] at hx
              rcases hx with rfl | hx | hx
              · exact .inl rfl
              · exact .inr (p1.1 x hx)
              · exact .inr (p2.1 x hx)
            · have q1 := p1.2
              have q2 := p2.2
              simp only [List.length_cons, List.length_append]
              have e1 : max 1 (maxDepth - depth).toNat = max 1 (maxDepth - (depth + 1)).toNat + 1 := by omega
              rw [e1, pow_succ]
              omega
      · rename_i hd
        cases h
        refine ⟨by simp, ?_⟩
        have : (2 : ℕ) ^ 1 ≤ 2 ^ max 1 (maxDepth - depth).toNat := Nat.pow_le_pow_right (by norm_num) (le_max_left _ _)
        simp only [List.length_cons, List.length_nil]
        omega

/-! ### Path integrator -/

/-- what one turn of the `while` loop of `PathIntegrator.li` (path.py 71-142) asks of the world: `vertex` covers lines 73-114 (light added at
this vertex; `none` for the `break` of line 110), `roulette` lines 117-123 (False for the `break` of line 120), `next` lines 129-140 (False for the
`break` of line 135, with the light added on line 134) -/
structure PathWorld (K E : Type*) where
  vertex : E → ℕ → (K × Bool) × E
  roulette : E → ℕ → Bool × E
  next : E → ℕ → (K × Bool) × E

/-- the loop, path.py 71-144: the radiance and the number of vertices; `none` when the fuel runs out -/
def path (W : PathWorld K E) (maxDepth : ℤ) : ℕ → E → ℕ → K → Option (K × ℕ × E)
  | 0, _, _, _ => none
  | n + 1, e, cnt, L =>
    let ((dL, go), e1) := W.vertex e cnt
    if go = false then some (L + dL, cnt + 1, e1) else
    let (stay, e2) := if 3 < cnt then W.roulette e1 cnt else (true, e1)
    if stay = false then some (L + dL, cnt + 1, e2) else
    if (cnt : ℤ) = maxDepth then some (L + dL, cnt + 1, e2) else
    let ((aL, hit), e3) := W.next e2 cnt
    if hit = false then some (L + dL + aL, cnt + 1, e3) else
    path W maxDepth n e3 (cnt + 1) (L + dL + aL)

/-- **C52** for every scene the path integrator with a non-negative `max_depth` ends after at most `max_depth + 1` vertices. -/
theorem C52_path (W : PathWorld K E) (maxDepth : ℕ) (e : E) :
    ∃ L k e', path W maxDepth (maxDepth + 1) e 0 0 = some (L, k, e') ∧ k ≤ maxDepth + 1 := by
  suffices h : ∀ (n cnt : ℕ) (e : E) (L : K), cnt + n = maxDepth + 1 → 0 < n →
      ∃ L' k e', path W maxDepth n e cnt L = some (L', k, e') ∧ k ≤ maxDepth + 1 from h _ 0 e 0 (by omega) (by omega)
  intro n
  induction n with
  | zero => intro cnt e L _ h; omega
  | succ n ih =>
    intro cnt e L hc _
    simp only [path]
    generalize (if 3 < cnt then W.roulette (W.vertex e cnt).2 cnt else (true, (W.vertex e cnt).2)) = q
    split
    · exact ⟨_, _, _, rfl, by omega⟩
    split
    · exact ⟨_, _, _, rfl, by omega⟩
    split
    · exact ⟨_, _, _, rfl, by omega⟩
    split
    · exact ⟨_, _, _, rfl, by omega⟩
    · rename_i hne _
      have : cnt ≠ maxDepth := by exact_mod_cast hne
      exact ih (cnt + 1) _ _ (by omega) (by omega)

/-- **C52** (why the bound matters) with a negative `max_depth` the path integrator never ends in a closed scene in which the roulette always
goes on. -/
theorem C52_path_unbounded (maxDepth : ℤ) (hm : maxDepth < 0) (n cnt : ℕ) (L : K) :
    path (⟨fun e _ => ((0, true), e), fun e _ => (true, e), fun e _ => ((0, true), e)⟩ : PathWorld K Unit) maxDepth n () cnt L = none := by
  induction n generalizing cnt L with
  | zero => rfl
  | succ n ih =>
    have : (cnt : ℤ) ≠ maxDepth := by omega
    simp only [path, ite_self, Bool.true_eq_false, if_false, this]
    exact ih _ _

/-! ### What the recursion adds up to (C70) -/

/-- a scene without hidden state -/
abbrev Pure (K D : Type*) := Scene K Unit D

/-- the value of `renderer.li`'s first output for a scene without hidden state -/
def value (S : Pure K D) (maxDepth depth : ℤ) (d : D) : K :=
  match li S maxDepth (levels maxDepth depth) () depth d with
  | some ((L, _), _, _) => L
  | none => 0

theorem li_value (S : Pure K D) (maxDepth : ℤ) (n : ℕ) (depth : ℤ) (d : D) (hn : levels maxDepth depth ≤ n) :
    ∃ log, li S maxDepth n () depth d = some ((value S maxDepth depth d, 0), log, ()) := by
  obtain ⟨⟨⟨L, T⟩, log, e'⟩, h⟩ := Option.isSome_iff_exists.1 (C52_terminates S maxDepth (levels maxDepth depth) () depth d le_rfl)
  have hT : T = 0 := by
    rw [levels] at h
    simp only [li] at h
    split at h
    · cases h; rfl
    · split at h
      · split at h
        · cases h
        · split at h
          · cases h
          · cases h; rfl
      · cases h; rfl
  have h' := C52_fuel_irrelevant S maxDepth _ n hn () depth d _ h
  refine ⟨log, ?_⟩
  rw [h', value, h, hT]

/-- contribution of one bounce as the rendering equation has it: factor times the radiance along the child ray -/
def contrib (o : Option (K × D)) (L : D → K) : K := match o with
  | none => 0
  | some (c, d) => c * L d

/-- **C70 (part)** what the direct lighting and Whitted integrators compute: background for a miss, otherwise the local light, plus (below the depth
limit) the factor times the radiance along the mirror ray.  Missing: the transmitted ray, `C70_transmission_lost_false`. -/
theorem C70_value_partial (S : Pure K D) (maxDepth depth : ℤ) (d : D) :
    value S maxDepth depth d =
      if (S.intersect () d).1 = false then S.background () d
      else (S.loc () d).1 + if depth + 1 < maxDepth then contrib (S.reflect () d).1 (value S maxDepth (depth + 1)) else 0 := by
  have key : ∀ (n : ℕ) (o : Option (K × D) × Unit), levels maxDepth (depth + 1) ≤ n →
      (∃ log, bounce Prod.fst (fun e d => li S maxDepth n e (depth + 1) d) o = some (contrib o.1 (value S maxDepth (depth + 1)), log, ())) ∧
      (∃ log, bounce Prod.snd (fun e d => li S maxDepth n e (depth + 1) d) o = some (0, log, ())) := by
    intro n o hn
    obtain ⟨_ | ⟨c, d⟩, e⟩ := o
    · exact ⟨⟨[], rfl⟩, ⟨[], rfl⟩⟩
    · obtain ⟨log, hl⟩ := li_value S maxDepth n (depth + 1) d hn
      refine ⟨⟨log, ?_⟩, ⟨log, ?_⟩⟩
      · simp only [bounce, hl, contrib]
      · simp only [bounce, hl, mul_zero]
  rcases hi : S.intersect () d with ⟨_ | _, e1⟩
  · rw [value, levels]
    simp [li, hi]
  · rw [value, levels]
    simp only [li, hi, Bool.true_eq_false, if_false]
    split_ifs with hd
    · have hn : levels maxDepth (depth + 1) ≤ (maxDepth - depth).toNat := by unfold levels; omega
      obtain ⟨log1, h1⟩ := (key (maxDepth - depth).toNat (S.reflect (S.loc () d).2 d) hn).1
      obtain ⟨log2, h2⟩ := (key (maxDepth - depth).toNat (S.transmit () d) hn).2
      simp only [h1, h2, add_zero]
    · simp

/-- **C70 is false of the code**: the transmitted ray contributes nothing.  `specular_transmit` takes the second output of
`renderer.li`, which is zero without a volume integrator, so removing every refraction from the scene changes no value. -/
theorem C70_transmission_lost_false (S : Pure K D) (maxDepth depth : ℤ) (d : D) :
    value S maxDepth depth d = value ⟨S.intersect, S.loc, S.reflect, fun _ _ => (none, ()), S.background⟩ maxDepth depth d := by
  suffices h : ∀ (n : ℕ) (depth : ℤ) (d : D), levels maxDepth depth ≤ n →
      value S maxDepth depth d = value ⟨S.intersect, S.loc, S.reflect, fun _ _ => (none, ()), S.background⟩ maxDepth depth d from
    h _ depth d le_rfl
  intro n
  induction n with
  | zero => intro depth d h; simp [levels] at h
  | succ n ih =>
    intro depth d hn
    rw [C70_value_partial, C70_value_partial]
    split_ifs with h1 h2
    · rfl
    · have hl : levels maxDepth (depth + 1) ≤ n := by rw [levels_succ h2] at hn; omega
      have : value S maxDepth (depth + 1) =
          value ⟨S.intersect, S.loc, S.reflect, fun _ _ => (none, ()), S.background⟩ maxDepth (depth + 1) := by
        funext d; exact ih _ _ hl
      rw [this]
    · rfl

end

/-! ### A concrete scene -/

/-- two parallel mirrors (0 and 1) facing each other, each emitting 1 and reflecting half; a window (2) before an emitter (3) of light 5 -/
def hall : Pure ℚ ℕ where
  intersect _ _ := (true, ())
  loc _ d := (if d = 3 then 5 else if d = 2 then 0 else 1, ())
  reflect _ d := (if d = 0 then some (1 / 2, 1) else if d = 1 then some (1 / 2, 0) else none, ())
  transmit _ d := (if d = 2 then some (1, 3) else none, ())
  background _ _ := 0

/-- the hall of mirrors with depth limit 3 shows three emissions: 1 + 1/2 + 1/4 -/
example : value hall 3 0 0 = 7 / 4 := by decide +kernel
/-- the depths of the rays evaluated -/
example : (li hall 3 4 () 0 0).map (·.2.1) = some [0, 1, 2] := by decide +kernel
/-- the emitter behind the window is not seen, although its light is 5 -/
example : value hall 3 0 2 = 0 ∧ contrib (hall.transmit () 2).1 (value hall 3 1) = 5 := by decide +kernel

end Verif.Render.Rec
