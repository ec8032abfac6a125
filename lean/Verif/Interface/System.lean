import Verif.Interface.Api
import Mathlib.Data.Rat.Defs
import Mathlib.Data.List.Basic

/-!
# Starting and stopping the system, and the rendering options (C162)

Models `pytracer/interface/api.py` 20-54, 135-198, 203-207 and 247-250, `pytracer/interface/option.py` 16-52 over the module state of `pytracer/interface/__init__.py` 17-34,
with the scene description calls of `Verif.Interface.Api`.

Simplifications: as there, the import of `api.py` is taken as succeeding.  The decorator `check_system_inited` (50-54) looks at `API_STATUS` once, when
a function is defined, and returns the function itself; so no call checks anything and the model has no check.  `str.lower` is an arbitrary function, a `Param` an
element of an arbitrary type, `Spectrum.init()` (line 35) fills the colour tables and is left out (C106).  An exception leaves the module state as it was at that point.
-/
set_option linter.unusedSectionVars false
namespace Verif.System
open Verif.Api

variable {T P O : Type*}

/-- `API_UNINIT`, `API_OPTIONS`, `API_WORLD` (`interface/__init__.py` 18-20) -/
inductive Status | uninit | options | world
  deriving DecidableEq

/-- what a name and parameters can be chosen for (`option.py` 32-47) -/
inductive Slot | filter | film | sampler | aggregator | renderer | surface | volume | camera
  deriving DecidableEq

/-- `RenderOption` (`option.py` 27-52) -/
structure Render (T P : Type*) where
  start : ℚ
  stop : ℚ
  name : Slot → String
  param : Slot → Option P
  cam2wld : List (Option T)

/-- the names set by `RenderOption.__init__` (`option.py` 32-46) -/
def defaultName : Slot → String
  | .filter => "box"
  | .film => "image"
  | .sampler => "stratified"
  | .aggregator => "simple"
  | .renderer => "sampler"
  | .surface => "directlighting"
  | .volume => ""
  | .camera => "perspective"

/-- `RenderOption.__init__` (`option.py` 29-52) -/
def Render.fresh [One T] : Render T P := ⟨0, 1, defaultName, fun _ => none, [some 1, some 1]⟩

/-- the module state (`interface/__init__.py` 16-34); `GraphicsState` objects (`api.py` 247-250) are told apart by a number, `none` is `None` -/
structure Sys (T P O : Type*) where
  status : Status
  glob : Option O
  render : Option (Render T P)
  graphics : ℕ
  st : St T (Option ℕ)

/-- the state after import (`interface/__init__.py` 16-34) -/
def start : Sys T P O := ⟨.uninit, none, none, 0, Api.init none⟩

/-- the calls -/
inductive Call (T P O : Type*)
  /-- `system_init`, `api.py` 20-35 -/
  | init (o : O)
  /-- `system_clean`, `api.py` 38-47 -/
  | clean
  /-- `set_transformation_time`, `api.py` 136-139 -/
  | time (a b : ℚ)
  /-- `set_pixel_filter`, `set_film`, `set_sampler`, `set_aggregator`, `set_renderer`, `set_surface`, `set_volume` (`api.py` 143-154, 166-198) and
  `set_camera` (158-163) -/
  | choose (s : Slot) (n : String) (p : P)
  /-- any call of `Verif.Interface.Api` except `set_camera` -/
  | scene (c : Cmd T) (h : c ≠ .camera)

/-- `RENDER_OPTION.<slot>_name = name.lower()` and `RENDER_OPTION.<slot>_param = param` (`api.py` 146-147 and the like) -/
def Render.put (lower : String → String) (r : Render T P) (s : Slot) (n : String) (p : P) : Render T P :=
  { r with name := Function.update r.name s (lower n), param := Function.update r.param s (some p) }

section
variable [Mul T] [One T] [Inv T]

/-- one call: its exception, if any, and the state after it -/
def step (lower : String → String) (s : Sys T P O) : Call T P O → Option Err × Sys T P O
  | .init o =>
    if s.status ≠ .uninit then (some .runtimeError, s)
    else (none, { status := .options, glob := some o, render := some .fresh, graphics := s.graphics + 1, st := { s.st with gs := some s.graphics } })
  | .clean => if s.status = .uninit then (none, s) else (none, { s with status := .uninit, glob := none, render := none })
  | .time a b => match s.render with
    | none => (some .attributeError, s)
    | some r => (none, { s with render := some { r with start := a, stop := b } })
  | .choose k n p => match s.render with
    | none => (some .attributeError, s)
    | some r =>
      let r := r.put lower k n p
      if k = .camera then
        match Api.step s.st .camera with
        | .error e => (some e, { s with render := some r })
        | .ok st => (none, { s with render := some { r with cam2wld := st.heap s.st.next }, st := st })
      else (none, { s with render := some r })
  | .scene c _ =>
    let s := if c matches .worldBegin then { s with status := .world } else s
    match Api.step s.st c with
    | .error e => (some e, s)
    | .ok st => (none, { s with st := st })

/-- a history; exceptions are caught by the caller, who goes on -/
def run (lower : String → String) : Sys T P O → List (Call T P O) → Sys T P O
  | s, [] => s
  | s, c :: r => run lower (step lower s c).2 r

end

/-! ### Specification -/

/-- the call is a choice for `k` -/
def Call.chosen (k : Slot) : Call T P O → Option (String × P)
  | .choose k' n p => if k' = k then some (n, p) else none
  | _ => none

/-- the call sets the times -/
def Call.times : Call T P O → Option (ℚ × ℚ)
  | .time a b => some (a, b)
  | _ => none

/-- the call is `system_clean` -/
def Call.isClean : Call T P O → Bool
  | .clean => true
  | _ => false

/-- specification: the default for everything the user has not chosen -/
def manual (k : Slot) : String :=
  match k with
  | .film => "image"
  | .filter => "box"
  | .camera => "perspective"
  | .sampler => "stratified"
  | .aggregator => "simple"
  | .renderer => "sampler"
  | .surface => "directlighting"
  | .volume => ""

theorem manual_eq : defaultName = manual := by funext k; cases k <;> rfl

/-- the name expected after the choices `l` (in order): the last one, in lower case, or the default -/
def expectName (lower : String → String) (k : Slot) (l : List (String × P)) : String :=
  match l.getLast? with
  | none => manual k
  | some c => lower c.1

/-! ### Lemmas -/

section
variable [Mul T] [One T] [Inv T]

theorem run_append (lower : String → String) (s : Sys T P O) (a b : List (Call T P O)) : run lower s (a ++ b) = run lower (run lower s a) b := by
  induction a generalizing s with
  | nil => rfl
  | cons c a ih => simp only [List.cons_append, run]; exact ih _

/-- what a call that is not `system_clean` does to the options of a started system -/
theorem step_started (lower : String → String) (s : Sys T P O) (r : Render T P) (hs : s.status ≠ .uninit) (hr : s.render = some r) (c : Call T P O) (hc : c.isClean = false) :
    ∃ r', (step lower s c).2.render = some r' ∧ (step lower s c).2.status ≠ .uninit ∧ (step lower s c).2.glob = s.glob ∧
      (∀ k, r'.name k = (match c.chosen k with | none => r.name k | some x => lower x.1)) ∧
      (∀ k, r'.param k = (match c.chosen k with | none => r.param k | some x => some x.2)) ∧
      (r'.start, r'.stop) = (match c.times with | none => (r.start, r.stop) | some x => x) := by
  cases c with
  | init o =>
    have e : step lower s (.init o) = (some .runtimeError, s) := by simp [step, hs]
    rw [e]
    exact ⟨r, hr, hs, rfl, fun k => rfl, fun k => rfl, rfl⟩
  | clean => simp [Call.isClean] at hc
  | time a b =>
    have e : step lower s (.time a b) = (none, { s with render := some { r with start := a, stop := b } }) := by simp [step, hr]
    rw [e]
    exact ⟨_, rfl, hs, rfl, fun k => rfl, fun k => rfl, rfl⟩
  | choose k n p =>
    have put_name : ∀ (cw : List (Option T)) k', ({ r.put lower k n p with cam2wld := cw } : Render T P).name k' =
        (match (Call.choose k n p : Call T P O).chosen k' with | none => r.name k' | some x => lower x.1) := by
      intro cw k'
      simp only [Render.put, Call.chosen, Function.update_apply]
      by_cases h : k' = k
      · simp [h]
      · rw [if_neg h, if_neg (fun e => h e.symm)]
    have put_param : ∀ (cw : List (Option T)) k', ({ r.put lower k n p with cam2wld := cw } : Render T P).param k' =
        (match (Call.choose k n p : Call T P O).chosen k' with | none => r.param k' | some x => some x.2) := by
      intro cw k'
      simp only [Render.put, Call.chosen, Function.update_apply]
      by_cases h : k' = k
      · simp [h]
      · rw [if_neg h, if_neg (fun e => h e.symm)]
    by_cases hk : k = .camera
    · cases he : Api.step s.st .camera with
      | error e =>
        have e : step lower s (.choose k n p) = (some e, { s with render := some (r.put lower k n p) }) := by simp [step, hr, hk, he]
        rw [e]
        exact ⟨_, rfl, hs, rfl, put_name r.cam2wld, put_param r.cam2wld, rfl⟩
      | ok st =>
        have e : step lower s (.choose k n p) = (none, { s with render := some { r.put lower k n p with cam2wld := st.heap s.st.next }, st := st }) := by
          simp [step, hr, hk, he]
        rw [e]
        exact ⟨_, rfl, hs, rfl, put_name _, put_param _, rfl⟩
    · have e : step lower s (.choose k n p) = (none, { s with render := some (r.put lower k n p) }) := by simp [step, hr, hk]
      rw [e]
      exact ⟨_, rfl, hs, rfl, put_name r.cam2wld, put_param r.cam2wld, rfl⟩
  | scene c h =>
    refine ⟨r, ?_, ?_, ?_, fun k => rfl, fun k => rfl, rfl⟩
    · simp only [step]
      cases Api.step _ c <;> (simp only []; split <;> exact hr)
    · simp only [step]
      cases Api.step _ c <;> (simp only []; split <;> first | exact hs | simp)
    · simp only [step]
      cases Api.step _ c <;> (simp only []; split <;> rfl)

theorem run_started (lower : String → String) (s : Sys T P O) (r : Render T P) (hs : s.status ≠ .uninit) (hr : s.render = some r) (cs : List (Call T P O))
    (hc : ∀ c ∈ cs, c.isClean = false) :
    ∃ r', (run lower s cs).render = some r' ∧ (run lower s cs).status ≠ .uninit ∧ (run lower s cs).glob = s.glob ∧
      (∀ k, r'.name k = (match (cs.filterMap (Call.chosen k)).getLast? with | none => r.name k | some x => lower x.1)) ∧
      (∀ k, r'.param k = (match (cs.filterMap (Call.chosen k)).getLast? with | none => r.param k | some x => some x.2)) ∧
      (r'.start, r'.stop) = (match (cs.filterMap Call.times).getLast? with | none => (r.start, r.stop) | some x => x) := by
  induction cs generalizing s r with
  | nil => exact ⟨r, hr, hs, rfl, fun k => rfl, fun k => rfl, rfl⟩
  | cons c cs ih =>
    obtain ⟨r1, a1, a2, a3, a4, a5, a6⟩ := step_started lower s r hs hr c (hc c (by simp))
    obtain ⟨r2, b1, b2, b3, b4, b5, b6⟩ := ih _ r1 a2 a1 (fun c' hc' => hc c' (by simp [hc']))
    refine ⟨r2, b1, b2, b3.trans a3, fun k => ?_, fun k => ?_, ?_⟩
    · rw [b4 k, a4 k, List.filterMap_cons]
      cases c.chosen k with
      | none => rfl
      | some x =>
        simp only [List.getLast?_cons]
        cases (cs.filterMap (Call.chosen k)).getLast? <;> rfl
    · rw [b5 k, a5 k, List.filterMap_cons]
      cases c.chosen k with
      | none => rfl
      | some x =>
        simp only [List.getLast?_cons]
        cases (cs.filterMap (Call.chosen k)).getLast? <;> rfl
    · rw [b6, a6, List.filterMap_cons]
      cases c.times with
      | none => rfl
      | some x =>
        simp only [List.getLast?_cons]
        cases (cs.filterMap Call.times).getLast? <;> rfl

/-! ### C162 -/

/-- **C162** Starting: a system that is not started takes the options given and default rendering options; one that is started refuses with `RuntimeError` and is left as
it was. -/
theorem C162_init (lower : String → String) (s : Sys T P O) (o : O) :
    (s.status = .uninit → (step lower s (.init o)).1 = none ∧ (step lower s (.init o)).2.status = .options ∧ (step lower s (.init o)).2.glob = some o ∧
      ∃ r, (step lower s (.init o)).2.render = some r ∧ r.start = 0 ∧ r.stop = 1 ∧ r.name = manual ∧ ∀ k, r.param k = none) ∧
    (s.status ≠ .uninit → step lower s (.init o) = (some .runtimeError, s)) := by
  constructor
  · intro h
    have e : step lower s (.init o) = (none, { status := .options, glob := some o, render := some .fresh, graphics := s.graphics + 1, st := { s.st with gs := some s.graphics } }) := by
      simp [step, h]
    rw [e]
    exact ⟨rfl, rfl, rfl, _, rfl, rfl, rfl, manual_eq, fun _ => rfl⟩
  · intro h
    simp [step, h]

/-- **C162** Stopping never fails, forgets the options, and the system can then be started; stopping twice is stopping once. -/
theorem C162_clean (lower : String → String) (s : Sys T P O) (o : O) :
    (step lower s .clean).1 = none ∧ (step lower s .clean).2.status = .uninit ∧
    (s.status ≠ .uninit → (step lower s .clean).2.glob = none ∧ (step lower s .clean).2.render = none) ∧
    step lower (step lower s .clean).2 .clean = (none, (step lower s .clean).2) ∧ (step lower (step lower s .clean).2 (.init o)).1 = none := by
  by_cases h : s.status = .uninit
  · have e : step lower s .clean = (none, s) := by simp [step, h]
    rw [e]
    exact ⟨rfl, h, fun hh => absurd h hh, by simp [step, h], by simp [step, h]⟩
  · have e : step lower s .clean = (none, { s with status := .uninit, glob := none, render := none }) := by simp [step, h]
    rw [e]
    exact ⟨rfl, rfl, fun _ => ⟨rfl, rfl⟩, by simp [step], by simp [step]⟩

/-- **C162** From a start on, whatever is called (but `system_clean`), in whatever order and with whatever exceptions: the options given stay, and for each of the eight choices
the name and the parameters are those of the last call about it, the defaults without one; likewise the times. -/
theorem C162_options (lower : String → String) (s : Sys T P O) (o : O) (hs : s.status = .uninit) (cs : List (Call T P O)) (hc : ∀ c ∈ cs, c.isClean = false) :
    ∃ r, (run lower s (.init o :: cs)).render = some r ∧ (run lower s (.init o :: cs)).glob = some o ∧ (run lower s (.init o :: cs)).status ≠ .uninit ∧
      (∀ k, r.name k = expectName lower k (cs.filterMap (Call.chosen k))) ∧ (∀ k, r.param k = ((cs.filterMap (Call.chosen k)).getLast?).map (·.2)) ∧
      (r.start, r.stop) = ((cs.filterMap Call.times).getLast?).getD (0, 1) := by
  have e : step lower s (.init o) = (none, { status := .options, glob := some o, render := some .fresh, graphics := s.graphics + 1, st := { s.st with gs := some s.graphics } }) := by
    simp [step, hs]
  simp only [run, e]
  obtain ⟨r, b1, b2, b3, b4, b5, b6⟩ := run_started lower
    ({ status := .options, glob := some o, render := some .fresh, graphics := s.graphics + 1, st := { s.st with gs := some s.graphics } } : Sys T P O) .fresh (by simp) rfl cs hc
  refine ⟨r, b1, b3, b2, fun k => ?_, fun k => ?_, ?_⟩
  · rw [b4 k, expectName, ← manual_eq]; cases (cs.filterMap (Call.chosen k)).getLast? <;> rfl
  · rw [b5 k]; cases (cs.filterMap (Call.chosen k)).getLast? <;> rfl
  · rw [b6]; cases (cs.filterMap Call.times).getLast? <;> rfl

end

/-- **C162 is violated**: stopping and starting again does not give a fresh system: transforms and coordinate systems of the previous use are still there. -/
theorem C162_fresh_false : ¬ ∀ (lower : String → String) (h : List (Call (Multiplicative ℤ) Unit Unit)),
    (run lower start (h ++ [.clean, .init ()])).st.now = (run lower (start : Sys (Multiplicative ℤ) Unit Unit) [.init ()]).st.now ∧
    ∀ n, ((run lower start (h ++ [.clean, .init ()])).st.cs n).isSome = ((run lower (start : Sys (Multiplicative ℤ) Unit Unit) [.init ()]).st.cs n).isSome := by
  intro H
  have := (H id [.init (), .scene .ident (by simp), .scene (.addCS "a") (by simp)]).2 "a"
  exact absurd this (by decide)

/-- **C162 is violated**: calls made while the system is not started are not refused: transforms can be changed, the rendering options raise `AttributeError` in place of `RuntimeError`,
and after `world_begin` the system can no longer be started (although it never was). -/
theorem C162_guard_false (lower : String → String) (n : String) :
    (step lower (start : Sys (Multiplicative ℤ) Unit Unit) (.scene .ident (by simp))).1 = none ∧
    (∀ k, (step lower (start : Sys (Multiplicative ℤ) Unit Unit) (.choose k n ())).1 = some .attributeError) ∧
    (step lower (step lower (start : Sys (Multiplicative ℤ) Unit Unit) (.scene .worldBegin (by simp))).2 (.init ())).1 = some .runtimeError :=
  ⟨rfl, fun _ => rfl, rfl⟩

/-- a concrete case: two films and a camera, one exception on the way (`set_camera` before any transform) -/
example : (∀ c ∈ ([.choose .film "A" 1, .choose .camera "B" 2, .choose .film "C" 3] : List (Call (Multiplicative ℤ) ℕ Unit)), c.isClean = false) ∧
    (step id (run id start [.init ()] : Sys (Multiplicative ℤ) ℕ Unit) (.choose .camera "B" 2)).1 = some .attributeError ∧
    expectName id .film [("A", 1), ("C", 3)] = "C" := by
  refine ⟨by simp [Call.isClean], rfl, rfl⟩

end Verif.System
