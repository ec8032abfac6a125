import Verif.Render.Full
import Mathlib.Algebra.BigOperators.Ring.List

/-!
# Light adds up in the picture (C167)

About a whole rendering (`renderer/renderer.py:84-111, 132-198`, `film/film.py:137-260`), modelled in `Render/Full.lean`: how the picture depends on the radiance of the scene.
-/
set_option linter.unusedSectionVars false

namespace Verif.Full
open Verif.Sampler Verif.Render
open Verif.Film (Vec Film Ev Upd)

variable {K : Type*} [Field K] [LinearOrder K] [IsStrictOrderedRing K] [FloorRing K] {E : Type*}

/-! ### Specification -/

/-- the same camera, the same things in view and the same use of random numbers: only the radiance may differ -/
def SameView (W W' : World K Unit E (Sample K)) : Prop := W'.camera = W.camera ∧ W'.hit = W.hit ∧ ∀ e s, (W'.li e s).2 = (W.li e s).2

/-- the integrators answer the radiance `c`, finite and not negative -/
def Gives (W : World K Unit E (Sample K)) (c : E → Sample K → Vec K) : Prop := ∀ e s, (W.li e s).1 = (fun i => .fin (c e s i)) ∧ ∀ i, 0 ≤ c e s i

/-- what a camera sample sees: weight times radiance where the camera ray meets something and has weight, nothing elsewhere -/
def seen (W : World K Unit E (Sample K)) (c : E → Sample K → Vec K) (p : E × Sample K) : Vec K :=
  let a := W.camera p.1 p.2
  let b := W.hit a.2 p.2
  if b.1 = true ∧ 0 < a.1 then fun i => a.1 * c b.2 p.2 i else fun _ => 0

/-! ### Lemmas -/

theorem seen_nonneg (W : World K Unit E (Sample K)) (c : E → Sample K → Vec K) (hc : ∀ e s i, 0 ≤ c e s i) (p : E × Sample K) (i : Fin 3) : 0 ≤ seen W c p i := by
  simp only [seen]
  split_ifs with h
  · exact mul_nonneg h.2.le (hc _ _ i)
  · exact le_rfl

theorem sanitise_nonneg (v : Vec K) (hv : ∀ i, 0 ≤ v i) : sanitise (fun i => F.fin (v i)) = fun i => .fin (v i) := by
  refine (sanitised (fun i => F.fin (v i))).2.1 ⟨by simp, by simp [y, F.smul, F.add], by simp [y, F.smul, F.add], ?_⟩
  intro x hx
  simp only [y, F.smul, F.add, F.fin.injEq] at hx
  rw [← hx]
  have h0 := hv 0
  have h1 := hv 1
  have h2 := hv 2
  have : (0 : K) ≤ 212671 / 1000000 * v 0 + 715160 / 1000000 * v 1 + 72169 / 1000000 * v 2 := by positivity
  have e : (0 : K) ≤ 1 / 100000 := by positivity
  linarith

theorem radiance_seen (W W' : World K Unit E (Sample K)) (hs : SameView W W') (c : E → Sample K → Vec K) (hc : Gives W' c) (e : E) (s : Sample K) :
    (radiance W' false e s).1 = (fun i => .fin (seen W c (e, s) i)) ∧ (radiance W' false e s).2 = (radiance W false e s).2 := by
  obtain ⟨h1, h2, h3⟩ := hs
  simp only [radiance, Bool.false_eq_true, if_false, h1, h2, seen]
  split_ifs with h
  · refine ⟨?_, h3 _ _⟩
    funext i
    simp only [scaleBy, (hc _ _).1, F.smul]
  · exact ⟨rfl, rfl⟩

theorem batch_trace (W : World K Unit E (Sample K)) (l : List (Sample K)) : ∀ e : E, ∃ (tr : List (E × Sample K)) (e2 : E), tr.map Prod.snd = l ∧
    ∀ W' c, SameView W W' → Gives W' c → batch W' false e l = (tr.map fun p => (p.2, (fun i => .fin (seen W c p i)), fun i => .fin (seen W c p i)), e2) := by
  induction l with
  | nil => intro e; exact ⟨[], e, rfl, fun _ _ _ _ => rfl⟩
  | cons s l ih =>
    intro e
    obtain ⟨tr, e2, h1, h2⟩ := ih (radiance W false e s).2
    refine ⟨(e, s) :: tr, e2, by simp [h1], fun W' c hs hc => ?_⟩
    obtain ⟨r1, r2⟩ := radiance_seen W W' hs c hc e s
    have hn := seen_nonneg W c (fun e s => (hc e s).2) (e, s)
    simp only [batch, r2, h2 W' c hs hc, r1, sanitise_nonneg _ hn, List.map_cons]

theorem addAll_trace (g : E × Sample K → Vec K) (tr : List (E × Sample K)) : ∀ f : Film K, ∃ f', addAll f (tr.map fun p => (p.2, fun i => .fin (g p i))) = some (f', tr.map fun p => (p.2, g p)) := by
  induction tr with
  | nil => intro f; exact ⟨f, rfl⟩
  | cons p tr ih =>
    intro f
    obtain ⟨f1, a1, -, -⟩ := Film.addSample_spec f p.2.imageX p.2.imageY (g p)
    obtain ⟨f2, h2⟩ := ih f1
    exact ⟨f2, by simp only [List.map_cons, addAll, toVec_fin, a1, h2]⟩

theorem taskLoop_trace (W : World K Unit E (Sample K)) (r : Rand K) : ∀ (n : ℕ) (buf : List (Sample K)) (sp : Strat K) (st : RS) (e : E),
    (∀ W' c f, SameView W W' → Gives W' c → taskLoop W' r false n buf ⟨sp, st, e, f⟩ = none) ∨
    ∃ tr : List (E × Sample K), ∀ W' c f, SameView W W' → Gives W' c → ∃ s1, taskLoop W' r false n buf ⟨sp, st, e, f⟩ = some (s1, tr.map fun p => (p.2, seen W c p)) := by
  intro n
  induction n with
  | zero => intro buf sp st e; exact Or.inl fun _ _ _ _ _ => rfl
  | succ n ih =>
    intro buf sp st e
    cases hg : sp.generate r buf st with
    | stop => exact Or.inr ⟨[], fun W' c f _ _ => ⟨⟨sp, st, e, f⟩, by simp only [taskLoop, hg, List.map_nil]⟩⟩
    | fail => exact Or.inl fun W' c f _ _ => by simp only [taskLoop, hg]
    | batch out sp1 st1 =>
      obtain ⟨tr, e2, -, hb⟩ := batch_trace W out e
      rcases ih out sp1 st1 e2 with h | ⟨tr2, h⟩
      · left
        intro W' c f hs hc
        obtain ⟨f', ha⟩ := addAll_trace (seen W c) tr f
        simp only [taskLoop, hg, hb W' c hs hc, List.map_map, Function.comp_def, ha, h W' c f' hs hc]
      · right
        refine ⟨tr ++ tr2, fun W' c f hs hc => ?_⟩
        obtain ⟨f', ha⟩ := addAll_trace (seen W c) tr f
        obtain ⟨s1, h1⟩ := h W' c f' hs hc
        exact ⟨s1, by simp only [taskLoop, hg, hb W' c hs hc, List.map_map, Function.comp_def, ha, h1, List.map_append]⟩

theorem Gives.finite {W : World K Unit E (Sample K)} {c : E → Sample K → Vec K} (h : Gives W c) : FiniteLi W := fun e s => ⟨c e s, (h e s).1⟩

open Classical in
theorem hits_trace (f : Film K) (i j : ℕ) (g : E × Sample K → Vec K) (tr : List (E × Sample K)) :
    Film.hits f i j (events (tr.map fun p => (p.2, g p))) =
      (tr.filter fun p => Film.Under f p.2.imageX p.2.imageY i j).map fun p => (Film.specWeight f.filt (Film.off f.xStart i p.2.imageX) (Film.off f.yStart j p.2.imageY), g p) := by
  induction tr with
  | nil => rfl
  | cons p tr ih =>
    simp only [events, List.map_cons, List.map_map, Film.hits] at ih ⊢
    by_cases h : Film.Under f p.2.imageX p.2.imageY i j
    · rw [if_pos h, List.filter_cons_of_pos (by simpa using h), List.map_cons, ih]
    · rw [if_neg h, List.filter_cons_of_neg (by simpa using h), ih]

/-- the weights and what they multiply, at pixel `(i, j)`: one list for all worlds with the same view -/
theorem picture_trace (f0 : Film K) (hf : Film.Made f0) (hb : ∀ i j, f0.pix i j = ⟨0, 0, 0⟩) (hflt : ∀ x y, 0 ≤ f0.filt.eval x y) (tr : List (E × Sample K)) (i j : ℕ) (hi : i < f0.xCnt) (hj : j < f0.yCnt) :
    ∃ l : List (K × (E × Sample K)), (∀ q ∈ l, 0 ≤ q.1) ∧
      (∀ p ∈ tr, Film.Under f0 p.2.imageX p.2.imageY i j → (Film.specWeight f0.filt (Film.off f0.xStart i p.2.imageX) (Film.off f0.yStart j p.2.imageY), p) ∈ l) ∧ (∀ q ∈ l, q.2 ∈ tr) ∧
      ∀ (g : E × Sample K → Vec K) (f : Film K), Film.run f0 (events (tr.map fun p => (p.2, g p))) = some f → ∀ k,
        picture f j i k = if (l.map Prod.fst).sum = 0 then 0 else max 0 ((l.map fun q => q.1 * Film.rt (g q.2) k).sum / (l.map Prod.fst).sum) := by
  classical
  refine ⟨(tr.filter fun p => Film.Under f0 p.2.imageX p.2.imageY i j).map fun p => (Film.specWeight f0.filt (Film.off f0.xStart i p.2.imageX) (Film.off f0.yStart j p.2.imageY), p), ?_, ?_, ?_, ?_⟩
  · intro q hq
    obtain ⟨p, -, rfl⟩ := List.mem_map.1 hq
    exact hflt _ _
  · intro p hp hu
    exact List.mem_map.2 ⟨p, List.mem_filter.2 ⟨hp, by simpa using hu⟩, rfl⟩
  · intro q hq
    obtain ⟨p, hp, rfl⟩ := List.mem_map.1 hq
    exact (List.mem_filter.1 hp).1
  · intro g f hrun k
    have hh := hits_trace f0 i j g tr
    obtain ⟨h1, h2⟩ := C157_picture f0 f hf hb _ hrun i j hi hj k
    have hn : ∀ p ∈ Film.hits f0 i j (events (tr.map fun p => (p.2, g p))), 0 ≤ p.1 := by
      rw [hh]
      intro p hp
      obtain ⟨q, -, rfl⟩ := List.mem_map.1 hp
      exact hflt _ _
    have ew : (Film.hits f0 i j (events (tr.map fun p => (p.2, g p)))).map Prod.fst =
        ((tr.filter fun p => Film.Under f0 p.2.imageX p.2.imageY i j).map fun p => (Film.specWeight f0.filt (Film.off f0.xStart i p.2.imageX) (Film.off f0.yStart j p.2.imageY), p)).map Prod.fst := by
      rw [hh, List.map_map, List.map_map]; rfl
    have ev : (Film.hits f0 i j (events (tr.map fun p => (p.2, g p)))).map (fun p => p.1 * Film.rt p.2 k) =
        ((tr.filter fun p => Film.Under f0 p.2.imageX p.2.imageY i j).map fun p => (Film.specWeight f0.filt (Film.off f0.xStart i p.2.imageX) (Film.off f0.yStart j p.2.imageY), p)).map
          (fun q => q.1 * Film.rt (g q.2) k) := by
      rw [hh, List.map_map, List.map_map]; rfl
    rw [← ew, ← ev]
    split_ifs with h0
    · exact h2 (Film.zero_weights _ hn h0)
    · exact h1 h0

theorem rt_add (a b : Vec K) (k : Fin 3) : Film.rt (fun i => a i + b i) k = Film.rt a k + Film.rt b k := by
  fin_cases k <;> simp [Film.rt, Film.xyz2rgb, Film.rgb2xyz] <;> ring

theorem rt_smul (s : K) (a : Vec K) (k : Fin 3) : Film.rt (fun i => s * a i) k = s * Film.rt a k := by
  fin_cases k <;> simp [Film.rt, Film.xyz2rgb, Film.rgb2xyz] <;> ring

theorem seen_add (W : World K Unit E (Sample K)) (c1 c2 : E → Sample K → Vec K) (p : E × Sample K) : seen W (fun e s i => c1 e s i + c2 e s i) p = fun i => seen W c1 p i + seen W c2 p i := by
  simp only [seen]
  split_ifs
  · funext i; ring
  · funext i; simp

theorem seen_smul (W : World K Unit E (Sample K)) (t : K) (c : E → Sample K → Vec K) (p : E × Sample K) : seen W (fun e s i => t * c e s i) p = fun i => t * seen W c p i := by
  simp only [seen]
  split_ifs
  · funext i; ring
  · funext i; simp

section
variable (r : Rand K) (hr : UnitDraws r) (hs : Shuffles r) (x0 y0 : ℤ) (w h : ℕ) (hw : 0 < w) (xst yst : ℕ) (jitter : Bool) (sOpen sClose : K) (n1 n2 : List ℕ) (st : RS) (e : E) (f0 : Film K)

/-- the start of a rendering over the window `[x0, x0+w) × [y0, y0+h)` with a new film -/
def start : State K E := ⟨Strat.mk' (x0 : K) (x0 + w : ℤ) (y0 : K) (y0 + h : ℤ) xst yst jitter sOpen sClose, st, e, f0⟩

include hr hs hw in
/-- all worlds with the same view take the same samples -/
theorem render_trace (W : World K Unit E (Sample K)) (c0 : E → Sample K → Vec K) (h0 : Gives W c0) :
    ∃ tr : List (E × Sample K), ∀ W' c, SameView W W' → Gives W' c →
      ∃ s1, render W' r n1 n2 (w * h + 1) (start x0 y0 w h xst yst jitter sOpen sClose st e f0) = some (s1, tr.map fun p => (p.2, seen W c p)) ∧
        Film.run f0 (events (tr.map fun p => (p.2, seen W c p))) = some s1.film := by
  rcases taskLoop_trace W r (w * h + 1) (List.replicate ((start x0 y0 w h xst yst jitter sOpen sClose st e f0).samp.xSamples * (start x0 y0 w h xst yst jitter sOpen sClose st e f0).samp.ySamples) (blank n1 n2))
    (start x0 y0 w h xst yst jitter sOpen sClose st e f0).samp st e with hn | ⟨tr, ht⟩
  · obtain ⟨s1, log, e1, -⟩ := C157_render r hr hs x0 y0 w h hw xst yst jitter sOpen sClose W h0.finite n1 n2 st e f0
    have := hn W c0 f0 ⟨rfl, rfl, fun _ _ => rfl⟩ h0
    simp only [render, task] at e1
    simp only [start] at this
    rw [this] at e1
    cases e1
  · refine ⟨tr, fun W' c hv hc => ?_⟩
    obtain ⟨s1, h1⟩ := ht W' c f0 hv hc
    have h1' : render W' r n1 n2 (w * h + 1) (start x0 y0 w h xst yst jitter sOpen sClose st e f0) = some (s1, tr.map fun p => (p.2, seen W c p)) := h1
    refine ⟨s1, h1', ?_⟩
    obtain ⟨s1', log, e1, -, -, -, -, e3⟩ := C157_render r hr hs x0 y0 w h hw xst yst jitter sOpen sClose W' hc.finite n1 n2 st e f0
    have := h1'.symm.trans e1
    obtain ⟨rfl, rfl⟩ := Prod.mk.inj (Option.some.inj this)
    exact e3

/-! ### Theorems -/

include hr hs hw in
/-- **C167** light adds up: render a scene whose radiance is the sum of the radiances of two others (say, lit by some lamps, by the others and by all of them), with the same view, the same samples
and a filter without negative values.  The picture is nowhere brighter than the two pictures together, and is exactly their sum wherever both are not black. -/
theorem C167_superposition (W W1 W2 : World K Unit E (Sample K)) (c1 c2 : E → Sample K → Vec K) (v1 : SameView W W1) (v2 : SameView W W2) (g1 : Gives W1 c1) (g2 : Gives W2 c2)
    (g : Gives W fun e s i => c1 e s i + c2 e s i) (hf : Film.Made f0) (hb : ∀ i j, f0.pix i j = ⟨0, 0, 0⟩) (hflt : ∀ x y, 0 ≤ f0.filt.eval x y) :
    ∃ s s1 s2 log log1 log2,
      render W r n1 n2 (w * h + 1) (start x0 y0 w h xst yst jitter sOpen sClose st e f0) = some (s, log) ∧
      render W1 r n1 n2 (w * h + 1) (start x0 y0 w h xst yst jitter sOpen sClose st e f0) = some (s1, log1) ∧
      render W2 r n1 n2 (w * h + 1) (start x0 y0 w h xst yst jitter sOpen sClose st e f0) = some (s2, log2) ∧
      ∀ i < f0.xCnt, ∀ j < f0.yCnt, ∀ k, picture s.film j i k ≤ picture s1.film j i k + picture s2.film j i k ∧
        (0 < picture s1.film j i k → 0 < picture s2.film j i k → picture s.film j i k = picture s1.film j i k + picture s2.film j i k) := by
  obtain ⟨tr, ht⟩ := render_trace r hr hs x0 y0 w h hw xst yst jitter sOpen sClose n1 n2 st e f0 W _ g
  obtain ⟨s, a, b⟩ := ht W _ ⟨rfl, rfl, fun _ _ => rfl⟩ g
  obtain ⟨s1, a1, b1⟩ := ht W1 _ v1 g1
  obtain ⟨s2, a2, b2⟩ := ht W2 _ v2 g2
  refine ⟨s, s1, s2, _, _, _, a, a1, a2, fun i hi j hj k => ?_⟩
  obtain ⟨l, hl, -, -, hp⟩ := picture_trace f0 hf hb hflt tr i j hi hj
  rw [hp _ _ b k, hp _ _ b1 k, hp _ _ b2 k]
  have e : (l.map fun q => q.1 * Film.rt (seen W (fun e s i => c1 e s i + c2 e s i) q.2) k).sum = (l.map fun q => q.1 * Film.rt (seen W c1 q.2) k).sum + (l.map fun q => q.1 * Film.rt (seen W c2 q.2) k).sum := by
    rw [← List.sum_map_add]
    congr 1
    apply List.map_congr_left
    intro q _
    rw [seen_add, rt_add]; ring
  rw [e]
  split_ifs with h0
  · exact ⟨by simp, fun h => absurd h (lt_irrefl _)⟩
  · rw [add_div]
    generalize (l.map fun q => q.1 * Film.rt (seen W c1 q.2) k).sum / (l.map Prod.fst).sum = a
    generalize (l.map fun q => q.1 * Film.rt (seen W c2 q.2) k).sum / (l.map Prod.fst).sum = b
    refine ⟨max_le (add_nonneg (le_max_left _ _) (le_max_left _ _)) (add_le_add (le_max_right _ _) (le_max_right _ _)), fun h1 h2 => ?_⟩
    have a0 : 0 < a := by rcases lt_max_iff.1 h1 with h | h; exact absurd h (lt_irrefl _); exact h
    have b0 : 0 < b := by rcases lt_max_iff.1 h2 with h | h; exact absurd h (lt_irrefl _); exact h
    rw [max_eq_right a0.le, max_eq_right b0.le, max_eq_right (by linarith)]

include hr hs hw in
/-- **C167** brightness scales: `t` times the radiance everywhere gives exactly `t` times the picture -/
theorem C167_scale (W W1 : World K Unit E (Sample K)) (c : E → Sample K → Vec K) (t : K) (ht0 : 0 ≤ t) (v1 : SameView W W1) (g : Gives W c) (g1 : Gives W1 fun e s i => t * c e s i)
    (hf : Film.Made f0) (hb : ∀ i j, f0.pix i j = ⟨0, 0, 0⟩) (hflt : ∀ x y, 0 ≤ f0.filt.eval x y) :
    ∃ s s1 log log1,
      render W r n1 n2 (w * h + 1) (start x0 y0 w h xst yst jitter sOpen sClose st e f0) = some (s, log) ∧
      render W1 r n1 n2 (w * h + 1) (start x0 y0 w h xst yst jitter sOpen sClose st e f0) = some (s1, log1) ∧
      ∀ i < f0.xCnt, ∀ j < f0.yCnt, ∀ k, picture s1.film j i k = t * picture s.film j i k := by
  obtain ⟨tr, ht⟩ := render_trace r hr hs x0 y0 w h hw xst yst jitter sOpen sClose n1 n2 st e f0 W _ g
  obtain ⟨s, a, b⟩ := ht W _ ⟨rfl, rfl, fun _ _ => rfl⟩ g
  obtain ⟨s1, a1, b1⟩ := ht W1 _ v1 g1
  refine ⟨s, s1, _, _, a, a1, fun i hi j hj k => ?_⟩
  obtain ⟨l, hl, -, -, hp⟩ := picture_trace f0 hf hb hflt tr i j hi hj
  rw [hp _ _ b k, hp _ _ b1 k]
  have e : (l.map fun q => q.1 * Film.rt (seen W (fun e s i => t * c e s i) q.2) k).sum = t * (l.map fun q => q.1 * Film.rt (seen W c q.2) k).sum := by
    rw [← List.sum_map_mul_left]
    congr 1
    apply List.map_congr_left
    intro q _
    rw [seen_smul, rt_smul]; ring
  rw [e]
  split_ifs with h0
  · simp
  · rw [mul_div_assoc, mul_max_of_nonneg _ _ ht0, mul_zero]

include hr hs hw in
/-- **C167** a scene that looks the same everywhere gives a picture of one colour: if every camera ray sees the colour `col`, then every pixel of the film inside the sampler's window has exactly the
same value, which differs from `col` by no more than a millionth of the sum of its channels (the conversion to XYZ and back).  The filter is at least as wide as a pixel and positive inside. -/
theorem C167_uniform (W : World K Unit E (Sample K)) (c : E → Sample K → Vec K) (g : Gives W c) (col : Vec K) (hcol : ∀ p, seen W c p = col)
    (hf : Film.Made f0) (hb : ∀ i j, f0.pix i j = ⟨0, 0, 0⟩) (hflt : ∀ x y, 0 ≤ f0.filt.eval x y)
    (hpos : ∀ x y, 0 < x → x < f0.filt.xw → 0 < y → y < f0.filt.yw → 0 < f0.filt.eval x y) (hx : 1 / 2 ≤ f0.filt.xw) (hy : 1 / 2 ≤ f0.filt.yw) :
    ∃ s log, render W r n1 n2 (w * h + 1) (start x0 y0 w h xst yst jitter sOpen sClose st e f0) = some (s, log) ∧ ∃ shown : Vec K,
      (∀ i < f0.xCnt, ∀ j < f0.yCnt, x0 ≤ f0.xStart + i → f0.xStart + i < x0 + w → y0 ≤ f0.yStart + j → f0.yStart + j < y0 + h → ∀ k, picture s.film j i k = shown k) ∧
      ∀ k, |shown k - col k| ≤ 1 / 1000000 * (col 0 + col 1 + col 2) := by
  obtain ⟨tr, ht⟩ := render_trace r hr hs x0 y0 w h hw xst yst jitter sOpen sClose n1 n2 st e f0 W _ g
  obtain ⟨s, a, b⟩ := ht W _ ⟨rfl, rfl, fun _ _ => rfl⟩ g
  have hc0 (i : Fin 3) : 0 ≤ col i := by
    obtain ⟨s', log, e1, e2, e3, -⟩ := C157_render r hr hs x0 y0 w h hw xst yst jitter sOpen sClose W g.finite n1 n2 st e f0
    rw [← hcol (e, (blank n1 n2))]
    exact seen_nonneg W c (fun e s => (g e s).2) _ i
  refine ⟨s, _, a, fun k => max 0 (Film.rt col k), fun i hi j hj hx0 hx1 hy0 hy1 k => ?_, fun k => ?_⟩
  · obtain ⟨l, hl, hm, -, hp⟩ := picture_trace f0 hf hb hflt tr i j hi hj
    rw [hp _ _ b k]
    obtain ⟨s', log, e1, -, e2, -⟩ := C157_render r hr hs x0 y0 w h hw xst yst jitter sOpen sClose W g.finite n1 n2 st e f0
    have hlog : log = tr.map fun p => (p.2, seen W c p) := by
      have := e1.symm.trans a
      exact (Prod.mk.inj (Option.some.inj this)).2
    obtain ⟨i', hi'⟩ := Int.eq_ofNat_of_zero_le (sub_nonneg.2 hx0)
    obtain ⟨j', hj'⟩ := Int.eq_ofNat_of_zero_le (sub_nonneg.2 hy0)
    obtain ⟨t, ⟨q, hq, hcell⟩, -⟩ := e2 i' (by omega) j' (by omega) 0 (by omega) 0 (by omega)
    have hqm := List.mem_of_getElem? hq
    rw [hlog] at hqm
    obtain ⟨p, hp1, rfl⟩ := List.mem_map.1 hqm
    have px := inStratum_pixel (K := K) (by omega : 0 < max xst 1) hcell.1
    have py := inStratum_pixel (K := K) (by omega : 0 < max yst 1) hcell.2
    simp only at px py
    rw [show x0 + (i' : ℤ) = f0.xStart + i by omega] at px
    rw [show y0 + (j' : ℤ) = f0.yStart + j by omega] at py
    push_cast at px py
    have hu : Film.Under f0 p.2.imageX p.2.imageY i j := by
      constructor
      · rw [Film.off, abs_le]; constructor <;> linarith [px.1, px.2]
      · rw [Film.off, abs_le]; constructor <;> linarith [py.1, py.2]
    have hmem := hm p hp1 hu
    have hcm (d wd : K) (hwd : 0 < wd) : 0 < Film.cellMid d wd ∧ Film.cellMid d wd < wd := by
      have z0 : (0 : ℤ) ≤ min 15 ⌊|d| / wd * 16⌋ := le_min (by norm_num) (Int.floor_nonneg.2 (by positivity))
      have z1 : min 15 ⌊|d| / wd * 16⌋ ≤ (15 : ℤ) := min_le_left _ _
      have z0' : (0 : K) ≤ ((min 15 ⌊|d| / wd * 16⌋ : ℤ) : K) := by exact_mod_cast z0
      have z1' : ((min 15 ⌊|d| / wd * 16⌋ : ℤ) : K) ≤ 15 := by exact_mod_cast z1
      simp only [Film.cellMid]
      generalize ((min 15 ⌊|d| / wd * 16⌋ : ℤ) : K) = z at *
      constructor
      · positivity
      · rw [div_lt_iff₀ (by norm_num)]; nlinarith
    have hwp : 0 < Film.specWeight f0.filt (Film.off f0.xStart i p.2.imageX) (Film.off f0.yStart j p.2.imageY) := by
      obtain ⟨u1, u2⟩ := hcm (Film.off f0.xStart i p.2.imageX) f0.filt.xw hf.xw
      obtain ⟨v1, v2⟩ := hcm (Film.off f0.yStart j p.2.imageY) f0.filt.yw hf.yw
      exact hpos _ _ u1 u2 v1 v2
    have hsum : 0 < (l.map Prod.fst).sum := by
      refine lt_of_lt_of_le hwp (List.single_le_sum ?_ _ (List.mem_map.2 ⟨_, hmem, rfl⟩))
      intro x hx
      obtain ⟨q, hq, rfl⟩ := List.mem_map.1 hx
      exact hl q hq
    rw [if_neg hsum.ne']
    have e : (l.map fun q => q.1 * Film.rt (seen W c q.2) k).sum = (l.map Prod.fst).sum * Film.rt col k := by
      rw [← List.sum_map_mul_right]
      congr 1
      apply List.map_congr_left
      intro q _
      rw [hcol]
    rw [e, mul_div_cancel_left₀ _ hsum.ne']
  · have hr' := Film.C30_colour_roundtrip col k
    rw [abs_of_nonneg (hc0 0), abs_of_nonneg (hc0 1), abs_of_nonneg (hc0 2)] at hr'
    simp only
    rcases le_total 0 (Film.rt col k) with h | h
    · rw [max_eq_right h]; exact hr'
    · rw [max_eq_left h]
      rw [abs_le] at hr' ⊢
      have := hc0 k
      constructor <;> linarith [hr'.1, hr'.2]
end

/-- non-vacuity: a world that looks like `(1, 2, 3)` everywhere, and a new film of 4 by 3 pixels with a box filter as wide as a pixel -/
def plain (t : ℚ) : World ℚ Unit Unit (Sample ℚ) :=
  ⟨fun _ => none, fun e _ => (1, e), fun e _ => (true, e), fun e _ => (fun i => .fin (t * ![1, 2, 3] i), e), fun s _ => (true, s)⟩
example : SameView (plain 1) (plain 2) ∧ Gives (plain 2) (fun _ _ i => 2 * ![1, 2, 3] i) ∧ ∀ p, seen (plain 2) (fun _ _ i => 2 * ![1, 2, 3] i) p = ![2, 4, 6] := by
  refine ⟨⟨rfl, rfl, fun _ _ => rfl⟩, fun _ _ => ⟨rfl, fun i => by fin_cases i <;> norm_num⟩, fun p => ?_⟩
  funext i
  fin_cases i <;> norm_num [seen, plain]
example : Film.Made (Film.Film.init 4 3 (⟨1 / 2, 1 / 2, 2, 2, fun _ _ => 1⟩ : Film.Filt ℚ) 0 1 0 1) := Film.Film.init_made _ _ _ _ _ _ _ (by norm_num) (by norm_num) (by norm_num) (by norm_num)

end Verif.Full
