import Verif.Shape.LoopPos
import Mathlib.Algebra.BigOperators.Group.List.Basic
import Mathlib.Algebra.BigOperators.Ring.List
import Mathlib.Algebra.Order.BigOperators.Group.List

/-!
# Loop subdivision: affine invariance and the convex hull
-/

namespace Verif.Loop

open V3

/-! ## Linear functionals of the rules -/

theorem dot_add (d a b : V3 ℝ) : dot d (a + b) = dot d a + dot d b := by
  simp [dot]; ring
theorem dot_smul (d a : V3 ℝ) (s : ℝ) : dot d (s * a) = s * dot d a := by
  simp [dot]; ring

theorem dot_weightOneRing (d : V3 ℝ) (n : ℕ) (ring : List (V3 ℝ)) (b : ℝ) (p : V3 ℝ) :
    dot d (weightOneRing n ring b p) =
      (1 - (n : ℝ) * b) * dot d p + b * (ring.map (dot d)).sum := by
  unfold weightOneRing
  have key : ∀ (l : List (V3 ℝ)) (acc : V3 ℝ),
      dot d (l.foldl (fun acc q => acc + b * q) acc) = dot d acc + b * (l.map (dot d)).sum := by
    intro l
    induction l with
    | nil => intro acc; simp
    | cons q t ih =>
      intro acc
      simp only [List.foldl_cons, List.map_cons, List.sum_cons]
      rw [ih, dot_add, dot_smul]; ring
  rw [key, dot_smul]

theorem dot_weightBoundary (d : V3 ℝ) (ring : List (V3 ℝ)) (b : ℝ) (p : V3 ℝ) :
    dot d (weightBoundary ring b p) =
      (1 - 2 * b) * dot d p + b * (dot d (ring.headD 0) + dot d (ring.getLastD 0)) := by
  unfold weightBoundary
  rw [dot_add, dot_smul, dot_smul, dot_add]

/-! ## Specification: affine maps and half spaces -/

/-- An affine map of space: three rows and a translation. -/
structure Affine where
  r1 : V3 ℝ
  r2 : V3 ℝ
  r3 : V3 ℝ
  t : V3 ℝ

/-- Apply an affine map. -/
noncomputable def Affine.app (A : Affine) (p : V3 ℝ) : V3 ℝ :=
  ⟨dot A.r1 p + A.t.x, dot A.r2 p + A.t.y, dot A.r3 p + A.t.z⟩

/-- A functional of an affine image is a functional plus a constant. -/
theorem affine_dot (A : Affine) (d : V3 ℝ) : ∃ d' c, ∀ p, dot d (A.app p) = dot d' p + c := by
  refine ⟨⟨d.x * A.r1.x + d.y * A.r2.x + d.z * A.r3.x, d.x * A.r1.y + d.y * A.r2.y + d.z * A.r3.y,
    d.x * A.r1.z + d.y * A.r2.z + d.z * A.r3.z⟩, dot d A.t, fun p => ?_⟩
  simp [Affine.app, dot]; ring

/-- Two points with the same value under every functional are equal. -/
theorem eq_of_dot (p q : V3 ℝ) (h : ∀ d, dot d p = dot d q) : p = q := by
  have hx := h ⟨1, 0, 0⟩
  have hy := h ⟨0, 1, 0⟩
  have hz := h ⟨0, 0, 1⟩
  simp [dot] at hx hy hz
  exact V3.ext hx hy hz

section
variable {V F : Type*} [DecidableEq V] [DecidableEq F]

/-- The same mesh with other vertex positions. -/
def SD.withP (S : SD V F) (P : V → V3 ℝ) : SD V F := { S with P := P }

theorem Good.withP {S : SD V F} (hg : Good S) (P : V → V3 ℝ) : Good (S.withP P) :=
  ⟨hg.manifold, hg.nodup, hg.all, hg.start, hg.corners⟩

/-- What the walks return at a listed vertex of a sane level. -/
theorem ring_spec [Fintype F] {S : SD V F} (hg : Good S) {x : V} (hx : x ∈ S.verts) :
    (S.ringV x).Nodup ∧ S.val x = (S.ringV x).length ∧
      (∀ y, y ∈ S.ringV x ↔ y ≠ x ∧ ∃ a, On S.m x a ∧ On S.m y a) ∧
      (S.regular x = regularFlag (S.boundary x) (S.val x)) := by
  obtain ⟨a, ha, hon, hfl⟩ := hg.start x hx
  have hcard : Fintype.card F ≤ S.fuel := (card_eq_length _ hg.nodup hg.all).le
  obtain ⟨b, hb, -⟩ := C90_boundary_search_terminates hg.manifold.wf hg.manifold.oriented hon
    S.fuel hcard
  simp only [ctorFlags, hb, Option.bind_some] at hfl
  obtain ⟨n, hn, hfl⟩ := Option.map_eq_some_iff.1 hfl
  simp only [Prod.mk.injEq] at hfl
  obtain ⟨hb1, hb2⟩ := hfl
  subst hb1
  obtain ⟨ring, hr, hnd, hval, hmem⟩ := C92_one_ring_is_the_neighbours hg.manifold.wf
    hg.manifold.oriented (hg.manifold.umbrella x) hon S.fuel hcard _ hb
  have e1 : S.ringV x = ring := by
    show ((S.start x).bind (oneRing S.m S.fuel (S.boundary x) x)).getD [] = ring
    rw [ha, Option.bind_some, hr]; rfl
  have e2 : S.val x = ring.length := by
    show ((S.start x).bind (valence S.m S.fuel (S.boundary x) x)).getD 0 = _
    rw [ha, Option.bind_some, hval]; rfl
  rw [e1]
  refine ⟨hnd, e2, hmem, ?_⟩
  rw [hn] at hval
  have : n = ring.length := Option.some.inj hval
  rw [e2, ← this, ← hb2]

theorem ring_ne_nil [Fintype F] {S : SD V F} (hg : Good S) {x : V} (hx : x ∈ S.verts) :
    S.ringV x ≠ [] := by
  obtain ⟨a, -, ⟨k, hk⟩, -⟩ := hg.start x hx
  obtain ⟨-, -, hm, -⟩ := ring_spec hg hx
  have : S.m.v a (NEXT k) ∈ S.ringV x := by
    rw [hm]
    refine ⟨fun e => ?_, a, ⟨k, hk⟩, ⟨_, rfl⟩⟩
    exact fin3_next k (hg.manifold.wf.corners a (e.trans hk.symm))
  exact List.ne_nil_of_mem this

theorem ring_subset [Fintype F] {S : SD V F} (hg : Good S) {x : V} (hx : x ∈ S.verts) {y : V}
    (hy : y ∈ S.ringV x) : y ∈ S.verts := by
  obtain ⟨-, -, hm, -⟩ := ring_spec hg hx
  obtain ⟨-, a, -, ⟨k, hk⟩⟩ := (hm y).1 hy
  rw [← hk]; exact hg.corners a k

/-- Specification: `L` is a list of weights and vertices that is a convex combination: weights are
not negative, add up to 1, and belong to vertices in `vs`. -/
def ConvexWeights (vs : List V) (L : List (ℝ × V)) : Prop :=
  (∀ q ∈ L, 0 ≤ q.1 ∧ q.2 ∈ vs) ∧ (L.map Prod.fst).sum = 1

/-- Specification: the point with those weights; `p = Σ wᵢ Pᵢ`, written with all functionals. -/
def IsCombination (L : List (ℝ × V)) (P : V → V3 ℝ) (p : V3 ℝ) : Prop :=
  ∀ d, dot d p = (L.map fun q => q.1 * dot d (P q.2)).sum

theorem beta_nonneg (n : ℕ) : 0 ≤ beta n := by unfold beta; split_ifs <;> positivity

theorem one_sub_beta (n : ℕ) (hn : 0 < n) : 0 ≤ 1 - (n : ℝ) * beta n := by
  unfold beta
  split_ifs with h
  · subst h; norm_num
  · have : (0 : ℝ) < n := by exact_mod_cast hn
    have e : (n : ℝ) * (3 / (8 * n)) = 3 / 8 := by field_simp
    rw [e]; norm_num

theorem gamma_nonneg (n : ℕ) : 0 ≤ gamma n := by
  have := beta_nonneg n
  unfold gamma; positivity

theorem one_sub_gamma (n : ℕ) : 0 ≤ 1 - (n : ℝ) * gamma n := by
  have hb := beta_nonneg n
  unfold gamma
  have h3 : 0 < 3 / (8 + beta n) := by positivity
  have hn : (0 : ℝ) ≤ n := Nat.cast_nonneg n
  have : (n : ℝ) * (1 / (n + 3 / (8 + beta n))) ≤ 1 := by
    rw [mul_one_div, div_le_one (by linarith)]; linarith
  linarith

theorem oneRing_combination [Fintype F] {S : SD V F} (hg : Good S) {x : V} (hx : x ∈ S.verts)
    (b : ℝ) (hb : 0 ≤ b) (hb1 : 0 ≤ 1 - (S.val x : ℝ) * b) :
    ∃ L, ConvexWeights S.verts L ∧ ∀ P,
      IsCombination L P (weightOneRing (S.val x) ((S.ringV x).map P) b (P x)) := by
  obtain ⟨-, hlen, -, -⟩ := ring_spec hg hx
  refine ⟨(1 - (S.val x : ℝ) * b, x) :: (S.ringV x).map fun y => (b, y), ⟨?_, ?_⟩, ?_⟩
  · intro q hq
    rcases List.mem_cons.1 hq with rfl | hq
    · exact ⟨hb1, hx⟩
    · obtain ⟨y, hy, rfl⟩ := List.mem_map.1 hq
      exact ⟨hb, ring_subset hg hx hy⟩
  · simp only [List.map_cons, List.sum_cons, List.map_map, Function.comp_def]
    rw [List.map_const', List.sum_replicate, hlen]; simp
  · intro P d
    rw [dot_weightOneRing]
    simp only [List.map_cons, List.sum_cons, List.map_map, Function.comp_def]
    rw [List.sum_map_mul_left]

theorem boundary_combination [Fintype F] {S : SD V F} (hg : Good S) {x : V} (hx : x ∈ S.verts)
    (b : ℝ) (hb : 0 ≤ b) (hb1 : 0 ≤ 1 - 2 * b) :
    ∃ L, ConvexWeights S.verts L ∧ ∀ P,
      IsCombination L P (weightBoundary ((S.ringV x).map P) b (P x)) := by
  have hne := ring_ne_nil hg hx
  refine ⟨[(1 - 2 * b, x), (b, (S.ringV x).head hne), (b, (S.ringV x).getLast hne)], ⟨?_, ?_⟩, ?_⟩
  · intro q hq
    simp only [List.mem_cons, List.not_mem_nil, or_false] at hq
    rcases hq with rfl | rfl | rfl
    · exact ⟨hb1, hx⟩
    · exact ⟨hb, ring_subset hg hx (List.head_mem hne)⟩
    · exact ⟨hb, ring_subset hg hx (List.getLast_mem hne)⟩
  · simp; ring
  · intro P d
    rw [dot_weightBoundary]
    have h1 : ((S.ringV x).map P).headD 0 = P ((S.ringV x).head hne) := by
      rw [List.headD_eq_head?_getD, List.head?_map, List.head?_eq_some_head hne]; rfl
    have h2 : ((S.ringV x).map P).getLastD 0 = P ((S.ringV x).getLast hne) := by
      rw [List.getLastD_eq_getLast?, List.getLast?_map, List.getLast?_eq_some_getLast hne]; rfl
    rw [h1, h2]
    simp; ring

theorem even_combination [Fintype F] {S : SD V F} (hg : Good S) {x : V} (hx : x ∈ S.verts) :
    ∃ L, ConvexWeights S.verts L ∧ ∀ P, IsCombination L P ((S.withP P).evenPos x) := by
  obtain ⟨-, hlen, -, hreg⟩ := ring_spec hg hx
  have hpos : 0 < S.val x := by
    rw [hlen]; exact List.length_pos_of_ne_nil (ring_ne_nil hg hx)
  cases hb : S.boundary x with
  | true =>
    obtain ⟨L, hL, h⟩ := boundary_combination hg hx 0.125 (by norm_num) (by norm_num)
    refine ⟨L, hL, fun P => ?_⟩
    have e : (S.withP P).evenPos x = weightBoundary ((S.ringV x).map P) 0.125 (P x) := by
      show (if !S.boundary x then _ else _) = _
      rw [hb]; rfl
    rw [e]; exact h P
  | false =>
    cases hr : S.regular x with
    | true =>
      have h6 : S.val x = 6 := by
        rw [hb, hr] at hreg
        simp [regularFlag] at hreg
        exact hreg
      obtain ⟨L, hL, h⟩ := oneRing_combination hg hx 0.0625 (by norm_num) (by rw [h6]; norm_num)
      refine ⟨L, hL, fun P => ?_⟩
      have e : (S.withP P).evenPos x =
          weightOneRing (S.val x) ((S.ringV x).map P) 0.0625 (P x) := by
        show (if !S.boundary x then (if S.regular x then _ else _) else _) = _
        rw [hb, hr]; rfl
      rw [e]; exact h P
    | false =>
      obtain ⟨L, hL, h⟩ := oneRing_combination hg hx (beta (S.val x)) (beta_nonneg _)
        (one_sub_beta _ hpos)
      refine ⟨L, hL, fun P => ?_⟩
      have e : (S.withP P).evenPos x =
          weightOneRing (S.val x) ((S.ringV x).map P) (beta (S.val x)) (P x) := by
        show (if !S.boundary x then (if S.regular x then _ else _) else _) = _
        rw [hb, hr]; rfl
      rw [e]; exact h P

omit [DecidableEq F] in
/-- The edge rule in terms of the corners. -/
theorem oddPos_open {S : SD V F} {a : F} {k : Fin 3} (h : S.m.f a k = none) :
    S.oddPos (a, k) = (0.5 : ℝ) * S.P (S.m.v a k) + (0.5 : ℝ) * S.P (S.m.v a (NEXT k)) := by
  simp only [SD.oddPos, h]

omit [DecidableEq F] in
theorem oddPos_closed {S : SD V F} (hw : WF S.m) {a g : F} {k j : Fin 3} (h : S.m.f a k = some g)
    (hm : Mate S.m.v (g, j) (a, k)) :
    S.oddPos (a, k) = (0.375 : ℝ) * S.P (S.m.v a k) + (0.375 : ℝ) * S.P (S.m.v a (NEXT k)) +
      (0.125 : ℝ) * S.P (S.m.v a (PREV k)) + (0.125 : ℝ) * S.P (S.m.v g (PREV j)) := by
  simp only [SD.oddPos, h, SD.otherP]
  rw [otherVert_eq S.m a (hw.corners a) k _ _ rfl,
    otherVert_eq S.m g (hw.corners g) j _ _ (by rw [hm.2]; rfl)]

theorem odd_combination {S : SD V F} (hg : Good S) (h : F × Fin 3) :
    ∃ L, ConvexWeights S.verts L ∧ ∀ P, IsCombination L P ((S.withP P).oddPos h) := by
  obtain ⟨a, k⟩ := h
  cases hf : S.m.f a k with
  | none =>
    refine ⟨[(0.5, S.m.v a k), (0.5, S.m.v a (NEXT k))], ⟨?_, by norm_num⟩, ?_⟩
    · intro q hq
      simp only [List.mem_cons, List.not_mem_nil, or_false] at hq
      rcases hq with rfl | rfl <;> exact ⟨by norm_num, hg.corners _ _⟩
    · intro P d
      rw [oddPos_open (S := S.withP P) hf, dot_add, dot_smul, dot_smul]
      simp [SD.withP]
  | some g =>
    obtain ⟨j, hm⟩ := (hg.manifold.wf.linked a k g).1 hf
    refine ⟨[(0.375, S.m.v a k), (0.375, S.m.v a (NEXT k)), (0.125, S.m.v a (PREV k)),
      (0.125, S.m.v g (PREV j))], ⟨?_, by norm_num⟩, ?_⟩
    · intro q hq
      simp only [List.mem_cons, List.not_mem_nil, or_false] at hq
      rcases hq with rfl | rfl | rfl | rfl <;> exact ⟨by norm_num, hg.corners _ _⟩
    · intro P d
      rw [oddPos_closed (S := S.withP P) hg.manifold.wf hf hm]
      simp only [dot_add, dot_smul, SD.withP, List.map_cons, List.map_nil, List.sum_cons,
        List.sum_nil]
      ring

/-- C44: every point of the next level is a fixed convex combination of the points of the level
before: the weights of each rule are not negative, add up to one and do not depend on the
positions. -/
theorem C44_step_convex_combination [Fintype F] {S : SD V F} (hg : Good S) {w : Vert V}
    (hw : w ∈ S.step.verts) :
    ∃ L, ConvexWeights S.verts L ∧ ∀ P, IsCombination L P ((S.withP P).step.P w) := by
  rcases (mem_step_verts S w).1 hw with ⟨x, hx, rfl⟩ | ⟨h, hh, rfl⟩
  · exact even_combination hg hx
  · obtain ⟨h', hh', he⟩ := firstSide_exists hg h
    obtain ⟨L, hL, hc⟩ := odd_combination hg h'
    refine ⟨L, hL, fun P => ?_⟩
    have : (S.withP P).step.P (.odd (edge S.m.v h)) = (S.withP P).oddPos h' := by
      have h2 : (S.withP P).firstSide (edge S.m.v h) = some h' := hh'
      show (match (S.withP P).firstSide (edge S.m.v h) with
        | some h => (S.withP P).oddPos h | none => 0) = _
      rw [h2]
    rw [this]; exact hc P

/-- C44: the rule that moves the points of the last level is a convex combination as well. -/
theorem C44_limit_convex_combination [Fintype F] {S : SD V F} (hg : Good S) {x : V}
    (hx : x ∈ S.verts) :
    ∃ L, ConvexWeights S.verts L ∧ ∀ P, IsCombination L P ((S.withP P).limitPos x) := by
  cases hb : S.boundary x with
  | true =>
    obtain ⟨L, hL, h⟩ := boundary_combination hg hx 0.2 (by norm_num) (by norm_num)
    refine ⟨L, hL, fun P => ?_⟩
    have e : (S.withP P).limitPos x = weightBoundary ((S.ringV x).map P) 0.2 (P x) := by
      show (if S.boundary x then _ else _) = _
      rw [hb]; rfl
    rw [e]; exact h P
  | false =>
    obtain ⟨L, hL, h⟩ := oneRing_combination hg hx (gamma (S.val x)) (gamma_nonneg _)
      (one_sub_gamma _)
    refine ⟨L, hL, fun P => ?_⟩
    have e : (S.withP P).limitPos x =
        weightOneRing (S.val x) ((S.ringV x).map P) (gamma (S.val x)) (P x) := by
      show (if S.boundary x then _ else _) = _
      rw [hb]; rfl
    rw [e]; exact h P

omit [DecidableEq V] in
theorem combination_affine {vs : List V} {L : List (ℝ × V)} (hL : ConvexWeights vs L) (A : Affine)
    (P : V → V3 ℝ) (p q : V3 ℝ) (hp : IsCombination L P p)
    (hq : IsCombination L (fun y => A.app (P y)) q) : q = A.app p := by
  apply eq_of_dot
  intro d
  obtain ⟨d', c, hd⟩ := affine_dot A d
  rw [hq d, hd, hp d']
  simp only [hd, mul_add]
  rw [List.sum_map_add, List.sum_map_mul_right]
  have : (L.map fun q => q.1).sum = 1 := hL.2
  rw [this, one_mul]

omit [DecidableEq V] in
theorem combination_halfspace {vs : List V} {L : List (ℝ × V)} (hL : ConvexWeights vs L)
    (P : V → V3 ℝ) (p : V3 ℝ) (hp : IsCombination L P p) (d : V3 ℝ) (c : ℝ)
    (hv : ∀ y ∈ vs, dot d (P y) ≤ c) : dot d p ≤ c := by
  rw [hp d]
  have h1 : (L.map fun q => q.1 * dot d (P q.2)).sum ≤ (L.map fun q => q.1 * c).sum := by
    apply List.sum_le_sum
    intro q hq
    exact mul_le_mul_of_nonneg_left (hv _ (hL.1 q hq).2) (hL.1 q hq).1
  rw [List.sum_map_mul_right] at h1
  have : (L.map fun q => q.1).sum = 1 := hL.2
  rw [this, one_mul] at h1
  exact h1

/-- C44: subdividing commutes with every affine map. -/
theorem C44_step_affine [Fintype F] {S : SD V F} (hg : Good S) (A : Affine) {w : Vert V}
    (hw : w ∈ S.step.verts) :
    (S.withP fun x => A.app (S.P x)).step.P w = A.app (S.step.P w) := by
  obtain ⟨L, hL, h⟩ := C44_step_convex_combination hg hw
  exact combination_affine hL A S.P _ _ (h S.P) (h _)

/-- C44: moving to the limit surface commutes with every affine map. -/
theorem C44_limit_affine [Fintype F] {S : SD V F} (hg : Good S) (A : Affine) {x : V}
    (hx : x ∈ S.verts) :
    (S.withP fun x => A.app (S.P x)).limitPos x = A.app (S.limitPos x) := by
  obtain ⟨L, hL, h⟩ := C44_limit_convex_combination hg hx
  exact combination_affine hL A S.P _ _ (h S.P) (h _)

end

/-! ## All levels -/

section levels
variable {V F : Type} [DecidableEq V] [DecidableEq F]

/-- The state after `n` rounds of the level loop (`loopsubdiv.py:296-384`). -/
noncomputable def SD.level (S : SD V F) : (n : ℕ) → SD (LV V n) (LF F n)
  | 0 => S
  | n + 1 => SD.step (S.level n)

/-- C93: every level reached from a sane state is sane. -/
theorem C93_levels_good [Fintype F] {S : SD V F} (hg : Good S) (n : ℕ) : Good (S.level n) := by
  induction n with
  | zero => exact hg
  | succ n ih => exact C93_step_good ih

/-- C44: whatever the number of levels, every vertex `refine` outputs lies in every half space that
contains the control mesh, i.e. in its convex hull. -/
theorem C44_output_in_hull [Fintype F] {S : SD V F} (hg : Good S) (d : V3 ℝ) (c : ℝ)
    (h : ∀ x ∈ S.verts, dot d (S.P x) ≤ c) (n : ℕ) :
    (∀ x ∈ (S.level n).verts, dot d ((S.level n).P x) ≤ c) ∧
    (∀ x ∈ (S.level n).verts, dot d ((S.level n).limitPos x) ≤ c) := by
  have h1 : ∀ n, ∀ x ∈ (S.level n).verts, dot d ((S.level n).P x) ≤ c := by
    intro n
    induction n with
    | zero => exact h
    | succ n ih =>
      intro x hx
      obtain ⟨L, hL, hc⟩ := C44_step_convex_combination (C93_levels_good hg n) hx
      exact combination_halfspace hL _ _ (hc (S.level n).P) d c ih
  refine ⟨h1 n, fun x hx => ?_⟩
  obtain ⟨L, hL, hc⟩ := C44_limit_convex_combination (C93_levels_good hg n) hx
  exact combination_halfspace hL _ _ (hc (S.level n).P) d c (h1 n)

/-- C44: a mesh with all its vertices at one point stays there at every level. -/
theorem C44_point_fixed [Fintype F] {S : SD V F} (hg : Good S) (p : V3 ℝ)
    (h : ∀ x ∈ S.verts, S.P x = p) (n : ℕ) :
    ∀ x ∈ (S.level n).verts, (S.level n).P x = p ∧ (S.level n).limitPos x = p := by
  intro x hx
  have le : ∀ d, dot d ((S.level n).P x) ≤ dot d p ∧ dot d ((S.level n).limitPos x) ≤ dot d p :=
    fun d =>
      have := C44_output_in_hull hg d (dot d p) (fun y hy => by rw [h y hy]) n
      ⟨this.1 x hx, this.2 x hx⟩
  have neg : ∀ (d q : V3 ℝ), dot (-d) q = -dot d q := fun d q => by simp [dot]; ring
  constructor <;> apply eq_of_dot <;> intro d
  · have h1 := (le d).1
    have h2 := (le (-d)).1
    rw [neg, neg] at h2
    linarith
  · have h1 := (le d).2
    have h2 := (le (-d)).2
    rw [neg, neg] at h2
    linarith

/-- The hypotheses are met by a tetrahedron with any vertex positions. -/
example (P : Fin 4 → V3 ℝ) : Good (SD.init tetra [0, 1, 2, 3] [0, 1, 2, 3] P) :=
  C93_init_good tetra _ _ P (by decide) (by decide) tetra_manifold (by decide)

end levels

end Verif.Loop
