import Verif.Sampler.Scan
import Mathlib.Tactic.IntervalCases

/-!
# Sample requests of the integrators (`integrator/surface/path.py`, `direct.py`, `light/utility.py`,
`reflection/bsdf.py`): property C154
-/

namespace Verif.Requests
open Verif.Sampler

/-! ### Model -/

/-- the lists `n1D`, `n2D` of the sample under construction (`sampler/sample.py:43-44`). -/
structure Cnt where
  n1 : List ℕ
  n2 : List ℕ

/-- `Sample.add_1d` (`sampler/sample.py:66-72`). -/
def add1 (s : Cnt) (n : ℕ) : ℕ × Cnt :=
  let s' : Cnt := { s with n1 := s.n1 ++ [n] }
  (s'.n1.length - 1, s')

/-- `Sample.add_2d` (`sampler/sample.py:74-76`). -/
def add2 (s : Cnt) (n : ℕ) : ℕ × Cnt :=
  let s' : Cnt := { s with n2 := s.n2 ++ [n] }
  (s'.n2.length - 1, s')

/-- `LightSampleOffset` and `BSDFSampleOffset` objects: `dir` is `offset_pos` of the former and
`offset_dir` of the latter. -/
structure Offs where
  nSamples : ℕ
  com : ℕ
  dir : ℕ

/-- `LightSampleOffset.__init__` (`light/utility.py:148-151`). -/
def lightOffset (n : ℕ) (s : Cnt) : Offs × Cnt :=
  let (c, s) := add1 s n
  let (d, s) := add2 s n
  (⟨n, c, d⟩, s)

/-- `BSDFSampleOffset.__init__` (`reflection/bsdf.py:58-61`). -/
def bsdfOffset (n : ℕ) (s : Cnt) : Offs × Cnt :=
  let (c, s) := add1 s n
  let (d, s) := add2 s n
  (⟨n, c, d⟩, s)

/-- entry `i` of the four lists of a `PathIntegrator` (`path.py:29-32`). -/
structure PathOffs where
  light : Offs
  num : ℕ
  bsdf : Offs
  path : Offs

/-- `n` turns of the loop of `PathIntegrator.request_samples` (`path.py:38-42`). -/
def pathLoop : ℕ → Cnt → List PathOffs × Cnt
  | 0, s => ([], s)
  | n + 1, s =>
    let (l, s) := lightOffset 1 s
    let (k, s) := add1 s 1
    let (b, s) := bsdfOffset 1 s
    let (p, s) := bsdfOffset 1 s
    let (rest, s) := pathLoop n s
    (⟨l, k, b, p⟩ :: rest, s)

/-- `PathIntegrator.SAMPLE_DEPTH` (`path.py:25`). -/
def SAMPLE_DEPTH : ℕ := 3

/-- `PathIntegrator.request_samples` (`path.py:34-42`). -/
def requestPath (s : Cnt) : List PathOffs × Cnt := pathLoop SAMPLE_DEPTH s

/-- `StratifiedSampler.round_size` (`sampler/sampler/stratified.py:91-97`). -/
def roundSize (n : ℕ) : ℕ := n

/-- the loop of `DirectLightingIntegrator.request_samples` (`direct.py:54-60`); the argument lists
`light.ns` of the scene's lights. -/
def directAll : List ℕ → Cnt → (List Offs × List Offs) × Cnt
  | [], s => (([], []), s)
  | ns :: rest, s =>
    let n := roundSize ns
    let (l, s) := lightOffset n s
    let (b, s) := bsdfOffset n s
    let ((ls, bs), s) := directAll rest s
    ((l :: ls, b :: bs), s)

/-- `LightStrategy` (`direct.py:19-27`). -/
inductive Strategy
  | sampleAll
  | sampleOne

/-- `DirectLightingIntegrator.request_samples` (`direct.py:46-68`).  `none` is an exception: the
one-light branch calls `sample.add1d`, which no `Sample` has (the method is `add_1d`), so it raises
`AttributeError`. -/
def requestDirect (st : Strategy) (ns : List ℕ) (s : Cnt) : Option ((List Offs × List Offs) × Cnt) :=
  match st with
  | .sampleAll => some (directAll ns s)
  | .sampleOne =>
    let (_, _) := lightOffset 1 s
    none

/-- a number of a sample: `oneD[slot][k]` or component `c` of `twoD[slot][k]`. -/
inductive Cell
  | one (slot k : ℕ)
  | two (slot k : ℕ) (c : Fin 2)
deriving DecidableEq

/-- the numbers read by `LightSample.from_sample` (`light/utility.py:177-180`). -/
def lightCells (o : Offs) (n : ℕ) : List Cell := [.two o.dir n 0, .two o.dir n 1, .one o.com n]

/-- the numbers read by `BSDFSample.from_sample` (`reflection/bsdf.py:43-46`). -/
def bsdfCells (o : Offs) (n : ℕ) : List Cell := [.two o.dir n 0, .two o.dir n 1, .one o.com n]

/-- the numbers read by one call of `uniform_sample_one_light` with offsets
(`integrator/utility.py:103, 110-111`). -/
def oneLightCells (num : ℕ) (l b : Offs) : List Cell := .one num 0 :: (lightCells l 0 ++ bsdfCells b 0)

/-- the numbers of the sample read by bounce `i` of `PathIntegrator.li` (`path.py:87-105`): from
`SAMPLE_DEPTH` on, none.  `none`: `IndexError`. -/
def bounceCells (os : List PathOffs) (i : ℕ) : Option (List Cell) :=
  if i < SAMPLE_DEPTH then
    match os[i]? with
    | none => none
    | some o => some (oneLightCells o.num o.light o.bsdf ++ bsdfCells o.path 0)
  else some []

/-- the numbers read during a path of `n` bounces, in order. -/
def pathCells (os : List PathOffs) : ℕ → Option (List Cell)
  | 0 => some []
  | n + 1 =>
    match pathCells os n, bounceCells os n with
    | some a, some b => some (a ++ b)
    | _, _ => none

/-- the numbers read by `uniform_sample_all_lights` (`integrator/utility.py:59-67`) for the lights
with the given indices.  `none`: `IndexError`. -/
def allLightsCells (lo bo : List Offs) : List ℕ → Option (List Cell)
  | [] => some []
  | i :: is =>
    match lo[i]?, bo[i]?, allLightsCells lo bo is with
    | some l, some b, some cs => some ((List.range l.nSamples).flatMap (fun j => lightCells l j ++ bsdfCells b j) ++ cs)
    | _, _, _ => none

section
variable {K : Type*}

/-- reading a number of a sample; `none` is an `IndexError` (or subscripting `None`). -/
def look (smp : Sample K) : Cell → Option K
  | .one slot k =>
    match smp.oneD[slot]? with
    | some (some v) => v[k]?
    | _ => none
  | .two slot k c =>
    match smp.twoD[slot]? with
    | some (some v) => v[k]?.map (fun p => if c = 0 then p.1 else p.2)
    | _ => none
end

/-! ### Specification -/

/-- the number exists in every sample with these counts -/
def InRange (s : Cnt) : Cell → Prop
  | .one slot k => ∃ n, s.n1[slot]? = some n ∧ k < n
  | .two slot k _ => ∃ n, s.n2[slot]? = some n ∧ k < n

/-! ### Lemmas -/

theorem look_filled {K : Type*} [Field K] [LinearOrder K] [IsStrictOrderedRing K] {s : Strat K} {px py : K} {i : ℕ} {inp out : Sample K} (h : FilledAt s px py i inp out) (c : Cell)
    (hc : InRange ⟨inp.n1D, inp.n2D⟩ c) : ∃ x : K, look out c = some x ∧ 0 ≤ x ∧ x < 1 := by
  cases c with
  | one slot k =>
    obtain ⟨n, h1, h2⟩ := hc
    obtain ⟨v, hv, hl, hu, -⟩ := h.one.2 slot n h1
    have hk : k < v.length := by omega
    refine ⟨v[k], by simp only [look, hv]; exact List.getElem?_eq_getElem hk, hu _ (List.getElem_mem hk)⟩
  | two slot k c =>
    obtain ⟨n, h1, h2⟩ := hc
    obtain ⟨v, hv, hl, ⟨-, hu, -⟩, ⟨-, hw, -⟩⟩ := h.two.2 slot n h1
    have hk : k < v.length := by omega
    refine ⟨if c = 0 then v[k].1 else v[k].2, by simp only [look, hv]; rw [List.getElem?_eq_getElem hk]; rfl, ?_⟩
    by_cases hc : c = 0
    · simp only [hc, if_true]; exact hu _ (List.mem_map_of_mem (List.getElem_mem hk))
    · simp only [hc, if_false]; exact hw _ (List.mem_map_of_mem (List.getElem_mem hk))

/-- where the requests of `n` path bounces go -/
theorem pathLoop_eq (n : ℕ) (s : Cnt) :
    (pathLoop n s).2 = ⟨s.n1 ++ List.replicate (4 * n) 1, s.n2 ++ List.replicate (3 * n) 1⟩ ∧
    (pathLoop n s).1.length = n ∧
    ∀ i < n, (pathLoop n s).1[i]? = some ⟨⟨1, s.n1.length + 4 * i, s.n2.length + 3 * i⟩, s.n1.length + 4 * i + 1,
      ⟨1, s.n1.length + 4 * i + 2, s.n2.length + 3 * i + 1⟩, ⟨1, s.n1.length + 4 * i + 3, s.n2.length + 3 * i + 2⟩⟩ := by
  induction n generalizing s with
  | zero => simp [pathLoop]
  | succ n ih =>
    obtain ⟨h1, h2, h3⟩ := ih ⟨s.n1 ++ [1] ++ [1] ++ [1] ++ [1], s.n2 ++ [1] ++ [1] ++ [1]⟩
    simp only [pathLoop, lightOffset, bsdfOffset, add1, add2]
    refine ⟨?_, by simpa using h2, ?_⟩
    · rw [h1]
      simp only [Cnt.mk.injEq, List.append_assoc, List.append_cancel_left_eq]
      constructor
      · rw [show 4 * (n + 1) = 4 + 4 * n by ring, List.replicate_add]; rfl
      · rw [show 3 * (n + 1) = 3 + 3 * n by ring, List.replicate_add]; rfl
    · intro i hi
      cases i with
      | zero => simp
      | succ i =>
        rw [List.getElem?_cons_succ, h3 i (by omega)]
        simp only [List.length_append, List.length_cons, List.length_nil, Option.some.injEq, PathOffs.mk.injEq, Offs.mk.injEq, true_and]
        omega

/-- where the requests for the lights go -/
theorem directAll_eq (ns : List ℕ) (s : Cnt) :
    (directAll ns s).2 = ⟨s.n1 ++ ns.flatMap (fun n => [n, n]), s.n2 ++ ns.flatMap (fun n => [n, n])⟩ ∧
    (directAll ns s).1.1.length = ns.length ∧ (directAll ns s).1.2.length = ns.length ∧
    ∀ (i n : ℕ), ns[i]? = some n → (directAll ns s).1.1[i]? = some ⟨n, s.n1.length + 2 * i, s.n2.length + 2 * i⟩ ∧
      (directAll ns s).1.2[i]? = some ⟨n, s.n1.length + 2 * i + 1, s.n2.length + 2 * i + 1⟩ := by
  induction ns generalizing s with
  | nil => simp [directAll]
  | cons m ns ih =>
    obtain ⟨h1, h2, h3, h4⟩ := ih ⟨s.n1 ++ [m] ++ [m], s.n2 ++ [m] ++ [m]⟩
    simp only [directAll, lightOffset, bsdfOffset, add1, add2, roundSize]
    refine ⟨?_, by simpa using h2, by simpa using h3, ?_⟩
    · rw [h1]; simp
    · intro i n hi
      cases i with
      | zero => obtain rfl : m = n := by simpa using hi
                simp
      | succ i =>
        obtain ⟨g1, g2⟩ := h4 i n (by simpa using hi)
        rw [List.getElem?_cons_succ, List.getElem?_cons_succ, g1, g2]
        simp only [List.length_append, List.length_cons, List.length_nil, Option.some.injEq, Offs.mk.injEq, true_and]
        omega

theorem flatMap_pair (ns : List ℕ) (i n : ℕ) (h : ns[i]? = some n) :
    (ns.flatMap (fun n => [n, n]))[2 * i]? = some n ∧ (ns.flatMap (fun n => [n, n]))[2 * i + 1]? = some n := by
  induction ns generalizing i with
  | nil => simp at h
  | cons m ns ih =>
    cases i with
    | zero => obtain rfl : m = n := by simpa using h
              simp
    | succ i =>
      have := ih i (by simpa using h)
      rw [List.flatMap_cons, show 2 * (i + 1) = 2 * i + 2 by ring]
      exact this

/-- the cells of light `i` -/
def blockOf (a b i n : ℕ) : List Cell :=
  (List.range n).flatMap (fun j => lightCells ⟨n, a + 2 * i, b + 2 * i⟩ j ++ bsdfCells ⟨n, a + 2 * i + 1, b + 2 * i + 1⟩ j)

theorem mem_blockOf (a b i n : ℕ) (c : Cell) : c ∈ blockOf a b i n ↔ ∃ j < n, c = .one (a + 2 * i) j ∨ c = .one (a + 2 * i + 1) j ∨
    (∃ e, c = .two (b + 2 * i) j e) ∨ ∃ e, c = .two (b + 2 * i + 1) j e := by
  simp only [blockOf, lightCells, bsdfCells, List.mem_flatMap, List.mem_range, List.mem_append, List.mem_cons, List.not_mem_nil, or_false]
  constructor
  · rintro ⟨j, hj, h⟩
    exact ⟨j, hj, by rcases h with (h | h | h) | (h | h | h) <;> simp [h]⟩
  · rintro ⟨j, hj, h⟩
    refine ⟨j, hj, ?_⟩
    rcases h with h | h | ⟨e, h⟩ | ⟨e, h⟩
    · simp [h]
    · simp [h]
    · obtain rfl | rfl : e = 0 ∨ e = 1 := by omega
      all_goals simp [h]
    · obtain rfl | rfl : e = 0 ∨ e = 1 := by omega
      all_goals simp [h]

theorem blockOf_nodup (a b i n : ℕ) : (blockOf a b i n).Nodup := by
  rw [blockOf, List.nodup_flatMap]
  constructor
  · intro j _
    simp [lightCells, bsdfCells]
  · refine List.Pairwise.imp_of_mem ?_ List.nodup_range
    intro j k _ _ hjk
    simp only [Function.onFun]
    intro x hx hy
    simp only [lightCells, bsdfCells, List.cons_append, List.nil_append, List.mem_cons, List.not_mem_nil, or_false] at hx hy
    rcases hx with rfl | rfl | rfl | rfl | rfl | rfl <;> simp [hjk] at hy

theorem allLightsCells_eq (ns : List ℕ) (s : Cnt) (is : List ℕ) (h : ∀ i ∈ is, i < ns.length) :
    allLightsCells (directAll ns s).1.1 (directAll ns s).1.2 is = some (is.flatMap (fun i => blockOf s.n1.length s.n2.length i (ns[i]?.getD 0))) := by
  obtain ⟨-, -, -, h4⟩ := directAll_eq ns s
  induction is with
  | nil => rfl
  | cons i is ih =>
    have hi := h i (by simp)
    obtain ⟨g1, g2⟩ := h4 i ns[i] (List.getElem?_eq_getElem hi)
    simp only [allLightsCells, g1, g2, ih (fun k hk => h k (by simp [hk])), List.flatMap_cons, List.getElem?_eq_getElem hi, Option.getD_some]
    rfl

/-! ### Theorems -/

/-- **C154** path integrator.  Whatever counts were requested before, a path of any length reads its
numbers without an index error, no number is read twice, none belongs to somebody else's request, and
in every sample that the stratified sampler fills for these counts each of them is in `[0, 1)`. -/
theorem C154_path (s : Cnt) (n : ℕ) :
    ∃ cells, pathCells (requestPath s).1 n = some cells ∧ cells.Nodup ∧ cells.length = 10 * min n 3 ∧
      (∀ c ∈ cells, InRange (requestPath s).2 c ∧ ¬ InRange s c) ∧
      ∀ {K : Type} [Field K] [LinearOrder K] [IsStrictOrderedRing K] (st : Strat K) (px py : K) (i : ℕ) (inp out : Sample K),
        inp.n1D = (requestPath s).2.n1 → inp.n2D = (requestPath s).2.n2 → FilledAt st px py i inp out →
        ∀ c ∈ cells, ∃ x : K, look out c = some x ∧ 0 ≤ x ∧ x < 1 := by
  obtain ⟨h1, h2, h3⟩ := pathLoop_eq 3 s
  have hb : ∀ i < 3, bounceCells (requestPath s).1 i = some (oneLightCells (s.n1.length + 4 * i + 1) ⟨1, s.n1.length + 4 * i, s.n2.length + 3 * i⟩ ⟨1, s.n1.length + 4 * i + 2, s.n2.length + 3 * i + 1⟩
      ++ bsdfCells ⟨1, s.n1.length + 4 * i + 3, s.n2.length + 3 * i + 2⟩ 0) := by
    intro i hi
    simp only [bounceCells, SAMPLE_DEPTH, hi, if_true, requestPath, h3 i hi]
  have hb' : ∀ i, 3 ≤ i → bounceCells (requestPath s).1 i = some [] := by
    intro i hi; simp only [bounceCells, SAMPLE_DEPTH, Nat.not_lt.2 hi, if_false]
  have main : ∃ cells, pathCells (requestPath s).1 n = some cells ∧ cells.length = 10 * min n 3 ∧ cells.Nodup ∧
      ∀ c ∈ cells, (∃ k < 4 * min n 3, c = .one (s.n1.length + k) 0) ∨ ∃ k < 3 * min n 3, ∃ e, c = .two (s.n2.length + k) 0 e := by
    induction n with
    | zero => exact ⟨[], rfl, rfl, List.nodup_nil, by simp⟩
    | succ n ih =>
      obtain ⟨cs, e, hl, hn, hc⟩ := ih
      by_cases hn3 : n < 3
      · refine ⟨_, by simp only [pathCells, e, hb n hn3]; rfl, ?_, ?_, ?_⟩
        · simp only [oneLightCells, lightCells, bsdfCells, List.length_append, List.length_cons, List.length_nil, hl]; omega
        · rw [List.nodup_append]
          refine ⟨hn, by simp [oneLightCells, lightCells, bsdfCells], ?_⟩
          intro x hx y hy hxy
          subst hxy
          have hmin : min n 3 = n := by omega
          rw [hmin] at hc
          simp only [oneLightCells, lightCells, bsdfCells, List.cons_append, List.nil_append, List.mem_cons, List.not_mem_nil, or_false] at hy
          rcases hc x hx with ⟨k, hk, rfl⟩ | ⟨k, hk, e, rfl⟩ <;> simp at hy <;> omega
        · intro c hcc
          rw [show min (n + 1) 3 = n + 1 by omega]
          rw [List.mem_append] at hcc
          rcases hcc with hcc | hcc
          · rw [show min n 3 = n by omega] at hc
            rcases hc c hcc with ⟨k, hk, rfl⟩ | ⟨k, hk, e, rfl⟩
            · exact .inl ⟨k, by omega, rfl⟩
            · exact .inr ⟨k, by omega, e, rfl⟩
          · simp only [oneLightCells, lightCells, bsdfCells, List.cons_append, List.nil_append, List.mem_cons, List.not_mem_nil, or_false] at hcc
            rcases hcc with rfl | rfl | rfl | rfl | rfl | rfl | rfl | rfl | rfl | rfl
            · exact .inl ⟨4 * n + 1, by omega, rfl⟩
            · exact .inr ⟨3 * n, by omega, _, rfl⟩
            · exact .inr ⟨3 * n, by omega, _, rfl⟩
            · exact .inl ⟨4 * n, by omega, rfl⟩
            · exact .inr ⟨3 * n + 1, by omega, _, rfl⟩
            · exact .inr ⟨3 * n + 1, by omega, _, rfl⟩
            · exact .inl ⟨4 * n + 2, by omega, rfl⟩
            · exact .inr ⟨3 * n + 2, by omega, _, rfl⟩
            · exact .inr ⟨3 * n + 2, by omega, _, rfl⟩
            · exact .inl ⟨4 * n + 3, by omega, rfl⟩
      · refine ⟨cs ++ [], by simp only [pathCells, e, hb' n (by omega)], by simp only [List.append_nil, hl]; omega, by simpa using hn, ?_⟩
        intro c hcc
        rw [List.append_nil] at hcc
        rw [show min (n + 1) 3 = min n 3 by omega]
        exact hc c hcc
  obtain ⟨cells, e, hl, hn, hc⟩ := main
  have hr : ∀ c ∈ cells, InRange (requestPath s).2 c ∧ ¬ InRange s c := by
    intro c hcc
    simp only [requestPath, SAMPLE_DEPTH, h1]
    rcases hc c hcc with ⟨k, hk, rfl⟩ | ⟨k, hk, e, rfl⟩
    · have hk' : k < 12 := by omega
      refine ⟨⟨1, ?_, by omega⟩, ?_⟩
      · rw [List.getElem?_append_right (by omega), Nat.add_sub_cancel_left, List.getElem?_replicate, if_pos (by omega)]
      · rintro ⟨m, hm, -⟩
        rw [List.getElem?_eq_none (by omega)] at hm
        simp at hm
    · have hk' : k < 9 := by omega
      refine ⟨⟨1, ?_, by omega⟩, ?_⟩
      · rw [List.getElem?_append_right (by omega), Nat.add_sub_cancel_left, List.getElem?_replicate, if_pos (by omega)]
      · rintro ⟨m, hm, -⟩
        rw [List.getElem?_eq_none (by omega)] at hm
        simp at hm
  refine ⟨cells, e, hn, hl, hr, ?_⟩
  intro K _ _ _ st px py i inp out e1 e2 hf c hcc
  exact look_filled hf c (by rw [e1, e2]; exact (hr c hcc).1)

/-- **C154** direct lighting with all lights (partial: the one-light strategy of the same integrator fails, see below).  For any numbers of samples per light, the loop over all
the lights reads its numbers without an index error, six numbers for each sample of each light, no
number twice, none of somebody else's request, and in every filled sample all of them are in `[0, 1)`. -/
theorem C154_direct_partial (ns : List ℕ) (s : Cnt) :
    ∃ lo bo s' cells, requestDirect .sampleAll ns s = some ((lo, bo), s') ∧ lo.length = ns.length ∧ bo.length = ns.length ∧
      (∀ (i n : ℕ), ns[i]? = some n → ∃ l, lo[i]? = some l ∧ l.nSamples = n) ∧
      allLightsCells lo bo (List.range ns.length) = some cells ∧ cells.Nodup ∧
      (∀ c ∈ cells, InRange s' c ∧ ¬ InRange s c) ∧ cells.length = 6 * ns.sum ∧
      ∀ {K : Type} [Field K] [LinearOrder K] [IsStrictOrderedRing K] (st : Strat K) (px py : K) (i : ℕ) (inp out : Sample K),
        inp.n1D = s'.n1 → inp.n2D = s'.n2 → FilledAt st px py i inp out → ∀ c ∈ cells, ∃ x : K, look out c = some x ∧ 0 ≤ x ∧ x < 1 := by
  obtain ⟨h1, h2, h3, h4⟩ := directAll_eq ns s
  have hr : ∀ c ∈ (List.range ns.length).flatMap (fun i => blockOf s.n1.length s.n2.length i (ns[i]?.getD 0)), InRange (directAll ns s).2 c ∧ ¬ InRange s c := by
    intro c hc
    rw [List.mem_flatMap] at hc
    obtain ⟨i, hi, hc⟩ := hc
    have hi : i < ns.length := List.mem_range.1 hi
    rw [mem_blockOf, List.getElem?_eq_getElem hi, Option.getD_some] at hc
    obtain ⟨j, hj, hc⟩ := hc
    obtain ⟨g1, g2⟩ := flatMap_pair ns i ns[i] (List.getElem?_eq_getElem hi)
    rw [h1]
    rcases hc with rfl | rfl | ⟨e, rfl⟩ | ⟨e, rfl⟩
    all_goals
      refine ⟨⟨ns[i], ?_, hj⟩, ?_⟩
      · rw [List.getElem?_append_right (by omega)]
        first | rw [Nat.add_sub_cancel_left]; exact g1 | rw [Nat.add_assoc, Nat.add_sub_cancel_left]; exact g2
      · rintro ⟨m, hm, -⟩
        rw [List.getElem?_eq_none (by omega)] at hm
        simp at hm
  refine ⟨_, _, _, _, rfl, h2, h3, fun i n hi => ⟨_, (h4 i n hi).1, rfl⟩,
    allLightsCells_eq ns s _ (fun i hi => List.mem_range.1 hi), ?_, hr, ?_, ?_⟩
  · rw [List.nodup_flatMap]
    refine ⟨fun i _ => blockOf_nodup _ _ _ _, ?_⟩
    refine List.Pairwise.imp_of_mem ?_ List.nodup_range
    intro i j _ _ hij x hx hy
    rw [mem_blockOf] at hx hy
    obtain ⟨k, -, hx⟩ := hx
    obtain ⟨l, -, hy⟩ := hy
    rcases hx with rfl | rfl | ⟨e, rfl⟩ | ⟨e, rfl⟩ <;> simp at hy <;> omega
  · rw [List.length_flatMap]
    have hlen : ∀ a b i n, (blockOf a b i n).length = 6 * n := by
      intro a b i n
      simp [blockOf, lightCells, bsdfCells, List.length_flatMap, Nat.mul_comm]
    simp only [hlen]
    have : ∀ l : List ℕ, ((List.range l.length).map (fun i => 6 * (l[i]?.getD 0))).sum = 6 * l.sum := by
      intro l
      induction l with
      | nil => rfl
      | cons a l ih =>
        rw [List.length_cons, List.range_succ_eq_map, List.map_cons, List.map_map, List.sum_cons, List.sum_cons, Nat.mul_add]
        congr 1
    exact this ns
  · intro K _ _ _ st px py i inp out e1 e2 hf c hcc
    exact look_filled hf c (by rw [e1, e2]; exact (hr c hcc).1)

/-- **C154** (the other strategy) asking for one light per sample never works: with every scene and
every sample, requesting raises. -/
theorem C154_one_light_false (ns : List ℕ) (s : Cnt) : requestDirect .sampleOne ns s = none := rfl

/-- non-vacuity: two lights with three and one samples -/
example : (directAll [3, 1] ⟨[], []⟩).2.n1 = [3, 3, 1, 1] := rfl
example : (requestPath ⟨[7], []⟩).1.map (fun o => (o.light.com, o.num, o.bsdf.com, o.path.com)) = [(1, 2, 3, 4), (5, 6, 7, 8), (9, 10, 11, 12)] := rfl

end Verif.Requests
