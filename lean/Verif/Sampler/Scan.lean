import Verif.Sampler.Strata

/-! # The stratified sampler's scan over its window: property C24 -/

namespace Verif.Sampler
set_option linter.unusedSectionVars false

section
variable {K : Type*} [Field K] [LinearOrder K] [IsStrictOrderedRing K]

/-! ### Specification -/

/-- the caller's part: a full batch of samples whose value arrays match the requested counts -/
def GoodInput (s : Strat K) (l : List (Sample K)) : Prop :=
  l.length = s.xSamples * s.ySamples ∧
  ∀ p ∈ l, p.oneD.length = p.n1D.length ∧ p.twoD.length = p.n2D.length

/-- one filled sample: the shape is kept, the image position is in pixel `(px, py)`, in the sub-cell
of its index; lens position in the unit square; time in the shutter interval; each requested array is
present, of the requested length, and Latin. -/
structure FilledAt (s : Strat K) (px py : K) (i : ℕ) (inp out : Sample K) : Prop where
  shape : out.n1D = inp.n1D ∧ out.n2D = inp.n2D
  x : InStratum (i % s.xSamples) s.xSamples (out.imageX - px)
  y : InStratum (i / s.xSamples) s.ySamples (out.imageY - py)
  pixel : (px ≤ out.imageX ∧ out.imageX < px + 1) ∧ (py ≤ out.imageY ∧ out.imageY < py + 1)
  lens : (0 ≤ out.lensU ∧ out.lensU < 1) ∧ (0 ≤ out.lensV ∧ out.lensV < 1)
  time : ∃ t : K, 0 ≤ t ∧ t < 1 ∧ out.time = (1 - t) * s.sOpen + t * s.sClose
  one : out.oneD.length = inp.n1D.length ∧
    ∀ (j n : ℕ), inp.n1D[j]? = some n → ∃ v : List K, out.oneD[j]? = some (some v) ∧ Latin n v
  two : out.twoD.length = inp.n2D.length ∧
    ∀ (j n : ℕ), inp.n2D[j]? = some n → ∃ v : List (K × K), out.twoD[j]? = some (some v) ∧ v.length = n ∧
      Latin n (v.map Prod.fst) ∧ Latin n (v.map Prod.snd)

/-- a filled batch -/
def FilledBatch (s : Strat K) (px py : K) (inp out : List (Sample K)) : Prop :=
  out.length = inp.length ∧ ∀ (i : ℕ) (a b : Sample K), inp[i]? = some a → out[i]? = some b → FilledAt s px py i a b

/-! ### Lemmas -/

theorem fill1_spec (r : Rand K) (hr : UnitDraws r) (hs : Shuffles r) (ns : List ℕ) (j : ℕ)
    (arr : List (Option (List K))) (st : RS) (h : j + ns.length = arr.length) :
    ∃ (arr' : List (Option (List K))) (st' : RS), fill1 r ns j arr st = some (arr', st') ∧ arr'.length = arr.length ∧
      (∀ k < j, arr'[k]? = arr[k]?) ∧
      ∀ (k n : ℕ), ns[k]? = some n → ∃ v : List K, arr'[j + k]? = some (some v) ∧ Latin n v := by
  induction ns generalizing j arr st with
  | nil => exact ⟨arr, st, rfl, rfl, fun _ _ => rfl, by simp⟩
  | cons n ns ih =>
    simp only [List.length_cons] at h
    obtain ⟨arr', st', h1, h2, h3, h4⟩ := ih (j + 1) (arr.set j (some (latin1d r st n).1)) (latin1d r st n).2
      (by simp; omega)
    refine ⟨arr', st', ?_, by simpa using h2, ?_, ?_⟩
    · have hj : j < arr.length := by omega
      simp only [fill1, hj, if_true, h1]
    · intro k hk
      rw [h3 k (by omega), List.getElem?_set_ne (by omega)]
    · intro k m hk
      cases k with
      | zero =>
        obtain rfl : n = m := by simpa using hk
        refine ⟨(latin1d r st n).1, ?_, C23_latin_1d r hr hs st n⟩
        rw [Nat.add_zero, h3 j (by omega), List.getElem?_set_self (by omega)]
      | succ k =>
        obtain ⟨v, hv, hl⟩ := h4 k m (by simpa using hk)
        exact ⟨v, by rw [← hv]; congr 1; omega, hl⟩

theorem fill2_spec (r : Rand K) (hr : UnitDraws r) (hs : Shuffles r) (ns : List ℕ) (j : ℕ)
    (arr : List (Option (List (K × K)))) (st : RS) (h : j + ns.length = arr.length) :
    ∃ (arr' : List (Option (List (K × K)))) (st' : RS), fill2 r ns j arr st = some (arr', st') ∧ arr'.length = arr.length ∧
      (∀ k < j, arr'[k]? = arr[k]?) ∧
      ∀ (k n : ℕ), ns[k]? = some n → ∃ v : List (K × K), arr'[j + k]? = some (some v) ∧ v.length = n ∧
        Latin n (v.map Prod.fst) ∧ Latin n (v.map Prod.snd) := by
  induction ns generalizing j arr st with
  | nil => exact ⟨arr, st, rfl, rfl, fun _ _ => rfl, by simp⟩
  | cons n ns ih =>
    simp only [List.length_cons] at h
    obtain ⟨arr', st', h1, h2, h3, h4⟩ := ih (j + 1) (arr.set j (some (latin2d r st n).1)) (latin2d r st n).2
      (by simp; omega)
    refine ⟨arr', st', ?_, by simpa using h2, ?_, ?_⟩
    · have hj : j < arr.length := by omega
      simp only [fill2, hj, if_true, h1]
    · intro k hk
      rw [h3 k (by omega), List.getElem?_set_ne (by omega)]
    · intro k m hk
      cases k with
      | zero =>
        obtain rfl : n = m := by simpa using hk
        refine ⟨(latin2d r st n).1, ?_, C23_latin_2d r hr hs st n⟩
        rw [Nat.add_zero, h3 j (by omega), List.getElem?_set_self (by omega)]
      | succ k =>
        obtain ⟨v, hv, hl⟩ := h4 k m (by simpa using hk)
        exact ⟨v, by rw [← hv]; congr 1; omega, hl⟩

theorem fillBatch_spec (r : Rand K) (hr : UnitDraws r) (hs : Shuffles r) (s : Strat K) (l : List (Sample K))
    (im le : List (K × K)) (ti : List K) (st : RS)
    (h : ∀ p ∈ l, p.oneD.length = p.n1D.length ∧ p.twoD.length = p.n2D.length)
    (him : im.length = l.length) (hle : le.length = l.length) (hti : ti.length = l.length) :
    ∃ (out : List (Sample K)) (st' : RS), fillBatch r s l im le ti st = some (out, st') ∧ out.length = l.length ∧
      ∀ (i : ℕ) (a b : Sample K), l[i]? = some a → out[i]? = some b →
        (b.n1D = a.n1D ∧ b.n2D = a.n2D) ∧ im[i]? = some (b.imageX, b.imageY) ∧ le[i]? = some (b.lensU, b.lensV) ∧
        (∃ t : K, ti[i]? = some t ∧ b.time = lerp t s.sOpen s.sClose) ∧
        (b.oneD.length = a.n1D.length ∧ ∀ (j n : ℕ), a.n1D[j]? = some n → ∃ v : List K, b.oneD[j]? = some (some v) ∧ Latin n v) ∧
        (b.twoD.length = a.n2D.length ∧ ∀ (j n : ℕ), a.n2D[j]? = some n → ∃ v : List (K × K), b.twoD[j]? = some (some v) ∧ v.length = n ∧
          Latin n (v.map Prod.fst) ∧ Latin n (v.map Prod.snd)) := by
  induction l generalizing im le ti st with
  | nil => exact ⟨[], st, by simp [fillBatch], rfl, by simp⟩
  | cons p l ih =>
    obtain ⟨i0, im, rfl⟩ := List.exists_cons_of_length_eq_add_one him
    obtain ⟨l0, le, rfl⟩ := List.exists_cons_of_length_eq_add_one hle
    obtain ⟨t0, ti, rfl⟩ := List.exists_cons_of_length_eq_add_one hti
    obtain ⟨hp1, hp2⟩ := h p (by simp)
    obtain ⟨a1, s1, e1, f1, -, g1⟩ := fill1_spec r hr hs p.n1D 0 p.oneD st (by omega)
    obtain ⟨a2, s2, e2, f2, -, g2⟩ := fill2_spec r hr hs p.n2D 0 p.twoD s1 (by omega)
    obtain ⟨out, st', e3, f3, g3⟩ := ih im le ti s2 (fun q hq => h q (by simp [hq])) (by simpa using him)
      (by simpa using hle) (by simpa using hti)
    refine ⟨⟨i0.1, i0.2, l0.1, l0.2, lerp t0 s.sOpen s.sClose, p.n1D, p.n2D, a1, a2⟩ :: out, st',
      by simp only [fillBatch, e1, e2, e3], by simp [f3], ?_⟩
    intro i a b ha hb
    cases i with
    | zero =>
      obtain rfl : p = a := by simpa using ha
      obtain rfl := Option.some.inj hb
      refine ⟨⟨rfl, rfl⟩, rfl, rfl, ⟨t0, rfl, rfl⟩, ⟨by simp only; omega, ?_⟩, ⟨by simp only; omega, ?_⟩⟩
      · intro j n hj; have := g1 j n hj; simpa using this
      · intro j n hj; have := g2 j n hj; simpa using this
    | succ i => exact g3 i a b (by simpa using ha) (by simpa using hb)

/-- one call of `generate` before the end of the window -/
theorem generate_spec (r : Rand K) (hr : UnitDraws r) (hs : Shuffles r) (s : Strat K) (l : List (Sample K)) (st : RS)
    (hg : GoodInput s l) (hy : s.yPos ≠ s.ye) :
    ∃ (out : List (Sample K)) (st' : RS), s.generate r l st = .batch out
        (if s.xPos + 1 = s.xe then { s with xPos := s.xs, yPos := s.yPos + 1 } else { s with xPos := s.xPos + 1 }) st' ∧
      FilledBatch s s.xPos s.yPos l out := by
  obtain ⟨hlen, hshape⟩ := hg
  set N := s.xSamples * s.ySamples with hN
  set im := stratified2d r st s.xSamples s.ySamples s.jitter with him
  set le := stratified2d r im.2 s.xSamples s.ySamples s.jitter with hle
  set ti := stratified1d r le.2 N s.jitter with hti
  set le' := shuffle r ti.2 le.1 with hle'
  set ti' := shuffle r le'.2 ti.1 with hti'
  have l1 : im.1.length = N := stratified2d_length r st _ _ _
  have l2 : le.1.length = N := stratified2d_length r im.2 _ _ _
  have l3 : ti.1.length = N := stratified1d_length r le.2 _ _
  have p2 : le'.1.Perm le.1 := shuffle_perm r hs _ _
  have p3 : ti'.1.Perm ti.1 := shuffle_perm r hs _ _
  obtain ⟨out, st', e, f, g⟩ := fillBatch_spec r hr hs s l (im.1.map (fun p => (p.1 + s.xPos, p.2 + s.yPos))) le'.1 ti'.1
    ti'.2 hshape (by rw [List.length_map, l1, hlen]) (by rw [p2.length_eq, l2, hlen]) (by rw [p3.length_eq, l3, hlen])
  refine ⟨out, st', ?_, f, ?_⟩
  · have : s.generate r l st = match fillBatch r s l (im.1.map (fun p => (p.1 + s.xPos, p.2 + s.yPos))) le'.1 ti'.1 ti'.2 with
        | none => .fail
        | some (out, st) =>
          if s.xPos + 1 = s.xe then .batch out { s with xPos := s.xs, yPos := s.yPos + 1 } st
          else .batch out { s with xPos := s.xPos + 1 } st := by
      unfold Strat.generate
      rw [if_neg hy, if_neg (by rw [hlen, ne_eq, not_not])]
      rfl
    rw [this, e]
    simp only
    split_ifs <;> rfl
  · intro i a b ha hb
    obtain ⟨h1, h2, h3, ⟨t, ht, h4⟩, h5, h6⟩ := g i a b ha hb
    have hi : i < N := by rw [← hlen]; exact (List.getElem?_eq_some_iff.1 ha).1
    obtain ⟨x, y, g1, g2, g3, g4, g5⟩ := (C22_stratified_2d r hr st s.xSamples s.ySamples s.jitter).2.1 i hi
    rw [← him] at g1
    rw [List.getElem?_map, g1] at h2
    obtain ⟨hx, hy'⟩ : x + s.xPos = b.imageX ∧ y + s.yPos = b.imageY := by simpa using h2
    have ex : b.imageX - s.xPos = x := by rw [← hx]; ring
    have ey : b.imageY - s.yPos = y := by rw [← hy']; ring
    have hlens : ∀ q ∈ le.1, (0 ≤ q.1 ∧ q.1 < 1) ∧ (0 ≤ q.2 ∧ q.2 < 1) := by
      intro q hq
      obtain ⟨k, hk, rfl⟩ := List.mem_iff_getElem.1 hq
      obtain ⟨x', y', k1, -, -, k4, k5⟩ :=
        (C22_stratified_2d r hr im.2 s.xSamples s.ySamples s.jitter).2.1 k (by omega)
      rw [← hle, List.getElem?_eq_getElem hk] at k1
      rw [Option.some.inj k1]; exact ⟨k4, k5⟩
    have htime : ∀ q ∈ ti.1, 0 ≤ q ∧ q < 1 := by
      intro q hq
      obtain ⟨k, hk, rfl⟩ := List.mem_iff_getElem.1 hq
      obtain ⟨x', k1, -, k4⟩ := (C22_stratified_1d r hr le.2 N s.jitter).2.1 k (by omega)
      rw [← hti, List.getElem?_eq_getElem hk] at k1
      rw [Option.some.inj k1]; exact k4
    have htm := htime t (p3.mem_iff.1 (List.mem_of_getElem? ht))
    refine ⟨h1, by rw [ex]; exact g2, by rw [ey]; exact g3, ?_,
      hlens _ (p2.mem_iff.1 (List.mem_of_getElem? h3)), ⟨t, htm.1, htm.2, h4⟩, h5, h6⟩
    rw [← hx, ← hy']
    exact ⟨⟨by linarith [g4.1], by linarith [g4.2]⟩, by linarith [g5.1], by linarith [g5.2]⟩

/-- `n` successive calls, the `k`-th with the caller's samples `inp k`; the batches in order, and the
sampler after the last call.  `none` if some call stops or fails. -/
def scan (r : Rand K) (inp : ℕ → List (Sample K)) : ℕ → Strat K → RS → Option (List (List (Sample K)) × Strat K × RS)
  | 0, s, st => some ([], s, st)
  | n + 1, s, st =>
    match scan r inp n s st with
    | none => none
    | some (bs, s', st') =>
      match s'.generate r (inp n) st' with
      | .batch out s'' st'' => some (bs ++ [out], s'', st'')
      | _ => none

/-- **C24** a sampler over the integer window `[x0, x0+w) × [y0, y0+h)` (both sides non-empty): the
first `w * h` calls of `generate` all succeed; call `k` fills a complete batch (`max xst 1 * max yst 1` samples) for pixel
`(x0 + k % w, y0 + k / w)` (row-major); afterwards every call, with any arguments, returns `False`
and changes nothing. -/
theorem C24_scan (r : Rand K) (hr : UnitDraws r) (hs : Shuffles r) (x0 y0 : ℤ) (w h : ℕ) (hw : 0 < w) (hh : 0 < h)
    (xst yst : ℕ) (jitter : Bool) (sOpen sClose : K) (inp : ℕ → List (Sample K)) (st : RS)
    (hin : ∀ k, GoodInput (Strat.mk' (x0 : K) (x0 + w : ℤ) (y0 : K) (y0 + h : ℤ) xst yst jitter sOpen sClose) (inp k)) :
    ∃ (bs : List (List (Sample K))) (s' : Strat K) (st' : RS), scan r inp (w * h) (Strat.mk' (x0 : K) (x0 + w : ℤ) (y0 : K) (y0 + h : ℤ) xst yst jitter sOpen sClose) st
        = some (bs, s', st') ∧
      bs.length = w * h ∧
      (∀ k < w * h, ∃ out : List (Sample K), bs[k]? = some out ∧ out.length = max xst 1 * max yst 1 ∧
        FilledBatch (Strat.mk' (x0 : K) (x0 + w : ℤ) (y0 : K) (y0 + h : ℤ) xst yst jitter sOpen sClose)
          ((x0 + (k % w : ℕ) : ℤ) : K) ((y0 + (k / w : ℕ) : ℤ) : K) (inp k) out) ∧
      (∀ l st'', s'.generate r l st'' = .stop) := by
  set s0 := Strat.mk' (x0 : K) (x0 + w : ℤ) (y0 : K) (y0 + h : ℤ) xst yst jitter sOpen sClose with hs0
  have gen : ∀ n ≤ w * h, ∃ (bs : List (List (Sample K))) (st' : RS), scan r inp n s0 st = some (bs,
      { s0 with xPos := ((x0 + (n % w : ℕ) : ℤ) : K), yPos := ((y0 + (n / w : ℕ) : ℤ) : K) }, st') ∧
      bs.length = n ∧ ∀ k < n, ∃ out : List (Sample K), bs[k]? = some out ∧
        FilledBatch s0 ((x0 + (k % w : ℕ) : ℤ) : K) ((y0 + (k / w : ℕ) : ℤ) : K) (inp k) out := by
    intro n
    induction n with
    | zero =>
      intro _
      refine ⟨[], st, ?_, rfl, by simp⟩
      simp [scan, hs0, Strat.mk']
    | succ n ih =>
      intro hn
      obtain ⟨bs, st1, e, hl, hb⟩ := ih (by omega)
      set s1 : Strat K := { s0 with xPos := ((x0 + (n % w : ℕ) : ℤ) : K), yPos := ((y0 + (n / w : ℕ) : ℤ) : K) } with hs1
      have hrow : n / w < h := Nat.div_lt_of_lt_mul (by omega)
      have hye : s1.yPos ≠ s1.ye := by
        change ((y0 + (n / w : ℕ) : ℤ) : K) ≠ ((y0 + h : ℤ) : K)
        intro hc; have := Int.cast_injective hc; omega
      obtain ⟨out, st2, e2, f2⟩ := generate_spec r hr hs s1 (inp n) st1 (hin n) hye
      have hcol : n % w < w := Nat.mod_lt _ hw
      have hxe : (s1.xPos + 1 = s1.xe) ↔ n % w + 1 = w := by
        change ((x0 + (n % w : ℕ) : ℤ) : K) + 1 = ((x0 + w : ℤ) : K) ↔ _
        rw [show ((x0 + (n % w : ℕ) : ℤ) : K) + 1 = ((x0 + (n % w : ℕ) + 1 : ℤ) : K) by push_cast; ring, Int.cast_inj]
        omega
      refine ⟨bs ++ [out], st2, ?_, by simp [hl], ?_⟩
      · simp only [scan, e, e2]
        congr 3
        have hdm := Nat.div_add_mod n w
        by_cases hlast : n % w + 1 = w
        · have e1 : (n + 1) / w = n / w + 1 := by
            rw [show n + 1 = w * (n / w + 1) by rw [Nat.mul_add]; omega, Nat.mul_div_cancel_left _ hw]
          have e2 : (n + 1) % w = 0 := by
            rw [show n + 1 = w * (n / w + 1) by rw [Nat.mul_add]; omega, Nat.mul_mod_right]
          rw [if_pos (hxe.2 hlast), e1, e2]
          simp only [hs1, hs0, Strat.mk']
          push_cast
          congr 1 <;> ring
        · have e1 : (n + 1) / w = n / w := by
            rw [show n + 1 = (n % w + 1) + w * (n / w) by omega, Nat.add_mul_div_left _ _ hw,
              Nat.div_eq_of_lt (by omega), Nat.zero_add]
          have e2 : (n + 1) % w = n % w + 1 := by
            conv_lhs => rw [show n + 1 = (n % w + 1) + w * (n / w) by omega]
            rw [Nat.add_mul_mod_self_left, Nat.mod_eq_of_lt (by omega)]
          rw [if_neg (fun h => hlast (hxe.1 h)), e1, e2]
          simp only [hs1, hs0, Strat.mk']
          push_cast
          congr 1 <;> ring
      · intro k hk
        by_cases hkn : k < n
        · obtain ⟨o, ho, hf⟩ := hb k hkn
          exact ⟨o, by rw [List.getElem?_append_left (by omega)]; exact ho, hf⟩
        · obtain rfl : k = n := by omega
          refine ⟨out, by rw [List.getElem?_append_right (by omega)]; simp [hl], f2.1, fun i a b ha hb => ?_⟩
          obtain ⟨q1, q2, q3, q4, q5, q6, q7, q8⟩ := f2.2 i a b ha hb
          exact ⟨q1, q2, q3, q4, q5, q6, q7, q8⟩
  obtain ⟨bs, st', e, hl, hb⟩ := gen (w * h) le_rfl
  refine ⟨bs, _, st', e, hl, fun k hk => ?_, ?_⟩
  · obtain ⟨out, h1, h2⟩ := hb k hk
    exact ⟨out, h1, by rw [h2.1, (hin k).1]; rfl, h2⟩
  intro l st''
  have : w * h / w = h := Nat.mul_div_cancel_left _ hw
  unfold Strat.generate
  rw [this]
  simp [hs0, Strat.mk']

/-- **C24 depends on integer windows**: if the width is not a whole number, `generate` never returns
`False`, however often it is called (this happens for sub-samplers, see C25). -/
theorem C24_fractional_window_never_stops (r : Rand K) (hr : UnitDraws r) (hs : Shuffles r) (s : Strat K)
    (hx : ∀ n : ℕ, s.xs + n ≠ s.xe) (hstart : s.xPos = s.xs ∧ s.yPos = s.ys) (hy : s.ys ≠ s.ye)
    (inp : ℕ → List (Sample K)) (st : RS) (hin : ∀ k, GoodInput s (inp k)) (n : ℕ) :
    ∃ (bs : List (List (Sample K))) (s' : Strat K) (st' : RS), scan r inp n s st = some (bs, s', st') ∧ s'.xPos = s.xs + n ∧ s'.yPos = s.ys := by
  have gen : ∃ (bs : List (List (Sample K))) (st' : RS), scan r inp n s st = some (bs, { s with xPos := s.xs + n }, st') := by
    induction n with
    | zero => exact ⟨[], st, by
        have : ({ s with xPos := s.xs + ((0 : ℕ) : K) } : Strat K) = s := by
          cases s; simp_all
        rw [this]; rfl⟩
    | succ n ih =>
      obtain ⟨bs, st1, e⟩ := ih
      obtain ⟨out, st2, e2, -⟩ := generate_spec r hr hs { s with xPos := s.xs + n } (inp n) st1 (hin n)
        (by change s.yPos ≠ s.ye; rw [hstart.2]; exact hy)
      refine ⟨bs ++ [out], st2, ?_⟩
      simp only [scan, e, e2]
      have : ¬ (s.xs + (n : K) + 1 = s.xe) := by
        have := hx (n + 1); push_cast at this; rwa [← add_assoc] at this
      simp only [this, if_false]
      push_cast
      rw [add_assoc]
  obtain ⟨bs, st', e⟩ := gen
  exact ⟨bs, _, st', e, rfl, hstart.2⟩

end

/-- non-vacuity: a batch of two blank samples, one array request of each kind -/
example : GoodInput (Strat.mk' (3 : ℚ) 5 1 2 2 1 true 0 1)
    [⟨0, 0, 0, 0, 0, [4], [2, 3], [none], [none, none]⟩, ⟨0, 0, 0, 0, 0, [], [], [], []⟩] := by
  simp [GoodInput, Strat.mk']

end Verif.Sampler
