import Verif.BVH.Flatten

/-! # BVH traversal: lemmas -/

namespace Verif.BVH
open BBox
set_option linter.unusedSectionVars false

section
variable {K : Type*} [Field K] [LinearOrder K] [IsStrictOrderedRing K]

/-! ### the box test never rejects a box holding a point strictly inside the ray's range -/

/-- a lower slab bound for `t`: NaN, `-inf` or a finite value not above `t` -/
def LoB (t : K) (f : F K) : Prop := f = .nan ∨ f = .ninf ∨ ∃ v, v ≤ t ∧ f = .fin v
/-- an upper slab bound for `t` -/
def HiB (t : K) (f : F K) : Prop := f = .nan ∨ f = .pinf ∨ ∃ v, t ≤ v ∧ f = .fin v

theorem lt_hi_lo {t : K} {h l : F K} (hh : HiB t h) (hl : LoB t l) : F.lt h l = false := by
  rcases hh with rfl | rfl | ⟨v, hv, rfl⟩ <;> rcases hl with rfl | rfl | ⟨w, hw, rfl⟩ <;>
    simp [F.lt]
  linarith

theorem lo_pick {t : K} {a c : F K} (ha : LoB t a) (hc : LoB t c) (hna : a ≠ .nan) :
    LoB t (if F.gt c a then c else a) ∧ (if F.gt c a then c else a) ≠ .nan := by
  split_ifs with h
  · refine ⟨hc, ?_⟩
    rintro rfl
    cases a <;> simp [F.gt, F.lt] at h
  · exact ⟨ha, hna⟩

theorem hi_pick {t : K} {a c : F K} (ha : HiB t a) (hc : HiB t c) (hna : a ≠ .nan) :
    HiB t (if F.lt c a then c else a) ∧ (if F.lt c a then c else a) ≠ .nan := by
  split_ifs with h
  · refine ⟨hc, ?_⟩
    rintro rfl
    cases a <;> simp [F.lt] at h
  · exact ⟨ha, hna⟩

theorem lo_lt {t : K} {a m : F K} (ha : LoB t a) (hna : a ≠ .nan) (hm : F.lt (.fin t) m = true) :
    F.lt a m = true := by
  rcases ha with rfl | rfl | ⟨v, hv, rfl⟩
  · exact absurd rfl hna
  · cases m <;> simp_all [F.lt]
  · cases m <;> simp_all [F.lt]
    linarith

theorem hi_gt {t : K} {a m : F K} (ha : HiB t a) (hna : a ≠ .nan) (hm : F.lt m (.fin t) = true) :
    F.gt a m = true := by
  rcases ha with rfl | rfl | ⟨v, hv, rfl⟩
  · exact absurd rfl hna
  · cases m <;> simp_all [F.gt, F.lt]
  · cases m <;> simp_all [F.gt, F.lt]
    linarith

theorem slab_bounds (lo hi o t : K) (d : Dir K) (hd : d.val ≠ 0 ∨ d.negZero = false)
    (h1 : lo ≤ o + t * d.val) (h2 : o + t * d.val ≤ hi) :
    LoB t (slab lo hi o d).1 ∧ HiB t (slab lo hi o d).2 ∧
    (d.val ≠ 0 ∨ (o ≠ lo ∧ o ≠ hi) → (slab lo hi o d).1 ≠ .nan ∧ (slab lo hi o d).2 ≠ .nan) := by
  by_cases h0 : d.val = 0
  · have hz : d.negZero = false := by rcases hd with h | h; exact absurd h0 h; exact h
    rw [h0] at h1 h2
    simp only [mul_zero, add_zero] at h1 h2
    have hneg : dirNeg d = false := by simp [dirNeg, h0]
    have hinv : (F.fin (1:K)).divFin d.val d.negZero = .pinf := by
      simp [F.divFin, h0, hz]
    simp only [slab, hneg, hinv, mulFin, Bool.false_eq_true, if_false]
    refine ⟨?_, ?_, ?_⟩
    · by_cases e : lo - o = 0
      · simp [e, LoB]
      · have : ¬ (0 < lo - o) := by linarith
        simp [e, this, LoB]
    · by_cases e : hi - o = 0
      · simp [e, HiB]
      · have : 0 < hi - o := lt_of_le_of_ne (by linarith) (Ne.symm e)
        rw [if_neg e, if_pos this]
        exact Or.inr (Or.inl rfl)
    · rintro (h | ⟨ha, hb⟩)
      · exact absurd h0 h
      · have e1 : lo - o ≠ 0 := sub_ne_zero.2 (Ne.symm ha)
        have e2 : hi - o ≠ 0 := sub_ne_zero.2 (Ne.symm hb)
        simp only [e1, e2, if_false]
        constructor <;> split_ifs <;> simp
  · have hinv : (F.fin (1:K)).divFin d.val d.negZero = .fin (1 / d.val) := by
      simp [F.divFin, h0]
    simp only [slab, hinv, mulFin]
    refine ⟨Or.inr (Or.inr ⟨_, ?_, rfl⟩), Or.inr (Or.inr ⟨_, ?_, rfl⟩), by simp⟩
    · rw [mul_one_div]
      rcases lt_or_gt_of_ne h0 with h | h
      · have : dirNeg d = true := by simp [dirNeg, h]
        rw [this, if_pos rfl, div_le_iff_of_neg h]; linarith
      · have : dirNeg d = false := by simp [dirNeg]; exact h.le
        rw [this]; simp only [Bool.false_eq_true, if_false]
        rw [div_le_iff₀ h]; linarith
    · rw [mul_one_div]
      rcases lt_or_gt_of_ne h0 with h | h
      · have : dirNeg d = true := by simp [dirNeg, h]
        rw [this, if_pos rfl, le_div_iff_of_neg h]; linarith
      · have : dirNeg d = false := by simp [dirNeg]; exact h.le
        rw [this]; simp only [Bool.false_eq_true, if_false]
        rw [le_div_iff₀ h]; linarith

/-- the direction components of a ray, as numbers -/
def rayDir (r : FRay K) : V3 K := ⟨r.d.x.val, r.d.y.val, r.d.z.val⟩

/-- no direction component is `-0.0`, and if the x component is zero the origin is not on an x face
of the box -/
def RayOk (r : FRay K) (b : BBox K) : Prop :=
  (r.d.x.val ≠ 0 ∨ (r.d.x.negZero = false ∧ r.o.x ≠ b.pMin.x ∧ r.o.x ≠ b.pMax.x)) ∧
  (r.d.y.val ≠ 0 ∨ r.d.y.negZero = false) ∧ (r.d.z.val ≠ 0 ∨ r.d.z.negZero = false)

theorem boxHit_of_mem (b : BBox K) (r : FRay K) (t : K) (hok : RayOk r b)
    (hm : Mem (V3.rayAt r.o (rayDir r) t) b) (h1 : F.lt r.mint (.fin t) = true)
    (h2 : F.lt (.fin t) r.maxt = true) : boxHit b r = true := by
  obtain ⟨hx, hy, hz⟩ := hok
  obtain ⟨⟨a1, a2⟩, ⟨a3, a4⟩, a5, a6⟩ := hm
  simp only [V3.rayAt, rayDir, mul_comm _ t] at a1 a2 a3 a4 a5 a6
  obtain ⟨x1, x2, x3⟩ := slab_bounds b.pMin.x b.pMax.x r.o.x t r.d.x (hx.imp_right And.left) a1 a2
  obtain ⟨y1, y2, -⟩ := slab_bounds b.pMin.y b.pMax.y r.o.y t r.d.y hy a3 a4
  obtain ⟨z1, z2, -⟩ := slab_bounds b.pMin.z b.pMax.z r.o.z t r.d.z hz a5 a6
  obtain ⟨n1, n2⟩ := x3 (hx.imp_right And.right)
  unfold boxHit
  simp only
  generalize slab b.pMin.x b.pMax.x r.o.x r.d.x = X at *
  generalize slab b.pMin.y b.pMax.y r.o.y r.d.y = Y at *
  generalize slab b.pMin.z b.pMax.z r.o.z r.d.z = Z at *
  have g1 : F.gt X.1 Y.2 = false := lt_hi_lo y2 x1
  have g2 : F.gt Y.1 X.2 = false := lt_hi_lo x2 y1
  rw [g1, g2]
  simp only [Bool.or_self, Bool.false_eq_true, if_false]
  obtain ⟨p1, p2⟩ := lo_pick x1 y1 n1
  obtain ⟨q1, q2⟩ := hi_pick x2 y2 n2
  generalize (if F.gt Y.1 X.1 = true then Y.1 else X.1) = lo at *
  generalize (if F.lt Y.2 X.2 = true then Y.2 else X.2) = hi at *
  have g3 : F.gt lo Z.2 = false := lt_hi_lo z2 p1
  have g4 : F.gt Z.1 hi = false := lt_hi_lo q1 z1
  rw [g3, g4]
  simp only [Bool.or_self, Bool.false_eq_true, if_false]
  obtain ⟨u1, u2⟩ := lo_pick p1 z1 p2
  obtain ⟨v1, v2⟩ := hi_pick q1 z2 q2
  rw [lo_lt u1 u2 h2, hi_gt v1 v2 h1]
  rfl

end

section
variable {K : Type*} [Field K] [LinearOrder K]

/-! ### the loop is the recursive near-first traversal -/

/-- recursive near-first traversal (proof device) -/
def traverse {P : Type*} (prims : List P) (first : P → Option K) (r : FRay K) : Node K → Acc K P → Acc K P
  | .leaf f n b, acc =>
    if boxHit b { r with maxt := acc.maxt } then ((prims.drop f).take n).foldl (hitOne first) acc else acc
  | .inter axis c0 c1 b, acc =>
    if boxHit b { r with maxt := acc.maxt } then
      if dirNeg (r.d.get axis) then traverse prims first r c0 (traverse prims first r c1 acc)
      else traverse prims first r c1 (traverse prims first r c0 acc)
    else acc

/-- what the loop does when it runs out of the current subtree -/
def cont {P : Type*} (nodes : List (LNode K)) (prims : List P) (first : P → Option K) (r : FRay K)
    (fuel : ℕ) (todo : List ℕ) (acc : Acc K P) : Except Err (Acc K P) :=
  match todo with
  | [] => .ok acc
  | j :: rest => loop nodes prims first r fuel j rest acc

theorem loop_traverse {P : Type*} (nodes : List (LNode K)) (prims : List P) (first : P → Option K)
    (r : FRay K) (t : Node K) (i lo hi : ℕ) (hl : Layout nodes t i) (hp : Partitions prims t lo hi)
    (todo : List ℕ) (hd : todo.length + t.height ≤ 64) (acc : Acc K P) :
    ∃ n, n ≤ t.size ∧ ∀ fuel, loop nodes prims first r (fuel + n) i todo acc =
      cont nodes prims first r fuel todo (traverse prims first r t acc) := by
  induction t generalizing i lo hi todo acc with
  | leaf f n b =>
    refine ⟨1, le_refl _, fun fuel => ?_⟩
    obtain ⟨rfl, rfl, hn, hle⟩ := hp
    have hl' : nodes[i]? = some ⟨some b, f, n, 0⟩ := hl
    simp only [loop, hl', traverse]
    by_cases hb : boxHit b { r with maxt := acc.maxt } = true
    · simp only [hb, if_true, gt_iff_lt, hn, leafPrims, hle]
      cases todo <;> rfl
    · simp only [hb, Bool.false_eq_true, if_false]
      cases todo <;> rfl
  | inter axis c0 c1 b ih0 ih1 =>
    obtain ⟨j, hj, -, h0, h1⟩ := hl
    obtain ⟨mid, p0, p1⟩ := hp
    simp only [Node.height] at hd
    by_cases hb : boxHit b { r with maxt := acc.maxt } = true
    · have hlen : ¬ (todo.length ≥ 64) := by omega
      by_cases hneg : dirNeg (r.d.get axis) = true
      · obtain ⟨n1, m1, e1⟩ := ih1 j mid hi h1 p1 ((i + 1) :: todo) (by simp; omega) acc
        obtain ⟨n0, m0, e0⟩ := ih0 (i + 1) lo mid h0 p0 todo (by omega) (traverse prims first r c1 acc)
        refine ⟨n0 + n1 + 1, by simp only [Node.size]; omega, fun fuel => ?_⟩
        rw [show fuel + (n0 + n1 + 1) = (fuel + n0 + n1) + 1 by omega]
        simp only [loop, hj, hb, if_true, gt_iff_lt, lt_irrefl, if_false, hlen, hneg]
        rw [e1]
        simp only [cont]
        rw [e0]
        simp only [traverse, hb, hneg, if_true, cont]
      · obtain ⟨n0, m0, e0⟩ := ih0 (i + 1) lo mid h0 p0 (j :: todo) (by simp; omega) acc
        obtain ⟨n1, m1, e1⟩ := ih1 j mid hi h1 p1 todo (by omega) (traverse prims first r c0 acc)
        refine ⟨n1 + n0 + 1, by simp only [Node.size]; omega, fun fuel => ?_⟩
        rw [show fuel + (n1 + n0 + 1) = (fuel + n1 + n0) + 1 by omega]
        simp only [loop, hj, hb, if_true, gt_iff_lt, lt_irrefl, if_false, hlen, hneg]
        simp only [Bool.false_eq_true, if_false]
        rw [e0]
        simp only [cont]
        rw [e1]
        simp only [traverse, hb, hneg, if_true, cont, Bool.false_eq_true, if_false]
    · refine ⟨1, by have := size_pos c0; simp only [Node.size]; omega, fun fuel => ?_⟩
      simp only [loop, hj, hb, Bool.false_eq_true, if_false, traverse]
      cases todo <;> rfl

/-- recursive any-hit traversal (proof device) -/
def traverseP {P : Type*} (prims : List P) (first : P → Option K) (r : FRay K) : Node K → Bool
  | .leaf f n b => boxHit b r && ((prims.drop f).take n).any (hitP first r.maxt)
  | .inter axis c0 c1 b =>
    boxHit b r && (if dirNeg (r.d.get axis) then traverseP prims first r c1 || traverseP prims first r c0
      else traverseP prims first r c0 || traverseP prims first r c1)

/-- what the any-hit loop does after a subtree with result `res` -/
def contP {P : Type*} (nodes : List (LNode K)) (prims : List P) (first : P → Option K) (r : FRay K)
    (fuel : ℕ) (todo : List ℕ) (res : Bool) : Except Err Bool :=
  if res then .ok true
  else match todo with
  | [] => .ok false
  | j :: rest => loopP nodes prims first r fuel j rest

theorem loopP_traverse {P : Type*} (nodes : List (LNode K)) (prims : List P) (first : P → Option K)
    (r : FRay K) (t : Node K) (i lo hi : ℕ) (hl : Layout nodes t i) (hp : Partitions prims t lo hi)
    (todo : List ℕ) (hd : todo.length + t.height ≤ 64) :
    ∃ n, n ≤ t.size ∧ ∀ fuel, loopP nodes prims first r (fuel + n) i todo =
      contP nodes prims first r fuel todo (traverseP prims first r t) := by
  induction t generalizing i lo hi todo with
  | leaf f n b =>
    refine ⟨1, le_refl _, fun fuel => ?_⟩
    obtain ⟨rfl, rfl, hn, hle⟩ := hp
    have hl' : nodes[i]? = some ⟨some b, f, n, 0⟩ := hl
    simp only [loopP, hl', traverseP]
    by_cases hb : boxHit b r = true
    · simp only [hb, if_true, gt_iff_lt, hn, leafPrims, hle, Bool.true_and]
      by_cases ha : ((prims.drop f).take n).any (hitP first r.maxt) = true
      · rw [ha]; simp [contP]
      · rw [Bool.not_eq_true] at ha; rw [ha]; cases todo <;> simp [contP]
    · rw [Bool.not_eq_true] at hb
      simp only [hb, Bool.false_eq_true, if_false, Bool.false_and]
      cases todo <;> simp [contP]
  | inter axis c0 c1 b ih0 ih1 =>
    obtain ⟨j, hj, -, h0, h1⟩ := hl
    obtain ⟨mid, p0, p1⟩ := hp
    simp only [Node.height] at hd
    by_cases hb : boxHit b r = true
    · have hlen : ¬ (todo.length ≥ 64) := by omega
      by_cases hneg : dirNeg (r.d.get axis) = true
      · obtain ⟨n1, m1, e1⟩ := ih1 j mid hi h1 p1 ((i + 1) :: todo) (by simp; omega)
        obtain ⟨n0, m0, e0⟩ := ih0 (i + 1) lo mid h0 p0 todo (by omega)
        by_cases hr : traverseP prims first r c1 = true
        · refine ⟨n1 + 1, by simp only [Node.size]; omega, fun fuel => ?_⟩
          rw [show fuel + (n1 + 1) = (fuel + n1) + 1 by omega]
          simp only [loopP, hj, hb, if_true, gt_iff_lt, lt_irrefl, if_false, hlen, hneg]
          rw [e1]
          simp only [traverseP, hb, hneg, if_true, hr, contP, Bool.true_and, Bool.true_or]
        · rw [Bool.not_eq_true] at hr
          refine ⟨n0 + n1 + 1, by simp only [Node.size]; omega, fun fuel => ?_⟩
          rw [show fuel + (n0 + n1 + 1) = (fuel + n0 + n1) + 1 by omega]
          simp only [loopP, hj, hb, if_true, gt_iff_lt, lt_irrefl, if_false, hlen, hneg]
          rw [e1, hr]
          simp only [contP, Bool.false_eq_true, if_false]
          rw [e0]
          simp only [traverseP, hb, hneg, if_true, hr, contP, Bool.true_and, Bool.false_or]
      · obtain ⟨n0, m0, e0⟩ := ih0 (i + 1) lo mid h0 p0 (j :: todo) (by simp; omega)
        obtain ⟨n1, m1, e1⟩ := ih1 j mid hi h1 p1 todo (by omega)
        rw [Bool.not_eq_true] at hneg
        by_cases hr : traverseP prims first r c0 = true
        · refine ⟨n0 + 1, by simp only [Node.size]; omega, fun fuel => ?_⟩
          rw [show fuel + (n0 + 1) = (fuel + n0) + 1 by omega]
          simp only [loopP, hj, hb, if_true, gt_iff_lt, lt_irrefl, if_false, hlen, hneg, Bool.false_eq_true]
          rw [e0]
          simp only [traverseP, hb, hneg, if_true, hr, contP, Bool.true_and, Bool.true_or, Bool.false_eq_true, if_false]
        · rw [Bool.not_eq_true] at hr
          refine ⟨n1 + n0 + 1, by simp only [Node.size]; omega, fun fuel => ?_⟩
          rw [show fuel + (n1 + n0 + 1) = (fuel + n1 + n0) + 1 by omega]
          simp only [loopP, hj, hb, if_true, gt_iff_lt, lt_irrefl, if_false, hlen, hneg, Bool.false_eq_true]
          rw [e0, hr]
          simp only [contP, Bool.false_eq_true, if_false]
          rw [e1]
          simp only [traverseP, hb, hneg, if_true, hr, contP, Bool.true_and, Bool.false_or, Bool.false_eq_true, if_false]
    · refine ⟨1, by have := size_pos c0; simp only [Node.size]; omega, fun fuel => ?_⟩
      rw [Bool.not_eq_true] at hb
      simp only [loopP, hj, hb, Bool.false_eq_true, if_false, traverseP, Bool.false_and]
      cases todo <;> simp [contP]

end
end Verif.BVH
