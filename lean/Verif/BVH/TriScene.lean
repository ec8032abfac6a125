import Verif.BVH.Rounded
import Verif.Shape.TriRounded

/-!
# Scenes of triangles in rounded arithmetic (C181)

`BVH` over triangles: construction and both queries of `aggregate/accelerator/bvh.py` as in `BVH/Rounded.lean` (C175) and the triangle test as in `Shape/TriRounded.lean` (C180), every
operation rounded to binary64.  `GeometricPrimitive.intersect` (`aggregate/primitive.py:89-108`) calls the test with the ray's current `maxt` and stores the distance there.
-/
set_option linter.unusedSectionVars false

namespace Verif.TriScene
open BBox Verif.Rnd Verif.BVH Verif.Shape V3

variable {K : Type*} [Field K] [LinearOrder K] [IsStrictOrderedRing K] [FloorRing K]

/-! ### Model -/

/-- three corners in world space -/
structure Tri (K : Type*) where
  p1 : V3 K
  p2 : V3 K
  p3 : V3 K

/-- `world_bound` (`shape/triangle.py:140-144`; minima and maxima are exact) -/
def Tri.bound (q : Tri K) : BBox K := (BBox.ofPoints q.p1 q.p2).unionPt q.p3

/-- the ray as the triangle test sees it, without an upper limit -/
def openRay (r : FRay K) (mint : K) : Shape.Ray K := ⟨r.o, rayDir r, mint, ⊤⟩

/-- the distance the triangle test computes (`triangle.py:183-207`); the comparison with `maxt` is made by `hitOne` and `hitP` -/
def dist (r : FRay K) (mint : K) (q : Tri K) : Option K := (coreR ieee q.p1 q.p2 q.p3 (openRay r mint)).map (·.1)

/-! ### Specification -/

/-- the ray meets the triangle at the distance `t`, and the point is away from the edges and the near end of the ray by a few times the tolerance `ε` of the test (`Shape.tol`);
`slack` is the error of the distance -/
structure ClearHit (r : FRay K) (mint : K) (q : Tri K) (t slack : K) : Prop where
  ex : ∃ L G ε b1 b2 : K, Sized q.p1 q.p2 q.p3 (openRay r mint) L G ∧ Transversal q.p1 q.p2 q.p3 (rayDir r) ∧ ε = tol q.p1 q.p2 q.p3 (openRay r mint) L G ∧ ε ≤ 1 / 8 ∧
    rayAt r.o (rayDir r) t = bary q.p1 q.p2 q.p3 b1 b2 ∧ 2 * ε ≤ b1 ∧ 2 * ε ≤ b2 ∧ b1 + b2 ≤ 1 - 3 * ε ∧ slack = ε * (L / G + |t|) ∧ mint ≤ t - slack

/-! ### Traversal: what happens to one primitive -/

theorem traverseG_one {P : Type*} (bh : BBox K → FRay K → Bool) (wb : P → BBox K) (prims : List P) (first : P → Option K) (r : FRay K) (hm : MonoTest bh r)
    (q : P) (s e : K) (hs : first q = some s) (hse : s ≤ e) (hq : ∀ maxt, F.lt (.fin e) maxt = true → bh (wb q) { r with maxt := maxt } = true)
    (t : Node K) (lo hi : ℕ) (hp : Partitions prims t lo hi) (ht : AllNodes (TightBox wb prims) t lo) (acc : Acc K P) :
    Lower prims first acc (traverseG bh prims first r t acc) ∧
    (q ∈ slice prims lo hi → F.lt (.fin e) (traverseG bh prims first r t acc).maxt = false) := by
  induction t generalizing lo hi acc with
  | leaf f n b =>
    obtain ⟨rfl, rfl, hn, hle⟩ := hp
    have hsl : slice prims f (f + n) = (prims.drop f).take n := by simp [slice]
    simp only [traverseG]
    split_ifs with hb
    · rw [← hsl]
      obtain ⟨h1, h2⟩ := foldl_spec prims first _ (fun p hp => mem_slice hp) acc
      refine ⟨h1, fun hmem => ?_⟩
      have := h2 q hmem s hs
      generalize (List.foldl (hitOne first) acc (slice prims f (f + n))).maxt = m at *
      cases m <;> simp_all [F.lt]
      linarith
    · refine ⟨Or.inl rfl, fun hp => ?_⟩
      by_contra hlt
      exact hb (hm _ _ _ ((ht b).1 (Sub.refl _) q hp) (hq _ (by simpa using hlt)))
  | inter axis c0 c1 b ih0 ih1 =>
    have hcnt := hp.count
    obtain ⟨mid, p0, p1⟩ := hp
    obtain ⟨hQ, a0, a1⟩ := ht
    have k0 := p0.count
    have b0 := p0.bounds
    have b1 := p1.bounds
    rw [← k0] at a1
    simp only [traverseG]
    split_ifs with hb hneg
    · obtain ⟨s1, s2⟩ := ih1 mid hi p1 a1 acc
      obtain ⟨u1, u2⟩ := ih0 lo mid p0 a0 (traverseG bh prims first r c1 acc)
      refine ⟨s1.trans u1, fun hp => ?_⟩
      rw [slice_split prims lo mid hi b0.1.le b1.1.le] at hp
      rcases List.mem_append.1 hp with hp | hp
      · exact u2 hp
      · exact u1.keep (s2 hp)
    · obtain ⟨s1, s2⟩ := ih0 lo mid p0 a0 acc
      obtain ⟨u1, u2⟩ := ih1 mid hi p1 a1 (traverseG bh prims first r c0 acc)
      refine ⟨s1.trans u1, fun hp => ?_⟩
      rw [slice_split prims lo mid hi b0.1.le b1.1.le] at hp
      rcases List.mem_append.1 hp with hp | hp
      · exact u1.keep (s2 hp)
      · exact u2 hp
    · refine ⟨Or.inl rfl, fun hp => ?_⟩
      by_contra hlt
      have hp' := hp
      rw [hcnt] at hp'
      exact hb (hm _ _ _ ((hQ b).1 (Sub.refl _) q hp') (hq _ (by simpa using hlt)))

theorem traverseG_lower {P : Type*} (bh : BBox K → FRay K → Bool) (prims : List P) (first : P → Option K) (r : FRay K) (t : Node K) (acc : Acc K P) :
    Lower prims first acc (traverseG bh prims first r t acc) := by
  induction t generalizing acc with
  | leaf f n b =>
    simp only [traverseG]
    split_ifs with hb
    · exact (foldl_spec prims first _ (fun p hp => List.mem_of_mem_drop (List.mem_of_mem_take hp)) acc).1
    · exact Or.inl rfl
  | inter axis c0 c1 b ih0 ih1 =>
    simp only [traverseG]
    split_ifs with hb hneg
    · exact (ih1 acc).trans (ih0 _)
    · exact (ih0 acc).trans (ih1 _)
    · exact Or.inl rfl

theorem traversePG_one {P : Type*} (bh : BBox K → FRay K → Bool) (wb : P → BBox K) (prims : List P) (first : P → Option K) (r : FRay K) (hm : MonoTest bh r)
    (t : Node K) (lo hi : ℕ) (hp : Partitions prims t lo hi) (ht : AllNodes (TightBox wb prims) t lo)
    (p : P) (hmem : p ∈ slice prims lo hi) (s : K) (hs : first p = some s) (hle : F.le (.fin s) r.maxt = true) (hbh : bh (wb p) r = true) :
    traversePG bh prims first r t = true := by
  have hbox : ∀ b, Sub (wb p) b → bh b r = true := fun b hb => hm _ _ _ hb hbh
  induction t generalizing lo hi with
  | leaf f n b =>
    obtain ⟨rfl, rfl, hn, hle'⟩ := hp
    have hsl : slice prims f (f + n) = (prims.drop f).take n := by simp [slice]
    simp only [traversePG, hbox b ((ht b).1 (Sub.refl _) p hmem), Bool.true_and, List.any_eq_true]
    exact ⟨p, by rw [← hsl]; exact hmem, by simp only [hitP, hs]; exact hle⟩
  | inter axis c0 c1 b ih0 ih1 =>
    have hcnt := hp.count
    obtain ⟨mid, p0, p1⟩ := hp
    obtain ⟨hq, a0, a1⟩ := ht
    have k0 := p0.count
    have b0 := p0.bounds
    have b1 := p1.bounds
    rw [← k0] at a1
    have hb : bh b r = true := by
      have hm' := hmem
      rw [hcnt] at hm'
      exact hbox b ((hq b).1 (Sub.refl _) p hm')
    rw [slice_split prims lo mid hi b0.1.le b1.1.le] at hmem
    simp only [traversePG, hb, Bool.true_and]
    rcases List.mem_append.1 hmem with hm | hm
    · rw [ih0 lo mid p0 a0 hm]; simp
    · rw [ih1 mid hi p1 a1 hm]; simp

/-! ### One slab -/

/-- the computed parameter of a plane, without underflow -/
theorem plane_err {x o d : K} (hx : Grid (-200) x) (ho : Grid (-200) o) (hd0 : d ≠ 0) (hd : |d| ≤ 2 ^ (100 : ℤ)) :
    |double (double (x - o) * double (1 / d)) - (x - o) / d| ≤ 2 ^ (-51 : ℤ) * |(x - o) / d| := by
  have gx : Grid (-200) (x - o) := hx.sub ho
  have h1 : |double (x - o) - (x - o)| ≤ 2 ^ (-53 : ℤ) * |x - o| := double_err_grid (Grid.mono (by norm_num) gx)
  have hinv : (2 : K) ^ (-100 : ℤ) ≤ |1 / d| := by
    rw [abs_div, abs_one, zpow_neg, ← one_div]
    exact one_div_le_one_div_of_le (abs_pos.2 hd0) hd
  have h2 : |double (1 / d) - 1 / d| ≤ 2 ^ (-53 : ℤ) * |1 / d| := double_err_rel (le_trans (zpow_le_zpow_right₀ one_le_two (by norm_num)) hinv)
  have hinv2 : (2 : K) ^ (-101 : ℤ) ≤ |double (1 / d)| := by
    have := abs_sub_abs_le_abs_sub (1 / d) (double (1 / d))
    rw [abs_sub_comm] at this
    have e : (2 : K) ^ (-100 : ℤ) = 2 * 2 ^ (-101 : ℤ) := by rw [show (-100 : ℤ) = 1 + -101 by norm_num, zpow_add₀ two_ne_zero]; norm_num
    rw [e] at hinv
    have u : (2 : K) ^ (-53 : ℤ) ≤ 1 / 2 := by norm_num
    have k := mul_le_mul_of_nonneg_right u (abs_nonneg (1 / d))
    generalize (2 : K) ^ (-101 : ℤ) = p at *
    linarith
  have gD : Grid (-200) (double (x - o)) := gx.round
  have h3 : |double (double (x - o) * double (1 / d)) - double (x - o) * double (1 / d)| ≤ 2 ^ (-53 : ℤ) * |double (x - o) * double (1 / d)| + 0 := by
    rw [add_zero]
    rcases gD.zero_or with h | h
    · rw [h, zero_mul, double_zero]; simp
    · refine double_err_rel ?_
      rw [abs_mul]
      calc (2 : K) ^ (-1022 : ℤ) ≤ 2 ^ (-200 : ℤ) * 2 ^ (-101 : ℤ) := by rw [← zpow_add₀ two_ne_zero]; exact zpow_le_zpow_right₀ one_le_two (by norm_num)
        _ ≤ |double (x - o)| * |double (1 / d)| := mul_le_mul h hinv2 (two_zpow_pos _).le (abs_nonneg _)
  have h4 := prod_err (two_zpow_pos (K := K) (-53)).le (by norm_num) le_rfl h1 h2 h3
  rw [mul_one_div, add_zero] at h4
  have e1 : (4 : K) * 2 ^ (-53 : ℤ) = 2 ^ (-51 : ℤ) := by norm_num
  rwa [e1] at h4

/-- what the box test needs of one slab at the parameter `τ` -/
def Passes (lo hi o : K) (d : Dir K) (τ : K) : Prop :=
  (LoB τ (slabR ieee lo hi o d).1 ∧ HiB τ (slabR ieee lo hi o d).2) ∧ (slabR ieee lo hi o d).1 ≠ .nan ∧ (slabR ieee lo hi o d).2 ≠ .nan

/-- data of one axis: the slab, the origin and direction of the ray -/
structure Axis (lo hi o : K) (d : Dir K) (L : K) : Prop where
  glo : Grid (-200) lo
  ghi : Grid (-200) hi
  go : Grid (-200) o
  hd : |d.val| ≤ 2 ^ (100 : ℤ)
  hz : d.val ≠ 0 ∨ d.negZero = false
  lo_le : |lo - o| ≤ 2 * L
  hi_le : |hi - o| ≤ 2 * L

theorem plane_pos {x o d L : K} (hx : Grid (-200) x) (ho : Grid (-200) o) (hd0 : d ≠ 0) (hd : |d| ≤ 2 ^ (100 : ℤ)) (hL : |x - o| ≤ 2 * L) :
    |double (double (x - o) * double (1 / d)) * d - (x - o)| ≤ 2 ^ (-50 : ℤ) * L := by
  have h := plane_err hx ho hd0 hd
  have e : double (double (x - o) * double (1 / d)) * d - (x - o) = (double (double (x - o) * double (1 / d)) - (x - o) / d) * d := by field_simp
  rw [e, abs_mul]
  refine (mul_le_mul_of_nonneg_right h (abs_nonneg _)).trans ?_
  rw [abs_div, mul_assoc, div_mul_cancel₀ _ (abs_pos.2 hd0).ne', show (2 : K) ^ (-50 : ℤ) = 2 ^ (-51 : ℤ) * 2 by norm_num, mul_assoc]
  exact mul_le_mul_of_nonneg_left hL (two_zpow_pos _).le

/-- the computed parameters of the two planes: in the order of the planes the ray meets -/
theorem slab_planes {lo hi o L : K} {d : Dir K} (h : Axis lo hi o d L) (hle : lo ≤ hi) (h0 : d.val ≠ 0) :
    ∃ a b : K, slabR ieee lo hi o d = (.fin a, .fin b) ∧ a ≤ b ∧
      ((0 < d.val ∧ |a * d.val - (lo - o)| ≤ 2 ^ (-50 : ℤ) * L ∧ |b * d.val - (hi - o)| ≤ 2 ^ (-50 : ℤ) * L) ∨
       (d.val < 0 ∧ |a * d.val - (hi - o)| ≤ 2 ^ (-50 : ℤ) * L ∧ |b * d.val - (lo - o)| ≤ 2 ^ (-50 : ℤ) * L)) := by
  have hinv : (F.fin (1:K)).divFin d.val d.negZero = .fin (1 / d.val) := by simp [F.divFin, h0]
  have hl := plane_pos h.glo h.go h0 h.hd h.lo_le
  have hh := plane_pos h.ghi h.go h0 h.hd h.hi_le
  have hm : double (lo - o) ≤ double (hi - o) := double_mono (by linarith)
  simp only [slabR, hinv, mulFin, rndF]
  rcases lt_or_gt_of_ne h0 with hs | hs
  · have hn : dirNeg d = true := by simp [dirNeg, hs]
    rw [hn]; simp only [if_true]
    refine ⟨_, _, rfl, ?_, Or.inr ⟨hs, hh, hl⟩⟩
    refine double_mono (mul_le_mul_of_nonpos_right hm ?_)
    have := (ieee : Rounding K).rnd_nonpos (x := 1 / d.val) (one_div_nonpos.2 hs.le)
    exact this
  · have hn : dirNeg d = false := by simp [dirNeg]; exact hs.le
    rw [hn]; simp only [Bool.false_eq_true, if_false]
    refine ⟨_, _, rfl, ?_, Or.inl ⟨hs, hl, hh⟩⟩
    refine double_mono (mul_le_mul_of_nonneg_right hm ?_)
    have := (ieee : Rounding K).rnd_nonneg (x := 1 / d.val) (one_div_nonneg.2 hs.le)
    exact this

/-- a slab that the ray passes inside, by more than the rounding error, at `t`: the test can use any parameter near `t` -/
theorem axis_clear {lo hi o t τ L : K} {d : Dir K} (h : Axis lo hi o d L) (hL : 0 < L)
    (h1 : 2 ^ (-50 : ℤ) * L + |τ - t| * |d.val| ≤ (o + t * d.val) - lo) (h2 : 2 ^ (-50 : ℤ) * L + |τ - t| * |d.val| ≤ hi - (o + t * d.val)) : Passes lo hi o d τ := by
  have k0 : 0 < (2 : K) ^ (-50 : ℤ) * L := mul_pos (two_zpow_pos _) hL
  have hp : 0 ≤ |τ - t| * |d.val| := by positivity
  have hle : lo ≤ hi := by linarith
  by_cases h0 : d.val = 0
  · rw [h0] at h1 h2
    have hz : d.negZero = false := h.hz.resolve_left (fun f => f h0)
    have a1 : lo < o := by simp at h1; linarith
    have a2 : o < hi := by simp at h2; linarith
    have hneg : dirNeg d = false := by simp [dirNeg, h0]
    have hinv : (F.fin (1:K)).divFin d.val d.negZero = .pinf := by simp [F.divFin, h0, hz]
    have rel : ∀ {y : K}, Grid (-200) y → y ≠ 0 → double y ≠ 0 := by
      intro y g hy e
      have := double_err_grid (Grid.mono (h := -1074) (by norm_num) g)
      rw [e, zero_sub, abs_neg] at this
      have hy' := abs_pos.2 hy
      have : (2 : K) ^ (-53 : ℤ) * |y| < 1 * |y| := mul_lt_mul_of_pos_right (by norm_num) hy'
      linarith
    have p1 : (ieee : Rounding K).sub' lo o < 0 := lt_of_le_of_ne ((ieee : Rounding K).rnd_nonpos (by linarith)) (rel (h.glo.sub h.go) (by linarith [a1] |> fun (q : lo - o < 0) => q.ne))
    have p2 : 0 < (ieee : Rounding K).sub' hi o := lt_of_le_of_ne ((ieee : Rounding K).rnd_nonneg (by linarith)) (rel (h.ghi.sub h.go) (by linarith [a2] |> fun (q : 0 < hi - o) => q.ne')).symm
    simp only [Passes, slabR, hneg, hinv, rndF, mulFin, Bool.false_eq_true, if_false]
    rw [if_neg p1.ne, if_neg p1.not_gt, if_neg p2.ne', if_pos p2]
    exact ⟨⟨Or.inr (Or.inl rfl), Or.inr (Or.inl rfl)⟩, by simp, by simp⟩
  · obtain ⟨a, b, e, hab, hc⟩ := slab_planes h hle h0
    rw [Passes, e]
    have hτ := abs_le.1 (le_of_eq (abs_mul (τ - t) d.val))
    rcases hc with ⟨hs, ha, hb⟩ | ⟨hs, ha, hb⟩
    · have ha := abs_le.1 ha
      have hb := abs_le.1 hb
      refine ⟨⟨Or.inr (Or.inr ⟨a, ?_, rfl⟩), Or.inr (Or.inr ⟨b, ?_, rfl⟩)⟩, by simp, by simp⟩
      · refine le_of_mul_le_mul_right ?_ hs
        linarith [hτ.1]
      · refine le_of_mul_le_mul_right ?_ hs
        linarith [hτ.2]
    · have ha := abs_le.1 ha
      have hb := abs_le.1 hb
      refine ⟨⟨Or.inr (Or.inr ⟨a, ?_, rfl⟩), Or.inr (Or.inr ⟨b, ?_, rfl⟩)⟩, by simp, by simp⟩
      · refine (mul_le_mul_right_of_neg hs).1 ?_
        linarith [hτ.2]
      · refine (mul_le_mul_right_of_neg hs).1 ?_
        linarith [hτ.1]

/-- a thin slab: it is passed at some parameter near `t` -/
theorem axis_thin {lo hi o t L : K} {d : Dir K} (h : Axis lo hi o d L) (hL : 0 < L) (h0 : d.val ≠ 0) (h1 : lo ≤ o + t * d.val) (h2 : o + t * d.val ≤ hi) :
    ∃ τ, |τ - t| * |d.val| ≤ 2 ^ (-50 : ℤ) * L ∧ Passes lo hi o d τ := by
  have k0 : 0 < (2 : K) ^ (-50 : ℤ) * L := mul_pos (two_zpow_pos _) hL
  obtain ⟨a, b, e, hab, hc⟩ := slab_planes h (h1.trans h2) h0
  have ea : (a - t) * |d.val| ≤ 2 ^ (-50 : ℤ) * L := by
    rcases hc with ⟨hs, ha, hb⟩ | ⟨hs, ha, hb⟩
    · rw [abs_of_pos hs]; linarith [(abs_le.1 ha).2]
    · rw [abs_of_neg hs]; linarith [(abs_le.1 ha).1]
  have eb : (t - b) * |d.val| ≤ 2 ^ (-50 : ℤ) * L := by
    rcases hc with ⟨hs, ha, hb⟩ | ⟨hs, ha, hb⟩
    · rw [abs_of_pos hs]; linarith [(abs_le.1 hb).1]
    · rw [abs_of_neg hs]; linarith [(abs_le.1 hb).2]
  have ok : ∀ τ, a ≤ τ → τ ≤ b → Passes lo hi o d τ := by
    intro τ q1 q2
    rw [Passes, e]
    exact ⟨⟨Or.inr (Or.inr ⟨a, q1, rfl⟩), Or.inr (Or.inr ⟨b, q2, rfl⟩)⟩, by simp, by simp⟩
  rcases le_total a t with h3 | h3
  · rcases le_total t b with h4 | h4
    · exact ⟨t, by simpa using k0.le, ok t h3 h4⟩
    · exact ⟨b, by rwa [abs_sub_comm, abs_of_nonneg (by linarith)], ok b hab le_rfl⟩
  · exact ⟨a, by rwa [abs_of_nonneg (by linarith)], ok a le_rfl hab⟩

/-! ### Thin and clear axes -/

/-- if the box is thin along the third axis, the ray crosses it along that axis, at a parameter known well enough for the other two -/
theorem thin_third {k L G ε D Ex Ey Ez dx dy dz : K} (k0 : 0 < k) (L0 : 0 < L) (G0 : 0 < G) (e0 : 0 < ε) (hD : D * ε = 32 * k * (G * L ^ 2))
    (x0 : 0 ≤ Ex) (y0 : 0 ≤ Ey) (z0 : 0 ≤ Ez) (x1 : Ex ≤ 2 * L) (y1 : Ey ≤ 2 * L) (az0 : 0 ≤ dz) (ax : dx ≤ G) (ay : dy ≤ G) (az : dz ≤ G)
    (hb : D ≤ 2 * (dx * (Ey * Ez) + dy * (Ez * Ex) + dz * (Ex * Ey))) (thin : ε * Ez ≤ k * L) :
    0 < dz ∧ 2 * (k * G) ≤ ε * dz ∧ k * L * dx + k * L * dz ≤ 2 * (ε * Ex) * dz ∧ k * L * dy + k * L * dz ≤ 2 * (ε * Ey) * dz := by
  have q1 : dx * (Ey * (ε * Ez)) ≤ G * (2 * L * (k * L)) := mul_le_mul ax (mul_le_mul y1 thin (by positivity) (by positivity)) (by positivity) G0.le
  have q2 : dy * ((ε * Ez) * Ex) ≤ G * (k * L * (2 * L)) := mul_le_mul ay (mul_le_mul thin x1 x0 (by positivity)) (by positivity) G0.le
  have q3 : 12 * k * (G * L ^ 2) ≤ ε * dz * (Ex * Ey) := by
    have := mul_le_mul_of_nonneg_right hb e0.le
    rw [hD] at this
    nlinarith
  have M : 0 < k * (G * L ^ 2) := by positivity
  have dz0 : 0 < dz := by
    rcases az0.lt_or_eq with h | h
    · exact h
    · rw [← h] at q3; simp at q3; linarith
  have ed : 0 < ε * dz := mul_pos e0 dz0
  have r1 : ε * dz * (Ex * Ey) ≤ ε * dz * (2 * L * (2 * L)) := mul_le_mul_of_nonneg_left (mul_le_mul x1 y1 y0 (by positivity)) ed.le
  have rx : ε * dz * (Ex * Ey) ≤ ε * dz * (Ex * (2 * L)) := mul_le_mul_of_nonneg_left (mul_le_mul_of_nonneg_left y1 x0) ed.le
  have ry : ε * dz * (Ex * Ey) ≤ ε * dz * (2 * L * Ey) := mul_le_mul_of_nonneg_left (mul_le_mul_of_nonneg_right x1 y0) ed.le
  have L2 : 0 < L ^ 2 := by positivity
  have sx : 6 * (k * (G * L)) ≤ ε * dz * Ex := by
    refine le_of_mul_le_mul_right ?_ (show (0 : K) < 2 * L by positivity)
    nlinarith
  have sy : 6 * (k * (G * L)) ≤ ε * dz * Ey := by
    refine le_of_mul_le_mul_right ?_ (show (0 : K) < 2 * L by positivity)
    nlinarith
  have kl : 0 < k * L := mul_pos k0 L0
  have tx := mul_le_mul_of_nonneg_left ax kl.le
  have ty := mul_le_mul_of_nonneg_left ay kl.le
  have tz := mul_le_mul_of_nonneg_left az kl.le
  refine ⟨dz0, ?_, ?_, ?_⟩
  · refine le_of_mul_le_mul_right ?_ (show (0 : K) < 4 * L ^ 2 by positivity)
    have e1 : 2 * (k * G) * (4 * L ^ 2) = 8 * (k * (G * L ^ 2)) := by ring
    have e2 : ε * dz * (2 * L * (2 * L)) = ε * dz * (4 * L ^ 2) := by ring
    have e3 : 12 * k * (G * L ^ 2) = 12 * (k * (G * L ^ 2)) := by ring
    linarith
  · have e1 : 2 * (ε * Ex) * dz = 2 * (ε * dz * Ex) := by ring
    have e2 : k * L * G = k * (G * L) := by ring
    have e3 : 0 ≤ k * (G * L) := by positivity
    linarith
  · have e1 : 2 * (ε * Ey) * dz = 2 * (ε * dz * Ey) := by ring
    have e2 : k * L * G = k * (G * L) := by ring
    have e3 : 0 ≤ k * (G * L) := by positivity
    linarith

/-- one axis of the hit: the ray passes the slab at `t`, away from its faces by `2ε` of its width -/
structure AxisHit (lo hi o : K) (d : Dir K) (t L G ε : K) : Prop extends Axis lo hi o d L where
  wide : 0 ≤ hi - lo
  size : hi - lo ≤ 2 * L
  speed : |d.val| ≤ G
  above : 2 * (ε * (hi - lo)) ≤ o + t * d.val - lo
  below : 2 * (ε * (hi - lo)) ≤ hi - (o + t * d.val)

theorem third_case {lx hx ox ly hy oy lz hz oz t L G ε D : K} {dx dy dz : Dir K} (X : AxisHit lx hx ox dx t L G ε) (Y : AxisHit ly hy oy dy t L G ε) (Z : AxisHit lz hz oz dz t L G ε)
    (L0 : 0 < L) (G0 : 0 < G) (e0 : 0 < ε) (hD : D * ε = 32 * 2 ^ (-50 : ℤ) * (G * L ^ 2))
    (hb : D ≤ 2 * (|dx.val| * ((hy - ly) * (hz - lz)) + |dy.val| * ((hz - lz) * (hx - lx)) + |dz.val| * ((hx - lx) * (hy - ly)))) (thin : ε * (hz - lz) ≤ 2 ^ (-50 : ℤ) * L) :
    ∃ τ, |τ - t| < ε * (L / G) ∧ Passes lx hx ox dx τ ∧ Passes ly hy oy dy τ ∧ Passes lz hz oz dz τ := by
  have k0 := two_zpow_pos (K := K) (-50)
  obtain ⟨d0, h1, h2, h3⟩ := thin_third k0 L0 G0 e0 hD X.wide Y.wide Z.wide X.size Y.size (abs_nonneg _) X.speed Y.speed Z.speed hb thin
  have zl : 0 ≤ 2 * (ε * (hz - lz)) := by have := Z.wide; positivity
  obtain ⟨τ, hτ, hp⟩ := axis_thin (t := t) Z.toAxis L0 (abs_pos.1 d0) (by linarith [Z.above]) (by linarith [Z.below])
  have other : ∀ {lo hi o : K} {d : Dir K}, AxisHit lo hi o d t L G ε → (2 : K) ^ (-50 : ℤ) * L * |d.val| + 2 ^ (-50 : ℤ) * L * |dz.val| ≤ 2 * (ε * (hi - lo)) * |dz.val| →
      Passes lo hi o d τ := by
    intro lo hi o d A hA
    have m : (2 : K) ^ (-50 : ℤ) * L + |τ - t| * |d.val| ≤ 2 * (ε * (hi - lo)) := by
      refine le_of_mul_le_mul_right ?_ d0
      have := mul_le_mul_of_nonneg_right hτ (abs_nonneg d.val)
      generalize (2 : K) ^ (-50 : ℤ) = k at *
      linarith
    exact axis_clear A.toAxis L0 (m.trans A.above) (m.trans A.below)
  refine ⟨τ, ?_, other X h2, other Y h3, hp⟩
  rw [← mul_div_assoc, lt_div_iff₀ G0]
  refine lt_of_mul_lt_mul_right ?_ d0.le
  have a := mul_le_mul_of_nonneg_right hτ G0.le
  have b := mul_le_mul_of_nonneg_right h1 L0.le
  have c : 0 < (2 : K) ^ (-50 : ℤ) * G * L := by positivity
  generalize (2 : K) ^ (-50 : ℤ) = k at *
  linarith

/-- all three axes -/
theorem all_axes {lx hx ox ly hy oy lz hz oz t L G ε D : K} {dx dy dz : Dir K} (X : AxisHit lx hx ox dx t L G ε) (Y : AxisHit ly hy oy dy t L G ε) (Z : AxisHit lz hz oz dz t L G ε)
    (L0 : 0 < L) (G0 : 0 < G) (e0 : 0 < ε) (hD : D * ε = 32 * 2 ^ (-50 : ℤ) * (G * L ^ 2))
    (hb : D ≤ 2 * (|dx.val| * ((hy - ly) * (hz - lz)) + |dy.val| * ((hz - lz) * (hx - lx)) + |dz.val| * ((hx - lx) * (hy - ly)))) :
    ∃ τ, |τ - t| < ε * (L / G) ∧ Passes lx hx ox dx τ ∧ Passes ly hy oy dy τ ∧ Passes lz hz oz dz τ := by
  by_cases tz : ε * (hz - lz) ≤ 2 ^ (-50 : ℤ) * L
  · exact third_case X Y Z L0 G0 e0 hD hb tz
  by_cases ty : ε * (hy - ly) ≤ 2 ^ (-50 : ℤ) * L
  · obtain ⟨τ, h, a, b, c⟩ := third_case Z X Y L0 G0 e0 hD (by linarith) ty
    exact ⟨τ, h, b, c, a⟩
  by_cases tx : ε * (hx - lx) ≤ 2 ^ (-50 : ℤ) * L
  · obtain ⟨τ, h, a, b, c⟩ := third_case Y Z X L0 G0 e0 hD (by linarith) tx
    exact ⟨τ, h, c, a, b⟩
  have k0 : 0 < (2 : K) ^ (-50 : ℤ) * L := mul_pos (two_zpow_pos _) L0
  have one : ∀ {lo hi o : K} {d : Dir K}, AxisHit lo hi o d t L G ε → ¬ ε * (hi - lo) ≤ 2 ^ (-50 : ℤ) * L → Passes lo hi o d t := by
    intro lo hi o d A hA
    have m : (2 : K) ^ (-50 : ℤ) * L + |t - t| * |d.val| ≤ 2 * (ε * (hi - lo)) := by
      rw [sub_self, abs_zero, zero_mul]
      push Not at hA
      generalize (2 : K) ^ (-50 : ℤ) * L = k at *
      linarith
    exact axis_clear A.toAxis L0 (m.trans A.above) (m.trans A.below)
  exact ⟨t, by rw [sub_self, abs_zero]; positivity, one X tx, one Y ty, one Z tz⟩

/-! ### The box of a triangle -/

theorem min3_cases (a b c : K) : min (min a b) c = a ∨ min (min a b) c = b ∨ min (min a b) c = c := by
  rcases min_choice (min a b) c with h | h
  · rw [h]; rcases min_choice a b with h | h <;> simp [h]
  · simp [h]

theorem max3_cases (a b c : K) : max (max a b) c = a ∨ max (max a b) c = b ∨ max (max a b) c = c := by
  rcases max_choice (max a b) c with h | h
  · rw [h]; rcases max_choice a b with h | h <;> simp [h]
  · simp [h]

theorem axisHit {a b c o t L G ε b1 b2 : K} {d : Dir K} (ga : Grid (-200) a) (gb : Grid (-200) b) (gc : Grid (-200) c) (go : Grid (-200) o)
    (h1 : |b - a| ≤ L) (h2 : |c - a| ≤ L) (h3 : |o - a| ≤ L) (hd : |d.val| ≤ G) (hG : G ≤ 2 ^ (100 : ℤ)) (hz : d.val ≠ 0 ∨ d.negZero = false) (e0 : 0 < ε)
    (hb1 : 2 * ε ≤ b1) (hb2 : 2 * ε ≤ b2) (hb : b1 + b2 ≤ 1 - 3 * ε) (hx : o + t * d.val = (1 - b1 - b2) * a + b1 * b + b2 * c) :
    AxisHit (min (min a b) c) (max (max a b) c) o d t L G ε ∧ |b - a| ≤ max (max a b) c - min (min a b) c ∧ |c - a| ≤ max (max a b) c - min (min a b) c := by
  have la : min (min a b) c ≤ a := (min_le_left _ _).trans (min_le_left _ _)
  have lb : min (min a b) c ≤ b := (min_le_left _ _).trans (min_le_right _ _)
  have lc : min (min a b) c ≤ c := min_le_right _ _
  have ua : a ≤ max (max a b) c := (le_max_left _ _).trans (le_max_left _ _)
  have ub : b ≤ max (max a b) c := (le_max_right _ _).trans (le_max_left _ _)
  have uc : c ≤ max (max a b) c := le_max_right _ _
  have hl := min3_cases a b c
  have hh := max3_cases a b c
  generalize min (min a b) c = lo at *
  generalize max (max a b) c = hi at *
  have i1 := abs_le.1 h1
  have i2 := abs_le.1 h2
  have i3 := abs_le.1 h3
  have glo : Grid (-200) lo := by rcases hl with h | h | h <;> rw [h] <;> assumption
  have ghi : Grid (-200) hi := by rcases hh with h | h | h <;> rw [h] <;> assumption
  have w1 : |lo - a| ≤ L := by rcases hl with h | h | h <;> rw [h, abs_le] <;> constructor <;> linarith
  have w2 : |hi - a| ≤ L := by rcases hh with h | h | h <;> rw [h, abs_le] <;> constructor <;> linarith
  have j1 := abs_le.1 w1
  have j2 := abs_le.1 w2
  have wide : 0 ≤ hi - lo := by linarith
  have b0 : 2 * ε ≤ 1 - b1 - b2 := by linarith
  have ma := mul_le_mul_of_nonneg_right b0 (show 0 ≤ a - lo by linarith)
  have mb := mul_le_mul_of_nonneg_right hb1 (show 0 ≤ b - lo by linarith)
  have mc := mul_le_mul_of_nonneg_right hb2 (show 0 ≤ c - lo by linarith)
  have na := mul_le_mul_of_nonneg_right b0 (show 0 ≤ hi - a by linarith)
  have nb := mul_le_mul_of_nonneg_right hb1 (show 0 ≤ hi - b by linarith)
  have nc := mul_le_mul_of_nonneg_right hb2 (show 0 ≤ hi - c by linarith)
  have pa : 0 ≤ 2 * ε * (a - lo) := by have : 0 ≤ a - lo := by linarith
                                       positivity
  have pb : 0 ≤ 2 * ε * (b - lo) := by have : 0 ≤ b - lo := by linarith
                                       positivity
  have pc : 0 ≤ 2 * ε * (c - lo) := by have : 0 ≤ c - lo := by linarith
                                       positivity
  have qa : 0 ≤ 2 * ε * (hi - a) := by have : 0 ≤ hi - a := by linarith
                                       positivity
  have qb : 0 ≤ 2 * ε * (hi - b) := by have : 0 ≤ hi - b := by linarith
                                       positivity
  have qc : 0 ≤ 2 * ε * (hi - c) := by have : 0 ≤ hi - c := by linarith
                                       positivity
  refine ⟨⟨⟨glo, ghi, go, hd.trans hG, hz, ?_, ?_⟩, wide, by linarith, hd, ?_, ?_⟩, ?_, ?_⟩
  · rw [abs_le]; constructor <;> linarith
  · rw [abs_le]; constructor <;> linarith
  · rw [hx]
    rcases hh with h | h | h <;> rw [h] <;> linarith
  · rw [hx]
    rcases hl with h | h | h <;> rw [h] <;> linarith
  · rw [abs_le]; constructor <;> linarith
  · rw [abs_le]; constructor <;> linarith

theorem det_bound {d e1 e2 : V3 K} {Ex Ey Ez : K} (x1 : |e1.x| ≤ Ex) (x2 : |e2.x| ≤ Ex) (y1 : |e1.y| ≤ Ey) (y2 : |e2.y| ≤ Ey) (z1 : |e1.z| ≤ Ez) (z2 : |e2.z| ≤ Ez) :
    |dot (cross d e2) e1| ≤ 2 * (|d.x| * (Ey * Ez) + |d.y| * (Ez * Ex) + |d.z| * (Ex * Ey)) := by
  have t : ∀ {p a b A B : K}, |a| ≤ A → |b| ≤ B → |p * (a * b)| ≤ |p| * (A * B) := by
    intro p a b A B ha hb
    rw [abs_mul, abs_mul]
    exact mul_le_mul_of_nonneg_left (mul_le_mul ha hb (abs_nonneg _) ((abs_nonneg _).trans ha)) (abs_nonneg _)
  have h1 := abs_le.1 (t (p := d.x) y2 z1)
  have h2 := abs_le.1 (t (p := d.x) y1 z2)
  have h3 := abs_le.1 (t (p := d.y) z2 x1)
  have h4 := abs_le.1 (t (p := d.y) z1 x2)
  have h5 := abs_le.1 (t (p := d.z) x2 y1)
  have h6 := abs_le.1 (t (p := d.z) x1 y2)
  have e : dot (cross d e2) e1 = d.x * (e2.y * e1.z) - d.x * (e1.y * e2.z) + (d.y * (e2.z * e1.x) - d.y * (e1.z * e2.x)) + (d.z * (e2.x * e1.y) - d.z * (e1.x * e2.y)) := by
    simp only [dot, cross]; ring
  rw [e, abs_le]
  constructor <;> linarith [h1.1, h1.2, h2.1, h2.2, h3.1, h3.2, h4.1, h4.2, h5.1, h5.2, h6.1, h6.2]

theorem lt_of_le_lt {a b : K} {m : F K} (h : a ≤ b) (hb : F.lt (.fin b) m = true) : F.lt (.fin a) m = true := by
  cases m <;> simp_all [F.lt]
  linarith

/-- the box of a triangle with a clear hit passes the rounded test -/
theorem box_admits {r : FRay K} {mint : K} (hr : NoNegZero r) (hmint : r.mint = .fin mint) {q : Tri K} {t slack : K} (h : ClearHit r mint q t slack) (maxt : F K)
    (hlt : F.lt (.fin (t + slack)) maxt = true) : boxHitR ieee q.bound { r with maxt := maxt } = true := by
  obtain ⟨L, G, ε, b1, b2, hs, h0, hε, he, hit, hb1, hb2, hb, hsl, hmin⟩ := h.ex
  obtain ⟨c1, c2, c3, co, cd⟩ := hs.coarse
  have L0 := hs.size.1
  have G0 := hs.speed.1
  have hD0 : dot (cross (rayDir r) (q.p3 - q.p1)) (q.p2 - q.p1) ≠ 0 := by rw [Shape.div_eq, neg_ne_zero]; exact h0
  have D0 := abs_pos.2 hD0
  have hεD : |dot (cross (rayDir r) (q.p3 - q.p1)) (q.p2 - q.p1)| * ε = 32 * 2 ^ (-50 : ℤ) * (G * L ^ 2) := by
    rw [hε, tol, mul_div_assoc', mul_comm, mul_div_assoc, openRay, div_self D0.ne', show (2 : K) ^ (-45 : ℤ) = 32 * 2 ^ (-50 : ℤ) by norm_num]; ring
  have e0 : 0 < ε := by
    have : 0 < |dot (cross (rayDir r) (q.p3 - q.p1)) (q.p2 - q.p1)| * ε := by rw [hεD]; have := two_zpow_pos (K := K) (-50); positivity
    exact (pos_iff_pos_of_mul_pos this).1 D0
  have hx := congrArg V3.x hit
  have hy := congrArg V3.y hit
  have hz := congrArg V3.z hit
  simp only [rayAt, bary, rayDir, add_x, add_y, add_z, smul_x, smul_y, smul_z] at hx hy hz
  obtain ⟨X, X1, X2⟩ := axisHit (d := r.d.x) (t := t) c1.1 c2.1 c3.1 co.1 hs.e1.1 hs.e2.1 hs.o.1 hs.d.1 hs.speed.2 hr.1 e0 hb1 hb2 hb ((congrArg (r.o.x + ·) (mul_comm t _)).trans hx)
  obtain ⟨Y, Y1, Y2⟩ := axisHit (d := r.d.y) (t := t) c1.2.1 c2.2.1 c3.2.1 co.2.1 hs.e1.2.1 hs.e2.2.1 hs.o.2.1 hs.d.2.1 hs.speed.2 hr.2.1 e0 hb1 hb2 hb ((congrArg (r.o.y + ·) (mul_comm t _)).trans hy)
  obtain ⟨Z, Z1, Z2⟩ := axisHit (d := r.d.z) (t := t) c1.2.2 c2.2.2 c3.2.2 co.2.2 hs.e1.2.2 hs.e2.2.2 hs.o.2.2 hs.d.2.2 hs.speed.2 hr.2.2 e0 hb1 hb2 hb ((congrArg (r.o.z + ·) (mul_comm t _)).trans hz)
  obtain ⟨τ, hτ, px, py, pz⟩ := all_axes X Y Z L0 G0 e0 hεD (det_bound (d := rayDir r) X1 X2 Y1 Y2 Z1 Z2)
  have sl : ε * (L / G) ≤ slack := by
    rw [hsl]; exact mul_le_mul_of_nonneg_left (by linarith [abs_nonneg t]) e0.le
  have hτ' := abs_lt.1 hτ
  refine boxHitR_of_bounds ieee q.bound { r with maxt := maxt } τ px.1 px.2 py.1 pz.1 ?_ ?_
  · change F.lt r.mint (.fin τ) = true
    rw [hmint]
    simp only [F.lt, decide_eq_true_eq]
    linarith
  · change F.lt (.fin τ) maxt = true
    exact lt_of_le_lt (show τ ≤ t + slack by linarith) hlt

/-- a clear hit is found by the triangle test -/
theorem dist_clear {r : FRay K} {mint : K} {q : Tri K} {t slack : K} (h : ClearHit r mint q t slack) : ∃ s, dist r mint q = some s ∧ |s - t| ≤ slack := by
  obtain ⟨L, G, ε, b1, b2, hs, h0, hε, he, hit, hb1, hb2, hb, hsl, hmin⟩ := h.ex
  obtain ⟨t', b1', b2', hc, ht, -⟩ := C180_found q.p1 q.p2 q.p3 (openRay r mint) L G hs h0 ε hε he t b1 b2 hit hb1 hb2 hb (hsl ▸ hmin) le_top
  exact ⟨t', by rw [dist, hc]; rfl, hsl ▸ ht⟩

/-! ### Theorems -/

/-- **C181** a scene of triangles in binary64: construction, box tests and triangle tests rounded.  Let the hierarchy be built and be at most 64 levels high (otherwise see C38), and
let no component of the direction be `-0.0`.  Then the nearest-hit query does not fail.  If it reports a hit, the triangle test gave that distance for the reported triangle (so
that by C180 the ray meets the triangle there up to the tolerance), in the range of the ray.  Every triangle that the ray clearly meets before the end of its range is seen:
a hit is reported, not farther than that triangle up to the tolerance of its distance.  The any-hit query answers yes only if some triangle test does, and it does so whenever
some triangle is clearly met. -/
theorem C181_scene (cfg : Config K) (tris : List (Tri K)) (hne : tris ≠ []) (r : FRay K) (mint : K) (hmint : r.mint = .fin mint) (hr : NoNegZero r)
    (node : Node K) (ordered : List (Tri K)) (total : ℕ)
    (h : buildG (decideR ieee cfg) tris tris.length (buildData Tri.bound tris) [] 0 = .ok (node, ordered, total)) (hh : node.height ≤ 64) :
    ∃ bvh acc res, mkR ieee cfg Tri.bound tris = .ok bvh ∧
      (∀ fuel ≥ total, bvh.intersectR ieee (dist r mint) r fuel = .ok acc ∧ bvh.intersectPR ieee (dist r mint) r fuel = .ok res) ∧
      (acc = ⟨r.maxt, none, false⟩ ∨ ∃ q ∈ tris, ∃ s b1 b2, coreR ieee q.p1 q.p2 q.p3 (openRay r mint) = some (s, b1, b2) ∧ acc = ⟨.fin s, some q, true⟩ ∧ F.le (.fin s) r.maxt = true) ∧
      (∀ q ∈ tris, ∀ t slack, ClearHit r mint q t slack → F.lt (.fin (t + slack)) r.maxt = true → ∃ s p, acc = ⟨.fin s, some p, true⟩ ∧ s ≤ t + slack) ∧
      (res = true → ∃ q ∈ tris, ∃ s b1 b2, coreR ieee q.p1 q.p2 q.p3 (openRay r mint) = some (s, b1, b2) ∧ F.le (.fin s) r.maxt = true) ∧
      (∀ q ∈ tris, ∀ t slack, ClearHit r mint q t slack → F.lt (.fin (t + slack)) r.maxt = true → res = true) := by
  obtain ⟨hperm, hpart, htight, htot⟩ := buildR_correct ieee cfg Tri.bound tris node ordered total h
  have hmono : MonoTest (boxHitR ieee) r := fun b b' maxt hs hb => C175_box_test ieee b b' { r with maxt := maxt } hr hs hb
  have hl' : tris.length ≠ 0 := by simpa using hne
  have hsl : slice ordered 0 ordered.length = ordered := by simp [slice]
  have named : ∀ {q : Tri K} {s : K}, dist r mint q = some s → ∃ b1 b2, coreR ieee q.p1 q.p2 q.p3 (openRay r mint) = some (s, b1, b2) := by
    intro q s hq
    simp only [dist, Option.map_eq_some_iff] at hq
    obtain ⟨⟨s', b1, b2⟩, hq, rfl⟩ := hq
    exact ⟨b1, b2, hq⟩
  have hlow : Lower ordered (dist r mint) ⟨r.maxt, none, false⟩ (traverseG (boxHitR ieee) ordered (dist r mint) r node ⟨r.maxt, none, false⟩) :=
    traverseG_lower _ _ _ _ _ _
  refine ⟨⟨ordered, some (preorder node 0)⟩, traverseG (boxHitR ieee) ordered (dist r mint) r node ⟨r.maxt, none, false⟩, traversePG (boxHitR ieee) ordered (dist r mint) r node, ?_, ?_, ?_, ?_, ?_, ?_⟩
  · simp only [mkR, hl', if_false, h, htot, C37_flatten_is_preorder node hpart.nonEmpty]
  · intro fuel hf
    constructor
    · obtain ⟨n, hn, hl⟩ := loopG_traverse (boxHitR ieee) (preorder node 0) ordered (dist r mint) r node 0 0 ordered.length (C37_layout node) hpart [] (by simpa using hh) ⟨r.maxt, none, false⟩
      have := hl (fuel - n)
      rw [show fuel - n + n = fuel by omega] at this
      simpa [Bvh.intersectR, contG] using this
    · obtain ⟨n, hn, hl⟩ := loopPG_traverse (boxHitR ieee) (preorder node 0) ordered (dist r mint) r node 0 0 ordered.length (C37_layout node) hpart [] (by simpa using hh)
      have := hl (fuel - n)
      rw [show fuel - n + n = fuel by omega] at this
      cases hres : traversePG (boxHitR ieee) ordered (dist r mint) r node <;> rw [hres] at this <;> simpa [Bvh.intersectPR, contPG] using this
  · rcases hlow with e | ⟨q, hq, s, hs, e, hle⟩
    · exact Or.inl e
    · obtain ⟨b1, b2, hc⟩ := named hs
      exact Or.inr ⟨q, hperm.mem_iff.1 hq, s, b1, b2, hc, e, hle⟩
  · intro q hq t slack hc hlt
    obtain ⟨s, hs, hst⟩ := dist_clear hc
    obtain ⟨-, h2⟩ := traverseG_one (boxHitR ieee) Tri.bound ordered (dist r mint) r hmono q s (t + slack) hs (by linarith [(abs_le.1 hst).2]) (fun maxt hm => box_admits hr hmint hc maxt hm)
      node 0 ordered.length hpart htight ⟨r.maxt, none, false⟩
    have h2 := h2 (by rw [hsl]; exact hperm.mem_iff.2 hq)
    rcases hlow with e | ⟨p, hp, s', hs', e, hle⟩
    · rw [e] at h2; rw [hlt] at h2; cases h2
    · rw [e] at h2 ⊢
      refine ⟨s', p, rfl, ?_⟩
      simpa [F.lt] using h2
  · intro hres
    obtain ⟨q, hq, s, hs, hle⟩ := traversePG_sound _ ordered (dist r mint) r node hres
    obtain ⟨b1, b2, hc⟩ := named hs
    exact ⟨q, hperm.mem_iff.1 hq, s, b1, b2, hc, hle⟩
  · intro q hq t slack hc hlt
    obtain ⟨s, hs, hst⟩ := dist_clear hc
    refine traversePG_one _ Tri.bound ordered (dist r mint) r hmono node 0 ordered.length hpart htight q (by rw [hsl]; exact hperm.mem_iff.2 hq) s hs ?_ (box_admits hr hmint hc r.maxt hlt)
    have := (abs_le.1 hst).2
    generalize r.maxt = m at hlt
    cases m <;> simp_all [F.lt, F.le]
    linarith

/-- **C181** no hypothesis on the hierarchy: with at most 65 triangles, the surface-area method and at most four triangles per node it is always built, and is low enough -/
theorem C181_small_scene (cfg : Config K) (hm : cfg.middle = false) (hmax : cfg.maxPrim ≤ 4) (tris : List (Tri K)) (hne : tris ≠ []) (hsmall : tris.length ≤ 65)
    (r : FRay K) (mint : K) (hmint : r.mint = .fin mint) (hr : NoNegZero r) :
    ∃ bvh acc res total, mkR ieee cfg Tri.bound tris = .ok bvh ∧
      (∀ fuel ≥ total, bvh.intersectR ieee (dist r mint) r fuel = .ok acc ∧ bvh.intersectPR ieee (dist r mint) r fuel = .ok res) ∧
      (acc = ⟨r.maxt, none, false⟩ ∨ ∃ q ∈ tris, ∃ s b1 b2, coreR ieee q.p1 q.p2 q.p3 (openRay r mint) = some (s, b1, b2) ∧ acc = ⟨.fin s, some q, true⟩ ∧ F.le (.fin s) r.maxt = true) ∧
      (∀ q ∈ tris, ∀ t slack, ClearHit r mint q t slack → F.lt (.fin (t + slack)) r.maxt = true → ∃ s p, acc = ⟨.fin s, some p, true⟩ ∧ s ≤ t + slack) ∧
      (∀ q ∈ tris, ∀ t slack, ClearHit r mint q t slack → F.lt (.fin (t + slack)) r.maxt = true → res = true) := by
  obtain ⟨hc, -, hl⟩ := buildData_consistent Tri.bound tris
  obtain ⟨⟨node, ordered, total⟩, h⟩ := buildG_ok (decideR ieee cfg) (fun d ds => by
      obtain ⟨r, hr⟩ := decideR_ok ieee cfg hm hmax d ds
      rcases r with _ | ⟨dim, l, mid⟩
      · exact Or.inl hr
      · exact Or.inr ⟨dim, l, mid, hr, decideR_spec ieee cfg d ds dim l mid hr⟩) Tri.bound tris tris.length (buildData Tri.bound tris) [] 0
    (by intro h; rw [h] at hl; exact hne (List.length_eq_zero_iff.1 hl.symm)) (by rw [hl]) hc
  have hh : node.height ≤ 64 := by
    obtain ⟨hperm, hpart, -, -⟩ := buildR_correct ieee cfg Tri.bound tris node ordered total h
    have h1 := hpart.count
    have h2 := height_lt_count hpart
    have := hperm.length_eq
    omega
  obtain ⟨bvh, acc, res, a1, a2, a3, a4, -, a6⟩ := C181_scene cfg tris hne r mint hmint hr node ordered total h hh
  exact ⟨bvh, acc, res, total, a1, a2, a3, a4, a6⟩

/-! ### Concrete case -/

/-- a slanted triangle -/
def triA : Tri ℚ := ⟨⟨1, 1, 0⟩, ⟨4, 1, 1⟩, ⟨1, 4, 1⟩⟩
/-- a flat triangle behind it -/
def triB : Tri ℚ := ⟨⟨0, 0, -2⟩, ⟨8, 0, -2⟩, ⟨0, 8, -2⟩⟩
/-- a ray through both -/
def rayAB : FRay ℚ := ⟨⟨2, 2, 5⟩, ⟨⟨1 / 8, false⟩, ⟨0, false⟩, ⟨-1, false⟩⟩, .fin 0, .pinf⟩

/-- both triangles are clearly met, with errors of the distance below `10^-11`, although the box of the second has no thickness -/
example : NoNegZero rayAB ∧ (∃ slack, ClearHit rayAB 0 triA (104 / 25) slack ∧ slack ≤ 1 / 100000000000) ∧ (∃ slack, ClearHit rayAB 0 triB 7 slack ∧ slack ≤ 1 / 100000000000) := by
  have g : ∀ {n : ℤ} {x : ℚ}, x = n * 2 ^ (-3 : ℤ) → Grid (-200) x := fun {n x} h => Grid.mono (show (-200 : ℤ) ≤ -3 by norm_num) ⟨n, h⟩
  have cA : Coarse triA.p1 ∧ Coarse triA.p2 ∧ Coarse triA.p3 :=
    ⟨⟨g (n := 8) (by decide +kernel), g (n := 8) (by decide +kernel), g (n := 0) (by decide +kernel)⟩, ⟨g (n := 32) (by decide +kernel), g (n := 8) (by decide +kernel), g (n := 8) (by decide +kernel)⟩,
      g (n := 8) (by decide +kernel), g (n := 32) (by decide +kernel), g (n := 8) (by decide +kernel)⟩
  have cB : Coarse triB.p1 ∧ Coarse triB.p2 ∧ Coarse triB.p3 :=
    ⟨⟨g (n := 0) (by decide +kernel), g (n := 0) (by decide +kernel), g (n := -16) (by decide +kernel)⟩, ⟨g (n := 64) (by decide +kernel), g (n := 0) (by decide +kernel), g (n := -16) (by decide +kernel)⟩,
      g (n := 0) (by decide +kernel), g (n := 64) (by decide +kernel), g (n := -16) (by decide +kernel)⟩
  have cR : Coarse (openRay rayAB 0).o ∧ Coarse (openRay rayAB 0).d :=
    ⟨⟨g (n := 16) (by decide +kernel), g (n := 16) (by decide +kernel), g (n := 40) (by decide +kernel)⟩, g (n := 1) (by decide +kernel), g (n := 0) (by decide +kernel), g (n := -8) (by decide +kernel)⟩
  refine ⟨by simp [NoNegZero, rayAB], ⟨_, ⟨5, 1, _, 38 / 75, 1 / 3, ?_, ?_, rfl, ?_, ?_, ?_, ?_, ?_, rfl, ?_⟩, ?_⟩, ⟨_, ⟨8, 1, _, 23 / 64, 1 / 4, ?_, ?_, rfl, ?_, ?_, ?_, ?_, ?_, rfl, ?_⟩, ?_⟩⟩
  case refine_1 => exact ⟨⟨by norm_num, by norm_num⟩, ⟨by norm_num, by norm_num⟩, ⟨cA.1, cA.2.1, cA.2.2, cR.1, cR.2⟩, by simp only [Within]; decide +kernel, by simp only [Within]; decide +kernel, by simp only [Within]; decide +kernel, by simp only [Within]; decide +kernel⟩
  case refine_10 => exact ⟨⟨by norm_num, by norm_num⟩, ⟨by norm_num, by norm_num⟩, ⟨cB.1, cB.2.1, cB.2.2, cR.1, cR.2⟩, by simp only [Within]; decide +kernel, by simp only [Within]; decide +kernel, by simp only [Within]; decide +kernel, by simp only [Within]; decide +kernel⟩
  all_goals first | decide +kernel | (simp only [Transversal]; decide +kernel)

end Verif.TriScene
