import Verif.Film.Lemmas
import Mathlib.Data.Rat.Floor
import Mathlib.Tactic.FieldSimp
import Mathlib.Tactic.FinCases
import Mathlib.Algebra.Order.BigOperators.Group.List

/-! # Properties of the film: C27 (footprint), C28 (order), C30 (image), C31 (extents) -/

namespace Verif.Film
set_option linter.unusedSectionVars false

section
variable {K : Type*} [Field K] [LinearOrder K] [IsStrictOrderedRing K] [FloorRing K]

/-! ### Specification -/

/-- offset of the centre of pixel `i` (array position) of an axis starting at `start` from a sample
coordinate -/
def off (start : ℤ) (i : ℕ) (X : K) : K := (start : K) + i + 1 / 2 - X

/-- pixel `(i, j)` is under the filter placed at `(X, Y)`: its centre is within the half-widths -/
def Under (f : Film K) (X Y : K) (i j : ℕ) : Prop :=
  |off f.xStart i X| ≤ f.filt.xw ∧ |off f.yStart j Y| ≤ f.filt.yw

/-- the filter value used for an offset `(dx, dy)`: the filter at the midpoint of the cell of the
16 × 16 subdivision of its positive quadrant that contains `(|dx|, |dy|)` -/
def cellMid (d w : K) : K := (((min 15 ⌊|d| / w * 16⌋ : ℤ) : K) + 1 / 2) * w / 16
def specWeight (flt : Filt K) (dx dy : K) : K := flt.eval (cellMid dx flt.xw) (cellMid dy flt.yw)

/-- what the constructors of filter and film establish -/
structure Made (f : Film K) : Prop where
  xw : 0 < f.filt.xw
  yw : 0 < f.filt.yw
  xi : f.filt.xwInv = 1 / f.filt.xw
  yi : f.filt.ywInv = 1 / f.filt.yw
  tab : ∀ r c : ℕ, f.table r c =
    f.filt.eval (((c : K) + 1 / 2) * (f.filt.xw / 16)) (((r : K) + 1 / 2) * (f.filt.yw / 16))
  cx : 0 < f.xCnt
  cy : 0 < f.yCnt

/-- everything but the pixel contents is the same -/
def SameFrame (f g : Film K) : Prop :=
  g.filt = f.filt ∧ g.xStart = f.xStart ∧ g.xCnt = f.xCnt ∧ g.yStart = f.yStart ∧ g.yCnt = f.yCnt ∧ g.table = f.table

theorem Film.init_made (xr yr : ℕ) (flt : Filt K) (c0 c1 c2 c3 : K) (h1 : 0 < flt.xw) (h2 : 0 < flt.yw)
    (h3 : flt.xwInv = 1 / flt.xw) (h4 : flt.ywInv = 1 / flt.yw) : Made (Film.init xr yr flt c0 c1 c2 c3) :=
  ⟨h1, h2, h3, h4, fun r c => by simp [Film.init, tableSize], by simp only [Film.init]; omega, by simp only [Film.init]; omega⟩

theorem Made.of_same {f g : Film K} (hf : Made f) (h : SameFrame f g) : Made g := by
  obtain ⟨a, b, c, d, e, t⟩ := h
  exact ⟨a ▸ hf.xw, a ▸ hf.yw, a ▸ hf.xi, a ▸ hf.yi, fun r k => by rw [t, a]; exact hf.tab r k, c ▸ hf.cx, e ▸ hf.cy⟩

/-! ### One sample -/

theorem axis_iff (start : ℤ) (cnt : ℕ) (X w : K) (i : ℕ) (hi : i < cnt) :
    (max ⌈X - 1 / 2 - w⌉ start ≤ start + i ∧ start + i ≤ min ⌊X - 1 / 2 + w⌋ (start + cnt - 1)) ↔ |off start i X| ≤ w := by
  rw [abs_le, off, max_le_iff, le_min_iff, Int.ceil_le, Int.le_floor]
  push_cast
  constructor
  · rintro ⟨⟨a, -⟩, b, -⟩; constructor <;> linarith
  · rintro ⟨a, b⟩; exact ⟨⟨by linarith, by omega⟩, by linarith, by omega⟩

theorem cellIx_spec (start : ℤ) (i : ℕ) (X w inv : K) (hw : 0 < w) (hinv : inv = 1 / w) :
    (((cellIx (start + i) (X - 1 / 2) inv).toNat : K) + 1 / 2) * (w / 16) = cellMid (off start i X) w := by
  have hb := cellIx_bounds (start + i) (X - 1 / 2) inv
  have e : cellIx (start + i) (X - 1 / 2) inv = min 15 ⌊|off start i X| / w * 16⌋ := by
    simp only [cellIx, off, tableSize, hinv]
    congr 1
    congr 1
    rw [abs_mul, abs_mul, abs_of_pos (by positivity : (0 : K) < 1 / w)]
    push_cast
    rw [abs_of_pos (by norm_num : (0 : K) < 16), show (start : K) + i - (X - 1 / 2) = start + i + 1 / 2 - X by ring]
    ring
  have : (((cellIx (start + i) (X - 1 / 2) inv).toNat : K)) = ((min 15 ⌊|off start i X| / w * 16⌋ : ℤ) : K) := by
    rw [← e, ← Int.cast_natCast, Int.toNat_of_nonneg hb.1]
  rw [this, cellMid]; ring

open Classical in
/-- `add_sample` on one pixel position, in or out of the array -/
theorem addSample_spec (f : Film K) (X Y : K) (L : Vec K) :
    ∃ f', addSample f X Y L = some f' ∧ SameFrame f f' ∧
      ∀ i j : ℕ, f'.pix i j = (f.pix i j).plus
        (if i < f.xCnt ∧ j < f.yCnt ∧ Under f X Y i j then
          (f.table (cellIx (f.yStart + j) (Y - 1 / 2) f.filt.ywInv).toNat
            (cellIx (f.xStart + i) (X - 1 / 2) f.filt.xwInv).toNat) • rgb2xyz L else 0) 0
        (if i < f.xCnt ∧ j < f.yCnt ∧ Under f X Y i j then
          (f.table (cellIx (f.yStart + j) (Y - 1 / 2) f.filt.ywInv).toNat
            (cellIx (f.xStart + i) (X - 1 / 2) f.filt.xwInv).toNat) else 0) := by
  refine ⟨_, by rw [addSample, updates_eq]; rfl, foldl_applyUpd_frame _ _, ?_⟩
  intro i j
  rw [foldl_applyUpd]
  set G := grid (rect f X Y).1 (rect f X Y).2.1 (rect f X Y).2.2.1 (rect f X Y).2.2.2 with hG
  have hmem : ((f.xStart + i, f.yStart + j) : ℤ × ℤ) ∈ G ↔ i < f.xCnt ∧ j < f.yCnt ∧ Under f X Y i j := by
    rw [hG, mem_grid]
    simp only [rect]
    constructor
    · rintro ⟨h1, h2⟩
      have hi : i < f.xCnt := by omega
      have hj : j < f.yCnt := by omega
      exact ⟨hi, hj, (axis_iff _ _ _ _ _ hi).1 h1, (axis_iff _ _ _ _ _ hj).1 h2⟩
    · rintro ⟨hi, hj, h1, h2⟩
      exact ⟨(axis_iff _ _ _ _ _ hi).2 h1, (axis_iff _ _ _ _ _ hj).2 h2⟩
  have hsel : ∀ p ∈ G, (i = (updOf f (X - 1 / 2) (Y - 1 / 2) (rgb2xyz L) p).i ∧
      j = (updOf f (X - 1 / 2) (Y - 1 / 2) (rgb2xyz L) p).j) ↔ p = (f.xStart + i, f.yStart + j) := by
    intro p hp
    rw [hG, mem_grid] at hp
    simp only [rect] at hp
    obtain ⟨a, b⟩ := p
    simp only [updOf, Prod.mk.injEq] at *
    omega
  have s1 : ∀ {M : Type _} [AddCommMonoid M] (g : Upd K → M),
      ((G.map (updOf f (X - 1 / 2) (Y - 1 / 2) (rgb2xyz L))).map (fun u => if i = u.i ∧ j = u.j then g u else 0)).sum
        = if i < f.xCnt ∧ j < f.yCnt ∧ Under f X Y i j then
          g (updOf f (X - 1 / 2) (Y - 1 / 2) (rgb2xyz L) (f.xStart + i, f.yStart + j)) else 0 := by
    intro M _ g
    rw [List.map_map]
    have : G.map ((fun u => if i = u.i ∧ j = u.j then g u else 0) ∘ updOf f (X - 1 / 2) (Y - 1 / 2) (rgb2xyz L))
        = G.map (fun p => if p = (f.xStart + i, f.yStart + j) then g (updOf f (X - 1 / 2) (Y - 1 / 2) (rgb2xyz L) p) else 0) := by
      apply List.map_congr_left
      intro p hp
      simp only [Function.comp]
      exact if_congr (hsel p hp) rfl rfl
    rw [this]
    by_cases hm : ((f.xStart + i, f.yStart + j) : ℤ × ℤ) ∈ G
    · rw [sum_single_mem G (grid_nodup _ _ _ _) _ _ hm, if_pos (hmem.1 hm)]
    · rw [sum_single_not_mem G _ _ hm, if_neg (fun h => hm (hmem.2 h))]
  rw [s1 (fun u => u.dL), s1 (fun u => u.dw)]
  rfl

open Classical in
/-- **C27** `add_sample`, for every film, filter, sample position (anywhere, in or out of the image) and
colour: no index error; exactly the pixels of the crop window whose centre is within the filter's
half-widths of the sample get `weight * colour` and `weight` added, the weight being the filter's value
at the table cell of the offset; every other pixel, and every splat value, is unchanged. -/
theorem C27_add_sample (f : Film K) (hf : Made f) (X Y : K) (L : Vec K) :
    ∃ f', addSample f X Y L = some f' ∧ SameFrame f f' ∧
      ∀ i < f.xCnt, ∀ j < f.yCnt,
        (Under f X Y i j → f'.pix i j =
          ⟨(f.pix i j).Lxyz + specWeight f.filt (off f.xStart i X) (off f.yStart j Y) • rgb2xyz L, (f.pix i j).splatXYZ,
           (f.pix i j).w + specWeight f.filt (off f.xStart i X) (off f.yStart j Y)⟩) ∧
        (¬ Under f X Y i j → f'.pix i j = f.pix i j) := by
  obtain ⟨f', h1, h2, h3⟩ := addSample_spec f X Y L
  refine ⟨f', h1, h2, fun i hi j hj => ?_⟩
  have hw : f.table (cellIx (f.yStart + j) (Y - 1 / 2) f.filt.ywInv).toNat
      (cellIx (f.xStart + i) (X - 1 / 2) f.filt.xwInv).toNat = specWeight f.filt (off f.xStart i X) (off f.yStart j Y) := by
    rw [hf.tab, cellIx_spec _ _ _ _ _ hf.xw hf.xi, cellIx_spec _ _ _ _ _ hf.yw hf.yi]; rfl
  rw [h3 i j, hw]
  constructor
  · intro hu
    rw [if_pos ⟨hi, hj, hu⟩, if_pos ⟨hi, hj, hu⟩]; simp [Pixel.plus]
  · intro hu
    rw [if_neg (fun h => hu h.2.2), if_neg (fun h => hu h.2.2)]; simp [Pixel.plus]

/-- **C27, consistency of the table**: the cell midpoint used lies within one table cell of the true
offset, for every offset under the filter. -/
theorem C27_table_offset_error (d w : K) (hw : 0 < w) (hd : |d| ≤ w) : abs (cellMid d w - |d|) ≤ w / 32 := by
  have h0 : 0 ≤ |d| := abs_nonneg d
  have hx : |d| / w * 16 ≤ 16 := by
    have : |d| / w ≤ 1 := (div_le_one hw).2 hd
    linarith
  set t := |d| / w * 16 with ht
  have hd' : |d| = t * w / 16 := by rw [ht]; field_simp
  have h1 := Int.floor_le t
  have h2 := Int.lt_floor_add_one t
  rw [cellMid, ← ht, hd']
  rcases lt_or_ge ⌊t⌋ 16 with h | h
  · rw [min_eq_right (by omega)]
    rw [abs_le]; constructor <;> nlinarith
  · have ht16 : t = 16 := le_antisymm hx (by
      have : ((16 : ℤ) : K) ≤ ⌊t⌋ := by exact_mod_cast h
      push_cast at this; linarith)
    rw [min_eq_left (by omega), ht16, abs_le]
    push_cast
    constructor <;> linarith

/-! ### Splats and histories -/

open Classical in
theorem splat_spec (f : Film K) (X Y : K) (L : Vec K) :
    ∃ f', splat f X Y L = some f' ∧ SameFrame f f' ∧
      ∀ i j : ℕ, f'.pix i j = (f.pix i j).plus 0
        (if i < f.xCnt ∧ j < f.yCnt ∧ f.xStart + i = ⌊X⌋ ∧ f.yStart + j = ⌊Y⌋ then rgb2xyz L else 0) 0 := by
  by_cases h : ⌊X⌋ < f.xStart ∨ ⌊X⌋ - f.xStart ≥ f.xCnt ∨ ⌊Y⌋ < f.yStart ∨ ⌊Y⌋ - f.yStart ≥ f.yCnt
  · refine ⟨f, by simp only [splat]; rw [if_pos h], ⟨rfl, rfl, rfl, rfl, rfl, rfl⟩, fun i j => ?_⟩
    rw [if_neg (by omega)]; simp [Pixel.plus]
  · refine ⟨{ f with pix := fun a b => if a = (⌊X⌋ - f.xStart).toNat ∧ b = (⌊Y⌋ - f.yStart).toNat then
        { f.pix a b with splatXYZ := (f.pix a b).splatXYZ + rgb2xyz L } else f.pix a b }, by
      simp only [splat]
      rw [if_neg h, npIndex_in _ _ (by omega), npIndex_in _ _ (by omega)], ⟨rfl, rfl, rfl, rfl, rfl, rfl⟩, fun i j => ?_⟩
    simp only
    by_cases hc : i = (⌊X⌋ - f.xStart).toNat ∧ j = (⌊Y⌋ - f.yStart).toNat
    · rw [if_pos hc, if_pos (by omega)]; simp [Pixel.plus]
    · rw [if_neg hc, if_neg (by omega)]; simp [Pixel.plus]

/-- colour, splat and weight an event adds to pixel `(i, j)` -/
noncomputable def addL (f : Film K) (i j : ℕ) : Ev K → Vec K
  | .sample X Y L => open Classical in if i < f.xCnt ∧ j < f.yCnt ∧ Under f X Y i j then
      (f.table (cellIx (f.yStart + j) (Y - 1 / 2) f.filt.ywInv).toNat
        (cellIx (f.xStart + i) (X - 1 / 2) f.filt.xwInv).toNat) • rgb2xyz L else 0
  | .splat _ _ _ => 0
noncomputable def addS (f : Film K) (i j : ℕ) : Ev K → Vec K
  | .sample _ _ _ => 0
  | .splat X Y L => open Classical in
      if i < f.xCnt ∧ j < f.yCnt ∧ f.xStart + i = ⌊X⌋ ∧ f.yStart + j = ⌊Y⌋ then rgb2xyz L else 0
noncomputable def addW (f : Film K) (i j : ℕ) : Ev K → K
  | .sample X Y _ => open Classical in if i < f.xCnt ∧ j < f.yCnt ∧ Under f X Y i j then
      (f.table (cellIx (f.yStart + j) (Y - 1 / 2) f.filt.ywInv).toNat
        (cellIx (f.xStart + i) (X - 1 / 2) f.filt.xwInv).toNat) else 0
  | .splat _ _ _ => 0

theorem runEv_spec (f : Film K) (e : Ev K) :
    ∃ f', runEv f e = some f' ∧ SameFrame f f' ∧
      ∀ i j : ℕ, f'.pix i j = (f.pix i j).plus (addL f i j e) (addS f i j e) (addW f i j e) := by
  cases e with
  | sample X Y L => exact addSample_spec f X Y L
  | splat X Y L => exact splat_spec f X Y L

theorem add_same {f g : Film K} (h : SameFrame f g) (i j : ℕ) :
    addL g i j = addL f i j ∧ addS g i j = addS f i j ∧ addW g i j = addW f i j := by
  obtain ⟨a, b, c, d, e, t⟩ := h
  cases f; cases g
  simp only at a b c d e t
  subst a b c d e t
  refine ⟨?_, ?_, ?_⟩ <;> funext ev <;> cases ev <;> rfl

theorem SameFrame.trans {f g h : Film K} (a : SameFrame f g) (b : SameFrame g h) : SameFrame f h := by
  obtain ⟨a1, a2, a3, a4, a5, a6⟩ := a
  obtain ⟨b1, b2, b3, b4, b5, b6⟩ := b
  exact ⟨b1.trans a1, b2.trans a2, b3.trans a3, b4.trans a4, b5.trans a5, b6.trans a6⟩

theorem run_spec (es : List (Ev K)) (f : Film K) :
    ∃ f', run f es = some f' ∧ SameFrame f f' ∧
      ∀ i j : ℕ, f'.pix i j = (f.pix i j).plus ((es.map (addL f i j)).sum) ((es.map (addS f i j)).sum)
        ((es.map (addW f i j)).sum) := by
  induction es generalizing f with
  | nil => exact ⟨f, rfl, ⟨rfl, rfl, rfl, rfl, rfl, rfl⟩, fun i j => by simp [Pixel.plus]⟩
  | cons e es ih =>
    obtain ⟨g, g1, g2, g3⟩ := runEv_spec f e
    obtain ⟨h, h1, h2, h3⟩ := ih g
    refine ⟨h, by rw [run, g1]; exact h1, g2.trans h2, fun i j => ?_⟩
    obtain ⟨a, b, c⟩ := add_same g2 i j
    rw [h3, g3, a, b, c]
    simp [Pixel.plus, add_assoc]

/-- **C28** every history of samples and splats succeeds, and any rearrangement of it gives the
same film; in particular (`tasks`) any division of the calls among tasks, run in any interleaving of
whole calls. -/
theorem C28_order_independent (f : Film K) (es : List (Ev K)) :
    ∃ f', run f es = some f' ∧ ∀ es' : List (Ev K), es'.Perm es → run f es' = some f' := by
  obtain ⟨f', h1, h2, h3⟩ := run_spec es f
  refine ⟨f', h1, fun es' hp => ?_⟩
  obtain ⟨g, g1, g2, g3⟩ := run_spec es' f
  rw [g1]
  congr 1
  obtain ⟨a1, a2, a3, a4, a5, a6⟩ := h2
  obtain ⟨b1, b2, b3, b4, b5, b6⟩ := g2
  have hpix : g.pix = f'.pix := by
    funext i j
    rw [h3, g3, (hp.map _).sum_eq, (hp.map _).sum_eq, (hp.map _).sum_eq]
  cases g; cases f'
  simp only at *
  subst_vars
  rfl

theorem C28_tasks (f : Film K) (tasks : List (List (Ev K))) (es : List (Ev K)) (h : es.Perm tasks.flatten) :
    run f es = run f tasks.flatten := by
  obtain ⟨f', h1, h2⟩ := C28_order_independent f tasks.flatten
  rw [h2 es h, h1]

/-! ### Extents -/

/-- **C31** every sample that can change a pixel of the film has its coordinates in the rectangle
`get_sample_extent` (lower borders included, upper borders excluded). -/
theorem C31_sample_extent (f : Film K) (X Y : K) (i j : ℕ) (hi : i < f.xCnt) (hj : j < f.yCnt) (hu : Under f X Y i j) :
    (((sampleExtent f).1 : K) ≤ X ∧ X < ((sampleExtent f).2.1 : K)) ∧
    (((sampleExtent f).2.2.1 : K) ≤ Y ∧ Y < ((sampleExtent f).2.2.2 : K)) := by
  obtain ⟨h1, h2⟩ := hu
  rw [abs_le, off] at h1 h2
  have ci : (i : K) + 1 ≤ f.xCnt := by exact_mod_cast hi
  have cj : (j : K) + 1 ≤ f.yCnt := by exact_mod_cast hj
  have i0 : (0 : K) ≤ i := by positivity
  have j0 : (0 : K) ≤ j := by positivity
  simp only [sampleExtent]
  refine ⟨⟨?_, ?_⟩, ?_, ?_⟩
  · refine (Int.floor_le _).trans ?_; linarith [h1.1, h1.2]
  · have := Int.lt_floor_add_one ((f.xStart : K) + 1 / 2 + f.xCnt + f.filt.xw); linarith [h1.1]
  · refine (Int.floor_le _).trans ?_; linarith [h2.1, h2.2]
  · have := Int.lt_floor_add_one ((f.yStart : K) + 1 / 2 + f.yCnt + f.filt.yw); linarith [h2.1]

/-- **C31** the pixel extent is the array of the film and is never empty. -/
theorem C31_pixel_extent (xr yr : ℕ) (flt : Filt K) (c0 c1 c2 c3 : K) :
    let f := Film.init xr yr flt c0 c1 c2 c3
    pixelExtent f = (f.xStart, f.xStart + f.xCnt, f.yStart, f.yStart + f.yCnt) ∧ 0 < f.xCnt ∧ 0 < f.yCnt := by
  refine ⟨rfl, ?_, ?_⟩ <;> simp only [Film.init] <;> omega

/-- **C31 (part)** for crop fractions in `[0, 1]` that select at least one column (row), the `x` extent is
exactly `[⌈xr c0⌉, ⌈xr c1⌉)`, inside the image; the `y` extent likewise if the image is square or the
crop starts at the top.  Missing: cropped `y` ranges of non-square images, which are wrong
(`C31_crop_y_false`). -/
theorem C31_inside_image_partial (xr yr : ℕ) (flt : Filt K) (c0 c1 c2 c3 : K) (h0 : 0 ≤ c0) (h1 : c1 ≤ 1) (h2 : 0 ≤ c2) (h3 : c3 ≤ 1)
    (hx : ⌈(xr : K) * c0⌉ < ⌈(xr : K) * c1⌉) (hy : ⌈(yr : K) * c2⌉ < ⌈(yr : K) * c3⌉) (hsq : xr = yr ∨ c2 = 0) :
    pixelExtent (Film.init xr yr flt c0 c1 c2 c3) =
      (⌈(xr : K) * c0⌉, ⌈(xr : K) * c1⌉, ⌈(yr : K) * c2⌉, ⌈(yr : K) * c3⌉) ∧
    0 ≤ ⌈(xr : K) * c0⌉ ∧ ⌈(xr : K) * c1⌉ ≤ xr ∧ 0 ≤ ⌈(yr : K) * c2⌉ ∧ ⌈(yr : K) * c3⌉ ≤ yr := by
  have hxy : ⌈(xr : K) * c2⌉ = ⌈(yr : K) * c2⌉ := by
    rcases hsq with rfl | rfl
    · rfl
    · simp
  refine ⟨?_, ?_, ?_, ?_, ?_⟩
  · simp only [pixelExtent, Film.init, hxy]
    refine Prod.ext rfl (Prod.ext ?_ (Prod.ext rfl ?_)) <;> simp only <;> omega
  · exact Int.ceil_nonneg (by positivity)
  · rw [Int.ceil_le]; push_cast
    have : (0 : K) ≤ xr := by positivity
    nlinarith
  · exact Int.ceil_nonneg (by positivity)
  · rw [Int.ceil_le]; push_cast
    have : (0 : K) ≤ yr := by positivity
    nlinarith

end

/-- **C31 fails for cropped non-square images**: a 20 × 10 image cropped to its lower half gets the
row range `[10, 11)`, which is outside the image; the crop asked for rows `[5, 10)`. -/
theorem C31_crop_y_false (flt : Filt ℚ) :
    pixelExtent (Film.init 20 10 flt 0 1 (1 / 2) 1) = (0, 20, 10, 11) ∧ ⌈(10 : ℚ) * (1 / 2)⌉ = 5 := by
  have h1 : ⌈(20 : ℚ) * (1 / 2)⌉ = 10 := by rw [Int.ceil_eq_iff]; norm_num
  refine ⟨?_, by rw [Int.ceil_eq_iff]; norm_num⟩
  simp only [pixelExtent, Film.init, Nat.cast_ofNat, h1]
  have h2 : ⌈(20 : ℚ) * 0⌉ = 0 := by simp
  have h3 : ⌈(20 : ℚ) * 1⌉ = 20 := by rw [Int.ceil_eq_iff]; norm_num
  have h4 : ⌈(10 : ℚ) * 1⌉ = 10 := by rw [Int.ceil_eq_iff]; norm_num
  simp only [h2, h3, h4]
  decide

/-- non-vacuity: a film with a box filter of half-width 3/2 meets `Made`, and a sample at (2, 2) has
pixel (1, 1) under it -/
example : Made (Film.init 4 4 (⟨3 / 2, 3 / 2, 1 / (3 / 2), 1 / (3 / 2), fun _ _ => 1⟩ : Filt ℚ) 0 1 0 1) :=
  Film.init_made _ _ _ _ _ _ _ (by norm_num) (by norm_num) rfl rfl
example : Under (Film.init 4 4 (⟨3 / 2, 3 / 2, 1 / (3 / 2), 1 / (3 / 2), fun _ _ => 1⟩ : Filt ℚ) 0 1 0 1) 2 2 1 1 := by
  simp [Under, off, Film.init, abs_le]; norm_num

end Verif.Film
