import Verif.Film.Props
import Verif.Num.Majorant

/-!
# `ImageFilm` in rounded arithmetic (C176)

As `Film/Model.lean`, with the result of every operation rounded (`Num/Round.lean`), decimal constants included.  The filter function, `eval`, is any function; overflow is
not modelled.
-/

namespace Verif.Film
open Verif.Rnd
set_option linter.unusedSectionVars false

section
variable {K : Type*} [Field K] [LinearOrder K] [FloorRing K] (R : Rounding K)

/-- a decimal constant with six places -/
def dec (n : ℤ) : K := R.rnd ((n : K) / 1000000)

/-- `rgb2xyz` (`spectral/spectrum.py:31-34`). -/
def rgb2xyzR (c : Vec K) : Vec K :=
  ![R.add (R.add (R.mul (dec R 412453) (c 0)) (R.mul (dec R 357580) (c 1))) (R.mul (dec R 180423) (c 2)),
    R.add (R.add (R.mul (dec R 212671) (c 0)) (R.mul (dec R 715160) (c 1))) (R.mul (dec R 72169) (c 2)),
    R.add (R.add (R.mul (dec R 19334) (c 0)) (R.mul (dec R 119193) (c 1))) (R.mul (dec R 950227) (c 2))]

/-- `xyz2rgb` (`spectral/spectrum.py:25-28`). -/
def xyz2rgbR (c : Vec K) : Vec K :=
  ![R.sub' (R.sub' (R.mul (dec R 3240479) (c 0)) (R.mul (dec R 1537150) (c 1))) (R.mul (dec R 498535) (c 2)),
    R.add (R.add (R.mul (-dec R 969256) (c 0)) (R.mul (dec R 1875991) (c 1))) (R.mul (dec R 41556) (c 2)),
    R.add (R.sub' (R.mul (dec R 55648) (c 0)) (R.mul (dec R 204043) (c 1))) (R.mul (dec R 1057311) (c 2))]

/-- extent and storage (`film.py:115-135`). -/
def initR (xr yr : ℕ) (filt : Filt K) (c0 c1 c2 c3 : K) : Film K where
  filt := filt
  xStart := ⌈R.mul (xr : K) c0⌉
  xCnt := (max 1 (⌈R.mul (xr : K) c1⌉ - ⌈R.mul (xr : K) c0⌉)).toNat
  yStart := ⌈R.mul (xr : K) c2⌉
  yCnt := (max 1 (⌈R.mul (yr : K) c3⌉ - ⌈R.mul (xr : K) c2⌉)).toNat
  table := fun y x => filt.eval (R.mul (R.add (x : K) (1 / 2)) (R.div filt.xw (tableSize : K))) (R.mul (R.add (y : K) (1 / 2)) (R.div filt.yw (tableSize : K)))
  pix := fun _ _ => ⟨0, 0, 0⟩

/-- one entry of `ifx` / `ify` (`film.py:166-169`). -/
def cellIxR (x : ℤ) (d inv : K) : ℤ := min (tableSize - 1 : ℤ) ⌊|R.mul (R.mul (R.sub' (x : K) d) (tableSize : K)) inv|⌋

/-- the body of the loop for raster position `(x, y)` up to the two increments (`film.py:183-188`);
`none` is an `IndexError`. -/
def updAtR (f : Film K) (ifx ify : List ℤ) (x0 y0 : ℤ) (xyz : Vec K) (x y : ℤ) : Option (Upd K) :=
  match (npGet ify (y - y0)).bind (npIndex tableSize), (npGet ifx (x - x0)).bind (npIndex tableSize),
    npIndex f.xCnt (x - f.xStart), npIndex f.yCnt (y - f.yStart) with
  | some r, some c, some i, some j => some ⟨i, j, fun k => R.mul (f.table r c) (xyz k), f.table r c⟩
  | _, _, _, _ => none

/-- the pixel updates made by `add_sample`, in order (`film.py:146-188`). -/
def updatesR (f : Film K) (imageX imageY : K) (L : Vec K) : Option (List (Upd K)) :=
  let dX := R.sub' imageX (1 / 2)
  let dY := R.sub' imageY (1 / 2)
  let x0 := max ⌈R.sub' dX f.filt.xw⌉ f.xStart
  let x1 := min ⌊R.add dX f.filt.xw⌋ (f.xStart + f.xCnt - 1)
  let y0 := max ⌈R.sub' dY f.filt.yw⌉ f.yStart
  let y1 := min ⌊R.add dY f.filt.yw⌋ (f.yStart + f.yCnt - 1)
  if x1 - x0 < 0 ∨ y1 - y0 < 0 then some []
  else
    let xyz := rgb2xyzR R L
    let ifx := (irange x0 x1).map (fun x => cellIxR R x dX f.filt.xwInv)
    let ify := (irange y0 y1).map (fun y => cellIxR R y dY f.filt.ywInv)
    ((irange y0 y1).flatMap (fun y => (irange x0 x1).map (fun x => (x, y)))).mapM
      (fun p => updAtR R f ifx ify x0 y0 xyz p.1 p.2)

/-- `pxl.Lxyz += wt * xyz; pxl.weight_sum += wt` on one pixel (`film.py:187-188, 196-197`). -/
def applyUpdR (f : Film K) (u : Upd K) : Film K :=
  { f with pix := fun i j => if i = u.i ∧ j = u.j then
      { f.pix i j with Lxyz := fun k => R.add ((f.pix i j).Lxyz k) (u.dL k), w := R.add (f.pix i j).w u.dw } else f.pix i j }

/-- `ImageFilm.add_sample` (`film.py:137-198`), one thread. -/
def addSampleR (f : Film K) (imageX imageY : K) (L : Vec K) : Option (Film K) :=
  (updatesR R f imageX imageY L).map (fun us => us.foldl (applyUpdR R) f)

/-- a sequence of `add_sample` calls: position and colour of each. -/
def runR (f : Film K) : List (K × K × Vec K) → Option (Film K)
  | [] => some f
  | (X, Y, L) :: es => (addSampleR R f X Y L).bind (fun f => runR f es)

/-- the value `rgb[y, x]` computed by `write_image` (`film.py:243-255`). -/
def imageRgbR (f : Film K) (scale : K) (y x : ℕ) : Vec K :=
  let rgb := xyz2rgbR R (f.pix x y).Lxyz
  let ws := (f.pix x y).w
  let rgb := if ws = 0 then rgb else fun k => max 0 (R.div (rgb k) ws)
  fun k => R.add (rgb k) (R.mul scale (xyz2rgbR R (f.pix x y).splatXYZ k))

/-! ### Specification -/

/-- the raster range computed for the sample reaches pixel `i` of an axis -/
def Reaches (start : ℤ) (i : ℕ) (X w : K) : Prop :=
  ⌈R.sub' (R.sub' X (1 / 2)) w⌉ ≤ start + i ∧ start + i ≤ ⌊R.add (R.sub' X (1 / 2)) w⌋

/-- pixel `(i, j)` exists and the ranges computed for a sample at `(X, Y)` reach it -/
def Covers (f : Film K) (X Y : K) (i j : ℕ) : Prop :=
  i < f.xCnt ∧ j < f.yCnt ∧ Reaches R f.xStart i X f.filt.xw ∧ Reaches R f.yStart j Y f.filt.yw

/-- the table cell computed for a pixel of an axis -/
def cellOf (start : ℤ) (i : ℕ) (X inv : K) : ℕ := (cellIxR R (start + i) (R.sub' X (1 / 2)) inv).toNat

/-- the weight with which a sample at `(X, Y)` counts in pixel `(i, j)` -/
def wtAt (f : Film K) (X Y : K) (i j : ℕ) : K := f.table (cellOf R f.yStart j Y f.filt.ywInv) (cellOf R f.xStart i X f.filt.xwInv)

open Classical in
/-- the samples that reach pixel `(i, j)`, in order: weight and colour -/
noncomputable def reach (f : Film K) (i j : ℕ) : List (K × K × Vec K) → List (K × Vec K)
  | [] => []
  | (X, Y, L) :: es => if Covers R f X Y i j then (wtAt R f X Y i j, L) :: reach f i j es else reach f i j es

/-- what one sample of weight `wt` and colour `L` does to a pixel -/
def bump (p : Pixel K) (s : K × Vec K) : Pixel K :=
  ⟨fun k => R.add (p.Lxyz k) (R.mul s.1 (rgb2xyzR R s.2 k)), p.splatXYZ, R.add p.w s.1⟩

end

section
variable {K : Type*} [Field K] [LinearOrder K] [IsStrictOrderedRing K] [FloorRing K] (R : Rounding K)

/-! ### One sample -/

theorem cellIxR_bounds (x : ℤ) (d inv : K) : 0 ≤ cellIxR R x d inv ∧ cellIxR R x d inv < (tableSize : ℕ) := by
  have : 0 ≤ ⌊|R.mul (R.mul (R.sub' (x : K) d) (tableSize : K)) inv|⌋ := Int.floor_nonneg.2 (abs_nonneg _)
  simp only [cellIxR, tableSize] at *
  omega

def updOfR (f : Film K) (dX dY : K) (xyz : Vec K) (p : ℤ × ℤ) : Upd K :=
  let wt := f.table (cellIxR R p.2 dY f.filt.ywInv).toNat (cellIxR R p.1 dX f.filt.xwInv).toNat
  ⟨(p.1 - f.xStart).toNat, (p.2 - f.yStart).toNat, fun k => R.mul wt (xyz k), wt⟩

def rectR (f : Film K) (X Y : K) : ℤ × ℤ × ℤ × ℤ :=
  (max ⌈R.sub' (R.sub' X (1 / 2)) f.filt.xw⌉ f.xStart, min ⌊R.add (R.sub' X (1 / 2)) f.filt.xw⌋ (f.xStart + f.xCnt - 1),
   max ⌈R.sub' (R.sub' Y (1 / 2)) f.filt.yw⌉ f.yStart, min ⌊R.add (R.sub' Y (1 / 2)) f.filt.yw⌋ (f.yStart + f.yCnt - 1))

theorem updatesR_eq (f : Film K) (X Y : K) (L : Vec K) :
    updatesR R f X Y L = some ((grid (rectR R f X Y).1 (rectR R f X Y).2.1 (rectR R f X Y).2.2.1 (rectR R f X Y).2.2.2).map
      (updOfR R f (R.sub' X (1 / 2)) (R.sub' Y (1 / 2)) (rgb2xyzR R L))) := by
  simp only [updatesR]
  split_ifs with h
  · have : grid (rectR R f X Y).1 (rectR R f X Y).2.1 (rectR R f X Y).2.2.1 (rectR R f X Y).2.2.2 = [] := by
      rw [List.eq_nil_iff_forall_not_mem]
      intro p hp
      rw [mem_grid] at hp
      simp only [rectR] at hp
      omega
    rw [this]; rfl
  · apply mapM_some
    intro p hp
    have hp' : p ∈ grid (rectR R f X Y).1 (rectR R f X Y).2.1 (rectR R f X Y).2.2.1 (rectR R f X Y).2.2.2 := hp
    rw [mem_grid] at hp'
    simp only [rectR] at hp'
    obtain ⟨hx, hy⟩ := hp'
    have c1 := cellIxR_bounds R p.2 (R.sub' Y (1 / 2)) f.filt.ywInv
    have c2 := cellIxR_bounds R p.1 (R.sub' X (1 / 2)) f.filt.xwInv
    simp only [updAtR]
    rw [npGet_irange _ _ _ _ hx, npGet_irange _ _ _ _ hy]
    simp only [Option.bind_some]
    rw [npIndex_in _ _ c1, npIndex_in _ _ c2, npIndex_in _ _ (by omega), npIndex_in _ _ (by omega)]
    rfl

theorem foldl_applyUpdR (us : List (Upd K)) (f : Film K) (i j : ℕ) :
    (us.foldl (applyUpdR R) f).pix i j = (us.filter (fun u => decide (i = u.i ∧ j = u.j))).foldl
      (fun p u => ⟨fun k => R.add (p.Lxyz k) (u.dL k), p.splatXYZ, R.add p.w u.dw⟩) (f.pix i j) := by
  induction us generalizing f with
  | nil => rfl
  | cons u us ih =>
    rw [List.foldl_cons, ih, List.filter_cons]
    by_cases h : i = u.i ∧ j = u.j
    · simp only [h, decide_true, and_self, if_true, List.foldl_cons, applyUpdR]
    · simp only [h, decide_false, applyUpdR]
      simp

theorem foldl_applyUpdR_frame (us : List (Upd K)) (f : Film K) : SameFrame f (us.foldl (applyUpdR R) f) := by
  induction us generalizing f with
  | nil => exact ⟨rfl, rfl, rfl, rfl, rfl, rfl⟩
  | cons u us ih => rw [List.foldl_cons]; exact ih _

theorem filter_single {α : Type*} [DecidableEq α] (l : List α) (hl : l.Nodup) (a : α) (p : α → Bool) (h : ∀ b ∈ l, p b = true ↔ b = a) :
    l.filter p = if a ∈ l then [a] else [] := by
  have e : l.filter p = l.filter (fun b => decide (b = a)) := by
    apply List.filter_congr
    intro b hb
    by_cases hba : b = a
    · rw [(h b hb).2 hba, decide_eq_true hba]
    · rw [decide_eq_false hba, Bool.eq_false_iff]; exact fun hp => hba ((h b hb).1 hp)
  rw [e]
  split_ifs with hm
  · rw [show (fun b => decide (b = a)) = (fun b => b == a) from funext fun b => by rw [Bool.beq_eq_decide_eq]] 
    rw [show (l.filter fun b => b == a) = List.replicate (l.count a) a from List.filter_beq a, List.count_eq_one_of_mem hl hm]; rfl
  · rw [List.filter_eq_nil_iff]
    intro b hb hba
    exact hm (by simpa using (by simpa using hba : b = a) ▸ hb)

open Classical in
/-- **C176** `add_sample` in rounded arithmetic, for every film, position and colour: there is no index error; a pixel that the computed ranges reach is changed once, by
the entry of the filter table at indices below 16, and every other pixel is unchanged. -/
theorem C176_add_sample (f : Film K) (X Y : K) (L : Vec K) :
    ∃ f', addSampleR R f X Y L = some f' ∧ SameFrame f f' ∧
      (∀ i j : ℕ, f'.pix i j = if Covers R f X Y i j then bump R (f.pix i j) (wtAt R f X Y i j, L) else f.pix i j) ∧
      ∀ i j : ℕ, cellOf R f.xStart i X f.filt.xwInv < 16 ∧ cellOf R f.yStart j Y f.filt.ywInv < 16 := by
  refine ⟨_, by rw [addSampleR, updatesR_eq]; rfl, foldl_applyUpdR_frame R _ _, fun i j => ?_, fun i j => ?_⟩
  · rw [foldl_applyUpdR]
    set G := grid (rectR R f X Y).1 (rectR R f X Y).2.1 (rectR R f X Y).2.2.1 (rectR R f X Y).2.2.2 with hG
    have hmem : ((f.xStart + i, f.yStart + j) : ℤ × ℤ) ∈ G ↔ Covers R f X Y i j := by
      rw [hG, mem_grid]
      simp only [rectR, Covers, Reaches]
      omega
    rw [List.filter_map, filter_single G (grid_nodup _ _ _ _) (f.xStart + i, f.yStart + j)]
    · by_cases hc : Covers R f X Y i j
      · rw [if_pos (hmem.2 hc), if_pos hc]
        rfl
      · rw [if_neg (fun h => hc (hmem.1 h)), if_neg hc]; rfl
    · intro p hp
      rw [hG, mem_grid] at hp
      simp only [rectR] at hp
      obtain ⟨a, b⟩ := p
      rw [Function.comp, decide_eq_true_iff]
      simp only [updOfR, Prod.mk.injEq]
      omega
  · have h1 := cellIxR_bounds R (f.xStart + i) (R.sub' X (1 / 2)) f.filt.xwInv
    have h2 := cellIxR_bounds R (f.yStart + j) (R.sub' Y (1 / 2)) f.filt.ywInv
    simp only [cellOf, tableSize] at *
    omega


/-! ### Which pixels and which cells -/

/-- a difference that needs no more bits than the larger number -/
theorem sub_exact {x : K} (hx : IsDouble x) (h52 : x ≤ 2 ^ 52) (a : ℤ) (ha : 0 ≤ a) (hax : (a : K) * 2 ^ (-1 : ℤ) ≤ x) : IsDouble (x - a * 2 ^ (-1 : ℤ)) := by
  obtain ⟨m, e, hm, he, rfl⟩ := hx
  have hh : (0 : K) < 2 ^ (-1 : ℤ) := two_zpow_pos _
  have ha' : (0 : K) ≤ a := by exact_mod_cast ha
  rcases le_or_gt (-1) e with h | h
  · have e1 : (m : K) * 2 ^ e = ((m * 2 ^ (e + 1).toNat : ℤ) : K) * 2 ^ (-1 : ℤ) := by
      push_cast
      rw [mul_assoc, ← zpow_natCast, ← zpow_add₀ two_ne_zero]; congr 2; omega
    refine ⟨m * 2 ^ (e + 1).toNat - a, -1, ?_, by norm_num, by rw [e1]; push_cast; ring⟩
    rw [e1] at hax h52
    have h1 : a ≤ m * 2 ^ (e + 1).toNat := by
      have := le_of_mul_le_mul_right hax hh; exact_mod_cast this
    have h2 : m * 2 ^ (e + 1).toNat ≤ 2 ^ 53 := by
      have : ((m * 2 ^ (e + 1).toNat : ℤ) : K) * 2 ^ (-1 : ℤ) ≤ 2 ^ 53 * 2 ^ (-1 : ℤ) := h52.trans (le_of_eq (by norm_num))
      have := le_of_mul_le_mul_right this hh; exact_mod_cast this
    rw [abs_le]; constructor <;> omega
  · have e1 : (a : K) * 2 ^ (-1 : ℤ) = ((a * 2 ^ (-1 - e).toNat : ℤ) : K) * 2 ^ e := by
      push_cast
      rw [mul_assoc, ← zpow_natCast, ← zpow_add₀ two_ne_zero]; congr 2; omega
    refine ⟨m - a * 2 ^ (-1 - e).toNat, e, ?_, he, by rw [e1]; push_cast; ring⟩
    rw [e1] at hax
    have h1 : a * 2 ^ (-1 - e).toNat ≤ m := by
      have := le_of_mul_le_mul_right hax (two_zpow_pos e); exact_mod_cast this
    have h2 : 0 ≤ a * 2 ^ (-1 - e).toNat := by positivity
    rw [abs_le] at hm ⊢; constructor <;> omega

theorem isDouble_int (n : ℤ) (h : |n| ≤ 2 ^ 53) : IsDouble (n : K) := ⟨n, 0, h, by norm_num, by simp⟩
theorem isDouble_half : IsDouble (1 / 2 : K) := ⟨1, -1, by norm_num, by norm_num, by norm_num⟩

/-- the offset of a sample, when it is at least one half, is computed exactly -/
theorem dX_exact {X : K} (hX : IsDouble X) (h1 : 1 / 2 ≤ X) (h52 : X ≤ 2 ^ 52) : double (X - 1 / 2) = X - 1 / 2 := by
  apply double_of_isDouble
  have e : (1 : K) / 2 = ((1 : ℤ) : K) * 2 ^ (-1 : ℤ) := by norm_num
  rw [e] at h1 ⊢
  exact sub_exact hX h52 1 (by norm_num) h1

/-- one axis: a pixel centre within the half-width is reached -/
theorem reaches_of (start : ℤ) (i : ℕ) (X w : K) (hX : IsDouble X) (h52 : X ≤ 2 ^ 52) (hw : IsDouble w) (hw0 : 0 < w) (hw52 : w ≤ 2 ^ 52)
    (h0 : 0 ≤ start + i) (h53 : start + i ≤ 2 ^ 53) (hu : |off start i X| ≤ w) : Reaches ieee start i X w := by
  have hn : double ((start + i : ℤ) : K) = ((start + i : ℤ) : K) := double_of_isDouble (isDouble_int _ (by rw [abs_of_nonneg h0]; exact h53))
  have hn0 : (0 : K) ≤ ((start + i : ℤ) : K) := by exact_mod_cast h0
  rw [abs_le, off] at hu
  have hu1 : X - 1 / 2 - w ≤ ((start + i : ℤ) : K) := by push_cast; linarith [hu.1]
  have hu2 : ((start + i : ℤ) : K) ≤ X - 1 / 2 + w := by push_cast; linarith [hu.2]
  change ⌈double (double (X - 1 / 2) - w)⌉ ≤ start + i ∧ start + i ≤ ⌊double (double (X - 1 / 2) + w)⌋
  rw [Int.ceil_le, Int.le_floor]
  rcases le_or_gt (1 / 2) X with h | h
  · rw [dX_exact hX h h52]
    constructor
    · rw [← hn]; exact double_mono hu1
    · rw [← hn]; exact double_mono hu2
  · constructor
    · have h1 : double (X - 1 / 2) ≤ 0 := by rw [← double_zero]; exact double_mono (by linarith)
      refine le_trans ?_ hn0
      rw [← double_zero]; exact double_mono (by linarith)
    · have hd : IsDouble (((start + i : ℤ) : K) - w) := by
        have e : ((start + i : ℤ) : K) = ((2 * (start + i) : ℤ) : K) * 2 ^ (-1 : ℤ) := by push_cast; norm_num; ring
        have := sub_exact hw hw52 (2 * (start + i)) (by omega) (by rw [← e]; linarith)
        rw [← e] at this
        obtain ⟨m, e, a, b, c⟩ := this
        exact ⟨-m, e, by rwa [abs_neg], b, by rw [← neg_sub, c]; push_cast; ring⟩
      have h1 : ((start + i : ℤ) : K) - w ≤ double (X - 1 / 2) := by
        rw [← double_of_isDouble hd]; exact double_mono (by linarith)
      rw [← hn]; exact double_mono (by linarith)

/-- one axis: a pixel that is reached is within the half-width, up to rounding -/
theorem of_reaches (start : ℤ) (i : ℕ) (X w : K) (hX : IsDouble X) (hw : IsDouble w) (hw0 : 0 < w) (hr : Reaches ieee start i X w) :
    |off start i X| ≤ w + 2 ^ (-51 : ℤ) * (|X - 1 / 2| + w) := by
  change ⌈double (double (X - 1 / 2) - w)⌉ ≤ start + i ∧ start + i ≤ ⌊double (double (X - 1 / 2) + w)⌋ at hr
  rw [Int.ceil_le, Int.le_floor] at hr
  obtain ⟨r1, r2⟩ := hr
  push_cast at r1 r2
  have u0 := uu_pos (K := K)
  have hE : (2 : K) ^ (-51 : ℤ) = 4 * uu := by
    rw [uu, show (4 : K) = 2 ^ (2 : ℤ) by norm_num, ← zpow_add₀ two_ne_zero]; norm_num
  have d1 := sub_err hX isDouble_half
  have d2 := sub_err (isDouble_double (X - 1 / 2)) hw
  have d3 := add_err (isDouble_double (X - 1 / 2)) hw
  change _ ≤ uu * _ at d1 d2 d3
  rw [hE]
  have hx := abs_nonneg (X - 1 / 2)
  have ub : (uu : K) ≤ 1 := by rw [uu_eq, one_div]; exact inv_le_one_of_one_le₀ (by norm_num)
  have b1 : |double (X - 1 / 2)| ≤ 2 * |X - 1 / 2| := by
    have := abs_add_le (double (X - 1 / 2) - (X - 1 / 2)) (X - 1 / 2)
    rw [sub_add_cancel] at this; nlinarith
  have b2 : |double (X - 1 / 2) - w| ≤ 2 * |X - 1 / 2| + w := by
    refine (abs_sub _ _).trans ?_
    rw [abs_of_pos hw0]; linarith
  have b3 : |double (X - 1 / 2) + w| ≤ 2 * |X - 1 / 2| + w := by
    refine (abs_add_le _ _).trans ?_
    rw [abs_of_pos hw0]; linarith
  have m2 := mul_le_mul_of_nonneg_left b2 u0.le
  have m3 := mul_le_mul_of_nonneg_left b3 u0.le
  rw [abs_le] at d1 d2 d3
  have hp := mul_pos u0 hw0
  rw [off, abs_le]
  constructor <;> nlinarith

/-- one axis: the middle of the cell is half a cell from the offset, up to rounding -/
theorem cell_near (start : ℤ) (i : ℕ) (X w inv : K) (hX : IsDouble X) (h52 : X ≤ 2 ^ 52) (hw0 : 0 < w) (hw52 : w ≤ 2 ^ 52)
    (hinv : inv = (ieee (K := K)).div 1 w) (h0 : 0 ≤ start + i) (h53 : start + i ≤ 2 ^ 53) (hu : |off start i X| ≤ w) :
    abs (((cellOf ieee start i X inv : K) + 1 / 2) * (w / 16) - |off start i X|) ≤ w / 32 + 2 ^ (-49 : ℤ) * w := by
  have hn : IsDouble ((start + i : ℤ) : K) := isDouble_int _ (by rw [abs_of_nonneg h0]; exact h53)
  have hn0 : (0 : K) ≤ ((start + i : ℤ) : K) := by exact_mod_cast h0
  have hoff : off start i X = ((start + i : ℤ) : K) - (X - 1 / 2) := by rw [off]; push_cast; ring
  -- the difference
  have e1 : Err 2 (double (((start + i : ℤ) : K) - double (X - 1 / 2))) (off start i X) |off start i X| := by
    rcases le_or_gt (1 / 2) X with h | h
    · rw [dX_exact hX h h52]
      have hd : IsDouble (X - 1 / 2) := by rw [← dX_exact hX h h52]; exact isDouble_double _
      have := (Err.refl (((start + i : ℤ) : K) - (X - 1 / 2))).step (sub_err hn hd)
      rw [← hoff] at this
      rw [← hoff]
      exact this.mono (l := 2) (by norm_num) le_rfl
    · have a := (Err.refl (X - 1 / 2)).step (sub_err hX isDouble_half)
      have := ((Err.refl ((start + i : ℤ) : K)).mono (l := 1) (by norm_num) le_rfl).rsub a hn (isDouble_double _)
      rw [← hoff] at this
      refine this.mono le_rfl (le_of_eq ?_)
      rw [abs_of_nonneg hn0, abs_of_neg (by linarith), abs_of_nonneg (by rw [hoff]; linarith), hoff]; ring
  -- times 16
  have e2 : Err 3 (double (double (((start + i : ℤ) : K) - double (X - 1 / 2)) * 16)) (off start i X * 16) (|off start i X| * 16) := by
    have h := e1.mul (Err.refl (16 : K))
    rw [abs_of_pos (by norm_num : (0 : K) < 16)] at h
    refine h.step (double_err_grid ?_)
    obtain ⟨k, hk⟩ := isDouble_grid (isDouble_double (((start + i : ℤ) : K) - double (X - 1 / 2)))
    exact ⟨k * 16, by rw [hk]; push_cast; ring⟩
  -- the inverse
  have e3 : Err 1 inv (1 / w) (1 / w) := by
    have h := Err.refl (1 / w)
    rw [abs_of_pos (by positivity)] at h
    rw [hinv]
    refine h.round (Or.inr ?_)
    rw [abs_of_pos (by positivity), le_div_iff₀ hw0]
    calc (2 : K) ^ (-1022 : ℤ) * w ≤ 2 ^ (-1022 : ℤ) * 2 ^ 52 := mul_le_mul_of_nonneg_left hw52 (two_zpow_pos _).le
      _ = 2 ^ (-970 : ℤ) := by rw [← zpow_natCast, ← zpow_add₀ two_ne_zero]; norm_num
      _ ≤ 1 := zpow_le_one_of_nonpos₀ (by norm_num) (by norm_num)
  have e4 := e2.mul e3
  set y := double (double (((start + i : ℤ) : K) - double (X - 1 / 2)) * 16) * inv with hy
  set t := |off start i X| * 16 * (1 / w) with ht
  have ht0 : 0 ≤ t := by rw [ht]; positivity
  have ht16 : t ≤ 16 := by
    rw [ht, mul_one_div, div_le_iff₀ hw0]; linarith
  have e5 : |double y - off start i X * 16 * (1 / w)| ≤ 2 ^ (-45 : ℤ) := by
    have h1 := e4.rel (by norm_num)
    have h2 := double_err y
    have h3 := e4.abs_le
    have h4 : (1 + uu : K) ^ (3 + 1) ≤ 2 := by
      have := g_le (K := K) 4 (by norm_num)
      have hb : (uu : K) ≤ 1 / 8 := by rw [uu_eq]; norm_num
      push_cast at this; norm_num at this ⊢; linarith
    have h5 : |y| ≤ 32 := h3.trans (by nlinarith)
    have h6 : |double y - off start i X * 16 * (1 / w)| ≤ |double y - y| + |y - off start i X * 16 * (1 / w)| := by
      have := abs_add_le (double y - y) (y - off start i X * 16 * (1 / w)); rwa [sub_add_sub_cancel] at this
    have h7 : (2 : K) ^ (-1075 : ℤ) ≤ 2 ^ (-52 : ℤ) := zpow_le_zpow_right₀ (by norm_num) (by norm_num)
    have h8 : (2 : K) ^ (-53 : ℤ) = 2 ^ (-52 : ℤ) / 2 := by norm_num
    have h9 : (2 : K) ^ (-45 : ℤ) = 128 * 2 ^ (-52 : ℤ) := by norm_num
    have hp := two_zpow_pos (K := K) (-52)
    rw [h8] at h2
    rw [h9]
    push_cast at h1
    generalize (2 : K) ^ (-52 : ℤ) = p at *
    nlinarith [mul_le_mul_of_nonneg_left h5 hp.le, mul_le_mul_of_nonneg_left ht16 hp.le]
  have e6 : abs (|double y| - t) ≤ 2 ^ (-45 : ℤ) := by
    have e : t = |off start i X * 16 * (1 / w)| := by
      rw [ht, abs_mul, abs_mul, abs_of_pos (by norm_num : (0 : K) < 16), abs_of_pos (by positivity : (0 : K) < 1 / w)]
    rw [e]; exact (abs_abs_sub_abs_le _ _).trans e5
  -- the cell
  have hc : ((cellOf ieee start i X inv : ℕ) : K) = ((min 15 ⌊|double y|⌋ : ℤ) : K) := by
    have hb := cellIxR_bounds ieee (start + i) (double (X - 1 / 2)) inv
    have : cellOf ieee start i X inv = (cellIxR ieee (start + i) (double (X - 1 / 2)) inv).toNat := rfl
    rw [this, ← Int.cast_natCast, Int.toNat_of_nonneg hb.1]
    rfl
  have ho : |off start i X| = t * (w / 16) := by rw [ht]; field_simp
  rw [hc, ho, ← sub_mul, abs_mul, abs_of_pos (by positivity : (0 : K) < w / 16)]
  have hv : abs (((min 15 ⌊|double y|⌋ : ℤ) : K) + 1 / 2 - t) ≤ 1 / 2 + 2 ^ (-45 : ℤ) := by
    have h1 := Int.floor_le |double y|
    have h2 := Int.lt_floor_add_one |double y|
    have hp := two_zpow_pos (K := K) (-45)
    rw [abs_le] at e6 ⊢
    obtain ⟨e6, e6'⟩ := e6
    generalize (2 : K) ^ (-45 : ℤ) = p at *
    rcases le_or_gt ⌊|double y|⌋ 15 with h | h
    · rw [min_eq_right h]; constructor <;> linarith
    · rw [min_eq_left h.le]
      have : ((16 : ℤ) : K) ≤ ⌊|double y|⌋ := by exact_mod_cast h
      push_cast at this ⊢
      constructor <;> linarith
  refine (mul_le_mul_of_nonneg_right hv (by positivity)).trans (le_of_eq ?_)
  rw [show (2 : K) ^ (-45 : ℤ) = 16 * 2 ^ (-49 : ℤ) by norm_num]; ring

/-- a film whose pixels have coordinates between 0 and `2^53` and whose filter is a float in `(0, 2^52]` wide, with the inverses the constructor computes -/
structure Fits (f : Film K) : Prop where
  x0 : 0 ≤ f.xStart
  y0 : 0 ≤ f.yStart
  x1 : f.xStart + f.xCnt ≤ 2 ^ 53
  y1 : f.yStart + f.yCnt ≤ 2 ^ 53
  xw : IsDouble f.filt.xw ∧ 0 < f.filt.xw ∧ f.filt.xw ≤ 2 ^ 52
  yw : IsDouble f.filt.yw ∧ 0 < f.filt.yw ∧ f.filt.yw ≤ 2 ^ 52
  xi : f.filt.xwInv = (ieee (K := K)).div 1 f.filt.xw
  yi : f.filt.ywInv = (ieee (K := K)).div 1 f.filt.yw

/-- **C176** which pixels a sample reaches in binary64, and with which table cell, for every float position (up to `2^52`): every pixel of the window whose centre is
within the half-widths (exactly, without any tolerance) is reached, and the table cell used for it is the right one up to rounding, that is its middle is half a cell plus
`2^-49` half-widths from the true offset or nearer; and no pixel is reached whose centre is farther than the half-width plus `2^-51` of the numbers involved. -/
theorem C176_footprint (f : Film K) (hf : Fits f) (X Y : K) (hX : IsDouble X) (hY : IsDouble Y) (hX2 : X ≤ 2 ^ 52) (hY2 : Y ≤ 2 ^ 52)
    (i j : ℕ) (hi : i < f.xCnt) (hj : j < f.yCnt) :
    (Under f X Y i j → Covers ieee f X Y i j ∧
      abs (((cellOf ieee f.xStart i X f.filt.xwInv : K) + 1 / 2) * (f.filt.xw / 16) - |off f.xStart i X|) ≤ f.filt.xw / 32 + 2 ^ (-49 : ℤ) * f.filt.xw ∧
      abs (((cellOf ieee f.yStart j Y f.filt.ywInv : K) + 1 / 2) * (f.filt.yw / 16) - |off f.yStart j Y|) ≤ f.filt.yw / 32 + 2 ^ (-49 : ℤ) * f.filt.yw) ∧
    (Covers ieee f X Y i j →
      |off f.xStart i X| ≤ f.filt.xw + 2 ^ (-51 : ℤ) * (|X - 1 / 2| + f.filt.xw) ∧
      |off f.yStart j Y| ≤ f.filt.yw + 2 ^ (-51 : ℤ) * (|Y - 1 / 2| + f.filt.yw)) := by
  have a1 := hf.x0; have a2 := hf.y0; have a3 := hf.x1; have a4 := hf.y1
  refine ⟨fun h => ⟨⟨hi, hj, reaches_of _ _ _ _ hX hX2 hf.xw.1 hf.xw.2.1 hf.xw.2.2 (by omega) (by omega) h.1,
    reaches_of _ _ _ _ hY hY2 hf.yw.1 hf.yw.2.1 hf.yw.2.2 (by omega) (by omega) h.2⟩,
    cell_near _ _ _ _ _ hX hX2 hf.xw.2.1 hf.xw.2.2 hf.xi (by omega) (by omega) h.1,
    cell_near _ _ _ _ _ hY hY2 hf.yw.2.1 hf.yw.2.2 hf.yi (by omega) (by omega) h.2⟩, fun h => ?_⟩
  exact ⟨of_reaches _ _ _ _ hX hf.xw.1 hf.xw.2.1 h.2.2.1, of_reaches _ _ _ _ hY hf.yw.1 hf.yw.2.1 h.2.2.2⟩

end
end Verif.Film
