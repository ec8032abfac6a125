import Verif.Film.Model
import Mathlib.Data.List.Nodup

/-! # Lemmas for the film -/

namespace Verif.Film
set_option linter.unusedSectionVars false

theorem mapM_some {α β : Type*} (l : List α) (g : α → Option β) (h : α → β) (hg : ∀ a ∈ l, g a = some (h a)) :
    l.mapM g = some (l.map h) := by
  induction l with
  | nil => rfl
  | cons a l ih =>
    rw [List.mapM_cons, hg a (by simp), ih (fun b hb => hg b (by simp [hb]))]
    rfl

theorem npIndex_in (n : ℕ) (i : ℤ) (h : 0 ≤ i ∧ i < n) : npIndex n i = some i.toNat := by
  rw [npIndex, if_pos h]

theorem mem_irange (a b x : ℤ) : x ∈ irange a b ↔ a ≤ x ∧ x ≤ b := by
  simp only [irange, List.mem_map, List.mem_range]
  constructor
  · rintro ⟨k, hk, rfl⟩; omega
  · rintro ⟨h1, h2⟩; exact ⟨(x - a).toNat, by omega, by omega⟩

theorem irange_nodup (a b : ℤ) : (irange a b).Nodup := by
  apply List.Nodup.map _ List.nodup_range
  intro x y h; simpa using h

theorem npGet_irange (a b x : ℤ) (g : ℤ → ℤ) (h : a ≤ x ∧ x ≤ b) : npGet ((irange a b).map g) (x - a) = some (g x) := by
  have hl : ((irange a b).map g).length = (b + 1 - a).toNat := by simp [irange]
  rw [npGet, npIndex_in _ _ (by rw [hl]; omega)]
  simp only [Option.bind_some, irange, List.map_map, List.getElem?_map]
  rw [List.getElem?_range (by omega)]
  simp only [Option.map_some, Function.comp]
  congr 2; omega

section
variable {K : Type*} [Field K] [LinearOrder K] [IsStrictOrderedRing K] [FloorRing K]

theorem cellIx_bounds (x : ℤ) (d inv : K) : 0 ≤ cellIx x d inv ∧ cellIx x d inv < (tableSize : ℕ) := by
  have : 0 ≤ ⌊|((x : K) - d) * (tableSize : K) * inv|⌋ := Int.floor_nonneg.2 (abs_nonneg _)
  simp only [cellIx, tableSize] at *
  omega

/-- the raster positions visited by the loops of `add_sample`, in order -/
def grid (x0 x1 y0 y1 : ℤ) : List (ℤ × ℤ) := (irange y0 y1).flatMap (fun y => (irange x0 x1).map (fun x => (x, y)))

theorem mem_grid (x0 x1 y0 y1 : ℤ) (p : ℤ × ℤ) : p ∈ grid x0 x1 y0 y1 ↔ (x0 ≤ p.1 ∧ p.1 ≤ x1) ∧ (y0 ≤ p.2 ∧ p.2 ≤ y1) := by
  obtain ⟨a, b⟩ := p
  simp only [grid, List.mem_flatMap, List.mem_map, mem_irange, Prod.mk.injEq]
  constructor
  · rintro ⟨y, hy, x, hx, rfl, rfl⟩; exact ⟨hx, hy⟩
  · rintro ⟨hx, hy⟩; exact ⟨b, hy, a, hx, rfl, rfl⟩

theorem grid_nodup (x0 x1 y0 y1 : ℤ) : (grid x0 x1 y0 y1).Nodup := by
  rw [grid, List.nodup_flatMap]
  refine ⟨fun y _ => (irange_nodup _ _).map (fun a b h => by simpa using h), ?_⟩
  refine (irange_nodup y0 y1).imp ?_
  intro a b hab p hp hq
  simp only [List.mem_map] at hp hq
  obtain ⟨_, _, rfl⟩ := hp
  obtain ⟨_, _, h⟩ := hq
  exact hab (Prod.mk.inj h).2.symm

/-- the update for a raster position -/
def updOf (f : Film K) (dX dY : K) (xyz : Vec K) (p : ℤ × ℤ) : Upd K :=
  let wt := f.table (cellIx p.2 dY f.filt.ywInv).toNat (cellIx p.1 dX f.filt.xwInv).toNat
  ⟨(p.1 - f.xStart).toNat, (p.2 - f.yStart).toNat, wt • xyz, wt⟩

/-- the inclusive raster rectangle of a sample -/
def rect (f : Film K) (X Y : K) : ℤ × ℤ × ℤ × ℤ :=
  (max ⌈X - 1 / 2 - f.filt.xw⌉ f.xStart, min ⌊X - 1 / 2 + f.filt.xw⌋ (f.xStart + f.xCnt - 1),
   max ⌈Y - 1 / 2 - f.filt.yw⌉ f.yStart, min ⌊Y - 1 / 2 + f.filt.yw⌋ (f.yStart + f.yCnt - 1))

theorem updates_eq (f : Film K) (X Y : K) (L : Vec K) :
    updates f X Y L = some ((grid (rect f X Y).1 (rect f X Y).2.1 (rect f X Y).2.2.1 (rect f X Y).2.2.2).map
      (updOf f (X - 1 / 2) (Y - 1 / 2) (rgb2xyz L))) := by
  simp only [updates]
  split_ifs with h
  · have : grid (rect f X Y).1 (rect f X Y).2.1 (rect f X Y).2.2.1 (rect f X Y).2.2.2 = [] := by
      rw [List.eq_nil_iff_forall_not_mem]
      intro p hp
      rw [mem_grid] at hp
      simp only [rect] at hp
      omega
    rw [this]; rfl
  · apply mapM_some
    intro p hp
    have hp' : p ∈ grid (rect f X Y).1 (rect f X Y).2.1 (rect f X Y).2.2.1 (rect f X Y).2.2.2 := hp
    rw [mem_grid] at hp'
    simp only [rect] at hp'
    obtain ⟨hx, hy⟩ := hp'
    have c1 := cellIx_bounds p.2 (Y - 1 / 2) f.filt.ywInv
    have c2 := cellIx_bounds p.1 (X - 1 / 2) f.filt.xwInv
    simp only [updAt]
    rw [npGet_irange _ _ _ _ hx, npGet_irange _ _ _ _ hy]
    simp only [Option.bind_some]
    rw [npIndex_in _ _ c1, npIndex_in _ _ c2, npIndex_in _ _ (by omega), npIndex_in _ _ (by omega)]
    rfl

/-- adding a colour and a weight to a pixel -/
def Pixel.plus (p : Pixel K) (L s : Vec K) (w : K) : Pixel K := ⟨p.Lxyz + L, p.splatXYZ + s, p.w + w⟩

theorem foldl_applyUpd (us : List (Upd K)) (f : Film K) (i j : ℕ) :
    (us.foldl applyUpd f).pix i j = (f.pix i j).plus
      ((us.map (fun u => if i = u.i ∧ j = u.j then u.dL else 0)).sum) 0
      ((us.map (fun u => if i = u.i ∧ j = u.j then u.dw else 0)).sum) := by
  induction us generalizing f with
  | nil => simp [Pixel.plus]
  | cons u us ih =>
    rw [List.foldl_cons, ih]
    simp only [applyUpd, List.map_cons, List.sum_cons]
    split_ifs <;> simp [Pixel.plus, add_assoc]

theorem foldl_applyUpd_frame (us : List (Upd K)) (f : Film K) :
    (us.foldl applyUpd f).filt = f.filt ∧ (us.foldl applyUpd f).xStart = f.xStart ∧ (us.foldl applyUpd f).xCnt = f.xCnt ∧
    (us.foldl applyUpd f).yStart = f.yStart ∧ (us.foldl applyUpd f).yCnt = f.yCnt ∧ (us.foldl applyUpd f).table = f.table := by
  induction us generalizing f with
  | nil => exact ⟨rfl, rfl, rfl, rfl, rfl, rfl⟩
  | cons u us ih => rw [List.foldl_cons]; exact ih _

theorem sum_single_mem {α M : Type*} [DecidableEq α] [AddCommMonoid M] (l : List α) (hl : l.Nodup) (a : α) (g : α → M)
    (ha : a ∈ l) : (l.map (fun b => if b = a then g b else 0)).sum = g a := by
  induction l with
  | nil => simp at ha
  | cons b l ih =>
    rw [List.nodup_cons] at hl
    rw [List.map_cons, List.sum_cons]
    by_cases h : b = a
    · subst h
      have : (l.map (fun c => if c = b then g c else 0)) = l.map (fun _ => 0) := by
        apply List.map_congr_left
        intro c hc
        rw [if_neg]; rintro rfl; exact hl.1 hc
      rw [this]; simp
    · rw [if_neg h, zero_add, ih hl.2 (by simpa [Ne.symm h] using ha)]

theorem sum_single_not_mem {α M : Type*} [DecidableEq α] [AddCommMonoid M] (l : List α) (a : α) (g : α → M)
    (ha : a ∉ l) : (l.map (fun b => if b = a then g b else 0)).sum = 0 := by
  have : (l.map (fun c => if c = a then g c else 0)) = l.map (fun _ => 0) := by
    apply List.map_congr_left
    intro c hc
    rw [if_neg]; rintro rfl; exact ha hc
  rw [this]; simp

end
end Verif.Film
