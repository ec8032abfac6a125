import Verif.Film.Props
import Mathlib.Data.Fintype.Basic

/-! # The written image: property C30 -/

namespace Verif.Film
set_option linter.unusedSectionVars false

section
variable {K : Type*} [Field K] [LinearOrder K] [IsStrictOrderedRing K] [FloorRing K]

/-! ### Specification -/

open Classical in
/-- the samples of a history that reach pixel `(i, j)`: filter weight and colour -/
noncomputable def hits (f : Film K) (i j : ℕ) : List (Ev K) → List (K × Vec K)
  | [] => []
  | .sample X Y L :: es =>
    if Under f X Y i j then (specWeight f.filt (off f.xStart i X) (off f.yStart j Y), L) :: hits f i j es else hits f i j es
  | .splat _ _ _ :: es => hits f i j es

open Classical in
/-- the colours splatted in pixel `(i, j)` -/
noncomputable def splats (f : Film K) (i j : ℕ) : List (Ev K) → List (Vec K)
  | [] => []
  | .sample _ _ _ :: es => splats f i j es
  | .splat X Y L :: es =>
    if f.xStart + i = ⌊X⌋ ∧ f.yStart + j = ⌊Y⌋ then L :: splats f i j es else splats f i j es

/-- a colour after conversion to XYZ and back -/
def rt (c : Vec K) : Vec K := xyz2rgb (rgb2xyz c)

/-! ### Lemmas -/

theorem xyz2rgb_add (a b : Vec K) : xyz2rgb (a + b) = xyz2rgb a + xyz2rgb b := by
  funext k; fin_cases k <;> simp [xyz2rgb] <;> ring
theorem xyz2rgb_smul (s : K) (a : Vec K) : xyz2rgb (s • a) = s • xyz2rgb a := by
  funext k; fin_cases k <;> simp [xyz2rgb] <;> ring
theorem xyz2rgb_zero : xyz2rgb (0 : Vec K) = 0 := by
  funext k; fin_cases k <;> simp [xyz2rgb]

theorem table_spec (f : Film K) (hf : Made f) (X Y : K) (i j : ℕ) :
    f.table (cellIx (f.yStart + j) (Y - 1 / 2) f.filt.ywInv).toNat
      (cellIx (f.xStart + i) (X - 1 / 2) f.filt.xwInv).toNat = specWeight f.filt (off f.xStart i X) (off f.yStart j Y) := by
  rw [hf.tab, cellIx_spec _ _ _ _ _ hf.xw hf.xi, cellIx_spec _ _ _ _ _ hf.yw hf.yi]; rfl

theorem sums (f : Film K) (hf : Made f) (i j : ℕ) (hi : i < f.xCnt) (hj : j < f.yCnt) (es : List (Ev K)) :
    xyz2rgb ((es.map (addL f i j)).sum) = ((hits f i j es).map (fun p => p.1 • rt p.2)).sum ∧
    (es.map (addW f i j)).sum = ((hits f i j es).map Prod.fst).sum ∧
    xyz2rgb ((es.map (addS f i j)).sum) = ((splats f i j es).map rt).sum := by
  induction es with
  | nil => simp [hits, splats, xyz2rgb_zero]
  | cons e es ih =>
    obtain ⟨a, b, c⟩ := ih
    simp only [List.map_cons, List.sum_cons, xyz2rgb_add, a, b, c]
    cases e with
    | sample X Y L =>
      by_cases hu : Under f X Y i j
      · simp only [addL, addW, addS, hits, splats, table_spec f hf]
        simp [hu, hi, hj, xyz2rgb_smul, rt, xyz2rgb_zero]
      · simp [addL, addW, addS, hits, splats, hu, xyz2rgb_zero]
    | splat X Y L =>
      by_cases hu : f.xStart + i = ⌊X⌋ ∧ f.yStart + j = ⌊Y⌋
      · simp [addL, addW, addS, hits, splats, hu, hi, hj, rt, xyz2rgb_zero]
      · have : ¬ (i < f.xCnt ∧ j < f.yCnt ∧ f.xStart + i = ⌊X⌋ ∧ f.yStart + j = ⌊Y⌋) := fun h => hu h.2.2
        simp only [addL, addW, addS, hits, splats]
        rw [if_neg this, if_neg hu]
        simp [xyz2rgb_zero]

theorem list_sum_apply (l : List (Vec K)) (k : Fin 3) : l.sum k = (l.map (fun v => v k)).sum := by
  induction l with
  | nil => rfl
  | cons a l ih => simp [ih]

theorem zero_weights (l : List (K × Vec K)) (hn : ∀ p ∈ l, 0 ≤ p.1) (h0 : (l.map Prod.fst).sum = 0) :
    ∀ p ∈ l, p.1 = 0 := by
  induction l with
  | nil => simp
  | cons a l ih =>
    simp only [List.map_cons, List.sum_cons] at h0
    have h1 : 0 ≤ a.1 := hn a (by simp)
    have h2 : 0 ≤ (l.map Prod.fst).sum := List.sum_nonneg (by
      intro x hx; obtain ⟨p, hp, rfl⟩ := List.mem_map.1 hx; exact hn p (by simp [hp]))
    intro p hp
    rcases List.mem_cons.1 hp with rfl | hp
    · linarith
    · exact ih (fun q hq => hn q (by simp [hq])) (by linarith) p hp

/-! ### Theorems -/

/-- **C30** for a blank film and any history of samples and splats: where the weights of the samples
that reach a pixel do not sum to 0, the image holds `max(0, Σ wᵢ cᵢ / Σ wᵢ) + scale · Σ splats`; with
non-negative weights that sum to 0 it holds only the splats.  Colours are those of the samples after
the RGB → XYZ → RGB conversion (see `C30_colour_roundtrip`). -/
theorem C30_image (f0 f : Film K) (hf : Made f0) (hb : ∀ i j, f0.pix i j = ⟨0, 0, 0⟩) (es : List (Ev K))
    (hr : run f0 es = some f) (scale : K) (i j : ℕ) (hi : i < f0.xCnt) (hj : j < f0.yCnt) (k : Fin 3) :
    (((hits f0 i j es).map Prod.fst).sum ≠ 0 →
      imageRgb f scale j i k =
        max 0 (((hits f0 i j es).map (fun p => p.1 * rt p.2 k)).sum / ((hits f0 i j es).map Prod.fst).sum)
          + scale * ((splats f0 i j es).map (fun c => rt c k)).sum) ∧
    ((∀ p ∈ hits f0 i j es, 0 ≤ p.1) → ((hits f0 i j es).map Prod.fst).sum = 0 →
      imageRgb f scale j i k = scale * ((splats f0 i j es).map (fun c => rt c k)).sum) := by
  obtain ⟨f', h1, -, h3⟩ := run_spec es f0
  obtain rfl : f' = f := by rw [h1] at hr; exact Option.some.inj hr
  obtain ⟨a, b, c⟩ := sums f0 hf i j hi hj es
  have e1 : xyz2rgb (f'.pix i j).Lxyz = ((hits f0 i j es).map (fun p => p.1 • rt p.2)).sum := by
    rw [h3, hb]; simp [Pixel.plus, a]
  have e2 : (f'.pix i j).w = ((hits f0 i j es).map Prod.fst).sum := by rw [h3, hb]; simp [Pixel.plus, b]
  have e3 : xyz2rgb (f'.pix i j).splatXYZ = ((splats f0 i j es).map rt).sum := by rw [h3, hb]; simp [Pixel.plus, c]
  have e1k : xyz2rgb (f'.pix i j).Lxyz k = ((hits f0 i j es).map (fun p => p.1 * rt p.2 k)).sum := by
    rw [e1, list_sum_apply, List.map_map]; rfl
  have e3k : xyz2rgb (f'.pix i j).splatXYZ k = ((splats f0 i j es).map (fun c => rt c k)).sum := by
    rw [e3, list_sum_apply, List.map_map]; rfl
  constructor
  · intro hw
    simp only [imageRgb, e2, if_neg hw, Pi.add_apply, Pi.smul_apply, smul_eq_mul, e1k, e3k]
  · intro hn hw
    have hz := zero_weights _ hn hw
    have : ((hits f0 i j es).map (fun p => p.1 * rt p.2 k)).sum = 0 := by
      apply List.sum_eq_zero
      intro x hx
      obtain ⟨p, hp, rfl⟩ := List.mem_map.1 hx
      rw [hz p hp, zero_mul]
    simp only [imageRgb, e2, if_pos hw, Pi.add_apply, Pi.smul_apply, smul_eq_mul, e1k, e3k, this, zero_add]

/-- **C30** convexity: with non-negative weights, not all zero, each channel of a pixel (splats aside)
is between the smallest and the largest value of that channel among the samples that reached it. -/
theorem C30_convex (f0 f : Film K) (hf : Made f0) (hb : ∀ i j, f0.pix i j = ⟨0, 0, 0⟩) (es : List (Ev K))
    (hr : run f0 es = some f) (scale : K) (i j : ℕ) (hi : i < f0.xCnt) (hj : j < f0.yCnt) (k : Fin 3)
    (hn : ∀ p ∈ hits f0 i j es, 0 ≤ p.1) (hw : ((hits f0 i j es).map Prod.fst).sum ≠ 0)
    (lo hi' : K) (h0 : 0 ≤ lo) (hlo : ∀ p ∈ hits f0 i j es, lo ≤ rt p.2 k ∧ rt p.2 k ≤ hi') :
    lo ≤ imageRgb f scale j i k - scale * ((splats f0 i j es).map (fun c => rt c k)).sum ∧
    imageRgb f scale j i k - scale * ((splats f0 i j es).map (fun c => rt c k)).sum ≤ hi' := by
  rw [(C30_image f0 f hf hb es hr scale i j hi hj k).1 hw, add_sub_cancel_right]
  generalize hits f0 i j es = l at *
  have key : ∀ l : List (K × Vec K), (∀ p ∈ l, 0 ≤ p.1) → (∀ p ∈ l, lo ≤ rt p.2 k ∧ rt p.2 k ≤ hi') →
      lo * (l.map Prod.fst).sum ≤ (l.map (fun p => p.1 * rt p.2 k)).sum ∧
      (l.map (fun p => p.1 * rt p.2 k)).sum ≤ hi' * (l.map Prod.fst).sum ∧ 0 ≤ (l.map Prod.fst).sum := by
    intro l
    induction l with
    | nil => intro _ _; simp
    | cons a l ih =>
      intro h1 h2
      obtain ⟨x, y, z⟩ := ih (fun p hp => h1 p (by simp [hp])) (fun p hp => h2 p (by simp [hp]))
      have a1 := h1 a (by simp)
      obtain ⟨b1, b2⟩ := h2 a (by simp)
      simp only [List.map_cons, List.sum_cons]
      refine ⟨?_, ?_, by linarith⟩
      · nlinarith [mul_le_mul_of_nonneg_left b1 a1]
      · nlinarith [mul_le_mul_of_nonneg_left b2 a1]
  obtain ⟨x, y, z⟩ := key l hn hlo
  have hpos : 0 < (l.map Prod.fst).sum := lt_of_le_of_ne z (Ne.symm hw)
  have x' : lo ≤ (l.map (fun p => p.1 * rt p.2 k)).sum / (l.map Prod.fst).sum := (le_div_iff₀ hpos).2 x
  have y' : (l.map (fun p => p.1 * rt p.2 k)).sum / (l.map Prod.fst).sum ≤ hi' := (div_le_iff₀ hpos).2 y
  rw [max_eq_right (h0.trans x')]
  exact ⟨x', y'⟩

/-- **C30** the conversion to XYZ and back changes no channel by more than one millionth of the sum of
the channels' magnitudes. -/
theorem C30_colour_roundtrip (c : Vec K) (k : Fin 3) :
    |rt c k - c k| ≤ 1 / 1000000 * (|c 0| + |c 1| + |c 2|) := by
  have h0 := abs_le.1 (le_refl |c 0|)
  have h1 := abs_le.1 (le_refl |c 1|)
  have h2 := abs_le.1 (le_refl |c 2|)
  rw [abs_le]
  fin_cases k <;> simp only [rt, xyz2rgb, rgb2xyz, Matrix.cons_val, Fin.zero_eta, Fin.mk_one, Fin.reduceFinMk] <;>
    constructor <;> linarith [abs_nonneg (c 0), abs_nonneg (c 1), abs_nonneg (c 2)]

end

/-- a filter with a negative lobe, as Mitchell and Lanczos filters have: `1` for `x < 1`, `-1` beyond. -/
def lobed : Filt ℚ := ⟨2, 2, 1 / 2, 1 / 2, fun x _ => if x < 1 then 1 else -1⟩

/-- **C30 fails for filters with negative lobes**: the weights of two white samples cancel, and the pixel,
on which nothing was splatted, receives the undivided difference of the two colours. -/
theorem C30_zero_weight_false : ∃ f : Film ℚ,
    run (Film.init 1 1 lobed 0 1 0 1) [.sample (1 / 2) (1 / 2) (fun _ => 3), .sample 2 (1 / 2) (fun _ => 1)] = some f ∧
    (f.pix 0 0).w = 0 ∧ imageRgb f 1 0 0 0 ≠ 0 := by
  have hm : Made (Film.init 1 1 lobed 0 1 0 1) :=
    Film.init_made _ _ _ _ _ _ _ (by norm_num [lobed]) (by norm_num [lobed]) rfl rfl
  have hx : (Film.init 1 1 lobed 0 1 0 1).xStart = 0 := by simp [Film.init]
  have hy : (Film.init 1 1 lobed 0 1 0 1).yStart = 0 := by simp [Film.init]
  have hcx : (Film.init 1 1 lobed 0 1 0 1).xCnt = 1 := by simp [Film.init]
  have hcy : (Film.init 1 1 lobed 0 1 0 1).yCnt = 1 := by simp [Film.init]
  have fl : (Film.init 1 1 lobed 0 1 0 1).filt = lobed := rfl
  have hb : (Film.init 1 1 lobed 0 1 0 1).pix 0 0 = ⟨0, 0, 0⟩ := rfl
  generalize Film.init 1 1 lobed 0 1 0 1 = F at *
  obtain ⟨f, h1, h2, h3⟩ := run_spec (K := ℚ) [.sample (1 / 2) (1 / 2) (fun _ => 3), .sample 2 (1 / 2) (fun _ => 1)] F
  have u1 : Under F (1 / 2) (1 / 2) 0 0 := by
    simp only [Under, off, hx, hy, fl]
    simp [lobed]
  have u2 : Under F 2 (1 / 2) 0 0 := by
    simp only [Under, off, hx, hy, fl]
    rw [abs_le, abs_le]; norm_num [lobed]
  have w1 : specWeight lobed (off 0 0 (1 / 2)) (off 0 0 (1 / 2)) = 1 := by
    simp only [specWeight, cellMid, off, lobed]
    norm_num
  have w2 : specWeight lobed (off 0 0 2) (off 0 0 (1 / 2)) = -1 := by
    have h12 : ⌊|(-(3 / 2) : ℚ)| / 2 * 16⌋ = 12 := by
      rw [abs_of_neg (by norm_num), Int.floor_eq_iff]; norm_num
    have : off 0 0 2 = (-(3 / 2) : ℚ) := by norm_num [off]
    rw [this, specWeight, cellMid, show lobed.xw = 2 from rfl, h12]
    norm_num [lobed]
  have e := h3 0 0
  simp only [List.map_cons, List.map_nil, List.sum_cons, List.sum_nil, addW, addL, addS, table_spec _ hm] at e
  simp only [u1, u2, hcx, hcy, hx, hy, fl, hb, w1, w2] at e
  have ew : (f.pix 0 0).w = 0 := by rw [e]; norm_num [Pixel.plus]
  refine ⟨f, h1, ew, ?_⟩
  simp only [imageRgb, ew, if_true]
  rw [e]
  simp [Pixel.plus, xyz2rgb, rgb2xyz, Matrix.cons_val]
  norm_num

/-- non-vacuity of `C30_image`'s hypotheses: a blank film and a history that reaches a pixel -/
example : Under (Film.init 4 4 (⟨3 / 2, 3 / 2, 1 / (3 / 2), 1 / (3 / 2), fun _ _ => 1⟩ : Filt ℚ) 0 1 0 1) 2 2 1 1 := by
  simp [Under, off, Film.init, abs_le]; norm_num

end Verif.Film
