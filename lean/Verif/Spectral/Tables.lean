import Verif.Spectral.Average
import Verif.Spectral.Rgb

/-!
# The start-up tables of sampled spectra, and what is computed with them (C171)

Models `SampledSpectrum.init`, `y`, `to_xyz`, `to_rgb` (`pytracer/spectral/spectrum.py` 296-412, 535-547) with the wavelengths and the luminosity data of `pytracer/data/spectral.py`.  Numbers are
exact; with floats two of the thirty bands (ending at 510 and 660) miss the tabulated wavelength by one unit in the last place, the other twenty-eight end exactly on it.
-/
namespace Verif.Spectral

/-! ### Data -/

/-- `CIE_Y` (data/spectral.py 143-261) in units of 10^-13 -/
def cieYn : List ℕ := [
   39170000, 43935810, 49296040, 55321360, 62082450, 69650000, 78132190, 87673360, 98398440, 110432300, 123900000, 138864100,
   155572800, 174429600, 195837500, 220200000, 248396500, 280412600, 315310400, 352152100, 390000000, 428264000, 469146000, 515896000,
   571764000, 640000000, 723442100, 822122400, 935081600, 1061361000, 1200000000, 1349840000, 1514920000, 1702080000, 1918160000, 2170000000,
   2469067000, 2812400000, 3185200000, 3572667000, 3960000000, 4337147000, 4730240000, 5178760000, 5722187000, 6400000000, 7245600000, 8255000000,
   9411600000, 10698800000, 12100000000, 13620910000, 15307520000, 17203680000, 19353230000, 21800000000, 24548000000, 27640000000, 31178000000, 35264000000,
   40000000000, 45462400000, 51593200000, 58292800000, 65461600000, 73000000000, 80865070000, 89087200000, 97676800000, 106644300000, 116000000000, 125731700000,
   135827200000, 146296800000, 157150900000, 168400000000, 180073600000, 192144800000, 204539200000, 217182400000, 230000000000, 242946100000, 256102400000, 269585700000,
   283512500000, 298000000000, 313108300000, 328836800000, 345211200000, 362257100000, 380000000000, 398466700000, 417680000000, 437660000000, 458426700000, 480000000000,
   502436800000, 525730400000, 549805600000, 574587200000, 600000000000, 626019700000, 652775200000, 680420800000, 709110900000, 739000000000, 770160000000, 802664000000,
   836668000000, 872328000000, 909800000000, 949175500000, 990458400000, 1033674000000, 1078846000000, 1126000000000, 1175320000000, 1226744000000, 1279928000000, 1334528000000,
   1390200000000, 1446764000000, 1504693000000, 1564619000000, 1627177000000, 1693000000000, 1762431000000, 1835581000000, 1912735000000, 1994180000000, 2080200000000, 2171199000000,
   2267345000000, 2368571000000, 2474812000000, 2586000000000, 2701849000000, 2822939000000, 2950505000000, 3085780000000, 3230000000000, 3384021000000, 3546858000000, 3716986000000,
   3892875000000, 4073000000000, 4256299000000, 4443096000000, 4633944000000, 4829395000000, 5030000000000, 5235693000000, 5445120000000, 5656900000000, 5869653000000, 6082000000000,
   6293456000000, 6503068000000, 6708752000000, 6908424000000, 7100000000000, 7281852000000, 7454636000000, 7619694000000, 7778368000000, 7932000000000, 8081104000000, 8224962000000,
   8363068000000, 8494916000000, 8620000000000, 8738108000000, 8849624000000, 8954936000000, 9054432000000, 9148501000000, 9237348000000, 9320924000000, 9399226000000, 9472252000000,
   9540000000000, 9602561000000, 9660074000000, 9712606000000, 9760225000000, 9803000000000, 9840924000000, 9874812000000, 9903128000000, 9928116000000, 9949501000000, 9967108000000,
   9980983000000, 9991120000000, 9997482000000, 10000000000000, 9998567000000, 9993046000000, 9983255000000, 9968987000000, 9950000000000, 9926005000000, 9897426000000, 9864444000000,
   9827241000000, 9786000000000, 9740837000000, 9691712000000, 9638568000000, 9581349000000, 9520000000000, 9454504000000, 9384992000000, 9311628000000, 9234576000000, 9154000000000,
   9070064000000, 8982772000000, 8892048000000, 8797816000000, 8700000000000, 8598613000000, 8493920000000, 8386220000000, 8275813000000, 8163000000000, 8047947000000, 7930820000000,
   7811920000000, 7691547000000, 7570000000000, 7447541000000, 7324224000000, 7200036000000, 7074965000000, 6949000000000, 6822192000000, 6694716000000, 6566744000000, 6438448000000,
   6310000000000, 6181555000000, 6053144000000, 5924756000000, 5796379000000, 5668000000000, 5539611000000, 5411372000000, 5283528000000, 5156323000000, 5030000000000, 4904688000000,
   4780304000000, 4656776000000, 4534032000000, 4412000000000, 4290800000000, 4170360000000, 4050320000000, 3930320000000, 3810000000000, 3689184000000, 3568272000000, 3447768000000,
   3328176000000, 3210000000000, 3093381000000, 2978504000000, 2865936000000, 2756245000000, 2650000000000, 2547632000000, 2448896000000, 2353344000000, 2260528000000, 2170000000000,
   2081616000000, 1995488000000, 1911552000000, 1829744000000, 1750000000000, 1672235000000, 1596464000000, 1522776000000, 1451259000000, 1382000000000, 1315003000000, 1250248000000,
   1187792000000, 1127691000000, 1070000000000, 1014762000000, 961886400000, 911229600000, 862648500000, 816000000000, 771206400000, 728255200000, 687100800000, 647697600000,
   610000000000, 573962100000, 539550400000, 506737600000, 475496500000, 445800000000, 417587200000, 390849600000, 365638400000, 342004800000, 320000000000, 299626100000,
   280766400000, 263293600000, 247080500000, 232000000000, 218007700000, 205011200000, 192810800000, 181206900000, 170000000000, 159037900000, 148371800000, 138106800000,
   128347800000, 119200000000, 110683100000, 102733900000, 95333110000, 88461570000, 82100000000, 76237810000, 70854240000, 65914760000, 61384850000, 57230000000,
   53430590000, 49957960000, 46764040000, 43800750000, 41020000000, 38384530000, 35890990000, 33542190000, 31340930000, 29290000000, 27381390000, 25598760000,
   23932440000, 22372750000, 20910000000, 19535870000, 18245800000, 17035800000, 15901870000, 14840000000, 13844960000, 12912680000, 12040920000, 11227440000,
   10470000000, 9765896000, 9111088000, 8501332000, 7932384000, 7400000000, 6900827000, 6433100000, 5994960000, 5584547000, 5200000000, 4839136000,
   4500528000, 4183452000, 3887184000, 3611000000, 3353835000, 3114404000, 2891656000, 2684539000, 2492000000, 2313019000, 2146856000, 1992884000,
   1850475000, 1719000000, 1597781000, 1486044000, 1383016000, 1287925000, 1200000000, 1118595000, 1043224000, 973356000, 908458700, 848000000,
   791466700, 738580000, 689160000, 643026700, 600000000, 559818700, 522256000, 487184000, 454474700, 424000000, 395610400, 369151200,
   344486800, 321481600, 300000000, 279912500, 261135600, 243602400, 227246100, 212000000, 197785500, 184528500, 172168700, 160645900,
   149900000, 139872800, 130515500, 121781800, 113625400, 106000000, 98858770, 92173040, 85923620, 80091330, 74657000, 69595670,
   64879950, 60486990, 56393960, 52578000, 49017710, 45697200, 42601940, 39717390, 37029000, 34521630, 32183020, 30003000,
   27971390, 26078000, 24312200, 22665310, 21130130, 19699430, 18366000, 17122300, 15962280, 14880900, 13873140, 12934000,
   12058200, 11241430, 10480090, 9770578, 9109300, 8492513, 7917212, 7380904, 6881098, 6415300, 5980895, 5575746,
   5198080, 4846123, 4518100]

/-- `RGB2SpectLambda` (data/spectral.py 421-427) in units of 10^-6 nm -/
def rgbLamN : List ℕ := [
   380000000, 390967743, 401935486, 412903229, 423870972, 434838715, 445806458, 456774200, 467741943, 478709686, 489677429, 500645172,
   511612915, 522580627, 533548340, 544516052, 555483765, 566451477, 577419189, 588386902, 599354614, 610322327, 621290039, 632257751,
   643225464, 654193176, 665160889, 676128601, 687096313, 698064026, 709031738, 720000000]

/-- `CIE_Y` -/
noncomputable def cieY : List ℝ := cieYn.map fun n : ℕ => (n : ℝ) / 10 ^ 13

/-- `RGB2SpectLambda` -/
noncomputable def rgbLam : List ℝ := rgbLamN.map fun n : ℕ => (n : ℝ) / 10 ^ 6

/-- `CIE_LAMBDA` (data/spectral.py 383-417): 360, 361, …, 830 -/
noncomputable def cieLam : List ℝ := (List.range 471).map fun k : ℕ => 360 + (k : ℝ)

/-- `CIE_Y_INTEGRAL` (data/spectral.py 21) -/
noncomputable def cieYIntegral : ℝ := 106.856895

/-! ### Model -/

/-- one round of the loop of `init` (spectrum.py 350-412) for the tables `vs` that share the wavelengths `lam`: the samples and the arrays afterwards -/
noncomputable def initRow (b : ℝ × ℝ) : List ℝ → List (List ℝ) → List ℝ × List ℝ × List (List ℝ)
  | lam, [] => ([], lam, [])
  | lam, v :: vs =>
    let r := average lam v b.1 b.2
    let q := initRow b r.2.1 vs
    (r.1 :: q.1, q.2.1, r.2.2 :: q.2.2)

/-- the loop of `init` (spectrum.py 345-412) over the given bands: the rows of samples and the arrays afterwards.  The three `CIE` tables share one array of wavelengths, the fourteen `RGB` tables another;
each group is run by itself, which is the same since they have no array in common. -/
noncomputable def initLoop : List (ℝ × ℝ) → List ℝ → List (List ℝ) → List (List ℝ) × List ℝ × List (List ℝ)
  | [], lam, vs => ([], lam, vs)
  | b :: bs, lam, vs =>
    let r := initRow b lam vs
    let q := initLoop bs r.2.1 r.2.2
    (r.1 :: q.1, q.2)

/-- the bands of `init` (spectrum.py 345-348) -/
noncomputable def initBands : List (ℝ × ℝ) := (List.range 30).map initBand

/-- table `j` after `init`: sample `i` is entry `j` of row `i` -/
noncomputable def initTable (lam : List ℝ) (vs : List (List ℝ)) (j : ℕ) : List ℝ := (initLoop initBands lam vs).1.map fun row => rd row j

/-- `np.dot` of two arrays of equal length -/
noncomputable def dotL (a b : List ℝ) : ℝ := (List.zipWith (· * ·) a b).sum

/-- the factor in `y` and `to_xyz` (spectrum.py 297-298, 542-543) -/
noncomputable def scaleXyz (x : ℝ) : ℝ := x * (700 - 400) / (cieYIntegral * 30)

/-- `SampledSpectrum.y` (spectrum.py 296-298) -/
noncomputable def sampledY (Y s : List ℝ) : ℝ := scaleXyz (dotL Y s)

/-- `SampledSpectrum.to_xyz` (spectrum.py 540-543) -/
noncomputable def sampledXyz (X Y Z s : List ℝ) : T3 := ⟨scaleXyz (dotL X s), scaleXyz (dotL Y s), scaleXyz (dotL Z s)⟩

/-- `SampledSpectrum.to_rgb` (spectrum.py 545-546, 599-601) -/
noncomputable def sampledRgb (X Y Z s : List ℝ) : T3 := xyz2rgb (sampledXyz X Y Z s)

/-! ### Preparing the tables -/

theorem initRow_eq (b : ℝ × ℝ) (hb : b.1 < b.2) (lam : List ℝ) (vs : List (List ℝ)) (h : ∀ v ∈ vs, Table lam v) :
    initRow b lam vs = (vs.map fun v => (average lam v b.1 b.2).1, lam, vs) := by
  induction vs with
  | nil => rfl
  | cons v vs ih =>
    have h1 := C58_arrays_restored lam v b.1 b.2 (h v (by simp)) hb
    have h2 := ih (fun w hw => h w (by simp [hw]))
    simp only [initRow, h1, h2, List.map_cons]

theorem initLoop_eq (bs : List (ℝ × ℝ)) (hb : ∀ b ∈ bs, b.1 < b.2) (lam : List ℝ) (vs : List (List ℝ)) (h : ∀ v ∈ vs, Table lam v) :
    initLoop bs lam vs = (bs.map fun b => vs.map fun v => (average lam v b.1 b.2).1, lam, vs) := by
  induction bs with
  | nil => rfl
  | cons b bs ih =>
    have h1 := initRow_eq b (hb b (by simp)) lam vs h
    have h2 := ih (fun c hc => hb c (by simp [hc]))
    simp only [initLoop, h1, h2, List.map_cons]

theorem initBand_eq (i : ℕ) : initBand i = (400 + 10 * (i : ℝ), 410 + 10 * (i : ℝ)) := by
  simp only [initBand, lerp, Prod.mk.injEq]
  constructor <;> ring

/-- **C171** preparing the tables leaves the shared data arrays as they were, and table `j` holds thirty samples, sample `i` being the average of data set `j` over band `i` -/
theorem C171_startup (lam : List ℝ) (vs : List (List ℝ)) (h : ∀ v ∈ vs, Table lam v) :
    (initLoop initBands lam vs).2 = (lam, vs) ∧ ∀ j v, vs[j]? = some v → (initTable lam vs j).length = 30 ∧
      ∀ i < 30, rd (initTable lam vs j) i = (average lam v (400 + 10 * i) (410 + 10 * i)).1 := by
  have hb : ∀ b ∈ initBands, b.1 < b.2 := by
    intro b hb
    obtain ⟨i, -, rfl⟩ := List.mem_map.1 hb
    rw [initBand_eq]; norm_num
  rw [initLoop_eq _ hb _ _ h]
  refine ⟨rfl, fun j v hj => ⟨by rw [initTable, initLoop_eq _ hb _ _ h]; simp [initBands], fun i hi => ?_⟩⟩
  have e : initTable lam vs j = (List.range 30).map fun i : ℕ => (average lam v (400 + 10 * (i : ℝ)) (410 + 10 * (i : ℝ))).1 := by
    rw [initTable, initLoop_eq _ hb _ _ h, initBands, List.map_map, List.map_map]
    refine List.map_congr_left fun i _ => ?_
    simp [rd, List.getD_eq_getElem?_getD, hj, initBand_eq]
  rw [e]
  simp [rd, List.getD_eq_getElem?_getD, hi]

theorem rd_map {α : Type*} (l : List α) (f : α → ℝ) (i : ℕ) (h : i < l.length) : rd (l.map f) i = f l[i] := by
  simp [rd, List.getD_eq_getElem?_getD, h]

theorem getD_lt (l : List ℕ) (i : ℕ) (h : i < l.length) : l.getD i 0 = l[i] := by
  simp [List.getD_eq_getElem?_getD, h]

theorem rgbLamN_lt : ∀ i : Fin 31, rgbLamN.getD i.val 0 < rgbLamN.getD (i.val + 1) 0 := by decide +kernel

theorem rgbLamN_ne : ∀ (i : Fin 30) (k : Fin 32), rgbLamN.getD k.val 0 ≠ (410 + 10 * i.val) * 10 ^ 6 := by decide +kernel

theorem rgb_table (v : List ℝ) (hv : v.length = 32) : Table rgbLam v := by
  have hl : rgbLam.length = 32 := by simp [rgbLam, rgbLamN]
  refine ⟨by omega, by omega, fun i hi => ?_⟩
  rw [hl] at hi
  have hln : rgbLamN.length = 32 := rfl
  unfold rgbLam
  rw [rd_map _ _ _ (by omega), rd_map _ _ _ (by omega)]
  have h1 := rgbLamN_lt ⟨i, by omega⟩
  simp only at h1
  rw [getD_lt _ _ (by omega), getD_lt _ _ (by omega)] at h1
  have h2 : ((rgbLamN[i]'(by omega) : ℕ) : ℝ) < (rgbLamN[i + 1]'(by omega) : ℕ) := by exact_mod_cast h1
  exact div_lt_div_of_pos_right h2 (by positivity)

/-- **C171 (part)** the fourteen tables for colours are right: every sample is the mean over its band of the spectrum which the data describe -/
theorem C171_rgb_tables_partial (vs : List (List ℝ)) (hvs : ∀ v ∈ vs, v.length = 32) (j : ℕ) (v : List ℝ) (hj : vs[j]? = some v) (i : ℕ) (hi : i < 30) :
    ∃ f, Interp rgbLam v f ∧ rd (initTable rgbLam vs j) i = (∫ t in (400 + 10 * (i : ℝ))..(410 + 10 * (i : ℝ)), f t) / 10 := by
  have hv : v ∈ vs := List.mem_of_getElem? hj
  have ht := rgb_table v (hvs v hv)
  have hk : ¬ InteriorKnot rgbLam (410 + 10 * (i : ℝ)) := by
    rintro ⟨k, -, h2, h3⟩
    have hl : rgbLam.length = 32 := by simp [rgbLam, rgbLamN]
    have hln : rgbLamN.length = 32 := rfl
    rw [hl] at h2
    rw [rgbLam, rd_map _ _ _ (by omega)] at h3
    refine rgbLamN_ne ⟨i, hi⟩ ⟨k, by omega⟩ ?_
    simp only
    rw [getD_lt _ _ (by omega)]
    rw [div_eq_iff (by positivity)] at h3
    exact_mod_cast h3
  obtain ⟨⟨f, hf⟩, h⟩ := C58_average_partial rgbLam v (400 + 10 * (i : ℝ)) (410 + 10 * (i : ℝ)) ht (by linarith) hk
  refine ⟨f, hf, ?_⟩
  rw [((C171_startup rgbLam vs (fun w hw => rgb_table w (hvs w hw))).2 j v hj).2 i hi, h f hf]
  congr 1; ring

/-! ### The colour matching tables -/

theorem cie_rd (k : ℕ) (hk : k < 471) : rd cieLam k = 360 + (k : ℝ) := by
  unfold cieLam
  rw [rd_map _ _ _ (by simpa using hk)]
  simp

theorem cie_table (v : List ℝ) (hv : v.length = 471) : Table cieLam v := by
  have hl : cieLam.length = 471 := by simp [cieLam]
  refine ⟨by omega, by omega, fun i hi => ?_⟩
  rw [cie_rd _ (by omega), cie_rd _ (by omega)]
  push_cast; linarith

/-- at an inner wavelength of the table the average is the integral up to the *end of the table*, divided by the width of the interval -/
theorem C58_average_knot (lam v : List ℝ) (ls le : ℝ) (ht : Table lam v) (hlt : ls < le) (hk : InteriorKnot lam le) (f : ℝ → ℝ) (hf : Interp lam v f) :
    (average lam v ls le).1 = (∫ t in ls..(rd lam (lam.length - 1)), f t) / (le - ls) := by
  obtain ⟨k, k0, kn, hkk⟩ := hk
  set last := rd lam (lam.length - 1) with hlast
  have hle : le < last := by rw [← hkk]; exact ht.lt (by omega) (by omega)
  have h0 : rd lam 0 < le := by rw [← hkk]; exact ht.lt k0 (by omega)
  have hnk : ¬ InteriorKnot lam last := by
    rintro ⟨j, -, h2, h3⟩
    exact absurd (h3 ▸ ht.lt (i := j) (j := lam.length - 1) (by omega) (by omega)) (lt_irrefl _)
  have core := (average_core lam v ls last ht (hlt.trans hle) hnk f hf).2
  have h1 : ¬ lam.length = 1 := by omega
  have hlsl : ¬ ls ≥ last := not_le.2 (hlt.trans hle)
  rw [average_main (not_le.2 (h0.trans hle)) hlsl h1] at core
  rw [average_main (not_le.2 h0) hlsl h1]
  have hs1 : Dist.searchsorted lam le = k := by
    refine ss_eq ht (by omega) (fun j hj => ?_) hkk.ge
    rw [← hkk]; exact ht.lt hj (by omega)
  have hs2 : Dist.searchsorted lam last = lam.length - 1 :=
    ss_eq ht (by omega) (fun j hj => ht.lt hj (by omega)) le_rfl
  have hM : Main lam v ls le := ⟨ht, hlt, by omega, h0, hlt.trans hle⟩
  have ha := loStep_spec hM hf
  set a := loStep lam v ls
  have hai : a.i < k := by
    by_contra hc
    have g2 : rd lam k ≤ rd lam a.i := ht.le (by omega) (by have := ha.idx; omega)
    have g3 := ha.lo
    rw [ha.at_i] at g3
    rw [hkk] at g2
    rcases max_cases ls (rd lam 0) with ⟨e, -⟩ | ⟨e, -⟩
    · rw [e] at g3; linarith
    · rw [e] at g3; linarith
  have e1 : hiStep a.lam a.v (Dist.searchsorted lam le) le = hiStep a.lam a.v (Dist.searchsorted lam last) last := by
    unfold hiStep
    rw [hs1, hs2, if_neg, if_neg]
    · rintro ⟨-, hh⟩
      exact hh (ha.other1 _ (by have := ha.idx; omega))
    · rintro ⟨-, hh⟩
      exact hh ((ha.other1 _ (by omega)).trans hkk)
  rw [e1]
  rw [if_neg (not_lt.2 (le_refl last))] at core
  rw [if_neg (not_lt.2 hle.le)]
  have hd : last - ls ≠ 0 := by linarith [hlt.trans hle] |> fun (x : ls < last) => (sub_pos.2 x).ne'
  rw [div_eq_iff hd, div_mul_cancel₀ _ hd] at core
  rw [core]

/-- **C171 is violated** by the colour matching tables: every one of their thirty samples is the integral from the start of its band to the end of the data at 830 nm, divided by the width of the band -/
theorem C171_cie_tables_false (vs : List (List ℝ)) (hvs : ∀ v ∈ vs, v.length = 471) (j : ℕ) (v : List ℝ) (hj : vs[j]? = some v) (i : ℕ) (hi : i < 30) (f : ℝ → ℝ) (hf : Interp cieLam v f) :
    rd (initTable cieLam vs j) i = (∫ t in (400 + 10 * (i : ℝ))..830, f t) / 10 := by
  have hv : v ∈ vs := List.mem_of_getElem? hj
  have ht := cie_table v (hvs v hv)
  have hl : cieLam.length = 471 := by simp [cieLam]
  rw [((C171_startup cieLam vs (fun w hw => cie_table w (hvs w hw))).2 j v hj).2 i hi,
    C58_average_knot cieLam v _ _ ht (by linarith) ⟨50 + 10 * i, by omega, by omega, by rw [cie_rd _ (by omega)]; push_cast; ring⟩ f hf, hl, cie_rd _ (by omega)]
  congr 1
  · norm_num
  · ring

theorem cie_integral (v : List ℝ) (hv : v.length = 471) (f : ℝ → ℝ) (hf : Interp cieLam v f) (a b : ℕ) (hab : a ≤ b) (hb : b < 471) :
    ∫ t in (360 + (a : ℝ))..(360 + (b : ℝ)), f t = ∑ k ∈ Finset.Ico a b, (rd v k + rd v (k + 1)) / 2 := by
  have ht := cie_table v hv
  have hl : cieLam.length = 471 := by simp [cieLam]
  have key := (trapz_exact f (rd cieLam) (rd v) a b hab (fun k _ h2 => ht.le (by omega) (by omega))
    (fun k _ h2 => hf.affine (i := k) (by omega)) (fun k _ h2 => (hf.knot ht (by omega)).symm)).2
  rw [← cie_rd a (by omega), ← cie_rd b hb, ← key]
  refine Finset.sum_congr rfl fun k hk => ?_
  have := (Finset.mem_Ico.1 hk).2
  rw [cie_rd _ (by omega), cie_rd _ (by omega)]
  push_cast; ring

theorem cieY_sum (a b : ℕ) (hb : b < 471) : ∑ k ∈ Finset.Ico a b, (rd cieY k + rd cieY (k + 1)) / 2 = ((∑ k ∈ Finset.Ico a b, (cieYn.getD k 0 + cieYn.getD (k + 1) 0) : ℕ) : ℝ) / (2 * 10 ^ 13) := by
  have hln : cieYn.length = 471 := by decide +kernel
  push_cast
  rw [Finset.sum_div]
  refine Finset.sum_congr rfl fun k hk => ?_
  have := (Finset.mem_Ico.1 hk).2
  unfold cieY
  rw [rd_map _ _ _ (by omega), rd_map _ _ _ (by omega), getD_lt _ _ (by omega), getD_lt _ _ (by omega)]
  ring

/-- **C171 is violated**: the spectrum that is one everywhere should have luminance one (the data give 0.9994), but its `y()` is above sixteen -/
theorem C171_luminance_false (X Z : List ℝ) (hX : X.length = 471) (hZ : Z.length = 471) :
    16 < sampledY (initTable cieLam [X, cieY, Z] 1) (List.replicate 30 1) ∧
    ∀ f, Interp cieLam cieY f → (∫ t in (400 : ℝ)..700, f t) / cieYIntegral ∈ Set.Icc (0.999 : ℝ) 1.001 := by
  have hY : cieY.length = 471 := by
    have hln : cieYn.length = 471 := by decide +kernel
    simpa [cieY] using hln
  have hvs : ∀ v ∈ [X, cieY, Z], v.length = 471 := by simp [hX, hY, hZ]
  constructor
  · have hf := interp_spec (cie_table cieY hY)
    have hent : ∀ i < 30, rd (initTable cieLam [X, cieY, Z] 1) i = ((∑ k ∈ Finset.Ico (40 + 10 * i) 470, (cieYn.getD k 0 + cieYn.getD (k + 1) 0) : ℕ) : ℝ) / (20 * 10 ^ 13) := by
      intro i hi
      rw [C171_cie_tables_false _ hvs 1 cieY rfl i hi _ hf]
      have := cie_integral cieY hY _ hf (40 + 10 * i) 470 (by omega) (by omega)
      rw [cieY_sum _ _ (by omega)] at this
      rw [show (400 + 10 * (i : ℝ)) = 360 + ((40 + 10 * i : ℕ) : ℝ) by push_cast; ring, show (830 : ℝ) = 360 + ((470 : ℕ) : ℝ) by norm_num, this]
      ring
    have hlen := ((C171_startup cieLam [X, cieY, Z] (fun w hw => cie_table w (hvs w hw))).2 1 cieY rfl).1
    have hdot : ∀ T : List ℝ, T.length = 30 → dotL T (List.replicate 30 1) = ∑ i ∈ Finset.range 30, rd T i := by
      intro T hT
      have : List.zipWith (· * ·) T (List.replicate 30 (1 : ℝ)) = (List.range 30).map (rd T) := by
        apply List.ext_getElem
        · simp [hT]
        · intro i h1 h2
          rw [List.length_zipWith, List.length_replicate] at h1
          rw [List.getElem_zipWith, List.getElem_replicate, List.getElem_map, List.getElem_range, mul_one]
          simp [rd, List.getD_eq_getElem?_getD, show i < T.length by omega]
      unfold dotL
      rw [this]
      simp only [List.range_succ, List.range_zero, Finset.sum_range_succ, Finset.sum_range_zero, List.map_append, List.sum_append, List.map_nil, List.map_cons, List.sum_nil, List.sum_cons, zero_add, add_zero]
    rw [sampledY, hdot _ hlen, Finset.sum_congr rfl fun i hi => hent i (Finset.mem_range.1 hi), ← Finset.sum_div, ← Nat.cast_sum]
    have hn : (35 * 10 ^ 15 : ℕ) ≤ (∑ i ∈ Finset.range 30, ∑ k ∈ Finset.Ico (40 + 10 * i) 470, (cieYn.getD k 0 + cieYn.getD (k + 1) 0) : ℕ) := by decide +kernel
    have hn' : ((35 * 10 ^ 15 : ℕ) : ℝ) ≤ ((∑ i ∈ Finset.range 30, ∑ k ∈ Finset.Ico (40 + 10 * i) 470, (cieYn.getD k 0 + cieYn.getD (k + 1) 0) : ℕ) : ℝ) := by exact_mod_cast hn
    generalize (∑ i ∈ Finset.range 30, ∑ k ∈ Finset.Ico (40 + 10 * i) 470, (cieYn.getD k 0 + cieYn.getD (k + 1) 0) : ℕ) = N at hn' ⊢
    unfold scaleXyz cieYIntegral
    rw [lt_div_iff₀ (by norm_num)]
    rw [Nat.cast_mul, Nat.cast_pow] at hn'
    norm_num only [Nat.cast_ofNat] at hn' ⊢
    linarith
  · intro f hf
    have := cie_integral cieY hY f hf 40 340 (by omega) (by omega)
    rw [cieY_sum _ _ (by omega)] at this
    have hn : (∑ k ∈ Finset.Ico 40 340, (cieYn.getD k 0 + cieYn.getD (k + 1) 0) : ℕ) ∈ Finset.Icc (2 * 1067501 * 10 ^ 9) (2 * 1069636 * 10 ^ 9) := by rw [Finset.mem_Icc]; decide +kernel
    rw [show (400 : ℝ) = 360 + ((40 : ℕ) : ℝ) by norm_num, show (700 : ℝ) = 360 + ((340 : ℕ) : ℝ) by norm_num, this, cieYIntegral]
    rw [Finset.mem_Icc] at hn
    obtain ⟨h1, h2⟩ := hn
    generalize (∑ k ∈ Finset.Ico 40 340, (cieYn.getD k 0 + cieYn.getD (k + 1) 0) : ℕ) = N at h1 h2 ⊢
    have h1' : ((2 * 1067501 * 10 ^ 9 : ℕ) : ℝ) ≤ (N : ℝ) := Nat.cast_le.2 h1
    have h2' : (N : ℝ) ≤ ((2 * 1069636 * 10 ^ 9 : ℕ) : ℝ) := Nat.cast_le.2 h2
    norm_num only [Nat.cast_ofNat] at h1' h2'
    rw [Set.mem_Icc, le_div_iff₀ (by norm_num), div_le_iff₀ (by norm_num)]
    constructor <;> linarith

/-! ### What is computed with the tables -/

theorem dotL_add (T s t : List ℝ) (h : s.length = t.length) : dotL T (add s t) = dotL T s + dotL T t := by
  unfold dotL add
  induction T generalizing s t with
  | nil => simp
  | cons a T ih =>
    match s, t, h with
    | [], [], _ => simp
    | x :: s, y :: t, h =>
      have := ih s t (by simpa using h)
      simp only [List.zipWith_cons_cons, List.sum_cons, this]
      ring

theorem dotL_smul (k : ℝ) (T s : List ℝ) : dotL T (smul k s) = k * dotL T s := by
  unfold dotL smul
  induction T generalizing s with
  | nil => simp
  | cons a T ih =>
    match s with
    | [] => simp
    | x :: s =>
      have := ih s
      simp only [List.map_cons, List.zipWith_cons_cons, List.sum_cons, this]
      ring

theorem dotL_nonneg (T s : List ℝ) (hT : ∀ x ∈ T, 0 ≤ x) (hs : ∀ x ∈ s, 0 ≤ x) : 0 ≤ dotL T s := by
  unfold dotL
  induction T generalizing s with
  | nil => simp
  | cons a T ih =>
    match s with
    | [] => simp
    | x :: s =>
      have := ih s (fun y hy => hT y (by simp [hy])) (fun y hy => hs y (by simp [hy]))
      simp only [List.zipWith_cons_cons, List.sum_cons]
      have := mul_nonneg (hT a (by simp)) (hs x (by simp))
      linarith

/-- **C171** whatever the tables hold: luminance is the middle component of `to_xyz`; both `to_xyz` and `to_rgb` are linear in the spectrum; and where tables and spectrum are nonnegative so are
the three components of `to_xyz` -/
theorem C171_xyz (X Y Z s t : List ℝ) (k : ℝ) (h : s.length = t.length) :
    sampledY Y s = (sampledXyz X Y Z s).b ∧
    (sampledXyz X Y Z (add s (smul k t)) = ⟨(sampledXyz X Y Z s).a + k * (sampledXyz X Y Z t).a, (sampledXyz X Y Z s).b + k * (sampledXyz X Y Z t).b, (sampledXyz X Y Z s).c + k * (sampledXyz X Y Z t).c⟩) ∧
    (sampledRgb X Y Z (add s (smul k t)) = ⟨(sampledRgb X Y Z s).a + k * (sampledRgb X Y Z t).a, (sampledRgb X Y Z s).b + k * (sampledRgb X Y Z t).b, (sampledRgb X Y Z s).c + k * (sampledRgb X Y Z t).c⟩) ∧
    ((∀ x ∈ X, 0 ≤ x) → (∀ x ∈ Y, 0 ≤ x) → (∀ x ∈ Z, 0 ≤ x) → (∀ x ∈ s, 0 ≤ x) → 0 ≤ (sampledXyz X Y Z s).a ∧ 0 ≤ (sampledXyz X Y Z s).b ∧ 0 ≤ (sampledXyz X Y Z s).c) := by
  have hl : s.length = (smul k t).length := by simpa [smul] using h
  refine ⟨rfl, ?_, ?_, fun hX hY hZ hs => ?_⟩
  · ext <;> simp only [sampledXyz, scaleXyz, dotL_add _ _ _ hl, dotL_smul] <;> ring
  · ext <;> simp only [sampledRgb, xyz2rgb, sampledXyz, scaleXyz, dotL_add _ _ _ hl, dotL_smul] <;> ring
  · have := dotL_nonneg X s hX hs
    have := dotL_nonneg Y s hY hs
    have := dotL_nonneg Z s hZ hs
    simp only [sampledXyz, scaleXyz, cieYIntegral]
    refine ⟨?_, ?_, ?_⟩ <;> positivity

/-- **C171** the colour of a sampled spectrum has the spectrum's luminance, but for the rounding of the printed matrices -/
theorem C171_to_rgb (X Y Z s : List ℝ) :
    |lum (sampledRgb X Y Z s) - sampledY Y s| ≤ 2 / 10 ^ 6 * (|(sampledXyz X Y Z s).a| + |(sampledXyz X Y Z s).b| + |(sampledXyz X Y Z s).c|) := by
  have e : sampledY Y s = (sampledXyz X Y Z s).b := rfl
  rw [e, sampledRgb]
  generalize sampledXyz X Y Z s = p
  simp only [lum, xyz2rgb]
  have := neg_abs_le p.a; have := le_abs_self p.a
  have := neg_abs_le p.b; have := le_abs_self p.b
  have := neg_abs_le p.c; have := le_abs_self p.c
  have := abs_nonneg p.a; have := abs_nonneg p.b; have := abs_nonneg p.c
  rw [abs_le]
  constructor <;> norm_num <;> linarith

/-- the hypotheses of `C171_startup` and `C171_cie_tables_false` hold of the program's own data -/
example : ∀ v ∈ [cieY, cieY], Table cieLam v := by
  have hln : cieYn.length = 471 := by decide +kernel
  have hY : cieY.length = 471 := by simpa [cieY] using hln
  intro v hv
  have : v = cieY := by simpa using hv
  rw [this]
  exact cie_table cieY hY

end Verif.Spectral
