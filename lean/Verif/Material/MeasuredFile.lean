import Verif.Material.Material

/-!
# Measured material files (C134, C135)

Models `MeasuredMaterial.__init__` (`pytracer/material/material.py:410-502`).  Exact real arithmetic; `none` is a Python exception.
-/
namespace Verif.Mat
open Verif V3 Verif.Geom Verif.DiffG Verif.Bsdf Verif.Refl

/-- reading the numbers (`material.py:443-451`): `lines` are the lines split at white space, `num` is `astype(FLOAT)` of a token -/
def readVals (num : String → Option ℝ) : List (List String) → Option (List ℝ)
  | [] => some []
  | line :: rest =>
    if line = [] ∨ line.head? = some "#" then readVals num rest
    else (line.mapM num).bind fun v => (readVals num rest).map fun r => v ++ r

/-- one record of the file: angles in the order of the file and the measured values -/
@[ext] structure Rec where
  thi : ℝ
  phi : ℝ
  tho : ℝ
  pho : ℝ
  vals : List ℝ

/-- the `while` loop (`material.py:466-479`): four angles, then `n` values -/
def records (n : ℕ) : List ℝ → Option (List Rec)
  | [] => some []
  | thi :: phi :: tho :: pho :: rest => (records n (rest.drop n)).map fun r => ⟨thi, phi, tho, pho, rest.take n⟩ :: r
  | _ => none
termination_by l => l.length
decreasing_by simp only [List.length_drop, List.length_cons]; omega

/-- the sample made of a record (`material.py:469-475`); `fs` is `Spectrum.from_sampled` -/
noncomputable def sampleOf (fs : List ℝ → List ℝ → Spec) (wls : List ℝ) (r : Rec) : V3 ℝ × Spec :=
  (remap (sphericalDirection (Real.sin r.tho) (Real.cos r.tho) r.pho) (sphericalDirection (Real.sin r.thi) (Real.cos r.thi) r.phi), fs wls r.vals)

/-- `INT(x)` truncates toward zero -/
noncomputable def trunc (x : ℝ) : ℤ := if 0 ≤ x then ⌊x⌋ else ⌈x⌉

/-- processing the numbers (`material.py:452-485`).  A negative number of wavelengths, for which the code slices from the end, is simplified to an exception. -/
noncomputable def process (fs : List ℝ → List ℝ → Spec) : List ℝ → Option Table
  | [] => none
  | v0 :: rest =>
    let n := trunc v0
    if n < 0 then none
    else if ((rest.length + 1 : ℤ) - 1 - n) % (4 + n) ≠ 0 then none
    else
      let wls := rest.take n.toNat
      (records n.toNat (rest.drop n.toNat)).map fun rs =>
        let smp := rs.map (sampleOf fs wls)
        ⟨smp.map Prod.fst, some smp⟩

/-! ### Specification: how a file is laid out -/

/-- the numbers of a record in file order -/
def Rec.flat (r : Rec) : List ℝ := [r.thi, r.phi, r.tho, r.pho] ++ r.vals

/-- the numbers of a file: count of wavelengths, wavelengths, records -/
def layout (v0 : ℝ) (wls : List ℝ) (rs : List Rec) : List ℝ := v0 :: (wls ++ rs.flatMap Rec.flat)

/-! ### C134 -/

theorem records_flat (n : ℕ) (rs : List Rec) (h : ∀ r ∈ rs, r.vals.length = n) : records n (rs.flatMap Rec.flat) = some rs := by
  induction rs with
  | nil => simp [records]
  | cons r rs ih =>
    have hr : r.vals.length = n := h r (by simp)
    simp only [List.flatMap_cons, Rec.flat, List.cons_append, List.nil_append]
    rw [records]
    rw [List.drop_append_of_le_length (by omega), List.drop_of_length_le (by omega), List.nil_append,
      List.take_append_of_le_length (by omega), List.take_of_length_le (by omega), ih (fun r hr => h r (List.mem_cons_of_mem _ hr))]
    rfl

theorem flat_length (n : ℕ) (rs : List Rec) (h : ∀ r ∈ rs, r.vals.length = n) : (rs.flatMap Rec.flat).length = rs.length * (4 + n) := by
  induction rs with
  | nil => simp
  | cons r rs ih =>
    have hr : r.vals.length = n := h r (by simp)
    simp only [List.flatMap_cons, List.length_append, Rec.flat, List.length_cons, List.length_nil]
    rw [ih (fun r hr => h r (List.mem_cons_of_mem _ hr)), hr]
    ring

/-- **C134** every file laid out as a count `n`, `n` wavelengths and any number of records of four angles and `n` values is read completely: the table has exactly one sample per
record, in the order of the file, and the tree point with index `k` belongs to sample `k` -/
theorem C134_read (fs : List ℝ → List ℝ → Spec) (wls : List ℝ) (rs : List Rec) (h : ∀ r ∈ rs, r.vals.length = wls.length) :
    process fs (layout wls.length wls rs) = some ⟨rs.map (fun r => (sampleOf fs wls r).1), some (rs.map (sampleOf fs wls))⟩ := by
  have ht : trunc (wls.length : ℝ) = wls.length := by
    unfold trunc; rw [if_pos (Nat.cast_nonneg _), Int.floor_natCast]
  simp only [process, layout, ht, Int.toNat_natCast]
  rw [if_neg (by omega)]
  have hl : (((wls ++ rs.flatMap Rec.flat).length : ℤ) + 1 - 1 - wls.length) % (4 + wls.length) = 0 := by
    rw [List.length_append, flat_length _ _ h]
    push_cast
    rw [show ((wls.length : ℤ) + rs.length * (4 + wls.length) + 1 - 1 - wls.length) = rs.length * (4 + wls.length) by ring]
    exact Int.mul_emod_left _ _
  rw [if_neg (not_not.2 hl), List.drop_left', List.take_left', records_flat _ _ h]
  · simp [List.map_map, Function.comp_def]
  all_goals rfl

theorem records_inv (n : ℕ) (l : List ℝ) : ∀ (k : ℕ), l.length = k * (4 + n) → ∃ rs : List Rec, records n l = some rs ∧ (∀ r ∈ rs, r.vals.length = n) ∧ rs.length = k ∧ l = rs.flatMap Rec.flat := by
  intro k
  induction k generalizing l with
  | zero =>
    intro h
    have : l = [] := by simpa using h
    subst this
    exact ⟨[], by simp [records], by simp, rfl, rfl⟩
  | succ k ih =>
    intro h
    rw [Nat.add_mul, Nat.one_mul] at h
    match l, h with
    | a :: b :: c :: d :: rest, h =>
      simp only [List.length_cons] at h
      obtain ⟨rs, e, h1, h2, h3⟩ := ih (rest.drop n) (by rw [List.length_drop]; omega)
      refine ⟨⟨a, b, c, d, rest.take n⟩ :: rs, by rw [records, e]; rfl, ?_, by simp [h2], ?_⟩
      · intro r hr
        rcases List.mem_cons.1 hr with rfl | hr
        · simp only [List.length_take]; omega
        · exact h1 r hr
      · simp only [List.flatMap_cons, Rec.flat, List.cons_append, List.nil_append, ← h3, List.take_append_drop]
    | [], h => simp at h; omega
    | [_], h => simp at h; omega
    | [_, _], h => simp at h; omega
    | [_, _, _], h => simp at h; omega

/-- **C134** conversely a list of numbers is accepted only if it is laid out that way (the count may have a fractional part, which is ignored): truncated files and
files with extra numbers are rejected, and nothing of an accepted file is dropped -/
theorem C134_reject (fs : List ℝ → List ℝ → Spec) (v0 : ℝ) (h0 : 0 ≤ v0) (rest : List ℝ) :
    (∃ t, process fs (v0 :: rest) = some t) ↔ ∃ wls rs, v0 :: rest = layout v0 wls rs ∧ (wls.length : ℤ) = ⌊v0⌋ ∧ ∀ r ∈ rs, r.vals.length = wls.length := by
  have ht : trunc v0 = ⌊v0⌋ := by unfold trunc; rw [if_pos h0]
  obtain ⟨n, hn⟩ : ∃ n : ℕ, ⌊v0⌋ = n := ⟨⌊v0⌋.toNat, by rw [Int.toNat_of_nonneg (Int.floor_nonneg.2 h0)]⟩
  constructor
  · rintro ⟨t, e⟩
    simp only [process, ht, hn, Int.toNat_natCast] at e
    rw [if_neg (by omega)] at e
    split_ifs at e with hm
    simp only [ne_eq, not_not] at hm
    have hm' : ((4 + n : ℕ) : ℤ) ∣ (rest.length : ℤ) - n := by
      push_cast
      have := Int.dvd_of_emod_eq_zero hm
      rwa [show (rest.length : ℤ) + 1 - 1 - n = rest.length - n by ring] at this
    obtain ⟨k, hk⟩ := hm'
    have hk0 : 0 ≤ k := by
      by_contra hneg
      have : k ≤ -1 := by omega
      have : ((4 + n : ℕ) : ℤ) * k ≤ ((4 + n : ℕ) : ℤ) * (-1) := mul_le_mul_of_nonneg_left this (by positivity)
      push_cast at this hk
      have := (rest.length : ℤ).le_refl
      omega
    lift k to ℕ using hk0
    have hlen : rest.length = n + k * (4 + n) := by
      have : (rest.length : ℤ) = n + k * (4 + n) := by push_cast at hk; linarith
      exact_mod_cast this
    obtain ⟨rs, -, h1, -, h3⟩ := records_inv n (rest.drop n) k (by rw [List.length_drop, hlen]; omega)
    have hw : (rest.take n).length = n := by rw [List.length_take, hlen]; omega
    refine ⟨rest.take n, rs, ?_, by rw [hw, hn], fun r hr => by rw [h1 r hr, hw]⟩
    rw [layout, ← h3, List.take_append_drop]
  · rintro ⟨wls, rs, e, h1, h2⟩
    have hw : wls.length = n := by rw [hn] at h1; exact_mod_cast h1
    have e' := C134_read fs wls rs h2
    have er : rest = wls ++ rs.flatMap Rec.flat := by simpa [layout] using e
    refine ⟨⟨rs.map (fun r => (sampleOf fs wls r).1), some (rs.map (sampleOf fs wls))⟩, ?_⟩
    · rw [← e']
      have ht2 : trunc (wls.length : ℝ) = wls.length := by
        unfold trunc; rw [if_pos (Nat.cast_nonneg _), Int.floor_natCast]
      rw [hw] at ht2
      simp only [process, layout, ht, hn, ht2, er, hw]

theorem phi_of_direction (st ct φ : ℝ) (hs : 0 < st) (h0 : 0 < φ) (h1 : φ ≤ 2 * Real.pi) : sphericalPhi (sphericalDirection st ct φ) = φ := by
  obtain ⟨a0, a1, hc, hsn⟩ := C60_spherical_phi (sphericalDirection st ct φ)
  have hr : √((sphericalDirection st ct φ).x ^ 2 + (sphericalDirection st ct φ).y ^ 2) = st := by
    have : (sphericalDirection st ct φ).x ^ 2 + (sphericalDirection st ct φ).y ^ 2 = st ^ 2 := by
      simp only [sphericalDirection]
      linear_combination st ^ 2 * Real.sin_sq_add_cos_sq φ
    rw [this, Real.sqrt_sq hs.le]
  rw [hr] at hc hsn
  have hc := mul_left_cancel₀ hs.ne' hc
  have hsn := mul_left_cancel₀ hs.ne' hsn
  have : Real.cos (sphericalPhi (sphericalDirection st ct φ) - φ) = 1 := by
    rw [Real.cos_sub, hc, hsn]
    linear_combination Real.sin_sq_add_cos_sq φ
  have := (Real.cos_eq_one_iff_of_lt_of_lt (by linarith) (by linarith)).1 this
  linarith

/-- **C134** the point under which a record is found: product of the sines of the two polar angles, angle between the two azimuths as a fraction of `π`, product of
the cosines, for all polar angles strictly between 0 and `π` and azimuths in `(0, 2π]`; its value is the spectrum of the record's values over the file's wavelengths -/
theorem C134_sample (fs : List ℝ → List ℝ → Spec) (wls : List ℝ) (r : Rec) (hi0 : 0 < r.thi) (hi1 : r.thi < Real.pi) (ho0 : 0 < r.tho) (ho1 : r.tho < Real.pi)
    (hpi0 : 0 < r.phi) (hpi1 : r.phi ≤ 2 * Real.pi) (hpo0 : 0 < r.pho) (hpo1 : r.pho ≤ 2 * Real.pi) :
    sampleOf fs wls r = (⟨Real.sin r.thi * Real.sin r.tho, min |r.phi - r.pho| (2 * Real.pi - |r.phi - r.pho|) / Real.pi, Real.cos r.thi * Real.cos r.tho⟩, fs wls r.vals) := by
  have si := Real.sin_pos_of_pos_of_lt_pi hi0 hi1
  have so := Real.sin_pos_of_pos_of_lt_pi ho0 ho1
  have hst (θ φ : ℝ) (h : 0 < Real.sin θ) : sinTheta (sphericalDirection (Real.sin θ) (Real.cos θ) φ) = Real.sin θ := by
    unfold sinTheta sphericalDirection
    simp only []
    rw [show 1 - Real.cos θ * Real.cos θ = Real.sin θ ^ 2 by linear_combination -(Real.sin_sq_add_cos_sq θ), max_eq_right (sq_nonneg _), Real.sqrt_sq h.le]
  obtain ⟨hx, hz, hy, -, -⟩ := C85_remap (sphericalDirection (Real.sin r.tho) (Real.cos r.tho) r.pho) (sphericalDirection (Real.sin r.thi) (Real.cos r.thi) r.phi)
  rw [hst _ _ si, hst _ _ so] at hx
  rw [phi_of_direction _ _ _ si hpi0 hpi1, phi_of_direction _ _ _ so hpo0 hpo1] at hy
  unfold sampleOf
  congr 1
  ext
  · exact hx
  · exact hy
  · exact hz

/-- **C134** the numbers come from the lines in order; empty lines and lines whose first word is `#` are skipped -/
theorem C134_comments (num : String → Option ℝ) (lines : List (List String)) :
    readVals num lines = readVals num (lines.filter fun l => ¬ (l = [] ∨ l.head? = some "#")) ∧
    (∀ vals : List (List ℝ), (∀ l ∈ lines, l ≠ [] ∧ l.head? ≠ some "#") → lines.map (List.mapM num) = vals.map some → readVals num lines = some vals.flatten) := by
  constructor
  · induction lines with
    | nil => rfl
    | cons l ls ih =>
      by_cases h : l = [] ∨ l.head? = some "#"
      · rw [readVals, if_pos h, List.filter_cons_of_neg (by simp only [h, not_true_eq_false, decide_false]; decide), ih]
      · rw [List.filter_cons_of_pos (by simpa using h), readVals, readVals, if_neg h, if_neg h, ih]
  · induction lines with
    | nil =>
      intro vals _ h
      cases vals with
      | nil => rfl
      | cons _ _ => cases h
    | cons l ls ih =>
      intro vals hl h
      cases vals with
      | nil => cases h
      | cons v vs =>
        simp only [List.map_cons, List.cons.injEq] at h
        have := hl l (by simp)
        rw [readVals, if_neg (by simp [this]), h.1, ih vs (fun l hl' => hl l (List.mem_cons_of_mem _ hl')) h.2]
        rfl

/-- a file with one wavelength and two records -/
example : ∀ r ∈ [(⟨0, 0, 1, 1, [5]⟩ : Rec), ⟨1, 0, 1, 1, [6]⟩], r.vals.length = [(500 : ℝ)].length := by
  intro r hr
  simp only [List.mem_cons, List.not_mem_nil, or_false] at hr
  rcases hr with rfl | rfl <;> rfl

/-! ### C135 -/

/-- the attributes `theta_phi_tree` and `theta_phi_samples` of a `MeasuredMaterial` -/
structure Fields where
  tree : Option (List (V3 ℝ))
  samples : Option (List (V3 ℝ × Spec))

/-- the module-level dictionary `IrIsotropicData` (`pytracer/__init__.py:30`), keyed by file name without directory -/
abbrev Cache := String → Option Table

/-- `MeasuredMaterial.__init__` (`material.py:410-502`) for the path with directory `dir` and file name `file`; `ext` is the extension of a file name,
`disk` gives the numbers of a file (`none` if it does not exist or has a token that is no number).  An extra attribute is set on a cache hit (line 434,
`theta_phi_sample` for `theta_phi_samples`), which nothing reads. -/
noncomputable def load (ext : String → String) (fs : List ℝ → List ℝ → Spec) (disk : String → String → Option (List ℝ)) (cache : Cache) (dir file : String) : Option (Fields × Cache) :=
  if ext file = ".brdf" ∨ ext file = ".BRDF" then
    match cache file with
    | some t => some (⟨some t.tree, none⟩, cache)
    | none => (disk dir file).bind fun vals => (process fs vals).map fun t =>
        (⟨some t.tree, t.samples⟩, fun k => if k = file then some t else cache k)
  else none

/-- a program loads files one after the other; a failing load is caught and changes nothing -/
noncomputable def loads (ext : String → String) (fs : List ℝ → List ℝ → Spec) (disk : String → String → Option (List ℝ)) : Cache → List (String × String) → Cache
  | c, [] => c
  | c, p :: ps => loads ext fs disk (match load ext fs disk c p.1 p.2 with | some r => r.2 | none => c) ps

/-- the table of the file itself -/
noncomputable def fileTable (fs : List ℝ → List ℝ → Spec) (disk : String → String → Option (List ℝ)) (dir file : String) : Option Table := (disk dir file).bind (process fs)

theorem loads_other (ext : String → String) (fs : List ℝ → List ℝ → Spec) (disk : String → String → Option (List ℝ)) (ps : List (String × String)) (c : Cache) (file : String)
    (h : ∀ p ∈ ps, p.2 ≠ file) : loads ext fs disk c ps file = c file := by
  induction ps generalizing c with
  | nil => rfl
  | cons p ps ih =>
    rw [loads, ih _ (fun q hq => h q (List.mem_cons_of_mem _ hq))]
    have hp := h p (by simp)
    unfold load
    split_ifs with hx
    · cases hc : c p.2 with
      | some t => rfl
      | none =>
        cases hd : disk p.1 p.2 with
        | none => rfl
        | some v =>
          cases hv : process fs v with
          | none => simp [hv]
          | some t => simp [hv, Ne.symm hp]
    · rfl

/-- **C135 (part)** in every history of loads, the first load of a file name gives the data of that file (or fails as the file demands).  Missing: every later load of the
same name (`C135_reload_false`). -/
theorem C135_first_partial (ext : String → String) (fs : List ℝ → List ℝ → Spec) (disk : String → String → Option (List ℝ)) (ps : List (String × String)) (dir file : String)
    (hx : ext file = ".brdf" ∨ ext file = ".BRDF") (h : ∀ p ∈ ps, p.2 ≠ file) :
    (load ext fs disk (loads ext fs disk (fun _ => none) ps) dir file).map Prod.fst = (fileTable fs disk dir file).map fun t => ⟨some t.tree, t.samples⟩ := by
  have hc := loads_other ext fs disk ps (fun _ => none) file h
  rw [load, if_pos hx, hc]
  unfold fileTable
  cases disk dir file with
  | none => rfl
  | some v =>
    cases hv : process fs v with
    | none => simp [hv]
    | some t => simp [hv]

/-- **C135 fails**: after a file was loaded, every further load of that name gives a material without samples, so that evaluating it raises (`None[idx]`); the tree is the
one of the first file, also if the second has the same name in another directory, and the other file is not even opened -/
theorem C135_reload_false (ext : String → String) (fs : List ℝ → List ℝ → Spec) (disk : String → String → Option (List ℝ)) (c : Cache) (dir dir' file : String) (r : Fields × Cache)
    (h : load ext fs disk c dir file = some r) : ∃ f, load ext fs disk r.2 dir' file = some (f, r.2) ∧ f.tree = r.1.tree ∧ f.samples = none := by
  unfold load at h
  split_ifs at h with hx
  unfold load
  rw [if_pos hx]
  cases hc : c file with
  | some t =>
    rw [hc] at h
    cases h
    simp only [hc]
    exact ⟨_, rfl, rfl, rfl⟩
  | none =>
    rw [hc] at h
    simp only [Option.bind_eq_some_iff, Option.map_eq_some_iff] at h
    obtain ⟨v, -, t, -, rfl⟩ := h
    simp only [if_true]
    exact ⟨_, rfl, rfl, rfl⟩

/-- a load that succeeds: a file with no wavelength and no records -/
example : ∃ r, load (fun _ => ".brdf") (fun _ _ _ => 0) (fun _ _ => some (layout 0 [] [])) (fun _ => none) "a" "x.brdf" = some r := by
  have := C134_read (fun _ _ _ => 0) [] [] (by simp)
  simp only [List.length_nil, Nat.cast_zero] at this
  exact ⟨_, by simp only [load, true_or, if_true, Option.bind_some, this, Option.map_some]; rfl⟩

/-- **C135 fails**: the documented extension `.brdt` (and `.merl`) is rejected whatever the file contains -/
theorem C135_extension_false (ext : String → String) (fs : List ℝ → List ℝ → Spec) (disk : String → String → Option (List ℝ)) (c : Cache) (dir file : String)
    (h : ext file = ".brdt" ∨ ext file = ".merl") : load ext fs disk c dir file = none := by
  unfold load
  rw [if_neg]
  rcases h with h | h <;> rw [h] <;> decide

end Verif.Mat
