import Verif.Geom.Model
import Verif.Geom.Props
import Mathlib.Algebra.Order.Floor.Ring
import Mathlib.Algebra.BigOperators.Group.List.Basic
import Mathlib.MeasureTheory.Measure.Lebesgue.Basic
import Mathlib.LinearAlgebra.Matrix.NonsingularInverse
import Mathlib.Tactic.FieldSimp
import Mathlib.Tactic.Positivity
import Mathlib.Tactic.NormNum

/-!
# The BSDF container (`pytracer/reflection/bsdf.py`, `pytracer/reflection/bdf/bdf.py:23-70, 166-170`)

Real arithmetic.  Spectra are elements of an arbitrary additive commutative monoid `S` (only `Spectrum(0.)` and
`+=` are used here).
-/

namespace Verif.Bsdf
open Verif V3 Verif.Geom

/-- `BDFType` and its flag masks (`bdf.py:23-70`): `UINT` is `np.uint32`. -/
abbrev Flags := BitVec 32

/-- `BDFType.REFLECTION` (`bdf.py:60`) -/
def REFLECTION : Flags := 1#32 <<< 0
/-- `BDFType.TRANSMISSION` (`bdf.py:61`) -/
def TRANSMISSION : Flags := 1#32 <<< 1
/-- `BDFType.DIFFUSE` (`bdf.py:62`) -/
def DIFFUSE : Flags := 1#32 <<< 2
/-- `BDFType.GLOSSY` (`bdf.py:63`) -/
def GLOSSY : Flags := 1#32 <<< 3
/-- `BDFType.SPECULAR` (`bdf.py:64`) -/
def SPECULAR : Flags := 1#32 <<< 4
/-- `BDFType.ALL` (`bdf.py:65-70`) -/
def ALL : Flags := (REFLECTION ||| (DIFFUSE ||| GLOSSY ||| SPECULAR)) ||| (TRANSMISSION ||| (DIFFUSE ||| GLOSSY ||| SPECULAR))

/-- What `BDF.sample_f` hands back (`bdf.py:108-126`): the density and, unless it is the "nothing" answer
`[0., None, None]` (`bdf.py:297`), the direction and the value. -/
structure Smp (S : Type*) where
  pdf : ℝ
  dv : Option (V3 ℝ × S)

/-- A `BDF` object seen from the container (`bdf.py:73-170`): its type and its three methods. -/
structure Bdf (S : Type*) where
  type : Flags
  f : V3 ℝ → V3 ℝ → S
  pdf : V3 ℝ → V3 ℝ → ℝ
  sample : V3 ℝ → ℝ → ℝ → Smp S

/-- `BDF.match_flag` (`bdf.py:166-170`); an integer flag argument is its `uint32` value. -/
def Bdf.matchFlag {S : Type*} (b : Bdf S) (flag : Flags) : Bool := b.type &&& flag = b.type

/-- `BSDF` (`bsdf.py:67-98`): frame, geometric normal and component list (`n_BDF` is its length, `bsdf.py:169-178`). -/
structure BSDF (S : Type*) where
  sn : V3 ℝ
  tn : V3 ℝ
  nn : V3 ℝ
  ng : V3 ℝ
  bdfs : List (Bdf S)

variable {S : Type*}

/-- `BSDF.__init__` (`bsdf.py:78-94`), from `dg.nn` and `dg.dpdu`. -/
noncomputable def BSDF.init (nn dpdu ng : V3 ℝ) : BSDF S :=
  let sn := Geom.normalize dpdu
  { sn := sn, tn := cross nn sn, nn := nn, ng := ng, bdfs := [] }

/-- `BSDF.push_back` (`bsdf.py:169-174`). -/
def BSDF.pushBack (b : BSDF S) (d : Bdf S) : BSDF S := { b with bdfs := b.bdfs ++ [d] }

/-- `BSDF.n_components` (`bsdf.py:180-185`). -/
def BSDF.nComponents (b : BSDF S) (flags : Flags) : ℕ :=
  b.bdfs.foldl (fun n d => if d.matchFlag flags then n + 1 else n) 0

/-- `BSDF.w2l` (`bsdf.py:187-194`). -/
noncomputable def BSDF.w2l (b : BSDF S) (v : V3 ℝ) : V3 ℝ := ⟨dot v b.sn, dot v b.tn, dot v b.nn⟩

/-- `BSDF.l2w` (`bsdf.py:196-205`), as written. -/
noncomputable def BSDF.l2w (b : BSDF S) (v : V3 ℝ) : V3 ℝ :=
  ⟨b.sn.x * v.x + b.tn.x * v.x + b.nn.x * v.x,
   b.sn.y * v.y + b.tn.y * v.y + b.nn.y * v.y,
   b.sn.z * v.z + b.tn.z * v.z + b.nn.z * v.z⟩

/-- the component loop of `sample_f` (`bsdf.py:114-119`): `cnt` counts down at each matching component; `none` is
the unbound variable `bdf` after the loop. -/
def pick (flags : Flags) : List (Bdf S) → ℤ → Option (Bdf S)
  | [], _ => none
  | d :: ds, cnt =>
    if d.matchFlag flags then (if cnt = 0 then some d else pick flags ds (cnt - 1)) else pick flags ds cnt

/-- the component chosen by `sample_f` (`bsdf.py:109-119`) when some component matches. -/
noncomputable def BSDF.choose (b : BSDF S) (uCom : ℝ) (flags : Flags) : Option (Bdf S) :=
  pick flags b.bdfs (min ⌊uCom * b.nComponents flags⌋ ((b.nComponents flags : ℤ) - 1))

section eval
variable [AddCommMonoid S]

/-- `BSDF.f` (`bsdf.py:207-224`).  `flags & ~BDFType.TRANSMISSION` is taken on 32-bit words; for a `BDFType`
argument that is `UINT(-3)`, which wraps in the NumPy versions of the code's time. -/
noncomputable def BSDF.f (b : BSDF S) (woW wiW : V3 ℝ) (flags : Flags) : S :=
  let wi := b.w2l wiW
  let wo := b.w2l woW
  let flags := if dot wiW b.ng * dot woW b.ng > 0 then flags &&& ~~~TRANSMISSION else flags &&& ~~~REFLECTION
  b.bdfs.foldl (fun acc d => if d.matchFlag flags then acc + d.f wo wi else acc) 0

/-- `BSDF.pdf` (`bsdf.py:156-167`). -/
noncomputable def BSDF.pdf (b : BSDF S) (woW wiW : V3 ℝ) (flags : Flags) : ℝ :=
  if b.bdfs.length = 0 then 0
  else
    let wo := b.w2l woW
    let wi := b.w2l wiW
    let r := b.bdfs.foldl (fun (acc : ℝ × ℕ) d => if d.matchFlag flags then (acc.1 + d.pdf wo wi, acc.2 + 1) else acc) (0, 0)
    if r.2 > 0 then r.1 / r.2 else 0

/-- What `BSDF.sample_f` returns (`bsdf.py:100-154`): `[pdf, wi_w, sample_type, spectrum]`. -/
structure Out (S : Type*) where
  pdf : ℝ
  wi : Option (V3 ℝ)
  type : Option Flags
  f : S

/-- `BSDF.sample_f` (`bsdf.py:100-154`); `none` is an exception.
`BDFType` defines neither `__bool__` nor `__len__` (`bdf.py:23-70`), so every `BDFType` object is true and both
tests `not (bdf.type & BDFType.SPECULAR)` (lines 132 and 141) are false: the density is never summed over the other
components and the value stays the one of the chosen component. -/
noncomputable def BSDF.sampleF (b : BSDF S) (woW : V3 ℝ) (u1 u2 uCom : ℝ) (flags : Flags) : Option (Out S) :=
  let nMatch := b.nComponents flags
  if nMatch = 0 then some ⟨0, none, none, 0⟩
  else
    match b.choose uCom flags with
    | none => none
    | some d =>
      let wo := b.w2l woW
      let s := d.sample wo u1 u2
      if s.pdf = 0 then some ⟨s.pdf, none, some d.type, 0⟩
      else
        match s.dv with
        | none => none
        | some (wi, f) =>
          let wiW := b.l2w wi
          let pdf := if nMatch > 1 then s.pdf / nMatch else s.pdf
          some ⟨pdf, some wiW, some d.type, f⟩

end eval

/-! ## Specification -/

/-- `t`'s flags are all contained in `fl` -/
def Contained (t fl : Flags) : Prop := ∀ i < 32, t.getLsbD i = true → fl.getLsbD i = true

instance (t fl : Flags) : Decidable (Contained t fl) := by unfold Contained; infer_instance

/-- the components a request for `flags` is about, in list order -/
def matching (b : BSDF S) (flags : Flags) : List (Bdf S) := b.bdfs.filter (fun d => decide (Contained d.type flags))

theorem matchFlag_iff (d : Bdf S) (fl : Flags) : d.matchFlag fl = true ↔ Contained d.type fl := by
  unfold Bdf.matchFlag Contained
  rw [decide_eq_true_iff]
  constructor
  · intro h i _ hi
    have := congrArg (fun v : BitVec 32 => v.getLsbD i) h
    simp only [BitVec.getLsbD_and, hi, Bool.true_and] at this
    exact this
  · intro h
    apply BitVec.eq_of_getLsbD_eq
    intro i hi
    have := h i hi
    rw [BitVec.getLsbD_and]
    revert this
    cases d.type.getLsbD i <;> simp

theorem matchFlag_eq (d : Bdf S) (fl : Flags) : d.matchFlag fl = decide (Contained d.type fl) := by
  rw [Bool.eq_iff_iff, matchFlag_iff, decide_eq_true_iff]

theorem foldl_count (l : List (Bdf S)) (fl : Flags) (n : ℕ) :
    l.foldl (fun n d => if d.matchFlag fl then n + 1 else n) n = n + (l.filter (fun d => decide (Contained d.type fl))).length := by
  induction l generalizing n with
  | nil => simp
  | cons d ds ih =>
    rw [List.foldl_cons, ih, List.filter_cons, matchFlag_eq]
    by_cases h : Contained d.type fl <;> simp [h]
    omega

/-- The number of components is the number of components whose flags are all requested. -/
theorem C45_count (b : BSDF S) (fl : Flags) : b.nComponents fl = (matching b fl).length := by
  rw [BSDF.nComponents, foldl_count, matching]; simp

theorem pick_eq (fl : Flags) (l : List (Bdf S)) (n : ℕ) :
    pick fl l (n : ℤ) = (l.filter (fun d => decide (Contained d.type fl)))[n]? := by
  induction l generalizing n with
  | nil => simp [pick]
  | cons d ds ih =>
    rw [pick, matchFlag_eq, List.filter_cons]
    by_cases h : Contained d.type fl
    · cases n with
      | zero => simp [h]
      | succ m =>
        have e : ((m + 1 : ℕ) : ℤ) - 1 = (m : ℤ) := by push_cast; ring
        have e2 : ¬ (((m + 1 : ℕ) : ℤ) = 0) := by omega
        simp only [h, decide_true, if_true, e, e2, if_false, ih, List.getElem?_cons_succ]
    · simp [h, ih]

/-- For a sample in `[0,1)` the component chosen is the `i`-th matching one exactly when the sample lies in the
`i`-th of the `n` equal pieces of `[0,1)`. -/
theorem C45_choice (b : BSDF S) (fl : Flags) (u : ℝ) (h0 : 0 ≤ u) (h1 : u < 1) (hn : matching b fl ≠ []) :
    ∃ i : ℕ, ∃ h : i < (matching b fl).length,
      (i : ℝ) / (matching b fl).length ≤ u ∧ u < ((i : ℝ) + 1) / (matching b fl).length ∧
      b.choose u fl = some (matching b fl)[i] := by
  have hl : 0 < (matching b fl).length := List.length_pos_iff.mpr hn
  have hlR : (0 : ℝ) < ((matching b fl).length : ℝ) := by exact_mod_cast hl
  set n := (matching b fl).length with hnd
  have hnn : 0 ≤ u * n := mul_nonneg h0 hlR.le
  have hlt : u * n < n := by nlinarith
  have hfl0 : 0 ≤ ⌊u * (n : ℝ)⌋ := Int.floor_nonneg.mpr hnn
  have hflt : ⌊u * (n : ℝ)⌋ < (n : ℤ) := by
    rw [Int.floor_lt]; exact_mod_cast hlt
  obtain ⟨i, hi⟩ := Int.eq_ofNat_of_zero_le hfl0
  have hi2 : i < n := by rw [hi] at hflt; exact_mod_cast hflt
  refine ⟨i, hi2, ?_, ?_, ?_⟩
  · rw [div_le_iff₀ hlR]
    have := Int.floor_le (u * (n : ℝ))
    rw [hi] at this; exact_mod_cast this
  · rw [lt_div_iff₀ hlR]
    have := Int.lt_floor_add_one (u * (n : ℝ))
    rw [hi] at this; exact_mod_cast this
  · unfold BSDF.choose
    rw [C45_count, ← hnd, min_eq_left (by omega), hi]
    rw [show (matching b fl)[i] = (matching b fl)[i]'(hi2) from rfl]
    have := pick_eq fl b.bdfs i
    rw [this]
    exact List.getElem?_eq_getElem hi2

/-- a sample of one or more, which a generator of the closed interval may give, takes the last matching component: the index never leaves the list -/
theorem C45_choice_top (b : BSDF S) (fl : Flags) (u : ℝ) (h1 : 1 ≤ u) (hn : matching b fl ≠ []) : b.choose u fl = (matching b fl).getLast? := by
  have hl : 0 < (matching b fl).length := List.length_pos_iff.mpr hn
  have hn' : (0 : ℝ) < ((matching b fl).length : ℝ) := by exact_mod_cast hl
  unfold BSDF.choose
  rw [C45_count]
  have hfl : ((matching b fl).length : ℤ) ≤ ⌊u * ((matching b fl).length : ℝ)⌋ := by
    rw [Int.le_floor]; push_cast; nlinarith
  rw [min_eq_right (by omega), show ((matching b fl).length : ℤ) - 1 = (((matching b fl).length - 1 : ℕ) : ℤ) by omega, pick_eq, List.getLast?_eq_getElem?]
  rfl

/-- the five flags are different bits, and a request for `ALL` is about every component whose type is made of these flags -/
theorem C45_flags (b : BSDF S) : [REFLECTION, TRANSMISSION, DIFFUSE, GLOSSY, SPECULAR].Pairwise (fun x y => x &&& y = 0#32) ∧
    (∀ x ∈ [REFLECTION, TRANSMISSION, DIFFUSE, GLOSSY, SPECULAR], x ≠ 0#32 ∧ Contained x ALL) ∧
    ((∀ d ∈ b.bdfs, ∀ i < 32, d.type.getLsbD i = true → i < 5) → matching b ALL = b.bdfs) := by
  have hc : ∀ x : Flags, x &&& ALL = x → Contained x ALL := fun x hx =>
    (matchFlag_iff (⟨x, fun _ _ => 0, fun _ _ => 0, fun _ _ _ => ⟨0, none⟩⟩ : Bdf ℕ) ALL).1 (by simpa [Bdf.matchFlag] using hx)
  refine ⟨by decide, ?_, fun h => ?_⟩
  · intro x hx
    simp only [List.mem_cons, List.not_mem_nil, or_false] at hx
    rcases hx with rfl | rfl | rfl | rfl | rfl <;> exact ⟨by decide, hc _ (by decide)⟩
  rw [matching, List.filter_eq_self]
  intro d hd
  rw [decide_eq_true_iff]
  intro i hi hb
  have : ∀ i < 5, ALL.getLsbD i = true := by decide
  exact this i (h d hd i hi hb)

/-- Equal probability: the samples in `[0,1)` for which the `i`-th matching component is the one taken have length
`1 / n`. (`chosenIndex u` is the index found in `C45_choice`, stated as an interval.) -/
theorem C45_equal_probability (b : BSDF S) (fl : Flags) (i : ℕ) (hi : i < (matching b fl).length) :
    (∀ u : ℝ, 0 ≤ u → u < 1 → (i : ℝ) / (matching b fl).length ≤ u → u < ((i : ℝ) + 1) / (matching b fl).length →
      b.choose u fl = some (matching b fl)[i]) ∧
    Set.Ico ((i : ℝ) / (matching b fl).length) (((i : ℝ) + 1) / (matching b fl).length) ⊆ Set.Ico 0 1 ∧
    MeasureTheory.volume (Set.Ico ((i : ℝ) / (matching b fl).length) (((i : ℝ) + 1) / (matching b fl).length))
      = ENNReal.ofReal (1 / (matching b fl).length) := by
  have hl : 0 < (matching b fl).length := by omega
  have hlR : (0 : ℝ) < ((matching b fl).length : ℝ) := by exact_mod_cast hl
  refine ⟨?_, ?_, ?_⟩
  · intro u h0 h1 ha hb
    obtain ⟨j, hj, hja, hjb, hc⟩ := C45_choice b fl u h0 h1 (List.length_pos_iff.mp hl)
    have : j = i := by
      rw [div_le_iff₀ hlR] at ha hja
      rw [lt_div_iff₀ hlR] at hb hjb
      have e1 : (i : ℝ) < (j : ℝ) + 1 := lt_of_le_of_lt ha hjb
      have e2 : (j : ℝ) < (i : ℝ) + 1 := lt_of_le_of_lt hja hb
      have e1' : i < j + 1 := by exact_mod_cast e1
      have e2' : j < i + 1 := by exact_mod_cast e2
      omega
    subst this
    exact hc
  · intro u hu
    refine ⟨le_trans (by positivity) hu.1, lt_of_lt_of_le hu.2 ?_⟩
    rw [div_le_one hlR]
    exact_mod_cast hi
  · rw [Real.volume_Ico]
    congr 1
    field_simp
    ring

section sums
variable [AddCommMonoid S]

theorem foldl_f (l : List (Bdf S)) (fl : Flags) (wo wi : V3 ℝ) (s : S) :
    l.foldl (fun acc d => if d.matchFlag fl then acc + d.f wo wi else acc) s =
      s + ((l.filter (fun d => decide (Contained d.type fl))).map (fun d => d.f wo wi)).sum := by
  induction l generalizing s with
  | nil => simp
  | cons d ds ih =>
    rw [List.foldl_cons, ih, List.filter_cons, matchFlag_eq]
    by_cases h : Contained d.type fl <;> simp [h, add_assoc]

theorem foldl_pdf (l : List (Bdf S)) (fl : Flags) (wo wi : V3 ℝ) (s : ℝ × ℕ) :
    l.foldl (fun (acc : ℝ × ℕ) d => if d.matchFlag fl then (acc.1 + d.pdf wo wi, acc.2 + 1) else acc) s =
      (s.1 + ((l.filter (fun d => decide (Contained d.type fl))).map (fun d => d.pdf wo wi)).sum,
       s.2 + (l.filter (fun d => decide (Contained d.type fl))).length) := by
  induction l generalizing s with
  | nil => simp
  | cons d ds ih =>
    rw [List.foldl_cons, ih, List.filter_cons, matchFlag_eq]
    by_cases h : Contained d.type fl <;> simp [h, add_assoc]
    omega

theorem contained_andNot (t fl m : Flags) : Contained t (fl &&& ~~~m) ↔ Contained t fl ∧ ∀ i < 32, t.getLsbD i = true → m.getLsbD i = false := by
  unfold Contained
  constructor
  · intro h
    refine ⟨fun i hi ht => ?_, fun i hi ht => ?_⟩
    · have := h i hi ht
      simp only [BitVec.getLsbD_and, BitVec.getLsbD_not, Bool.and_eq_true] at this
      exact this.1
    · have := h i hi ht
      simp only [BitVec.getLsbD_and, BitVec.getLsbD_not, Bool.and_eq_true, Bool.not_eq_true'] at this
      exact this.2.2
  · intro h i hi ht
    simp only [BitVec.getLsbD_and, BitVec.getLsbD_not, Bool.and_eq_true, Bool.not_eq_true', decide_eq_true_eq]
    exact ⟨h.1 i hi ht, hi, h.2 i hi ht⟩

/-- bit number of `TRANSMISSION` / `REFLECTION` in the type word -/
def transmits (t : Flags) : Prop := t.getLsbD 1 = true
def reflects (t : Flags) : Prop := t.getLsbD 0 = true

instance (t : Flags) : Decidable (transmits t) := by unfold transmits; infer_instance
instance (t : Flags) : Decidable (reflects t) := by unfold reflects; infer_instance

theorem contained_noTransmission (t fl : Flags) : Contained t (fl &&& ~~~TRANSMISSION) ↔ Contained t fl ∧ ¬ transmits t := by
  rw [contained_andNot]
  have key : ∀ i < 32, TRANSMISSION.getLsbD i = decide (i = 1) := by decide
  unfold transmits
  refine and_congr_right (fun _ => ⟨fun h h1 => ?_, fun h i hl hi => ?_⟩)
  · have := h 1 (by norm_num) h1; rw [key _ (by norm_num)] at this; simp at this
  · rw [key _ hl]; by_contra hc
    simp only [Bool.not_eq_false, decide_eq_true_eq] at hc
    exact h (hc ▸ hi)

theorem contained_noReflection (t fl : Flags) : Contained t (fl &&& ~~~REFLECTION) ↔ Contained t fl ∧ ¬ reflects t := by
  rw [contained_andNot]
  have key : ∀ i < 32, REFLECTION.getLsbD i = decide (i = 0) := by decide
  unfold reflects
  refine and_congr_right (fun _ => ⟨fun h h1 => ?_, fun h i hl hi => ?_⟩)
  · have := h 0 (by norm_num) h1; rw [key _ (by norm_num)] at this; simp at this
  · rw [key _ hl]; by_contra hc
    simp only [Bool.not_eq_false, decide_eq_true_eq] at hc
    exact h (hc ▸ hi)

/-- `pdf` is the mean of the densities of the matching components, zero if there is none. -/
theorem C45_pdf (b : BSDF S) (wo wi : V3 ℝ) (fl : Flags) :
    b.pdf wo wi fl = ((matching b fl).map (fun d => d.pdf (b.w2l wo) (b.w2l wi))).sum / (matching b fl).length := by
  simp only [BSDF.pdf]
  split_ifs with h h2
  · have hb : b.bdfs = [] := List.length_eq_zero_iff.mp h
    have : matching b fl = [] := by simp [matching, hb]
    simp [this]
  · rw [foldl_pdf]; simp [matching]
  · rw [foldl_pdf] at h2
    have : matching b fl = [] := by
      rw [matching]
      simpa using h2
    simp [this]

/-- `f` is the sum over the matching components that do not transmit when both directions are on the same side of
the geometric surface, and over those that do not reflect otherwise. -/
theorem C45_f (b : BSDF S) (wo wi : V3 ℝ) (fl : Flags) :
    b.f wo wi fl =
      (((matching b fl).filter (fun d => if dot wi b.ng * dot wo b.ng > 0 then ¬ transmits d.type else ¬ reflects d.type)).map
        (fun d => d.f (b.w2l wo) (b.w2l wi))).sum := by
  unfold BSDF.f matching
  simp only []
  rw [foldl_f, List.filter_filter, zero_add]
  congr 2
  apply List.filter_congr
  intro d _
  split_ifs with h
  · rw [Bool.eq_iff_iff]
    simp only [decide_eq_true_iff, Bool.and_eq_true, contained_noTransmission]
    tauto
  · rw [Bool.eq_iff_iff]
    simp only [decide_eq_true_iff, Bool.and_eq_true, contained_noReflection]
    tauto

/-- When nothing matches: no component, zero density, black value, from all four entry points. -/
theorem C45_none (b : BSDF S) (wo wi : V3 ℝ) (u1 u2 u : ℝ) (fl : Flags) (h : matching b fl = []) :
    b.nComponents fl = 0 ∧ b.pdf wo wi fl = 0 ∧ b.f wo wi fl = 0 ∧ b.sampleF wo u1 u2 u fl = some ⟨0, none, none, 0⟩ := by
  have hc : b.nComponents fl = 0 := by rw [C45_count, h]; rfl
  refine ⟨hc, ?_, ?_, ?_⟩
  · rw [C45_pdf, h]; simp
  · rw [C45_f, h]; simp
  · simp [BSDF.sampleF, hc]

/-- For a sample in `[0,1)` and components that hand back a direction whenever their density is not zero,
`sample_f` returns, and the type it reports is the type of a component whose flags are all requested. -/
theorem C45_sample (b : BSDF S) (wo : V3 ℝ) (u1 u2 u : ℝ) (fl : Flags) (h0 : 0 ≤ u) (h1 : u < 1) (hn : matching b fl ≠ [])
    (hd : ∀ d ∈ b.bdfs, ∀ w a c, (d.sample w a c).pdf ≠ 0 → (d.sample w a c).dv ≠ none) :
    ∃ d ∈ b.bdfs, Contained d.type fl ∧ ∃ o, b.sampleF wo u1 u2 u fl = some o ∧ o.type = some d.type ∧
      ((d.sample (b.w2l wo) u1 u2).pdf = 0 → o.pdf = 0 ∧ o.wi = none ∧ o.f = 0) ∧
      ((d.sample (b.w2l wo) u1 u2).pdf ≠ 0 → ∃ wi f, (d.sample (b.w2l wo) u1 u2).dv = some (wi, f) ∧
        o.pdf = (d.sample (b.w2l wo) u1 u2).pdf / (matching b fl).length ∧ o.wi = some (b.l2w wi) ∧ o.f = f) := by
  obtain ⟨i, hi, _, _, hc⟩ := C45_choice b fl u h0 h1 hn
  have hmem : (matching b fl)[i] ∈ matching b fl := List.getElem_mem hi
  set d := (matching b fl)[i] with hdd
  have hm := List.mem_filter.mp hmem
  refine ⟨d, hm.1, by simpa using hm.2, ?_⟩
  have hlen : b.nComponents fl = (matching b fl).length := C45_count b fl
  have hpos : 0 < (matching b fl).length := List.length_pos_iff.mpr hn
  have hne : ¬ b.nComponents fl = 0 := by omega
  unfold BSDF.sampleF
  simp only [hne, if_false, hc]
  by_cases hp : (d.sample (b.w2l wo) u1 u2).pdf = 0
  · refine ⟨⟨_, none, some d.type, 0⟩, by rw [if_pos hp], rfl, fun _ => ⟨hp, rfl, rfl⟩, fun h => absurd hp h⟩
  · have hdv := hd d hm.1 _ _ _ hp
    obtain ⟨⟨wi, f⟩, hwf⟩ := Option.ne_none_iff_exists'.mp hdv
    refine ⟨⟨_, some (b.l2w wi), some d.type, f⟩, by rw [if_neg hp]; simp only [hwf]; rfl, rfl, fun h => absurd h hp,
      fun _ => ⟨wi, f, hwf, ?_, rfl, rfl⟩⟩
    rw [hlen]
    split_ifs with h2
    · rfl
    · have : (matching b fl).length = 1 := by omega
      simp [this]

/-! Concrete instance: a diffuse reflection and a specular transmission component; `ALL_REFLECTION` selects the
first only. -/
def exDiffuse : Bdf ℝ := ⟨REFLECTION ||| DIFFUSE, fun _ _ => 1, fun _ _ => 1, fun _ _ _ => ⟨1, some (⟨0, 0, 1⟩, 1)⟩⟩
def exTrans : Bdf ℝ := ⟨TRANSMISSION ||| SPECULAR, fun _ _ => 0, fun _ _ => 0, fun _ _ _ => ⟨1, some (⟨0, 0, -1⟩, 1)⟩⟩
def exB : BSDF ℝ := ⟨⟨1, 0, 0⟩, ⟨0, 1, 0⟩, ⟨0, 0, 1⟩, ⟨0, 0, 1⟩, [exDiffuse, exTrans]⟩

example : (matching exB ALL).length = 2 ∧ (matching exB (REFLECTION ||| (DIFFUSE ||| GLOSSY ||| SPECULAR))).length = 1 ∧
    matching exB GLOSSY = [] := by
  refine ⟨?_, ?_, ?_⟩ <;> simp only [matching, exB, exDiffuse, exTrans, List.filter_cons, List.filter_nil]
  · rw [if_pos (by decide), if_pos (by decide)]; rfl
  · rw [if_pos (by decide), if_neg (by decide)]; rfl
  · rw [if_neg (by decide), if_neg (by decide)]

example : ∀ d ∈ exB.bdfs, ∀ w a c, (d.sample w a c).pdf ≠ 0 → (d.sample w a c).dv ≠ none := by
  intro d hd w a c _
  simp only [exB, List.mem_cons, List.not_mem_nil, or_false] at hd
  rcases hd with rfl | rfl <;> simp [exDiffuse, exTrans]

end sums

/-! ## Frame (C48) -/

/-- the three axes are orthonormal -/
def FrameOk (b : BSDF S) : Prop :=
  dot b.sn b.sn = 1 ∧ dot b.tn b.tn = 1 ∧ dot b.nn b.nn = 1 ∧ dot b.sn b.tn = 0 ∧ dot b.sn b.nn = 0 ∧ dot b.tn b.nn = 0

/-- The constructor's frame is orthonormal when the shading normal is a unit vector perpendicular to `dpdu ≠ 0`
(which `DifferentialGeometry` guarantees). -/
theorem C48_frame (nn dpdu ng : V3 ℝ) (hn : dot nn nn = 1) (hd : dpdu ≠ 0) (hp : dot nn dpdu = 0) :
    FrameOk (BSDF.init nn dpdu ng : BSDF S) := by
  have hl : Geom.length dpdu ≠ 0 := by
    intro h
    apply hd
    have : sqLength dpdu = 0 := by
      unfold Geom.length at h
      have := (Real.sqrt_eq_zero (by unfold sqLength; nlinarith [mul_self_nonneg dpdu.x, mul_self_nonneg dpdu.y, mul_self_nonneg dpdu.z])).mp h
      exact this
    unfold sqLength at this
    have hx := mul_self_nonneg dpdu.x
    have hy := mul_self_nonneg dpdu.y
    have hz := mul_self_nonneg dpdu.z
    have h1 : dpdu.x * dpdu.x = 0 := by linarith
    have h2 : dpdu.y * dpdu.y = 0 := by linarith
    have h3 : dpdu.z * dpdu.z = 0 := by linarith
    ext <;> simp only [zero_x, zero_y, zero_z] <;> nlinarith
  have hs : dot (Geom.normalize dpdu) (Geom.normalize dpdu) = 1 := by
    unfold Geom.normalize
    simp only [hl, not_false_iff, if_true, dot]
    have : Geom.length dpdu * Geom.length dpdu = dpdu.x * dpdu.x + dpdu.y * dpdu.y + dpdu.z * dpdu.z := by
      unfold Geom.length sqLength
      exact Real.mul_self_sqrt (by nlinarith [mul_self_nonneg dpdu.x, mul_self_nonneg dpdu.y, mul_self_nonneg dpdu.z])
    field_simp
    linarith [this]
  have hsn : dot nn (Geom.normalize dpdu) = 0 := by
    unfold Geom.normalize
    simp only [hl, not_false_iff, if_true, dot]
    unfold dot at hp
    field_simp
    linarith
  unfold FrameOk BSDF.init
  simp only []
  generalize Geom.normalize dpdu = s at hs hsn
  obtain ⟨a, b, c⟩ := s
  obtain ⟨x, y, z⟩ := nn
  simp only [dot, cross] at *
  refine ⟨hs, ?_, hn, by ring, by linarith, by ring⟩
  have : (y * c - z * b) * (y * c - z * b) + (z * a - x * c) * (z * a - x * c) + (x * b - y * a) * (x * b - y * a)
      = (x * x + y * y + z * z) * (a * a + b * b + c * c) - (x * a + y * b + z * c) * (x * a + y * b + z * c) := by ring
  rw [this, hn, hs, hsn]; ring

example : dot (⟨0, 0, 1⟩ : V3 ℝ) ⟨0, 0, 1⟩ = 1 ∧ (⟨2, 1, 0⟩ : V3 ℝ) ≠ 0 ∧ dot (⟨0, 0, 1⟩ : V3 ℝ) ⟨2, 1, 0⟩ = 0 := by
  refine ⟨by norm_num [dot], fun h => ?_, by norm_num [dot]⟩
  have := congrArg V3.x h
  norm_num at this

theorem frame_columns {b : BSDF S} (h : FrameOk b) :
    (b.sn.x * b.sn.x + b.tn.x * b.tn.x + b.nn.x * b.nn.x = 1 ∧ b.sn.y * b.sn.y + b.tn.y * b.tn.y + b.nn.y * b.nn.y = 1 ∧
     b.sn.z * b.sn.z + b.tn.z * b.tn.z + b.nn.z * b.nn.z = 1) ∧
    (b.sn.x * b.sn.y + b.tn.x * b.tn.y + b.nn.x * b.nn.y = 0 ∧ b.sn.x * b.sn.z + b.tn.x * b.tn.z + b.nn.x * b.nn.z = 0 ∧
     b.sn.y * b.sn.z + b.tn.y * b.tn.z + b.nn.y * b.nn.z = 0) := by
  obtain ⟨h1, h2, h3, h4, h5, h6⟩ := h
  simp only [dot] at *
  let M : Matrix (Fin 3) (Fin 3) ℝ := !![b.sn.x, b.sn.y, b.sn.z; b.tn.x, b.tn.y, b.tn.z; b.nn.x, b.nn.y, b.nn.z]
  have hM : M * M.transpose = 1 := by
    ext i j
    fin_cases i <;> fin_cases j <;> simp [M, Matrix.mul_apply, Fin.sum_univ_three] <;> linarith
  have hM2 : M.transpose * M = 1 := by
    exact mul_eq_one_comm.mp hM
  have g : ∀ i j, (M.transpose * M) i j = (1 : Matrix (Fin 3) (Fin 3) ℝ) i j := fun i j => by rw [hM2]
  have e00 := g 0 0
  have e11 := g 1 1
  have e22 := g 2 2
  have e01 := g 0 1
  have e02 := g 0 2
  have e12 := g 1 2
  simp [M, Matrix.mul_apply, Fin.sum_univ_three] at e00 e11 e22 e01 e02 e12
  exact ⟨⟨by linarith, by linarith, by linarith⟩, ⟨by linarith, by linarith, by linarith⟩⟩

/-- What holds: `w2l` preserves dot products (lengths and angles) for every orthonormal frame, and maps the axes to
the coordinate axes.  Missing: the other direction, see the two theorems below. -/
theorem C48_w2l_isometry_partial (b : BSDF S) (h : FrameOk b) :
    (∀ u v, dot (b.w2l u) (b.w2l v) = dot u v) ∧ b.w2l b.sn = ⟨1, 0, 0⟩ ∧ b.w2l b.tn = ⟨0, 1, 0⟩ ∧ b.w2l b.nn = ⟨0, 0, 1⟩ := by
  obtain ⟨⟨c1, c2, c3⟩, c4, c5, c6⟩ := frame_columns h
  obtain ⟨h1, h2, h3, h4, h5, h6⟩ := h
  refine ⟨fun u v => ?_, ?_, ?_, ?_⟩
  · simp only [BSDF.w2l, dot]
    linear_combination (u.x * v.x) * c1 + (u.y * v.y) * c2 + (u.z * v.z) * c3 + (u.x * v.y + u.y * v.x) * c4 +
      (u.x * v.z + u.z * v.x) * c5 + (u.y * v.z + u.z * v.y) * c6
  all_goals simp only [BSDF.w2l, dot] at *
  all_goals ext <;> simp only [] <;> linarith

/-- `l2w` undoes `w2l` for exactly those orthonormal frames whose axes lie along the coordinate axes in order
(each possibly reversed). -/
theorem C48_inverse_iff_partial (b : BSDF S) (h : FrameOk b) :
    ((∀ v, b.l2w (b.w2l v) = v) ↔ (b.sn.y = 0 ∧ b.sn.z = 0 ∧ b.tn.x = 0 ∧ b.tn.z = 0 ∧ b.nn.x = 0 ∧ b.nn.y = 0)) ∧
    ((∀ v, b.w2l (b.l2w v) = v) ↔ (b.sn.y = 0 ∧ b.sn.z = 0 ∧ b.tn.x = 0 ∧ b.tn.z = 0 ∧ b.nn.x = 0 ∧ b.nn.y = 0)) := by
  obtain ⟨h1, h2, h3, h4, h5, h6⟩ := h
  have hx : ∀ v : V3 ℝ, b.l2w v = ⟨(b.sn.x + b.tn.x + b.nn.x) * v.x, (b.sn.y + b.tn.y + b.nn.y) * v.y, (b.sn.z + b.tn.z + b.nn.z) * v.z⟩ := by
    intro v; simp only [BSDF.l2w]; ext <;> simp only [] <;> ring
  refine ⟨⟨fun H => ?_, fun H v => ?_⟩, ⟨fun H => ?_, fun H v => ?_⟩⟩
  · have a1 := H ⟨1, 0, 0⟩
    have a2 := H ⟨0, 1, 0⟩
    have a3 := H ⟨0, 0, 1⟩
    rw [hx] at a1 a2 a3
    simp only [BSDF.w2l, dot, mul_one, mul_zero, zero_mul, one_mul, add_zero, zero_add, V3.mk.injEq] at a1 a2 a3
    obtain ⟨a11, a12, a13⟩ := a1
    obtain ⟨a21, a22, a23⟩ := a2
    obtain ⟨a31, a32, a33⟩ := a3
    have nx : b.sn.x + b.tn.x + b.nn.x ≠ 0 := fun h => by rw [h] at a11; simp at a11
    have ny : b.sn.y + b.tn.y + b.nn.y ≠ 0 := fun h => by rw [h] at a22; simp at a22
    have nz : b.sn.z + b.tn.z + b.nn.z ≠ 0 := fun h => by rw [h] at a33; simp at a33
    exact ⟨(mul_eq_zero.mp a21).resolve_left nx, (mul_eq_zero.mp a31).resolve_left nx, (mul_eq_zero.mp a12).resolve_left ny,
      (mul_eq_zero.mp a32).resolve_left ny, (mul_eq_zero.mp a13).resolve_left nz, (mul_eq_zero.mp a23).resolve_left nz⟩
  · obtain ⟨g1, g2, g3, g4, g5, g6⟩ := H
    simp only [dot, g1, g2, g3, g4, g5, g6] at h1 h2 h3
    rw [hx]
    simp only [BSDF.w2l, dot, g1, g2, g3, g4, g5, g6]
    ext <;> simp only []
    · linear_combination v.x * h1
    · linear_combination v.y * h2
    · linear_combination v.z * h3
  · have a1 := H ⟨1, 0, 0⟩
    have a2 := H ⟨0, 1, 0⟩
    have a3 := H ⟨0, 0, 1⟩
    rw [hx] at a1 a2 a3
    simp only [BSDF.w2l, dot, mul_one, mul_zero, zero_mul, one_mul, add_zero, zero_add, V3.mk.injEq] at a1 a2 a3
    obtain ⟨a11, a12, a13⟩ := a1
    obtain ⟨a21, a22, a23⟩ := a2
    obtain ⟨a31, a32, a33⟩ := a3
    have nx : b.sn.x + b.tn.x + b.nn.x ≠ 0 := fun h => by rw [h] at a11; simp at a11
    have ny : b.sn.y + b.tn.y + b.nn.y ≠ 0 := fun h => by rw [h] at a22; simp at a22
    have nz : b.sn.z + b.tn.z + b.nn.z ≠ 0 := fun h => by rw [h] at a33; simp at a33
    exact ⟨(mul_eq_zero.mp a21).resolve_left ny, (mul_eq_zero.mp a31).resolve_left nz, (mul_eq_zero.mp a12).resolve_left nx,
      (mul_eq_zero.mp a32).resolve_left nz, (mul_eq_zero.mp a13).resolve_left nx, (mul_eq_zero.mp a23).resolve_left ny⟩
  · obtain ⟨g1, g2, g3, g4, g5, g6⟩ := H
    simp only [dot, g1, g2, g3, g4, g5, g6] at h1 h2 h3
    rw [hx]
    simp only [BSDF.w2l, dot, g1, g2, g3, g4, g5, g6]
    ext <;> simp only []
    · linear_combination v.x * h1
    · linear_combination v.y * h2
    · linear_combination v.z * h3

/-- The full property is false of the code: in a frame turned about an axis a unit vector does not come back, not
even with its length. -/
theorem C48_round_trip_false : ¬ ∀ (b : BSDF ℝ), FrameOk b → ∀ v, b.l2w (b.w2l v) = v ∧ sqLength (b.l2w v) = sqLength v := by
  intro H
  have := (H ⟨⟨3/5, 4/5, 0⟩, ⟨-4/5, 3/5, 0⟩, ⟨0, 0, 1⟩, ⟨0, 0, 1⟩, []⟩ (by norm_num [FrameOk, dot]) ⟨1, 0, 0⟩).2
  norm_num [BSDF.l2w, sqLength] at this

/-! ## C75: sampling versus evaluation -/

section C75
variable [AddCommMonoid S]

/-- a component whose own `sample_f` reports its own `pdf` and `f` (as the base class does, `bdf.py:126`) -/
def Coherent (d : Bdf S) : Prop :=
  ∀ wo u1 u2, (d.sample wo u1 u2).pdf ≠ 0 → ∃ wi, (d.sample wo u1 u2).dv = some (wi, d.f wo wi) ∧ (d.sample wo u1 u2).pdf = d.pdf wo wi

/-- Part that holds: with exactly one matching component, itself coherent, a frame along the coordinate axes, and a
direction on the side the component is meant for, the sampled density and value are those of `pdf` and `f`.
Missing: several matching components, turned frames (see the negations). -/
theorem C75_single_partial (b : BSDF S) (fl : Flags) (d : Bdf S) (hm : matching b fl = [d]) (hc : Coherent d)
    (hfr : ∀ v, b.w2l (b.l2w v) = v) (wo : V3 ℝ) (u1 u2 u : ℝ) (h0 : 0 ≤ u) (h1 : u < 1) (o : Out S) (wiW : V3 ℝ)
    (ho : b.sampleF wo u1 u2 u fl = some o) (hw : o.wi = some wiW)
    (hside : if dot wiW b.ng * dot wo b.ng > 0 then ¬ transmits d.type else ¬ reflects d.type) :
    o.pdf = b.pdf wo wiW fl ∧ o.f = b.f wo wiW fl := by
  have hn : b.nComponents fl = 1 := by rw [C45_count, hm]; rfl
  have hch : b.choose u fl = some d := by
    obtain ⟨i, hi, _, _, h⟩ := C45_choice b fl u h0 h1 (by rw [hm]; simp)
    rw [h]
    have : i = 0 := by rw [hm] at hi; simpa using hi
    subst this
    simp [hm]
  unfold BSDF.sampleF at ho
  simp only [hn, hch, one_ne_zero, if_false, gt_iff_lt, lt_self_iff_false] at ho
  split_ifs at ho with hp
  · simp only [Option.some.injEq] at ho
    subst ho
    simp at hw
  · obtain ⟨wi, hdv, hpdf⟩ := hc (b.w2l wo) u1 u2 hp
    rw [hdv] at ho
    simp only [Option.some.injEq] at ho
    subst ho
    simp only [Option.some.injEq] at hw
    subst hw
    rw [C45_pdf, C45_f, hm]
    simp only [List.map_cons, List.map_nil, List.sum_cons, List.sum_nil, add_zero, List.length_cons, List.length_nil,
      zero_add, Nat.cast_one, div_one, hfr]
    refine ⟨hpdf, ?_⟩
    rw [List.filter_cons, if_pos (by simpa using hside)]
    simp

/-- two diffuse components with the same constant density and value, each coherent with itself -/
def exOne : Bdf ℝ := ⟨REFLECTION ||| DIFFUSE, fun _ _ => 1, fun _ _ => 1, fun _ _ _ => ⟨1, some (⟨0, 0, 1⟩, 1)⟩⟩

theorem exOne_coherent : Coherent exOne := fun _ _ _ _ => ⟨⟨0, 0, 1⟩, rfl, rfl⟩

example : matching (⟨⟨1, 0, 0⟩, ⟨0, 1, 0⟩, ⟨0, 0, 1⟩, ⟨0, 0, 1⟩, [exOne]⟩ : BSDF ℝ) ALL = [exOne] := by
  simp only [matching, List.filter_cons, List.filter_nil, exOne]
  rw [if_pos (by decide)]

/-- The full property is false even in the standard frame: with two identical diffuse components the reported
density is half of `pdf`'s and the reported value half of `f`'s. -/
theorem C75_two_components_false : ¬ ∀ (b : BSDF ℝ), FrameOk b → (∀ d ∈ b.bdfs, Coherent d) → (∀ v, b.w2l (b.l2w v) = v) →
    ∀ (wo : V3 ℝ) (u1 u2 u : ℝ), 0 ≤ u → u < 1 → ∀ o wiW, b.sampleF wo u1 u2 u ALL = some o → o.wi = some wiW →
      o.pdf = b.pdf wo wiW ALL ∧ o.f = b.f wo wiW ALL := by
  intro H
  let b : BSDF ℝ := ⟨⟨1, 0, 0⟩, ⟨0, 1, 0⟩, ⟨0, 0, 1⟩, ⟨0, 0, 1⟩, [exOne, exOne]⟩
  have hfr : FrameOk b := by norm_num [b, FrameOk, dot]
  have hm : matching b ALL = [exOne, exOne] := by
    simp only [matching, b, List.filter_cons, List.filter_nil, exOne]
    rw [if_pos (by decide), if_pos (by decide)]
  have hn : b.nComponents ALL = 2 := by rw [C45_count, hm]; rfl
  have hch : b.choose 0 ALL = some exOne := by
    obtain ⟨i, hi, hlo, hup, h⟩ := C45_choice b ALL 0 le_rfl one_pos (by rw [hm]; simp)
    rw [h]
    rw [hm] at hi
    have : i = 0 ∨ i = 1 := by simp at hi; omega
    rcases this with rfl | rfl <;> simp [hm]
  have hl : ∀ v, b.w2l (b.l2w v) = v :=
    ((C48_inverse_iff_partial b hfr).2).mpr (by simp [b])
  have := H b hfr (by intro d hd; simp [b] at hd; subst hd; exact exOne_coherent) hl ⟨0, 0, 1⟩ 0 0 0 le_rfl one_pos
    ⟨1 / 2, some ⟨0, 0, 1⟩, some exOne.type, 1⟩ ⟨0, 0, 1⟩ (by
      unfold BSDF.sampleF
      simp only [hn, hch]
      norm_num [exOne, b, BSDF.l2w]) rfl
  have hp := this.1
  rw [C45_pdf, hm] at hp
  norm_num [exOne] at hp

end C75

end Verif.Bsdf
