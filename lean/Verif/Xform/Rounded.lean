import Verif.Num.Grid
import Verif.Xform.Model

/-!
# Transformations in rounded arithmetic (C182)

`Transform.__call__`, `__mul__`, `inverse`, `translate` and `scale` (`pytracer/transform/__init__.py:54-129, 252-256`) with the result of every operation rounded to binary64.
The order in which `numpy.dot` adds the products, and whether it uses fused multiply-add, depends on the BLAS and the machine: `DotR` allows every possibility, so the theorems hold for all of them.
Overflow is not modelled.
-/
set_option linter.unusedSectionVars false

namespace Verif.XformR
open V3 Verif.Rnd Verif.Xform

variable {K : Type*} [Field K] [LinearOrder K] [IsStrictOrderedRing K] [FloorRing K]

/-! ### Model -/

/-- `r` is a possible answer of `numpy.dot` for the products `a i * b i`, `i` in the list: products and partial sums rounded, in any order, with or without fused multiply-add -/
inductive DotR {ι : Type*} (a b : ι → K) : List ι → K → Prop
  | nil : DotR a b [] 0
  | mul (i : ι) : DotR a b [i] (double (a i * b i))
  | fma (i : ι) (l : List ι) (r : K) : DotR a b l r → DotR a b (i :: l) (double (a i * b i + r))
  | add (l l' : List ι) (r r' : K) : DotR a b l r → DotR a b l' r' → DotR a b (l ++ l') (double (r + r'))
  | perm (l l' : List ι) (r : K) : l.Perm l' → DotR a b l r → DotR a b l' r

/-- component `i` of `m[0:4,0:3].dot(p) + m[0:4,3]` (`transform/__init__.py:56`) -/
def HomogR (m : M4 K) (p : V3 K) (i : Fin 4) (r : K) : Prop := ∃ s, DotR (fun j : Fin 3 => m i j.castSucc) p.get [0, 1, 2] s ∧ r = double (s + m i 3)

/-- `util.ne_unity` (`pytracer/utility/utility.py:59-61`) -/
def neUnityR (x : K) : Prop := x < double (1 - double EPS) ∨ x > double (1 + double EPS)

/-- `__call__` on a `Point` (`transform/__init__.py:55-60`) may return `q` -/
def PtR (t : Transform K) (p q : V3 K) : Prop :=
  ∃ (r : V3 K) (w : K), HomogR t.m p 0 r.x ∧ HomogR t.m p 1 r.y ∧ HomogR t.m p 2 r.z ∧ HomogR t.m p 3 w ∧
    ((neUnityR w ∧ q = ⟨double (r.x / w), double (r.y / w), double (r.z / w)⟩) ∨ (¬ neUnityR w ∧ q = r))

/-- `__call__` on a `Vector` (`transform/__init__.py:62-64`) may return `q` -/
def VecR (t : Transform K) (v q : V3 K) : Prop := ∀ i : Fin 3, DotR (fun j : Fin 3 => t.m i.castSucc j.castSucc) v.get [0, 1, 2] (q.get i)

/-- `__call__` on a `Normal` (`transform/__init__.py:66-69`) may return `q` -/
def NrmR (t : Transform K) (n q : V3 K) : Prop := ∀ i : Fin 3, DotR (fun j : Fin 3 => t.mInv j.castSucc i.castSucc) n.get [0, 1, 2] (q.get i)

/-- `c` may be `self.m.dot(other.m)` -/
def MatMulR (a b c : M4 K) : Prop := ∀ i j, DotR (fun k => a i k) (fun k => b k j) [0, 1, 2, 3] (c i j)

/-- `__mul__` (`transform/__init__.py:98-101`) may return `c` -/
def MulR (a b c : Transform K) : Prop := MatMulR a.m b.m c.m ∧ MatMulR b.mInv a.mInv c.mInv

/-- `scale` (`transform/__init__.py:117-129`) -/
def scaleR (x y z : K) : Transform K :=
  ⟨!![x, 0, 0, 0; 0, y, 0, 0; 0, 0, z, 0; 0, 0, 0, 1],
   !![double (1 / x), 0, 0, 0; 0, double (1 / y), 0, 0; 0, 0, double (1 / z), 0; 0, 0, 0, 1]⟩

/-- `__call__` on a `BBox` (`transform/__init__.py:83-93`) may return `c` -/
def BoxR (t : Transform K) (b c : BBox K) : Prop :=
  ∃ x y z : V3 K, PtR t b.pMin c.pMin ∧ VecR t ⟨double (b.pMax.x - b.pMin.x), 0, 0⟩ x ∧ VecR t ⟨0, double (b.pMax.y - b.pMin.y), 0⟩ y ∧ VecR t ⟨0, 0, double (b.pMax.z - b.pMin.z)⟩ z ∧
    ∀ i, c.pMax.get i = double (c.pMin.get i + double (double (x.get i + y.get i) + z.get i))

/-! ### Lemmas -/

section dot
variable {ι : Type*} {a b : ι → K}

theorem DotR.nil_eq {l : List ι} {r : K} (h : DotR a b l r) (hl : l = []) : r = 0 := by
  induction h with
  | nil => rfl
  | mul i => cases hl
  | fma i l r _ _ => cases hl
  | add l l' r r' _ _ ih ih' =>
    rw [List.append_eq_nil_iff] at hl
    rw [ih hl.1, ih' hl.2, add_zero, double_zero]
  | perm l l' r hp _ ih => subst hl; exact ih hp.eq_nil

theorem DotR.isDouble {l : List ι} {r : K} (h : DotR a b l r) : IsDouble r := by
  induction h with
  | nil => exact ⟨0, 0, by norm_num, by norm_num, by simp⟩
  | mul i => exact isDouble_double _
  | fma i l r _ _ => exact isDouble_double _
  | add l l' r r' _ _ ih ih' => exact isDouble_double _
  | perm l l' r hp _ ih => exact ih

/-- the error of a dot product, in whatever order it is computed -/
theorem DotR.flt {k : ℕ} {g : ℤ} (hg : -1074 ≤ g) {x A : ι → K} {l : List ι} {r : K} (h : DotR a b l r) (hx : ∀ i ∈ l, Flt k g (a i * b i) (x i) (A i)) :
    Flt (k + l.length) g r (l.map x).sum (l.map A).sum := by
  induction h with
  | nil => exact ⟨Err.zero _, 0, by simp⟩
  | mul i =>
    have h := hx i (by simp)
    simpa using (⟨h.err.step (h.grid.err hg), h.grid.round⟩ : Flt (k + 1) g _ _ _)
  | fma i l r _ ih =>
    have h := hx i (by simp)
    have h' := ih fun j hj => hx j (by simp [hj])
    have e := (h.err.mono (Nat.le_add_right k l.length) le_rfl).add h'.err
    have hgr := h.grid.add h'.grid
    simpa [add_assoc] using (⟨e.step (hgr.err hg), hgr.round⟩ : Flt (k + l.length + 1) g _ _ _)
  | add l l' r r' h1 h2 ih ih' =>
    have e := ih fun j hj => hx j (by simp [hj])
    have e' := ih' fun j hj => hx j (by simp [hj])
    rw [List.map_append, List.sum_append, List.map_append, List.sum_append, List.length_append]
    rcases l with _ | ⟨i, l⟩
    · rw [h1.nil_eq rfl, zero_add, double_of_isDouble h2.isDouble]; simpa using e'
    rcases l' with _ | ⟨i', l'⟩
    · rw [h2.nil_eq rfl, add_zero, double_of_isDouble h1.isDouble]; simpa using e
    simp only [List.length_cons] at e e' ⊢
    exact ((e.mono (l := k + (l.length + l'.length + 1)) (by omega) le_rfl).radd hg (e'.mono (by omega) le_rfl)).mono (by omega) le_rfl
  | perm l l' r hp _ ih =>
    have e := ih fun j hj => hx j (hp.subset hj)
    rwa [(hp.map x).sum_eq, (hp.map A).sum_eq, hp.length_eq] at e

/-- where every partial sum is a float, the dot product is exact -/
theorem DotR.exact {l : List ι} {r : K} (h : DotR a b l r) (hs : ∀ l' : List ι, l'.Subperm l → IsDouble (l'.map fun i => a i * b i).sum) : r = (l.map fun i => a i * b i).sum := by
  induction h with
  | nil => simp
  | mul i => simpa using double_of_isDouble (by simpa using hs [i] (List.Subperm.refl _))
  | fma i l r _ ih =>
    rw [ih fun l' hl' => hs l' (hl'.trans (List.sublist_cons_self _ _).subperm)]
    have := double_of_isDouble (hs _ (List.Subperm.refl _))
    simpa using this
  | add l l' r r' _ _ ih ih' =>
    rw [ih fun s hs' => hs s (hs'.trans (List.sublist_append_left _ _).subperm), ih' fun s hs' => hs s (hs'.trans (List.sublist_append_right _ _).subperm)]
    have := double_of_isDouble (hs _ (List.Subperm.refl _))
    simpa using this
  | perm l l' r hp _ ih =>
    rw [ih fun s hs' => hs s (hs'.trans hp.subperm), (hp.map _).sum_eq]

theorem isDouble_zero : IsDouble (0 : K) := ⟨0, 0, by norm_num, by norm_num, by simp⟩

/-- at most one product is not zero: the dot product is that product, rounded -/
theorem DotR.single {l : List ι} {r : K} (h : DotR a b l r) (c : ι) (hl : l.Nodup) (hc : c ∈ l) (h0 : ∀ i ∈ l, i ≠ c → a i * b i = 0) : r = double (a c * b c) := by
  have key : ∀ {l : List ι} {r : K}, DotR a b l r → l.Nodup → (∀ i ∈ l, i ≠ c → a i * b i = 0) → (c ∈ l → r = double (a c * b c)) ∧ (c ∉ l → r = 0) := by
    intro l r h
    induction h with
    | nil => intro _ _; simp
    | mul i =>
      intro _ h0
      refine ⟨fun hc => by rw [List.mem_singleton] at hc; rw [hc], fun hc => ?_⟩
      rw [h0 i (by simp) (fun e => hc (by simp [e])), double_zero]
    | fma i l r _ ih =>
      intro hl h0
      rw [List.nodup_cons] at hl
      obtain ⟨h1, h2⟩ := ih hl.2 fun j hj => h0 j (by simp [hj])
      refine ⟨fun hc => ?_, fun hc => ?_⟩
      · rcases eq_or_ne i c with rfl | hic
        · rw [h2 hl.1, add_zero]
        · rw [h0 i (by simp) hic, zero_add, h1 (by simpa [hic.symm] using hc), double_of_isDouble (isDouble_double _)]
      · rw [h0 i (by simp) (fun e => hc (by simp [e])), h2 (fun h => hc (by simp [h])), add_zero, double_zero]
    | add l l' r r' _ _ ih ih' =>
      intro hl h0
      rw [List.nodup_append] at hl
      obtain ⟨h1, h2⟩ := ih hl.1 fun j hj => h0 j (by simp [hj])
      obtain ⟨h1', h2'⟩ := ih' hl.2.1 fun j hj => h0 j (by simp [hj])
      refine ⟨fun hc => ?_, fun hc => ?_⟩
      · by_cases hcl : c ∈ l
        · rw [h1 hcl, h2' (fun hcl' => hl.2.2 c hcl c hcl' rfl), add_zero, double_of_isDouble (isDouble_double _)]
        · rw [h2 hcl, h1' (by simpa [hcl] using hc), zero_add, double_of_isDouble (isDouble_double _)]
      · rw [h2 (fun h => hc (by simp [h])), h2' (fun h => hc (by simp [h])), add_zero, double_zero]
    | perm l l' r hp _ ih =>
      intro hl h0
      obtain ⟨h1, h2⟩ := ih (hp.nodup_iff.2 hl) fun j hj => h0 j (hp.subset hj)
      exact ⟨fun h => h1 (hp.symm.subset h), fun h => h2 fun h' => h (hp.subset h')⟩
  exact (key h hl h0).1 hc

end dot

/-! ### Specification -/

/-- the last row is `0 0 0 1`, as for all products of translations, scalings, rotations and `look_at` -/
def Affine (m : M4 K) : Prop := m 3 0 = 0 ∧ m 3 1 = 0 ∧ m 3 2 = 0 ∧ m 3 3 = 1

/-- the magnitude of the terms of component `i` of the transformed point -/
def size (m : M4 K) (p : V3 K) (i : Fin 4) : K := |m i 0| * |p.x| + |m i 1| * |p.y| + |m i 2| * |p.z| + |m i 3|

/-- the same for the transformed vector -/
def sizeVec (m : M4 K) (p : V3 K) (i : Fin 4) : K := |m i 0| * |p.x| + |m i 1| * |p.y| + |m i 2| * |p.z|

/-- component `i` of the transformed vector -/
def lin (m : M4 K) (p : V3 K) (i : Fin 4) : K := m i 0 * p.x + m i 1 * p.y + m i 2 * p.z

/-- no number so small that products underflow: all are multiples of `2^-200` -/
def CoarseM (m : M4 K) : Prop := ∀ i j, Grid (-200) (m i j)
def CoarseV (v : V3 K) : Prop := ∀ i, Grid (-200) (v.get i)

/-- all entries are floats -/
def FloatV (v : V3 K) : Prop := ∀ i, IsDouble (v.get i)

/-! ### Errors -/

theorem homog_flt {k k' : ℕ} {g g' : ℤ} (hg : -1074 ≤ g + g') (hg0 : g ≤ 0) {m M N : M4 K} {p x A : V3 K} {i : Fin 4} {r : K} (h : HomogR m p i r)
    (hm : ∀ j, Flt k' g' (m i j) (M i j) (N i j)) (hp : ∀ j, Flt k g (p.get j) (x.get j) (A.get j)) :
    Flt (k' + k + 4) (g + g') r (homog M x i) (N i 0 * A.x + N i 1 * A.y + N i 2 * A.z + N i 3) := by
  obtain ⟨s, hs, rfl⟩ := h
  have h1 := hs.flt (k := k' + k) hg (x := fun j => M i j.castSucc * x.get j) (A := fun j => N i j.castSucc * A.get j)
    fun j _ => ⟨(hm _).err.mul (hp j).err, by rw [add_comm g]; exact (hm _).grid.mul (hp j).grid⟩
  have h3 : Flt (k' + k + 3) (g + g') (m i 3) (M i 3) (N i 3) := ⟨(hm 3).err.mono (by omega) le_rfl, (hm 3).grid.mono (by omega)⟩
  have := Flt.radd hg h1 h3
  have e1 : homog M x i = (List.map (fun j : Fin 3 => M i j.castSucc * x.get j) [0, 1, 2]).sum + M i 3 := by
    simp [homog, V3.get, add_assoc]
  have e2 : N i 0 * A.x + N i 1 * A.y + N i 2 * A.z + N i 3 = (List.map (fun j : Fin 3 => N i j.castSucc * A.get j) [0, 1, 2]).sum + N i 3 := by
    simp [V3.get, add_assoc]
  rw [e1, e2]; exact this

theorem neUnityR_one : ¬ neUnityR (1 : K) := by
  have h1 : double (1 : K) = 1 := double_of_isDouble ⟨1, 0, by norm_num, by norm_num, by simp⟩
  have h0 : (0 : K) ≤ double EPS := by
    have := double_mono (K := K) (show (0 : K) ≤ EPS by unfold EPS; positivity)
    rwa [double_zero] at this
  rintro (h | h)
  · have := double_mono (K := K) (show 1 - double EPS ≤ (1 : K) by linarith)
    rw [h1] at this
    exact absurd h (not_lt.2 this)
  · have := double_mono (K := K) (show (1 : K) ≤ 1 + double EPS by linarith)
    rw [h1] at this
    exact absurd h (not_lt.2 this)

theorem affine_w {m : M4 K} (hm : Affine m) {p : V3 K} {w : K} (h : HomogR m p 3 w) : w = 1 := by
  obtain ⟨s, hs, rfl⟩ := h
  have h0 : ∀ j : Fin 3, m 3 j.castSucc = 0 := by
    intro j; fin_cases j
    · exact hm.1
    · exact hm.2.1
    · exact hm.2.2.1
  have := hs.single 0 (by decide) (by decide) fun i _ _ => by rw [h0, zero_mul]
  rw [this, h0, zero_mul, double_zero, zero_add, hm.2.2.2]
  exact double_of_isDouble ⟨1, 0, by norm_num, by norm_num, by simp⟩

/-- an affine transformation does not divide -/
theorem affine_pt {t : Transform K} (ht : Affine t.m) {p q : V3 K} (h : PtR t p q) : ∀ i : Fin 3, HomogR t.m p i.castSucc (q.get i) := by
  obtain ⟨r, w, h0, h1, h2, h3, h⟩ := h
  rw [affine_w ht h3] at h
  rcases h with ⟨h, -⟩ | ⟨-, rfl⟩
  · exact absurd h neUnityR_one
  · intro i; fin_cases i
    · exact h0
    · exact h1
    · exact h2

theorem g4 : (1 + uu : K) ^ 4 - 1 ≤ 2 ^ (-50 : ℤ) := by
  refine (g_le 4 (by norm_num)).trans (le_of_eq ?_)
  rw [uu, show (-50 : ℤ) = 3 + -53 by norm_num, zpow_add₀ two_ne_zero]; norm_num

theorem g3 : (1 + uu : K) ^ 3 - 1 ≤ 2 ^ (-50 : ℤ) := by
  refine (sub_le_sub_right (pow_le_pow_right₀ (by have := uu_pos (K := K); linarith) (show 3 ≤ 4 by norm_num)) 1).trans g4

theorem g8 : (1 + uu : K) ^ 8 - 1 ≤ 2 ^ (-49 : ℤ) := by
  refine (g_le 8 (by norm_num)).trans (le_of_eq ?_)
  rw [uu, show (-49 : ℤ) = 4 + -53 by norm_num, zpow_add₀ two_ne_zero]; norm_num

theorem abs_get (p : V3 K) (j : Fin 3) : |p.get j| = (⟨|p.x|, |p.y|, |p.z|⟩ : V3 K).get j := by fin_cases j <;> rfl

theorem pt_flt {t : Transform K} (ht : Affine t.m) (hm : CoarseM t.m) {p q : V3 K} (hp : CoarseV p) (h : PtR t p q) (i : Fin 3) :
    Flt 4 (-400) (q.get i) (homog t.m p i.castSucc) (size t.m p i.castSucc) := by
  have := homog_flt (k := 0) (k' := 0) (g := -200) (g' := -200) (by norm_num) (by norm_num) (affine_pt ht h i) (M := t.m) (N := fun i j => |t.m i j|)
    (fun j => Flt.refl (hm _ j)) (x := p) (A := ⟨|p.x|, |p.y|, |p.z|⟩) (fun j => by rw [← abs_get]; exact Flt.refl (hp j))
  exact this

/-- **C182** A point under an affine transformation: whatever the order in which the products are added, every coordinate is within `2^-50` of the exact image, relative to the magnitude of the terms. -/
theorem C182_point (t : Transform K) (ht : Affine t.m) (hm : CoarseM t.m) (p q : V3 K) (hp : CoarseV p) (h : PtR t p q) (i : Fin 3) :
    |q.get i - homog t.m p i.castSucc| ≤ 2 ^ (-50 : ℤ) * size t.m p i.castSucc := by
  have := (pt_flt ht hm hp h i).err
  exact this.1.trans (mul_le_mul_of_nonneg_right g4 this.nonneg)

theorem dot_flt {f : Fin 3 → K} (hf : ∀ j, Grid (-200) (f j)) {v : V3 K} (hv : CoarseV v) {r : K} (h : DotR f v.get [0, 1, 2] r) :
    Flt 3 (-400) r (f 0 * v.x + f 1 * v.y + f 2 * v.z) (|f 0| * |v.x| + |f 1| * |v.y| + |f 2| * |v.z|) := by
  have := h.flt (k := 0) (g := -400) (by norm_num) (x := fun j => f j * v.get j) (A := fun j => |f j| * |v.get j|)
    fun j _ => ⟨by rw [← abs_mul]; exact Err.refl _, (hf j).mul (hv j)⟩
  simpa [V3.get, add_assoc] using this

/-- **C182** the same for vectors … -/
theorem C182_vector (t : Transform K) (hm : CoarseM t.m) (v q : V3 K) (hv : CoarseV v) (h : VecR t v q) (i : Fin 3) :
    |q.get i - lin t.m v i.castSucc| ≤ 2 ^ (-50 : ℤ) * sizeVec t.m v i.castSucc := by
  have := (dot_flt (fun j => hm i.castSucc j.castSucc) hv (h i)).err
  exact this.1.trans (mul_le_mul_of_nonneg_right g3 this.nonneg)

/-- … and for normals, which go through the transpose of the stored inverse -/
theorem C182_normal (t : Transform K) (hm : CoarseM t.mInv) (n q : V3 K) (hn : CoarseV n) (h : NrmR t n q) (i : Fin 3) :
    |q.get i - lin t.mInv.transpose n i.castSucc| ≤ 2 ^ (-50 : ℤ) * sizeVec t.mInv.transpose n i.castSucc := by
  have := (dot_flt (fun j => hm j.castSucc i.castSucc) hn (h i)).err
  exact this.1.trans (mul_le_mul_of_nonneg_right g3 this.nonneg)

/-- **C182** Products of affine transformations are affine, exactly: so no chain of them ever divides by the fourth coordinate. -/
theorem C182_affine (a b c : Transform K) (ha : Affine a.m ∧ Affine a.mInv) (hb : Affine b.m ∧ Affine b.mInv) (h : MulR a b c) : Affine c.m ∧ Affine c.mInv := by
  have key : ∀ a b c : M4 K, Affine a → Affine b → MatMulR a b c → Affine c := by
    intro a b c ha hb h
    have h0 : ∀ k : Fin 4, k ≠ 3 → a 3 k = 0 := by
      intro k hk; fin_cases k
      · exact ha.1
      · exact ha.2.1
      · exact ha.2.2.1
      · exact absurd rfl hk
    have h1 : ∀ j, c 3 j = double (b 3 j) := by
      intro j
      have := (h 3 j).single 3 (by decide) (by decide) fun i _ hi => by rw [h0 i hi, zero_mul]
      rw [this, ha.2.2.2, one_mul]
    refine ⟨?_, ?_, ?_, ?_⟩ <;> rw [h1]
    · rw [hb.1, double_zero]
    · rw [hb.2.1, double_zero]
    · rw [hb.2.2.1, double_zero]
    · rw [hb.2.2.2]; exact double_of_isDouble ⟨1, 0, by norm_num, by norm_num, by simp⟩
  exact ⟨key _ _ _ ha.1 hb.1 h.1, key _ _ _ hb.2 ha.2 h.2⟩

theorem mul_flt {a b c : M4 K} (ha : CoarseM a) (hb : CoarseM b) (h : MatMulR a b c) (i j : Fin 4) :
    Flt 4 (-400) (c i j) ((a * b) i j) ((a.map abs * b.map abs) i j) := by
  have := (h i j).flt (k := 0) (g := -400) (by norm_num) (x := fun k => a i k * b k j) (A := fun k => |a i k| * |b k j|)
    fun k _ => ⟨by rw [← abs_mul]; exact Err.refl _, (ha i k).mul (hb k j)⟩
  simpa [Matrix.mul_apply, Fin.sum_univ_four, add_assoc] using this

theorem homog_mul (a b : M4 K) (hb : Affine b) (p : V3 K) (i : Fin 4) : homog (a * b) p i = homog a ⟨homog b p 0, homog b p 1, homog b p 2⟩ i := by
  obtain ⟨h0, h1, h2, h3⟩ := hb
  simp only [homog, Matrix.mul_apply, Fin.sum_univ_four, h0, h1, h2, h3]
  ring

theorem size_mul (a b : M4 K) (hb : Affine b) (p : V3 K) (i : Fin 4) :
    (a.map abs * b.map abs) i 0 * |p.x| + (a.map abs * b.map abs) i 1 * |p.y| + (a.map abs * b.map abs) i 2 * |p.z| + (a.map abs * b.map abs) i 3 =
      |a i 0| * size b p 0 + |a i 1| * size b p 1 + |a i 2| * size b p 2 + |a i 3| := by
  obtain ⟨h0, h1, h2, h3⟩ := hb
  simp only [size, Matrix.mul_apply, Fin.sum_univ_four, Matrix.map_apply, h0, h1, h2, h3, abs_zero, abs_one]
  ring

/-- **C182** Applying a product of two affine transformations, or the two one after the other: the two answers differ by at most `2^-48`, relative to the magnitude of the terms. -/
theorem C182_compose (a b c : Transform K) (ha : Affine a.m ∧ Affine a.mInv) (hb : Affine b.m ∧ Affine b.mInv) (hac : CoarseM a.m) (hbc : CoarseM b.m) (h : MulR a b c)
    (p p1 q q1 : V3 K) (hp : CoarseV p) (hq : PtR c p q) (h1 : PtR b p p1) (h2 : PtR a p1 q1) (i : Fin 3) :
    |q.get i - q1.get i| ≤ 2 ^ (-48 : ℤ) * (|a.m i.castSucc 0| * size b.m p 0 + |a.m i.castSucc 1| * size b.m p 1 + |a.m i.castSucc 2| * size b.m p 2 + |a.m i.castSucc 3|) := by
  have hc := C182_affine a b c ha hb h
  have f1 := homog_flt (k := 0) (k' := 4) (g := -200) (g' := -400) (by norm_num) (by norm_num) (affine_pt hc.1 hq i) (M := a.m * b.m) (N := a.m.map abs * b.m.map abs)
    (fun j => mul_flt hac hbc h.1 _ j) (x := p) (A := ⟨|p.x|, |p.y|, |p.z|⟩) (fun j => by rw [← abs_get]; exact Flt.refl (hp j))
  have f2 := homog_flt (k := 4) (k' := 0) (g := -400) (g' := -200) (by norm_num) (by norm_num) (affine_pt ha.1 h2 i) (M := a.m) (N := fun i j => |a.m i j|)
    (fun j => Flt.refl (hac _ j)) (x := ⟨homog b.m p 0, homog b.m p 1, homog b.m p 2⟩) (A := ⟨size b.m p 0, size b.m p 1, size b.m p 2⟩)
    (fun j => by have := pt_flt hb.1 hbc hp h1 j; fin_cases j <;> exact this)
  rw [homog_mul _ _ hb.1] at f1
  simp only [] at f1
  rw [size_mul _ _ hb.1] at f1
  have e1 := f1.err.1; have e2 := f2.err.1; have e0 := f2.err.nonneg
  simp only [] at e1 e2 e0
  norm_num only at e1 e2
  have e := abs_sub_le (q.get i) (homog a.m ⟨homog b.m p 0, homog b.m p 1, homog b.m p 2⟩ i.castSucc) (q1.get i)
  rw [abs_sub_comm (homog _ _ _) (q1.get i)] at e
  have h8 := mul_le_mul_of_nonneg_right (g8 (K := K)) e0
  rw [show (-48 : ℤ) = 1 + -49 by norm_num, zpow_add₀ two_ne_zero, zpow_one]
  linarith

/-- `Ray.__call__` (`geometry/__init__.py:320-324`), rounded: the point at parameter `s` -/
def atR (o d : V3 K) (s : K) : V3 K := ⟨double (o.x + double (d.x * s)), double (o.y + double (d.y * s)), double (o.z + double (d.z * s))⟩

theorem atR_get (o d : V3 K) (s : K) (i : Fin 3) : (atR o d s).get i = double (o.get i + double (d.get i * s)) := by fin_cases i <;> rfl

/-- **C182** A transformed ray at parameter `s` (`transform/__init__.py:71-81`), or the point of the ray at `s` transformed: the two answers differ by at most `2^-48`, relative to the magnitude of the terms. -/
theorem C182_ray (t : Transform K) (ht : Affine t.m) (hm : CoarseM t.m) (o d o' d' q : V3 K) (s : K) (ho : CoarseV o) (hd : CoarseV d) (hs : Grid (-200) s) (h : PtR t o o') (h' : VecR t d d')
    (hq : PtR t (atR o d s) q) (i : Fin 3) :
    |(atR o' d' s).get i - q.get i| ≤ 2 ^ (-48 : ℤ) * (size t.m o i.castSucc + sizeVec t.m d i.castSucc * |s|) := by
  have f1 := pt_flt ht hm ho h i
  have f2 := (dot_flt (fun j => hm i.castSucc j.castSucc) hd (h' i)).rmul (by norm_num) (Flt.refl hs)
  have f3 := Flt.radd (k := 3 + 0 + 1) (g := -400 + -200) (by norm_num) ⟨f1.err, f1.grid.mono (by norm_num)⟩ f2
  rw [← atR_get] at f3
  have p1 : ∀ j, Flt 2 (-400) ((atR o d s).get j) (o.get j + d.get j * s) (|o.get j| + |d.get j| * |s|) := fun j => by
    rw [atR_get]
    have := (Flt.refl (hd j)).rmul (by norm_num) (Flt.refl hs)
    exact Flt.radd (by norm_num) (⟨(Err.refl (o.get j)).mono (by norm_num) le_rfl, (ho j).mono (by norm_num)⟩ : Flt 1 (-200 + -200) _ _ _) this
  have f4 := homog_flt (k := 2) (k' := 0) (g := -400) (g' := -200) (by norm_num) (by norm_num) (affine_pt ht hq i) (M := t.m) (N := fun i j => |t.m i j|)
    (fun j => Flt.refl (hm _ j)) (x := ⟨o.x + d.x * s, o.y + d.y * s, o.z + d.z * s⟩) (A := ⟨|o.x| + |d.x| * |s|, |o.y| + |d.y| * |s|, |o.z| + |d.z| * |s|⟩)
    (fun j => by have := p1 j; fin_cases j <;> exact this)
  have ex : homog t.m o i.castSucc + (t.m i.castSucc 0 * d.x + t.m i.castSucc 1 * d.y + t.m i.castSucc 2 * d.z) * s = homog t.m ⟨o.x + d.x * s, o.y + d.y * s, o.z + d.z * s⟩ i.castSucc := by
    simp only [homog]; ring
  have eA : |t.m i.castSucc 0| * (|o.x| + |d.x| * |s|) + |t.m i.castSucc 1| * (|o.y| + |d.y| * |s|) + |t.m i.castSucc 2| * (|o.z| + |d.z| * |s|) + |t.m i.castSucc 3| =
      size t.m o i.castSucc + sizeVec t.m d i.castSucc * |s| := by
    simp only [size, sizeVec]; ring
  have e3 := f3.err; have e4 := f4.err
  simp only [] at e4
  rw [eA] at e4
  have e3 : Err 5 ((atR o' d' s).get i) (homog t.m ⟨o.x + d.x * s, o.y + d.y * s, o.z + d.z * s⟩ i.castSucc) (size t.m o i.castSucc + sizeVec t.m d i.castSucc * |s|) := by
    rw [← ex]; exact e3
  have b3 := (e3.mono (show 5 ≤ 8 by norm_num) le_rfl).1
  have b4 := (e4.mono (show 0 + 2 + 4 ≤ 8 by norm_num) le_rfl).1
  have e0 := e4.nonneg
  have e := abs_sub_le ((atR o' d' s).get i) (homog t.m ⟨o.x + d.x * s, o.y + d.y * s, o.z + d.z * s⟩ i.castSucc) (q.get i)
  rw [abs_sub_comm (homog _ _ _) (q.get i)] at e
  have h8 := mul_le_mul_of_nonneg_right (g8 (K := K)) e0
  rw [show (-48 : ℤ) = 1 + -49 by norm_num, zpow_add₀ two_ne_zero, zpow_one]
  linarith

/-! ### Translations and scalings -/

theorem translate_affine (d : V3 K) : Affine (translate d).m ∧ Affine (translate d).mInv := by
  constructor <;> refine ⟨?_, ?_, ?_, ?_⟩ <;> simp [translate]

theorem scale_affine (x y z : K) : Affine (scaleR x y z).m ∧ Affine (scaleR x y z).mInv := by
  constructor <;> refine ⟨?_, ?_, ?_, ?_⟩ <;> simp [scaleR]

theorem diag_dot {f : Fin 3 → K} {v : V3 K} {r : K} (i : Fin 3) (hf : ∀ j, j ≠ i → f j = 0) (h : DotR f v.get [0, 1, 2] r) : r = double (f i * v.get i) :=
  h.single i (by decide) (by fin_cases i <;> decide) fun j _ hj => by rw [hf j hj, zero_mul]

/-- **C182** A translation adds the offset, with one rounding, and its inverse subtracts it; vectors and normals do not change at all. -/
theorem C182_translate (d p q : V3 K) (hp : FloatV p) :
    (PtR (translate d) p q → ∀ i, q.get i = double (p.get i + d.get i)) ∧ (PtR (translate d).inverse p q → ∀ i, q.get i = double (p.get i - d.get i)) ∧
      (VecR (translate d) p q → q = p) ∧ (VecR (translate d).inverse p q → q = p) ∧ (NrmR (translate d) p q → q = p) ∧ (NrmR (translate d).inverse p q → q = p) := by
  have hpd : ∀ i, double (p.get i) = p.get i := fun i => double_of_isDouble (hp i)
  have hvec : (∀ i, q.get i = p.get i) → q = p := by
    intro h
    cases p; cases q
    simp only [V3.mk.injEq]
    exact ⟨h 0, h 1, h 2⟩
  refine ⟨fun h i => ?_, fun h i => ?_, fun h => hvec fun i => ?_, fun h => hvec fun i => ?_, fun h => hvec fun i => ?_, fun h => hvec fun i => ?_⟩
  · obtain ⟨s, hs, e⟩ := affine_pt (translate_affine d).1 h i
    have := diag_dot i (by fin_cases i <;> intro j hj <;> fin_cases j <;> simp_all [translate]) hs
    rw [e, this]
    have e1 : (translate d).m i.castSucc i.castSucc = 1 := by fin_cases i <;> simp [translate]
    have e2 : (translate d).m i.castSucc 3 = d.get i := by fin_cases i <;> simp [translate, V3.get]
    rw [e1, e2, one_mul, hpd]
  · obtain ⟨s, hs, e⟩ := affine_pt (t := (translate d).inverse) (translate_affine d).2 h i
    have := diag_dot i (by fin_cases i <;> intro j hj <;> fin_cases j <;> simp_all [translate, Transform.inverse]) hs
    rw [e, this]
    have e1 : (translate d).inverse.m i.castSucc i.castSucc = 1 := by fin_cases i <;> simp [translate, Transform.inverse]
    have e2 : (translate d).inverse.m i.castSucc 3 = -d.get i := by fin_cases i <;> simp [translate, V3.get, Transform.inverse]
    rw [e1, e2, one_mul, hpd, sub_eq_add_neg]
  all_goals
    have := diag_dot i (by fin_cases i <;> intro j hj <;> fin_cases j <;> simp_all [translate, Transform.inverse]) (h i)
    rw [this]
    refine Eq.trans (congrArg double ?_) (hpd i)
    fin_cases i <;> simp [translate, Transform.inverse]

theorem isDouble_neg {x : K} (h : IsDouble x) : IsDouble (-x) := by
  obtain ⟨m, e, hm, he, rfl⟩ := h
  exact ⟨-m, e, by rwa [abs_neg], he, by push_cast; ring⟩

theorem isDouble_one : IsDouble (1 : K) := ⟨1, 0, by norm_num, by norm_num, by simp⟩

/-- **C182** A translation times its inverse is the identity, exactly, in every order of additions. -/
theorem C182_translate_inverse (d : V3 K) (hd : FloatV d) (c : Transform K) (h : MulR (translate d) (translate d).inverse c) : c = ident := by
  have hx : IsDouble d.x := hd 0
  have hy : IsDouble d.y := hd 1
  have hz : IsDouble d.z := hd 2
  have h0 := isDouble_zero (K := K)
  have h1 := isDouble_one (K := K)
  have key : ∀ M : M4 K, MatMulR (translate d).m (translate d).mInv M → M = 1 := by
    intro M hM
    ext i j
    have e := (hM i j).exact (fun l' hl => by
      obtain ⟨s, hp, hs⟩ := hl
      rw [← (hp.map _).sum_eq]
      have hs := List.mem_sublists.2 hs
      fin_cases i <;> fin_cases j <;> simp [List.sublists] at hs <;> rcases hs with hs | hs | hs | hs | hs | hs | hs | hs | hs | hs | hs | hs | hs | hs | hs | hs <;> subst hs <;>
        simp [translate, h0, h1, hx, hy, hz, isDouble_neg])
    rw [e]
    fin_cases i <;> fin_cases j <;> simp [translate]
  have e1 := key c.m h.1
  have e2 := key c.mInv h.2
  cases c; simp_all [ident]

/-- **C182** Translated there and back, a point is where it was up to three roundings of the numbers involved. -/
theorem C182_translate_back (d p q r : V3 K) (hd : FloatV d) (hp : FloatV p) (h : PtR (translate d) p q) (h' : PtR (translate d).inverse q r) (i : Fin 3) :
    |r.get i - p.get i| ≤ 3 * 2 ^ (-53 : ℤ) * (|p.get i| + |d.get i|) := by
  have e1 := (C182_translate d p q hp).1 h i
  have hq : FloatV q := fun i => by rw [(C182_translate d p q hp).1 h i]; exact isDouble_double _
  have e2 := (C182_translate d q r hq).2.1 h' i
  have b1 := add_err (hp i) (hd i)
  rw [← e1] at b1
  have b2 := sub_err (hq i) (hd i)
  rw [← e2] at b2
  have hu : (0 : K) < 2 ^ (-53 : ℤ) := two_zpow_pos _
  have hu1 : (2 : K) ^ (-53 : ℤ) ≤ 1 := zpow_le_one_of_nonpos₀ one_le_two (by norm_num)
  have t1 := abs_add_le (p.get i) (d.get i)
  have t2 : |q.get i - d.get i| ≤ |q.get i - (p.get i + d.get i)| + |p.get i| := by
    have := abs_add_le (q.get i - (p.get i + d.get i)) (p.get i)
    rwa [show q.get i - (p.get i + d.get i) + p.get i = q.get i - d.get i by ring] at this
  have t3 : |r.get i - p.get i| ≤ |r.get i - (q.get i - d.get i)| + |q.get i - (p.get i + d.get i)| := by
    have := abs_add_le (r.get i - (q.get i - d.get i)) (q.get i - (p.get i + d.get i))
    rwa [show r.get i - (q.get i - d.get i) + (q.get i - (p.get i + d.get i)) = r.get i - p.get i by ring] at this
  generalize (2 : K) ^ (-53 : ℤ) = u at *
  have a1 := abs_nonneg (p.get i); have a2 := abs_nonneg (d.get i)
  have s1 : |q.get i - (p.get i + d.get i)| ≤ u * (|p.get i| + |d.get i|) := b1.trans (mul_le_mul_of_nonneg_left t1 hu.le)
  have s2 : |q.get i - d.get i| ≤ 2 * (|p.get i| + |d.get i|) := by nlinarith
  have s3 := b2.trans (mul_le_mul_of_nonneg_left s2 hu.le)
  nlinarith

/-- the three factors -/
theorem scale_diag (x y z : K) (i j : Fin 3) : (scaleR x y z).m i.castSucc j.castSucc = (if j = i then (⟨x, y, z⟩ : V3 K).get i else 0) ∧
    (scaleR x y z).mInv i.castSucc j.castSucc = (if j = i then double (1 / (⟨x, y, z⟩ : V3 K).get i) else 0) ∧
    (scaleR x y z).m i.castSucc 3 = 0 ∧ (scaleR x y z).mInv i.castSucc 3 = 0 := by
  fin_cases i <;> fin_cases j <;> simp [scaleR, V3.get]

/-- **C182** A scaling multiplies every coordinate of a point or a vector by its factor, with one rounding; its inverse, and normals, by the rounded reciprocal of the factor. -/
theorem C182_scale (x y z : K) (p q : V3 K) (i : Fin 3) :
    (PtR (scaleR x y z) p q → q.get i = double ((⟨x, y, z⟩ : V3 K).get i * p.get i)) ∧ (VecR (scaleR x y z) p q → q.get i = double ((⟨x, y, z⟩ : V3 K).get i * p.get i)) ∧
      (PtR (scaleR x y z).inverse p q → q.get i = double (double (1 / (⟨x, y, z⟩ : V3 K).get i) * p.get i)) ∧
      (VecR (scaleR x y z).inverse p q → q.get i = double (double (1 / (⟨x, y, z⟩ : V3 K).get i) * p.get i)) ∧
      (NrmR (scaleR x y z) p q → q.get i = double (double (1 / (⟨x, y, z⟩ : V3 K).get i) * p.get i)) := by
  have D := scale_diag x y z
  refine ⟨fun h => ?_, fun h => ?_, fun h => ?_, fun h => ?_, fun h => ?_⟩
  · obtain ⟨s, hs, e⟩ := affine_pt (scale_affine x y z).1 h i
    rw [e, diag_dot i (fun j hj => by rw [(D i j).1, if_neg hj]) hs, (D i i).2.2.1, (D i i).1, if_pos rfl, add_zero, double_of_isDouble (isDouble_double _)]
  · rw [diag_dot i (fun j hj => by rw [(D i j).1, if_neg hj]) (h i), (D i i).1, if_pos rfl]
  · obtain ⟨s, hs, e⟩ := affine_pt (t := (scaleR x y z).inverse) (scale_affine x y z).2 h i
    simp only [Transform.inverse] at hs e
    rw [e, diag_dot i (fun j hj => by rw [(D i j).2.1, if_neg hj]) hs, (D i i).2.2.2, (D i i).2.1, if_pos rfl, add_zero, double_of_isDouble (isDouble_double _)]
  · have h := h i
    simp only [Transform.inverse] at h
    rw [diag_dot i (fun j hj => by rw [(D i j).2.1, if_neg hj]) h, (D i i).2.1, if_pos rfl]
  · rw [diag_dot i (fun j hj => by rw [(D j i).2.1, if_neg hj.symm]) (h i), (D i i).2.1, if_pos rfl]

/-- neither so small nor so large that products and reciprocals underflow or overflow -/
def Moderate (x : K) : Prop := 2 ^ (-400 : ℤ) ≤ |x| ∧ |x| ≤ 2 ^ (400 : ℤ)

/-- **C182** Scaled there and back, a point is where it was up to a relative error of `2^-50`. -/
theorem C182_scale_back (x y z : K) (p q r : V3 K) (i : Fin 3) (hs : Moderate ((⟨x, y, z⟩ : V3 K).get i)) (hp : p.get i = 0 ∨ Moderate (p.get i))
    (h : PtR (scaleR x y z) p q) (h' : PtR (scaleR x y z).inverse q r) : |r.get i - p.get i| ≤ 2 ^ (-50 : ℤ) * |p.get i| := by
  have e1 := (C182_scale x y z p q i).1 h
  have e2 := (C182_scale x y z q r i).2.2.1 h'
  rw [e2, e1]
  generalize (⟨x, y, z⟩ : V3 K).get i = s at *
  generalize p.get i = c at *
  rcases hp with rfl | hp
  · simp [double_zero]
  have hs0 : s ≠ 0 := by
    rintro rfl
    have := hs.1
    rw [abs_zero] at this
    exact absurd this (not_le.2 (two_zpow_pos _))
  have n1 : Normal (1 / s) := by
    right
    rw [abs_div, abs_one, le_div_iff₀ (abs_pos.2 hs0)]
    calc (2 : K) ^ (-1022 : ℤ) * |s| ≤ 2 ^ (-1022 : ℤ) * 2 ^ (400 : ℤ) := mul_le_mul_of_nonneg_left hs.2 (two_zpow_pos _).le
      _ = 2 ^ (-622 : ℤ) := by rw [← zpow_add₀ two_ne_zero]; norm_num
      _ ≤ 1 := zpow_le_one_of_nonpos₀ one_le_two (by norm_num)
  have n2 : Normal (s * c) := by
    right
    rw [abs_mul]
    calc (2 : K) ^ (-1022 : ℤ) ≤ 2 ^ (-400 + -400 : ℤ) := zpow_le_zpow_right₀ one_le_two (by norm_num)
      _ = 2 ^ (-400 : ℤ) * 2 ^ (-400 : ℤ) := zpow_add₀ two_ne_zero _ _
      _ ≤ |s| * |c| := mul_le_mul hs.1 hp.1 (two_zpow_pos _).le (abs_nonneg _)
  have f := ((Err.refl (1 / s)).round n1).mul ((Err.refl (s * c)).round n2)
  rw [show 1 / s * (s * c) = c by field_simp, show |1 / s| * |s * c| = |c| by rw [← abs_mul]; congr 1; field_simp] at f
  norm_num only at f
  have n3 : Normal (double (1 / s) * double (s * c)) := by
    right
    have g2 : (1 + uu : K) ^ 2 - 1 ≤ 1 / 2 := by rw [uu_eq]; norm_num
    have b : |c| - |double (1 / s) * double (s * c)| ≤ 1 / 2 * |c| := by
      have := abs_sub_abs_le_abs_sub c (double (1 / s) * double (s * c))
      rw [abs_sub_comm] at this
      exact this.trans (f.1.trans (mul_le_mul_of_nonneg_right g2 (abs_nonneg _)))
    have b2 : 1 / 2 * (2 : K) ^ (-400 : ℤ) ≤ |double (1 / s) * double (s * c)| := by have := hp.1; linarith
    refine le_trans ?_ b2
    rw [show (1 / 2 : K) = 2 ^ (-1 : ℤ) by norm_num, ← zpow_add₀ two_ne_zero]
    exact zpow_le_zpow_right₀ one_le_two (by norm_num)
  have f3 := f.round n3
  exact f3.1.trans (mul_le_mul_of_nonneg_right g3 (abs_nonneg _))

/-! ### Existence -/

theorem DotR.total {ι : Type*} (a b : ι → K) (l : List ι) : ∃ r, DotR a b l r := by
  induction l with
  | nil => exact ⟨_, .nil⟩
  | cons i l ih => obtain ⟨r, h⟩ := ih; exact ⟨_, .fma i l r h⟩

/-- every point and every product has an answer -/
theorem C182_total (a b : Transform K) (p : V3 K) : (∃ q, PtR a p q) ∧ (∃ q, VecR a p q) ∧ (∃ q, NrmR a p q) ∧ ∃ c, MulR a b c := by
  have hh : ∀ i, ∃ r, HomogR a.m p i r := fun i => by
    obtain ⟨s, hs⟩ := DotR.total (fun j : Fin 3 => a.m i j.castSucc) p.get [0, 1, 2]
    exact ⟨_, s, hs, rfl⟩
  refine ⟨?_, ?_, ?_, ?_⟩
  · obtain ⟨x, hx⟩ := hh 0; obtain ⟨y, hy⟩ := hh 1; obtain ⟨z, hz⟩ := hh 2; obtain ⟨w, hw⟩ := hh 3
    by_cases h : neUnityR w
    · exact ⟨_, ⟨x, y, z⟩, w, hx, hy, hz, hw, Or.inl ⟨h, rfl⟩⟩
    · exact ⟨_, ⟨x, y, z⟩, w, hx, hy, hz, hw, Or.inr ⟨h, rfl⟩⟩
  · choose f hf using fun i : Fin 3 => DotR.total (fun j : Fin 3 => a.m i.castSucc j.castSucc) p.get [0, 1, 2]
    exact ⟨⟨f 0, f 1, f 2⟩, fun i => by fin_cases i <;> exact hf _⟩
  · choose f hf using fun i : Fin 3 => DotR.total (fun j : Fin 3 => a.mInv j.castSucc i.castSucc) p.get [0, 1, 2]
    exact ⟨⟨f 0, f 1, f 2⟩, fun i => by fin_cases i <;> exact hf _⟩
  · choose f hf using fun i j => DotR.total (fun k => a.m i k) (fun k => b.m k j) [0, 1, 2, 3]
    choose g hg using fun i j => DotR.total (fun k => b.mInv i k) (fun k => a.mInv k j) [0, 1, 2, 3]
    exact ⟨⟨f, g⟩, hf, hg⟩

/-! ### What does not hold -/

/-- **C182** A scaling times its inverse is not the identity, in no order of additions: factor 49. -/
theorem C182_scale_inverse_false : ∀ c : Transform ℚ, MulR (scaleR 49 49 49) (scaleR 49 49 49).inverse c → c ≠ ident ∧ c.isIdentity = false := by
  intro c h
  have e := (h.1 0 0).single 0 (by decide) (by decide) (by intro i _ hi; fin_cases i <;> simp_all [scaleR])
  have : (c.m 0 0 : ℚ) ≠ 1 := by
    rw [e]
    simp only [scaleR, Transform.inverse, Matrix.of_apply, Matrix.cons_val_zero]
    decide +kernel
  have hm : c.m ≠ 1 := fun h => this (by rw [h]; simp)
  exact ⟨fun h => hm (by rw [h]; rfl), by simp [Transform.isIdentity, hm]⟩

theorem isDouble_pow (m e : ℤ) (hm : |m| ≤ 2 ^ 53) (he : -1074 ≤ e) : IsDouble ((m : ℚ) * 2 ^ e) := ⟨m, e, hm, he, rfl⟩

/-- the box from `-1` to `2^-60` along each axis -/
def thinBox : BBox ℚ := ⟨⟨-1, -1, -1⟩, ⟨2 ^ (-60 : ℤ), 2 ^ (-60 : ℤ), 2 ^ (-60 : ℤ)⟩⟩

/-- **C182** A transformed box need not contain the images of its points: already the identity (translation by zero) moves the upper corner `2^-60` of a box that begins at `-1` down to zero. -/
theorem C182_box_false : ∀ c : BBox ℚ, BoxR (translate ⟨0, 0, 0⟩) thinBox c → ∀ q, PtR (translate ⟨0, 0, 0⟩) thinBox.pMax q → c.pMax.x < q.x := by
  intro c h q hq
  obtain ⟨x, y, z, hp, hx, hy, hz, hc⟩ := h
  have h0 : IsDouble (0 : ℚ) := isDouble_zero
  have hv : ∀ a b c : ℚ, IsDouble a → IsDouble b → IsDouble c → FloatV (⟨a, b, c⟩ : V3 ℚ) := fun a b c ha hb hc i => by fin_cases i <;> assumption
  have m1 : IsDouble (-1 : ℚ) := isDouble_neg isDouble_one
  have m2 : IsDouble ((2 : ℚ) ^ (-60 : ℤ)) := ⟨1, -60, by norm_num, by norm_num, by simp⟩
  have e1 := (C182_translate _ _ c.pMin (hv _ _ _ m1 m1 m1)).1 hp 0
  have e2 := (C182_translate _ _ q (hv _ _ _ m2 m2 m2)).1 hq 0
  have ex := (C182_translate _ _ x (hv _ _ _ (isDouble_double _) h0 h0)).2.2.1 hx
  have ey := (C182_translate _ _ y (hv _ _ _ h0 (isDouble_double _) h0)).2.2.1 hy
  have ez := (C182_translate _ _ z (hv _ _ _ h0 h0 (isDouble_double _))).2.2.1 hz
  have ec := hc 0
  rw [e1, ex, ey, ez] at ec
  show c.pMax.get 0 < q.get 0
  rw [ec, e2]
  decide +kernel

/-- **C182** Translated there and back, a point need not be where it was: `1`, translated by `2^60`, comes back as `0`. -/
theorem C182_back_false : ∀ q r : V3 ℚ, PtR (translate ⟨2 ^ 60, 0, 0⟩) ⟨1, 0, 0⟩ q → PtR (translate ⟨2 ^ 60, 0, 0⟩).inverse q r → r.x = 0 := by
  intro q r h h'
  have h0 : IsDouble (0 : ℚ) := isDouble_zero
  have hv : FloatV (⟨1, 0, 0⟩ : V3 ℚ) := fun i => by fin_cases i; exacts [isDouble_one, h0, h0]
  have e := (C182_translate _ _ q hv).1 h
  have hq : FloatV q := fun i => by rw [e i]; exact isDouble_double _
  have e' := (C182_translate _ _ r hq).2.1 h' 0
  show r.get 0 = 0
  rw [e', e]
  decide +kernel

/-- concrete cases: a scaling and a translation of a point; the hypotheses of the theorems hold and there is an answer -/
example : Affine (scaleR (2 : ℚ) 3 5).m ∧ CoarseM (translate (⟨1, 2, 3⟩ : V3 ℚ)).m ∧ CoarseV (⟨7, 1 / 2, 3⟩ : V3 ℚ) ∧ FloatV (⟨7, 1 / 2, 3⟩ : V3 ℚ) ∧ Moderate (3 : ℚ) ∧
    (∃ q, PtR (translate (⟨1, 2, 3⟩ : V3 ℚ)) ⟨7, 1 / 2, 3⟩ q) ∧ ∃ c : Transform ℚ, MulR (scaleR 49 49 49) (scaleR 49 49 49).inverse c := by
  have gi : ∀ n : ℤ, Grid (-200) (n : ℚ) := fun n => ⟨n * 2 ^ 200, by push_cast; rw [mul_assoc]; norm_num⟩
  refine ⟨(scale_affine _ _ _).1, ?_, ?_, ?_, ⟨?_, ?_⟩, (C182_total _ (translate ⟨1, 2, 3⟩) _).1, (C182_total _ _ ⟨0, 0, 0⟩).2.2.2⟩
  · intro i j
    have : ∃ n : ℤ, (translate (⟨1, 2, 3⟩ : V3 ℚ)).m i j = n := ⟨((translate (⟨1, 2, 3⟩ : V3 ℚ)).m i j).num, by fin_cases i <;> fin_cases j <;> simp [translate]⟩
    obtain ⟨n, hn⟩ := this
    rw [hn]; exact gi n
  · intro i
    fin_cases i
    · exact_mod_cast gi 7
    · exact ⟨2 ^ 199, by simp only [V3.get]; norm_num⟩
    · exact_mod_cast gi 3
  · intro i
    fin_cases i
    · exact ⟨7, 0, by norm_num, by norm_num, by simp [V3.get]⟩
    · exact ⟨1, -1, by norm_num, by norm_num, by simp only [V3.get]; norm_num⟩
    · exact ⟨3, 0, by norm_num, by norm_num, by simp [V3.get]⟩
  · rw [abs_of_pos (by norm_num)]
    calc (2 : ℚ) ^ (-400 : ℤ) ≤ 1 := zpow_le_one_of_nonpos₀ one_le_two (by norm_num)
      _ ≤ 3 := by norm_num
  · rw [abs_of_pos (by norm_num)]
    calc (3 : ℚ) ≤ 2 ^ (2 : ℤ) := by norm_num
      _ ≤ 2 ^ (400 : ℤ) := zpow_le_zpow_right₀ one_le_two (by norm_num)

end Verif.XformR
