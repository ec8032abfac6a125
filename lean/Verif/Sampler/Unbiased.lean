import Mathlib.Probability.Moments.Variance
import Mathlib.MeasureTheory.Integral.Prod
import Mathlib.MeasureTheory.Integral.IntervalIntegral.Basic
import Mathlib.MeasureTheory.Measure.Lebesgue.Basic
import Mathlib.Algebra.Order.Chebyshev
import Mathlib.Probability.Independence.InfinitePi
import Mathlib.Data.Fintype.Perm
import Verif.Sampler.Strata

/-!
# Sample patterns as estimators (C165)

The patterns of `sampler/utility.py` (modelled in `Sampler/Model.lean`), seen as estimators of the integral over the unit interval or the unit
square: the draws of `rng` are independent and uniform on `[0, 1)`, and the mean of `f` over the pattern is an estimate of the integral of `f`.
Real arithmetic; that `np.random.rand` is such a source is an assumption, as is (for `latin_hypercube_2d`) that `np.random.shuffle` takes every
rearrangement equally often.
-/
set_option linter.unusedSectionVars false

namespace Verif.Sampler.Unbiased

open MeasureTheory ProbabilityTheory Verif.Sampler
open scoped ENNReal

/-! ### Specification -/

/-- the uniform law on `[0, 1)` -/
noncomputable def unif : Measure ℝ := (volume : Measure ℝ).restrict (Set.Ico 0 1)

/-- `np.random.rand`: independent draws, uniform on `[0, 1)` -/
structure Uniform {Ω : Type*} [MeasurableSpace Ω] (P : Measure Ω) (U : ℕ → Ω → ℝ) : Prop where
  meas : ∀ k, Measurable (U k)
  law : ∀ k, P.map (U k) = unif
  indep : iIndepFun U P

/-- the mean of `f` over a list of points -/
noncomputable def avg {α : Type*} (f : α → ℝ) (l : List α) : ℝ := (l.map f).sum / l.length

instance : IsProbabilityMeasure unif := ⟨by simp [unif]⟩

/-! ### Any pattern with one point in each cell -/

section cells

variable {Ω α : Type*} [MeasurableSpace Ω] [MeasurableSpace α] {P : Measure Ω} [IsProbabilityMeasure P] {ν : Measure α} [IsProbabilityMeasure ν]
  {N : ℕ} {c : ℕ → α → α} {Z : ℕ → Ω → α}

/-- the maps `c k` put the law `ν` on the `k`-th of `N` cells of equal weight -/
structure Cells (ν : Measure α) (N : ℕ) (c : ℕ → α → α) : Prop where
  meas : ∀ k, Measurable (c k)
  total : ∑ k ∈ Finset.range N, ν.map (c k) = (N : ℝ≥0∞) • ν

theorem le_total (hc : Cells ν N c) {k : ℕ} (hk : k < N) : ν.map (c k) ≤ (N : ℝ≥0∞) • ν := by
  rw [← hc.total]
  exact Finset.single_le_sum (f := fun k => ν.map (c k)) (fun _ _ => Measure.zero_le _) (Finset.mem_range.2 hk)

theorem cell_integrable (hc : Cells ν N c) {k : ℕ} (hk : k < N) {g : α → ℝ} (hg : Integrable g ν) : Integrable g (ν.map (c k)) :=
  (hg.smul_measure (by simp)).mono_measure (le_total hc hk)

theorem cell_sum (hc : Cells ν N c) {g : α → ℝ} (hg : Integrable g ν) : ∑ k ∈ Finset.range N, ∫ x, g x ∂(ν.map (c k)) = N * ∫ x, g x ∂ν := by
  rw [← integral_finsetSum_measure fun k hk => cell_integrable hc (Finset.mem_range.1 hk) hg, hc.total, integral_smul_measure]
  simp

/-- the law of the `k`-th point -/
theorem point_law (hc : Cells ν N c) (hZ : ∀ k, Measurable (Z k)) (hl : ∀ k, P.map (Z k) = ν) (k : ℕ) : P.map (fun ω => c k (Z k ω)) = ν.map (c k) := by
  rw [← hl k, Measure.map_map (hc.meas k) (hZ k)]; rfl

theorem point_int (hc : Cells ν N c) (hZ : ∀ k, Measurable (Z k)) (hl : ∀ k, P.map (Z k) = ν) {k : ℕ} (hk : k < N) {g : α → ℝ} (hg : Integrable g ν) :
    Integrable (fun ω => g (c k (Z k ω))) P ∧ ∫ ω, g (c k (Z k ω)) ∂P = ∫ x, g x ∂(ν.map (c k)) := by
  have hm : Measurable fun ω => c k (Z k ω) := (hc.meas k).comp (hZ k)
  have hi := cell_integrable hc hk hg
  rw [← point_law hc hZ hl k] at hi ⊢
  exact ⟨hi.comp_measurable hm, (integral_map hm.aemeasurable hi.aestronglyMeasurable).symm⟩

theorem cells_mean (hc : Cells ν N c) (hZ : ∀ k, Measurable (Z k)) (hl : ∀ k, P.map (Z k) = ν) (hN : 0 < N) {f : α → ℝ} (hf : Integrable f ν) :
    ∫ ω, (∑ k ∈ Finset.range N, f (c k (Z k ω))) / N ∂P = ∫ x, f x ∂ν := by
  have hN' : (N : ℝ) ≠ 0 := by exact_mod_cast hN.ne'
  rw [integral_div, integral_finsetSum _ fun k hk => (point_int hc hZ hl (Finset.mem_range.1 hk) hf).1,
    Finset.sum_congr rfl fun k hk => (point_int hc hZ hl (Finset.mem_range.1 hk) hf).2, cell_sum hc hf, mul_div_cancel_left₀ _ hN']

theorem cells_variance (hc : Cells ν N c) (hZ : ∀ k, Measurable (Z k)) (hl : ∀ k, P.map (Z k) = ν)
    (hi : ∀ j < N, ∀ k < N, j ≠ k → IndepFun (Z j) (Z k) P) (hN : 0 < N) {f : α → ℝ} (hm : Measurable f) (hf : MemLp f 2 ν) :
    variance (fun ω => (∑ k ∈ Finset.range N, f (c k (Z k ω))) / N) P ≤ variance f ν / N := by
  have hN' : (0 : ℝ) < N := by exact_mod_cast hN
  have hf1 : Integrable f ν := hf.integrable (by norm_num)
  have hf2 : Integrable (fun x => f x ^ 2) ν := hf.integrable_sq
  have hL : ∀ k ∈ Finset.range N, MemLp (fun ω => f (c k (Z k ω))) 2 P := by
    intro k hk
    refine (memLp_two_iff_integrable_sq (hm.comp ((hc.meas k).comp (hZ k))).aestronglyMeasurable).2 ?_
    exact (point_int hc hZ hl (Finset.mem_range.1 hk) hf2).1
  have e1 : variance (fun ω => (∑ k ∈ Finset.range N, f (c k (Z k ω))) / N) P = (∑ k ∈ Finset.range N, variance (fun ω => f (c k (Z k ω))) P) / (N : ℝ) ^ 2 := by
    rw [show (fun ω => (∑ k ∈ Finset.range N, f (c k (Z k ω))) / N) = fun ω => (1 / N : ℝ) * (∑ k ∈ Finset.range N, fun ω => f (c k (Z k ω))) ω by
      funext ω; rw [Finset.sum_apply]; ring, variance_const_mul, IndepFun.variance_sum hL]
    · ring
    · intro j hj k hk hjk
      have := hi j (Finset.mem_range.1 hj) k (Finset.mem_range.1 hk) hjk
      exact this.comp (φ := fun z => f (c j z)) (ψ := fun z => f (c k z)) (hm.comp (hc.meas j)) (hm.comp (hc.meas k))
  have e2 : ∀ k ∈ Finset.range N, variance (fun ω => f (c k (Z k ω))) P = ∫ x, f x ^ 2 ∂(ν.map (c k)) - (∫ x, f x ∂(ν.map (c k))) ^ 2 := by
    intro k hk
    rw [variance_eq_sub (hL k hk), ← (point_int hc hZ hl (Finset.mem_range.1 hk) hf1).2, ← (point_int hc hZ hl (Finset.mem_range.1 hk) hf2).2]
    rfl
  have e3 : variance f ν = ∫ x, f x ^ 2 ∂ν - (∫ x, f x ∂ν) ^ 2 := by rw [variance_eq_sub hf]; rfl
  rw [e1, Finset.sum_congr rfl e2, Finset.sum_sub_distrib, cell_sum hc hf2, e3]
  have key := sq_sum_le_card_mul_sum_sq (s := Finset.range N) (f := fun k => ∫ x, f x ∂(ν.map (c k)))
  rw [cell_sum hc hf1, Finset.card_range] at key
  rw [div_le_div_iff₀ (by positivity) hN']
  nlinarith [key]

end cells

/-! ### The cells of the unit interval and square -/

/-- into the `k`-th of `n` strata -/
noncomputable def cell (n k : ℕ) (u : ℝ) : ℝ := ((k : ℝ) + u) / n

theorem cell_meas (n k : ℕ) : Measurable (cell n k) := by unfold cell; fun_prop

theorem map_cell (n k : ℕ) (hn : 0 < n) : unif.map (cell n k) = (n : ℝ≥0∞) • (volume : Measure ℝ).restrict (Set.Ico ((k : ℝ) / n) ((k + 1 : ℝ) / n)) := by
  have hn' : (0 : ℝ) < n := by exact_mod_cast hn
  have hp : Set.Ico (0 : ℝ) 1 = cell n k ⁻¹' Set.Ico ((k : ℝ) / n) ((k + 1 : ℝ) / n) := by
    ext u
    simp only [Set.mem_Ico, Set.mem_preimage, cell, div_le_div_iff_of_pos_right hn', div_lt_div_iff_of_pos_right hn']
    constructor <;> rintro ⟨a, b⟩ <;> constructor <;> linarith
  have hv : (volume : Measure ℝ).map (cell n k) = (n : ℝ≥0∞) • volume := by
    have e : cell n k = (fun x => (n : ℝ)⁻¹ * x) ∘ fun x => (k : ℝ) + x := by funext u; simp [cell]; ring
    rw [e, ← Measure.map_map (by fun_prop) (by fun_prop), map_add_left_eq_self, Real.map_volume_mul_left (inv_ne_zero hn'.ne')]
    simp [abs_of_pos hn']
  rw [unif, hp, ← Measure.restrict_map (cell_meas n k) measurableSet_Ico, hv, Measure.restrict_smul]

theorem cells_unit (n : ℕ) : Cells unif n (cell n) := by
  refine ⟨cell_meas n, ?_⟩
  rcases Nat.eq_zero_or_pos n with rfl | hn
  · simp
  have hn' : (0 : ℝ) < n := by exact_mod_cast hn
  rw [Finset.sum_congr rfl fun k _ => map_cell n k hn, ← Finset.smul_sum]
  congr 1
  have : ∀ m : ℕ, ∑ k ∈ Finset.range m, (volume : Measure ℝ).restrict (Set.Ico ((k : ℝ) / n) ((k + 1 : ℝ) / n)) =
      (volume : Measure ℝ).restrict (Set.Ico 0 ((m : ℝ) / n)) := by
    intro m
    induction m with
    | zero => simp
    | succ m ih =>
      rw [Finset.sum_range_succ, ih, ← Measure.restrict_union _ measurableSet_Ico]
      · rw [Set.Ico_union_Ico_eq_Ico (by positivity) (by gcongr; linarith)]
        push_cast; rfl
      · rw [Set.disjoint_left]
        intro x h1 h2
        exact absurd h1.2 (not_lt.2 h2.1)
  rw [this, div_self hn'.ne']
  rfl

theorem sum_prod {ι : Type*} (s : Finset ι) (μ : ι → Measure ℝ) [∀ i, SFinite (μ i)] (ρ : Measure ℝ) [SFinite ρ] :
    (∑ i ∈ s, μ i).prod ρ = ∑ i ∈ s, (μ i).prod ρ := by
  classical
  have : ∀ s : Finset ι, SFinite (∑ i ∈ s, μ i) ∧ (∑ i ∈ s, μ i).prod ρ = ∑ i ∈ s, (μ i).prod ρ := by
    intro s
    induction s using Finset.induction_on with
    | empty => simp; infer_instance
    | insert a s ha ih =>
      have := ih.1
      rw [Finset.sum_insert ha, Finset.sum_insert ha, Measure.add_prod, ih.2]
      exact ⟨inferInstance, rfl⟩
  exact (this s).2

theorem prod_sum' {ι : Type*} (s : Finset ι) (μ : ι → Measure ℝ) [∀ i, SFinite (μ i)] (ρ : Measure ℝ) [SFinite ρ] :
    ρ.prod (∑ i ∈ s, μ i) = ∑ i ∈ s, ρ.prod (μ i) := by
  classical
  have : ∀ s : Finset ι, SFinite (∑ i ∈ s, μ i) ∧ ρ.prod (∑ i ∈ s, μ i) = ∑ i ∈ s, ρ.prod (μ i) := by
    intro s
    induction s using Finset.induction_on with
    | empty => simp; infer_instance
    | insert a s ha ih =>
      have := ih.1
      rw [Finset.sum_insert ha, Finset.sum_insert ha, Measure.prod_add, ih.2]
      exact ⟨inferInstance, rfl⟩
  exact (this s).2

theorem map_cell2 (n m i j : ℕ) : (unif.prod unif).map (Prod.map (cell n i) (cell m j)) = (unif.map (cell n i)).prod (unif.map (cell m j)) :=
  (Measure.map_prod_map unif unif (cell_meas n i) (cell_meas m j)).symm

instance (n k : ℕ) : IsFiniteMeasure (unif.map (cell n k)) := Measure.isFiniteMeasure_map _ _

/-- sum over `k < nx * ny` in rows -/
theorem sum_rows {M : Type*} [AddCommMonoid M] (nx ny : ℕ) (hx : 0 < nx) (g : ℕ → ℕ → M) :
    ∑ k ∈ Finset.range (nx * ny), g (k % nx) (k / nx) = ∑ j ∈ Finset.range ny, ∑ i ∈ Finset.range nx, g i j := by
  induction ny with
  | zero => simp
  | succ m ih =>
    rw [Finset.sum_range_succ, ← ih, Nat.mul_succ, Finset.sum_range_add]
    congr 1
    apply Finset.sum_congr rfl
    intro i hi
    have hi := Finset.mem_range.1 hi
    rw [Nat.mul_add_mod, Nat.mod_eq_of_lt hi, Nat.mul_add_div hx, Nat.div_eq_of_lt hi, Nat.add_zero]

theorem cells_square (nx ny : ℕ) (hx : 0 < nx) : Cells (unif.prod unif) (nx * ny) fun k => Prod.map (cell nx (k % nx)) (cell ny (k / nx)) := by
  refine ⟨fun k => (cell_meas _ _).prodMap (cell_meas _ _), ?_⟩
  rw [Finset.sum_congr rfl fun k _ => map_cell2 nx ny (k % nx) (k / nx),
    sum_rows nx ny hx fun i j => (unif.map (cell nx i)).prod (unif.map (cell ny j)),
    Finset.sum_congr rfl fun j _ => (sum_prod (Finset.range nx) (fun i => unif.map (cell nx i)) (unif.map (cell ny j))).symm,
    ← prod_sum' (Finset.range ny) (fun j => unif.map (cell ny j)), (cells_unit nx).total, (cells_unit ny).total]
  rw [Measure.prod_smul_left, Measure.prod_smul_right, smul_smul]
  push_cast
  rw [mul_comm]

/-! ### C165 -/

theorem list_sum_of {α : Type*} (f : α → ℝ) (l : List α) (N : ℕ) (p : ℕ → α) (hl : l.length = N) (h : ∀ k < N, l[k]? = some (p k)) :
    avg f l = (∑ k ∈ Finset.range N, f (p k)) / N := by
  have e : l = (List.range N).map p := by
    apply List.ext_getElem?
    intro k
    rcases lt_or_ge k N with hk | hk
    · rw [h k hk]; simp [hk]
    · rw [List.getElem?_eq_none (by omega), List.getElem?_eq_none (by simpa using hk)]
  rw [avg, hl, e, List.map_map, Finset.sum_range]
  congr 1
  rw [← List.sum_ofFn]
  congr 1
  rw [List.ofFn_eq_map, ← List.map_coe_finRange_eq_range, List.map_map]
  rfl

variable {Ω : Type*} [MeasurableSpace Ω] {P : Measure Ω} [IsProbabilityMeasure P] {U : ℕ → Ω → ℝ}

theorem avg_1d (U : ℕ → Ω → ℝ) (sh : ℕ → List ℕ → List ℕ) (st : RS) (n : ℕ) (f : ℝ → ℝ) (ω : Ω) :
    avg f (stratified1d ⟨fun k => U k ω, sh⟩ st n true).1 = (∑ k ∈ Finset.range n, f (cell n k (U (st.d + k) ω))) / n := by
  refine list_sum_of f _ n (fun k => cell n k (U (st.d + k) ω)) (stratified1d_length _ _ _ _) fun k hk => ?_
  rw [stratified1d_getElem? _ _ _ _ _ hk]; rfl

theorem avg_2d (U : ℕ → Ω → ℝ) (sh : ℕ → List ℕ → List ℕ) (st : RS) (nx ny : ℕ) (f : ℝ × ℝ → ℝ) (ω : Ω) :
    avg f (stratified2d ⟨fun k => U k ω, sh⟩ st nx ny true).1 =
      (∑ k ∈ Finset.range (nx * ny), f (Prod.map (cell nx (k % nx)) (cell ny (k / nx)) (U (st.d + k) ω, U (st.d + nx * ny + k) ω))) / (nx * ny : ℕ) := by
  refine list_sum_of f _ (nx * ny) (fun k => Prod.map (cell nx (k % nx)) (cell ny (k / nx)) (U (st.d + k) ω, U (st.d + nx * ny + k) ω))
    (stratified2d_length _ _ _ _ _) fun k hk => ?_
  rw [stratified2d_getElem? _ _ _ _ _ _ hk]; rfl

/-- **C165** The mean of `f` over `stratified_sample_1d(n)` has expectation the integral of `f`. -/
theorem C165_stratified_1d (hU : Uniform P U) (sh : ℕ → List ℕ → List ℕ) (st : RS) (n : ℕ) (hn : 0 < n) (f : ℝ → ℝ)
    (hf : IntegrableOn f (Set.Ico 0 1)) :
    ∫ ω, avg f (stratified1d ⟨fun k => U k ω, sh⟩ st n true).1 ∂P = ∫ x in Set.Ico (0:ℝ) 1, f x := by
  simp only [avg_1d]
  exact cells_mean (cells_unit n) (Z := fun k => U (st.d + k)) (fun k => hU.meas _) (fun k => hU.law _) hn hf

/-- the mean over `N` independent points has variance `Var f / N` -/
theorem indep_variance {α : Type*} [MeasurableSpace α] {ν : Measure α} [IsProbabilityMeasure ν] {N : ℕ} {Z : ℕ → Ω → α} (hZ : ∀ k, Measurable (Z k))
    (hl : ∀ k, P.map (Z k) = ν) (hi : ∀ j < N, ∀ k < N, j ≠ k → IndepFun (Z j) (Z k) P) (hN : 0 < N) {f : α → ℝ} (hm : Measurable f) (hf : MemLp f 2 ν) :
    variance (fun ω => avg f ((List.range N).map fun k => Z k ω)) P = variance f ν / N := by
  have hN' : (N : ℝ) ≠ 0 := by exact_mod_cast hN.ne'
  have hL : ∀ k, MemLp (fun ω => f (Z k ω)) 2 P := by
    intro k
    have := hf
    rw [← hl k] at this
    exact this.comp_measurePreserving ⟨hZ k, rfl⟩
  have hv : ∀ k, variance (fun ω => f (Z k ω)) P = variance f ν := by
    intro k
    rw [← hl k, variance_map hm.aemeasurable (hZ k).aemeasurable]
    rfl
  have e : (fun ω => avg f ((List.range N).map fun k => Z k ω)) = fun ω => (1 / N : ℝ) * (∑ k ∈ Finset.range N, fun ω => f (Z k ω)) ω := by
    funext ω
    rw [list_sum_of f _ N (fun k => Z k ω) (by simp) (fun k hk => by simp [hk]), Finset.sum_apply]
    ring
  rw [e, variance_const_mul, IndepFun.variance_sum fun k _ => hL k, Finset.sum_congr rfl fun k _ => hv k, Finset.sum_const, Finset.card_range, nsmul_eq_mul]
  · field_simp
  · intro j hj k hk hjk
    have := hi j (Finset.mem_range.1 hj) k (Finset.mem_range.1 hk) hjk
    exact this.comp (φ := f) (ψ := f) hm hm

/-- **C165** Its variance is at most that of the mean of `n` independent samples. -/
theorem C165_stratified_1d_variance (hU : Uniform P U) (sh : ℕ → List ℕ → List ℕ) (st : RS) (n : ℕ) (hn : 0 < n) (f : ℝ → ℝ) (hm : Measurable f)
    (hf : MemLp f 2 (volume.restrict (Set.Ico 0 1))) :
    variance (fun ω => avg f (stratified1d ⟨fun k => U k ω, sh⟩ st n true).1) P ≤ variance (fun ω => avg f ((List.range n).map fun k => U k ω)) P := by
  rw [indep_variance (ν := unif) (fun k => hU.meas k) (fun k => hU.law k) (fun j _ k _ hjk => hU.indep.indepFun hjk) hn hm hf]
  simp only [avg_1d]
  exact cells_variance (cells_unit n) (Z := fun k => U (st.d + k)) (fun k => hU.meas _) (fun k => hU.law _)
    (fun j _ k _ hjk => hU.indep.indepFun (by omega)) hn hm hf

theorem pair_law (hU : Uniform P U) {a b : ℕ} (hab : a ≠ b) : P.map (fun ω => (U a ω, U b ω)) = unif.prod unif := by
  rw [(indepFun_iff_map_prod_eq_prod_map_map (hU.meas a).aemeasurable (hU.meas b).aemeasurable).1 (hU.indep.indepFun hab), hU.law, hU.law]

theorem pair_meas (hU : Uniform P U) (a b : ℕ) : Measurable fun ω => (U a ω, U b ω) := (hU.meas a).prodMk (hU.meas b)

/-- **C165** The mean of `f` over `stratified_sample_2d(nx, ny)` has expectation the integral of `f` over the unit square. -/
theorem C165_stratified_2d (hU : Uniform P U) (sh : ℕ → List ℕ → List ℕ) (st : RS) (nx ny : ℕ) (hx : 0 < nx) (hy : 0 < ny) (f : ℝ × ℝ → ℝ)
    (hf : IntegrableOn f (Set.Ico 0 1 ×ˢ Set.Ico 0 1)) :
    ∫ ω, avg f (stratified2d ⟨fun k => U k ω, sh⟩ st nx ny true).1 ∂P = ∫ x in Set.Ico (0:ℝ) 1 ×ˢ Set.Ico (0:ℝ) 1, f x := by
  have hN : 0 < nx * ny := Nat.mul_pos hx hy
  have hv : (volume : Measure (ℝ × ℝ)).restrict (Set.Ico 0 1 ×ˢ Set.Ico 0 1) = unif.prod unif := by
    rw [unif, Measure.prod_restrict]; rfl
  rw [IntegrableOn, hv] at hf
  rw [hv]
  simp only [avg_2d]
  exact cells_mean (cells_square nx ny hx) (Z := fun k ω => (U (st.d + k) ω, U (st.d + nx * ny + k) ω)) (fun k => pair_meas hU _ _)
    (fun k => pair_law hU (by omega)) hN hf

/-- **C165** Its variance is at most that of the mean of `nx * ny` independent points of the square. -/
theorem C165_stratified_2d_variance (hU : Uniform P U) (sh : ℕ → List ℕ → List ℕ) (st : RS) (nx ny : ℕ) (hx : 0 < nx) (hy : 0 < ny) (f : ℝ × ℝ → ℝ)
    (hm : Measurable f) (hf : MemLp f 2 (volume.restrict (Set.Ico 0 1 ×ˢ Set.Ico 0 1))) :
    variance (fun ω => avg f (stratified2d ⟨fun k => U k ω, sh⟩ st nx ny true).1) P ≤
      variance (fun ω => avg f ((List.range (nx * ny)).map fun k => (U (2 * k) ω, U (2 * k + 1) ω))) P := by
  have hN : 0 < nx * ny := Nat.mul_pos hx hy
  have hv : (volume : Measure (ℝ × ℝ)).restrict (Set.Ico 0 1 ×ˢ Set.Ico 0 1) = unif.prod unif := by
    rw [unif, Measure.prod_restrict]; rfl
  rw [hv] at hf
  rw [indep_variance (ν := unif.prod unif) (Z := fun k ω => (U (2 * k) ω, U (2 * k + 1) ω)) (fun k => pair_meas hU _ _) (fun k => pair_law hU (by omega))
    (fun j _ k _ hjk => hU.indep.indepFun_prodMk_prodMk hU.meas _ _ _ _ (by omega) (by omega) (by omega) (by omega)) hN hm hf]
  simp only [avg_2d]
  exact cells_variance (cells_square nx ny hx) (Z := fun k ω => (U (st.d + k) ω, U (st.d + nx * ny + k) ω)) (fun k => pair_meas hU _ _)
    (fun k => pair_law hU (by omega))
    (fun j hj k hk hjk => hU.indep.indepFun_prodMk_prodMk hU.meas _ _ _ _ (by omega) (by omega) (by omega) (by omega)) hN hm hf

theorem avg_perm {α : Type*} (f : α → ℝ) {l m : List α} (h : l.Perm m) : avg f l = avg f m := by
  rw [avg, avg, h.length_eq, (h.map f).sum_eq]

/-- **C165** For every way of shuffling, `latin_hypercube_1d(n)` gives the same estimate as the strata in order; so it is unbiased and its variance
is at most that of independent samples, too. -/
theorem C165_latin_1d (hU : Uniform P U) (sh : Ω → ℕ → List ℕ → List ℕ) (hs : ∀ ω k l, (sh ω k l).Perm l) (st : RS) (n : ℕ) (hn : 0 < n) (f : ℝ → ℝ)
    (hm : Measurable f) (hf : MemLp f 2 (volume.restrict (Set.Ico 0 1))) :
    ∫ ω, avg f (latin1d ⟨fun k => U k ω, sh ω⟩ st n).1 ∂P = ∫ x in Set.Ico (0:ℝ) 1, f x ∧
    variance (fun ω => avg f (latin1d ⟨fun k => U k ω, sh ω⟩ st n).1) P ≤ variance (fun ω => avg f ((List.range n).map fun k => U k ω)) P := by
  have e : (fun ω => avg f (latin1d ⟨fun k => U k ω, sh ω⟩ st n).1) = fun ω => avg f (stratified1d ⟨fun k => U k ω, fun _ l => l⟩ st n true).1 := by
    funext ω
    exact avg_perm f (permute_perm _ _ (hs ω _ _))
  rw [e]
  exact ⟨C165_stratified_1d hU _ st n hn f (hf.integrable (by norm_num)), C165_stratified_1d_variance hU _ st n hn f hm hf⟩

/-! #### `latin_hypercube_2d` -/

/-- the shuffle that puts at place `i` what was at place `s i` -/
def shuf {n : ℕ} (s : Equiv.Perm (Fin n)) : ℕ → List ℕ → List ℕ := fun _ _ => List.ofFn fun i => (s i : ℕ)

theorem shuf_perm {n : ℕ} (s : Equiv.Perm (Fin n)) (k : ℕ) : (shuf s k (List.range n)).Perm (List.range n) := by
  have h1 : (List.ofFn fun i : Fin n => (s i : ℕ)) = ((List.finRange n).map s).map Fin.val := by rw [List.ofFn_eq_map, List.map_map]; rfl
  have h2 : List.range n = (List.finRange n).map Fin.val := List.map_coe_finRange_eq_range.symm
  rw [shuf, h1, h2]
  exact (Equiv.Perm.map_finRange_perm s).map _

theorem avg_l2 {n : ℕ} (U : ℕ → Ω → ℝ) (s : Equiv.Perm (Fin n)) (st : RS) (f : ℝ × ℝ → ℝ) (ω : Ω) :
    avg f (latin2d ⟨fun k => U k ω, shuf s⟩ st n).1 =
      (∑ i : Fin n, f (Prod.map (cell n i) (cell n (s i)) (U (st.d + n + i) ω, U (st.d + s i) ω))) / n := by
  have e : (latin2d ⟨fun k => U k ω, shuf s⟩ st n).1 = List.ofFn fun i : Fin n => Prod.map (cell n i) (cell n (s i)) (U (st.d + n + i) ω, U (st.d + s i) ω) := by
    apply List.ext_getElem?
    intro k
    have hy : ∀ j < n, (strata (arange n) (rng (⟨fun k => U k ω, shuf s⟩ : Rand ℝ) st n).1 n)[j]? = some (cell n j (U (st.d + j) ω)) := fun j hj =>
      strata_getElem? _ _ _ _ _ _ (arange_getElem? n j hj) (rng_getElem? _ st n j hj)
    have hp : (permute (List.ofFn fun i : Fin n => (s i : ℕ)) (strata (arange n) (rng (⟨fun k => U k ω, shuf s⟩ : Rand ℝ) st n).1 n)) =
        List.ofFn fun i : Fin n => cell n (s i) (U (st.d + s i) ω) := by
      rw [permute, List.ofFn_eq_map, List.filterMap_map, List.ofFn_eq_map, ← List.filterMap_eq_map]
      congr 1
      funext i
      exact hy _ (s i).2
    have e0 : (latin2d ⟨fun k => U k ω, shuf s⟩ st n).1 = List.zip (strata (arange n) (rng (⟨fun k => U k ω, shuf s⟩ : Rand ℝ) ⟨st.d + n, st.s + 1⟩ n).1 n)
        (permute (List.ofFn fun i : Fin n => (s i : ℕ)) (strata (arange n) (rng (⟨fun k => U k ω, shuf s⟩ : Rand ℝ) st n).1 n)) := rfl
    rw [e0, hp]
    rcases lt_or_ge k n with hk | hk
    · have hx := strata_getElem? _ _ n _ _ _ (arange_getElem? (K := ℝ) n k hk) (rng_getElem? (⟨fun k => U k ω, shuf s⟩ : Rand ℝ) ⟨st.d + n, st.s + 1⟩ n k hk)
      have : (List.ofFn fun i : Fin n => cell n (s i) (U (st.d + s i) ω))[k]? = some (cell n (s ⟨k, hk⟩) (U (st.d + s ⟨k, hk⟩) ω)) := by
        simp [hk]
      refine Eq.trans ((List.getElem?_zip_eq_some (z := (cell n k (U (st.d + n + k) ω), cell n (s ⟨k, hk⟩) (U (st.d + s ⟨k, hk⟩) ω)))).2 ⟨hx, this⟩) ?_
      simp [hk, cell]
    · rw [List.getElem?_eq_none (by simp; omega), List.getElem?_eq_none (by simpa using hk)]
  rw [e, avg, List.length_ofFn, List.map_ofFn, List.sum_ofFn]
  rfl

/-- the mean over all rearrangements of a function of the place of one element -/
theorem perm_mean {n : ℕ} (g : Fin n → ℝ) (i : Fin n) : ∑ s : Equiv.Perm (Fin n), g (s i) = (n.factorial : ℝ) / n * ∑ j, g j := by
  have hn : (n : ℝ) ≠ 0 := by have := i.2; exact_mod_cast (by omega : n ≠ 0)
  have h1 : ∀ j : Fin n, ∑ s : Equiv.Perm (Fin n), g (s j) = ∑ s : Equiv.Perm (Fin n), g (s i) := by
    intro j
    refine Fintype.sum_equiv (Equiv.mulRight (Equiv.swap i j)) _ _ fun s => ?_
    simp
  have h2 : ∑ j : Fin n, ∑ s : Equiv.Perm (Fin n), g (s j) = n * ∑ s : Equiv.Perm (Fin n), g (s i) := by
    rw [Finset.sum_congr rfl fun j _ => h1 j]; simp
  have h3 : ∑ j : Fin n, ∑ s : Equiv.Perm (Fin n), g (s j) = n.factorial * ∑ j, g j := by
    rw [Finset.sum_comm, Finset.sum_congr rfl fun s _ => Equiv.sum_comp s g]
    simp [Fintype.card_perm]
  field_simp
  linarith

theorem latin2_point (hU : Uniform P U) (n : ℕ) (hn : 0 < n) (i j a b : ℕ) (hi : i < n) (hj : j < n) (hab : a ≠ b) (f : ℝ × ℝ → ℝ) (hf : Integrable f (unif.prod unif)) :
    Integrable (fun ω => f (Prod.map (cell n i) (cell n j) (U a ω, U b ω))) P ∧
      ∫ ω, f (Prod.map (cell n i) (cell n j) (U a ω, U b ω)) ∂P = ∫ x, f x ∂((unif.map (cell n i)).prod (unif.map (cell n j))) := by
  have hc := cells_square n n hn
  have hk : i + n * j < n * n := by nlinarith
  have h := point_int hc (Z := fun _ ω => (U a ω, U b ω)) (fun _ => pair_meas hU a b) (fun _ => pair_law hU hab) hk hf
  simp only [Nat.add_mul_mod_self_left, Nat.mod_eq_of_lt hi, Nat.add_mul_div_left _ _ hn, Nat.div_eq_of_lt hi, Nat.zero_add] at h
  rw [map_cell2] at h
  exact h

/-- **C165** If every rearrangement is taken equally often, `latin_hypercube_2d(n)` is unbiased. -/
theorem C165_latin_2d (hU : Uniform P U) (st : RS) (n : ℕ) (hn : 0 < n) (f : ℝ × ℝ → ℝ) (hf : IntegrableOn f (Set.Ico 0 1 ×ˢ Set.Ico 0 1)) :
    (∑ s : Equiv.Perm (Fin n), ∫ ω, avg f (latin2d ⟨fun k => U k ω, shuf s⟩ st n).1 ∂P) / n.factorial = ∫ x in Set.Ico (0:ℝ) 1 ×ˢ Set.Ico (0:ℝ) 1, f x := by
  have hv : (volume : Measure (ℝ × ℝ)).restrict (Set.Ico 0 1 ×ˢ Set.Ico 0 1) = unif.prod unif := by
    rw [unif, Measure.prod_restrict]; rfl
  rw [IntegrableOn, hv] at hf
  rw [hv]
  have hn' : (n : ℝ) ≠ 0 := by exact_mod_cast hn.ne'
  have hfac : (n.factorial : ℝ) ≠ 0 := by exact_mod_cast n.factorial_ne_zero
  set G : Fin n → Fin n → ℝ := fun i j => ∫ x, f x ∂((unif.map (cell n i)).prod (unif.map (cell n j))) with hG
  have e1 : ∀ s : Equiv.Perm (Fin n), ∫ ω, avg f (latin2d ⟨fun k => U k ω, shuf s⟩ st n).1 ∂P = (∑ i : Fin n, G i (s i)) / n := by
    intro s
    simp only [avg_l2]
    rw [integral_div, integral_finsetSum _ fun (i : Fin n) _ => (latin2_point hU n hn i (s i) _ _ i.2 (s i).2 (by have := (s i).2; omega) f hf).1]
    congr 1
    exact Finset.sum_congr rfl fun i _ => (latin2_point hU n hn i (s i) _ _ i.2 (s i).2 (by have := (s i).2; omega) f hf).2
  have e2 : ∑ i : Fin n, ∑ j : Fin n, G i j = (n * n : ℕ) * ∫ x, f x ∂(unif.prod unif) := by
    have e3 := cell_sum (cells_square n n hn) hf
    simp only [map_cell2] at e3
    rw [← e3, sum_rows n n hn fun i j => ∫ x, f x ∂((unif.map (cell n i)).prod (unif.map (cell n j))), Finset.sum_comm, Finset.sum_range]
    refine Finset.sum_congr rfl fun i _ => ?_
    rw [Finset.sum_range]
  rw [Finset.sum_congr rfl fun s _ => e1 s, ← Finset.sum_div, Finset.sum_comm, Finset.sum_congr rfl fun i _ => perm_mean (G i) i, ← Finset.mul_sum, e2]
  push_cast
  field_simp

/-! #### Without chance -/

/-- **C165** For every source of draws, with and without jitter, the estimate of a function with Lipschitz constant `L` is within `L / n`. -/
theorem C165_error (r : Rand ℝ) (hr : UnitDraws r) (st : RS) (n : ℕ) (hn : 0 < n) (jitter : Bool) (f : ℝ → ℝ) (L : ℝ)
    (hL : ∀ x ∈ Set.Icc (0:ℝ) 1, ∀ y ∈ Set.Icc (0:ℝ) 1, |f x - f y| ≤ L * |x - y|) (hf : IntegrableOn f (Set.Ico 0 1)) :
    |avg f (stratified1d r st n jitter).1 - ∫ x in Set.Ico (0:ℝ) 1, f x| ≤ L / n := by
  have hn' : (0 : ℝ) < n := by exact_mod_cast hn
  have hL0 : 0 ≤ L := by
    have := hL 0 (by norm_num) 1 (by norm_num)
    have h0 := abs_nonneg (f 0 - f 1)
    norm_num at this
    linarith
  rw [list_sum_of f _ n (fun k => cell n k (if jitter then r.draw (st.d + k) else 1 / 2)) (stratified1d_length _ _ _ _)
    (fun k hk => stratified1d_getElem? _ _ _ _ _ hk)]
  have hs := cell_sum (cells_unit n) hf
  have hI : ∫ x in Set.Ico (0:ℝ) 1, f x = (∑ k ∈ Finset.range n, ∫ x, f x ∂(unif.map (cell n k))) / n := by
    rw [hs]; field_simp; rfl
  rw [hI, ← sub_div, ← Finset.sum_sub_distrib, abs_div, abs_of_pos hn', div_le_div_iff_of_pos_right hn']
  refine (Finset.abs_sum_le_sum_abs _ _).trans ?_
  have key : ∀ k ∈ Finset.range n, |f (cell n k (if jitter then r.draw (st.d + k) else 1 / 2)) - ∫ x, f x ∂(unif.map (cell n k))| ≤ L / n := by
    intro k hk
    have hk := Finset.mem_range.1 hk
    have hk' : (k : ℝ) + 1 ≤ n := by exact_mod_cast hk
    have hu := offset_unit r hr jitter (st.d + k)
    set u := (if jitter then r.draw (st.d + k) else (1 / 2 : ℝ))
    have hi := cell_integrable (cells_unit n) hk hf
    have hcm : ∫ x, f x ∂(unif.map (cell n k)) = ∫ v, f (cell n k v) ∂unif := integral_map (cell_meas n k).aemeasurable hi.aestronglyMeasurable
    have hic : Integrable (fun v => f (cell n k v)) unif := hi.comp_measurable (cell_meas n k)
    have hconst : f (cell n k u) = ∫ v, f (cell n k u) ∂unif := by simp
    have hmem : ∀ v : ℝ, 0 ≤ v → v < 1 → cell n k v ∈ Set.Icc (0:ℝ) 1 := by
      intro v h0 h1
      refine ⟨by unfold cell; positivity, ?_⟩
      unfold cell
      rw [div_le_one hn']; linarith
    rw [hcm, hconst, ← integral_sub (integrable_const _) hic]
    have hb : ∀ᵐ v ∂unif, ‖f (cell n k u) - f (cell n k v)‖ ≤ L / n := by
      refine (ae_restrict_iff' measurableSet_Ico).2 (Filter.Eventually.of_forall fun v hv => ?_)
      refine (hL _ (hmem u hu.1 hu.2) _ (hmem v hv.1 hv.2)).trans ?_
      rw [div_eq_mul_inv]
      refine mul_le_mul_of_nonneg_left ?_ hL0
      have : cell n k u - cell n k v = (u - v) * (n : ℝ)⁻¹ := by unfold cell; ring
      rw [this, abs_mul, abs_of_pos (inv_pos.2 hn')]
      have h1 : |u - v| ≤ 1 := by rw [abs_le]; constructor <;> linarith [hu.1, hu.2, hv.1, hv.2]
      exact mul_le_of_le_one_left (inv_pos.2 hn').le h1
    have := norm_integral_le_of_norm_le_const hb
    simpa using this
  refine (Finset.sum_le_sum key).trans ?_
  rw [Finset.sum_const, Finset.card_range, nsmul_eq_mul]
  field_simp
  exact le_refl _

/-! #### The assumptions can be met -/

/-- there is such a source of draws -/
example : ∃ (P : Measure (ℕ → ℝ)) (_ : IsProbabilityMeasure P), Uniform P fun k ω => ω k := by
  refine ⟨Measure.infinitePi fun _ => unif, inferInstance, fun k => measurable_pi_apply k, fun k => ?_, ?_⟩
  · exact (measurePreserving_eval_infinitePi (fun _ : ℕ => unif) k).map_eq
  · exact iIndepFun_infinitePi (fun _ => measurable_id)

end Verif.Sampler.Unbiased
