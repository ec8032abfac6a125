import Verif.Volume.Volume
import Verif.Scene.Scene

/-!
# Where volumes are (C170)

`world_bound` of the volume regions and of their aggregate (`pytracer/volume/volume.py:124-136, 328-329, 344-348, 386-388`).  The regions are those of `Volume/Volume.lean`.
-/
namespace Verif.Volume
set_option linter.unusedSimpArgs false
open Verif V3 Verif.Geom Verif.Xform Verif.MC
open Verif.Agg (pyMin pyMax)

/-! ### Model -/

/-- `HomogeneousVolumeDensity.__init__` (volume.py 124-132): the transform given leads from the region to the world -/
def Homog.make (sigA sigS g le : ℝ) (extent : BBox ℝ) (v2w : Transform ℝ) : Homog := ⟨sigA, sigS, g, le, extent, v2w.inverse⟩

/-- `HomogeneousVolumeDensity.world_bound` (volume.py 135-136) -/
noncomputable def Homog.worldBound (h : Homog) : BBox ℝ := h.w2v.inverse.box h.extent

/-- `ExponentialDensity.__init__` (volume.py 176-183, 313-319) with `__call__` and `intersect_p` (322-326, 332-334; the transformed ray is not used) in the fields of a `DensityRegion` -/
noncomputable def Expo.make (e : Expo) (sigA sigS g le : ℝ) (v2w : Transform ℝ) : Dens :=
  ⟨sigA, sigS, g, le, v2w.inverse, e.dens, BBox.intersectP (finBox e.extent)⟩

/-- `ExponentialDensity.world_bound` (volume.py 328-329) of the region `d` with box `extent` -/
noncomputable def Dens.worldBound (d : Dens) (extent : BBox ℝ) : BBox ℝ := d.w2v.inverse.box extent

/-- `BBox()` (geometry/__init__.py, default arguments): the empty box -/
def emptyBox : BBox (F ℝ) := ⟨⟨.pinf, .pinf, .pinf⟩, ⟨.ninf, .ninf, .ninf⟩⟩

/-- `AggregateVolume.__init__` and `world_bound` (volume.py 344-348, 386-388), given the regions' bounds -/
noncomputable def aggBound (bounds : List (BBox ℝ)) : BBox (F ℝ) := bounds.foldl Scene.unionF emptyBox

/-! ### Specification -/

/-- a placement without rotation or reflection: points keep their order along every axis -/
structure Upright (v2w : Transform ℝ) : Prop where
  affine : AffineM v2w.m
  inv : HasInv v2w
  order : ∀ i j : Fin 4, i ≠ 3 → j ≠ 3 → 0 ≤ v2w.m i j

/-- the region absorbs, scatters or emits at the point -/
def Homog.Acts (h : Homog) (p : V3 ℝ) : Prop := h.sigmaA p ≠ 0 ∨ h.sigmaS p ≠ 0 ∨ h.sigmaT p ≠ 0 ∨ h.lve p ≠ 0 ∨ ∃ wi wo tm, h.p p wi wo tm ≠ 0

/-- the region absorbs, scatters or emits at the point -/
def Dens.Acts (d : Dens) (p : V3 ℝ) : Prop := d.sigmaA p ≠ 0 ∨ d.sigmaS p ≠ 0 ∨ d.sigmaT p ≠ 0 ∨ d.lve p ≠ 0

/-! ### Theorems -/

theorem placed {v2w : Transform ℝ} (hv : Upright v2w) {b : BBox ℝ} (hb : BBox.Proper b) {p : V3 ℝ} (h : BBox.Mem (v2w.inverse.pt p) b) :
    BBox.Mem p (v2w.inverse.inverse.box b) := by
  have := C11_box_conservative_partial v2w hv.affine hv.order b hb _ h
  rwa [(C08_inverse_undoes v2w hv.affine hv.inv p).2.1] at this

/-- **C170 (part)** a homogeneous region that is placed without rotation or reflection acts only inside its world bound.  Missing: other placements (`C170_mirrored_false`). -/
theorem C170_homogeneous_partial (sigA sigS g le : ℝ) (extent : BBox ℝ) (hb : BBox.Proper extent) (v2w : Transform ℝ) (hv : Upright v2w) (p : V3 ℝ)
    (h : (Homog.make sigA sigS g le extent v2w).Acts p) : BBox.Mem p (Homog.make sigA sigS g le extent v2w).worldBound := by
  apply placed hv hb
  by_contra hn
  have hi : ¬ BBox.inside extent (v2w.inverse.pt p) = true := fun hh => hn ((BBox.C04_inside_iff _ _).1 hh)
  rcases h with h | h | h | h | ⟨wi, wo, tm, h⟩ <;> apply h
  · exact if_neg hi
  · exact if_neg hi
  · exact if_neg hi
  · exact if_neg hi
  · exact if_pos hi

/-- **C170 (part)** the same for exponential densities -/
theorem C170_exponential_partial (e : Expo) (sigA sigS g le : ℝ) (hb : BBox.Proper e.extent) (v2w : Transform ℝ) (hv : Upright v2w) (p : V3 ℝ)
    (h : (e.make sigA sigS g le v2w).Acts p) : BBox.Mem p ((e.make sigA sigS g le v2w).worldBound e.extent) := by
  apply placed hv hb
  by_contra hn
  have h0 : e.dens (v2w.inverse.pt p) = 0 := (C110_exponential e _).1 hn
  obtain ⟨a, b, c, d⟩ := (C110_density (e.make sigA sigS g le v2w) p).2.1 h0
  rcases h with h | h | h | h
  · exact h a
  · exact h b
  · exact h c
  · exact h d

/-- **C170** the bound of an aggregate is the smallest box that holds the bounds of its regions -/
theorem C170_aggregate (bounds : List (BBox ℝ)) (c : BBox ℝ) : Scene.FSub (aggBound bounds) c ↔ ∀ b ∈ bounds, BBox.Sub b c := by
  have : ∀ (l : List (BBox ℝ)) (b : BBox (F ℝ)), Scene.FSub (l.foldl Scene.unionF b) c ↔ Scene.FSub b c ∧ ∀ v ∈ l, BBox.Sub v c := by
    intro l
    induction l with
    | nil => simp
    | cons v l ih => intro b; rw [List.foldl_cons, ih, Scene.fsub_union]; simp [and_assoc]
  rw [aggBound, this]
  simp [Scene.FSub, emptyBox, F.le]

theorem union_grows (b : BBox (F ℝ)) (v : BBox ℝ) (p : V3 ℝ) (h : BBox.InBox b p ∨ BBox.Mem p v) (hn : b.pMin.x ≠ .nan ∧ b.pMin.y ≠ .nan ∧ b.pMin.z ≠ .nan ∧
    b.pMax.x ≠ .nan ∧ b.pMax.y ≠ .nan ∧ b.pMax.z ≠ .nan) : BBox.InBox (Scene.unionF b v) p := by
  have e1 : ∀ (x v : ℝ) (b : F ℝ), b ≠ .nan → F.le b (.fin x) = true ∨ v ≤ x → F.le (pyMin b (.fin v)) (.fin x) = true := by
    intro x v b hb h
    unfold pyMin
    cases b <;> simp_all [F.le, F.lt]
    split_ifs <;> simp_all [F.le] <;> rcases h with h | h <;> linarith
  have e2 : ∀ (x v : ℝ) (b : F ℝ), b ≠ .nan → F.le (.fin x) b = true ∨ x ≤ v → F.le (.fin x) (pyMax b (.fin v)) = true := by
    intro x v b hb h
    unfold pyMax
    cases b <;> simp_all [F.le, F.lt, F.gt]
    split_ifs <;> simp_all [F.le] <;> rcases h with h | h <;> linarith
  obtain ⟨n1, n2, n3, n4, n5, n6⟩ := hn
  rcases h with ⟨⟨a1, a2⟩, ⟨a3, a4⟩, a5, a6⟩ | ⟨⟨a1, a2⟩, ⟨a3, a4⟩, a5, a6⟩
  · exact ⟨⟨e1 _ _ _ n1 (Or.inl a1), e2 _ _ _ n4 (Or.inl a2)⟩, ⟨e1 _ _ _ n2 (Or.inl a3), e2 _ _ _ n5 (Or.inl a4)⟩, e1 _ _ _ n3 (Or.inl a5), e2 _ _ _ n6 (Or.inl a6)⟩
  · exact ⟨⟨e1 _ _ _ n1 (Or.inr a1), e2 _ _ _ n4 (Or.inr a2)⟩, ⟨e1 _ _ _ n2 (Or.inr a3), e2 _ _ _ n5 (Or.inr a4)⟩, e1 _ _ _ n3 (Or.inr a5), e2 _ _ _ n6 (Or.inr a6)⟩

theorem pyMin_not_nan (b : F ℝ) (v : ℝ) (h : b ≠ .nan) : pyMin b (.fin v) ≠ .nan := by
  unfold pyMin; split_ifs <;> simp_all
theorem pyMax_not_nan (b : F ℝ) (v : ℝ) (h : b ≠ .nan) : pyMax b (.fin v) ≠ .nan := by
  unfold pyMax; split_ifs <;> simp_all

/-- **C170** every point of a region's bound is in the bound of the aggregate -/
theorem C170_aggregate_holds (bounds : List (BBox ℝ)) (b : BBox ℝ) (hb : b ∈ bounds) (p : V3 ℝ) (h : BBox.Mem p b) : BBox.InBox (aggBound bounds) p := by
  have : ∀ (l : List (BBox ℝ)) (c : BBox (F ℝ)), (c.pMin.x ≠ .nan ∧ c.pMin.y ≠ .nan ∧ c.pMin.z ≠ .nan ∧ c.pMax.x ≠ .nan ∧ c.pMax.y ≠ .nan ∧ c.pMax.z ≠ .nan) →
      (BBox.InBox c p ∨ ∃ b ∈ l, BBox.Mem p b) → BBox.InBox (l.foldl Scene.unionF c) p := by
    intro l
    induction l with
    | nil => intro c _ h; simpa using h
    | cons v l ih =>
      intro c hn h
      rw [List.foldl_cons]
      refine ih _ ⟨pyMin_not_nan _ _ hn.1, pyMin_not_nan _ _ hn.2.1, pyMin_not_nan _ _ hn.2.2.1, pyMax_not_nan _ _ hn.2.2.2.1, pyMax_not_nan _ _ hn.2.2.2.2.1, pyMax_not_nan _ _ hn.2.2.2.2.2⟩ ?_
      rcases h with h | ⟨b, hb, h⟩
      · exact Or.inl (union_grows _ _ _ (Or.inl h) hn)
      · rcases List.mem_cons.1 hb with rfl | hb
        · exact Or.inl (union_grows _ _ _ (Or.inr h) hn)
        · exact Or.inr ⟨b, hb, h⟩
  exact this bounds emptyBox (by simp [emptyBox]) (Or.inr ⟨b, hb, h⟩)

/-- **C170 (part)** a ray that never enters the world bound of a homogeneous region that is not transformed passes through without attenuation.  Missing: transformed regions
(`C170_moved_false`). -/
theorem C170_miss_partial (sigA sigS g le : ℝ) (extent : BBox ℝ) (r : FRay ℝ) (hg : Good extent r)
    (h : ∀ t, BBox.InRange r t → ¬ BBox.Mem (BBox.FRay.at r t) (Homog.make sigA sigS g le extent ident).worldBound) : (Homog.make sigA sigS g le extent ident).tau r = some 0 := by
  have hid : ∀ p, (ident : Transform ℝ).pt p = p := by
    intro p
    rw [pt_affine _ (by simp [AffineM, ident, Matrix.one_apply])]
    ext <;> simp [homog, ident, Matrix.one_apply]
  have hu : Upright (ident : Transform ℝ) := by
    refine ⟨by simp [AffineM, ident, Matrix.one_apply], ⟨Matrix.one_mul _, Matrix.one_mul _⟩, fun i j _ _ => ?_⟩
    simp only [ident, Matrix.one_apply]; split_ifs <;> norm_num
  rcases hit_cases hg with ⟨hn, -⟩ | ⟨s0, s1, h01, -, hin⟩
  · simp only [Homog.tau, Homog.intersectP, Homog.make, hn]
  · exfalso
    have : s0 ∈ Inside extent r := by rw [hin]; exact ⟨le_rfl, h01⟩
    refine h s0 this.1 (placed hu hg.proper ?_)
    rw [show (ident : Transform ℝ).inverse = ident from rfl, hid]
    exact this.2

/-- **C170 is violated** by a mirrored region: the mirror image of the unit box absorbs at (-1, 0, 0), outside its own world bound -/
theorem C170_mirrored_false : ∃ (v2w : Transform ℝ) (p : V3 ℝ), AffineM v2w.m ∧ HasInv v2w ∧ (Homog.make 1 0 0 0 ⟨⟨0, 0, 0⟩, ⟨1, 1, 1⟩⟩ v2w).sigmaA p = 1 ∧
    ¬ BBox.Mem p (Homog.make 1 0 0 0 ⟨⟨0, 0, 0⟩, ⟨1, 1, 1⟩⟩ v2w).worldBound := by
  have ha : AffineM (scale (-1 : ℝ) 1 1).m := by simp [AffineM, scale]
  have hi : HasInv (scale (-1 : ℝ) 1 1) := scale_hasInv _ _ _ (by norm_num) (by norm_num) (by norm_num)
  refine ⟨scale (-1) 1 1, (scale (-1 : ℝ) 1 1).pt ⟨1, 0, 0⟩, ha, hi, ?_, ?_⟩
  · refine if_pos ?_
    simp only [Homog.make]
    rw [(C08_inverse_undoes _ ha hi _).1, BBox.C04_inside_iff]
    norm_num [BBox.Mem]
  · rw [(C08_translate_scale 0 _ 0 _ _ _).2.2.1]
    simp only [Homog.worldBound, Homog.make, show (scale (-1 : ℝ) 1 1).inverse.inverse = scale (-1) 1 1 from rfl, Transform.box, BBox.fromBBox, BBox.ofPoints,
      (C08_translate_scale 0 _ 0 _ _ _).2.2.1, (C08_translate_scale 0 0 _ _ _ _).2.2.2]
    norm_num [BBox.Mem]

/-- **C170 is violated** by a region that has only been moved: a ray that never enters its world bound is attenuated -/
theorem C170_moved_false : ∃ (v2w : Transform ℝ) (r : FRay ℝ), Upright v2w ∧ Good ⟨⟨0, 0, 0⟩, ⟨1, 1, 1⟩⟩ r ∧
    (∀ t, ¬ BBox.Mem (BBox.FRay.at r t) (Homog.make 1 0 0 0 ⟨⟨0, 0, 0⟩, ⟨1, 1, 1⟩⟩ v2w).worldBound) ∧ (Homog.make 1 0 0 0 ⟨⟨0, 0, 0⟩, ⟨1, 1, 1⟩⟩ v2w).tau r = some 1 := by
  refine ⟨translate ⟨0, 10, 0⟩, ⟨⟨0, 1 / 2, 1 / 2⟩, ⟨⟨1, false⟩, ⟨0, false⟩, ⟨0, false⟩⟩, .fin 0, .fin 1⟩, ⟨by simp [AffineM, translate], translate_hasInv _, ?_⟩,
    ⟨by simp [BBox.Proper], by simp, by simp, by simp [BBox.NoGraze, BBox.GrazesNegZero], by simp⟩, ?_, ?_⟩
  · intro i j hi hj
    fin_cases i <;> fin_cases j <;> simp [translate] at hi hj ⊢
  · intro t
    simp only [Homog.worldBound, Homog.make, show (translate (⟨0, 10, 0⟩ : V3 ℝ)).inverse.inverse = translate ⟨0, 10, 0⟩ from rfl, Transform.box, BBox.fromBBox, BBox.ofPoints]
    rw [(C08_translate_scale _ _ 0 1 1 1).1]
    simp only [BBox.Mem, BBox.FRay.at]
    rintro ⟨-, ⟨a, -⟩, -⟩
    norm_num at a
  · simp only [Homog.tau, Homog.intersectP, Homog.make, BBox.intersectP, finBox, BBox.slabAxis, F.subFin, F.divFin, F.fmax, F.fmin, F.gt, F.lt, F.isNan]
    norm_num [length, sqLength, BBox.FRay.at]

/-- the hypotheses are met: a unit box moved and stretched, which absorbs in its middle -/
example : ∃ v2w : Transform ℝ, Upright v2w ∧ (Homog.make 1 2 0 0 ⟨⟨0, 0, 0⟩, ⟨1, 1, 1⟩⟩ v2w).Acts (v2w.pt ⟨1 / 2, 1 / 2, 1 / 2⟩) := by
  refine ⟨translate ⟨1, 2, 3⟩, ⟨by simp [AffineM, translate], translate_hasInv _, ?_⟩, Or.inl ?_⟩
  · intro i j hi hj
    fin_cases i <;> fin_cases j <;> simp [translate] at hi hj ⊢
  · rw [show (Homog.make 1 2 0 0 ⟨⟨0, 0, 0⟩, ⟨1, 1, 1⟩⟩ (translate (⟨1, 2, 3⟩ : V3 ℝ))).sigmaA _ = 1 from if_pos ?_]
    · norm_num
    · simp only [Homog.make]
      rw [(C08_inverse_undoes _ (by simp [AffineM, translate]) (translate_hasInv _) _).1, BBox.C04_inside_iff]
      norm_num [BBox.Mem]

end Verif.Volume
