import Verif.Shape.LoopPos

/-!
# From scene parameters to a subdivision surface (`pytracer/shape/loopsubdiv.py`): property C179

`create_loop_subdiv` (lines 19-44) and the constructor it calls (lines 195-247), for arbitrary lists of indices and coordinates.  Exact real arithmetic (no arithmetic
happens here except the conversion of the coordinates to floats, which is not modelled).
-/

namespace Verif.Loop

/-! ### Model -/

/-- the entries of `params` that `create_loop_subdiv` looks at; `none`: the key is missing (`loopsubdiv.py:21-23`) -/
structure SubdivParams where
  nlevels : Option ℤ
  indices : Option (List ℤ)
  P : Option (List ℝ)

/-- what a call of `create_loop_subdiv` can come to -/
inductive Made where
  /-- it returns `None` -/
  | nothing
  /-- an index is outside the list of vertices: `IndexError` -/
  | indexError
  /-- a vertex is in no face: `startFace` is `None`, `None.next_face` raises `AttributeError` -/
  | attributeError
  /-- the walk around a vertex does not return (or raises) -/
  | stuck
  /-- a `LoopSubdiv` with these vertices, faces and number of levels -/
  | shape (nv nf : ℕ) (S : SD (Fin nv) (Fin nf)) (levels : ℤ)

/-- Python's `l[i]` on a list of `n` entries: negative indices count from the end -/
def pyPos (n : ℕ) (i : ℤ) : Option (Fin n) :=
  if h : 0 ≤ i ∧ i < n then some ⟨i.toNat, by omega⟩
  else if h : i < 0 ∧ -n ≤ i then some ⟨(i + n).toNat, by omega⟩
  else none

/-- `self.vertices[vi[t]]` (`loopsubdiv.py:208`) -/
def cornerAt (nv : ℕ) (vi : List ℤ) (t : ℕ) : Option (Fin nv) := (vi[t]?).bind (pyPos nv)

/-- the loop over the vertices that sets the flags (`loopsubdiv.py:232-247`); `some` is what goes wrong -/
def finishVerts {V F : Type*} [DecidableEq V] [DecidableEq F] (v : F → Fin 3 → V) (faces : List F) : List V → Option Made
  | [] => none
  | x :: xs =>
    match startFace v faces x with
    | none => some .attributeError
    | some a =>
      match ctorFlags (link v faces) faces.length x a with
      | none => some .stuck
      | some _ => finishVerts v faces xs

/-- the constructor (`loopsubdiv.py:195-247`) for `nf` faces, `nv` vertices, indices `vi` and positions `p` -/
noncomputable def construct (nf nv : ℕ) (vi : List ℤ) (p : Fin nv → V3 ℝ) (levels : ℤ) : Made :=
  if h : ∀ (a : Fin nf) (k : Fin 3), (cornerAt nv vi (3 * a + k)).isSome then
    let v : Fin nf → Fin 3 → Fin nv := fun a k => (cornerAt nv vi (3 * a + k)).get (h a k)
    match finishVerts v (List.finRange nf) (List.finRange nv) with
    | some bad => bad
    | none => .shape nv nf (SD.init v (List.finRange nf) (List.finRange nv) p) levels
  else .indexError

/-- `p[cnt] = geo.Point(P[i], P[i+1], P[i+2])` with `i = 3 * cnt` (`loopsubdiv.py:38-42`) -/
noncomputable def pointAt (P : List ℝ) (n : ℕ) : V3 ℝ := ⟨P.getD (3 * n) 0, P.getD (3 * n + 1) 0, P.getD (3 * n + 2) 0⟩

/-- `create_loop_subdiv` (`loopsubdiv.py:19-44`) -/
noncomputable def createLoopSubdiv (q : SubdivParams) : Made :=
  let nlevels := q.nlevels.getD 3
  match q.indices, q.P with
  | some vi, some P =>
    if ¬ P.length % 3 = 0 then .nothing
    else if ¬ vi.length % 3 = 0 then .nothing
    else construct (vi.length / 3) (P.length / 3) vi (fun i => pointAt P i) nlevels
  | _, _ => .nothing

/-! ### Specification -/

/-- index `i` names vertex number `j` of `n`: counted from the start, or, if negative, from the end -/
def Names (n : ℕ) (i : ℤ) (j : ℕ) : Prop := j < n ∧ (i = j ∨ i = (j : ℤ) - n)

/-- `vi` is the flat list of the faces `v`, three corners each -/
def FlatFaces {nv nf : ℕ} (vi : List ℤ) (v : Fin nf → Fin 3 → Fin nv) : Prop :=
  vi.length = 3 * nf ∧ ∀ (a : Fin nf) (k : Fin 3), ∃ i, vi[3 * (a : ℕ) + (k : ℕ)]? = some i ∧ Names nv i (v a k)

/-- `P` is the flat list of the points `p`, three coordinates each -/
def FlatPoints {nv : ℕ} (P : List ℝ) (p : Fin nv → V3 ℝ) : Prop :=
  P.length = 3 * nv ∧ ∀ j : Fin nv, P[3 * (j : ℕ)]? = some (p j).x ∧ P[3 * (j : ℕ) + 1]? = some (p j).y ∧ P[3 * (j : ℕ) + 2]? = some (p j).z

/-! ### Lemmas -/

theorem pyPos_iff (n : ℕ) (i : ℤ) (j : Fin n) : pyPos n i = some j ↔ Names n i j := by
  have hj := j.2
  unfold pyPos Names
  split_ifs with h1 h2
  · simp only [Option.some.injEq, Fin.ext_iff]; omega
  · simp only [Option.some.injEq, Fin.ext_iff]; omega
  · simp only [false_iff]; omega

theorem pyPos_none (n : ℕ) (i : ℤ) : pyPos n i = none ↔ i < -n ∨ (n : ℤ) ≤ i := by
  unfold pyPos
  split_ifs with h1 h2
  · simp only [false_iff]; omega
  · simp only [false_iff]; omega
  · simp only [true_iff]; omega

theorem flat_cornerAt {nv nf : ℕ} {vi : List ℤ} {v : Fin nf → Fin 3 → Fin nv} (h : FlatFaces vi v) (a : Fin nf) (k : Fin 3) :
    cornerAt nv vi (3 * a + k) = some (v a k) := by
  obtain ⟨i, h1, h2⟩ := h.2 a k
  rw [cornerAt, h1, Option.bind_some, pyPos_iff]; exact h2

theorem finish_none {V F : Type*} [DecidableEq V] [DecidableEq F] (v : F → Fin 3 → V) (faces : List F) (xs : List V) :
    finishVerts v faces xs = none ↔ ∀ x ∈ xs, ∃ a, startFace v faces x = some a ∧ (ctorFlags (link v faces) faces.length x a).isSome := by
  induction xs with
  | nil => simp [finishVerts]
  | cons x xs ih =>
    simp only [finishVerts, List.mem_cons, forall_eq_or_imp]
    cases h : startFace v faces x with
    | none => simp
    | some a =>
      cases h2 : ctorFlags (link v faces) faces.length x a with
      | none => simp [h2]
      | some b => simp [ih, h2]

theorem startFace_none {V F : Type*} [DecidableEq V] (v : F → Fin 3 → V) (faces : List F) (x : V) (h : ∀ a k, v a k ≠ x) : startFace v faces x = none := by
  unfold startFace
  have key : ∀ l : List F, l.foldl (fun acc a => if v a 0 = x ∨ v a 1 = x ∨ v a 2 = x then some a else acc) none = none := by
    intro l
    induction l with
    | nil => rfl
    | cons a l ih =>
      rw [List.foldl_cons, if_neg]
      · exact ih
      · rintro (e | e | e)
        · exact h a 0 e
        · exact h a 1 e
        · exact h a 2 e
  exact key faces

theorem finish_cases {V F : Type*} [DecidableEq V] [DecidableEq F] (v : F → Fin 3 → V) (faces : List F) (xs : List V) :
    finishVerts v faces xs = none ∨ finishVerts v faces xs = some .attributeError ∨ finishVerts v faces xs = some .stuck := by
  induction xs with
  | nil => exact Or.inl rfl
  | cons x xs ih =>
    simp only [finishVerts]
    split
    · simp
    · split
      · simp
      · exact ih

theorem construct_eq {nv nf : ℕ} {vi : List ℤ} {v : Fin nf → Fin 3 → Fin nv} (h : FlatFaces vi v) (p : Fin nv → V3 ℝ) (levels : ℤ) :
    construct nf nv vi p levels = match finishVerts v (List.finRange nf) (List.finRange nv) with
      | some bad => bad
      | none => .shape nv nf (SD.init v (List.finRange nf) (List.finRange nv) p) levels := by
  have h0 : ∀ (a : Fin nf) (k : Fin 3), (cornerAt nv vi (3 * a + k)).isSome := fun a k => by rw [flat_cornerAt h]; rfl
  have e : (fun (a : Fin nf) (k : Fin 3) => (cornerAt nv vi (3 * a + k)).get (h0 a k)) = v := by
    funext a k
    exact Option.some.inj (by rw [Option.some_get, flat_cornerAt h])
  rw [construct, dif_pos h0]
  simp only [e]

theorem flatPoints_at (P : List ℝ) (h : P.length % 3 = 0) : FlatPoints P (fun j : Fin (P.length / 3) => pointAt P j) := by
  refine ⟨by omega, fun j => ?_⟩
  have hj := j.2
  have g : ∀ t, t < P.length → P[t]? = some (P.getD t 0) := fun t ht => by
    rw [List.getD_eq_getElem?_getD, List.getElem?_eq_getElem ht]; rfl
  exact ⟨g _ (by omega), g _ (by omega), g _ (by omega)⟩

theorem flatPoints_eq {nv : ℕ} {P : List ℝ} {p : Fin nv → V3 ℝ} (h : FlatPoints P p) (j : Fin nv) : pointAt P j = p j := by
  obtain ⟨a, b, c⟩ := h.2 j
  simp only [pointAt, List.getD_eq_getElem?_getD, a, b, c, Option.getD_some]

/-! ### Theorems -/

/-- **C179** `None` comes back exactly if one of the two lists is missing or has a length that is not a multiple of three. -/
theorem C179_none (q : SubdivParams) : createLoopSubdiv q = .nothing ↔
    q.indices = none ∨ q.P = none ∨ (∃ vi, q.indices = some vi ∧ ¬ 3 ∣ vi.length) ∨ ∃ P, q.P = some P ∧ ¬ 3 ∣ P.length := by
  obtain ⟨lv, vi, P⟩ := q
  cases vi with
  | none => simp [createLoopSubdiv]
  | some vi =>
    cases P with
    | none => simp [createLoopSubdiv]
    | some P =>
      simp only [createLoopSubdiv, reduceCtorEq, false_or, Option.some.injEq, exists_eq_left', Nat.dvd_iff_mod_eq_zero]
      by_cases h1 : P.length % 3 = 0
      swap
      · simp [h1]
      by_cases h2 : vi.length % 3 = 0
      swap
      · simp [h1, h2]
      · simp only [h1, h2, not_true_eq_false, or_self, iff_false, if_false]
        unfold construct
        split_ifs with h
        · rcases finish_cases (fun (a : Fin (vi.length / 3)) (k : Fin 3) => (cornerAt (P.length / 3) vi (3 * a + k)).get (h a k)) (List.finRange (vi.length / 3)) (List.finRange (P.length / 3)) with e | e | e <;>
            simp only [e] <;> simp
        · simp

/-- **C179** the surface that is made has exactly the vertices and faces the lists describe: vertex `j` is at the point given by entries `3j` to `3j+2` of `P`, corner `k` of
face `a` is the vertex that entry `3a+k` of the indices names; the number of levels is the one given, or 3. -/
theorem C179_surface (q : SubdivParams) (nv nf : ℕ) (S : SD (Fin nv) (Fin nf)) (levels : ℤ) (h : createLoopSubdiv q = .shape nv nf S levels) :
    ∃ vi P, q.indices = some vi ∧ q.P = some P ∧ FlatFaces vi S.m.v ∧ FlatPoints P S.P ∧ levels = q.nlevels.getD 3 ∧
      (∀ a, a ∈ S.faces) ∧ S.faces.Nodup ∧ (∀ j, j ∈ S.verts) ∧ S.verts.Nodup ∧ ∀ j, ∃ a k, S.m.v a k = j := by
  obtain ⟨lv, vi, P⟩ := q
  cases vi with
  | none => simp [createLoopSubdiv] at h
  | some vi =>
    cases P with
    | none => simp [createLoopSubdiv] at h
    | some P =>
      refine ⟨vi, P, rfl, rfl, ?_⟩
      simp only [createLoopSubdiv] at h
      split_ifs at h with h1 h2
      unfold construct at h
      split_ifs at h with hc
      simp only at h
      have hn := finish_none (fun (a : Fin (vi.length / 3)) (k : Fin 3) => (cornerAt (P.length / 3) vi (3 * a + k)).get (hc a k)) (List.finRange (vi.length / 3)) (List.finRange (P.length / 3))
      rcases hfin : finishVerts (fun (a : Fin (vi.length / 3)) (k : Fin 3) => (cornerAt (P.length / 3) vi (3 * a + k)).get (hc a k)) (List.finRange (vi.length / 3)) (List.finRange (P.length / 3)) with _ | bad
      · rw [hfin] at h
        simp only [Made.shape.injEq] at h
        obtain ⟨rfl, rfl, hS, rfl⟩ := h
        have hS := eq_of_heq hS
        subst hS
        refine ⟨⟨by omega, fun a k => ?_⟩, flatPoints_at P h1, rfl, fun a => List.mem_finRange a, List.nodup_finRange _, fun j => List.mem_finRange j, List.nodup_finRange _, fun j => ?_⟩
        · have ha := a.2
          have hk := k.2
          have hlt : 3 * (a : ℕ) + k < vi.length := by omega
          refine ⟨vi[3 * (a : ℕ) + k], List.getElem?_eq_getElem hlt, (pyPos_iff _ _ _).1 ?_⟩
          have : cornerAt (P.length / 3) vi (3 * a + k) = pyPos (P.length / 3) vi[3 * (a : ℕ) + k] := by
            rw [cornerAt, List.getElem?_eq_getElem hlt, Option.bind_some]
          rw [← this]
          exact (Option.some_get _).symm
        · obtain ⟨a, ha, -⟩ := hn.1 hfin j (List.mem_finRange j)
          obtain ⟨⟨k, hk⟩, -⟩ := startFace_on (link (fun (a : Fin (vi.length / 3)) (k : Fin 3) => (cornerAt (P.length / 3) vi (3 * a + k)).get (hc a k)) (List.finRange (vi.length / 3))) _ j a ha
          exact ⟨a, k, hk⟩
      · rw [hfin] at h
        rcases finish_cases (fun (a : Fin (vi.length / 3)) (k : Fin 3) => (cornerAt (P.length / 3) vi (3 * a + k)).get (hc a k)) (List.finRange (vi.length / 3)) (List.finRange (P.length / 3)) with e | e | e <;> rw [hfin] at e
        · simp at e
        · obtain rfl := Option.some.inj e; simp at h
        · obtain rfl := Option.some.inj e; simp at h

/-- **C179** every flat description of a manifold mesh in which each vertex is used gives a surface, in the sane state that the theorems on refinement start from (`Good`). -/
theorem C179_manifold {nv nf : ℕ} (vi : List ℤ) (P : List ℝ) (v : Fin nf → Fin 3 → Fin nv) (p : Fin nv → V3 ℝ) (hf : FlatFaces vi v) (hp : FlatPoints P p)
    (hm : Manifold (link v (List.finRange nf))) (hu : ∀ j, ∃ a k, v a k = j) (lv : Option ℤ) :
    ∃ S : SD (Fin nv) (Fin nf), createLoopSubdiv ⟨lv, some vi, some P⟩ = .shape nv nf S (lv.getD 3) ∧ Good S ∧ S.m.v = v ∧ S.P = p := by
  have hg := C93_init_good v (List.finRange nf) (List.finRange nv) p (List.nodup_finRange _) (fun a => List.mem_finRange a) hm
    (fun x => ⟨fun _ => hu x, fun _ => List.mem_finRange x⟩)
  refine ⟨_, ?_, hg, rfl, rfl⟩
  have e1 : vi.length / 3 = nf := by rw [hf.1]; omega
  have e2 : P.length / 3 = nv := by rw [hp.1]; omega
  simp only [createLoopSubdiv]
  rw [if_neg (by rw [hp.1]; omega), if_neg (by rw [hf.1]; omega)]
  subst e1 e2
  rw [construct_eq hf]
  have hn : finishVerts v (List.finRange (vi.length / 3)) (List.finRange (P.length / 3)) = none := by
    rw [finish_none]
    intro x hx
    obtain ⟨a, h1, -, h3⟩ := hg.start x hx
    exact ⟨a, h1, by
      change (ctorFlags (SD.init v (List.finRange (vi.length / 3)) (List.finRange (P.length / 3)) p).m
        (SD.init v (List.finRange (vi.length / 3)) (List.finRange (P.length / 3)) p).fuel x a).isSome
      rw [h3]; rfl⟩
  rw [hn]
  have : (fun i : Fin (P.length / 3) => pointAt P i) = p := funext fun j => flatPoints_eq hp j
  simp only [this]

/-- **C179** an index below `-n` or not below `n`, `n` the number of points, makes the constructor raise `IndexError`; indices from `-n` to `-1` are accepted and count from the
end of the list of points. -/
theorem C179_bad_index (q : SubdivParams) (vi : List ℤ) (P : List ℝ) (h1 : q.indices = some vi) (h2 : q.P = some P) (d1 : 3 ∣ vi.length) (d2 : 3 ∣ P.length) :
    createLoopSubdiv q = .indexError ↔ ∃ i ∈ vi, i < -((P.length / 3 : ℕ) : ℤ) ∨ ((P.length / 3 : ℕ) : ℤ) ≤ i := by
  obtain ⟨lv, vi', P'⟩ := q
  obtain rfl : vi' = some vi := h1
  obtain rfl : P' = some P := h2
  simp only [createLoopSubdiv]
  rw [if_neg (by omega), if_neg (by omega)]
  unfold construct
  have hb : (∀ (a : Fin (vi.length / 3)) (k : Fin 3), (cornerAt (P.length / 3) vi (3 * a + k)).isSome) ↔
      ¬ ∃ i ∈ vi, i < -((P.length / 3 : ℕ) : ℤ) ∨ ((P.length / 3 : ℕ) : ℤ) ≤ i := by
    constructor
    · rintro h ⟨i, hi, hbad⟩
      obtain ⟨t, ht, rfl⟩ := List.getElem_of_mem hi
      have := h ⟨t / 3, by omega⟩ ⟨t % 3, by omega⟩
      simp only [Nat.div_add_mod, cornerAt, List.getElem?_eq_getElem ht, Option.bind_some] at this
      rw [(pyPos_none _ _).2 hbad] at this
      simp at this
    · intro h a k
      have ha := a.2
      have hk := k.2
      have hlt : 3 * (a : ℕ) + k < vi.length := by omega
      rw [cornerAt, List.getElem?_eq_getElem hlt, Option.bind_some, ← Option.ne_none_iff_isSome]
      intro hc
      exact h ⟨_, List.getElem_mem hlt, (pyPos_none _ _).1 hc⟩
  split_ifs with hc
  · rw [hb] at hc
    simp only [hc, iff_false]
    rcases finish_cases (fun (a : Fin (vi.length / 3)) (k : Fin 3) => (cornerAt (P.length / 3) vi (3 * a + k)).get ((hb.2 hc) a k)) (List.finRange (vi.length / 3)) (List.finRange (P.length / 3)) with e | e | e <;>
      simp only [e] <;> simp
  · rw [hb, not_not] at hc
    exact ⟨fun _ => hc, fun _ => rfl⟩

/-- **C179** (violated) a point that no face uses is harmless for a mesh, but here it makes the constructor raise (or hang at an earlier vertex): no surface comes back. -/
theorem C179_unused_point_false (q : SubdivParams) (vi : List ℤ) (P : List ℝ) (h1 : q.indices = some vi) (h2 : q.P = some P)
    (j : ℕ) (hj : 3 * j + 2 < P.length) (hu : ∀ i ∈ vi, ¬ Names (P.length / 3) i j) : ∀ nv nf S lv, createLoopSubdiv q ≠ .shape nv nf S lv := by
  intro nv nf S lv hc
  obtain ⟨vi', P', e1, e2, h3, h4, -, -, -, -, -, h5⟩ := C179_surface q nv nf S lv hc
  obtain rfl := Option.some.inj (h1.symm.trans e1)
  obtain rfl := Option.some.inj (h2.symm.trans e2)
  have hnv : P.length / 3 = nv := by rw [h4.1]; omega
  have hjn : j < nv := by rw [h4.1] at hj; omega
  obtain ⟨a, k, hak⟩ := h5 ⟨j, hjn⟩
  obtain ⟨i, hi, hn⟩ := h3.2 a k
  rw [hak] at hn
  exact hu i (List.mem_of_getElem? hi) (by rw [hnv]; exact hn)

/-- a tetrahedron as a scene file gives it -/
def tetraIndices : List ℤ := [0, 1, 2, 0, 2, 3, 0, 3, 1, 3, 2, -3]

/-- the hypotheses are met: the tetrahedron, the last index counted from the end -/
example : FlatFaces tetraIndices tetra ∧ FlatPoints [0, 0, 0, 1, 0, 0, 0, 1, 0, 0, 0, 1] (![⟨0, 0, 0⟩, ⟨1, 0, 0⟩, ⟨0, 1, 0⟩, ⟨0, 0, 1⟩] : Fin 4 → V3 ℝ) ∧
    Manifold (link tetra (List.finRange 4)) ∧ ∀ j, ∃ a k, tetra a k = j := by
  refine ⟨⟨rfl, fun a k => ?_⟩, ⟨rfl, fun j => ?_⟩, tetra_manifold, by decide⟩
  · fin_cases a <;> fin_cases k <;> exact ⟨_, rfl, by decide, by decide⟩
  · fin_cases j <;> exact ⟨rfl, rfl, rfl⟩

end Verif.Loop
