import Verif.Shape.Triangle
import Verif.MC.Model
import Verif.MC.Props
import Mathlib.Data.List.Basic
import Mathlib.Tactic.IntervalCases
/-!
# Triangle meshes (C43), texture coordinates (C72) and sampling a triangle (C71)

Models `pytracer/shape/triangle.py`: `create_triangle_mesh` 18-103, `TriangleMesh.__init__` 409-435, `refine` 459-463, `Triangle.sample` 146-161,
`Triangle.area` 317-321 and `Shape.pdf` (`shape/__init__.py` 114-120).
-/
set_option linter.unusedSectionVars false
namespace Verif.Shape
open V3

/-- exceptions of the constructor -/
inductive Err | typeError | indexError | runtimeError
deriving DecidableEq, Repr

section
variable {K : Type*} [Field K] [LinearOrder K] [IsStrictOrderedRing K]

/-- `params['P']`: a flat list of coordinates or a list of `Point`s (triangle.py 32) -/
inductive PArg (K : Type*)
  | flat (l : List K)
  | points (l : List (V3 K))

/-- `params['alphatex']` looked up in `txt` (triangle.py 90-96) -/
inductive AlphaArg (K : Type*)
  | absent
  | unknown
  | found (a : Geo K → K)

/-- the parameters; `N` and `S` matter only by their lengths here -/
structure Params (K : Type*) where
  indices : Option (List ℤ)
  P : Option (PArg K)
  uv : Option (List K)
  st : Option (List K)
  discard : Bool
  S : Option ℕ
  N : Option ℕ
  alphatex : AlphaArg K

/-- triangle.py 38-40: consecutive triples become points -/
def toPts : List K → List (V3 K)
  | a :: b :: c :: r => ⟨a, b, c⟩ :: toPts r
  | _ => []

/-- the loop of triangle.py 72-82: True if the texture coordinates are to be discarded; `none` is an `IndexError`.  The test `area < EPS` is made on squares; all six
texture values are read (the `or` of lines 76-78 may skip some, but none of these reads can fail once the three points exist, by line 49). -/
def degenerateUv (P : List (V3 K)) (uvs : List K) : List ℤ → Option Bool
  | a :: b :: c :: r =>
    match pyGet P a, pyGet P b, pyGet P c with
    | some pa, some pb, some pc =>
      let n := cross (pa - pb) (pc - pb)
      if 1 / 4 * sqLength n < (1 / 100000) * (1 / 100000) then degenerateUv P uvs r
      else
        match pyGet uvs (2 * a), pyGet uvs (2 * a + 1), pyGet uvs (2 * b), pyGet uvs (2 * b + 1), pyGet uvs (2 * c), pyGet uvs (2 * c + 1) with
        | some ua, some va, some ub, some vb, some uc, some vc =>
          if (ua = ub ∧ va = vb) ∨ (ub = uc ∧ vb = vc) ∨ (uc = ua ∧ vc = va) then some true else degenerateUv P uvs r
        | _, _, _, _, _, _ => none
    | _, _, _ => none
  | _ => some false

/-- triangle.py 32-43: the vertices, as points -/
def vertices : PArg K → Except Err (List (V3 K))
  | .flat l => if l = [] then .error .indexError else if l.length % 3 ≠ 0 then .error .runtimeError else .ok (toPts l)
  | .points l => if l = [] then .error .indexError else .ok l

/-- triangle.py 67-84: the texture coordinates that are kept; `none` is an `IndexError` -/
def keepUv (q : Params K) (P : List (V3 K)) (vi : List ℤ) (uvs : Option (List K)) : Option (Option (List K)) :=
  if q.discard = true ∧ q.N.isSome = true then
    (match uvs with
     | some l => (degenerateUv P l vi).map fun d => if d then none else some l
     | none => some none)
  else some uvs

/-- `create_triangle_mesh`, triangle.py 18-103.  `len(None)` and `None[0]` raise `TypeError` (lines 29, 32), so the `return None` of line 58 is
never reached. -/
def create (o2w w2o : V3 K → V3 K) (q : Params K) : Except Err (Mesh K) :=
  let uvs := match q.uv with | some l => some l | none => q.st
  match q.indices with
  | none => .error .typeError
  | some vi =>
    if vi.length % 3 ≠ 0 then .error .runtimeError else
    match q.P with
    | none => .error .typeError
    | some p =>
      match vertices p with
      | .error e => .error e
      | .ok P =>
        if (match uvs with | some l => decide (l.length < 2 * P.length) | none => false) = true then .error .runtimeError else
        if (match q.S with | some n => decide (n ≠ P.length) | none => false) = true then .error .runtimeError else
        if (match q.N with | some n => decide (n ≠ P.length) | none => false) = true then .error .runtimeError else
        match keepUv q P vi uvs with
        | none => .error .indexError
        | some uvs' =>
          if (vi.any fun i => decide (i ≥ (P.length : ℤ))) = true then .error .runtimeError else
          match q.alphatex with
          | .unknown => .error .runtimeError
          | .absent => .ok ⟨vi.length / 3, P.length, vi, P.map o2w, uvs', none, w2o⟩
          | .found a => .ok ⟨vi.length / 3, P.length, vi, P.map o2w, uvs', some a, w2o⟩

/-- `TriangleMesh.refine`, triangle.py 459-463: triangle `i` starts at position `3 * i` of the index list (line 119) -/
def Mesh.refine (m : Mesh K) : List ℕ := (List.range m.ntris).map (3 * ·)

/-- what the created mesh holds -/
structure Created (o2w : V3 K → V3 K) (vi : List ℤ) (P : List (V3 K)) (m : Mesh K) : Prop where
  indices : m.vi = vi
  triangles : vi.length = 3 * m.ntris
  vertices : m.p = P.map o2w
  count : m.nverts = P.length
  inRange : ∀ i ∈ vi, i < P.length

theorem create_ok {o2w w2o : V3 K → V3 K} {q : Params K} {m : Mesh K} (h : create o2w w2o q = .ok m) :
    ∃ vi p P, q.indices = some vi ∧ q.P = some p ∧ vertices p = .ok P ∧ Created o2w vi P m := by
  simp only [create] at h
  split at h
  · cases h
  · rename_i vi hvi
    split at h
    · cases h
    · rename_i h3
      split at h
      · cases h
      · rename_i p hp
        split at h
        · cases h
        · rename_i P hP
          refine ⟨vi, p, P, hvi, hp, hP, ?_⟩
          generalize keepUv q P vi _ = U at h
          cases U with
          | none => simp only at h; split_ifs at h
          | some uvs' =>
            simp only at h
            split_ifs at h with c1 c2 c3 c5
            have hr : ∀ i ∈ vi, i < P.length := by
              intro i hi
              by_contra hlt
              exact c5 (List.any_eq_true.2 ⟨i, hi, by simpa using hlt⟩)
            have ht : vi.length = 3 * (vi.length / 3) := by omega
            split at h
            · cases h
            · cases h; exact ⟨rfl, ht, rfl, rfl, hr⟩
            · cases h; exact ⟨rfl, ht, rfl, rfl, hr⟩

/-- **C43** `refine` yields exactly `ntris` triangles; the `i`-th uses the entries `3i`, `3i + 1`, `3i + 2` of the index list. -/
theorem C43_refine (m : Mesh K) : m.refine.length = m.ntris ∧ ∀ i (hi : i < m.refine.length) (k : ℕ),
    m.vertex m.refine[i] k = (pyGet m.vi ((3 * i + k : ℕ) : ℤ)).bind (pyGet m.p) := by
  refine ⟨by simp [Mesh.refine], fun i hi k => ?_⟩
  simp [Mesh.refine, Mesh.vertex]

/-- **C43** an index that is too large, an index list whose length is no multiple of three, or missing indices or vertices always end in an exception:
no mesh is built. -/
theorem C43_rejects (o2w w2o : V3 K → V3 K) (q : Params K) :
    (q.indices = none → ∃ e, create o2w w2o q = .error e) ∧
    (q.P = none → ∃ e, create o2w w2o q = .error e) ∧
    (∀ vi, q.indices = some vi → vi.length % 3 ≠ 0 → ∃ e, create o2w w2o q = .error e) ∧
    (∀ vi p P, q.indices = some vi → q.P = some p → vertices p = .ok P → (∃ i ∈ vi, (P.length : ℤ) ≤ i) → ∃ e, create o2w w2o q = .error e) := by
  have key : ∀ P : Prop, (∀ m, create o2w w2o q = .ok m → ¬ P) → P → ∃ e, create o2w w2o q = .error e := by
    intro P h hp
    cases hc : create o2w w2o q with
    | error e => exact ⟨e, rfl⟩
    | ok m => exact absurd hp (h m hc)
  refine ⟨key _ ?_, key _ ?_, ?_, ?_⟩
  · intro m hm h
    obtain ⟨vi, p, P, a, _⟩ := create_ok hm
    rw [h] at a; cases a
  · intro m hm h
    obtain ⟨vi, p, P, _, a, _⟩ := create_ok hm
    rw [h] at a; cases a
  · intro vi hvi
    refine key _ ?_
    intro m hm h
    obtain ⟨vi', p, P, a, _, _, c⟩ := create_ok hm
    rw [hvi] at a; cases a
    have := c.triangles
    omega
  · intro vi p P hvi hp hP
    refine key _ ?_
    rintro m hm ⟨i, hi, hle⟩
    obtain ⟨vi', p', P', a, b, c, d⟩ := create_ok hm
    rw [hvi] at a; cases a
    rw [hp] at b; cases b
    rw [hP] at c; cases c
    have := d.inRange i hi
    omega

theorem pyGet_nonneg {α : Type*} (l : List α) (n : ℕ) : pyGet l (n : ℤ) = l[n]? := by simp [pyGet]

/-- **C43 (part)** when the indices are not negative, every triangle of a created mesh refers only to existing vertices: corner `k` of triangle
`j` is the transformed point number `indices[3j + k]`.  Missing: negative indices are accepted, `C43_negative_false`. -/
theorem C43_created_partial (o2w w2o : V3 K → V3 K) (q : Params K) (m : Mesh K) (h : create o2w w2o q = .ok m) :
    ∃ vi p P, q.indices = some vi ∧ q.P = some p ∧ vertices p = .ok P ∧ vi.length = 3 * m.ntris ∧
      ((∀ i ∈ vi, 0 ≤ i) → ∀ j < m.ntris, ∀ k < 3, ∃ (h1 : 3 * j + k < vi.length) (h2 : vi[3 * j + k].toNat < P.length),
        m.vertex (3 * j) k = some (o2w P[vi[3 * j + k].toNat])) := by
  obtain ⟨vi, p, P, a, b, c, d⟩ := create_ok h
  refine ⟨vi, p, P, a, b, c, d.triangles, ?_⟩
  intro hpos j hj k hk
  have ht := d.triangles
  have h1 : 3 * j + k < vi.length := by omega
  have hmem := List.getElem_mem h1
  have h0 := hpos _ hmem
  have hlt := d.inRange _ hmem
  have h2 : vi[3 * j + k].toNat < P.length := by omega
  refine ⟨h1, h2, ?_⟩
  have e1 : pyGet m.vi (((3 * j : ℕ) : ℤ) + (k : ℤ)) = some vi[3 * j + k] := by
    have := pyGet_nonneg m.vi (3 * j + k)
    push_cast at this ⊢
    rw [this, d.indices, List.getElem?_eq_getElem h1]
  have e2 : pyGet m.p vi[3 * j + k] = some (o2w P[vi[3 * j + k].toNat]) := by
    rw [d.vertices, pyGet, if_pos h0]
    simp [h2]
  rw [Mesh.vertex, e1, Option.bind_some, e2]

/-- **C43 is false of the code for negative indices**: they pass the validation.  With `[-4, 0, 1]` and three vertices a mesh is built, and its triangle refers to a vertex that
does not exist (so every intersection test raises `IndexError`). -/
theorem C43_negative_false : ∃ m : Mesh K, create id id ⟨some [-4, 0, 1], some (.points [⟨0, 0, 0⟩, ⟨1, 0, 0⟩, ⟨0, 1, 0⟩]), none, none, false, none, none, .absent⟩ = .ok m ∧
    m.refine = [0] ∧ m.vertex 0 0 = none ∧ ∀ frame r, intersect frame m 0 r = .indexError := by
  refine ⟨⟨1, 3, [-4, 0, 1], [⟨0, 0, 0⟩, ⟨1, 0, 0⟩, ⟨0, 1, 0⟩], none, none, id⟩, by simp [create, vertices, keepUv], rfl, by simp [Mesh.vertex, pyGet], ?_⟩
  intro frame r
  simp [intersect, Mesh.vertex, pyGet]

/-- a well-formed mesh of two triangles sharing an edge -/
example : ∃ m : Mesh ℚ, create id id ⟨some [0, 1, 2, 2, 1, 3], some (.flat [0, 0, 0, 1, 0, 0, 0, 1, 0, 1, 1, 0]), none, none, false, none, none, .absent⟩ = .ok m ∧
    m.ntris = 2 ∧ m.vertex 3 2 = some ⟨1, 1, 0⟩ := by
  exact ⟨⟨2, 4, [0, 1, 2, 2, 1, 3], [⟨0, 0, 0⟩, ⟨1, 0, 0⟩, ⟨0, 1, 0⟩, ⟨1, 1, 0⟩], none, none, id⟩, by simp [create, vertices, toPts, keepUv], rfl, by decide +kernel⟩

/-! ### Validation in full -/

/-- the points a `P` argument stands for: a non-empty list of points, or a non-empty list of `3n` numbers, point `i` being the numbers `3i`, `3i + 1`, `3i + 2` -/
def PointsOf : PArg K → List (V3 K) → Prop
  | .points l, P => l ≠ [] ∧ P = l
  | .flat l, P => l ≠ [] ∧ l.length = 3 * P.length ∧
      ∀ i < P.length, ∃ p, P[i]? = some p ∧ l[3 * i]? = some p.x ∧ l[3 * i + 1]? = some p.y ∧ l[3 * i + 2]? = some p.z

theorem toPts_spec (l : List K) (h : l.length % 3 = 0) (P : List (V3 K)) : toPts l = P ↔ l.length = 3 * P.length ∧
    ∀ i < P.length, ∃ p, P[i]? = some p ∧ l[3 * i]? = some p.x ∧ l[3 * i + 1]? = some p.y ∧ l[3 * i + 2]? = some p.z := by
  induction l using toPts.induct generalizing P with
  | case1 a b c r ih =>
    have hr : r.length % 3 = 0 := by simp only [List.length_cons] at h; omega
    cases P with
    | nil => simp [toPts]
    | cons p P =>
      simp only [toPts, List.cons.injEq, List.length_cons]
      rw [ih hr]
      constructor
      · rintro ⟨rfl, h1, h2⟩
        refine ⟨by omega, ?_⟩
        intro i hi
        cases i with
        | zero => exact ⟨_, rfl, rfl, rfl, rfl⟩
        | succ i => simpa [Nat.mul_add, Nat.add_right_comm _ 3] using h2 i (by omega)
      · rintro ⟨h1, h2⟩
        refine ⟨?_, by omega, ?_⟩
        · obtain ⟨q, e, ex, ey, ez⟩ := h2 0 (by omega)
          simp only [List.getElem?_cons_zero, Option.some.injEq, Nat.mul_zero, Nat.zero_add, List.getElem?_cons_succ] at e ex ey ez
          subst e
          exact V3.ext ex ey ez
        · intro i hi
          simpa [Nat.mul_add, Nat.add_right_comm _ 3] using h2 (i + 1) (by omega)
  | case2 l hl =>
    have h0 : l = [] := by
      rcases l with _ | ⟨a, _ | ⟨b, _ | ⟨c, r⟩⟩⟩
      · rfl
      · simp at h
      · simp at h
      · exact absurd rfl (hl a b c r)
    subst h0
    cases P <;> simp [toPts]

theorem vertices_iff (p : PArg K) (P : List (V3 K)) : vertices p = .ok P ↔ PointsOf p P := by
  cases p with
  | points l =>
    simp only [vertices, PointsOf]
    split_ifs with h
    · simp [h]
    · simp [h, eq_comm]
  | flat l =>
    simp only [vertices, PointsOf]
    split_ifs with h h3
    · simp [h]
    · simp only [ne_eq, h, not_false_eq_true, true_and, false_iff]
      rintro ⟨h1, -⟩; omega
    · simp only [ne_eq, h, not_false_eq_true, true_and, Except.ok.injEq]
      exact toPts_spec l (by omega) P

/-- the texture coordinates given: `uv`, or else `st` -/
def GivenUv (q : Params K) (o : Option (List K)) : Prop := (q.uv ≠ none ∧ o = q.uv) ∨ (q.uv = none ∧ o = q.st)

theorem uv_check (o : Option (List K)) (n : ℕ) : (∀ l, o = some l → n ≤ l.length) → ¬ (match o with | some l => decide (l.length < n) | none => false) = true := by
  intro h
  cases o with
  | none => simp
  | some l => simpa using h l rfl

theorem len_check (o : Option ℕ) (n : ℕ) : (∀ k, o = some k → k = n) → ¬ (match o with | some k => decide (k ≠ n) | none => false) = true := by
  intro h
  cases o with
  | none => simp
  | some l => simpa using h l rfl

/-- **C43** the validation in full (texture coordinates not to be discarded): a mesh is created exactly when the indices come in threes and are below the number of vertices, the vertices are
points or numbers in threes, there are at least two texture coordinates and exactly one normal and tangent per vertex if any are given, and a named alpha texture exists; and the mesh has just these data. -/
theorem C43_validation (o2w w2o : V3 K → V3 K) (q : Params K) (hd : q.discard = false ∨ q.N = none) (m : Mesh K) :
    create o2w w2o q = .ok m ↔ ∃ vi p P, q.indices = some vi ∧ 3 ∣ vi.length ∧ (∀ i ∈ vi, i < P.length) ∧ q.P = some p ∧ PointsOf p P ∧
      GivenUv q m.uvs ∧ (∀ l, m.uvs = some l → 2 * P.length ≤ l.length) ∧ (∀ n, q.S = some n → n = P.length) ∧ (∀ n, q.N = some n → n = P.length) ∧
      ((q.alphatex = .absent ∧ m.alpha = none) ∨ ∃ a, q.alphatex = .found a ∧ m.alpha = some a) ∧
      m.ntris = vi.length / 3 ∧ m.nverts = P.length ∧ m.vi = vi ∧ m.p = P.map o2w ∧ m.w2o = w2o := by
  obtain ⟨uvs, hu, hg⟩ : ∃ uvs, (match q.uv with | some l => some l | none => q.st) = uvs ∧ ∀ o, GivenUv q o ↔ o = uvs := by
    refine ⟨_, rfl, fun o => ?_⟩
    cases h : q.uv <;> simp [GivenUv, h]
  have hk : ∀ P vi, keepUv q P vi uvs = some uvs := by
    intro P vi
    simp only [keepUv]
    rw [if_neg]
    rintro ⟨a, b⟩
    rcases hd with h | h
    · rw [h] at a; cases a
    · rw [h] at b; cases b
  simp only [create, hu, hk, hg]
  constructor
  · intro h
    split at h
    · cases h
    · rename_i vi hvi
      split_ifs at h with h3
      split at h
      · cases h
      · rename_i p hp
        split at h
        · cases h
        · rename_i P hP
          split_ifs at h with c1 c2 c3 c4
          have a1 : ∀ l, uvs = some l → 2 * P.length ≤ l.length := by
            rintro l rfl; simpa using c1
          have a2 : ∀ n, q.S = some n → n = P.length := by
            intro n hn; simpa [hn] using c2
          have a3 : ∀ n, q.N = some n → n = P.length := by
            intro n hn; simpa [hn] using c3
          have a4 : ∀ i ∈ vi, i < P.length := by
            intro i hi
            by_contra hlt
            exact c4 (List.any_eq_true.2 ⟨i, hi, by simpa using hlt⟩)
          refine ⟨vi, p, P, hvi, by omega, a4, hp, (vertices_iff p P).1 hP, ?_⟩
          split at h
          · cases h
          · rename_i ha; cases h; exact ⟨rfl, a1, a2, a3, .inl ⟨ha, rfl⟩, rfl, rfl, rfl, rfl, rfl⟩
          · rename_i a ha; cases h; exact ⟨rfl, a1, a2, a3, .inr ⟨a, ha, rfl⟩, rfl, rfl, rfl, rfl, rfl⟩
  · rintro ⟨vi, p, P, hvi, h3, a4, hp, hP, e1, a1, a2, a3, hal, e2, e3, e4, e5, e6⟩
    obtain ⟨nt, nv, mvi, mp, muv, mal, mw⟩ := m
    simp only at e1 a1 hal e2 e3 e4 e5 e6
    subst e1 e2 e3 e4 e5 e6
    have b4 : ¬ (mvi.any fun i => decide (i ≥ (P.length : ℤ))) = true := by
      intro h
      obtain ⟨i, hi, hc⟩ := List.any_eq_true.1 h
      have := a4 i hi
      simp at hc
      omega
    simp only [hvi, hp, (vertices_iff p P).2 hP]
    rw [if_neg (by omega), if_neg (uv_check muv _ a1), if_neg (len_check q.S _ a2), if_neg (len_check q.N _ a3), if_neg b4]
    rcases hal with ⟨ha, rfl⟩ | ⟨a, ha, rfl⟩ <;> simp only [ha]

/-- the texture coordinates of vertex `i` -/
def uvAt (l : List K) (i : ℤ) : Option K × Option K := (l[2 * i.toNat]?, l[2 * i.toNat + 1]?)

/-- a triangle of area at least `1e-5` two of whose corners have the same texture coordinates -/
def BadUv (P : List (V3 K)) (l : List K) (a b c : ℤ) : Prop :=
  ∃ pa pb pc, P[a.toNat]? = some pa ∧ P[b.toNat]? = some pb ∧ P[c.toNat]? = some pc ∧
    (1 / 100000) * (1 / 100000) ≤ 1 / 4 * sqLength (cross (pa - pb) (pc - pb)) ∧ (uvAt l a = uvAt l b ∨ uvAt l b = uvAt l c ∨ uvAt l c = uvAt l a)

/-- some triangle (entries `3j`, `3j + 1`, `3j + 2` of the index list) has bad texture coordinates -/
def SomeBadUv (P : List (V3 K)) (l : List K) (vi : List ℤ) : Prop :=
  ∃ j a b c, vi[3 * j]? = some a ∧ vi[3 * j + 1]? = some b ∧ vi[3 * j + 2]? = some c ∧ BadUv P l a b c

theorem pyGet_lt {α : Type*} (l : List α) (i : ℤ) (h0 : 0 ≤ i) (h1 : i < l.length) : ∃ x, pyGet l i = some x ∧ l[i.toNat]? = some x := by
  have h : i.toNat < l.length := by omega
  exact ⟨l[i.toNat], by rw [pyGet, if_pos h0]; exact List.getElem?_eq_getElem h, List.getElem?_eq_getElem h⟩

theorem degenerate_spec (P : List (V3 K)) (l : List K) (hl : 2 * P.length ≤ l.length) (vi : List ℤ) (n : ℕ) (hn : vi.length = 3 * n) (hv : ∀ i ∈ vi, 0 ≤ i ∧ i < P.length) :
    ∃ d, degenerateUv P l vi = some d ∧ (d = true ↔ SomeBadUv P l vi) := by
  induction n generalizing vi with
  | zero =>
    have : vi = [] := List.length_eq_zero_iff.1 (by omega)
    subst this
    exact ⟨false, rfl, by simp [SomeBadUv]⟩
  | succ n ih =>
    rcases vi with _ | ⟨a, _ | ⟨b, _ | ⟨c, r⟩⟩⟩
    · simp at hn
    · simp at hn; omega
    · simp at hn; omega
    simp only [List.length_cons] at hn
    obtain ⟨d, hd, hiff⟩ := ih r (by omega) (fun i hi => hv i (by simp [hi]))
    obtain ⟨a0, a1⟩ := hv a (by simp)
    obtain ⟨b0, b1⟩ := hv b (by simp)
    obtain ⟨c0, c1⟩ := hv c (by simp)
    obtain ⟨pa, ea, fa⟩ := pyGet_lt P a a0 a1
    obtain ⟨pb, eb, fb⟩ := pyGet_lt P b b0 b1
    obtain ⟨pc, ec, fc⟩ := pyGet_lt P c c0 c1
    have tail : SomeBadUv P l (a :: b :: c :: r) ↔ BadUv P l a b c ∨ SomeBadUv P l r := by
      constructor
      · rintro ⟨j, a', b', c', h1, h2, h3, hb⟩
        cases j with
        | zero =>
          simp only [Nat.mul_zero, Nat.zero_add, List.getElem?_cons_zero, List.getElem?_cons_succ, Option.some.injEq] at h1 h2 h3
          subst h1 h2 h3
          exact .inl hb
        | succ j => exact .inr ⟨j, a', b', c', by simpa [Nat.mul_add] using h1, by simpa [Nat.mul_add, Nat.add_right_comm _ 3] using h2, by simpa [Nat.mul_add, Nat.add_right_comm _ 3] using h3, hb⟩
      · rintro (hb | ⟨j, a', b', c', h1, h2, h3, hb⟩)
        · exact ⟨0, a, b, c, rfl, rfl, rfl, hb⟩
        · exact ⟨j + 1, a', b', c', by simpa [Nat.mul_add] using h1, by simpa [Nat.mul_add, Nat.add_right_comm _ 3] using h2, by simpa [Nat.mul_add, Nat.add_right_comm _ 3] using h3, hb⟩
    have bad : BadUv P l a b c ↔ (1 / 100000) * (1 / 100000) ≤ 1 / 4 * sqLength (cross (pa - pb) (pc - pb)) ∧ (uvAt l a = uvAt l b ∨ uvAt l b = uvAt l c ∨ uvAt l c = uvAt l a) := by
      constructor
      · rintro ⟨qa, qb, qc, ga, gb, gc, h⟩
        rw [fa] at ga; rw [fb] at gb; rw [fc] at gc
        cases ga; cases gb; cases gc
        exact h
      · intro h; exact ⟨pa, pb, pc, fa, fb, fc, h⟩
    rw [tail, bad]
    simp only [degenerateUv, ea, eb, ec]
    have g : ∀ i : ℤ, 0 ≤ i → i < P.length → ∃ u v, pyGet l (2 * i) = some u ∧ pyGet l (2 * i + 1) = some v ∧ uvAt l i = (some u, some v) := by
      intro i i0 i1
      obtain ⟨u, e, f⟩ := pyGet_lt l (2 * i) (by omega) (by omega)
      obtain ⟨v, e', f'⟩ := pyGet_lt l (2 * i + 1) (by omega) (by omega)
      refine ⟨u, v, e, e', ?_⟩
      rw [show (2 * i).toNat = 2 * i.toNat by omega] at f
      rw [show (2 * i + 1).toNat = 2 * i.toNat + 1 by omega] at f'
      rw [uvAt, f, f']
    obtain ⟨ua, va, e1, e2, e3⟩ := g a a0 a1
    obtain ⟨ub, vb, e4, e5, e6⟩ := g b b0 b1
    obtain ⟨uc, vc, e7, e8, e9⟩ := g c c0 c1
    simp only [e1, e2, e4, e5, e7, e8, e3, e6, e9, Prod.mk.injEq, Option.some.injEq]
    split_ifs with hs hb
    · refine ⟨d, hd, ?_⟩
      rw [hiff]
      exact ⟨.inr, fun h => h.resolve_left fun k => not_le.2 hs k.1⟩
    · refine ⟨true, rfl, by simp only [true_iff]; exact .inl ⟨not_lt.1 hs, hb⟩⟩
    · exact ⟨d, hd, by rw [hiff]; exact ⟨.inr, fun h => h.resolve_left fun k => hb k.2⟩⟩

/-- **C43** discarding texture coordinates: if asked for and normals are given (and no index is negative), a created mesh keeps the texture coordinates unless some triangle of area at least `1e-5`
has two corners with the same pair, and has none then. -/
theorem C43_discard (o2w w2o : V3 K → V3 K) (q : Params K) (hd : q.discard = true) (nN : ℕ) (hN : q.N = some nN) (l : List K) (hg : GivenUv q (some l)) (m : Mesh K)
    (h : create o2w w2o q = .ok m) (h0 : ∀ i ∈ m.vi, 0 ≤ i) :
    ∃ p P, q.P = some p ∧ PointsOf p P ∧
      (SomeBadUv P l m.vi → m.uvs = none) ∧
      (¬ SomeBadUv P l m.vi → m.uvs = some l) := by
  obtain ⟨vi, p, P, hvi, hp, hP, hc⟩ := create_ok h
  refine ⟨p, P, hp, (vertices_iff p P).1 hP, ?_⟩
  have hu : (match q.uv with | some l => some l | none => q.st) = some l := by
    rcases hg with ⟨a, b⟩ | ⟨a, b⟩
    · rw [← b]
    · rw [a]; exact b.symm
  have emv := hc.indices
  rw [emv] at h0 ⊢
  simp only [create, hu, hvi, hp, hP, hN] at h
  have h3 := hc.triangles
  split_ifs at h with c0 c1 c2 c3
  · cases hk : keepUv q P vi (some l) <;> simp only [hk] at h <;> cases h
  · have hl : 2 * P.length ≤ l.length := by simpa using c1
    obtain ⟨d, e, hiff⟩ := degenerate_spec P l hl vi m.ntris h3 (fun i hi => ⟨h0 i hi, hc.inRange i hi⟩)
    rw [← hiff]
    have ek : keepUv q P vi (some l) = some (if d then none else some l) := by
      simp only [keepUv]
      rw [if_pos ⟨hd, by rw [hN]; rfl⟩, e]; rfl
    simp only [ek] at h
    have em : m.uvs = if d then none else some l := by
      split at h
      · cases h
      · cases h; rfl
      · cases h; rfl
    rw [em]
    cases d <;> simp

/-- a mesh with a degenerate parametrisation meets the hypotheses of `C43_discard` -/
example : BadUv (K := ℚ) [⟨0, 0, 0⟩, ⟨1, 0, 0⟩, ⟨0, 1, 0⟩] [0, 0, 0, 0, 1, 1] 0 1 2 :=
  ⟨⟨0, 0, 0⟩, ⟨1, 0, 0⟩, ⟨0, 1, 0⟩, rfl, rfl, rfl, by decide +kernel, .inl rfl⟩

/-! ### Texture coordinates (C72) -/

/-- the texture coordinates of the vertex a triangle's corner refers to: entries `2i`, `2i + 1` for vertex number `i` -/
def uvOfCorner (m : Mesh K) (v k : ℕ) (uv : K × K) : Prop :=
  ∃ (i : ℤ) (l : List K), pyGet m.vi (v + k) = some i ∧ m.uvs = some l ∧ pyGet l (2 * i) = some uv.1 ∧ pyGet l (2 * i + 1) = some uv.2

/-- **C72 (part)** the texture coordinates used for a triangle are those of its vertices if its vertex numbers are its positions in the index list
(so no vertex is shared).  Missing: every other mesh, `C72_shared_vertices_false`. -/
theorem C72_unshared_partial (m : Mesh K) (v : ℕ) (uv : (K × K) × (K × K) × (K × K)) (hu : m.uvs ≠ none) (h : m.getUvs v = some uv)
    (h0 : pyGet m.vi (v + (0 : ℕ)) = some (v : ℤ)) (h1 : pyGet m.vi (v + (1 : ℕ)) = some (v + 1 : ℤ)) (h2 : pyGet m.vi (v + (2 : ℕ)) = some (v + 2 : ℤ)) :
    uvOfCorner m v 0 uv.1 ∧ uvOfCorner m v 1 uv.2.1 ∧ uvOfCorner m v 2 uv.2.2 := by
  obtain ⟨l, hl⟩ := Option.ne_none_iff_exists'.1 hu
  simp only [Mesh.getUvs, hl] at h
  split at h
  · rename_i a b c d e f ha hb hc hd he hf
    cases h
    exact ⟨⟨_, l, h0, hl, ha, hb⟩, ⟨_, l, h1, hl, hc, hd⟩, ⟨_, l, h2, hl, he, hf⟩⟩
  · cases h

/-- **C72 is false of the code**: the lookup ignores the vertex numbers.  A triangle that lists three vertices in another order gets the texture coordinates
of the wrong vertices, and on a mesh of two triangles sharing an edge, with one pair per vertex as documented, the lookup for
the second triangle raises `IndexError`. -/
theorem C72_shared_vertices_false :
    (∃ m : Mesh ℚ, create id id ⟨some [1, 0, 2], some (.flat [0, 0, 0, 1, 0, 0, 0, 1, 0]), some [5, 5, 6, 6, 7, 7], none, false, none, none, .absent⟩ = .ok m ∧
      m.getUvs 0 = some ((5, 5), (6, 6), (7, 7)) ∧ uvOfCorner m 0 0 (6, 6)) ∧
    (∃ m : Mesh ℚ, create id id ⟨some [0, 1, 2, 2, 1, 3], some (.flat [0, 0, 0, 1, 0, 0, 0, 1, 0, 1, 1, 0]), some [0, 0, 1, 0, 0, 1, 1, 1], none, false, none, none, .absent⟩ = .ok m ∧
      m.getUvs 3 = none ∧ ∀ frame, intersect frame m 3 ⟨⟨3 / 4, 3 / 4, 1⟩, ⟨0, 0, -1⟩, 0, ⊤⟩ = .indexError) := by
  refine ⟨⟨⟨1, 3, [1, 0, 2], [⟨0, 0, 0⟩, ⟨1, 0, 0⟩, ⟨0, 1, 0⟩], some [5, 5, 6, 6, 7, 7], none, id⟩, by simp [create, vertices, toPts, keepUv], by decide +kernel, ?_⟩,
    ⟨⟨2, 4, [0, 1, 2, 2, 1, 3], [⟨0, 0, 0⟩, ⟨1, 0, 0⟩, ⟨0, 1, 0⟩, ⟨1, 1, 0⟩], some [0, 0, 1, 0, 0, 1, 1, 1], none, id⟩, by simp [create, vertices, toPts, keepUv], by decide +kernel, ?_⟩⟩
  · exact ⟨1, _, by decide +kernel, rfl, by decide +kernel, by decide +kernel⟩
  · intro frame
    have h0 : Mesh.vertex (⟨2, 4, [0, 1, 2, 2, 1, 3], [⟨0, 0, 0⟩, ⟨1, 0, 0⟩, ⟨0, 1, 0⟩, ⟨1, 1, 0⟩], some [0, 0, 1, 0, 0, 1, 1, 1], none, id⟩ : Mesh ℚ) 3 0 = some ⟨0, 1, 0⟩ := by decide +kernel
    have h1 : Mesh.vertex (⟨2, 4, [0, 1, 2, 2, 1, 3], [⟨0, 0, 0⟩, ⟨1, 0, 0⟩, ⟨0, 1, 0⟩, ⟨1, 1, 0⟩], some [0, 0, 1, 0, 0, 1, 1, 1], none, id⟩ : Mesh ℚ) 3 1 = some ⟨1, 0, 0⟩ := by decide +kernel
    have h2 : Mesh.vertex (⟨2, 4, [0, 1, 2, 2, 1, 3], [⟨0, 0, 0⟩, ⟨1, 0, 0⟩, ⟨0, 1, 0⟩, ⟨1, 1, 0⟩], some [0, 0, 1, 0, 0, 1, 1, 1], none, id⟩ : Mesh ℚ) 3 2 = some ⟨1, 1, 0⟩ := by decide +kernel
    have h3 : Mesh.getUvs (⟨2, 4, [0, 1, 2, 2, 1, 3], [⟨0, 0, 0⟩, ⟨1, 0, 0⟩, ⟨0, 1, 0⟩, ⟨1, 1, 0⟩], some [0, 0, 1, 0, 0, 1, 1, 1], none, id⟩ : Mesh ℚ) 3 = none := by decide +kernel
    have h4 : core (⟨0, 1, 0⟩ : V3 ℚ) ⟨1, 0, 0⟩ ⟨1, 1, 0⟩ ⟨⟨3 / 4, 3 / 4, 1⟩, ⟨0, 0, -1⟩, 0, ⊤⟩ = some (1, 1 / 4, 1 / 2) := by decide +kernel
    simp only [intersect, h0, h1, h2, h4, h3]

end

/-! ### Sampling a triangle (C71) -/

open Geom

/-- `Triangle.sample`, triangle.py 146-161; `none` is `IndexError` -/
noncomputable def sample (m : Mesh ℝ) (v : ℕ) (ro : Bool) (u1 u2 : ℝ) : Option (V3 ℝ × V3 ℝ) :=
  let b := MC.triangle u1 u2
  match m.vertex v 0, (pyGet m.vi v).bind (fun i => pyGet m.p (i + 1)), m.vertex v 1, m.vertex v 2 with
  | some p1, some q, some p2, some p3 =>
    let n := normalize (cross (p2 - p1) (p3 - p1))
    some (b.1 * p1 + b.2 * q + (1 - b.1 - b.2) * p3, if ro then (-1 : ℝ) * n else n)
  | _, _, _, _ => none

/-- `Triangle.area`, triangle.py 317-321 -/
noncomputable def area (p1 p2 p3 : V3 ℝ) : ℝ := 1 / 2 * length (cross (p2 - p1) (p3 - p1))

theorem inTriangle_of {p1 p2 p3 : V3 ℝ} {b1 b2 : ℝ} (h1 : 0 ≤ b1) (h2 : 0 ≤ b2) (hs : b1 + b2 ≤ 1) :
    InTriangle p1 p2 p3 (b1 * p1 + b2 * p2 + (1 - b1 - b2) * p3) := by
  refine ⟨b2, 1 - b1 - b2, h2, by linarith, by linarith, ?_⟩
  apply V3.ext <;> simp only [bary, add_x, add_y, add_z, smul_x, smul_y, smul_z] <;> ring

/-- **C71 (part)** if the triangle's second vertex number is its first plus one, every canonical sample gives a point of the triangle and a unit normal perpendicular to both
edges, flipped exactly when the orientation is reversed.  Missing: all other triangles, `C71_wrong_vertex_false`. -/
theorem C71_sample_partial (m : Mesh ℝ) (v : ℕ) (ro : Bool) (u1 u2 : ℝ) (hu1 : u1 ≤ 1) (hu2 : 0 ≤ u2) (hu2' : u2 ≤ 1) (i : ℤ)
    (hi : pyGet m.vi v = some i) (hi' : pyGet m.vi (v + (1 : ℕ)) = some (i + 1)) (p1 p2 p3 : V3 ℝ)
    (h1 : m.vertex v 0 = some p1) (h2 : m.vertex v 1 = some p2) (h3 : m.vertex v 2 = some p3) (hnd : length (cross (p2 - p1) (p3 - p1)) ≠ 0) :
    ∃ q n, sample m v ro u1 u2 = some (q, n) ∧ InTriangle p1 p2 p3 q ∧ sqLength n = 1 ∧ dot n (p2 - p1) = 0 ∧ dot n (p3 - p1) = 0 ∧
      (ro = false ↔ 0 < dot n (cross (p2 - p1) (p3 - p1))) := by
  have hq : (pyGet m.vi v).bind (fun i => pyGet m.p (i + 1)) = some p2 := by
    rw [hi, Option.bind_some]
    rw [Mesh.vertex, hi', Option.bind_some] at h2
    exact h2
  obtain ⟨b1, b2, bs⟩ := MC.C21_triangle u1 u2 hu1 hu2 hu2'
  set c := cross (p2 - p1) (p3 - p1) with hc
  have hpos : 0 < length c := lt_of_le_of_ne (Real.sqrt_nonneg _) (Ne.symm hnd)
  have hsq : sqLength c = length c * length c := (Real.mul_self_sqrt (by simp only [sqLength]; nlinarith [mul_self_nonneg c.x, mul_self_nonneg c.y, mul_self_nonneg c.z])).symm
  have hn : normalize c = ⟨c.x / length c, c.y / length c, c.z / length c⟩ := by simp only [Geom.normalize, if_pos hnd]
  have d1 : dot c (p2 - p1) = 0 := by rw [hc]; simp only [dot, cross]; ring
  have d2 : dot c (p3 - p1) = 0 := by rw [hc]; simp only [dot, cross]; ring
  have dv : ∀ w, dot (⟨c.x / length c, c.y / length c, c.z / length c⟩ : V3 ℝ) w = dot c w / length c := by
    intro w; simp only [dot]; field_simp
  have s1 : sqLength (⟨c.x / length c, c.y / length c, c.z / length c⟩ : V3 ℝ) = 1 := by
    have : sqLength (⟨c.x / length c, c.y / length c, c.z / length c⟩ : V3 ℝ) = sqLength c / (length c * length c) := by
      simp only [sqLength]; field_simp
    rw [this, hsq]; field_simp
  have dn : ∀ w w' : V3 ℝ, dot ((-1 : ℝ) * w) w' = -dot w w' := by intro w w'; simp only [dot, smul_x, smul_y, smul_z]; ring
  have sn : ∀ w : V3 ℝ, sqLength ((-1 : ℝ) * w) = sqLength w := by intro w; simp only [sqLength, smul_x, smul_y, smul_z]; ring
  refine ⟨_, if ro then (-1 : ℝ) * Geom.normalize c else Geom.normalize c, by simp only [sample, h1, h2, h3, hq, hc], inTriangle_of b1 b2 bs, ?_⟩
  rw [hn]
  have dcc : dot (⟨c.x / length c, c.y / length c, c.z / length c⟩ : V3 ℝ) c = length c := by
    rw [dv, ← sqLength_eq_dot, hsq]; field_simp
  cases ro
  · simp only [Bool.false_eq_true, if_false, true_iff]
    exact ⟨s1, by rw [dv, d1, zero_div], by rw [dv, d2, zero_div], by rw [dcc]; exact hpos⟩
  · simp only [if_true, Bool.true_eq_false, false_iff]
    refine ⟨by rw [sn, s1], by rw [dn, dv, d1]; simp, by rw [dn, dv, d2]; simp, ?_⟩
    rw [dn, dcc]; linarith

/-- **C71 is false of the code**: the second corner is looked up as "first vertex number plus one".  In a mesh of four vertices the triangle with vertices 0, 2, 3
is sampled at a point off the triangle (off its plane, even). -/
theorem C71_wrong_vertex_false :
    ∃ m : Mesh ℝ, create id id ⟨some [0, 2, 3], some (.points [⟨0, 0, 0⟩, ⟨0, 0, 5⟩, ⟨1, 0, 0⟩, ⟨0, 1, 0⟩]), none, none, false, none, none, .absent⟩ = .ok m ∧
      ∃ q n, sample m 0 false 1 1 = some (q, n) ∧ ¬ InTriangle ⟨0, 0, 0⟩ ⟨1, 0, 0⟩ ⟨0, 1, 0⟩ q := by
  refine ⟨⟨1, 4, [0, 2, 3], [⟨0, 0, 0⟩, ⟨0, 0, 5⟩, ⟨1, 0, 0⟩, ⟨0, 1, 0⟩], none, none, id⟩, by simp [create, vertices, keepUv], ?_⟩
  refine ⟨_, _, by simp [sample, Mesh.vertex, pyGet]; exact ⟨rfl, rfl⟩, ?_⟩
  rintro ⟨b1, b2, -, -, -, h⟩
  have hz := congrArg V3.z h
  simp [bary, MC.triangle] at hz

/-- **C71** the area is half the product of two sides and the sine of the angle between them, squared:
`4 · area² = |e1|²|e2|² − (e1·e2)²`. -/
theorem C71_area (p1 p2 p3 : V3 ℝ) :
    0 ≤ area p1 p2 p3 ∧ 4 * area p1 p2 p3 ^ 2 = sqLength (p2 - p1) * sqLength (p3 - p1) - dot (p2 - p1) (p3 - p1) ^ 2 := by
  have h0 : 0 ≤ sqLength (cross (p2 - p1) (p3 - p1)) := by
    simp only [sqLength]
    nlinarith [mul_self_nonneg (cross (p2 - p1) (p3 - p1)).x, mul_self_nonneg (cross (p2 - p1) (p3 - p1)).y, mul_self_nonneg (cross (p2 - p1) (p3 - p1)).z]
  refine ⟨mul_nonneg (by norm_num) (Real.sqrt_nonneg _), ?_⟩
  rw [area, mul_pow, length, Real.sq_sqrt h0]
  simp only [sqLength, cross, dot]
  ring

/-- a triangle meeting the hypotheses of `C71_sample_partial` -/
example : ∃ m : Mesh ℝ, pyGet m.vi ((0 : ℕ) : ℤ) = some 0 ∧ pyGet m.vi (((0 : ℕ) : ℤ) + (1 : ℕ)) = some (0 + 1) ∧ m.vertex 0 0 = some ⟨0, 0, 0⟩ ∧
    m.vertex 0 1 = some ⟨1, 0, 0⟩ ∧ m.vertex 0 2 = some ⟨0, 1, 0⟩ ∧ length (cross ((⟨1, 0, 0⟩ : V3 ℝ) - ⟨0, 0, 0⟩) (⟨0, 1, 0⟩ - ⟨0, 0, 0⟩)) ≠ 0 := by
  refine ⟨⟨1, 3, [0, 1, 2], [⟨0, 0, 0⟩, ⟨1, 0, 0⟩, ⟨0, 1, 0⟩], none, none, id⟩, by simp [pyGet], by simp [pyGet], by simp [Mesh.vertex, pyGet], by simp [Mesh.vertex, pyGet],
    by simp [Mesh.vertex, pyGet], by simp [length, sqLength, cross]⟩

end Verif.Shape
