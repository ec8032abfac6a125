import Verif.Base.V3
import Verif.Num.F
import Verif.Geom.Model

/-!
# The classes of points, vectors and normals (`geometry/__init__.py:15-278`): property C155

Coordinates are floats with infinities and NaN, rounding aside.
-/

set_option linter.unusedSectionVars false

namespace Verif.Kinds
open Verif.Geom (Kind)

variable {K : Type*} [Field K] [LinearOrder K]

/-! ### Model -/

/-- float addition. -/
def fadd : F K → F K → F K
  | .fin a, .fin b => .fin (a + b)
  | .nan, _ => .nan
  | _, .nan => .nan
  | .pinf, .ninf => .nan
  | .ninf, .pinf => .nan
  | .pinf, _ => .pinf
  | _, .pinf => .pinf
  | .ninf, _ => .ninf
  | _, .ninf => .ninf

/-- float negation. -/
def fneg : F K → F K
  | .fin a => .fin (-a)
  | .pinf => .ninf
  | .ninf => .pinf
  | .nan => .nan

/-- float subtraction. -/
def fsub (a b : F K) : F K := fadd a (fneg b)

/-- float `==`. -/
def feq : F K → F K → Bool
  | .fin a, .fin b => decide (a = b)
  | .pinf, .pinf => true
  | .ninf, .ninf => true
  | _, _ => false

/-- a `Vector`, `Point` or `Normal`. -/
@[ext] structure Obj (K : Type*) where
  kind : Kind
  v : V3 (F K)

/-- what an operation may raise. -/
inductive Err
  | valueError
  | typeError
deriving DecidableEq

/-- the three constructors (`geometry/__init__.py:26-39, 116-129, 209-222`). -/
def construct (k : Kind) (x y z : F K) : Except Err (Obj K) :=
  if x.isNan || y.isNan || z.isNan then .error .valueError else .ok ⟨k, ⟨x, y, z⟩⟩

/-- the right operand of an operator: one of the three classes, or something else (a number, a tuple, a
plain array). -/
inductive Rhs (K : Type*)
  | obj (b : Obj K)
  | other

/-- `a + b` for two of the classes: `ndarray.__add__`, elementwise, with the class of the first operand
(`geometry/__init__.py:106-110`). -/
def add (a b : Obj K) : Obj K := ⟨a.kind, ⟨fadd a.v.x b.v.x, fadd a.v.y b.v.y, fadd a.v.z b.v.z⟩⟩

/-- `a - b`: `Point.__sub__` (`geometry/__init__.py:166-174`); vectors and normals inherit
`ndarray.__sub__`, elementwise, with the class of the first operand.  The result of subtracting a plain
number or array from a vector is not modelled (`none`). -/
def sub (a : Obj K) (b : Rhs K) : Option (Except Err (Obj K)) :=
  match a.kind with
  | .point =>
    match b with
    | .obj ⟨.point, w⟩ => some (construct .vector (fsub a.v.x w.x) (fsub a.v.y w.y) (fsub a.v.z w.z))
    | .obj ⟨.vector, w⟩ => some (construct .point (fsub a.v.x w.x) (fsub a.v.y w.y) (fsub a.v.z w.z))
    | _ => some (.error .typeError)
  | k =>
    match b with
    | .obj ⟨_, w⟩ => some (.ok ⟨k, ⟨fsub a.v.x w.x, fsub a.v.y w.y, fsub a.v.z w.z⟩⟩)
    | .other => none

/-- `a -= b`: `Point.__isub__` (`geometry/__init__.py:176-177`); inherited by the other two classes. -/
def isub (a : Obj K) (b : Rhs K) : Option (Except Err (Obj K)) :=
  match a.kind with
  | .point => some (.error .typeError)
  | k =>
    match b with
    | .obj ⟨_, w⟩ => some (.ok ⟨k, ⟨fsub a.v.x w.x, fsub a.v.y w.y, fsub a.v.z w.z⟩⟩)
    | .other => none

/-- `a == b` (`geometry/__init__.py:70-71, 160-161, 253-254`): `np.array_equal`. -/
def eq (a b : Obj K) : Bool := feq a.v.x b.v.x && feq a.v.y b.v.y && feq a.v.z b.v.z

/-- `a != b` (`geometry/__init__.py:73-74, 163-164, 256-257`). -/
def ne (a b : Obj K) : Bool := !(feq a.v.x b.v.x && feq a.v.y b.v.y && feq a.v.z b.v.z)

/-! ### Specification -/

/-- no coordinate is NaN -/
def Proper (a : Obj K) : Prop := a.v.x ≠ .nan ∧ a.v.y ≠ .nan ∧ a.v.z ≠ .nan

/-- an object with finite coordinates -/
def finite (k : Kind) (p : V3 K) : Obj K := ⟨k, ⟨.fin p.x, .fin p.y, .fin p.z⟩⟩

/-- `a` and `b` are the same infinity: their difference has no value -/
def SameInf (a b : F K) : Prop := (a = .pinf ∧ b = .pinf) ∨ (a = .ninf ∧ b = .ninf)

/-! ### Theorems -/

theorem isNan_iff (a : F K) : a.isNan = true ↔ a = .nan := by cases a <;> simp [F.isNan]

theorem construct_spec (k : Kind) (x y z : F K) :
    (construct k x y z = .error .valueError ∧ (x = .nan ∨ y = .nan ∨ z = .nan)) ∨
    (construct k x y z = .ok ⟨k, ⟨x, y, z⟩⟩ ∧ x ≠ .nan ∧ y ≠ .nan ∧ z ≠ .nan) := by
  unfold construct
  by_cases h : (x.isNan || y.isNan || z.isNan) = true
  · left
    rw [if_pos h]
    simp only [Bool.or_eq_true, isNan_iff] at h
    exact ⟨rfl, by tauto⟩
  · right
    rw [if_neg h]
    simp only [Bool.or_eq_true, isNan_iff, not_or] at h
    exact ⟨rfl, h.1.1, h.1.2, h.2⟩

/-- **C155** constructors: a NaN coordinate raises `ValueError`; otherwise the object has the class and the
coordinates asked for. -/
theorem C155_construct (k : Kind) (x y z : F K) :
    ((x = .nan ∨ y = .nan ∨ z = .nan) → construct k x y z = .error .valueError) ∧
    (x ≠ .nan → y ≠ .nan → z ≠ .nan → construct k x y z = .ok ⟨k, ⟨x, y, z⟩⟩) := by
  rcases construct_spec k x y z with ⟨h, hn⟩ | ⟨h, h1, h2, h3⟩
  · exact ⟨fun _ => h, fun a b c => by tauto⟩
  · exact ⟨fun _ => by tauto, fun _ _ _ => h⟩

theorem fsub_nan (a b : F K) (ha : a ≠ .nan) (hb : b ≠ .nan) : fsub a b = .nan ↔ SameInf a b := by
  cases a <;> cases b <;> simp_all [fsub, fneg, fadd, SameInf]

/-- **C155** subtraction of points.  For finite coordinates: point − point is the vector between them, point −
vector is a point, and adding the difference to the second point gives the first back, as a point. -/
theorem C155_affine (p q : V3 K) :
    sub (finite .point p) (.obj (finite .point q)) = some (.ok (finite .vector (p - q))) ∧
    sub (finite .point p) (.obj (finite .vector q)) = some (.ok (finite .point (p - q))) ∧
    add (finite .point q) (finite .vector (p - q)) = finite .point p ∧
    add (finite .point p) (finite .vector q) = finite .point (p + q) := by
  refine ⟨?_, ?_, ?_, ?_⟩
  · simp [sub, finite, construct, fsub, fneg, fadd, F.isNan, sub_eq_add_neg]
  · simp [sub, finite, construct, fsub, fneg, fadd, F.isNan, sub_eq_add_neg]
  · simp [add, finite, fadd]
  · simp [add, finite, fadd]

/-- **C155** classes.  From a point only points and vectors can be subtracted: a normal or anything else raises
`TypeError`, and in-place subtraction always does.  Sums have the class of the first operand, and so have
differences of vectors and normals. -/
theorem C155_classes (a b : Obj K) (r : Rhs K) :
    (a.kind = .point → (∀ c : Obj K, r = .obj c → c.kind = .normal) → sub a r = some (.error .typeError)) ∧
    (a.kind = .point → isub a r = some (.error .typeError)) ∧
    (add a b).kind = a.kind ∧
    (a.kind ≠ .point → ∃ c, sub a (.obj b) = some (.ok c) ∧ isub a (.obj b) = some (.ok c) ∧ c.kind = a.kind ∧
      c.v = ⟨fsub a.v.x b.v.x, fsub a.v.y b.v.y, fsub a.v.z b.v.z⟩) := by
  obtain ⟨k, v⟩ := a
  refine ⟨?_, ?_, rfl, ?_⟩
  · rintro hk h
    simp only at hk
    subst hk
    cases r with
    | other => rfl
    | obj c =>
      obtain ⟨k, w⟩ := c
      have := h _ rfl
      simp only at this
      subst this
      rfl
  · intro hk; simp only at hk; subst hk; rfl
  · intro hk
    cases k with
    | point => exact absurd rfl hk
    | vector => exact ⟨_, rfl, rfl, rfl, rfl⟩
    | normal => exact ⟨_, rfl, rfl, rfl, rfl⟩

/-- **C155** (partial) subtracting from a point never hands out NaN: with proper operands the result is proper, or
the operation raises `ValueError`, which happens exactly when some coordinate subtracts an infinity from
itself.  The full claim, that no operation makes an object with a NaN coordinate, fails (see below). -/
theorem C155_proper_partial (a b : Obj K) (ha : Proper a) (hb : Proper b) (hk : a.kind = .point) (hkb : b.kind ≠ .normal) :
    (∃ c, sub a (.obj b) = some (.ok c) ∧ Proper c ∧ ¬ (SameInf a.v.x b.v.x ∨ SameInf a.v.y b.v.y ∨ SameInf a.v.z b.v.z)) ∨
    (sub a (.obj b) = some (.error .valueError) ∧ (SameInf a.v.x b.v.x ∨ SameInf a.v.y b.v.y ∨ SameInf a.v.z b.v.z)) := by
  obtain ⟨k, v⟩ := a
  obtain ⟨l, w⟩ := b
  simp only at hk hkb
  subst hk
  have main : ∀ m : Kind, (∃ c, construct m (fsub v.x w.x) (fsub v.y w.y) (fsub v.z w.z) = .ok c ∧ Proper c ∧
      ¬ (SameInf v.x w.x ∨ SameInf v.y w.y ∨ SameInf v.z w.z)) ∨
      (construct m (fsub v.x w.x) (fsub v.y w.y) (fsub v.z w.z) = .error .valueError ∧ (SameInf v.x w.x ∨ SameInf v.y w.y ∨ SameInf v.z w.z)) := by
    intro m
    rw [← fsub_nan _ _ ha.1 hb.1, ← fsub_nan _ _ ha.2.1 hb.2.1, ← fsub_nan _ _ ha.2.2 hb.2.2]
    rcases construct_spec m (fsub v.x w.x) (fsub v.y w.y) (fsub v.z w.z) with ⟨h, hn⟩ | ⟨h, h1, h2, h3⟩
    · exact .inr ⟨h, hn⟩
    · exact .inl ⟨_, h, ⟨h1, h2, h3⟩, by tauto⟩
  cases l with
  | normal => exact absurd rfl hkb
  | point =>
    rcases main .vector with ⟨c, h, h'⟩ | ⟨h, h'⟩
    · exact .inl ⟨c, by simp only [sub, h], h'⟩
    · exact .inr ⟨by simp only [sub, h], h'⟩
  | vector =>
    rcases main .point with ⟨c, h, h'⟩ | ⟨h, h'⟩
    · exact .inl ⟨c, by simp only [sub, h], h'⟩
    · exact .inr ⟨by simp only [sub, h], h'⟩

/-- **C155** (violation) the inherited operators do not check: the difference of two properly constructed vectors,
or the sum of a point and a vector, can be an object no constructor would make. -/
theorem C155_proper_false :
    (∃ a b c : Obj K, Proper a ∧ Proper b ∧ a.kind = .vector ∧ sub a (.obj b) = some (.ok c) ∧ ¬ Proper c) ∧
    (∃ a b : Obj K, Proper a ∧ Proper b ∧ a.kind = .point ∧ b.kind = .vector ∧ ¬ Proper (add a b)) := by
  refine ⟨⟨⟨.vector, ⟨.pinf, .pinf, .pinf⟩⟩, ⟨.vector, ⟨.pinf, .pinf, .pinf⟩⟩, ⟨.vector, ⟨.nan, .nan, .nan⟩⟩, ?_, ?_, rfl, rfl, ?_⟩,
    ⟨⟨.point, ⟨.pinf, .pinf, .pinf⟩⟩, ⟨.vector, ⟨.ninf, .ninf, .ninf⟩⟩, ?_, ?_, rfl, rfl, ?_⟩⟩ <;> simp [Proper, add, fadd]

theorem feq_iff (a b : F K) : feq a b = true ↔ a = b ∧ a ≠ .nan := by
  cases a <;> cases b <;> simp [feq]

/-- **C155** comparison.  Two objects without NaN are equal exactly when their coordinates are, whatever their
classes; an object with a NaN is equal to nothing; `!=` is the negation of `==`; `==` is symmetric and
transitive. -/
theorem C155_equality (a b c : Obj K) :
    (eq a b = true ↔ a.v = b.v ∧ Proper a) ∧ (ne a b = !eq a b) ∧ (eq a b = eq b a) ∧ (eq a b = true → eq b c = true → eq a c = true) := by
  have h : ∀ a b : Obj K, eq a b = true ↔ a.v = b.v ∧ Proper a := by
    intro a b
    simp only [eq, Bool.and_eq_true, feq_iff, Proper, V3.ext_iff]
    tauto
  refine ⟨h a b, rfl, ?_, ?_⟩
  · rw [Bool.eq_iff_iff, h, h]
    constructor
    · rintro ⟨e, p⟩; exact ⟨e.symm, by simpa only [Proper, ← e] using p⟩
    · rintro ⟨e, p⟩; exact ⟨e.symm, by simpa only [Proper, ← e] using p⟩
  · rw [h, h, h]
    rintro ⟨e, p⟩ ⟨e', -⟩
    exact ⟨e.trans e', p⟩

/-- non-vacuity: proper points, one infinite coordinate -/
example : Proper (⟨.point, ⟨.pinf, .fin 2, .fin 3⟩⟩ : Obj ℚ) ∧ sub (⟨.point, ⟨.pinf, .fin 2, .fin 3⟩⟩ : Obj ℚ) (.obj ⟨.point, ⟨.fin 1, .fin 1, .fin 1⟩⟩)
    = some (.ok ⟨.vector, ⟨.pinf, .fin (2 + -1), .fin (3 + -1)⟩⟩) := by
  constructor
  · simp [Proper]
  · rfl

end Verif.Kinds
