import Verif.Base.V3
import Mathlib.Data.List.Basic

/-!
# Rays and their arrays (`geometry/__init__.py:281-378`): property C156

A point, a vector and the origin and directions inside a ray are numpy arrays, i.e. mutable objects
on a heap, and attributes hold references to them.  The model keeps addresses, so it can tell a copied
array from a shared one.
-/

namespace Verif.Rays

/-! ### Model -/

/-- the six array attributes of a `RayDifferential` (`geometry/__init__.py:293-294, 339-342`). -/
inductive Fld
  | o | d | rxOrigin | ryOrigin | rxDirection | ryDirection
deriving DecidableEq

/-- a `RayDifferential` (`geometry/__init__.py:290-298, 334-342`); `α` is what stands for an array: an
address in the model, a triple of numbers in the specification.  A plain `Ray` is the same object
without the last four arrays and the flag. -/
@[ext] structure RayOf (α T : Type*) where
  arr : Fld → α
  mint : T
  maxt : T
  depth : ℤ
  time : T
  hasDiff : Bool

/-- the arrays in memory; addresses from `next` on are unused. -/
structure Mem (K : Type*) where
  next : ℕ
  mem : ℕ → V3 K

/-- the objects a program holds: its own points and vectors, and its rays. -/
structure World (K T : Type*) where
  heap : Mem K
  pts : List ℕ
  rays : List (RayOf ℕ T)

variable {K T : Type*}

/-- a new array (`np.empty(3).view(cls)` and the three assignments, `geometry/__init__.py:27-39`;
`ndarray.copy()`). -/
def alloc (h : Mem K) (v : V3 K) : ℕ × Mem K :=
  (h.next, ⟨h.next + 1, fun a => if a = h.next then v else h.mem a⟩)

/-- an assignment into an existing array, `a[...] = v`. -/
def write (h : Mem K) (a : ℕ) (v : V3 K) : Mem K := { h with mem := fun b => if b = a then v else h.mem b }

/-- the attributes of an object given one by one. -/
def fields {α : Type*} (o d rxO ryO rxD ryD : α) : Fld → α
  | .o => o
  | .d => d
  | .rxOrigin => rxO
  | .ryOrigin => ryO
  | .rxDirection => rxD
  | .ryDirection => ryD

section
variable [Field K]

/-- `Ray.__init__` and `RayDifferential.__init__` (`geometry/__init__.py:290-298, 334-342`): `o` and `d`
are addresses of the arguments. -/
def construct (h : Mem K) (o d : ℕ) (mint maxt : T) (depth : ℤ) (time : T) : RayOf ℕ T × Mem K :=
  let (a, h) := alloc h ⟨(h.mem o).x, (h.mem o).y, (h.mem o).z⟩
  let (b, h) := alloc h ⟨(h.mem d).x, (h.mem d).y, (h.mem d).z⟩
  let (c, h) := alloc h ⟨0, 0, 0⟩
  let (e, h) := alloc h ⟨0, 0, 0⟩
  let (f, h) := alloc h ⟨0, 0, 0⟩
  let (g, h) := alloc h ⟨0, 0, 0⟩
  (⟨fields a b c e f g, mint, maxt, depth, time, false⟩, h)

/-- `from_parent` (`geometry/__init__.py:305-311, 344-350`). -/
def fromParent (h : Mem K) (o d : ℕ) (r : RayOf ℕ T) (mint maxt : T) : RayOf ℕ T × Mem K :=
  construct h o d mint maxt (r.depth + 1) r.time

/-- `from_ray` (`geometry/__init__.py:313-318, 352-357`). -/
def fromRay (h : Mem K) (r : RayOf ℕ T) : RayOf ℕ T × Mem K :=
  construct h (r.arr .o) (r.arr .d) r.mint r.maxt r.depth r.time

/-- `RayDifferential.from_rd` (`geometry/__init__.py:359-371`). -/
def fromRd (h : Mem K) (r : RayOf ℕ T) : RayOf ℕ T × Mem K :=
  let (q, h) := construct h (r.arr .o) (r.arr .d) r.mint r.maxt r.depth r.time
  let (c, h) := alloc h (h.mem (r.arr .rxOrigin))
  let (e, h) := alloc h (h.mem (r.arr .ryOrigin))
  let (f, h) := alloc h (h.mem (r.arr .rxDirection))
  let (g, h) := alloc h (h.mem (r.arr .ryDirection))
  ({ q with hasDiff := r.hasDiff, arr := fields (q.arr .o) (q.arr .d) c e f g }, h)

/-- `scale_differential` (`geometry/__init__.py:373-378`): the four attributes are bound to new arrays. -/
def scaleDifferential (h : Mem K) (r : RayOf ℕ T) (s : K) : RayOf ℕ T × Mem K :=
  let (c, h) := alloc h (h.mem (r.arr .o) + s * (h.mem (r.arr .rxOrigin) - h.mem (r.arr .o)))
  let (e, h) := alloc h (h.mem (r.arr .o) + s * (h.mem (r.arr .ryOrigin) - h.mem (r.arr .o)))
  let (f, h) := alloc h (h.mem (r.arr .d) + s * (h.mem (r.arr .rxDirection) - h.mem (r.arr .d)))
  let (g, h) := alloc h (h.mem (r.arr .d) + s * (h.mem (r.arr .ryDirection) - h.mem (r.arr .d)))
  ({ r with arr := fields (r.arr .o) (r.arr .d) c e f g }, h)
end

/-- one step of a program: make a point or vector, overwrite one in place, make a ray from two of them,
make a ray from a parent, copy a ray, overwrite one of a ray's arrays in place (`ray.d *= -1`,
`ray.o.x = 0`, …), set its numbers, set its flag, scale its differentials.  Objects are named by their
number in the order of creation. -/
inductive Op (K T : Type*)
  | point (v : V3 K)
  | setPoint (i : ℕ) (v : V3 K)
  | ray (o d : ℕ) (mint maxt : T) (depth : ℤ) (time : T)
  | parent (o d r : ℕ) (mint maxt : T)
  | fromRay (r : ℕ)
  | fromRd (r : ℕ)
  | setArr (r : ℕ) (f : Fld) (v : V3 K)
  | setNums (r : ℕ) (mint maxt : T) (depth : ℤ) (time : T)
  | setFlag (r : ℕ) (b : Bool)
  | scale (r : ℕ) (s : K)

section
variable [Field K]

/-- add the ray just made to the program's objects -/
def World.push (w : World K T) (q : RayOf ℕ T × Mem K) : World K T := { w with heap := q.2, rays := w.rays ++ [q.1] }

/-- carry out one step; `none` if it names an object that does not exist. -/
def step (w : World K T) : Op K T → Option (World K T)
  | .point v => some { w with heap := (alloc w.heap v).2, pts := w.pts ++ [(alloc w.heap v).1] }
  | .setPoint i v => (w.pts[i]?).map fun a => { w with heap := write w.heap a v }
  | .ray o d mint maxt depth time =>
    (w.pts[o]?).bind fun a => (w.pts[d]?).map fun b => w.push (construct w.heap a b mint maxt depth time)
  | .parent o d r mint maxt =>
    (w.pts[o]?).bind fun a => (w.pts[d]?).bind fun b => (w.rays[r]?).map fun q => w.push (Rays.fromParent w.heap a b q mint maxt)
  | .fromRay r => (w.rays[r]?).map fun q => w.push (Rays.fromRay w.heap q)
  | .fromRd r => (w.rays[r]?).map fun q => w.push (Rays.fromRd w.heap q)
  | .setArr r f v => (w.rays[r]?).map fun q => { w with heap := write w.heap (q.arr f) v }
  | .setNums r mint maxt depth time =>
    (w.rays[r]?).map fun q => { w with rays := w.rays.set r { q with mint := mint, maxt := maxt, depth := depth, time := time } }
  | .setFlag r b => (w.rays[r]?).map fun q => { w with rays := w.rays.set r { q with hasDiff := b } }
  | .scale r s => (w.rays[r]?).map fun q =>
      { w with heap := (scaleDifferential w.heap q s).2, rays := w.rays.set r (scaleDifferential w.heap q s).1 }

/-- a whole program -/
def run (w : World K T) : List (Op K T) → Option (World K T)
  | [] => some w
  | op :: ops => (step w op).bind fun w => run w ops

/-! ### Specification: rays as plain values -/

/-- the same objects with no memory behind them: every point is a triple, every ray is a tuple. -/
@[ext] structure Vals (K T : Type*) where
  pts : List (V3 K)
  rays : List (RayOf (V3 K) T)

/-- a new ray, without differentials -/
def newRay (o d : V3 K) (mint maxt : T) (depth : ℤ) (time : T) : RayOf (V3 K) T :=
  ⟨fields o d 0 0 0 0, mint, maxt, depth, time, false⟩

/-- differentials moved towards (or away from) the main ray -/
def scaled (q : RayOf (V3 K) T) (s : K) : RayOf (V3 K) T :=
  { q with arr := fields (q.arr .o) (q.arr .d) (q.arr .o + s * (q.arr .rxOrigin - q.arr .o)) (q.arr .o + s * (q.arr .ryOrigin - q.arr .o)) (q.arr .d + s * (q.arr .rxDirection - q.arr .d)) (q.arr .d + s * (q.arr .ryDirection - q.arr .d)) }

/-- what a program should do: a copy is an equal value, a change to one object changes that object. -/
def ideal (w : Vals K T) : Op K T → Option (Vals K T)
  | .point v => some { w with pts := w.pts ++ [v] }
  | .setPoint i v => (w.pts[i]?).map fun _ => { w with pts := w.pts.set i v }
  | .ray o d mint maxt depth time =>
    (w.pts[o]?).bind fun a => (w.pts[d]?).map fun b => { w with rays := w.rays ++ [newRay a b mint maxt depth time] }
  | .parent o d r mint maxt =>
    (w.pts[o]?).bind fun a => (w.pts[d]?).bind fun b => (w.rays[r]?).map fun q => { w with rays := w.rays ++ [newRay a b mint maxt (q.depth + 1) q.time] }
  | .fromRay r => (w.rays[r]?).map fun q => { w with rays := w.rays ++ [newRay (q.arr .o) (q.arr .d) q.mint q.maxt q.depth q.time] }
  | .fromRd r => (w.rays[r]?).map fun q => { w with rays := w.rays ++ [q] }
  | .setArr r f v => (w.rays[r]?).map fun q => { w with rays := w.rays.set r { q with arr := fun g => if g = f then v else q.arr g } }
  | .setNums r mint maxt depth time =>
    (w.rays[r]?).map fun q => { w with rays := w.rays.set r { q with mint := mint, maxt := maxt, depth := depth, time := time } }
  | .setFlag r b => (w.rays[r]?).map fun q => { w with rays := w.rays.set r { q with hasDiff := b } }
  | .scale r s => (w.rays[r]?).map fun q => { w with rays := w.rays.set r (scaled q s) }

/-- a whole program on values -/
def idealRun (w : Vals K T) : List (Op K T) → Option (Vals K T)
  | [] => some w
  | op :: ops => (ideal w op).bind fun w => idealRun w ops
end

/-- reading a ray -/
def RayOf.read (m : ℕ → V3 K) (r : RayOf ℕ T) : RayOf (V3 K) T := ⟨fun f => m (r.arr f), r.mint, r.maxt, r.depth, r.time, r.hasDiff⟩

/-- what a program sees when it reads all its objects. -/
def World.view (w : World K T) : Vals K T := ⟨w.pts.map w.heap.mem, w.rays.map (RayOf.read w.heap.mem)⟩

/-! ### Lemmas -/

/-- a place where an address is held -/
inductive Loc
  | pt (i : ℕ)
  | ray (i : ℕ) (f : Fld)
deriving DecidableEq

def World.addr (w : World K T) : Loc → Option ℕ
  | .pt i => w.pts[i]?
  | .ray i f => (w.rays[i]?).map fun r => r.arr f

/-- no address is held twice, and all are in use -/
structure Inv (w : World K T) : Prop where
  used : ∀ l a, w.addr l = some a → a < w.heap.next
  once : ∀ l l' a, w.addr l = some a → w.addr l' = some a → l = l'

/-- memory `h'` extends `h` -/
structure Ext (h h' : Mem K) : Prop where
  le : h.next ≤ h'.next
  old : ∀ a < h.next, h'.mem a = h.mem a

theorem Ext.refl (h : Mem K) : Ext h h := ⟨le_rfl, fun _ _ => rfl⟩

theorem alloc_ext {h0 h : Mem K} (e : Ext h0 h) (v : V3 K) : Ext h0 (alloc h v).2 := by
  refine ⟨by have := e.le; simp only [alloc]; omega, fun a ha => ?_⟩
  have := e.le
  have hne : a ≠ h.next := by omega
  simp only [alloc, hne, if_false]
  exact e.old a ha

theorem alloc_fst (h : Mem K) (v : V3 K) : (alloc h v).1 = h.next := rfl
theorem alloc_next (h : Mem K) (v : V3 K) : (alloc h v).2.next = h.next + 1 := rfl
theorem alloc_new (h : Mem K) (v : V3 K) (a : ℕ) (e : a = h.next) : (alloc h v).2.mem a = v := if_pos e
theorem alloc_old (h : Mem K) (v : V3 K) (a : ℕ) (e : a < h.next) : (alloc h v).2.mem a = h.mem a := if_neg (by omega)

section
variable [Field K]

/-- six distinct new addresses -/
structure Fresh (h : Mem K) (r : RayOf ℕ T) (h' : Mem K) : Prop where
  ext : Ext h h'
  new : ∀ f, h.next ≤ r.arr f ∧ r.arr f < h'.next
  inj : ∀ f g, r.arr f = r.arr g → f = g

omit [Field K] in
theorem alloc_facts {h : Mem K} {v : V3 K} {p : ℕ × Mem K} (e : alloc h v = p) :
    p.1 = h.next ∧ p.2.next = h.next + 1 ∧ p.2.mem h.next = v ∧ ∀ a < h.next, p.2.mem a = h.mem a := by
  subst e
  exact ⟨rfl, rfl, alloc_new h v _ rfl, fun a ha => alloc_old h v a ha⟩

theorem construct_fresh (h : Mem K) (o d : ℕ) (_ho : o < h.next) (hd : d < h.next) (mint maxt : T) (depth : ℤ) (time : T) :
    Fresh h (construct h o d mint maxt depth time).1 (construct h o d mint maxt depth time).2 ∧
    (construct h o d mint maxt depth time).1.read (construct h o d mint maxt depth time).2.mem = newRay (h.mem o) (h.mem d) mint maxt depth time := by
  simp only [construct]
  generalize e1 : alloc h _ = p1
  generalize e2 : alloc p1.2 _ = p2
  generalize e3 : alloc p2.2 _ = p3
  generalize e4 : alloc p3.2 _ = p4
  generalize e5 : alloc p4.2 _ = p5
  generalize e6 : alloc p5.2 _ = p6
  obtain ⟨a1, b1, c1, d1⟩ := alloc_facts e1
  obtain ⟨a2, b2, c2, d2⟩ := alloc_facts e2
  obtain ⟨a3, b3, c3, d3⟩ := alloc_facts e3
  obtain ⟨a4, b4, c4, d4⟩ := alloc_facts e4
  obtain ⟨a5, b5, c5, d5⟩ := alloc_facts e5
  obtain ⟨a6, b6, c6, d6⟩ := alloc_facts e6
  clear e1 e2 e3 e4 e5 e6
  refine ⟨⟨⟨by omega, fun a ha => ?_⟩, ?_, ?_⟩, ?_⟩
  · rw [d6 a (by omega), d5 a (by omega), d4 a (by omega), d3 a (by omega), d2 a (by omega), d1 a (by omega)]
  · intro f; cases f <;> simp only [fields] <;> omega
  · intro f g hfg
    cases f <;> cases g <;> first | rfl | (simp only [fields] at hfg; omega)
  · simp only [RayOf.read, newRay, RayOf.mk.injEq, and_true]
    funext f
    cases f <;> simp only [fields]
    · rw [d6 _ (by omega), d5 _ (by omega), d4 _ (by omega), d3 _ (by omega), d2 _ (by omega), a1, c1]
    · rw [d6 _ (by omega), d5 _ (by omega), d4 _ (by omega), d3 _ (by omega), a2, c2, d1 _ hd]
    · rw [d6 _ (by omega), d5 _ (by omega), d4 _ (by omega), a3, c3]; rfl
    · rw [d6 _ (by omega), d5 _ (by omega), a4, c4]; rfl
    · rw [d6 _ (by omega), a5, c5]; rfl
    · rw [a6, c6]; rfl

theorem fromRd_fresh (h : Mem K) (r : RayOf ℕ T) (hr : ∀ f, r.arr f < h.next) :
    Fresh h (Rays.fromRd h r).1 (Rays.fromRd h r).2 ∧ (Rays.fromRd h r).1.read (Rays.fromRd h r).2.mem = r.read h.mem := by
  obtain ⟨⟨ce, cn, ci⟩, cr⟩ := construct_fresh h (r.arr .o) (r.arr .d) (hr _) (hr _) r.mint r.maxt r.depth r.time
  simp only [Rays.fromRd]
  generalize construct h (r.arr .o) (r.arr .d) r.mint r.maxt r.depth r.time = qh at *
  obtain ⟨q, h'⟩ := qh
  simp only at ce cn ci cr ⊢
  generalize e1 : alloc h' _ = p1
  generalize e2 : alloc p1.2 _ = p2
  generalize e3 : alloc p2.2 _ = p3
  generalize e4 : alloc p3.2 _ = p4
  obtain ⟨a1, b1, c1, d1⟩ := alloc_facts e1
  obtain ⟨a2, b2, c2, d2⟩ := alloc_facts e2
  obtain ⟨a3, b3, c3, d3⟩ := alloc_facts e3
  obtain ⟨a4, b4, c4, d4⟩ := alloc_facts e4
  clear e1 e2 e3 e4
  have hle := ce.le
  have nO := cn .o
  have nD := cn .d
  have hne := mt (ci .o .d) (by decide)
  have r1 := hr .rxOrigin
  have r2 := hr .ryOrigin
  have r3 := hr .rxDirection
  have r4 := hr .ryDirection
  refine ⟨⟨⟨by omega, fun a ha => ?_⟩, ?_, ?_⟩, ?_⟩
  · rw [d4 a (by omega), d3 a (by omega), d2 a (by omega), d1 a (by omega), ce.old a ha]
  · intro f; cases f <;> simp only [fields] <;> omega
  · intro f g hfg
    cases f <;> cases g <;> first | rfl | (simp only [fields] at hfg; omega)
  · have eo : h'.mem (q.arr .o) = h.mem (r.arr .o) := congrFun (congrArg RayOf.arr cr) .o
    have ed : h'.mem (q.arr .d) = h.mem (r.arr .d) := congrFun (congrArg RayOf.arr cr) .d
    have f1 := congrArg RayOf.mint cr
    have f2 := congrArg RayOf.maxt cr
    have f3 := congrArg RayOf.depth cr
    have f4 := congrArg RayOf.time cr
    simp only [RayOf.read, newRay] at f1 f2 f3 f4
    simp only [RayOf.read, RayOf.mk.injEq]
    refine ⟨funext fun f => ?_, f1, f2, f3, f4, trivial⟩
    cases f <;> simp only [fields]
    · rw [d4 _ (by omega), d3 _ (by omega), d2 _ (by omega), d1 _ (by omega), eo]
    · rw [d4 _ (by omega), d3 _ (by omega), d2 _ (by omega), d1 _ (by omega), ed]
    · rw [d4 _ (by omega), d3 _ (by omega), d2 _ (by omega), a1, c1, ce.old _ r1]
    · rw [d4 _ (by omega), d3 _ (by omega), a2, c2, d1 _ (by omega), ce.old _ r2]
    · rw [d4 _ (by omega), a3, c3, d2 _ (by omega), d1 _ (by omega), ce.old _ r3]
    · rw [a4, c4, d3 _ (by omega), d2 _ (by omega), d1 _ (by omega), ce.old _ r4]

theorem scale_spec (h : Mem K) (r : RayOf ℕ T) (hr : ∀ f, r.arr f < h.next) (hi : ∀ f g, r.arr f = r.arr g → f = g) (s : K) :
    Ext h (scaleDifferential h r s).2 ∧
    (∀ f, (scaleDifferential h r s).1.arr f = r.arr f ∨ h.next ≤ (scaleDifferential h r s).1.arr f) ∧
    (∀ f, (scaleDifferential h r s).1.arr f < (scaleDifferential h r s).2.next) ∧
    (∀ f g, (scaleDifferential h r s).1.arr f = (scaleDifferential h r s).1.arr g → f = g) ∧
    (scaleDifferential h r s).1.read (scaleDifferential h r s).2.mem = scaled (r.read h.mem) s := by
  have nO := hr .o
  have nD := hr .d
  have hne := mt (hi .o .d) (by decide)
  have r1 := hr .rxOrigin
  have r2 := hr .ryOrigin
  have r3 := hr .rxDirection
  have r4 := hr .ryDirection
  simp only [scaleDifferential]
  generalize e1 : alloc h _ = p1
  generalize e2 : alloc p1.2 _ = p2
  generalize e3 : alloc p2.2 _ = p3
  generalize e4 : alloc p3.2 _ = p4
  obtain ⟨a1, b1, c1, d1⟩ := alloc_facts e1
  obtain ⟨a2, b2, c2, d2⟩ := alloc_facts e2
  obtain ⟨a3, b3, c3, d3⟩ := alloc_facts e3
  obtain ⟨a4, b4, c4, d4⟩ := alloc_facts e4
  clear e1 e2 e3 e4
  refine ⟨⟨by omega, fun a ha => ?_⟩, ?_, ?_, ?_, ?_⟩
  · rw [d4 a (by omega), d3 a (by omega), d2 a (by omega), d1 a (by omega)]
  · intro f; cases f <;> first | exact .inl rfl | exact .inr (by simp only [fields]; omega)
  · intro f; cases f <;> simp only [fields] <;> omega
  · intro f g hfg
    cases f <;> cases g <;> first | rfl | (simp only [fields] at hfg; omega)
  · simp only [RayOf.read, scaled, RayOf.mk.injEq, and_true]
    funext f
    cases f <;> simp only [fields]
    · rw [d4 _ (by omega), d3 _ (by omega), d2 _ (by omega), d1 _ (by omega)]
    · rw [d4 _ (by omega), d3 _ (by omega), d2 _ (by omega), d1 _ (by omega)]
    · rw [d4 _ (by omega), d3 _ (by omega), d2 _ (by omega), a1, c1]
    · rw [d4 _ (by omega), d3 _ (by omega), a2, c2, d1 _ (by omega), d1 _ (by omega)]
    · rw [d4 _ (by omega), a3, c3, d2 _ (by omega), d2 _ (by omega), d1 _ (by omega), d1 _ (by omega)]
    · rw [a4, c4, d3 _ (by omega), d3 _ (by omega), d2 _ (by omega), d2 _ (by omega), d1 _ (by omega), d1 _ (by omega)]

omit [Field K] in
theorem view_ext {w : World K T} (hw : Inv w) {h' : Mem K} (e : Ext w.heap h') :
    w.pts.map h'.mem = w.pts.map w.heap.mem ∧ w.rays.map (RayOf.read h'.mem) = w.rays.map (RayOf.read w.heap.mem) := by
  constructor
  · refine List.map_congr_left fun a ha => e.old a ?_
    obtain ⟨i, hi, rfl⟩ := List.getElem_of_mem ha
    exact hw.used (.pt i) _ (List.getElem?_eq_getElem hi)
  · refine List.map_congr_left fun r hr => ?_
    obtain ⟨i, hi, rfl⟩ := List.getElem_of_mem hr
    simp only [RayOf.read, RayOf.mk.injEq, and_true]
    funext f
    exact e.old _ (hw.used (.ray i f) _ (by simp [World.addr, hi]))

omit [Field K] in
/-- pushing a fresh ray -/
theorem push_spec {w : World K T} (hw : Inv w) (q : RayOf ℕ T) (h' : Mem K) (hq : Fresh w.heap q h') :
    Inv (w.push (q, h')) ∧ (w.push (q, h')).view = ⟨w.view.pts, w.view.rays ++ [q.read h'.mem]⟩ := by
  have ha : ∀ l a, (w.push (q, h')).addr l = some a → w.addr l = some a ∨ (∃ f, l = .ray w.rays.length f ∧ a = q.arr f) := by
    intro l a h
    cases l with
    | pt i => exact .inl h
    | ray i f =>
      simp only [World.addr, World.push] at h ⊢
      by_cases hi : i < w.rays.length
      · rw [List.getElem?_append_left hi] at h; exact .inl h
      · rw [List.getElem?_append_right (by omega)] at h
        obtain ⟨r, hr, rfl⟩ := Option.map_eq_some_iff.1 h
        have hi0 : i - w.rays.length = 0 := by
          by_contra hc
          rw [List.getElem?_eq_none (by simp only [List.length_cons, List.length_nil]; omega)] at hr
          simp at hr
        rw [hi0] at hr
        obtain rfl : q = r := by simpa using hr
        exact .inr ⟨f, by rw [show i = w.rays.length by omega], rfl⟩
  refine ⟨⟨?_, ?_⟩, ?_⟩
  · intro l a h
    change a < h'.next
    rcases ha l a h with h | ⟨f, -, rfl⟩
    · exact lt_of_lt_of_le (hw.used l a h) hq.ext.le
    · exact (hq.new f).2
  · intro l l' a h1 h2
    rcases ha l a h1 with h1 | ⟨f, rfl, rfl⟩ <;> rcases ha l' _ h2 with h2 | ⟨g, rfl, e⟩
    · exact hw.once l l' a h1 h2
    · have := hw.used l a h1; have := (hq.new g).1; omega
    · have := hw.used l' _ h2; have := (hq.new f).1; omega
    · rw [hq.inj f g e]
  · obtain ⟨e1, e2⟩ := view_ext hw hq.ext
    simp only [World.view, World.push, List.map_append, List.map_cons, List.map_nil, e1, e2]

omit [Field K] in
/-- changing what one address holds -/
theorem write_spec {w : World K T} (hw : Inv w) (l : Loc) (a : ℕ) (hl : w.addr l = some a) (v : V3 K) :
    Inv { w with heap := write w.heap a v } ∧ ({ w with heap := write w.heap a v } : World K T).view =
      match l with
      | .pt i => { w.view with pts := w.view.pts.set i v }
      | .ray i f => { w.view with rays := w.view.rays.modify i fun q => { q with arr := fun g => if g = f then v else q.arr g } } := by
  refine ⟨⟨hw.used, hw.once⟩, ?_⟩
  have other : ∀ l' b, w.addr l' = some b → (b = a ↔ l' = l) := by
    intro l' b hb
    constructor
    · rintro rfl; exact hw.once l' l _ hb hl
    · rintro rfl; rw [hl] at hb; exact (Option.some.inj hb).symm
  have hp : ∀ i b, w.pts[i]? = some b → (b = a ↔ Loc.pt i = l) := fun i b hb => other (.pt i) b hb
  have hr : ∀ i r f, w.rays[i]? = some r → (r.arr f = a ↔ Loc.ray i f = l) := fun i r f hb => other (.ray i f) (r.arr f) (by simp [World.addr, hb])
  cases l with
  | pt i =>
    apply Vals.ext
    · apply List.ext_getElem?
      intro j
      simp only [World.view, List.getElem?_map, List.getElem?_set, List.length_map]
      cases hj : w.pts[j]? with
      | none =>
        have : w.pts.length ≤ j := List.getElem?_eq_none_iff.1 hj
        by_cases hij : i = j
        · rw [if_pos hij, if_neg (by omega)]; rfl
        · rw [if_neg hij]; rfl
      | some b =>
        have hlt : j < w.pts.length := by
          by_contra hc
          rw [List.getElem?_eq_none (by omega)] at hj; simp at hj
        simp only [Option.map_some, write]
        by_cases hij : i = j
        · subst hij
          rw [if_pos rfl, if_pos hlt, if_pos ((hp i b hj).2 rfl)]
        · rw [if_neg hij, if_neg (fun hc => hij (Loc.pt.inj ((hp j b hj).1 hc)).symm)]
    · refine List.map_congr_left fun r hr' => ?_
      obtain ⟨j, hj, rfl⟩ := List.getElem_of_mem hr'
      simp only [RayOf.read, RayOf.mk.injEq, and_true]
      funext f
      have := hr j _ f (List.getElem?_eq_getElem hj)
      simp only [write]
      exact if_neg (fun hc => by cases this.1 hc)
  | ray i f =>
    apply Vals.ext
    · refine List.map_congr_left fun b hb => ?_
      obtain ⟨j, hj, rfl⟩ := List.getElem_of_mem hb
      have := hp j _ (List.getElem?_eq_getElem hj)
      simp only [write]
      exact if_neg (fun hc => by cases this.1 hc)
    · apply List.ext_getElem?
      intro j
      simp only [World.view, List.getElem?_map, List.getElem?_modify]
      cases hj : w.rays[j]? with
      | none => simp
      | some r =>
        simp only [Option.map_some, Option.map_eq_map]
        by_cases hij : i = j
        · subst hij
          rw [if_pos rfl]
          simp only [RayOf.read, Option.some.injEq, RayOf.mk.injEq, and_true]
          funext g
          simp only [write]
          by_cases hg : g = f
          · subst hg; rw [if_pos rfl, if_pos ((hr i r g hj).2 rfl)]
          · rw [if_neg hg, if_neg (fun hc => hg (Loc.ray.inj ((hr i r g hj).1 hc)).2)]
        · rw [if_neg hij]
          simp only [RayOf.read, Option.some.injEq, RayOf.mk.injEq, and_true]
          funext g
          simp only [write]
          exact if_neg (fun hc => hij (Loc.ray.inj ((hr j r g hj).1 hc)).1.symm)

omit [Field K] in
theorem addr_set {w : World K T} {i : ℕ} {q q' : RayOf ℕ T} (hi : w.rays[i]? = some q) (h' : Mem K) (l : Loc) (a : ℕ)
    (h : ({ w with heap := h', rays := w.rays.set i q' } : World K T).addr l = some a) :
    (∃ f, l = .ray i f ∧ a = q'.arr f) ∨ ((∀ f, l ≠ .ray i f) ∧ w.addr l = some a) := by
  cases l with
  | pt j => exact .inr ⟨by simp, h⟩
  | ray j f =>
    simp only [World.addr, List.getElem?_set] at h
    by_cases hij : i = j
    · subst hij
      have hlt : i < w.rays.length := by
        by_contra hc
        rw [List.getElem?_eq_none (by omega)] at hi; simp at hi
      rw [if_pos rfl, if_pos hlt] at h
      exact .inl ⟨f, rfl, (by simpa using h.symm)⟩
    · rw [if_neg hij] at h
      exact .inr ⟨fun g hc => hij (Loc.ray.inj hc).1.symm, h⟩

omit [Field K] in
/-- replacing a ray by one with the same or new arrays -/
theorem set_spec {w : World K T} (hw : Inv w) (i : ℕ) (q q' : RayOf ℕ T) (hi : w.rays[i]? = some q) (h' : Mem K) (e : Ext w.heap h')
    (ho : ∀ f, q'.arr f = q.arr f ∨ w.heap.next ≤ q'.arr f) (hn : ∀ f, q'.arr f < h'.next) (hj : ∀ f g, q'.arr f = q'.arr g → f = g) :
    Inv { w with heap := h', rays := w.rays.set i q' } ∧
    ({ w with heap := h', rays := w.rays.set i q' } : World K T).view = { w.view with rays := w.view.rays.set i (q'.read h'.mem) } := by
  have hq : ∀ f, w.addr (.ray i f) = some (q.arr f) := fun f => by simp [World.addr, hi]
  refine ⟨⟨?_, ?_⟩, ?_⟩
  · intro l a h
    rcases addr_set hi h' l a h with ⟨f, -, rfl⟩ | ⟨-, h⟩
    · exact hn f
    · exact lt_of_lt_of_le (hw.used l a h) e.le
  · intro l l' a h1 h2
    have cross : ∀ f l'', (∀ g, l'' ≠ Loc.ray i g) → w.addr l'' = some (q'.arr f) → False := by
      intro f l'' hne hh
      rcases ho f with h | h
      · exact hne f (hw.once _ _ _ hh (by rw [hq f, h]))
      · have := hw.used _ _ hh; omega
    rcases addr_set hi h' l a h1 with ⟨f, rfl, rfl⟩ | ⟨n1, h1⟩ <;> rcases addr_set hi h' l' _ h2 with ⟨g, rfl, e2⟩ | ⟨n2, h2⟩
    · rw [hj f g e2]
    · exact (cross f l' n2 h2).elim
    · subst e2; exact (cross g l n1 h1).elim
    · exact hw.once l l' a h1 h2
  · obtain ⟨e1, e2⟩ := view_ext hw e
    simp only [World.view, List.map_set, e1, e2]

theorem step_spec {w : World K T} (hw : Inv w) (op : Op K T) :
    (step w op).map World.view = ideal w.view op ∧ ∀ w', step w op = some w' → Inv w' := by
  have uP : ∀ i a, w.pts[i]? = some a → a < w.heap.next := fun i a h => hw.used (.pt i) a h
  have uR : ∀ i (r : RayOf ℕ T), w.rays[i]? = some r → ∀ f, r.arr f < w.heap.next := fun i r h f => hw.used (.ray i f) _ (by simp [World.addr, h])
  have iR : ∀ i (r : RayOf ℕ T), w.rays[i]? = some r → ∀ f g, r.arr f = r.arr g → f = g := fun i r h f g e =>
    (Loc.ray.inj (hw.once (.ray i f) (.ray i g) (r.arr f) (by simp [World.addr, h]) (by simp [World.addr, h, e]))).2
  have vP : ∀ i : ℕ, w.view.pts[i]? = (w.pts[i]?).map w.heap.mem := fun i => by simp [World.view]
  have vR : ∀ i : ℕ, w.view.rays[i]? = (w.rays[i]?).map (RayOf.read w.heap.mem) := fun i => by simp [World.view]
  cases op with
  | point v =>
    simp only [step, ideal, Option.map_some, Option.some.injEq]
    have e := alloc_ext (Ext.refl w.heap) v
    obtain ⟨e1, e2⟩ := view_ext hw e
    have ha : ∀ l a, ({ w with heap := (alloc w.heap v).2, pts := w.pts ++ [(alloc w.heap v).1] } : World K T).addr l = some a →
        w.addr l = some a ∨ (l = .pt w.pts.length ∧ a = w.heap.next) := by
      intro l a h
      cases l with
      | ray i f => exact .inl h
      | pt i =>
        simp only [World.addr] at h ⊢
        by_cases hi : i < w.pts.length
        · rw [List.getElem?_append_left hi] at h; exact .inl h
        · rw [List.getElem?_append_right (by omega)] at h
          have hi0 : i - w.pts.length = 0 := by
            by_contra hc
            rw [List.getElem?_eq_none (by simp only [List.length_cons, List.length_nil]; omega)] at h
            simp at h
          rw [hi0] at h
          exact .inr ⟨by rw [show i = w.pts.length by omega], by simpa [alloc] using h.symm⟩
    refine ⟨?_, ?_⟩
    · simp only [World.view, List.map_append, e1, e2, List.map_cons, List.map_nil]
      simp [alloc]
    · rintro w' rfl
      refine ⟨?_, ?_⟩
      · intro l a h
        change a < w.heap.next + 1
        rcases ha l a h with h | ⟨-, rfl⟩
        · have := hw.used l a h; omega
        · omega
      · intro l l' a h1 h2
        rcases ha l a h1 with h1 | ⟨rfl, rfl⟩ <;> rcases ha l' _ h2 with h2 | ⟨rfl, e⟩
        · exact hw.once l l' a h1 h2
        · have := hw.used l a h1; omega
        · have := hw.used l' _ h2; omega
        · rfl
  | setPoint i v =>
    simp only [step, ideal, vP]
    cases hi : w.pts[i]? with
    | none => simp
    | some a =>
      obtain ⟨h1, h2⟩ := write_spec hw (.pt i) a hi v
      simp only [Option.map_some, Option.some.injEq]
      exact ⟨h2, by rintro w' rfl; exact h1⟩
  | ray o d mint maxt depth time =>
    simp only [step, ideal, vP]
    cases ho : w.pts[o]? with
    | none => simp
    | some a =>
      cases hd : w.pts[d]? with
      | none => simp
      | some b =>
        obtain ⟨h1, h2⟩ := construct_fresh w.heap a b (uP o a ho) (uP d b hd) mint maxt depth time
        obtain ⟨g1, g2⟩ := push_spec hw _ _ h1
        simp only [Option.map_some, Option.bind_some, Option.some.injEq]
        exact ⟨by rw [g2, h2], by rintro w' rfl; exact g1⟩
  | parent o d r mint maxt =>
    simp only [step, ideal, vP, vR]
    cases ho : w.pts[o]? with
    | none => simp
    | some a =>
      cases hd : w.pts[d]? with
      | none => simp
      | some b =>
        cases hr : w.rays[r]? with
        | none => simp
        | some q =>
          obtain ⟨h1, h2⟩ := construct_fresh w.heap a b (uP o a ho) (uP d b hd) mint maxt (q.depth + 1) q.time
          obtain ⟨g1, g2⟩ := push_spec hw _ _ h1
          simp only [Option.map_some, Option.bind_some, Option.some.injEq]
          exact ⟨by rw [show Rays.fromParent w.heap a b q mint maxt = construct w.heap a b mint maxt (q.depth + 1) q.time from rfl, g2, h2]; rfl,
            by rintro w' rfl; exact g1⟩
  | fromRay r =>
    simp only [step, ideal, vR]
    cases hr : w.rays[r]? with
    | none => simp
    | some q =>
      obtain ⟨h1, h2⟩ := construct_fresh w.heap (q.arr .o) (q.arr .d) (uR r q hr _) (uR r q hr _) q.mint q.maxt q.depth q.time
      obtain ⟨g1, g2⟩ := push_spec hw _ _ h1
      simp only [Option.map_some, Option.some.injEq]
      exact ⟨by rw [show Rays.fromRay w.heap q = construct w.heap (q.arr .o) (q.arr .d) q.mint q.maxt q.depth q.time from rfl, g2, h2]; rfl,
        by rintro w' rfl; exact g1⟩
  | fromRd r =>
    simp only [step, ideal, vR]
    cases hr : w.rays[r]? with
    | none => simp
    | some q =>
      obtain ⟨h1, h2⟩ := fromRd_fresh w.heap q (uR r q hr)
      obtain ⟨g1, g2⟩ := push_spec hw _ _ h1
      simp only [Option.map_some, Option.some.injEq]
      exact ⟨by rw [g2, h2], by rintro w' rfl; exact g1⟩
  | setArr r f v =>
    simp only [step, ideal, vR]
    cases hr : w.rays[r]? with
    | none => simp
    | some q =>
      obtain ⟨h1, h2⟩ := write_spec hw (.ray r f) (q.arr f) (by simp [World.addr, hr]) v
      simp only [Option.map_some, Option.some.injEq]
      refine ⟨?_, by rintro w' rfl; exact h1⟩
      rw [h2]
      have hv : w.view.rays[r]? = some (q.read w.heap.mem) := by rw [vR, hr]; rfl
      simp only [List.modify_eq_set_getElem?, hv, Option.map_eq_map, Option.map_some, Option.getD_some]
  | setNums r mint maxt depth time =>
    simp only [step, ideal, vR]
    cases hr : w.rays[r]? with
    | none => simp
    | some q =>
      obtain ⟨h1, h2⟩ := set_spec hw r q { q with mint := mint, maxt := maxt, depth := depth, time := time } hr w.heap (Ext.refl _)
        (fun f => .inl rfl) (uR r q hr) (iR r q hr)
      simp only [Option.map_some, Option.some.injEq]
      exact ⟨h2, by rintro w' rfl; exact h1⟩
  | setFlag r b =>
    simp only [step, ideal, vR]
    cases hr : w.rays[r]? with
    | none => simp
    | some q =>
      obtain ⟨h1, h2⟩ := set_spec hw r q { q with hasDiff := b } hr w.heap (Ext.refl _)
        (fun f => .inl rfl) (uR r q hr) (iR r q hr)
      simp only [Option.map_some, Option.some.injEq]
      exact ⟨h2, by rintro w' rfl; exact h1⟩
  | scale r s =>
    simp only [step, ideal, vR]
    cases hr : w.rays[r]? with
    | none => simp
    | some q =>
      obtain ⟨s1, s2, s3, s4, s5⟩ := scale_spec w.heap q (uR r q hr) (iR r q hr) s
      obtain ⟨h1, h2⟩ := set_spec hw r q _ hr _ s1 s2 s3 s4
      simp only [Option.map_some, Option.some.injEq]
      exact ⟨by rw [h2, s5], by rintro w' rfl; exact h1⟩

/-! ### Theorem -/

/-- the empty program state -/
def start (K T : Type*) [Field K] : World K T := ⟨⟨0, fun _ => 0⟩, [], []⟩

/-- **C156** rays are values.  Take any program that makes points, vectors and rays, copies rays with
`from_ray`, `from_rd` and `from_parent`, and changes points and rays in place, in any order and number:
what it reads afterwards is what it would read if points were triples and rays tuples of numbers.  So no
change to a ray shows in another ray it was copied from or to, or in the points it was made of, and the
other way round. -/
theorem C156_rays_are_values (ops : List (Op K T)) : (run (start K T) ops).map World.view = idealRun ⟨[], []⟩ ops := by
  have gen : ∀ (ops : List (Op K T)) (w : World K T), Inv w → (run w ops).map World.view = idealRun w.view ops := by
    intro ops
    induction ops with
    | nil => intro w _; rfl
    | cons op ops ih =>
      intro w hw
      obtain ⟨h1, h2⟩ := step_spec hw op
      simp only [run, idealRun, ← h1]
      cases hs : step w op with
      | none => rfl
      | some w' => exact ih w' (h2 w' hs)
  refine gen ops (start K T) ⟨?_, ?_⟩
  · intro l a h; cases l <;> simp [World.addr, start] at h
  · intro l l' a h; cases l <;> simp [World.addr, start] at h
end

/-- non-vacuity: a ray is copied and the copy's direction reversed in place; the original keeps its own. -/
example : ((idealRun (⟨[], []⟩ : Vals ℚ ℚ) [.point ⟨1, 2, 3⟩, .point ⟨0, 0, 1⟩, .ray 0 1 0 9 0 0, .fromRd 0, .setArr 1 .d ⟨0, 0, -1⟩]).map
    fun w => w.rays.map fun r => r.arr .d) = some [⟨0, 0, 1⟩, ⟨0, 0, -1⟩] := by
  simp [idealRun, ideal, newRay, fields]

end Verif.Rays
