import Verif.BBox.Model
import Verif.BBox.Slab
import Mathlib.Algebra.Order.Floor.Ring

/-!
# Bounding volume hierarchy (`pytracer/aggregate/accelerator/bvh.py`)
-/

namespace Verif.BVH

/-- the exceptions the modelled code can raise; `fuel` is a model artefact (proved unreachable) -/
inductive Err | assertion | typeError | indexError | attributeError | fuel
deriving DecidableEq, Repr

/-- `_BVHPrimitive` (`bvh.py:31-38`): index into `self.primitives` and bounds. -/
structure BPrim (K : Type*) where
  primIdx : ℕ
  bounds : BBox K

/-- `_BVHNode` (`bvh.py:40-58`): a leaf (`init_leaf`) or an interior node (`init_inter`). -/
inductive Node (K : Type*) where
  | leaf (first n : ℕ) (bounds : BBox K)
  | inter (axis : Fin 3) (c0 c1 : Node K) (bounds : BBox K)

/-- the `bounds` attribute of a node. -/
def Node.bounds {K : Type*} : Node K → BBox K
  | .leaf _ _ b => b
  | .inter _ _ _ b => b

/-- number of nodes of a tree (specification helper). -/
def Node.size {K : Type*} : Node K → ℕ
  | .leaf _ _ _ => 1
  | .inter _ a b _ => 1 + a.size + b.size

/-- levels of interior nodes (specification helper). -/
def Node.height {K : Type*} : Node K → ℕ
  | .leaf _ _ _ => 0
  | .inter _ a b _ => 1 + max a.height b.height

/-- number of primitives of a tree (specification helper). -/
def Node.count {K : Type*} : Node K → ℕ
  | .leaf _ n _ => n
  | .inter _ a b _ => a.count + b.count

/-! ## Construction -/

section Build
variable {K : Type*} [Field K] [LinearOrder K]

/-- `self.centroid = .5 * (bbox.pMin + bbox.pMax)` (`bvh.py:35`). -/
def BPrim.centroid (d : BPrim K) : V3 K := (1 / 2 : K) * (d.bounds.pMin + d.bounds.pMax)

/-- the loop shared by `_partition` and `_bucket_partition` (`bvh.py:112-120`, `135-150`).  `p` is
the test on one element, which may raise.  The segment `data[start:end]` is a list, so `i` and `k`
are relative to `start`.  Result: the rearranged segment and the returned `k`. -/
def partLoop {α : Type*} (p : α → Except Err Bool) (l : List α) (i k : ℕ) : Except Err (List α × ℕ) :=
  if i < k then
    match l[i]?, l[k]? with
    | some a, some b =>
      match p a with
      | .error e => .error e
      | .ok true => partLoop p l (i + 1) k
      | .ok false => partLoop p ((l.set i b).set k a) i (k - 1)
    | _, _ => .error .indexError
  else .ok (l, k)
termination_by k - i

/-- `_partition` (`bvh.py:109-120`). -/
def partition (l : List (BPrim K)) (mid : K) (dim : Fin 3) : Except Err (List (BPrim K) × ℕ) :=
  partLoop (fun d => .ok (decide (d.centroid.get dim < mid))) l 0 (l.length - 1)

/-- inner `while` loop of `_insertion_sort` followed by `data[k] = dk` (`bvh.py:125-130`). -/
def shiftLoop {α : Type*} (key : α → K) (dk : α) (l : List α) : ℕ → List α
  | 0 => l.set 0 dk
  | k + 1 =>
    match l[k]? with
    | none => l
    | some x => if key dk < key x then shiftLoop key dk (l.set (k + 1) x) k else l.set (k + 1) dk

/-- outer loop of `_insertion_sort` (`bvh.py:122-130`): `i` runs over the remaining indices. -/
def sortLoop {α : Type*} (key : α → K) (l : List α) : List ℕ → List α
  | [] => l
  | i :: is =>
    match l[i]? with
    | none => l
    | some dk => sortLoop key (shiftLoop key dk l i) is

/-- `_insertion_sort` (`bvh.py:122-130`). -/
def insertionSort (l : List (BPrim K)) (dim : Fin 3) : List (BPrim K) :=
  sortLoop (fun d => d.centroid.get dim) l (List.range l.length)

/-- `INT(x)`: truncation towards zero. -/
def trunc [FloorRing K] (x : K) : ℤ := if 0 ≤ x then ⌊x⌋ else ⌈x⌉

/-- the bucket of a primitive, with the range assertion (`bvh.py:139-143`, `221-227`). -/
def bucket [FloorRing K] (d : BPrim K) (dim : Fin 3) (cb : BBox K) : Except Err ℤ :=
  let b := trunc (12 * ((d.centroid.get dim - cb.pMin.get dim) / (cb.pMax.get dim - cb.pMin.get dim)))
  let b := if b = 12 then b - 1 else b
  if b ≥ 0 ∧ b < 12 then .ok b else .error .assertion

/-- `_bucket_partition` (`bvh.py:132-150`). -/
def bucketPartition [FloorRing K] (l : List (BPrim K)) (minCost : ℕ) (dim : Fin 3) (cb : BBox K) :
    Except Err (List (BPrim K) × ℕ) :=
  partLoop (fun d => (bucket d dim cb).map (fun b => decide (b ≤ (minCost : ℤ)))) l 0 (l.length - 1)

/-- constructor parameters, and the outcome of the surface-area cost computation (`bvh.py:232-253`)
as two arbitrary functions of the segment: the chosen bucket and whether its cost is below
`n_prim`.  The costs themselves (which are NaN whenever a side is empty) are not modelled; every
theorem holds for every such pair of functions. -/
structure Config (K : Type*) where
  maxPrim : ℕ
  middle : Bool
  minCostIdx : List (BPrim K) → Fin 3 → ℕ
  costBelow : List (BPrim K) → Fin 3 → Bool

/-- union of the boxes of a non-empty segment (`bvh.py:166-168`).  The code starts from the empty
box, the identity of `union` (C01). -/
def boundsOf (d : BPrim K) (ds : List (BPrim K)) : BBox K :=
  ds.foldl (fun b e => b.unionBox e.bounds) d.bounds

/-- `centroid_bounds` of a non-empty segment (`bvh.py:181-183`). -/
def centroidBounds (d : BPrim K) (ds : List (BPrim K)) : BBox K :=
  ds.foldl (fun b e => b.unionPt e.centroid) ⟨d.centroid, d.centroid⟩

/-- the code that picks `mid` and rearranges the segment (`bvh.py:205-268`); the `TypeError` is the
mis-parenthesised leaf branch at line 263. -/
def chooseSplit [FloorRing K] (cfg : Config K) (ds : List (BPrim K)) (dim : Fin 3) (cb : BBox K) :
    Except Err (List (BPrim K) × ℕ) :=
  let n := ds.length
  let r : Except Err (List (BPrim K) × ℕ) :=
    if cfg.middle then
      partition ds ((1 / 2) * (cb.pMax.get dim + cb.pMin.get dim)) dim
    else if n ≤ 4 then .ok (insertionSort ds dim, n / 2)
    else
      match ds.mapM (fun d => bucket d dim cb) with   -- lines 220-227: the assertions
      | .error e => .error e
      | .ok _ =>
        if n > cfg.maxPrim ∨ cfg.costBelow ds dim then
          match bucketPartition ds (cfg.minCostIdx ds dim) dim cb with
          | .error e => .error e
          | .ok (l, mid) => .ok (l, if mid = 0 then mid + 1 else if mid = n then mid - 1 else mid)
        else .error .typeError
  match r with
  | .error e => .error e
  | .ok (l, mid) => if mid = n then .error .assertion else if mid = 0 then .error .assertion else .ok (l, mid)

/-- appending the primitives of a leaf (`bvh.py:173-175`, `190-192`): `self.primitives[prim_idx]`. -/
def appendLeaf {P : Type*} (prims : List P) (ds : List (BPrim K)) (ord : List P) : Except Err (List P) :=
  match ds.mapM (fun d => prims[d.primIdx]?) with
  | none => .error .indexError
  | some ps => .ok (ord ++ ps)

/-- `_recursive_build` (`bvh.py:152-275`) on the segment `ds = data[start:end]`, with the two
accumulators `ordered_prims` and `segment[2]`.  Simplification: the in-place segment of one shared
list is passed as a list; the recursion limit of the interpreter is not modelled; `fuel` bounds the
recursion and is proved sufficient. -/
def build [FloorRing K] {P : Type*} (cfg : Config K) (prims : List P) :
    ℕ → List (BPrim K) → List P → ℕ → Except Err (Node K × List P × ℕ)
  | 0, _, _, _ => .error .fuel
  | _ + 1, [], _, _ => .error .assertion
  | fuel + 1, d :: ds, ord, total =>
    let seg := d :: ds
    let n := seg.length
    let bbox := boundsOf d ds
    let leaf : Except Err (Node K × List P × ℕ) :=
      match appendLeaf prims seg ord with
      | .error e => .error e
      | .ok ord' => .ok (.leaf ord.length n bbox, ord', total + 1)
    let split (dim : Fin 3) (l : List (BPrim K)) (mid : ℕ) : Except Err (Node K × List P × ℕ) :=
      match build cfg prims fuel (l.take mid) ord (total + 1) with
      | .error e => .error e
      | .ok (c0, ord1, t1) =>
        match build cfg prims fuel (l.drop mid) ord1 t1 with
        | .error e => .error e
        | .ok (c1, ord2, t2) => .ok (.inter dim c0 c1 (c0.bounds.unionBox c1.bounds), ord2, t2)
    if n = 1 then leaf
    else
      let cb := centroidBounds d ds
      let dim := cb.maximumExtent
      if cb.pMax.get dim = cb.pMin.get dim then
        if n ≤ cfg.maxPrim then leaf
        else split dim seg (n / 2)
      else
        match chooseSplit cfg seg dim cb with
        | .error e => .error e
        | .ok (l, mid) => split dim l mid

end Build

/-! ## Flattening -/

/-- `_LinearNode` (`bvh.py:60-66`). -/
structure LNode (K : Type*) where
  bounds : Option (BBox K)
  offset : ℕ
  nPrim : ℕ
  axis : Fin 3

/-- a fresh `_LinearNode()` (`bvh.py:62`). -/
def LNode.fresh {K : Type*} : LNode K := ⟨none, 0, 0, 0⟩

/-- `_flatten_tree` (`bvh.py:277-293`): the node array and `offset[0]` are threaded; the third
component is the returned `off`.  A leaf with no primitive would be taken for an interior node with
missing children (`AttributeError`). -/
def flatten {K : Type*} : Node K → List (LNode K) → ℕ → Except Err (List (LNode K) × ℕ × ℕ)
  | .leaf first n b, nodes, off =>
    match nodes[off]? with
    | none => .error .indexError
    | some ln =>
      if n > 0 then .ok (nodes.set off { ln with bounds := some b, offset := first, nPrim := n }, off + 1, off)
      else .error .attributeError
  | .inter axis c0 c1 b, nodes, off =>
    match nodes[off]? with
    | none => .error .indexError
    | some ln =>
      match flatten c0 (nodes.set off { ln with bounds := some b, axis := axis, nPrim := 0 }) (off + 1) with
      | .error e => .error e
      | .ok (nodes1, off1, _) =>
        match flatten c1 nodes1 off1 with
        | .error e => .error e
        | .ok (nodes2, off2, ret) =>
          .ok (nodes2.modify off (fun x => { x with offset := ret }), off2, off)

/-! ## Traversal -/

section Traverse
variable {K : Type*} [Field K] [LinearOrder K]

/-- product of a finite number and a float (`0 * inf` is NaN). -/
def mulFin (a : K) : F K → F K
  | .fin x => .fin (a * x)
  | .pinf => if a = 0 then .nan else if 0 < a then .pinf else .ninf
  | .ninf => if a = 0 then .nan else if 0 < a then .ninf else .pinf
  | .nan => .nan

/-- `dir_neg[i] = ray.d[i] < 0.` (`bvh.py:328`); `-0.0 < 0.` is false. -/
def dirNeg (d : Dir K) : Bool := decide (d.val < 0)

/-- entry and exit parameter of one slab (`bvh.py:298-301`, `310-311`): `bounds[dir_neg]` and
`bounds[1 - dir_neg]` times `inv_dir = 1. / ray.d`. -/
def slab (lo hi o : K) (d : Dir K) : F K × F K :=
  let inv := (F.fin (1 : K)).divFin d.val d.negZero
  let near := if dirNeg d then hi else lo
  let far := if dirNeg d then lo else hi
  (mulFin (near - o) inv, mulFin (far - o) inv)

/-- `_intersect_p` (`bvh.py:295-320`). -/
def boxHit (b : BBox K) (r : FRay K) : Bool :=
  let x := slab b.pMin.x b.pMax.x r.o.x r.d.x
  let y := slab b.pMin.y b.pMax.y r.o.y r.d.y
  if F.gt x.1 y.2 || F.gt y.1 x.2 then false
  else
    let tmin := if F.gt y.1 x.1 then y.1 else x.1
    let tmax := if F.lt y.2 x.2 then y.2 else x.2
    let z := slab b.pMin.z b.pMax.z r.o.z r.d.z
    if F.gt tmin z.2 || F.gt z.1 tmax then false
    else
      let tmin := if F.gt z.1 tmin then z.1 else tmin
      let tmax := if F.lt z.2 tmax then z.2 else tmax
      F.lt tmin r.maxt && F.gt tmax r.mint

/-- what the traversal mutates: `ray.maxt`, the primitive recorded in `isect`, and `hit`. -/
structure Acc (K P : Type*) where
  maxt : F K
  isect : Option P
  hit : Bool

/-- `primitive.intersect(ray, isect)` (`aggregate/primitive.py:89-108` for geometric primitives) for
one fixed ray.  A primitive is described by its first hit parameter at or after `mint`, if any
(`first`); it reports a hit exactly when that parameter is not beyond the current `maxt`, and then
overwrites `isect` and lowers `ray.maxt`.  The shape code behind `first` is modelled separately
(C40-C42). -/
def hitOne {P : Type*} (first : P → Option K) (a : Acc K P) (p : P) : Acc K P :=
  match first p with
  | none => a
  | some t => if F.le (.fin t) a.maxt then ⟨.fin t, some p, true⟩ else a

/-- `primitive.intersect_p(ray)` for the same description. -/
def hitP {P : Type*} (first : P → Option K) (maxt : F K) (p : P) : Bool :=
  match first p with
  | none => false
  | some t => F.le (.fin t) maxt

/-- `self.primitives[node.offset + i] for i in range(node.n_prim)` (`bvh.py:339-340`, `384-385`);
`none` is an `IndexError`. -/
def leafPrims {P : Type*} (prims : List P) (off n : ℕ) : Option (List P) :=
  if off + n ≤ prims.length then some ((prims.drop off).take n) else none

/-- the `while True` loop of `intersect` (`bvh.py:326-365`).  `todo` is the used part of the 64-slot
array, most recent first: pushing onto 64 used slots is the `IndexError` of line 350/355. -/
def loop {P : Type*} (nodes : List (LNode K)) (prims : List P) (first : P → Option K) (r : FRay K) :
    ℕ → ℕ → List ℕ → Acc K P → Except Err (Acc K P)
  | 0, _, _, _ => .error .fuel
  | fuel + 1, idx, todo, acc =>
    match nodes[idx]? with
    | none => .error .indexError
    | some node =>
      match node.bounds with
      | none => .error .attributeError
      | some b =>
        if boxHit b { r with maxt := acc.maxt } then
          if node.nPrim > 0 then
            match leafPrims prims node.offset node.nPrim with
            | none => .error .indexError
            | some ps =>
              let acc := ps.foldl (hitOne first) acc
              match todo with
              | [] => .ok acc
              | j :: rest => loop nodes prims first r fuel j rest acc
          else if todo.length ≥ 64 then .error .indexError
          else if dirNeg (r.d.get node.axis) then
            loop nodes prims first r fuel node.offset ((idx + 1) :: todo) acc
          else
            loop nodes prims first r fuel (idx + 1) (node.offset :: todo) acc
        else
          match todo with
          | [] => .ok acc
          | j :: rest => loop nodes prims first r fuel j rest acc

/-- the `while True` loop of `intersect_p` (`bvh.py:378-410`). -/
def loopP {P : Type*} (nodes : List (LNode K)) (prims : List P) (first : P → Option K) (r : FRay K) :
    ℕ → ℕ → List ℕ → Except Err Bool
  | 0, _, _ => .error .fuel
  | fuel + 1, idx, todo =>
    match nodes[idx]? with
    | none => .error .indexError
    | some node =>
      match node.bounds with
      | none => .error .attributeError
      | some b =>
        if boxHit b r then
          if node.nPrim > 0 then
            match leafPrims prims node.offset node.nPrim with
            | none => .error .indexError
            | some ps =>
              if ps.any (hitP first r.maxt) then .ok true
              else
                match todo with
                | [] => .ok false
                | j :: rest => loopP nodes prims first r fuel j rest
          else if todo.length ≥ 64 then .error .indexError
          else if dirNeg (r.d.get node.axis) then
            loopP nodes prims first r fuel node.offset ((idx + 1) :: todo)
          else
            loopP nodes prims first r fuel (idx + 1) (node.offset :: todo)
        else
          match todo with
          | [] => .ok false
          | j :: rest => loopP nodes prims first r fuel j rest

end Traverse

/-! ## The whole object -/

section Whole
variable {K : Type*} [Field K] [LinearOrder K] [FloorRing K]

/-- a constructed `BVH`: `self.primitives`, `self.nodes` (`None` for no primitive). -/
structure Bvh (K P : Type*) where
  primitives : List P
  nodes : Option (List (LNode K))

/-- `build_data` (`bvh.py:91`). -/
def buildData {P : Type*} (wb : P → BBox K) (prims : List P) : List (BPrim K) :=
  (prims.zipIdx).map (fun x => ⟨x.2, wb x.1⟩)

/-- `BVH.__init__` after refinement (`bvh.py:85-107`); `wb` is `world_bound()` of the refined
primitives.  (`method='equal'` raises `AttributeError` in the code and is not a `Config`.) -/
def mk {P : Type*} (cfg : Config K) (wb : P → BBox K) (prims : List P) : Except Err (Bvh K P) :=
  if prims.length = 0 then .ok ⟨prims, none⟩
  else
    match build cfg prims prims.length (buildData wb prims) [] 0 with
    | .error e => .error e
    | .ok (root, ordered, total) =>
      match flatten root (List.replicate total LNode.fresh) 0 with
      | .error e => .error e
      | .ok (nodes, _, _) => .ok ⟨ordered, some nodes⟩

/-- `BVH.world_bound` (`bvh.py:412-415`) when there is at least one node. -/
def Bvh.worldBound? {P : Type*} (b : Bvh K P) : Option (BBox K) :=
  match b.nodes with
  | none => none
  | some ns => (ns[0]?).bind (·.bounds)

/-- `BVH.intersect` (`bvh.py:322-365`). -/
def Bvh.intersect {P : Type*} (b : Bvh K P) (first : P → Option K) (r : FRay K) (fuel : ℕ) :
    Except Err (Acc K P) :=
  match b.nodes with
  | none => .ok ⟨r.maxt, none, false⟩
  | some ns => loop ns b.primitives first r fuel 0 [] ⟨r.maxt, none, false⟩

/-- `BVH.intersect_p` (`bvh.py:367-410`). -/
def Bvh.intersectP {P : Type*} (b : Bvh K P) (first : P → Option K) (r : FRay K) (fuel : ℕ) :
    Except Err Bool :=
  match b.nodes with
  | none => .ok false
  | some ns => loopP ns b.primitives first r fuel 0 []

end Whole
end Verif.BVH

namespace Verif.BVH
section Cost
variable {K : Type*} [Field K] [LinearOrder K] [FloorRing K]

/-- surface area of the union of the boxes of a side, times its count (`bvh.py:238-247`).  An empty
side contributes `0`; in the code it would be NaN, but no side is ever empty because the extreme
centroids sit in the first and last bucket. -/
def sideCost : List (BPrim K) → K
  | [] => 0
  | d :: ds => ((d :: ds).length : K) * (boundsOf d ds).surfaceArea

/-- is the primitive in a bucket `≤ i`? -/
def inLow (dim : Fin 3) (cb : BBox K) (i : ℕ) (d : BPrim K) : Bool :=
  match bucket d dim cb with
  | .ok b => decide (b ≤ (i : ℤ))
  | .error _ => false

/-- `costs[i]` (`bvh.py:233-247`). -/
def cost (d : BPrim K) (ds : List (BPrim K)) (dim : Fin 3) (i : ℕ) : K :=
  let cb := centroidBounds d ds
  let lo := (d :: ds).filter (inLow dim cb i)
  let hi := (d :: ds).filter (fun e => !inLow dim cb i e)
  1 / 8 + (sideCost lo + sideCost hi) / (boundsOf d ds).surfaceArea

/-- `np.argmin(costs)` (`bvh.py:250`): the first index of the smallest cost. -/
def argminCost (d : BPrim K) (ds : List (BPrim K)) (dim : Fin 3) : ℕ :=
  (List.range 10).foldl (fun best i => if cost d ds dim (i + 1) < cost d ds dim best then i + 1 else best) 0

/-- the configuration of `BVH(p, max_prim_per_node, method)` with the costs computed as in the code
(`bvh.py:232-253`). -/
def codeConfig (maxPrim : ℕ) (middle : Bool) : Config K where
  maxPrim := maxPrim
  middle := middle
  minCostIdx := fun l dim => match l with | [] => 0 | d :: ds => argminCost d ds dim
  costBelow := fun l dim => match l with
    | [] => false
    | d :: ds => decide (cost d ds dim (argminCost d ds dim) < ((d :: ds).length : K))

end Cost
end Verif.BVH
