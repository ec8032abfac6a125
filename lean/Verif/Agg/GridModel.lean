import Verif.BVH.Model
import Verif.BBox.SlabProps
import Verif.BBox.Props
import Verif.Agg.Simple

/-!
# Uniform grid (`GridAccel`, `Voxel`; `pytracer/aggregate/aggregate.py:108-348`)

The primitives are already refined here; lazy refinement inside `Voxel.intersect` and `Voxel.intersect_p` (lines 121-135,
147-161) and its lock are the subject of `Agg/Voxel.lean`.
-/

namespace Verif.Agg
open Verif BBox BVH

section
variable {K : Type*} [Field K] [LinearOrder K] [FloorRing K]

/-- `np.clip(v, lo, hi)`. -/
def clipZ (v lo hi : ℤ) : ℤ := min (max v lo) hi

/-- the grid geometry: `bounds`, `n_voxels`, `width`, `invWidth` (`aggregate.py:183-204`). -/
structure GridGeom (K : Type*) where
  bounds : BBox K
  n : Fin 3 → ℤ
  width : Fin 3 → K
  invWidth : Fin 3 → K

/-- `aggregate.py:189-204`; `cubeRoot` is `3 * len(primitives)**(1/3)` (line 192), kept as a number.
The bounds are finite with `delta[max_axis] ≠ 0`. -/
def gridGeom (b : BBox K) (cubeRoot : K) : GridGeom K :=
  let delta : Fin 3 → K := fun a => b.pMax.get a - b.pMin.get a
  let voxelsPerUnit := cubeRoot * (1 / delta b.maximumExtent)
  let n : Fin 3 → ℤ := fun a => clipZ (trunc (delta a * voxelsPerUnit)) 1 64
  let width : Fin 3 → K := fun a => delta a / (n a : K)
  ⟨b, n, width, fun a => if width a = 0 then 0 else 1 / width a⟩

/-- `pos2voxel` (`aggregate.py:234-236`). -/
def pos2voxel (g : GridGeom K) (p : V3 K) (a : Fin 3) : ℤ :=
  clipZ (trunc ((p.get a - g.bounds.pMin.get a) * g.invWidth a)) 0 (g.n a - 1)

/-- `voxel2pos` (`aggregate.py:238-239`). -/
def voxel2pos (g : GridGeom K) (i : ℤ) (a : Fin 3) : K := g.bounds.pMin.get a + (i : K) * g.width a

/-- `offset` (`aggregate.py:241-242`). -/
def offset (g : GridGeom K) (x y z : ℤ) : ℤ := z * g.n 0 * g.n 1 + y * g.n 0 + x

/-- Python `range(lo, hi)`. -/
def pyRange (lo hi : ℤ) : List ℤ := (List.range (hi - lo).toNat).map (fun i : ℕ => lo + (i : ℤ))

/-- `self.voxels[o] = Voxel([prim])` or `self.voxels[o].add_primitive(prim)` (`aggregate.py:220-226`);
`none` is an `IndexError` (a negative index would wrap in numpy; proved not to occur). -/
def addAt {P : Type*} (vox : List (Option (List P))) (o : ℤ) (p : P) : Option (List (Option (List P))) :=
  if 0 ≤ o then
    match vox[o.toNat]? with
    | none => none
    | some none => some (vox.set o.toNat (some [p]))
    | some (some l) => some (vox.set o.toNat (some (l ++ [p])))
  else none

/-- the cells a primitive is added to, in loop order (`aggregate.py:211-218`). -/
def cellsOf (g : GridGeom K) (pb : BBox K) : List ℤ :=
  let vmin := pos2voxel g pb.pMin
  let vmax := pos2voxel g pb.pMax
  (pyRange (vmin 2) (vmax 2 + 1)).flatMap fun z =>
    (pyRange (vmin 1) (vmax 1 + 1)).flatMap fun y =>
      (pyRange (vmin 0) (vmax 0 + 1)).map fun x => offset g x y z

/-- the voxel array after construction (`aggregate.py:206-226`). -/
def gridVoxels {P : Type*} (g : GridGeom K) (wb : P → BBox K) (prims : List P) :
    Option (List (Option (List P))) :=
  prims.foldlM (fun vox p => (cellsOf g (wb p)).foldlM (fun vox o => addAt vox o p) vox)
    (List.replicate (g.n 0 * g.n 1 * g.n 2).toNat none)

/-! ## The walk -/

/-- float addition -/
def fadd : F K → F K → F K
  | .fin a, .fin b => .fin (a + b)
  | .nan, _ => .nan
  | _, .nan => .nan
  | .pinf, .ninf => .nan
  | .ninf, .pinf => .nan
  | .pinf, _ => .pinf
  | _, .pinf => .pinf
  | .ninf, _ => .ninf
  | _, .ninf => .ninf

/-- float negation -/
def fneg : F K → F K
  | .fin a => .fin (-a)
  | .pinf => .ninf
  | .ninf => .pinf
  | .nan => .nan

/-- `np.argmin` of three floats: the first NaN if there is one, otherwise the first smallest. -/
def argmin3 (f : Fin 3 → F K) : Fin 3 :=
  if (f 0).isNan then 0 else if (f 1).isNan then 1 else if (f 2).isNan then 2
  else if F.lt (f 1) (f 0) then (if F.lt (f 2) (f 1) then 2 else 1)
  else if F.lt (f 2) (f 0) then 2 else 0

/-- `next_crossing[axis]` (`aggregate.py:267`, `276`): the missing parentheses are the code's. -/
def crossing (g : GridGeom K) (rayT : K) (gi : V3 K) (d : V3 (Dir K)) (pos : Fin 3 → ℤ) (a : Fin 3) : F K :=
  let i := if (d.get a).val < 0 then pos a else pos a + 1
  fadd (.fin (rayT + voxel2pos g i a)) (fneg ((F.fin (gi.get a)).divFin (d.get a).val (d.get a).negZero))

/-- `delta_t[axis]` (`aggregate.py:269`, `277`). -/
def deltaT (g : GridGeom K) (d : V3 (Dir K)) (a : Fin 3) : F K :=
  let q := (F.fin (g.width a)).divFin (d.get a).val (d.get a).negZero
  if (d.get a).val < 0 then fneg q else q

/-- `step[axis]` (`aggregate.py:270`, `278`). -/
def stepOf (d : V3 (Dir K)) (a : Fin 3) : ℤ := if (d.get a).val < 0 then -1 else 1
/-- `out[axis]` (`aggregate.py:271`, `279`). -/
def outOf (g : GridGeom K) (d : V3 (Dir K)) (a : Fin 3) : ℤ := if (d.get a).val < 0 then -1 else g.n a

/-- the walk through the grid (`aggregate.py:281-298`, `331-348`).  `visit` is what happens in a
voxel (any-hit or nearest-hit) and `maxt` reads the current `ray.maxt` from the state. -/
def walk {P σ : Type*} (g : GridGeom K) (vox : List (Option (List P))) (d : V3 (Dir K)) (visit : σ → List P → σ)
    (maxt : σ → F K) : ℕ → (Fin 3 → ℤ) → (Fin 3 → F K) → σ → Except Err σ
  | 0, _, _, _ => .error .fuel
  | fuel + 1, pos, next, st =>
    let o := offset g (pos 0) (pos 1) (pos 2)
    if o < 0 then .error .indexError
    else match vox[o.toNat]? with
    | none => .error .indexError
    | some v =>
      let st := match v with | none => st | some l => visit st l
      let a := argmin3 next
      if F.lt (maxt st) (next a) then .ok st
      else
        let pos := Function.update pos a (pos a + stepOf d a)
        if pos a = outOf g d a then .ok st
        else walk g vox d visit maxt fuel pos (Function.update next a (fadd (next a) (deltaT g d a))) st

/-- the point `ray(ray_t)` (`aggregate.py:252-258`): `mint` if that point is inside, otherwise `0`. -/
def rayStart (g : GridGeom K) (r : FRay K) (mint : K) : K :=
  if g.bounds.inside (FRay.at r mint) then mint else 0

/-- `Voxel.intersect` (`aggregate.py:139-144`). -/
def voxelIntersect {P : Type*} (first : P → Option K) (a : Acc K P) (l : List P) : Acc K P :=
  l.foldl (hitOne first) a

/-- `GridAccel.intersect` (`aggregate.py:250-298`); `mint` is the (finite) `ray.mint`. -/
def gridIntersect {P : Type*} (g : GridGeom K) (vox : List (Option (List P))) (first : P → Option K) (r : FRay K)
    (mint : K) (fuel : ℕ) : Except Err (Acc K P) :=
  if !g.bounds.inside (FRay.at r mint) && (intersectP (finBox g.bounds) r).isNone then
    .ok ⟨r.maxt, none, false⟩
  else
    let rayT := rayStart g r mint
    let gi := FRay.at r rayT
    let pos := pos2voxel g gi
    walk g vox r.d (voxelIntersect first) Acc.maxt fuel pos (crossing g rayT gi r.d pos) ⟨r.maxt, none, false⟩

/-- `GridAccel.intersect_p` (`aggregate.py:300-348`): line 305 tests the truth of a non-empty list, so
nothing is rejected. -/
def gridIntersectP {P : Type*} (g : GridGeom K) (vox : List (Option (List P))) (first : P → Option K) (r : FRay K)
    (mint : K) (fuel : ℕ) : Except Err Bool :=
  let rayT := rayStart g r mint
  let gi := FRay.at r rayT
  let pos := pos2voxel g gi
  walk g vox r.d (fun b l => b || l.any (hitP first r.maxt)) (fun _ => r.maxt) fuel pos
    (crossing g rayT gi r.d pos) false

end
end Verif.Agg
