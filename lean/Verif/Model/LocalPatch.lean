import Verif.Model.BlockAccess

/-!
# Model: element-wise operations on the local parts of an array

The local iterator on all kinds of arrays (global/src/iterator.c 788-929), `pnga_patch_intersect`,
`snga_set_patch_value`, `snga_scale_patch_value`, `pnga_fill_patch`, `pnga_scale_patch`,
`pnga_zero_patch` (global/src/global.npatch.c), `pnga_zero`, `pnga_scale`
(global/src/global.nalg.c) and `pnga_fill` (global/src/base.c).

Every process touches memory cells of its own; what it does is given as the list of the cells it
touches, in the order of its loops. The processes run at the same time: an execution of the
operation is any interleaving, and the model allows any order of the touched cells.
Simplifications: element values are abstract (one of the types C_INT .. C_SCPL; other types end in
`pnga_error`), Integer arithmetic without overflow, world group, no array restriction.
-/

namespace GA.Model

/-- A global array: REGULAR on `nproc` processes, or one of the block-cyclic layouts. -/
inductive GArr where
  | reg (A : RegArray) (nproc : Nat)
  | blk (A : BArray)

/-- dimensions -/
def GArr.dims : GArr → List Int
  | .reg A _ => A.dims
  | .blk A => A.dims

/-- number of processes (`GAnproc`) -/
def GArr.nproc : GArr → Nat
  | .reg _ n => n
  | .blk A => A.nproc

/-- `for (i..) if (phi[i]<plo[i]) return 0` (iterator.c 873-875): some dimension is empty. -/
def anyEmpty : (lo hi : List Int) → Bool
  | l :: lo, h :: hi => decide (h < l) || anyEmpty lo hi
  | _, _ => false

/-- The local iterator of process `p` on a REGULAR array (iterator.c 864-880): one block, with the
pointer of `pnga_access_ptr` (onesided.c 1499-1532), or nothing. -/
def regLocalIter (A : RegArray) (p : Nat) : List LItem :=
  let o := owns A p
  if anyEmpty o.1 o.2 then []
  else [⟨o.1, o.2, p, locOffset A p o.1, ldRem o.1 o.2 A.width⟩]

/-- `pnga_local_iterator_init/next` (iterator.c 788-929) -/
def GArr.localIter : GArr → Nat → Option (List LItem)
  | .reg A _, p => some (regLocalIter A p)
  | .blk A, p => Model.localIter A p

/-- second loop of `pnga_patch_intersect` (global.npatch.c 95-98) -/
def disjointPatch : (lo hi lop hip : List Int) → Bool
  | l :: lo, h :: hi, lp :: lop, hp :: hip =>
    decide (h < lp) || decide (hp < l) || disjointPatch lo hi lop hip
  | _, _, _, _ => false

/-- `pnga_patch_intersect` (global.npatch.c 82-105): the new `lop`, `hip`, or FALSE. -/
def patchIntersect (lo hi lop hip : List Int) : Option (List Int × List Int) :=
  if anyEmpty lo hi || anyEmpty lop hip then none
  else if disjointPatch lo hi lop hip then none
  else some (List.zipWith max lo lop, List.zipWith min hi hip)

/-- `bunit[1..]` (global.npatch.c 1538-1546): `bunit[1] = 1`,
`bunit[i] = bunit[i-1] * (hi[i-1]-lo[i-1]+1)`. The argument is the list of extents of the
dimensions 1, 2, ... -/
def bUnits : (acc : Int) → (ext : List Int) → List Int
  | acc, e :: es => acc :: bUnits (acc * e) es
  | _, [] => []

/-- `bvalue[j]` after one row (global.npatch.c 1554-1555):
`if((i+1) % bunit[j] == 0) bvalue[j]++; if(bvalue[j] > hi[j]-lo[j]) bvalue[j] = 0`. -/
def bNext1 (i u e b : Int) : Int :=
  let b' := if (i + 1) % u = 0 then b + 1 else b
  if b' > e - 1 then 0 else b'

/-- the same for the dimensions 1, 2, ... -/
def bNext (i : Int) : (units ext bv : List Int) → List Int
  | u :: us, e :: es, b :: bs => bNext1 i u e b :: bNext i us es bs
  | _, _, _ => []

/-- The loop over the rows (global.npatch.c 1550-1556): the values of
`idx = sum bvalue[j] * baseld[j-1]`; `n` rows are left, the current one has number `i`. -/
def rowLoop (base units ext : List Int) : (n : Nat) → (i : Int) → (bv : List Int) → List Int
  | 0, _, _ => []
  | n + 1, i, bv => dotI bv base :: rowLoop base units ext n (i + 1) (bNext i units ext bv)

/-- Offsets of the elements visited by `snga_set_patch_value` (global.npatch.c 1528-1648),
`snga_scale_patch_value` (1928-2066) and the other loops of this shape, relative to the pointer:
rows from the loop above, then `for(j=0;j<hi[0]-lo[0]+1;j++)` at `idx+j`.
`baseld[i] = ld[0]*..*ld[i]` is `setstride 1 ld`. -/
def patchOffs (lo hi ld : List Int) : List Int :=
  match extents lo hi with
  | [] => []
  | e0 :: es =>
    (rowLoop (setstride 1 ld) (bUnits 1 es) es (prodI es).toNat 0 (es.map fun _ => 0)).flatMap
      fun idx => (List.range e0.toNat).map fun j : Nat => idx + j

/-- `chk`: `loS[j] < loA[j]` for some `j` (global.npatch.c 1696-1702) -/
def anyLt : (s a : List Int) → Bool
  | s :: ss, a :: as => decide (s < a) || anyLt ss as
  | _, _ => false

/-- `offset += (loA[j]-loS[j])*jtmp; jtmp *= ld[j]` (global.npatch.c 1705-1711) -/
def cornerOff : (loS loA ld : List Int) → (jtmp : Int) → Int
  | s :: ss, a :: as, d :: ds, t => (a - s) * t + cornerOff ss as ds (t * d)
  | s :: _, a :: _, [], t => (a - s) * t
  | _, _, _, _ => 0

/-- Body of the loop over the local blocks in `pnga_fill_patch` (global.npatch.c 1679-1741) and
`pnga_scale_patch` (2095-2156): the cells touched in block `it`. -/
def itemPatch (lo hi : List Int) (it : LItem) : List Addr :=
  match patchIntersect lo hi it.lo it.hi with
  | none => []
  | some (loA, hiA) =>
    let offset := if anyLt it.lo loA then cornerOff it.lo loA it.ld 1 else 0
    (patchOffs loA hiA it.ld).map fun o => ((it.proc : Int), it.off + offset + o)

/-- Cells touched by process `p` in `pnga_fill_patch` (global.npatch.c 1656-1744),
`pnga_scale_patch` (2073-2160) and `pnga_zero_patch` (3130-3183). -/
def patchCells (G : GArr) (lo hi : List Int) (p : Nat) : Option (List Addr) :=
  (G.localIter p).map fun items => items.flatMap (itemPatch lo hi)

/-- `pnga_has_ghosts` (ghosts.c): some width is positive -/
def hasGhosts (A : RegArray) : Bool := A.width.any fun w => decide (0 < w)

/-- `n` consecutive cells of process `p` -/
def segment (p : Nat) (off n : Int) : List Addr :=
  (List.range n.toNat).map fun i : Nat => ((p : Int), off + i)

/-- `_lo[0] > 0` -/
def headPos : List Int → Bool
  | l :: _ => decide (0 < l)
  | [] => false

/-- `GET_ELEMS` (global.nalg.c 39-45): number of elements of the local block; "layout problem" if
a leading dimension differs from the extent. -/
def getElems (lo hi ld : List Int) : Option Int :=
  if ld = (extents lo hi).dropLast then some (prodI (extents lo hi)) else none

/-- `pnga_access_ptr` on the own block and `GET_ELEMS`, then a loop over all elements: the branch
for arrays without ghost cells in `pnga_zero` (global.nalg.c 97-133) and `pnga_scale` (625-681).
`pnga_access_ptr` ends in an error for an empty block (onesided.c 1519-1522). -/
def ownCells (A : RegArray) (p : Nat) : Option (List Addr) :=
  let o := owns A p
  if anyEmpty o.1 o.2 then none
  else (getElems o.1 o.2 (ldRem o.1 o.2 A.width)).map fun n => segment p (locOffset A p o.1) n

/-- Cells touched by process `p` in `pnga_zero` (global.nalg.c 60-174). -/
def zeroCells (G : GArr) (p : Nat) : Option (List Addr) :=
  match G with
  | .reg A _ =>
    let o := owns A p
    if headPos o.1 then
      if hasGhosts A then patchCells G o.1 o.2 p else ownCells A p
    else some []
  | .blk A => some (segment p 0 (bAlloc A p))

/-- Cells touched by process `p` in `pnga_scale` (global.nalg.c 597-738). -/
def scaleCells (G : GArr) (p : Nat) : Option (List Addr) :=
  match G with
  | .reg A _ =>
    let o := owns A p
    if hasGhosts A then patchCells G o.1 o.2 p
    else if headPos o.1 then ownCells A p
    else some []
  | .blk A => some (segment p 0 (bAlloc A p))

/-- Number of elements of the segment of process `p`: base.c 2783-2793 for REGULAR arrays (for a
process outside the grid `lo=0, hi=-1`, so that only the ghost widths count), `bAlloc` otherwise. -/
def segElems (G : GArr) (p : Nat) : Int :=
  match G with
  | .reg A _ => allocElems A p
  | .blk A => bAlloc A p

/-- Cells touched by process `p` in `pnga_fill` (base.c 4336-4424): the whole segment. -/
def fillCells (G : GArr) (p : Nat) : Option (List Addr) := some (segment p 0 (segElems G p))

/-- All processes together; `none` if one of them ends in an error. -/
def allCells (n : Nat) (cells : Nat → Option (List Addr)) : Option (List Addr) :=
  (mapOpt cells (List.range n)).map List.flatten

/-- apply `f` to the cells of a list, one after the other -/
def mapCells {V} (f : V → V) (as : List Addr) (m : Addr → V) : Addr → V :=
  as.foldl (fun m a => upd m a (f (m a))) m

/-- `m'` is a possible memory after all processes have applied `f` to their cells; the steps of
different processes may be interleaved in any way. -/
def Phase {V} (n : Nat) (cells : Nat → Option (List Addr)) (f : V → V) (m m' : Addr → V) : Prop :=
  ∃ l sched, allCells n cells = some l ∧ sched.Perm l ∧ m' = mapCells f sched m

end GA.Model
