import Verif.Model.BlockCyclic

/-!
# Model: direct access to blocks

`pnga_access_block_grid_ptr`, `pnga_access_block_ptr` (global/src/onesided.c 1540-1830) and the
local iterator `pnga_local_iterator_init/next` (global/src/iterator.c 788-929) for arrays that are
not REGULAR. Pointers are pairs (process, element offset). Simplification: Integer arithmetic
without overflow; world group.
-/

namespace GA.Model

/-- `ldidx[i]`: elements of one dimension stored before block `idx` (onesided.c 1611-1623). -/
def irrBefore (d : Int) (m : List Int) (n g c idx : Nat) : Int :=
  sumI ((forStep n c n g).map fun j : Nat =>
    if j < idx then (if j < n - 1 then m.getD (j + 1) 0 - 1 else d) - m.getD j 0 + 1 else 0)

/-- `block_idx[i] = (index[i]-proc_index[i]+1)/proc_grid[i]` (onesided.c 1683). -/
def tiledIdx (i g c : Nat) : Int := ((i : Int) - c + 1) / g

/-- `ldim = (num_blocks[i]-proc_index[i]+1)/proc_grid[i]` (onesided.c 1684). -/
def tiledCnt (n g c : Nat) : Int := ((n : Int) - c + 1) / g

/-- `lld[i]` (onesided.c 1685-1693). -/
def tiledLld (d b : Int) (n g c : Nat) : Int :=
  if ((n : Int) - c + 1) % g = 0 then
    (if d % b ≠ 0 then (tiledCnt n g c - 1) * b + d % b else tiledCnt n g c * b)
  else tiledCnt n g c * b

/-- The offset loops of onesided.c 1723-1736 and 1748-1758: the term of dimension `i` is
`lld[0]*..*lld[i-1] * lead[i] * trail[i+1]*..*trail[ndim-1]`; `pre` is the product of the `lld`
already passed. For TILED `lead[i] = block_idx[i]*block_dims[i]`, for TILED_IRREG
`lead[i] = ldidx[i]`. -/
def tileOff : (pre : Int) → (lld lead trail : List Int) → Int
  | pre, l :: lld, a :: lead, _ :: trail => pre * a * prodI trail + tileOff (pre * l) lld lead trail
  | _, _, _, _ => 0

/-- `lld[]` of a tiled array -/
def tiledLlds : (dims bd : List Int) → (ns gs cs : List Nat) → List Int
  | d :: ds, b :: bs, n :: ns, g :: gs, c :: cs => tiledLld d b n g c :: tiledLlds ds bs ns gs cs
  | _, _, _, _, _ => []

/-- `block_idx[i]*block_dims[i]` -/
def tiledLead : (bd : List Int) → (gs cs idx : List Nat) → List Int
  | b :: bs, g :: gs, c :: cs, i :: is => tiledIdx i g c * b :: tiledLead bs gs cs is
  | _, _, _, _ => []

/-- `if (block_idx[j] == block_count[j]-1) factor *= ldims[j]; else factor *= block_dims[j]`
(onesided.c 1729-1733); `ldims[j]` is the extent of the block (onesided.c 1590-1596). -/
def tiledTrail : (dims bd : List Int) → (ns gs cs idx : List Nat) → List Int
  | d :: ds, b :: bs, n :: ns, g :: gs, c :: cs, i :: is =>
    (if tiledIdx i g c = tiledCnt n g c - 1 then
      (if ((i : Int) + 1) * b > d then d else ((i : Int) + 1) * b) - ((i : Int) * b + 1) + 1
    else b) :: tiledTrail ds bs ns gs cs is
  | _, _, _, _, _, _ => []

/-- `lld[]` of an irregular tiled array (onesided.c 1611-1619) -/
def irrLlds : (dims m : List Int) → (ns gs cs : List Nat) → List Int
  | d :: ds, m, n :: ns, g :: gs, c :: cs => irrLen d m n g c :: irrLlds ds (m.drop n) ns gs cs
  | _, _, _, _, _ => []

/-- `ldidx[]` -/
def irrLead : (dims m : List Int) → (ns gs cs idx : List Nat) → List Int
  | d :: ds, m, n :: ns, g :: gs, c :: cs, i :: is =>
    irrBefore d m n g c i :: irrLead ds (m.drop n) ns gs cs is
  | _, _, _, _, _, _ => []

/-- `ldims[i] = hi - lo + 1` of a block -/
def extents : (lo hi : List Int) → List Int
  | l :: lo, h :: hi => (h - l + 1) :: extents lo hi
  | _, _ => []

/-- ScaLAPACK offset (onesided.c 1762-1767): `offset += ((index[i]-proc_index[i])/proc_grid[i])*
block_dims[i]*factor; if (i<ndim-1) factor *= ld[i]`. The last `factor` is not used, so multiplying
it with the last leading dimension as well makes no difference. -/
def slBlockOff : (dims bd : List Int) → (gs cs idx : List Nat) → (off factor : Int) → Int
  | d :: ds, b :: bs, g :: gs, c :: cs, i :: is, off, f =>
    slBlockOff ds bs gs cs is (off + ((i : Int) - c) / g * b * f) (f * slLd d b g c)
  | _, _, _, _, _, off, _ => off

/-- `index[i] < 0 || index[i] >= num_blocks[i]` is an error (onesided.c 1576-1579) -/
def idxOK : (ns idx : List Nat) → Bool
  | n :: ns, i :: is => decide (i < n) && idxOK ns is
  | _, _ => true

/-- `pnga_access_block_grid_ptr` (onesided.c 1540-1771): process, element offset and leading
dimensions of the block with coordinates `idx`; `none` when the call ends in an error. -/
def accessGrid (A : BArray) (idx : List Nat) : Option (Nat × Int × List Int) :=
  if A.kind = .cyclic then none
  else if !idxOK A.nblocks idx then none
  else
    let inode := procOfIdx A.grid idx
    let pidx := splitIdx A.grid inode
    match A.kind with
    | .tiled =>
      some (inode,
        tileOff 1 (tiledLlds A.dims A.bdims A.nblocks A.grid pidx) (tiledLead A.bdims A.grid pidx idx)
          (tiledTrail A.dims A.bdims A.nblocks A.grid pidx idx),
        (extents (unifLo A.bdims idx) (unifHi A.dims A.bdims idx)).dropLast)
    | .tiledIrreg =>
      let e := extents (irrLo A.nblocks A.mapc idx) (irrHi A.nblocks A.dims A.mapc idx)
      some (inode,
        tileOff 1 (irrLlds A.dims A.mapc A.nblocks A.grid pidx)
          (irrLead A.dims A.mapc A.nblocks A.grid pidx idx) e, e.dropLast)
    | _ =>
      some (inode, slBlockOff A.dims A.bdims A.grid pidx idx 0 1,
        slLds A.dims A.bdims A.grid pidx)

/-- `pnga_access_block_ptr` (onesided.c 1781-1830). -/
def accessBlock (A : BArray) (b : Int) : Option (Nat × Int × List Int) :=
  if b < 0 ∨ b ≥ bTotal A then none
  else
    let b := b.toNat
    if A.kind = .cyclic then
      let inode := b % A.nproc
      some (inode,
        sumI ((forStep b inode b A.nproc).map fun i => blkSize (bOwns A i).1 (bOwns A i).2),
        (extents (bOwns A b).1 (bOwns A b).2).dropLast)
    else accessGrid A (splitIdx A.nblocks b)

/-- What one call of `pnga_local_iterator_next` hands out. -/
structure LItem where
  lo : List Int
  hi : List Int
  proc : Nat
  off : Int
  ld : List Int
deriving Repr, DecidableEq

/-- Repeated calls of `pnga_local_iterator_next` by process `p` on a simple block-cyclic array
(iterator.c 885-890), starting at `count`. `none` when a call ends in an error. -/
def localCyclic (A : BArray) : (fuel count : Nat) → Option (List LItem)
  | 0, _ => none
  | f + 1, count =>
    if count ≥ bTotal A then some []
    else
      match accessBlock A count, localCyclic A f (count + A.nproc) with
      | some (q, off, ld), some rest =>
        some (⟨(bOwns A count).1, (bOwns A count).2, q, off, ld⟩ :: rest)
      | _, _ => none

/-- The same for arrays on a process grid (iterator.c 891-927); `pidx` are the coordinates of
process `p`. -/
def localGrid (A : BArray) (pidx : List Nat) : (fuel : Nat) → (index : List Nat) → Option (List LItem)
  | 0, _ => none
  | f + 1, index =>
    if bLastOut A.nblocks index then some []
    else
      let lo := itLo A index
      let hi := if A.kind = .tiledIrreg then irrHi A.nblocks A.dims A.mapc index
        else unifHi A.dims A.bdims index
      match accessGrid A index, localGrid A pidx f (bInc A.grid A.nblocks pidx index) with
      | some (q, off, ld), some rest => some (⟨lo, hi, q, off, ld⟩ :: rest)
      | _, _ => none

/-- All blocks handed out to process `p` by `pnga_local_iterator_init` (iterator.c 788-840) and
repeated `pnga_local_iterator_next`. -/
def localIter (A : BArray) (p : Nat) : Option (List LItem) :=
  if A.kind = .cyclic then localCyclic A (bTotal A + 1) p
  else localGrid A (splitIdx A.grid p) (bTotal A + 1) (splitIdx A.grid p)

end GA.Model
