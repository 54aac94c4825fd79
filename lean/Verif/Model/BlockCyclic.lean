import Verif.Model.OneSided

/-!
# Model: block-cyclic, ScaLAPACK, tiled and irregular tiled arrays

`pnga_set_block_cyclic` .. `pnga_set_tiled_irreg_proc_grid` (global/src/base.c 1806-1968),
`pnga_allocate` (base.c 2630-2745), the macros of global/src/base.h 178-319, `pnga_locate`
(base.c 757-826, branch for non-REGULAR arrays), and the non-REGULAR half of the iterator
(global/src/iterator.c 188-307 and 466-734).

Simplification: arrays on the world group without restriction (`p_handle < 0`, `num_rstrctd = 0`);
`nproc` is the number of processes (`pnga_nnodes()`, `GAnproc`). Memory is counted in elements.
-/

namespace GA.Model

/-- `distr_type` values other than REGULAR (global/src/base.h / globalp.h). -/
inductive BKind where
  | cyclic
  | scalapack
  | tiled
  | tiledIrreg
deriving Repr, DecidableEq

/-- The fields of `global_array_t` (base.h 45-105) used by the block-cyclic layouts: `bdims` is
`block_dims`, `nblocks` is `num_blocks`, `grid` is `nblock` (process grid, unused by `cyclic`),
`mapc` is used by `tiledIrreg` only. -/
structure BArray where
  kind : BKind
  dims : List Int
  bdims : List Int
  nblocks : List Nat
  grid : List Nat
  mapc : List Int
  nproc : Nat
deriving Repr, DecidableEq

/-! ## Creation -/

/-- Number of blocks in one dimension (base.c 1821-1823): `jsize = dims[i]/dims[i];
if (dims[i]%dims[i] != 0) jsize++`. -/
def numBlk (d b : Int) : Nat := (if d % b ≠ 0 then d / b + 1 else d / b).toNat

/-- the loop computing `num_blocks` -/
def numBlks : (dims bd : List Int) → List Nat
  | d :: ds, b :: bs => numBlk d b :: numBlks ds bs
  | _, _ => []

/-- `pnga_set_block_cyclic` (base.c 1806-1833): `none` for a block dimension below one. -/
def setBlockCyclic (nproc : Nat) (dims bd : List Int) : Option BArray :=
  if bd.any (· < 1) then none
  else some ⟨.cyclic, dims, bd, numBlks dims bd, [], [], nproc⟩

/-- `pnga_set_block_cyclic_proc_grid`, `pnga_set_tiled_proc_grid` (base.c 1840-1908), followed by
the check of `pnga_allocate` that the process grid uses all processes (base.c 2656-2668,
2685-2697). -/
def setProcGrid (tile : Bool) (nproc : Nat) (dims bd : List Int) (pg : List Nat) : Option BArray :=
  if bd.any (· < 1) then none
  else if pg.any (· < 1) then none
  else if gridSize pg ≠ nproc then none
  else some ⟨if tile then .tiled else .scalapack, dims, bd, numBlks dims bd, pg, [], nproc⟩

/-- The checks of `pnga_set_tiled_irreg_proc_grid` on `mapc` (base.c 1932-1950), also those of
`pnga_set_irreg_distr` (base.c 1731-1771): one axis. `ichk` is the previous entry. -/
def axisMonotone (d : Int) : (ichk : Int) → List Int → Bool
  | ichk, m :: ms => !(m < ichk) && !(m < 1 || m > d + 1) && axisMonotone d m ms
  | _, [] => true

/-- first entry of an axis, then the loop -/
def axisCheck (d : Int) : List Int → Bool
  | m :: ms => !(m < 1 || m > d + 1) && axisMonotone d m ms
  | [] => true

/-- all axes -/
def mapCheck : (nblocks : List Nat) → (dims mapc : List Int) → Bool
  | n :: ns, d :: ds, m => axisCheck d (m.take n) && mapCheck ns ds (m.drop n)
  | _, _, _ => true

/-- `nblocks[i] > dims[i]` (base.c 1924-1926) -/
def tooMany : (nblocks : List Nat) → (dims : List Int) → Bool
  | n :: ns, d :: ds => decide ((n : Int) > d) || tooMany ns ds
  | _, _ => false

/-- `pnga_set_tiled_irreg_proc_grid` (base.c 1910-1968) and the process count check of
`pnga_allocate` (base.c 2716-2728). -/
def setTiledIrreg (nproc : Nat) (dims mapc : List Int) (nblocks pg : List Nat) : Option BArray :=
  if tooMany nblocks dims then none
  else if !mapCheck nblocks dims mapc then none
  else if pg.any (· < 1) then none
  else if gridSize pg ≠ nproc then none
  else some ⟨.tiledIrreg, dims, [], nblocks, pg, mapc, nproc⟩

/-! ## Blocks -/

/-- `gam_find_block_indices`, `gam_find_proc_indices`, `gam_find_tile_proc_indices`
(base.h 178-222): `index[0] = t%n[0]; t = (t-index[i-1])/n[i-1]; index[i] = t%n[i]`. -/
def splitIdx : (ns : List Nat) → (t : Nat) → List Nat
  | n :: ns, t => (t % n) :: splitIdx ns ((t - t % n) / n)
  | [], _ => []

/-- `gam_find_block_from_indices` (base.h 281-288): Horner scheme from the last dimension. -/
def joinIdx : (ns idx : List Nat) → Nat
  | n :: ns, i :: is => joinIdx ns is * n + i
  | _, _ => 0

/-- `gam_find_proc_from_sl_indices`, `gam_find_tile_proc_from_indices` (base.h 293-319). -/
def procOfIdx : (grid idx : List Nat) → Nat
  | g :: gs, i :: is => procOfIdx gs is * g + i % g
  | _, _ => 0

/-- `lo[i] = index[i]*block_dims[i]+1` (base.h 254) -/
def unifLo : (bd : List Int) → (idx : List Nat) → List Int
  | b :: bs, i :: is => ((i : Int) * b + 1) :: unifLo bs is
  | _, _ => []

/-- `hi[i] = (index[i]+1)*block_dims[i]; if (hi[i] > dims[i]) hi[i] = dims[i]` (base.h 255-256) -/
def unifHi : (dims bd : List Int) → (idx : List Nat) → List Int
  | d :: ds, b :: bs, i :: is =>
    (if ((i : Int) + 1) * b > d then d else ((i : Int) + 1) * b) :: unifHi ds bs is
  | _, _, _ => []

/-- `lo[i] = mapc[offset+index[i]]; offset += num_blocks[i]` (base.h 266, 272) -/
def irrLo : (ns : List Nat) → (m : List Int) → (idx : List Nat) → List Int
  | n :: ns, m, i :: is => m.getD i 0 :: irrLo ns (m.drop n) is
  | _, _, _ => []

/-- `if (index[i] < num_blocks[i]-1) hi[i] = mapc[offset+index[i]+1]-1; else hi[i] = dims[i]`
(base.h 267-271) -/
def irrHi : (ns : List Nat) → (dims m : List Int) → (idx : List Nat) → List Int
  | n :: ns, d :: ds, m, i :: is =>
    (if i < n - 1 then m.getD (i + 1) 0 - 1 else d) :: irrHi ns ds (m.drop n) is
  | _, _, _, _ => []

/-- `ga_ownsM` for non-REGULAR arrays (base.h 247-274), also `pnga_distribution` (base.c
3689-3708): corners of block `b`. -/
def bOwns (A : BArray) (b : Nat) : List Int × List Int :=
  let idx := splitIdx A.nblocks b
  if A.kind = .tiledIrreg then (irrLo A.nblocks A.mapc idx, irrHi A.nblocks A.dims A.mapc idx)
  else (unifLo A.bdims idx, unifHi A.dims A.bdims idx)

/-- `block_total` (base.c 1828-1832), returned by `pnga_total_blocks` (base.c 5644-5648) -/
def bTotal (A : BArray) : Nat := gridSize A.nblocks

/-- `index[i] = (subscript[i]-1)/block_dims[i]` (base.c 777-779) -/
def unifFind : (bd x : List Int) → List Nat
  | b :: bs, x :: xs => ((x - 1) / b).toNat :: unifFind bs xs
  | _, _ => []

/-- `pnga_locate` for non-REGULAR arrays (base.c 817-823): the number of the block that holds the
element. There is no bounds check. `cand` are the floating point guesses of `findblock`. -/
def bLocate (A : BArray) (cand : List Nat) (x : List Int) : Nat :=
  joinIdx A.nblocks
    (if A.kind = .tiledIrreg then findblocks A.nblocks A.mapc cand x else unifFind A.bdims x)

/-- The process holding block `b`: `idx%nproc` for the simple layout (iterator.c 540, onesided.c
1804), the process grid otherwise (onesided.c 1581-1651). -/
def bProc (A : BArray) (b : Nat) : Nat :=
  match A.kind with
  | .cyclic => b % A.nproc
  | _ => procOfIdx A.grid (splitIdx A.nblocks b)

/-- Number of elements of a block: the loops `jtot *= bhi[j]-blo[j]+1` (iterator.c 508-511). -/
def blkSize : (lo hi : List Int) → Int
  | l :: lo, h :: hi => (h - l + 1) * blkSize lo hi
  | _, _ => 1

/-! ## Memory of one process -/

/-- The values taken by `i` in `for (i=s; i<n; i+=k)`; the first argument bounds the number of
iterations. -/
def forStep : (fuel s n k : Nat) → List Nat
  | f + 1, s, n, k => if s < n then s :: forStep f (s + k) n k else []
  | 0, _, _, _ => []

/-- sum of a list of integers -/
def sumI : List Int → Int
  | [] => 0
  | a :: as => a + sumI as

/-- `for (j=index[i]; j<num_blocks[i]; j+=skip) { imin, imax; jtot += imax-imin+1 }`
(base.c 2671-2676, 2700-2705) for one dimension. -/
def unifLen (d b : Int) (n g c : Nat) : Int :=
  sumI ((forStep n c n g).map fun j : Nat =>
    let imax := if ((j : Int) + 1) * b > d then d else ((j : Int) + 1) * b
    imax - ((j : Int) * b + 1) + 1)

/-- the same loop for an irregular tiled array (base.c 2731-2739) -/
def irrLen (d : Int) (m : List Int) (n g c : Nat) : Int :=
  sumI ((forStep n c n g).map fun j : Nat =>
    (if j < n - 1 then m.getD (j + 1) 0 - 1 else d) - m.getD j 0 + 1)

/-- `block_size *= jtot` over all dimensions (base.c 2669-2679) -/
def unifAlloc : (dims bd : List Int) → (ns gs cs : List Nat) → Int
  | d :: ds, b :: bs, n :: ns, g :: gs, c :: cs => unifLen d b n g c * unifAlloc ds bs ns gs cs
  | _, _, _, _, _ => 1

/-- `block_size *= jtot` over all dimensions (base.c 2729-2744) -/
def irrAlloc : (dims m : List Int) → (ns gs cs : List Nat) → Int
  | d :: ds, m, n :: ns, g :: gs, c :: cs => irrLen d m n g c * irrAlloc ds (m.drop n) ns gs cs
  | _, _, _, _, _ => 1

/-- Number of elements allocated by process `p` (`block_size`, base.c 2630-2745). -/
def bAlloc (A : BArray) (p : Nat) : Int :=
  match A.kind with
  | .cyclic => sumI ((forStep (bTotal A) p (bTotal A) A.nproc).map fun b =>
      blkSize (bOwns A b).1 (bOwns A b).2)
  | .tiledIrreg => irrAlloc A.dims A.mapc A.nblocks A.grid (splitIdx A.grid p)
  | _ => unifAlloc A.dims A.bdims A.nblocks A.grid (splitIdx A.grid p)

/-! ## Iterator -/

/-- Overlap test (iterator.c 486-501, 593-608): `check1 || check2` in every dimension. -/
def overlap : (blo bhi lo hi : List Int) → Bool
  | bl :: blo, bh :: bhi, l :: lo, h :: hi =>
    ((bl ≥ l && bl ≤ h) || (bh ≥ l && bh ≤ h) ||
      ((l ≥ bl && l ≤ bh) && (h ≥ bl && h ≤ bh))) && overlap blo bhi lo hi
  | _, _, _, _ => true

/-- `gam_GetBlockPatch` (iterator.c 171-179), lower corner. -/
def patchLo : (plo phi lo : List Int) → List Int
  | pl :: plo, ph :: phi, l :: lo => (if l ≤ ph ∧ l ≥ pl then l else pl) :: patchLo plo phi lo
  | _, _, _ => []

/-- `gam_GetBlockPatch` (iterator.c 171-179), upper corner. -/
def patchHi : (plo phi hi : List Int) → List Int
  | pl :: plo, ph :: phi, h :: hi => (if h ≤ ph ∧ h ≥ pl then h else ph) :: patchHi plo phi hi
  | _, _, _ => []

/-- Offset within a block (iterator.c 528-535, 656-663): `l_offset += (clo[j]-blo[j])*jtot;
jtot *= bhi[j]-blo[j]+1`. The C code treats the last dimension outside the loop because `jtot` is
not needed any more. -/
def blkOff : (clo blo bhi : List Int) → (off jtot : Int) → Int
  | c :: clo, l :: blo, h :: bhi, off, t => blkOff clo blo bhi (off + (c - l) * t) (t * (h - l + 1))
  | _, _, _, off, _ => off

/-- `ldrem[j] = bhi[j]-blo[j]+1` for `j < ndim-1` (iterator.c 526-532, 654-660). -/
def blkLd : (blo bhi : List Int) → List Int
  | l :: l' :: blo, h :: h' :: bhi => (h - l + 1) :: blkLd (l' :: blo) (h' :: bhi)
  | _, _ => []

/-- Local leading dimension of a ScaLAPACK array (iterator.c 232-236 and 668-678) in one
dimension: `d` dimension, `b` block size, `g` process grid extent, `c` process coordinate. -/
def slLd (d b g c : Int) : Int :=
  let blkDim := b * g
  let blkNum := d / blkDim
  let blkInc := d - blkNum * blkDim
  let hlf := blkInc / b
  let jinc := if blkInc > 0 then (if c < hlf then b else if c = hlf then blkInc % b else 0)
    else d % b
  blkNum * b + jinc

/-- Offset of the piece in the local part of a ScaLAPACK array (iterator.c 665-685):
`l_offset += (clo[j]-blo[j]+((blo[j]-1)/blk_dim[j])*blk_size[j])*jtot; jtot *= ldrem[j]`. -/
def slOff : (dims bd : List Int) → (grid pidx : List Nat) → (clo blo : List Int) →
    (off jtot : Int) → Int
  | d :: ds, b :: bs, g :: gs, c :: cs, x :: clo, l :: blo, off, t =>
    slOff ds bs gs cs clo blo (off + (x - l + ((l - 1) / (b * g)) * b) * t) (t * slLd d b g c)
  | _, _, _, _, _, _, off, _ => off

/-- the leading dimensions `ldrem[0..ndim-2]` -/
def slLds : (dims bd : List Int) → (grid pidx : List Nat) → List Int
  | d :: d' :: ds, b :: bs, g :: gs, c :: cs => slLd d b g c :: slLds (d' :: ds) bs gs cs
  | _, _, _, _ => []

/-- Bounds of the current block in the iterator for process grids (iterator.c 571-590). -/
def itLo (A : BArray) (idx : List Nat) : List Int :=
  if A.kind = .tiledIrreg then irrLo A.nblocks A.mapc idx else unifLo A.bdims idx

/-- irregular tiles: `if (index[j] == num_blocks[j]-1) bhi = dims; else bhi = mapc[..+1]-1`
(iterator.c 582-587) -/
def itIrrHi : (ns : List Nat) → (dims m : List Int) → (idx : List Nat) → List Int
  | n :: ns, d :: ds, m, i :: is =>
    (if i = n - 1 then d else m.getD (i + 1) 0 - 1) :: itIrrHi ns ds (m.drop n) is
  | _, _, _, _ => []

/-- see `itLo` -/
def itHi (A : BArray) (idx : List Nat) : List Int :=
  if A.kind = .tiledIrreg then itIrrHi A.nblocks A.dims A.mapc idx
  else unifHi A.dims A.bdims idx

/-- Iterator position: the fields `iproc`, `iblock`, `index`, `proc_index`, `offset` of
`_iterator_hdl` (global/src/ga_iterator.h). -/
structure BState where
  iproc : Nat
  iblock : Nat
  index : List Nat
  pidx : List Nat
  offset : Int
deriving Repr, DecidableEq

/-- `gai_iterator_reset` (iterator.c 282-307): process 0. -/
def bReset (A : BArray) : BState :=
  ⟨0, 0, splitIdx A.grid 0, splitIdx A.grid 0, 0⟩

/-- Carry loop of the block odometer (iterator.c 620-625, 710-715); the head is already
incremented. -/
def bCarry : (grid nb pidx idx : List Nat) → List Nat
  | _ :: g' :: gs, n :: ns, p :: ps, i :: i' :: is =>
    if i ≥ n then p :: bCarry (g' :: gs) ns ps ((i' + g') :: is)
    else i :: bCarry (g' :: gs) ns ps (i' :: is)
  | _, _, _, idx => idx

/-- `index[0] += nblock[0]` and the carry loop -/
def bInc (grid nb pidx idx : List Nat) : List Nat :=
  match grid, idx with
  | g :: _, i :: is => bCarry grid nb pidx ((i + g) :: is)
  | _, _ => idx

/-- `index[ndim-1] >= num_blocks[ndim-1]` (iterator.c 626, 716) -/
def bLastOut : (nb idx : List Nat) → Bool
  | [n], [i] => i ≥ n
  | _ :: n' :: ns, _ :: i' :: is => bLastOut (n' :: ns) (i' :: is)
  | _, _ => true

/-- Next position after a block of size `sz`, simple layout (iterator.c 512-521, 549-557). -/
def cycAdvance (A : BArray) (s : BState) (sz : Int) : BState :=
  if s.iblock + A.nproc ≥ bTotal A then
    { s with iproc := s.iproc + 1, iblock := s.iproc + 1, offset := 0 }
  else { s with iblock := s.iblock + A.nproc, offset := s.offset + sz }

/-- Next position after a block of size `sz`, process grid layouts (iterator.c 612-641,
702-728). -/
def gridAdvance (A : BArray) (s : BState) (sz : Int) : BState :=
  let index := bInc A.grid A.nblocks s.pidx s.index
  if bLastOut A.nblocks index then
    { s with iproc := s.iproc + 1, index := splitIdx A.grid (s.iproc + 1),
             pidx := splitIdx A.grid (s.iproc + 1), offset := 0 }
  else { s with index := index, offset := s.offset + sz }

/-- The piece returned for a block `blo..bhi` that overlaps the request (iterator.c 525-546,
644-700). -/
def bPiece (A : BArray) (s : BState) (blo bhi lo hi : List Int) : RPiece :=
  let clo := patchLo blo bhi lo
  let chi := patchHi blo bhi hi
  match A.kind with
  | .cyclic => ⟨(s.iblock % A.nproc : Nat), clo, chi, blkOff clo blo bhi 0 1 + s.offset, blkLd blo bhi⟩
  | .scalapack => ⟨(s.iproc % A.nproc : Nat), clo, chi,
      slOff A.dims A.bdims A.grid s.pidx clo blo 0 1, slLds A.dims A.bdims A.grid s.pidx⟩
  | _ => ⟨(s.iproc % A.nproc : Nat), clo, chi, blkOff clo blo bhi 0 1 + s.offset, blkLd blo bhi⟩

/-- One round of the loop in `gai_iterator_next` (iterator.c 466-734): the block visited, and the
next position. `gai_iterator_next` repeats rounds until the block overlaps the request. The
statement `if (iblock == iproc) offset = 0` at the start of each call has no effect beyond the
initial reset, because `offset` is set to zero whenever `iblock` is set to `iproc`. -/
def bRound (A : BArray) (lo hi : List Int) (s : BState) : List RPiece × BState :=
  match A.kind with
  | .cyclic =>
    let o := bOwns A s.iblock
    (if overlap o.1 o.2 lo hi then [bPiece A s o.1 o.2 lo hi] else [],
      cycAdvance A s (blkSize o.1 o.2))
  | _ =>
    let blo := itLo A s.index
    let bhi := itHi A s.index
    (if overlap blo bhi lo hi then [bPiece A s blo bhi lo hi] else [],
      gridAdvance A s (blkSize blo bhi))

/-- All pieces returned by the iterator from position `s` on; it ends when `iproc >= nproc`.
`none` if the bound on the number of rounds is exceeded. -/
def bCollect (A : BArray) (lo hi : List Int) : (fuel : Nat) → BState → Option (List RPiece)
  | 0, _ => none
  | f + 1, s =>
    if s.iproc ≥ A.nproc then some []
    else
      match bCollect A lo hi f (bRound A lo hi s).2 with
      | none => none
      | some ps => some ((bRound A lo hi s).1 ++ ps)

/-- The pieces of one put/get/acc request. The iterator visits at most `bTotal` blocks per
process. -/
def bPieces (A : BArray) (lo hi : List Int) : Option (List RPiece) :=
  bCollect A lo hi (A.nproc * bTotal A + 1) (bReset A)

/-- `NGA_Put` on a block-cyclic array (onesided.c 530-679). -/
def bPut {V} (isLocal : Int → Bool) (A : BArray) (lo hi : List Int) (buf : Int → V) (ld : List Int)
    (mem : Addr → V) : Option (Addr → V) :=
  (bPieces A lo hi).map fun ps => applyPut (xfers isLocal lo ld ps) buf mem

/-- `NGA_Get` on a block-cyclic array (onesided.c 902-1043). -/
def bGet {V} (isLocal : Int → Bool) (A : BArray) (lo hi : List Int) (buf : Int → V) (ld : List Int)
    (mem : Addr → V) : Option (Int → V) :=
  (bPieces A lo hi).map fun ps => applyGet (xfers isLocal lo ld ps) mem buf

/-- `NGA_Acc` on a block-cyclic array (onesided.c 1334-1455). -/
def bAcc {V} [Add V] [Mul V] (isLocal : Int → Bool) (A : BArray) (lo hi : List Int)
    (buf : Int → V) (ld : List Int) (alpha : V) (mem : Addr → V) : Option (Addr → V) :=
  (bPieces A lo hi).map fun ps => applyAcc (xfers isLocal lo ld ps) alpha buf mem

end GA.Model
