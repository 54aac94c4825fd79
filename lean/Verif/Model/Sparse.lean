import Mathlib.Algebra.Group.Defs

/-!
# Model: one-dimensional "sparse" operations (global/src/sparse.c)

`pnga_patch_enum` (27-81), `pnga_scan_copy` (88-222), `pnga_scan_add` (226-448), `sga_pack` /
`sga_unpack` / `sga_pack_unpack` (455-660).

Conventions.  A one-dimensional array is a function from global (1-based) subscripts to elements.
The local pointer of a process whose block starts at `lop` is represented through global
subscripts: `ptr[i]` is element `lop + i`.  Elements are taken from an arbitrary commutative
additive monoid (exact arithmetic).  The mask array is represented by the result of `neq_zero`
(abstract_ops.h 57-62) on its elements.  All arrays of a call that must have the same distribution
(checked with `pnga_compare_distr`, 107-110, 244-247, 590-598) share one `Dist`.  The array lives
on the default group; block-cyclic layouts are not covered.  The result `none` stands for
`pnga_error`.  Between two `pnga_sync` calls the processes run in an arbitrary order, given as a
list of process numbers; inside such a phase a process only touches its own block of the array
that is written.
-/

namespace GA.Sparse

/-- The distribution of a one-dimensional array as reported by `pnga_distribution` (base.c
3689-3708): `blk p` is `(lop, hip)`; processes outside the grid report `(0, -1)`. -/
structure Dist where
  nproc : Nat
  dim : Int
  blk : Nat → Int × Int

/-- Checks of `pnga_access_ptr` (onesided.c 1499-1525): both ends are located (`pnga_locate`,
base.c 800-801) and `lo ≤ hi`, otherwise `ga_RegionError`.  The owner checks are omitted: a
process only passes its own block. -/
def accessOK (D : Dist) (lop hip : Int) : Bool :=
  decide (1 ≤ lop ∧ lop ≤ D.dim ∧ 1 ≤ hip ∧ hip ≤ D.dim ∧ lop ≤ hip)

/-- one store `a[g] = v` -/
def upd {M : Type} (a : Int → M) (g : Int) (v : M) : Int → M := fun x => if x = g then v else a x

/-! ## patch_enum -/

/-- The loop of `pnga_patch_enum` (sparse.c 66-70): `offset=(off+i)*stride; aptr[i]=start+offset`
(`assign_mul_constant`, abstract_ops.h). `mulc k s` is `k*s`. -/
def enumLoop {M : Type} [Add M] (mulc : Int → M → M) (start stride : M) (lop off : Int) :
    (n : Nat) → (i : Int) → (a : Int → M) → (Int → M)
  | 0, _, a => a
  | n + 1, i, a =>
    enumLoop mulc start stride lop off n (i + 1) (upd a (lop + i) (start + mulc (off + i) stride))

/-- The part of process `p` in `pnga_patch_enum` (sparse.c 40-77). -/
def enumStep {M : Type} [Add M] (D : Dist) (mulc : Int → M → M) (lo hi : Int) (start stride : M)
    (p : Nat) (a : Option (Int → M)) : Option (Int → M) :=
  let lop := (D.blk p).1
  let hip := (D.blk p).2
  if lop > 0 then
    if hi < lop ∨ hip < lo then a
    else
      let lop := if lop < lo then lo else lop
      let hip := if hip > hi then hi else hip
      if accessOK D lop hip then
        a.map fun a => enumLoop mulc start stride lop (lop - lo) (hip - lop + 1).toNat 0 a
      else none
  else a

/-- `pnga_patch_enum` (sparse.c 27-81), the processes running in the order `order`. -/
def patchEnum {M : Type} [Add M] (D : Dist) (mulc : Int → M → M) (order : List Nat) (lo hi : Int)
    (start stride : M) (a : Int → M) : Option (Int → M) :=
  order.foldl (fun a p => enumStep D mulc lo hi start stride p a) (some a)

/-! ## scans -/

/-- Search for the last mask bit inside `lo..hi` on one process (sparse.c 141-148, 278-285):
`for(i=0;i<elems;i++) if(neq_zero(buf[i])){ioff=i+lop; if(ioff>=lo&&ioff<=hi) lim[me]=ioff;}`. -/
def limLoop (msk : Int → Bool) (lo hi lop : Int) : (n : Nat) → (i lim : Int) → Int
  | 0, _, lim => lim
  | n + 1, i, lim =>
    limLoop msk lo hi lop n (i + 1)
      (if msk (i + lop) then (if i + lop ≥ lo ∧ i + lop ≤ hi then i + lop else lim) else lim)

/-- The entry `lim[p]` after `pnga_gop(C_LONG,lim,nproc,"+")` (sparse.c 127-156, 264-293): every
process contributes zeros except for its own entry. -/
def lim (D : Dist) (msk : Int → Bool) (lo hi : Int) (p : Nat) : Int :=
  let lop := (D.blk p).1
  let hip := (D.blk p).2
  if lop > 0 then limLoop msk lo hi lop (hip - lop + 1).toNat 0 (-1) else -1

/-- Search for the nearest mask bit on a process before `lop` (sparse.c 179-183, 318-322). -/
def rmtLoop (lims : Nat → Int) (lop : Int) : (n : Nat) → (i : Nat) → (r : Int) → Int
  | 0, _, r => r
  | n + 1, i, r =>
    rmtLoop lims lop n (i + 1) (if -1 ≠ lims i ∧ lims i > r ∧ lims i < lop then lims i else r)

/-- `rmt_idx` of a process whose block starts at `lop` (sparse.c 178-183, 317-322). -/
def rmtIdx (D : Dist) (msk : Int → Bool) (lo hi lop : Int) : Int :=
  rmtLoop (lim D msk lo hi) lop D.nproc 0 (-1)

/-- `start` (sparse.c 164-168, 330-334). -/
def startOf (lo lop : Int) : Int := if lop < lo then lo - lop else 0

/-- `stop` (sparse.c 169-173, 335-339). -/
def stopOf (hi lop hip : Int) : Int := if hip > hi then hi - lop + 1 else hip - lop + 1

/-- Does process `p` stop with an error in one of the `pnga_access_ptr` calls of a scan
(sparse.c 135, 185-187, 272, 348-350)? -/
def scanFails (D : Dist) (lo hi : Int) (p : Nat) : Bool :=
  let lop := (D.blk p).1
  let hip := (D.blk p).2
  !accessOK D lop hip && (decide (lop > 0) || !(decide (hi < lop ∨ hip < lo)))

/-- Copy loop of `pnga_scan_copy` (sparse.c 201-206). -/
def copyLoop {M : Type} (src : Int → M) (msk : Int → Bool) (lop : Int) :
    (n : Nat) → (i : Int) → (last : M) → (dst : Int → M) → (Int → M)
  | 0, _, _, dst => dst
  | n + 1, i, last, dst =>
    let last := if msk (lop + i) then src (lop + i) else last
    copyLoop src msk lop n (i + 1) last (upd dst (lop + i) last)

/-- The part of process `p` in `pnga_scan_copy` after the global sum (sparse.c 157-218). The
one-element `pnga_get` of `last_val` is a read of the source array. -/
def copyStep {M : Type} [Zero M] (D : Dist) (src : Int → M) (msk : Int → Bool) (lo hi : Int)
    (p : Nat) (dst : Int → M) : Int → M :=
  let lop := (D.blk p).1
  let hip := (D.blk p).2
  if hi < lop ∨ hip < lo then dst
  else
    let start := startOf lo lop
    let stop := stopOf hi lop hip
    let rmt := rmtIdx D msk lo hi lop
    let last : M := if -1 ≠ rmt then src rmt else 0
    copyLoop src msk lop (stop - start).toNat start last dst

/-- `pnga_scan_copy` (sparse.c 88-222). -/
def scanCopy {M : Type} [Zero M] (D : Dist) (order : List Nat) (src : Int → M) (msk : Int → Bool)
    (lo hi : Int) (dst : Int → M) : Option (Int → M) :=
  if (List.range D.nproc).any (scanFails D lo hi) then none
  else some (order.foldl (fun d p => copyStep D src msk lo hi p d) dst)

/-- `while (eq_zero(msk[start]) && start<stop) start++;` (sparse.c 361-365). The first argument
is the number of remaining positions `stop-start`.  (The code reads `msk[stop]` once more before
it notices that `start<stop` is false; the value does not matter, the read is not modelled.) -/
def skipZeros (msk : Int → Bool) (lop : Int) : (n : Nat) → (start : Int) → Int
  | 0, start => start
  | n + 1, start => if msk (lop + start) then start else skipZeros msk lop n (start + 1)

/-- `start` of `pnga_scan_add` after the search for the first bit (sparse.c 330-334, 361-365). -/
def addStart (msk : Int → Bool) (lo hi lop hip : Int) : Int :=
  let start := startOf lo lop
  let stop := stopOf hi lop hip
  if lop ≤ lo then skipZeros msk lop (stop - start).toNat start else start

/-- First element of the local scan (sparse.c 366-387): the new `dst` and `found_bit`. -/
def addFirst {M : Type} [Zero M] (excl : Bool) (src : Int → M) (msk : Int → Bool)
    (lop rmt start stop : Int) (dst : Int → M) : (Int → M) × Bool :=
  if start < stop then
    if msk (lop + start) then
      (upd dst (lop + start) (if excl then 0 else src (lop + start)), true)
    else if -1 ≠ rmt then
      if excl then
        let loc := start + lop - 1
        (if loc > 0 then upd dst (lop + start) (src loc) else dst, true)
      else (upd dst (lop + start) (src (lop + start)), true)
    else (dst, false)
  else (dst, false)

/-- Local scan loop, exclusive variant (sparse.c 389-396). -/
def exclLoop {M : Type} [Zero M] [Add M] (src : Int → M) (msk : Int → Bool) (lop : Int) :
    (n : Nat) → (i : Int) → (found : Bool) → (dst : Int → M) → (Int → M)
  | 0, _, _, dst => dst
  | n + 1, i, found, dst =>
    if msk (lop + i) then exclLoop src msk lop n (i + 1) true (upd dst (lop + i) 0)
    else if found then
      exclLoop src msk lop n (i + 1) found
        (upd dst (lop + i) (dst (lop + i - 1) + src (lop + i - 1)))
    else exclLoop src msk lop n (i + 1) found dst

/-- Local scan loop, inclusive variant (sparse.c 398-405). -/
def inclLoop {M : Type} [Add M] (src : Int → M) (msk : Int → Bool) (lop : Int) :
    (n : Nat) → (i : Int) → (found : Bool) → (dst : Int → M) → (Int → M)
  | 0, _, _, dst => dst
  | n + 1, i, found, dst =>
    if msk (lop + i) then inclLoop src msk lop n (i + 1) true (upd dst (lop + i) (src (lop + i)))
    else if found then
      inclLoop src msk lop n (i + 1) found
        (upd dst (lop + i) (dst (lop + i - 1) + src (lop + i)))
    else inclLoop src msk lop n (i + 1) found dst

/-- First phase of `pnga_scan_add` on process `p`, up to the `pnga_sync` (sparse.c 352-407). -/
def addLocal {M : Type} [Zero M] [Add M] (D : Dist) (excl : Bool) (src : Int → M)
    (msk : Int → Bool) (lo hi : Int) (p : Nat) (dst : Int → M) : Int → M :=
  let lop := (D.blk p).1
  let hip := (D.blk p).2
  if hi < lop ∨ hip < lo then dst
  else
    let rmt := rmtIdx D msk lo hi lop
    let start := addStart msk lo hi lop hip
    let stop := stopOf hi lop hip
    let r := addFirst excl src msk lop rmt start stop dst
    let n := (stop - (start + 1)).toNat
    if excl then exclLoop src msk lop n (start + 1) r.2 r.1
    else inclLoop src msk lop n (start + 1) r.2 r.1

/-- Sum of the last elements of the pieces of `rmt..rmtHi` (sparse.c 410-426):
`pnga_locate_region`, `subs[i]=map[i*2+1]`, `pnga_gather`, `sum += v[i]`.  The pieces are the
non-empty intersections of blocks with the region, listed here in process order (the sum does not
depend on the order). -/
def endSum {M : Type} [Zero M] [Add M] (D : Dist) (dst : Int → M) (rmt rmtHi : Int) : M :=
  (List.range D.nproc).foldl
    (fun sum q =>
      let l := (D.blk q).1
      let h := (D.blk q).2
      if l ≤ h ∧ l ≤ rmtHi ∧ rmt ≤ h then sum + dst (if rmtHi > h then h else rmtHi) else sum) 0

/-- The loop which adds `sum` up to the first mask bit (sparse.c 427-433). -/
def fixLoop {M : Type} [Add M] (msk : Int → Bool) (lop : Int) (sum : M) :
    (n : Nat) → (i : Int) → (dst : Int → M) → (Int → M)
  | 0, _, dst => dst
  | n + 1, i, dst =>
    if msk (lop + i) then dst
    else fixLoop msk lop sum n (i + 1) (upd dst (lop + i) (dst (lop + i) + sum))

/-- Second phase of `pnga_scan_add` on process `p` (sparse.c 408-438). `gathered` is the content of
the destination array between the two `pnga_sync` calls, which is what `pnga_gather` reads. -/
def addFix {M : Type} [Zero M] [Add M] (D : Dist) (gathered : Int → M) (msk : Int → Bool)
    (lo hi : Int) (p : Nat) (dst : Int → M) : Int → M :=
  let lop := (D.blk p).1
  let hip := (D.blk p).2
  if hi < lop ∨ hip < lo then dst
  else
    let rmt := rmtIdx D msk lo hi lop
    let start := addStart msk lo hi lop hip
    let stop := stopOf hi lop hip
    if msk (lop + start) = false ∧ -1 ≠ rmt then
      fixLoop msk lop (endSum D gathered rmt (lop - 1)) (stop - start).toNat start dst
    else dst

/-- `pnga_scan_add` (sparse.c 226-448); `order1` and `order2` are the orders in which the
processes execute the two phases. -/
def scanAdd {M : Type} [Zero M] [Add M] (D : Dist) (order1 order2 : List Nat) (excl : Bool)
    (src : Int → M) (msk : Int → Bool) (lo hi : Int) (dst : Int → M) : Option (Int → M) :=
  if (List.range D.nproc).any (scanFails D lo hi) then none
  else
    let mid := order1.foldl (fun d p => addLocal D excl src msk lo hi p d) dst
    some (order2.foldl (fun d p => addFix D mid msk lo hi p d) mid)

/-! ## pack / unpack -/

/-- Counting loop (sparse.c 622-628): `if(neq_zero(aptr[i])){if(first<0)first=i; lim[np]++;}`. -/
def countLoop (msk : Int → Bool) (lop : Int) : (n : Nat) → (i first cnt : Int) → Int × Int
  | 0, _, first, cnt => (first, cnt)
  | n + 1, i, first, cnt =>
    if msk (lop + i) then countLoop msk lop n (i + 1) (if first < 0 then i else first) (cnt + 1)
    else countLoop msk lop n (i + 1) first cnt

/-- `pnga_locate_nnodes(g,1,h,&np)` on a one-dimensional array without empty blocks (base.c
4553-4650, REGULAR branch): the number of blocks which have elements in `1..h`; `np` keeps its
value `0` when the region is not legal (base.c 4578-4579). -/
def nnodes (D : Dist) (h : Int) : Nat :=
  if 1 ≤ h ∧ h ≤ D.dim then
    ((List.range D.nproc).filter fun q => decide ((D.blk q).1 ≤ (D.blk q).2 ∧ (D.blk q).1 ≤ h ∧
      1 ≤ (D.blk q).2)).length
  else 0

/-- What process `p` knows before the global sum (sparse.c 607-637). -/
structure PackLoc where
  lop : Int
  hip : Int
  np : Nat
  first : Int
  cnt : Int
  fails : Bool

/-- First part of `sga_pack_unpack` on process `p` (sparse.c 605-637). -/
def packLoc (D : Dist) (msk : Int → Bool) (lo hi : Int) (p : Nat) : PackLoc :=
  let lop := (D.blk p).1
  let hip := (D.blk p).2
  if lop > 0 then
    let lop1 := lop - 1
    let lop := if lop < lo then lo else lop
    let hip := if hip > hi then hi else hip
    if hi < lop ∨ hip < lo then ⟨lop, hip, 0, -1, 0, false⟩
    else
      let r := countLoop msk lop (hip - lop + 1).toNat 0 (-1) 0
      ⟨lop, hip, nnodes D lop1, r.1, r.2, !accessOK D lop hip⟩
  else ⟨lop, hip, 0, -1, 0, false⟩

/-- The entry `lim[i]` after `pnga_gop(C_LONG,lim,nproc,"+")` (sparse.c 640): process `p` adds
its count to entry `np` of process `p`. -/
def packLim (D : Dist) (msk : Int → Bool) (lo hi : Int) (i : Nat) : Int :=
  (List.range D.nproc).foldl
    (fun s p => if (packLoc D msk lo hi p).np = i then s + (packLoc D msk lo hi p).cnt else s) 0

/-- `for(i=myplace=*icount=0;i<nproc;i++){if(i<np)myplace+=lim[i]; *icount+=lim[i];}`
(sparse.c 642-645). -/
def placeLoop (lims : Nat → Int) (np : Nat) : (n : Nat) → (i : Nat) → (place icount : Int) →
    Int × Int
  | 0, _, place, icount => (place, icount)
  | n + 1, i, place, icount =>
    placeLoop lims np n (i + 1) (if i < np then place + lims i else place) (icount + lims i)

/-- `sga_pack` (sparse.c 467-475): the buffer is a function of the position. -/
def packLoop {M : Type} (src : Int → M) (msk : Int → Bool) (lop lim : Int) :
    (n : Nat) → (i idx : Int) → (buf : Int → M) → (Int → M)
  | 0, _, _, buf => buf
  | n + 1, i, idx, buf =>
    if idx < lim then
      if msk (lop + i) then packLoop src msk lop lim n (i + 1) (idx + 1) (upd buf idx (src (lop + i)))
      else packLoop src msk lop lim n (i + 1) idx buf
    else buf

/-- `sga_unpack` (sparse.c 494-502). -/
def unpackLoop {M : Type} (buf : Int → M) (msk : Int → Bool) (lop lim : Int) :
    (n : Nat) → (i idx : Int) → (dst : Int → M) → (Int → M)
  | 0, _, _, dst => dst
  | n + 1, i, idx, dst =>
    if idx < lim then
      if msk (lop + i) then unpackLoop buf msk lop lim n (i + 1) (idx + 1) (upd dst (lop + i) (buf idx))
      else unpackLoop buf msk lop lim n (i + 1) idx dst
    else dst

/-- The second part of `sga_pack_unpack` with `pack==1` on process `p` (sparse.c 647-661).
`dimDst` is the length of the packed array; `pnga_put` stops with an error when the target range
is not inside it. -/
def packStep {M : Type} (D : Dist) (dimDst : Int) (src : Int → M) (msk : Int → Bool) (lo hi : Int)
    (p : Nat) (dst : Option (Int → M)) : Option (Int → M) :=
  let L := packLoc D msk lo hi p
  let lims := packLim D msk lo hi
  let place := (placeLoop lims L.np D.nproc 0 0 0).1
  if L.fails then none
  else if hi < L.lop ∨ L.hip < lo ∨ lims L.np = 0 then dst
  else if accessOK D L.lop L.hip ∧ 1 ≤ place + 1 ∧ place + lims L.np ≤ dimDst then
    dst.map fun dst =>
      let buf := packLoop src msk L.lop (lims L.np) (L.hip - L.lop + 1 - L.first).toNat L.first 0
        (fun k => dst (place + 1 + k))
      fun x => if place + 1 ≤ x ∧ x ≤ place + lims L.np then buf (x - (place + 1)) else dst x
  else none

/-- The second part of `sga_pack_unpack` with `pack==0` on process `p` (sparse.c 647-672). -/
def unpackStep {M : Type} (D : Dist) (dimSrc : Int) (src : Int → M) (msk : Int → Bool)
    (lo hi : Int) (p : Nat) (dst : Option (Int → M)) : Option (Int → M) :=
  let L := packLoc D msk lo hi p
  let lims := packLim D msk lo hi
  let place := (placeLoop lims L.np D.nproc 0 0 0).1
  if L.fails then none
  else if hi < L.lop ∨ L.hip < lo ∨ lims L.np = 0 then dst
  else if accessOK D L.lop L.hip ∧ 1 ≤ place + 1 ∧ place + lims L.np ≤ dimSrc then
    dst.map fun dst =>
      unpackLoop (fun k => src (place + 1 + k)) msk L.lop (lims L.np)
        (L.hip - L.lop + 1 - L.first).toNat L.first 0 dst
  else none

/-- `*icount` on process `p` (sparse.c 642-645). -/
def packCount (D : Dist) (msk : Int → Bool) (lo hi : Int) (p : Nat) : Int :=
  (placeLoop (packLim D msk lo hi) (packLoc D msk lo hi p).np D.nproc 0 0 0).2

/-- `pnga_pack` (sparse.c 681-685). -/
def pack {M : Type} (D : Dist) (dimDst : Int) (order : List Nat) (src : Int → M) (msk : Int → Bool)
    (lo hi : Int) (dst : Int → M) : Option (Int → M) :=
  order.foldl (fun d p => packStep D dimDst src msk lo hi p d) (some dst)

/-- `pnga_unpack` (sparse.c 691-695). -/
def unpack {M : Type} (D : Dist) (dimSrc : Int) (order : List Nat) (src : Int → M)
    (msk : Int → Bool) (lo hi : Int) (dst : Int → M) : Option (Int → M) :=
  order.foldl (fun d p => unpackStep D dimSrc src msk lo hi p d) (some dst)

end GA.Sparse
