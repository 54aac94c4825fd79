import Verif.Model.Pieces
import Verif.Model.GatScat

/-!
# Model: copying arrays and patches

`pnga_copy` (global/src/global.nalg.c 182-384), `pnga_copy_patch` and its helpers
(global/src/global.npatch.c 64-936).

Memory: `Loc` is a handle and an address in that array, so that source and destination may be the
same array. Every process moves a list of elements; the processes run at the same time between two
barriers, so the model allows any order of all these moves (`Par`).
Simplifications: element types are equal and known (a mismatch ends in `pnga_error`), Integer
arithmetic without overflow, no mirrored arrays, no array restriction, collective calls by all the
processes of the groups. An element is moved by one atomic step, also when it goes through a
temporary buffer.
-/

namespace GA.Model

/-- handle of an array, address in that array -/
abbrev Loc := Nat × Addr

/-- one step of a process: compute a new value of `dst` from the values of `srcs` -/
structure LAct where
  dst : Loc
  srcs : List Loc
deriving Repr, DecidableEq

/-- `m[dst] = g (m[srcs])`, one step after the other -/
def runActs {V} (g : List V → V) (acts : List LAct) (m : Loc → V) : Loc → V :=
  acts.foldl (fun m a => upd m a.dst (g (a.srcs.map m))) m

/-- `m'` is a possible memory after the processes `0 .. n-1` have run their steps at the same
time. No execution exists if one of the processes ends in an error. -/
def Par {V} (n : Nat) (acts : Nat → Option (List LAct)) (g : List V → V) (m m' : Loc → V) : Prop :=
  ∃ l sched, mapOpt acts (List.range n) = some l ∧ sched.Perm l.flatten ∧ m' = runActs g sched m

/-- value moved by a copy -/
def moveVal {V} [Inhabited V] : List V → V
  | v :: _ => v
  | [] => default

/-- the moves of `pnga_put(g_d, ..., ptr, ..)` where `ptr` is at `off` in the own segment of
process `p` of array `s` -/
def putActs (s d p : Nat) (off : Int) (ts : List Xfer) : List LAct :=
  ts.map fun t => ⟨(d, t.addr), [(s, ((p : Int), off + t.buf))]⟩

/-- the moves of `pnga_get(g_s, ..., ptr, ..)` where `ptr` is at `off` in the own segment of
process `p` of array `d` -/
def getActs (s d p : Nat) (off : Int) (ts : List Xfer) : List LAct :=
  ts.map fun t => ⟨(d, ((p : Int), off + t.buf)), [(s, t.addr)]⟩

/-! ## GA_Copy -/

/-- Moves of process `p` in `pnga_copy` (global.nalg.c 182-384). With `use_put` process `p` is a
member of the group of `A`, otherwise of the group of `B`. `E p lo` is the environment of the one
sided call of process `p` for the block that starts at `lo`. -/
def copyActs (E : Nat → List Int → Env) (a : Nat) (A : GArr) (b : Nat) (B : GArr) (p : Nat) :
    Option (List LAct) :=
  if a = b then none
  else if A.dims ≠ B.dims then none
  else if A.nproc ≤ B.nproc then
    match A.localIter p with
    | none => none
    | some items => (mapOpt (fun it : LItem =>
        (B.xfers (E p it.lo) it.lo it.hi it.ld).map (putActs a b p it.off)) items).map List.flatten
  else
    match B.localIter p with
    | none => none
    | some items => (mapOpt (fun it : LItem =>
        (A.xfers (E p it.lo) it.lo it.hi it.ld).map (getActs a b p it.off)) items).map List.flatten

/-- number of processes that move data -/
def copyProcs (A B : GArr) : Nat := if A.nproc ≤ B.nproc then A.nproc else B.nproc

/-! ## GA_Copy_patch -/

/-- `idx += (los[i] - blos[i]) * factor; factor *= dimss[i]` (`snga_dest_indices`, global.npatch.c
70-73) -/
def linIdx : (los blos dims : List Int) → (idx factor : Int) → Int
  | l :: ls, b :: bs, d :: ds, i, f => linIdx ls bs ds (i + (l - b) * f) (f * d)
  | _, _, _, i, _ => i

/-- `lod[i] = idx % dimsd[i] + blod[i]; idx /= dimsd[i]` (global.npatch.c 75-78, 378-381). In
`snga_dest_indices` the loop ends at the number of dimensions of the source; it is called for
patches of equal shape only. -/
def unlin : (idx : Int) → (dims lo : List Int) → List Int
  | i, d :: ds, l :: ls => (i % d + l) :: unlin (i / d) ds ls
  | _, _, _ => []

/-- `snga_dest_indices` (global.npatch.c 64-80) -/
def destIndices (los blos dimss blod dimsd : List Int) : List Int :=
  unlin (linIdx los blos dimss 0 1) dimsd blod

/-- `pnga_comp_patch` (global.npatch.c 110-133) -/
def compPatch : (alo ahi blo bhi : List Int) → Bool
  | [], [], [], [] => true
  | al :: alo, ah :: ahi, [], [] => decide (al = ah) && compPatch alo ahi [] []
  | [], [], bl :: blo, bh :: bhi => decide (bl = bh) && compPatch [] [] blo bhi
  | al :: alo, ah :: ahi, bl :: blo, bh :: bhi =>
    decide (al = bl) && decide (ah = bh) && compPatch alo ahi blo bhi
  | _, _, _, _ => false

/-- `snga_test_shape` (global.npatch.c 137-150) -/
def testShape : (alo ahi blo bhi : List Int) → Bool
  | al :: alo, ah :: ahi, bl :: blo, bh :: bhi =>
    decide (ah - al = bh - bl) && testShape alo ahi blo bhi
  | [], [], [], [] => true
  | _, _, _, _ => false

/-- "indices out of range": `alo[i] <= 0 || ahi[i] > adims[i]` (global.npatch.c 234-239) -/
def outOfRange : (lo hi dims : List Int) → Bool
  | l :: lo, h :: hi, d :: ds => decide (l ≤ 0) || decide (h > d) || outOfRange lo hi ds
  | _, _, _ => false

/-- block-cyclic: `pnga_total_blocks >= 0` -/
def GArr.isBlk : GArr → Bool
  | .reg _ _ => false
  | .blk _ => true

/-- The parts of the patch in the memory of process `p`: `pnga_distribution`,
`pnga_patch_intersect`, `pnga_access_ptr` for REGULAR arrays (global.npatch.c 262-282, 694-697,
906-909), the local iterator and the offset of the corner for the others (526-557, 730-760). -/
def localParts (G : GArr) (lo hi : List Int) (p : Nat) : Option (List LItem) :=
  match G with
  | .reg A _ =>
    let o := owns A p
    match patchIntersect lo hi o.1 o.2 with
    | none => some []
    | some (los, his) => some [⟨los, his, p, locOffset A p los, ldRem o.1 o.2 A.width⟩]
  | .blk A =>
    match Model.localIter A p with
    | none => none
    | some items => some (items.filterMap fun it =>
        match patchIntersect lo hi it.lo it.hi with
        | none => none
        | some (los, his) => some ⟨los, his, it.proc, it.off + cornerOff it.lo los it.ld 1, it.ld⟩)

/-- `bvalue[j]` after one element (global.npatch.c 335-341) -/
def srcNext1 (i u l h b : Int) : Int :=
  let b' := if (i + 1) % u = 0 then b + 1 else b
  if b' > h then l else b'

/-- the same for all dimensions -/
def srcNext (i : Int) : (units los his bv : List Int) → List Int
  | u :: us, l :: ls, h :: hs, b :: bs => srcNext1 i u l h b :: srcNext i us ls hs bs
  | _, _, _, _ => []

/-- `src_idx_ptr` (global.npatch.c 330-343) -/
def srcLoop (units los his : List Int) : (n : Nat) → (i : Int) → (bv : List Int) → List (List Int)
  | 0, _, _ => []
  | n + 1, i, bv => bv :: srcLoop units los his n (i + 1) (srcNext i units los his bv)

/-- `x[j] - lo[j]` -/
def minusL : (x lo : List Int) → List Int
  | x :: xs, l :: ls => (x - l) :: minusL xs ls
  | _, _ => []

/-- `factor_idx1`, `factor_idx2` (global.npatch.c 346-353) -/
def copyFactors (tr : Bool) (ald : List Int) : List Int :=
  if tr then (bUnits 1 ald.reverse).reverse else bUnits 1 ald

/-- `factor_data` (global.npatch.c 356-358), also the factors in `base` (288-292) -/
def dataFactors (ld : List Int) : List Int := 1 :: setstride 1 ld

/-- subscript in `B` for the element `src` of `A` (global.npatch.c 361-381) -/
def copyDst (tr : Bool) (alo ald blo bld src : List Int) : List Int :=
  unlin (dotI (minusL src alo) (copyFactors tr ald)) bld blo

/-- The copy with a change of shape (global.npatch.c 313-424): the elements of one local part go
through a buffer and are scattered. `cand`, `cand'` are the floating point guesses of
`pnga_scatter`. -/
def scatterActs (cand cand' : Nat → List Nat) (tr : Bool) (a : Nat) (alo ahi : List Int)
    (b : Nat) (B : GArr) (blo bhi : List Int) (p : Nat) (it : LItem) : Option (List LAct) :=
  let srcs := srcLoop (bUnits 1 (extents it.lo it.hi)) it.lo it.hi
    (prodI (extents it.lo it.hi)).toNat 0 it.lo
  let dsts := srcs.map (copyDst tr alo (extents alo ahi) blo (extents blo bhi))
  (gsXfers B cand cand' dsts).map fun ts => ts.map fun t =>
    ⟨(b, t.addr), [(a, ((p : Int), it.off +
      (dotI (srcs.getD t.buf.toNat []) (dataFactors it.ld) - dotI it.lo (dataFactors it.ld))))]⟩

/-- The branch `use_put` (global.npatch.c 276-302 and 313-424, 526-589, 694-701): process `p` sends
its parts of the patch of `A`. -/
def patchPut (E : Nat → List Int → Env) (cand cand' : Nat → Nat → List Nat) (tr : Bool)
    (a : Nat) (A : GArr) (alo ahi : List Int) (b : Nat) (B : GArr) (blo bhi : List Int) (p : Nat) :
    Option (List LAct) :=
  match localParts A alo ahi p with
  | none => none
  | some parts =>
    if !tr && testShape alo ahi blo bhi then
      (mapOpt (fun it : LItem =>
        let lod := destIndices it.lo alo (extents alo ahi) blo (extents blo bhi)
        let hid := destIndices it.hi alo (extents alo ahi) blo (extents blo bhi)
        (B.xfers (E p lod) lod hid it.ld).map (putActs a b p it.off)) parts).map List.flatten
    else
      (mapOpt (scatterActs (cand p) (cand' p) tr a alo ahi b B blo bhi p) parts).map List.flatten

/-- The branch `!use_put` (global.npatch.c 303-307 and 425-521, 722-786, 905-915): process `p`
fetches its parts of the patch of `B`. With a change of shape the code gathers the elements of `A`
into a temporary buffer and frees it (425-521): nothing is moved. Its index arrays have room for
`andim*nelem` and `bndim*nelem` numbers, where `nelem` uses the first `andim` bounds, so that
`andim != bndim` is a memory error: `none`. -/
def patchGet (E : Nat → List Int → Env) (tr : Bool) (a : Nat) (A : GArr) (alo ahi : List Int)
    (b : Nat) (B : GArr) (blo bhi : List Int) (p : Nat) : Option (List LAct) :=
  match localParts B blo bhi p with
  | none => none
  | some parts =>
    if !tr && testShape alo ahi blo bhi then
      (mapOpt (fun it : LItem =>
        let lod := destIndices it.lo blo (extents blo bhi) alo (extents alo ahi)
        let hid := destIndices it.hi blo (extents blo bhi) alo (extents alo ahi)
        (A.xfers (E p lod) lod hid it.ld).map (getActs a b p it.off)) parts).map List.flatten
    else if alo.length = blo.length then some [] else none

/-- Moves of process `p` in `pnga_copy_patch` (global.npatch.c 163-936). -/
def copyPatchActs (E : Nat → List Int → Env) (cand cand' : Nat → Nat → List Nat) (tr : Bool)
    (a : Nat) (A : GArr) (alo ahi : List Int) (b : Nat) (B : GArr) (blo bhi : List Int) (p : Nat) :
    Option (List LAct) :=
  if a = b ∧ compPatch alo ahi blo bhi = true then some []
  else if a = b ∧ (patchIntersect alo ahi blo bhi).isSome = true then none
  else if outOfRange alo ahi A.dims || outOfRange blo bhi B.dims then none
  else if prodI (extents alo ahi) ≠ prodI (extents blo bhi) then none
  else if (A.isBlk || B.isBlk) && (tr || !testShape alo ahi blo bhi) then none
  else if A.nproc ≤ B.nproc then patchPut E cand cand' tr a A alo ahi b B blo bhi p
  else patchGet E tr a A alo ahi b B blo bhi p

end GA.Model
