import Verif.Model.LocalPatch
import Verif.Spec.Ops
import Mathlib.Algebra.BigOperators.Group.List.Defs

/-!
# Model: mirrored arrays

A mirrored array has one copy on every node of the cluster; the copy is distributed over the
processes of the node. Modelled: the groups set up at initialisation (global/src/base.c 438-476),
one-sided calls on a mirrored array (they go to the copy of the node of the caller),
`pnga_merge_mirrored` (base.c 5240-5437, the branch without OPENIB), `pnga_merge_distr_patch`
(base.c 5447-5593) and the two mixed branches of `pnga_copy` (global/src/global.nalg.c 351-372).

The cluster is the list `sizes` of the numbers of processes of the nodes; node `k` has the
consecutive world ranks `nodeStart sizes k, nodeStart sizes k + 1, ...`. Memory cells are pairs
(world rank, offset), one memory per array. `A k` is the distribution of the array on node `k`
(it depends on the number of processes of the node).
Simplifications: REGULAR arrays, Integer arithmetic without overflow, abstract element values;
the case of a single node, in which a mirrored array is an ordinary one (base.c 2754), is not part
of this file.
-/

namespace GA.Mirror
open Model

/-- `pnga_cluster_procid(node, 0)`: first world rank of node `k` -/
def nodeStart (sizes : List Nat) (k : Nat) : Nat := (sizes.take k).sum

/-- `pnga_cluster_nprocs(k)` -/
def nodeSize (sizes : List Nat) (k : Nat) : Nat := sizes.getD k 0

/-- number of processes of the cluster -/
def total (sizes : List Nat) : Nat := sizes.sum

/-- `pnga_cluster_nodeid()` of world rank `r` -/
def nodeOf : (sizes : List Nat) → (r : Nat) → Nat
  | [], _ => 0
  | s :: ss, r => if r < s then 0 else nodeOf ss (r - s) + 1

/-- `PGRP_LIST[0].map_proc_list[r]` (base.c 451-454), `GAme - zproc` (base.c 5415): rank of `r`
inside of its node -/
def localRank (sizes : List Nat) (r : Nat) : Nat := r - nodeStart sizes (nodeOf sizes r)

/-- `PGRP_LIST[0].inv_map_proc_list[i] = i+j` (base.c 453) applied to the rank in an address -/
def shiftA (s : Nat) (a : Addr) : Addr := (a.1 + s, a.2)

/-- `_mirror_gop_grp` of process `r` (base.c 456-476): the processes with the same rank inside of
their nodes if all nodes have the same number of processes, else everybody. -/
def mirrorGroup (sizes : List Nat) (r : Nat) : List Nat :=
  if sizes.all fun s => decide (s = nodeSize sizes (nodeOf sizes r)) then
    (List.range sizes.length).map fun i => i * nodeSize sizes (nodeOf sizes r) + localRank sizes r
  else List.range (total sizes)

section
variable {V : Type}

/-- `NGA_Put` by a process of node `k` on a mirrored array: `pnga_locate_region` and the iterator
(onesided.c, iterator.c) work with the ranks inside of the node and translate the owner with
`inv_map_proc_list`. -/
def mirPut (sizes : List Nat) (A : Nat → RegArray) (k : Nat) (E : Env) (lo hi : List Int) (buf : Int → V)
    (ld : List Int) (m : Addr → V) : Option (Addr → V) :=
  (regPieces E (A k) lo hi).map fun ps =>
    applyPut ((xfers E.isLocal lo ld ps).map fun t => ⟨t.buf, shiftA (nodeStart sizes k) t.addr⟩) buf m

/-- `NGA_Get`, the same way -/
def mirGet (sizes : List Nat) (A : Nat → RegArray) (k : Nat) (E : Env) (lo hi : List Int) (buf : Int → V)
    (ld : List Int) (m : Addr → V) : Option (Int → V) :=
  (regPieces E (A k) lo hi).map fun ps =>
    applyGet ((xfers E.isLocal lo ld ps).map fun t => ⟨t.buf, shiftA (nodeStart sizes k) t.addr⟩) m buf

/-- `NGA_Acc`, the same way -/
def mirAcc [Add V] [Mul V] (sizes : List Nat) (A : Nat → RegArray) (k : Nat) (E : Env) (lo hi : List Int)
    (buf : Int → V) (ld : List Int) (alpha : V) (m : Addr → V) : Option (Addr → V) :=
  (regPieces E (A k) lo hi).map fun ps =>
    applyAcc ((xfers E.isLocal lo ld ps).map fun t => ⟨t.buf, shiftA (nodeStart sizes k) t.addr⟩) alpha buf m

/-- The buffer that process `r` hands to the global sum in `pnga_merge_mirrored` (base.c
5414-5429): address of its block and number of elements (without ghost cells), `none` if the
block is empty and the process does not take part. -/
def mergeSeg (sizes : List Nat) (A : Nat → RegArray) (r : Nat) : Option (Int × Int) :=
  let B := A (nodeOf sizes r)
  let l := localRank sizes r
  if anyEmpty (owns B l).1 (owns B l).2 then none
  else some (locOffset B l (owns B l).1, prodI (edges (owns B l).1 (owns B l).2))

/-- The global sum can take place: whoever takes part finds all members of its group taking part
with a buffer of the same length. (Otherwise the collective calls do not match: it hangs or sums
wrong elements.) -/
def mergeMatches (sizes : List Nat) (A : Nat → RegArray) : Bool :=
  (List.range (total sizes)).all fun r => match mergeSeg sizes A r with
    | none => true
    | some s => (mirrorGroup sizes r).all fun q => decide ((mergeSeg sizes A q).map Prod.snd = some s.2)

/-- `pnga_merge_mirrored` (base.c 5240-5256, 5413-5436): every process replaces its buffer by the
element-wise sum of the buffers of its group. `none`: the collective calls do not match.
Simplification: the sum over the group (C87, C60) is taken in one step. -/
def mergeMirrored [AddCommMonoid V] (sizes : List Nat) (A : Nat → RegArray) (m : Addr → V) :
    Option (Addr → V) :=
  if mergeMatches sizes A then
    some fun a =>
      if 0 ≤ a.1 ∧ a.1 < total sizes then
        match mergeSeg sizes A a.1.toNat with
        | none => m a
        | some s =>
          if s.1 ≤ a.2 ∧ a.2 < s.1 + s.2 then
            ((mirrorGroup sizes a.1.toNat).map fun q : Nat =>
              m ((q : Int), ((mergeSeg sizes A q).map Prod.fst).getD 0 + (a.2 - s.1))).sum
          else m a
    else m a
  else none

/-- Bounds tests of `pnga_merge_distr_patch` on one patch (base.c 5503-5514); the subscripts start
at 1, the tests are those of subscripts that start at 0. -/
def distrCheck : (dims lo hi : List Int) → Bool
  | d :: ds, l :: ls, h :: hs =>
    decide (¬ (l < 0 ∨ d ≤ l ∨ h < 0 ∨ d ≤ h ∨ h < l)) && distrCheck ds ls hs
  | _, _, _ => true

/-- `ahi[i] - alo[i] != bhi[i] - blo[i]` (base.c 5515-5519) -/
def sameShape : (alo ahi blo bhi : List Int) → Bool
  | a :: as, a' :: as', b :: bs, b' :: bs' => decide (a' - a = b' - b) && sameShape as as' bs bs'
  | _, _, _, _ => true

/-- `dlo[i] = blo[i] + mlo[i]-alo[i]` (base.c 5547-5550) -/
def shiftP : (blo m alo : List Int) → List Int
  | b :: bs, m :: ms, a :: as => (b + m - a) :: shiftP bs ms as
  | _, _, _ => []

/-- What process `r` accumulates in `pnga_merge_distr_patch` (base.c 5522-5591): its part of the
patch of the copy on its node, at the corresponding place of the distributed array. `none`:
`pnga_access_ptr` ends in an error (onesided.c 1518-1521) for a block that is empty and passes the
intersection test of base.c 5529-5533. -/
def distrOp [One V] (sizes : List Nat) (A : Nat → RegArray) (mA : Addr → V) (alo ahi blo : List Int) (r : Nat) :
    Option (List (Spec.Op V)) :=
  let B := A (nodeOf sizes r)
  let l := localRank sizes r
  let o := owns B l
  if disjointPatch alo ahi o.1 o.2 then some []
  else
    let mlo := List.zipWith max alo o.1
    let mhi := List.zipWith min ahi o.2
    if anyEmpty mlo mhi then none
    else some [.acc (shiftP blo mlo alo) (shiftP blo mhi alo) (ldRem o.1 o.2 B.width) 1
      fun i => mA ((r : Int), locOffset B l mlo + i)]

/-- the accumulates of `pnga_merge_distr_patch`, one process after the other -/
def distrAccs [Add V] [Mul V] [One V] (sizes : List Nat) (A : Nat → RegArray) (B : RegArray) (mA : Addr → V)
    (alo ahi blo : List Int) : (order : List (Env × Nat)) → (Addr → V) → Option (Addr → V)
  | [], m => some m
  | (E, r) :: os, m =>
    match distrOp sizes A mA alo ahi blo r with
    | none => none
    | some [] => distrAccs sizes A B mA alo ahi blo os m
    | some (.acc lo hi ld alpha buf :: _) =>
      (ngaAcc E B lo hi buf ld alpha m).bind (distrAccs sizes A B mA alo ahi blo os)
    | some (.put .. :: _) => none

/-- The argument tests of `pnga_merge_distr_patch` (base.c 5493-5519). -/
def distrAccepts (a b : RegArray) (alo ahi blo bhi : List Int) : Bool :=
  decide (a.dims.length = b.dims.length) && distrCheck a.dims alo ahi && distrCheck b.dims blo bhi &&
    sameShape alo ahi blo bhi

/-- `mB'` is a possible memory of the distributed array `B` after `pnga_merge_distr_patch` (base.c
5447-5593): the arguments pass the tests, all processes zero the patch in any interleaving (then
there is a barrier), and every process accumulates once; the accumulates take effect in any order
(C07). -/
def MergeDistr [Zero V] [Add V] [Mul V] [One V] (sizes : List Nat) (A : Nat → RegArray) (B : RegArray)
    (alo ahi blo bhi : List Int) (mA mB mB' : Addr → V) : Prop :=
  distrAccepts (A 0) B alo ahi blo bhi = true ∧
  ∃ m1, ∃ order : List (Env × Nat), Phase (total sizes) (patchCells (.reg B (total sizes)) blo bhi) (fun _ => (0 : V)) mB m1 ∧
    (order.map Prod.snd).Perm (List.range (total sizes)) ∧
    distrAccs sizes A B mA alo ahi blo order m1 = some mB'

/-- Cells of process `r` in `pnga_zero` of a mirrored array (global.nalg.c 60-174). -/
def mirZeroCells (sizes : List Nat) (A : Nat → RegArray) (r : Nat) : Option (List Addr) :=
  (zeroCells (.reg (A (nodeOf sizes r)) (nodeSize sizes (nodeOf sizes r))) (localRank sizes r)).map
    (List.map (shiftA (nodeStart sizes (nodeOf sizes r))))

/-- `pnga_distribution`, `pnga_access_ptr`, `pnga_put` of `pnga_copy` from a distributed array `D` to a
mirrored one (global.nalg.c 365-369), for all processes of `order`. -/
def copyPuts (sizes : List Nat) (A : Nat → RegArray) (D : RegArray) (mD : Addr → V) :
    (order : List (Env × Nat)) → (Addr → V) → Option (Addr → V)
  | [], m => some m
  | (E, r) :: os, m =>
    let o := owns D r
    if headPos o.1 then
      if anyEmpty o.1 o.2 then none
      else (mirPut sizes A (nodeOf sizes r) E o.1 o.2 (fun i => mD ((r : Int), locOffset D r o.1 + i))
        (ldRem o.1 o.2 D.width) m).bind (copyPuts sizes A D mD os)
    else copyPuts sizes A D mD os m

/-- `pnga_copy` from a distributed array `D` to a mirrored array (global.nalg.c 362-371): zero, put
(in any order), merge; there are barriers in between. -/
def CopyToMirrored [AddCommMonoid V] (sizes : List Nat) (A : Nat → RegArray) (D : RegArray)
    (mD m m' : Addr → V) : Prop :=
  ∃ m1 m2, ∃ order : List (Env × Nat), Phase (total sizes) (mirZeroCells sizes A) (fun _ => (0 : V)) m m1 ∧
    (order.map Prod.snd).Perm (List.range (total sizes)) ∧
    copyPuts sizes A D mD order m1 = some m2 ∧ mergeMirrored sizes A m2 = some m'

/-- `pnga_copy` from a mirrored array to a distributed array `D` (global.nalg.c 353-361): every
process gets the elements of its block of `D` from the copy on its node. -/
def copyGets (sizes : List Nat) (A : Nat → RegArray) (D : RegArray) (m : Addr → V) :
    (order : List (Env × Nat)) → (Addr → V) → Option (Addr → V)
  | [], mD => some mD
  | (E, r) :: os, mD =>
    let o := owns D r
    if headPos o.1 then
      if anyEmpty o.1 o.2 then none
      else (mirGet sizes A (nodeOf sizes r) E o.1 o.2 (fun i => mD ((r : Int), locOffset D r o.1 + i))
        (ldRem o.1 o.2 D.width) m).bind fun buf =>
          copyGets sizes A D m os fun a => if a.1 = (r : Int) then buf (a.2 - locOffset D r o.1) else mD a
    else copyGets sizes A D m os mD

end

end GA.Mirror
