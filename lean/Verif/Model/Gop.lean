import Verif.Model.Net

/-!
# Broadcast and global operations over message trees

`armci/src/collectives/message.c`: the binary trees over all processes, over
the processes of a node and over the first processes of the nodes
(`armci_msg_bintree`, `armci_msg_group_bintree`), the broadcast along such a
tree, the reduction in pieces of the size of the work buffer, and what
`GA_Brdcst`, `GA_Dgop`, `GA_Igop`, `GA_Pgroup_brdcst`, `GA_Pgroup_dgop`, ...
do with them.

An array of numbers is a function from the index to the value; a message is
the list of the elements sent.

Simplified: the message path is modelled (`_armci_gop_shmem` is 0, lines
226-240); the variant with shared memory within a node (`armci_smp_reduce`,
`armci_smp_bcast`) is not.  Lengths do not overflow (`len` is an `int`).
Null pointers and the allocation of the work buffer are left out.
-/

namespace GA.Gop

open GA.Net

/-- The clusters (nodes): how many processes and nodes there are, the first
process and the number of processes of every node, and the node of every
process.  `armci/src/common/clusterinfo.c` lines 61, 124-208
(`armci_clus_info`, `armci_clus_me`). -/
structure Topo where
  nproc : Nat
  nclus : Nat
  master : Nat → Nat
  nslave : Nat → Nat
  clus : Nat → Nat

/-- `armci/src/include/message.h` lines 16-18. -/
inductive Scope where
  | all
  | node
  | masters
deriving DecidableEq

/-- Root, up, left and right; -1 is no process. -/
structure Tree where
  root : Int
  up : Int
  left : Int
  right : Int

/-- The places around place `index` in a tree of `nproc` places that begins
with number `root`.  `armci/src/collectives/message.c` lines 449-451 and
468-470.  The division of C rounds towards zero: above the root is the
root. -/
def around (root nproc index : Int) : Int × Int × Int :=
  let up := (index - 1).tdiv 2 + root
  let up := if up < root then -1 else up
  let left := 2 * index + 1 + root
  let left := if left ≥ root + nproc then -1 else left
  let right := 2 * index + 2 + root
  let right := if right ≥ root + nproc then -1 else right
  (up, left, right)

/-- The first process of node `c` (`armci_clus_info[c].master`), -1 for -1.
`armci/src/collectives/message.c` lines 458-463. -/
def masterOf (T : Topo) (c : Int) : Int := if c = -1 then -1 else T.master c.toNat

/-- `armci_msg_bintree`, `armci/src/collectives/message.c` lines 442-478
(`armci_msg_group_bintree`, lines 1829-1867, with the numbers in the group). -/
def bintree (T : Topo) (scope : Scope) (me : Nat) : Tree :=
  match scope with
  | .node =>
      let root : Int := T.master (T.clus me)
      let a := around root (T.nslave (T.clus me)) (me - root)
      ⟨root, a.1, a.2.1, a.2.2⟩
  | .masters =>
      let root : Int := T.master 0
      if me ≠ T.master (T.clus me) then ⟨root, -1, -1, -1⟩
      else
        let a := around root T.nclus (T.clus me - root)
        ⟨root, masterOf T a.1, masterOf T a.2.1, masterOf T a.2.2⟩
  | .all =>
      let a := around 0 T.nproc me
      ⟨0, a.1, a.2.1, a.2.2⟩

variable {α : Type}

/-- The elements `off, ..., off + len - 1`. -/
def piece (off len : Nat) (x : Nat → α) : List α := (List.range len).map fun k => x (off + k)

/-- Receive into the elements from `off` on. -/
def store (off : Nat) (x : Nat → α) (m : List α) : Nat → α :=
  fun k => if off ≤ k then (m[k - off]?).getD (x k) else x k

/-- `idoop`, `ldoop`, `ddoop`, ...: `x = op(x, work)` for the elements from
`off` on.  `armci/src/collectives/message.c` lines 754-1180, 1224-1258. -/
def doop (op : α → α → α) (off : Nat) (x : Nat → α) (m : List α) : Nat → α :=
  fun k => if off ≤ k then
      match m[k - off]? with
      | some v => op (x k) v
      | none => x k
    else x k

/-- the sends and receives of one process in a collective operation (armci/src/collectives/message.c 1224-1258), in program order -/
abbrev Prog (α : Type) := List (Act (Nat → α) (List α))

/-- `armci_msg_snd(ARMCI_TAG, x + off, len, to)`.
`armci/src/collectives/message.c` lines 686-697. -/
def snd (off len : Nat) (to : Int) : Prog α := [.post to.toNat 0 (piece off len), .wait to.toNat 0]

/-- `armci_msg_rcv(ARMCI_TAG, x + off, len, NULL, from)`.
`armci/src/collectives/message.c` lines 702-714. -/
def rcv (off : Nat) (frm : Int) : Prog α := [.recv frm.toNat 0 (store off)]

/-- Receive into the work buffer and combine.
`armci/src/collectives/message.c` lines 1320-1326. -/
def rcvOp (op : α → α → α) (off : Nat) (frm : Int) : Prog α := [.recv frm.toNat 0 (doop op off)]

/-- The number of a process in the group turned into the number in the world
(`ARMCI_Absolute_id`), -1 stays.  `armci/src/collectives/message.c` lines
1863-1866. -/
def absId (abs : Nat → Nat) (p : Int) : Int := if p = -1 then -1 else abs p.toNat

/-- The tree in numbers of the world.  Without a group `abs` is the identity.
`armci/src/collectives/message.c` lines 474-477 and 1863-1866. -/
def absTree (abs : Nat → Nat) (t : Tree) : Tree :=
  ⟨absId abs t.root, absId abs t.up, absId abs t.left, absId abs t.right⟩

/-- `armci_msg_bcast_scope`, `armci/src/collectives/message.c` lines 482-502,
and `armci_msg_group_bcast_scope`, lines 1869-1891: what process number `me`
(in the group) does; `root` is a number of the world. -/
def bcastScope (abs : Nat → Nat) (T : Topo) (scope : Scope) (me len : Nat) (root : Int) : Prog α :=
  let t := absTree abs (bintree T scope me)
  let armciMe : Int := abs me
  (if root ≠ t.root then
    (if armciMe = root then snd 0 len t.root else []) ++
    (if armciMe = t.root then rcv 0 root else [])
   else []) ++
  (if armciMe ≠ t.root ∧ t.up ≠ -1 then rcv 0 t.up else []) ++
  (if t.left > -1 then snd 0 len t.left else []) ++
  (if t.right > -1 then snd 0 len t.right else [])

/-- The loop over the pieces in `armci_msg_reduce_scope` and
`armci_msg_gop_scope`, `armci/src/collectives/message.c` lines 1315-1338,
1361-1385 and 1917-1940.  `B` is `BUF_SIZE*ratio`; the fuel is the number of
elements. -/
def reduceLoop (op : α → α → α) (B : Nat) (t : Tree) (armciMe : Int) :
    Nat → Nat → Nat → Prog α
  | 0, _, _ => []
  | fuel + 1, off, n =>
      let ndo := if n ≤ B then n else B
      if ndo = 0 then []
      else
        (if t.left > -1 then rcvOp op off t.left else []) ++
        (if t.right > -1 then rcvOp op off t.right else []) ++
        (if armciMe ≠ t.root ∧ t.up ≠ -1 then snd off ndo t.up else []) ++
        reduceLoop op B t armciMe fuel (off + ndo) (n - ndo)

/-- `armci_msg_reduce_scope`, `armci/src/collectives/message.c` lines
1347-1386. -/
def reduceScope (abs : Nat → Nat) (T : Topo) (op : α → α → α) (B : Nat) (scope : Scope)
    (me n : Nat) : Prog α :=
  reduceLoop op B (absTree abs (bintree T scope me)) (abs me) n 0 n

/-- `armci_msg_gop_scope`, `armci/src/collectives/message.c` lines 1296-1345,
and `armci_msg_group_gop_scope`, lines 1893-1945. -/
def gopScope (abs : Nat → Nat) (T : Topo) (op : α → α → α) (B : Nat) (scope : Scope)
    (me n : Nat) : Prog α :=
  reduceScope abs T op B scope me n ++
  bcastScope abs T scope me n (absTree abs (bintree T scope me)).root

/-- `armci_msg_reduce`, `armci/src/collectives/message.c` lines 1578-1595: in
the node, then between the first processes of the nodes. -/
def msgReduce (T : Topo) (op : α → α → α) (B : Nat) (me n : Nat) : Prog α :=
  reduceScope id T op B .node me n ++
  (if T.nclus > 1 then reduceScope id T op B .masters me n else [])

/-- `armci_msg_bcast`, `armci/src/collectives/message.c` lines 647-668. -/
def msgBcast (T : Topo) (me len root : Nat) : Prog α :=
  if T.nclus > 1 then
    bcastScope id T .masters me len root ++
    bcastScope id T .node me len (T.master (T.clus me))
  else bcastScope id T .node me len root

/-- `armci_msg_gop2`, `armci/src/collectives/message.c` lines 1598-1617; what
`GA_Igop`, `GA_Lgop`, `GA_Fgop`, `GA_Dgop` call (`global/src/collect.c` lines
206-243). -/
def msgGop2 (T : Topo) (op : α → α → α) (B : Nat) (me n : Nat) : Prog α :=
  msgReduce T op B me n ++ msgBcast T me n 0

/-- The number in the world of member `r` of a group (`ARMCI_Absolute_id`).
`armci/src/collectives/message.c` line 1827. -/
def absOf (members : List Nat) (r : Nat) : Nat := members.getD r 0

/-- A group as far as the tree over all its members needs it.
`armci/src/collectives/message.c` lines 1854-1861. -/
def groupTopo (members : List Nat) : Topo :=
  ⟨members.length, 1, fun _ => 0, fun _ => members.length, fun _ => 0⟩

/-- One call of a collective operation. -/
inductive Call (α : Type) where
  /-- `GA_Brdcst` (`global/src/collect.c` lines 24-64, the branch without a
  default group): `armci_msg_bcast`; lengths up to one piece -/
  | bcast (len root : Nat)
  /-- `GA_Igop`, `GA_Lgop`, `GA_Dgop`, ... (lines 206-243) -/
  | gop (op : α → α → α) (B n : Nat)
  /-- `GA_Pgroup_brdcst` (lines 79-97); `orig` is a number in the group -/
  | gbcast (members : List Nat) (len orig : Nat)
  /-- `GA_Pgroup_igop`, ... (lines 162-199) -/
  | ggop (members : List Nat) (op : α → α → α) (B n : Nat)

/-- What process `p` does in one call. `global/src/collect.c` lines 60, 88-93,
169-187, 217-238. -/
def callProg (T : Topo) : Call α → Nat → Prog α
  | .bcast len root, p => if p < T.nproc then msgBcast T p len root else []
  | .gop op B n, p => if p < T.nproc then msgGop2 T op B p n else []
  | .gbcast ms len orig, p =>
      match ms.idxOf? p with
      | some r => bcastScope (absOf ms) (groupTopo ms) .all r len (absOf ms orig)
      | none => []
  | .ggop ms op B n, p =>
      match ms.idxOf? p with
      | some r => gopScope (absOf ms) (groupTopo ms) op B .all r n
      | none => []

/-- All processes make the calls of `h` in this order (a process that is not
in a group leaves the calls of the group out); no message is on the way. -/
def history (T : Topo) (h : List (Call α)) (x : Nat → Nat → α) : Net (Nat → α) (List α) :=
  { prog := fun p => h.flatMap (callProg T · p), buf := x, ch := fun _ _ _ => [] }

/-- `strncmp(op, name, strlen(name)) == 0`. -/
def isOp (op name : String) : Bool := name.toList.isPrefixOf op.toList

/-- The absolute value, `ARMCI_ABS`. `armci/src/collectives/message.c` lines
774, 781. -/
def absI (x : Int) : Int := if x ≥ 0 then x else -x

/-- What `idoop`, `ldoop`, `lldoop` do to one element, by the name of the
operation; `none` is `armci_die`.  `armci/src/collectives/message.c` lines
754-814, 886-946, 1019-1079.  Numbers do not overflow; the operations on bits
are left out. -/
def intOp (op : String) : Option (Int → Int → Int) :=
  if isOp op "+" then some (fun x w => x + w)
  else if isOp op "*" then some (fun x w => x * w)
  else if isOp op "max" then some (fun x w => max x w)
  else if isOp op "min" then some (fun x w => min x w)
  else if isOp op "absmax" then some (fun x w => max (absI x) (absI w))
  else if isOp op "absmin" then some (fun x w => min (absI x) (absI w))
  else if isOp op "or" then none
  else if isOp op "&&" || isOp op "land" then some (fun x w => if x ≠ 0 ∧ w ≠ 0 then 1 else 0)
  else if isOp op "||" || isOp op "lor" then some (fun x w => if x ≠ 0 ∨ w ≠ 0 then 1 else 0)
  else none

/-- `armci_op_to_mpi_op` and `do_abs` of the port on MPI alone,
`comex/src-armci/message.c` lines 81-148 and 185-220: what is done to an
element before, and the operation of `MPI_Allreduce`. -/
def comexOp (op : String) : Option ((Int → Int) × (Int → Int → Int)) :=
  if isOp op "+" then some (id, fun x w => x + w)
  else if isOp op "max" then some (id, fun x w => max x w)
  else if isOp op "min" then some (id, fun x w => min x w)
  else if isOp op "*" then some (id, fun x w => x * w)
  else if isOp op "absmin" then some (absI, fun x w => min x w)
  else if isOp op "absmax" then some (absI, fun x w => max x w)
  else if isOp op "or" then none
  else if isOp op "&&" || isOp op "land" then some (id, fun x w => if x ≠ 0 ∧ w ≠ 0 then 1 else 0)
  else if isOp op "||" || isOp op "lor" then some (id, fun x w => if x ≠ 0 ∨ w ≠ 0 then 1 else 0)
  else none

/-- `GA_Zgop` with elements of two numbers is `armci_msg_dgop` with twice as
many numbers (`global/src/collect.c` line 236): element `k` has its parts at
`2 * k` and `2 * k + 1`. -/
def parts (z : Nat → Int × Int) : Nat → Int :=
  fun k => if k % 2 = 0 then (z (k / 2)).1 else (z (k / 2)).2

end GA.Gop
