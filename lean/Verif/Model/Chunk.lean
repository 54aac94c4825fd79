import Verif.Model.Strided

/-!
# Model: splitting of long transfers

* the `do { size = min(bytes_remaining, max_message_size); ... } while (bytes_remaining > 0)` loops of
  comex/src-mpi-pr/comex.c (nb_put 6131-6143, nb_get 6200-6212, nb_acc 6326-6336, `_put_handler`
  3591-3601, `_get_handler` 3840-3850, `_acc_handler` 4100-4110) and their backward variants
  (nb_puts_packed 6513-6530, nb_gets_packed 6783-6801, `_put_packed_handler` 3657-3668,
  `_get_packed_handler` 3888-3898, `_acc_packed_handler` 4190-4200),
* `pnga_msg_brdcst`, `pnga_pgroup_brdcst` (global/src/collect.c 37-96).

The messages of one transfer travel between one sender and one receiver on one communicator and
tag, so MPI delivers them in order: a transfer is a list of messages.
-/

namespace GA.Model

/-- Forward loop (e.g. comex.c 6135-6142): the pieces `(offset, size)` in the order in which they
are sent or received. `fuel` bounds the number of iterations (`none`: not finished). -/
def fwdChunks (max : Nat) : (fuel off rem : Nat) → Option (List (Nat × Nat))
  | 0, _, _ => none
  | f + 1, off, rem =>
    let size := if rem > max then max else rem
    let rem' := rem - size
    if rem' > 0 then (fwdChunks max f (off + size) rem').map ((off, size) :: ·)
    else some [(off, size)]

/-- Backward loop (e.g. comex.c 6517-6529): `buf` starts at the end and is moved before use. -/
def bwdChunks (max : Nat) : (fuel off rem : Nat) → Option (List (Nat × Nat))
  | 0, _, _ => none
  | f + 1, off, rem =>
    let size := if rem > max then max else rem
    let off' := off - size
    let rem' := rem - size
    if rem' > 0 then (bwdChunks max f off' rem').map ((off', size) :: ·)
    else some [(off', size)]

/-- contents of the messages sent for the pieces -/
def sendMsgs {V} (mem : Int → V) (base : Int) (cs : List (Nat × Nat)) : List (List V) :=
  cs.map fun c => readSeg mem (base + c.1) c.2

/-- Matching receives: the receiver expects exactly the size it computed (a longer message is an
MPI truncation error, a shorter one leaves bytes unset), hence `none` on a mismatch. -/
def recvMsgs {V} [Inhabited V] (base : Int) :
    (cs : List (Nat × Nat)) → (msgs : List (List V)) → (mem : Int → V) → Option (Int → V)
  | [], [], mem => some mem
  | c :: cs, m :: ms, mem =>
    if m.length = c.2 then
      recvMsgs base cs ms (writeSeg mem (base + c.1) (fun b => m.getD b default) c.2)
    else none
  | _, _, _ => none

/-- A transfer of `len` bytes with forward splitting on both sides (put 6131-6143 / 3591-3601, get
3840-3850 / 6200-6212). -/
def xferFwd {V} [Inhabited V] (max len : Nat) (src dst : Int → V) (sbase dbase : Int) :
    Option (Int → V) :=
  (fwdChunks max len 0 len).bind fun s =>
    (fwdChunks max len 0 len).bind fun r => recvMsgs dbase r (sendMsgs src sbase s) dst

/-- A transfer of `len` bytes with backward splitting on both sides (packed transfers). -/
def xferBwd {V} [Inhabited V] (max len : Nat) (src dst : Int → V) (sbase dbase : Int) :
    Option (Int → V) :=
  (bwdChunks max len len len).bind fun s =>
    (bwdChunks max len len len).bind fun r => recvMsgs dbase r (sendMsgs src sbase s) dst

/-- Packed put that is too long for the eager protocol: `nb_puts_packed` (comex.c 6478-6530) and
`_put_packed_handler` (3648-3675): pack, send backwards, receive backwards, unpack. -/
def putPacked {V} [Inhabited V] (max : Nat) (src dst : Int → V) (sbase dbase : Int)
    (sstr dstr : List Int) (c0 : Nat) (counts : List Nat) : Option (Int → V) :=
  let packed := pack src sbase sstr c0 counts
  (xferBwd max packed.length (fun i => packed.getD i.toNat default) (fun _ => default) 0 0).map
    fun buf => unpack (fun i => buf i) dst dbase dstr c0 counts

/-! ## broadcast -/

/-- Buffers of all members of the communicator, by rank. -/
abbrev Bufs (V : Type) := Nat → Int → V

/-- `MPI_Bcast` of `len` bytes at offset `off` from rank `root`. -/
def mpiBcast {V} (bufs : Bufs V) (off : Int) (len : Nat) (root : Nat) : Bufs V :=
  fun r i => if off ≤ i ∧ i < off + len then bufs root i else bufs r i

/-- `bigint` (collect.c 39) -/
def bigint : Nat := 2147483647

/-- Loop of `pnga_msg_brdcst` (collect.c 48-63): `n` steps left. -/
def brdcstLoop {V} (len root : Nat) : (n istart : Nat) → Bufs V → Bufs V
  | 0, _, bufs => bufs
  | n + 1, istart, bufs =>
    let small := if istart + bigint > len then len - istart else bigint
    brdcstLoop len root n (istart + small) (mpiBcast bufs istart small root)

/-- `nsteps` (collect.c 46): `ceil(len / bigint)`. Simplified: exact division instead of division in
double precision (exact for lengths below 2^53). -/
def nsteps (len : Nat) : Nat := (len + (bigint - 1)) / bigint

/-- Root rank used in the communicator of a group: `inv_map_proc_list[root]` (collect.c 56, 89)
translated back by `armci_msg_group_bcast_scope` (comex/src-armci/message.c 744-749). -/
def groupRoot (invMap : List Nat) (root : Nat) : Option Nat :=
  (invMap[root]?).map fun a => invMap.idxOf a

/-- `pnga_msg_brdcst` (collect.c 37-64); `grp = none` is the world group. -/
def msgBrdcst {V} (grp : Option (List Nat)) (bufs : Bufs V) (len root : Nat) : Option (Bufs V) :=
  match grp with
  | none => some (brdcstLoop len root (nsteps len) 0 bufs)
  | some m => (groupRoot m root).map fun r => brdcstLoop len r (nsteps len) 0 bufs

/-- conversion `(int)len` of a 64-bit integer -/
def toInt32 (n : Int) : Int := (n + 2147483648) % 4294967296 - 2147483648

/-- `pnga_pgroup_brdcst` (collect.c 82-96): a single broadcast of `(int)len` bytes; a negative count
is an MPI error. -/
def pgroupBrdcst {V} (grp : Option (List Nat)) (bufs : Bufs V) (len : Int) (root : Nat) :
    Option (Bufs V) :=
  if toInt32 len < 0 then none
  else match grp with
    | none => some (mpiBcast bufs 0 (toInt32 len).toNat root)
    | some m => (groupRoot m root).map fun r => mpiBcast bufs 0 (toInt32 len).toNat r

end GA.Model
