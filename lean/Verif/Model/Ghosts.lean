import Verif.Model.Region
import Verif.Model.Strided

/-!
# Model: `GA_Update_ghosts`

`pnga_update_ghosts` (global/src/ghosts.c 3530-3548) calls `pnga_update4_ghosts` (1686-1930), which
always returns TRUE, so the fallback `pnga_update1_ghosts` is never used. `pnga_update4_ghosts`
executes a message plan that `pnga_set_update4_info` (1297-1680) computed when the array was
allocated (`pnga_set_ghost_info` 4367-4378, base.c 2830-2834).

Modelled: REGULAR arrays on the world group. One memory cell stands for one element. Conversions of
strides and counts to `int` are taken as exact. The cache layout (a byte array holding one record
per message) is modelled as a list of records.
-/

namespace GA.Ghost
open Model

/-- `for (i = 0; i < ndim; i++) a[i] = f(i)` -/
def tab {α} (n : Nat) (f : Nat → α) : List α := (List.range n).map f

/-! ## Setting up the message plan -/

/-- Inner loop of `gai_check_ghost_distr` (ghosts.c 787-801) for one dimension: `k` blocks are
left, `m` starts at `mapc[ipx]`. -/
def checkAxis : (k : Nat) → (m : List Int) → (d : Int) → (w : Nat) → Bool
  | 0, _, _, _ => true
  | k + 1, m, d, w =>
    (if 0 < k then !decide (m.getD 1 0 - m.getD 0 0 + 1 < w) else !decide (d - m.getD 0 0 + 1 < w)) &&
      checkAxis k (m.drop 1) d w

/-- `gai_check_ghost_distr` (ghosts.c 780-804). -/
def checkDistr : (nblock : List Nat) → (dims mapc : List Int) → (width : List Nat) → Bool
  | n :: ns, d :: ds, m, w :: ws => checkAxis n m d w && checkDistr ns ds (m.drop n) ws
  | _, _, _, _ => true

/-- `get_remote_block_neg` (ghosts.c 978-1008): the patch the neighbour in negative direction
holds, corners `slo_rem`, `shi_rem`. -/
def remoteNeg (idx : Nat) (lo hi dims : List Int) (width : List Nat) : List Int × List Int :=
  let n := dims.length
  let loRem := tab n fun i => if i = idx then lo.getD i 0 - width.getD i 0 else lo.getD i 0
  let hiRem := tab n fun i => if i = idx then lo.getD i 0 - 1 else hi.getD i 0
  (tab n fun i => if i = idx then
      (if loRem.getD i 0 < 1 then dims.getD i 0 - width.getD i 0 + 1 else loRem.getD i 0)
    else loRem.getD i 0,
   tab n fun i => if i = idx then
      (if loRem.getD i 0 < 1 then dims.getD i 0 else hiRem.getD i 0)
    else hiRem.getD i 0)

/-- `get_remote_block_pos` (ghosts.c 1013-1045); the same patch is computed inline for the receive
side of the message in negative direction (ghosts.c 1441-1466). -/
def remotePos (idx : Nat) (lo hi dims : List Int) (width : List Nat) : List Int × List Int :=
  let n := dims.length
  let loRem := tab n fun i => if i = idx then hi.getD i 0 + 1 else lo.getD i 0
  let hiRem := tab n fun i => if i = idx then hi.getD i 0 + width.getD i 0 else hi.getD i 0
  (tab n fun i => if i = idx then
      (if hiRem.getD i 0 > dims.getD i 0 then 1 else loRem.getD i 0)
    else loRem.getD i 0,
   tab n fun i => if i = idx then
      (if hiRem.getD i 0 > dims.getD i 0 then (width.getD i 0 : Int) else hiRem.getD i 0)
    else hiRem.getD i 0)

/-- Receive patch of the message in positive direction (ghosts.c 1568-1592): like `remoteNeg`, but
the wrap-around test is `hi_rcv < 1`. -/
def rcvNeg (idx : Nat) (lo hi dims : List Int) (width : List Nat) : List Int × List Int :=
  let n := dims.length
  let loRem := tab n fun i => if i = idx then lo.getD i 0 - width.getD i 0 else lo.getD i 0
  let hiRem := tab n fun i => if i = idx then lo.getD i 0 - 1 else hi.getD i 0
  (tab n fun i => if i = idx then
      (if hiRem.getD i 0 < 1 then dims.getD i 0 - width.getD i 0 + 1 else loRem.getD i 0)
    else loRem.getD i 0,
   tab n fun i => if i = idx then
      (if hiRem.getD i 0 < 1 then dims.getD i 0 else hiRem.getD i 0)
    else hiRem.getD i 0)

/-- `pnga_locate_region(...); proc = _ga_proclist[0]` (ghosts.c 1430-1434 and three more places).
`cand x` are the floating point guesses of the block search for subscript `x`. `none` models
`ga_RegionError`. -/
def firstProc (A : RegArray) (cand : List Int → List Nat) (pt : List Int × List Int) : Option Int :=
  match locateRegion A (cand pt.1) (cand pt.2) pt.1 pt.2 with
  | some (p :: _) => some p.proc
  | _ => none

/-- `increment[i]` in the pass for dimension `idx`: initialised with 0 (ghosts.c 1375), set to
`2*width[idx]` at the end of pass `idx` if the corner flag is set (1667-1668). -/
def incr (flag : Bool) (width : List Nat) (idx i : Nat) : Int :=
  if flag && decide (i < idx) then 2 * (width.getD i 0 : Int) else 0

/-- `plo_snd`, `phi_snd`, `plo_rcv`, `phi_rcv` of the message in negative direction
(ghosts.c 1479-1499). -/
def winNeg (flag : Bool) (idx : Nat) (lo hi : List Int) (width : List Nat) :
    (List Int × List Int) × (List Int × List Int) :=
  let n := width.length
  let w := fun i => (width.getD i 0 : Int)
  let e := fun i => hi.getD i 0 - lo.getD i 0
  ((tab n fun i => if incr flag width idx i = 0 then (if i = idx then w i else w i) else 0,
    tab n fun i => if incr flag width idx i = 0 then (if i = idx then 2 * w i - 1 else e i + w i)
      else e i + incr flag width idx i),
   (tab n fun i => if incr flag width idx i = 0 then (if i = idx then e i + w i + 1 else w i) else 0,
    tab n fun i => if incr flag width idx i = 0 then (if i = idx then e i + 2 * w i else e i + w i)
      else e i + incr flag width idx i))

/-- The same for the message in positive direction (ghosts.c 1605-1625). -/
def winPos (flag : Bool) (idx : Nat) (lo hi : List Int) (width : List Nat) :
    (List Int × List Int) × (List Int × List Int) :=
  let n := width.length
  let w := fun i => (width.getD i 0 : Int)
  let e := fun i => hi.getD i 0 - lo.getD i 0
  ((tab n fun i => if incr flag width idx i = 0 then (if i = idx then e i + 1 else w i) else 0,
    tab n fun i => if incr flag width idx i = 0 then (if i = idx then e i + w i else e i + w i)
      else e i + incr flag width idx i),
   (tab n fun i => if incr flag width idx i = 0 then (if i = idx then 0 else w i) else 0,
    tab n fun i => if incr flag width idx i = 0 then (if i = idx then w i - 1 else e i + w i)
      else e i + incr flag width idx i))

/-- Offset computed by `gam_LocationWithGhosts` (ghosts.c 77-91). -/
def ghostLoc : (sub lo hi : List Int) → (width : List Nat) → (off factor : Int) → Int
  | s :: ss, l :: ls, h :: hs, w :: ws, off, f =>
    ghostLoc ss ls hs ws (off + s * f) (f * (h - l + 1 + 2 * w))
  | _, _, _, _, off, _ => off

/-- `gam_CountElems` (base.h 335-338). -/
def countElems : (lo hi : List Int) → Int
  | l :: ls, h :: hs => (h - l + 1) * countElems ls hs
  | _, _ => 1

/-- One record of the message plan: partners, offsets of the two windows in the local segment,
leading dimensions, `count[]` and the message length in elements. -/
structure Msg where
  snd : Int
  rcv : Int
  sndOff : Int
  rcvOff : Int
  ld : List Int
  count : List Nat
  length : Int
deriving Repr, DecidableEq

/-- The record for dimension `idx` and one direction (ghosts.c 1409-1521, 1545-1647): process `me`
sends window `win.1` and receives into window `win.2`. -/
def roundMsg (A : RegArray) (flag : Bool) (cand : List Int → List Nat) (me idx : Nat) (pos : Bool) :
    Option Msg :=
  let o := owns A me
  let to := if pos then remotePos idx o.1 o.2 A.dims A.width else remoteNeg idx o.1 o.2 A.dims A.width
  let frm := if pos then rcvNeg idx o.1 o.2 A.dims A.width else remotePos idx o.1 o.2 A.dims A.width
  let win := if pos then winPos flag idx o.1 o.2 A.width else winNeg flag idx o.1 o.2 A.width
  match firstProc A cand to, firstProc A cand frm with
  | some s, some r =>
    some ⟨s, r, ghostLoc win.1.1 o.1 o.2 A.width 0 1, ghostLoc win.2.1 o.1 o.2 A.width 0 1,
      ldRem o.1 o.2 A.width, (edges win.2.1 win.2.2).map Int.toNat, countElems win.1.1 win.1.2⟩
  | _, _ => none

/-- The main loop of `pnga_set_update4_info` (ghosts.c 1405-1669); `k` dimensions are left. -/
def planLoop (A : RegArray) (flag : Bool) (cand : List Int → List Nat) (me : Nat) :
    (k idx : Nat) → Option (List Msg)
  | 0, _ => some []
  | k + 1, idx =>
    if A.width.getD idx 0 ≠ 0 then
      match roundMsg A flag cand me idx false, roundMsg A flag cand me idx true,
          planLoop A flag cand me k (idx + 1) with
      | some a, some b, some r => some (a :: b :: r)
      | _, _, _ => none
    else planLoop A flag cand me k (idx + 1)

/-- `pnga_has_ghosts` (base.c 3717-3721): the flag is set in `pnga_set_ghosts` if some width is
positive. -/
def hasGhosts (width : List Nat) : Bool := width.any fun w => decide (0 < w)

/-- Buffer length in elements (ghosts.c 1384-1399). -/
def bufLen (lo hi : List Int) (width : List Nat) : Int :=
  let d := tab width.length fun i => hi.getD i 0 - lo.getD i 0 + 1 + 2 * (width.getD i 0 : Int)
  let tot := d.foldl (· * ·) 1
  (List.range width.length).foldl (fun b i =>
    let c := tot / (hi.getD i 0 - lo.getD i 0 + 1 + 2 * (width.getD i 0 : Int)) * (width.getD i 0 : Int)
    if b < c then c else b) 1

/-- `pnga_set_update4_info` (ghosts.c 1297-1680) on process `me`: buffer length and message plan;
`none` models the return value FALSE (an error exit in `pnga_allocate`) or a region error. -/
def setInfo (A : RegArray) (flag : Bool) (cand : List Int → List Nat) (me : Nat) :
    Option (Int × List Msg) :=
  if hasGhosts A.width then
    let o := owns A me
    if !checkDistr A.nblock A.dims A.mapc A.width then none
    else if (List.range A.dims.length).any fun i => decide (o.1.getD i 0 = 0 ∧ o.2.getD i 0 = -1) then
      none
    else (planLoop A flag cand me A.dims.length 0).map fun p => (bufLen o.1 o.2 A.width, p)
  else some (0, [])

/-- Value of `i` after `for (i = 0; i < ndim; i++) ...` -/
def loopEnd : (ndim : Nat) → (i : Int) → Int
  | 0, i => i
  | k + 1, i => loopEnd k (i + 1)

/-- The corner flag in `pnga_allocate` (base.c 2763-2774, again 3082-3093): `user` is the value set
before (-1: not set). The variable that holds it is reused as loop counter before it is stored. -/
def allocFlag (ndim : Nat) (user : Int) : Int :=
  let _i := if user = -1 then 1 else user
  loopEnd ndim 0

/-! ## Executing the plan -/

/-- The steps of `pnga_update4_ghosts` that matter for the result: fill the send buffer
(`armci_write_strided`), `armci_msg_snd`, `armci_msg_rcv`, `rcv_ptr = snd_ptr`, copy the receive
buffer back (`armci_read_strided`). -/
inductive Op where
  | pack | snd | rcv | copy | unpack
deriving Repr, DecidableEq

/-- Order of send and receive for a message in negative direction (ghosts.c 1804-1837), for
coordinate `i` of `n` along the dimension. -/
def commNeg (n i : Nat) : List Op :=
  if n % 2 = 0 then
    (if i % 2 ≠ 0 then [.snd] else [.rcv]) ++ (if i % 2 ≠ 0 then [.rcv] else [.snd])
  else
    (if i % 2 ≠ 0 then [.snd] else if i ≠ n - 1 then [.rcv] else []) ++
    (if i % 2 ≠ 0 then [.rcv] else if i ≠ 0 then [.snd] else []) ++
    (if i = 0 then [.snd] else []) ++ (if i = n - 1 then [.rcv] else [])

/-- Order of send and receive for a message in positive direction (ghosts.c 1884-1917). -/
def commPos (n i : Nat) : List Op :=
  if n % 2 = 0 then
    (if i % 2 ≠ 0 then [.snd] else [.rcv]) ++ (if i % 2 ≠ 0 then [.rcv] else [.snd])
  else
    (if i % 2 ≠ 0 then [.snd] else if i ≠ 0 then [.rcv] else []) ++
    (if i % 2 ≠ 0 then [.rcv] else if i ≠ n - 1 then [.snd] else []) ++
    (if i = n - 1 then [.snd] else []) ++ (if i = 0 then [.rcv] else [])

/-- One step of a process: what, message type `msgcnt`, record of the plan. -/
structure Act where
  op : Op
  tag : Nat
  msg : Msg
deriving Repr, DecidableEq

/-- The steps for one message (ghosts.c 1793-1846, 1876-1923): the test for a local copy looks at
the send partner in negative and at the receive partner in positive direction. -/
def msgActs (me n i : Nat) (pos : Bool) (tag : Nat) (m : Msg) : List Act :=
  let self := if pos then decide ((me : Int) = m.rcv) else decide ((me : Int) = m.snd)
  let mid := if self then [Op.copy] else if pos then commPos n i else commNeg n i
  ((Op.pack :: mid) ++ [Op.unpack]).map fun o => ⟨o, tag, m⟩

/-- `pnga_proc_topology` (base.c 4478-4491). -/
def procTopology : (nblock : List Nat) → (proc : Nat) → List Nat
  | n :: ns, p => (p % n) :: procTopology ns (p / n)
  | [], _ => []

/-- The loop of `pnga_update4_ghosts` (ghosts.c 1756-1925): `k` dimensions are left, `tag` is
`msgcnt`, `ms` the unread part of the plan. -/
def progLoop (A : RegArray) (me : Nat) : (k idx tag : Nat) → (ms : List Msg) → List Act
  | 0, _, _, _ => []
  | k + 1, idx, tag, ms =>
    if A.width.getD idx 0 ≠ 0 then
      match ms with
      | a :: b :: ms =>
        let n := A.nblock.getD idx 0
        let i := (procTopology A.nblock me).getD idx 0
        msgActs me n i false tag a ++ msgActs me n i true (tag + 1) b ++
          progLoop A me k (idx + 1) (tag + 2) ms
      | _ => []
    else progLoop A me k (idx + 1) tag ms

/-- State of one process: remaining steps, its segment of the array, send and receive buffer. -/
structure Proc (V : Type) where
  todo : List Act
  mem : Int → V
  sbuf : List V
  rbuf : List V

/-- A message in transit. -/
structure Packet (V : Type) where
  src : Nat
  dst : Nat
  tag : Nat
  data : List V

/-- State of all processes and the network. -/
structure Sys (V : Type) where
  procs : Nat → Proc V
  net : List (Packet V)

section
variable {V : Type} [Inhabited V]

/-- remove the first packet with the given source, destination and message type -/
def takePacket (src dst tag : Nat) : List (Packet V) → Option (List V × List (Packet V))
  | [] => none
  | k :: ks =>
    if k.src = src ∧ k.dst = dst ∧ k.tag = tag then some (k.data, ks)
    else (takePacket src dst tag ks).map fun r => (r.1, k :: r.2)

/-- One step of some process `p < n`. `blen` is the buffer length of each process. A send may
either be buffered by the message layer (only if `buf` is true) or wait for the matching receive
(`rendezvous`); a receive names source and type, as `armci_msg_rcv` does. A step that would run
over a buffer, read beyond the received message or fail an assertion is not possible: the process
is stuck. -/
inductive Step (n : Nat) (blen : Nat → Int) (buf : Bool) : Sys V → Sys V → Prop
  /-- `armci_write_strided(*ptr_snd, ndim-1, stride_snd, count, snd_ptr)` -/
  | pack (s : Sys V) (p : Nat) (t : Nat) (m : Msg) (rest : List Act) (c0 : Nat) (cs : List Nat)
      (b : List V) (hp : p < n) (ht : (s.procs p).todo = ⟨.pack, t, m⟩ :: rest)
      (hc : m.count = c0 :: cs)
      (hb : writeStrided (s.procs p).mem m.sndOff (setstride 1 m.ld) c0 cs = some b)
      (hl : (b.length : Int) ≤ blen p) :
      Step n blen buf s ⟨upd s.procs p { s.procs p with todo := rest, sbuf := b }, s.net⟩
  /-- `armci_msg_snd(msgcnt, snd_ptr, *length, *proc_rem_snd)`, buffered -/
  | snd (s : Sys V) (p q : Nat) (t : Nat) (m : Msg) (rest : List Act) (hb : buf = true) (hp : p < n)
      (hq : q < n) (ht : (s.procs p).todo = ⟨.snd, t, m⟩ :: rest) (hm : m.snd = q)
      (hl : m.length = (s.procs p).sbuf.length) :
      Step n blen buf s ⟨upd s.procs p { s.procs p with todo := rest },
        s.net ++ [⟨p, q, t, (s.procs p).sbuf⟩]⟩
  /-- `armci_msg_rcv(msgcnt, rcv_ptr, bufsize, &msglen, *proc_rem_rcv)` of a buffered message -/
  | rcv (s : Sys V) (p q : Nat) (t : Nat) (m : Msg) (rest : List Act) (d : List V)
      (net : List (Packet V)) (hp : p < n) (ht : (s.procs p).todo = ⟨.rcv, t, m⟩ :: rest)
      (hm : m.rcv = q) (hd : takePacket q p t s.net = some (d, net)) (hl : (d.length : Int) ≤ blen p) :
      Step n blen buf s ⟨upd s.procs p { s.procs p with todo := rest, rbuf := d }, net⟩
  /-- `p` sends and `q` receives at the same time -/
  | rendezvous (s : Sys V) (p q : Nat) (t : Nat) (m m' : Msg) (rest rest' : List Act) (hp : p < n)
      (hq : q < n) (hpq : p ≠ q)
      (ht : (s.procs p).todo = ⟨.snd, t, m⟩ :: rest) (hm : m.snd = q)
      (ht' : (s.procs q).todo = ⟨.rcv, t, m'⟩ :: rest') (hm' : m'.rcv = p)
      (hl : m.length = (s.procs p).sbuf.length) (hl' : ((s.procs p).sbuf.length : Int) ≤ blen q) :
      Step n blen buf s ⟨upd (upd s.procs p { s.procs p with todo := rest }) q
        { s.procs q with todo := rest', rbuf := (s.procs p).sbuf }, s.net⟩
  /-- `rcv_ptr = snd_ptr` -/
  | copy (s : Sys V) (p : Nat) (t : Nat) (m : Msg) (rest : List Act) (hp : p < n)
      (ht : (s.procs p).todo = ⟨.copy, t, m⟩ :: rest) :
      Step n blen buf s ⟨upd s.procs p { s.procs p with todo := rest, rbuf := (s.procs p).sbuf },
        s.net⟩
  /-- `armci_read_strided(*ptr_rcv, ndim-1, stride_rcv, count, rcv_ptr)` -/
  | unpack (s : Sys V) (p : Nat) (t : Nat) (m : Msg) (rest : List Act) (c0 : Nat) (cs : List Nat)
      (mem : Int → V) (hp : p < n) (ht : (s.procs p).todo = ⟨.unpack, t, m⟩ :: rest)
      (hc : m.count = c0 :: cs) (hl : packedSize c0 cs ≤ (s.procs p).rbuf.length)
      (hb : readStrided (fun i => (s.procs p).rbuf.getD i default) (s.procs p).mem m.rcvOff
        (setstride 1 m.ld) c0 cs = some mem) :
      Step n blen buf s ⟨upd s.procs p { s.procs p with todo := rest, mem := mem }, s.net⟩

/-- states reachable by any schedule -/
inductive Reach (n : Nat) (blen : Nat → Int) : Sys V → Sys V → Prop
  | refl (s) : Reach n blen s s
  | step {s t u} : Reach n blen s t → Step n blen true t u → Reach n blen s u

/-- State after the synchronisation at the start of `pnga_update_ghosts` (ghosts.c 3541), with
memory `m` and the plan `info p` of each process; no message is in transit and nothing is known
about the buffers. -/
def start (A : RegArray) (info : Nat → Int × List Msg) (m : Addr → V) (junk : Nat → List V × List V) :
    Sys V :=
  ⟨fun p => ⟨if hasGhosts A.width then progLoop A p A.dims.length 0 0 (info p).2 else [],
    fun o => m ((p : Int), o), (junk p).1, (junk p).2⟩, []⟩

/-- all processes have reached the synchronisation at the end (ghosts.c 3547) -/
def Finished (n : Nat) (s : Sys V) : Prop := ∀ p, p < n → (s.procs p).todo = []

/-- the memory of the machine in a state -/
def memOf (s : Sys V) (m : Addr → V) (n : Nat) : Addr → V :=
  fun a => if 0 ≤ a.1 ∧ a.1 < n then (s.procs a.1.toNat).mem a.2 else m a

end

end GA.Ghost
