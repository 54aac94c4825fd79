import Verif.Spec.Comm

/-!
# Model: the communication layer of comex with progress ranks

comex/src-mpi-pr/comex.c: `nb_put`, `nb_get`, `nb_acc` (6059-6330), `comex_rmw` (2115-2194),
`comex_unlock` (2324-2358), `comex_fence_all`, `_fence_master`, `comex_fence_proc`, `comex_barrier`
(1074-1234), the progress server (3379-3520) and its handlers (3568-3606, 3815-3850, 4045-4130,
4400-4500).

Processes and servers are ranks. Every process sends its requests for rank `r` to the server
`master r`. MPI is modelled by a first-in-first-out channel from each process to each server and one
back (messages with one tag on one communicator do not overtake each other); receives are matched to
replies in the order they were posted.

Simplifications: memory consists of cells of one element; a `memcpy` (the whole of a direct access,
one message of a longer transfer) is one step, `_acc` is one step because of the semaphore; the reply
to a `get` is one message. Strided, packed, datatype and i/o-vector variants are not modelled, nor is
`comex_lock` (see `Model.Mutex`). Local completion of sends is not tracked: it restricts when the
caller continues but nothing else depends on it. Every call is checked to name existing ranks
(`CHECK_GROUP`) and transfers are not empty (`COMEX_ASSERT(bytes > 0)`). `tag` fields and the trace
`tr` are only there to state properties, no decision depends on them.
-/

namespace GA.Comex

/-- `g_state.size`, `g_state.master`, the processes running user code (all but the progress ranks), the `COMEX_ENABLE_*` switches (196-201), `_eager_check` (1156)
as a function of the number of cells, and `max_message_size` in cells. -/
structure Cfg where
  size : Nat
  master : Nat → Nat
  user : Nat → Bool
  putSelf : Bool
  getSelf : Bool
  accSelf : Bool
  putSmp : Bool
  getSmp : Bool
  accSmp : Bool
  eager : Nat → Bool
  chunk : Nat

/-- `header_t.operation` with the fields used by it; `data` is a message without header. For
`put`/`acc` the payload `pl` is present only in eager messages. -/
inductive Body where
  | put (rank addr len : Nat) (pl : List Int)
  | acc (rank addr len : Nat) (scale : Int) (pl : List Int)
  | data (vs : List Int)
  | get (rank addr len : Nat)
  | fadd (rank addr : Nat) (inc : Int)
  | swap (rank addr : Nat) (v : Int)
  | unlock (rank id : Nat)
  | fence
deriving Repr, DecidableEq

/-- a message to a server: `header_t` or data (comex/src-mpi-pr/comex.c 115-121); `tag`, not in the code, is the number of the call -/
structure Msg where
  tag : Nat
  body : Body
deriving Repr, DecidableEq

/-- A posted receive: the acknowledgement of a fence, or the buffer of call `tag` for `len` cells. -/
inductive Slot where
  | ack
  | buf (tag len : Nat)
deriving Repr, DecidableEq

/-- What the server is doing for one process: in the loop of `_put_handler` (3595-3604) with `need`
cells to come, in the loop of `_acc_handler` (4102-4114) with `buf` received, or in `MPI_Recv` of the
main loop. -/
inductive Cur where
  | idle
  | put (tag rank addr need : Nat)
  | acc (tag rank addr : Nat) (scale : Int) (need : Nat) (buf : List Int)
deriving Repr, DecidableEq

/-- Outcome of receiving one message: the next activity, the effects on memory, the cells read and
the reply expected by the caller. -/
structure Done where
  cur : Cur
  fx : List Fx := []
  rd : Option (Nat × Nat × Nat) := none
  reply : Option Slot := none
deriving Repr, DecidableEq

/-- The switch of `_progress_server` (3436-3520) and the handlers; `none` stands for a protocol
error: a data message where a header is expected or a header inside a transfer, or a message of the
wrong length. -/
def handle (c : Cfg) (cur : Cur) (m : Msg) : Option Done :=
  match cur, m.body with
  | .idle, .put r a len pl =>
    if c.eager len then
      if pl.length = len then some { cur := .idle, fx := putFx m.tag r a pl } else none
    else if 0 < len then some { cur := .put m.tag r a len } else none
  | .idle, .acc r a len sc pl =>
    if c.eager len then
      if pl.length = len then some { cur := .idle, fx := accFx m.tag r sc a pl } else none
    else if 0 < len then some { cur := .acc m.tag r a sc len [] } else none
  | .idle, .get r a len =>
    some { cur := .idle, rd := some (r, a, len), reply := some (.buf m.tag len) }
  | .idle, .fadd r a inc =>
    some { cur := .idle, fx := [⟨m.tag, r, a, .add inc⟩], rd := some (r, a, 1),
           reply := some (.buf m.tag 1) }
  | .idle, .swap r a v =>
    some { cur := .idle, fx := [⟨m.tag, r, a, .put v⟩], rd := some (r, a, 1),
           reply := some (.buf m.tag 1) }
  | .idle, .unlock r id => some { cur := .idle, fx := [⟨m.tag, r, 0, .unlock id⟩] }
  | .idle, .fence => some { cur := .idle, reply := some .ack }
  | .put t r a need, .data vs =>
    if vs.length = min need c.chunk then
      some { cur := if need ≤ vs.length then .idle else .put t r (a + vs.length) (need - vs.length),
             fx := putFx t r a vs }
    else none
  | .acc t r a sc need buf, .data vs =>
    if vs.length = min need c.chunk then
      if need ≤ vs.length then some { cur := .idle, fx := accFx t r sc a (buf ++ vs) }
      else some { cur := .acc t r a sc (need - vs.length) (buf ++ vs) }
    else none
  | _, _ => none

/-- Where a process is: outside the library; in `_fence_master(m)` (waiting for the acknowledgement),
called from `comex_fence_proc` (`k = none`) or from a direct access (`k = some op`); at the direct
access itself; in `comex_fence_all`; in `comex_rmw`; in `comex_wait` for call `t`; in `MPI_Barrier`.
`tag` is the number of the call. -/
inductive Ctl where
  | idle
  | fencing (m tag : Nat) (k : Option Op)
  | direct (tag : Nat) (op : Op)
  | fencingAll (ms : List Nat) (tag : Nat) (bar : Bool)
  | rmw (m tag : Nat)
  | waiting (t tag : Nat)
  | barrier (tag : Nat)
deriving Repr, DecidableEq

/-- The state of all processes, servers and channels. `chan p m`: from process `p` to server `m`;
`rep p m`: replies on the way back, with the receive they answer (for the proofs); `posted p m`:
receives posted by `p` for server `m`; `flag p m` is `fence_array[m]` of process `p`; `src m` the
process whose transfer server `m` is receiving, `cur m` its activity; `cnt p` the number of calls of
`p`; `bars p` the number of barriers `p` has entered; `err`: a protocol error has happened. -/
structure State where
  mem : Nat → Nat → Int
  chan : Nat → Nat → List Msg
  rep : Nat → Nat → List (Slot × List Int)
  posted : Nat → Nat → List Slot
  flag : Nat → Nat → Bool
  src : Nat → Nat
  cur : Nat → Cur
  ctl : Nat → Ctl
  cnt : Nat → Nat
  bars : Nat → Nat
  err : Bool
  tr : List Ev

/-- update of a function at one point -/
def set1 {α} (f : Nat → α) (i : Nat) (v : α) : Nat → α := fun j => if j = i then v else f j

/-- update of a function of two arguments at one point -/
def set2 {α} (f : Nat → Nat → α) (i j : Nat) (v : α) : Nat → Nat → α :=
  fun i' j' => if i' = i ∧ j' = j then v else f i' j'

/-- State after `comex_init` (697-700: no flags set). -/
def start (mem : Nat → Nat → Int) : State :=
  { mem := mem, chan := fun _ _ => [], rep := fun _ _ => [], posted := fun _ _ => [],
    flag := fun _ _ => false, src := fun _ => 0, cur := fun _ => .idle, ctl := fun _ => .idle,
    cnt := fun _ => 0, bars := fun _ => 0, err := false, tr := [] }

/-- cells changed by an effect -/
def applyFx (mem : Nat → Nat → Int) : List Fx → Nat → Nat → Int
  | f :: fs => applyFx
      (match f.upd with
        | .put v => set2 mem f.rank f.addr v
        | .add v => set2 mem f.rank f.addr (mem f.rank f.addr + v)
        | .unlock _ => mem) fs
  | [] => mem

/-- cells read -/
def readMem (mem : Nat → Nat → Int) (r : Nat) : (a len : Nat) → List Int
  | a, n + 1 => mem r a :: readMem mem r (a + 1) n
  | _, 0 => []

/-- The loop `do { size = min(bytes_remaining, max_message_size); nb_send_buffer(buf, size) ... }
while (bytes_remaining > 0)` (6132-6140); the second argument bounds the number of turns. -/
def dataMsgs (chunk tag : Nat) : (fuel : Nat) → (vals : List Int) → List Msg
  | n + 1, vs =>
    if vs.length > chunk then ⟨tag, .data (vs.take chunk)⟩ :: dataMsgs chunk tag n (vs.drop chunk)
    else [⟨tag, .data vs⟩]
  | 0, _ => []

/-- The messages sent for an operation by the last block of `nb_put`, `nb_acc`, `nb_get`
(6105-6143, 6268-6330, 6189-6214), by `comex_rmw` (2157-2189) and `comex_unlock` (2342-2355). -/
def msgsOf (c : Cfg) (tag : Nat) : Op → List Msg
  | .put r a vs =>
    if c.eager vs.length then [⟨tag, .put r a vs.length vs⟩]
    else ⟨tag, .put r a vs.length []⟩ :: dataMsgs c.chunk tag vs.length vs
  | .acc r a sc vs =>
    if c.eager vs.length then [⟨tag, .acc r a vs.length sc vs⟩]
    else ⟨tag, .acc r a vs.length sc []⟩ :: dataMsgs c.chunk tag vs.length vs
  | .get r a len => [⟨tag, .get r a len⟩]
  | .fadd r a inc => [⟨tag, .fadd r a inc⟩]
  | .swap r a v => [⟨tag, .swap r a v⟩]
  | .unlock r id => [⟨tag, .unlock r id⟩]
  | _ => []

/-- receives posted before sending -/
def slotsOf (tag : Nat) : Op → List Slot
  | .get _ _ len => [.buf tag len]
  | .fadd _ _ _ => [.buf tag 1]
  | .swap _ _ _ => [.buf tag 1]
  | _ => []

/-- the rank an operation is for -/
def Op.target : Op → Nat
  | .put r _ _ => r
  | .acc r _ _ _ => r
  | .get r _ _ => r
  | .fadd r _ _ => r
  | .swap r _ _ => r
  | .unlock r _ => r
  | .fence r => r
  | _ => 0

/-- Whether process `p` accesses the memory itself: `COMEX_ENABLE_*_SELF` and `rank == proc`, or
`COMEX_ENABLE_*_SMP` and the same master (6072-6089, 6156-6173, 6227-6246). -/
def isDirect (c : Cfg) (p : Nat) : Op → Bool
  | .put r _ _ => (c.putSelf && decide (p = r)) || (c.putSmp && decide (c.master r = c.master p))
  | .acc r _ _ _ => (c.accSelf && decide (p = r)) || (c.accSmp && decide (c.master r = c.master p))
  | .get r _ _ => (c.getSelf && decide (p = r)) || (c.getSmp && decide (c.master r = c.master p))
  | _ => false

/-- whether the operation sets `fence_array[master]` (6113, 6304, 2342) -/
def setsFlag : Op → Bool
  | .put _ _ _ => true
  | .acc _ _ _ _ => true
  | .unlock _ _ => true
  | _ => false

/-- ranks exist and transfers are not empty -/
def Op.valid (c : Cfg) : Op → Bool
  | .put r _ vs => decide (r < c.size) && !vs.isEmpty
  | .acc r _ _ vs => decide (r < c.size) && !vs.isEmpty
  | .get r _ len => decide (r < c.size) && decide (0 < len)
  | .fadd r _ _ => decide (r < c.size)
  | .swap r _ _ => decide (r < c.size)
  | .unlock r _ => decide (r < c.size)
  | .fence r => decide (r < c.size)
  | _ => true

/-- send `ms` to server `m` and post receives -/
def State.send (s : State) (p m : Nat) (slots : List Slot) (ms : List Msg) : State :=
  { s with posted := set2 s.posted p m (s.posted p m ++ slots),
           chan := set2 s.chan p m (s.chan p m ++ ms) }

/-- fence requests to all servers of a list (1112-1133) -/
def State.sendFences (s : State) (p tag : Nat) : List Nat → State
  | m :: ms => (s.send p m [.ack] [⟨tag, .fence⟩]).sendFences p tag ms
  | [] => s

/-- `fence_array[p] = 0` for the servers of a list (1139-1144) -/
def State.clearFlags (s : State) (p : Nat) : List Nat → State
  | m :: ms => { s with flag := set2 s.flag p m false }.clearFlags p ms
  | [] => s

/-- history, not in the code of comex/src-mpi-pr/comex.c: record what has become visible -/
def State.log (s : State) (evs : List Ev) : State := { s with tr := s.tr ++ evs }

/-- process `p` goes on at another place of the functions of comex/src-mpi-pr/comex.c listed at the head of this file -/
def State.goto (s : State) (p : Nat) (k : Ctl) : State := { s with ctl := set1 s.ctl p k }

/-- The servers with `fence_array[p] != 0` (1085-1090, 1113). -/
def flagged (c : Cfg) (s : State) (p : Nat) : List Nat := (List.range c.size).filter (s.flag p)

/-- A process makes a call. In `comex_fence_all` there is `COMEX_ASSERT(p_master == p)` (1119). -/
def call (c : Cfg) (s : State) (p : Nat) (op : Op) : Option State :=
  if s.ctl p = .idle ∧ op.valid c = true ∧ p < c.size ∧ c.user p = true then
    let tag := s.cnt p
    let s := { s with cnt := set1 s.cnt p (tag + 1) }.log [.call p op]
    match op with
    | .fence r =>
      let m := c.master r
      if s.flag p m then
        some ((s.send p m [.ack] [⟨tag, .fence⟩]).goto p (.fencing m tag none))
      else some (s.log [.ret p tag []])
    | .fenceAll =>
      let ms := flagged c s p
      if ms.any (fun m => decide (c.master m ≠ m)) then some { s with err := true }
      else if ms.isEmpty then some (s.log [.ret p tag []])
      else some ((s.sendFences p tag ms).goto p (.fencingAll ms tag false))
    | .barrier =>
      let ms := flagged c s p
      if ms.any (fun m => decide (c.master m ≠ m)) then some { s with err := true }
      else if ms.isEmpty then
        some ({ s with bars := set1 s.bars p (s.bars p + 1) }.goto p (.barrier tag))
      else some ((s.sendFences p tag ms).goto p (.fencingAll ms tag true))
    | .wait t => some (s.goto p (.waiting t tag))
    | op =>
      let m := c.master op.target
      if isDirect c p op then
        if s.flag p m then
          some ((s.send p m [.ack] [⟨tag, .fence⟩]).goto p (.fencing m tag (some op)))
        else some (s.goto p (.direct tag op))
      else
        let s := if setsFlag op then { s with flag := set2 s.flag p m true } else s
        let s := s.send p m (slotsOf tag op) (msgsOf c tag op)
        match op with
        | .fadd _ _ _ => some (s.goto p (.rmw m tag))
        | .swap _ _ _ => some (s.goto p (.rmw m tag))
        | _ => some s
  else none

/-- A process leaves a wait: the receive it waits for is complete. -/
def resume (c : Cfg) (s : State) (p : Nat) : Option State :=
  match s.ctl p with
  | .fencing m tag k =>
    if Slot.ack ∈ s.posted p m then none
    else
      let s := { s with flag := set2 s.flag p m false }
      match k with
      | none => some ((s.goto p .idle).log [.ret p tag []])
      | some op => some (s.goto p (.direct tag op))
  | .fencingAll ms tag bar =>
    if ms.any (fun m => decide (Slot.ack ∈ s.posted p m)) then none
    else
      let s := s.clearFlags p ms
      if bar then some ({ s with bars := set1 s.bars p (s.bars p + 1) }.goto p (.barrier tag))
      else some ((s.goto p .idle).log [.ret p tag []])
  | .rmw m tag =>
    if Slot.buf tag 1 ∈ s.posted p m then none else some (s.goto p .idle)
  | .waiting t tag =>
    if (List.range c.size).any (fun m => (s.posted p m).any fun sl =>
        match sl with
        | .buf t' _ => decide (t' = t)
        | .ack => false) then none
    else some ((s.goto p .idle).log [.ret p tag []])
  | .barrier tag =>
    if (List.range c.size).all (fun q => !c.user q || decide (s.bars p ≤ s.bars q)) then
      some ((s.goto p .idle).log [.ret p tag []])
    else none
  | _ => none

/-- The direct access: `memcpy` (6079, 6100, 6163, 6184) or `_acc` between `sem_wait` and `sem_post`
(6234-6236, 6257-6259). -/
def direct (s : State) (p : Nat) : Option State :=
  match s.ctl p with
  | .direct tag (.put r a vs) =>
    some (({ s with mem := applyFx s.mem (putFx tag r a vs) }.goto p .idle).log
      [.mem p (putFx tag r a vs)])
  | .direct tag (.acc r a sc vs) =>
    some (({ s with mem := applyFx s.mem (accFx tag r sc a vs) }.goto p .idle).log
      [.mem p (accFx tag r sc a vs)])
  | .direct tag (.get r a len) =>
    some ((s.goto p .idle).log
      [.load p tag r a (readMem s.mem r a len), .ret p tag (readMem s.mem r a len)])
  | _ => none

/-- The first reply from server `m` is matched to the first receive posted for it. -/
def recv (s : State) (p m : Nat) : Option State :=
  match s.posted p m, s.rep p m with
  | sl :: ps, (_, vals) :: rs =>
    let s := { s with posted := set2 s.posted p m ps, rep := set2 s.rep p m rs }
    match sl with
    | .ack => some (if vals.length = 0 then s else { s with err := true })
    | .buf tag len => some (if vals.length = len then s.log [.ret p tag vals] else { s with err := true })
  | _, _ => none

/-- activity of server `m` for messages of process `p` -/
def curOf (s : State) (m p : Nat) : Cur := if s.src m = p then s.cur m else .idle

/-- Server `m` receives a message of process `p`: any process in the main loop, only the source of
the transfer inside one (`server_recv(buf, size, proc)`). -/
def serve (c : Cfg) (s : State) (m p : Nat) : Option State :=
  if s.cur m = .idle ∨ s.src m = p then
    match s.chan p m with
    | [] => none
    | msg :: rest =>
      match handle c (curOf s m p) msg with
      | none => some { s with err := true }
      | some d =>
        let vals := match d.rd with
          | some (r, a, len) => readMem s.mem r a len
          | none => []
        let evs := match d.rd, d.fx with
          | some _, f :: _ => [Ev.rmw p (vals.headD 0) f]
          | some (r, a, _), [] => [Ev.load p msg.tag r a vals]
          | none, fx => [Ev.mem p fx]
        some { s with
          mem := applyFx s.mem d.fx
          chan := set2 s.chan p m rest
          src := set1 s.src m p
          cur := set1 s.cur m d.cur
          rep := match d.reply with
            | some sl => set2 s.rep p m (s.rep p m ++ [(sl, vals)])
            | none => s.rep
          tr := s.tr ++ evs }
  else none

/-- One step of the system. -/
inductive Act where
  | call (p : Nat) (op : Op)
  | resume (p : Nat)
  | direct (p : Nat)
  | recv (p m : Nat)
  | serve (m p : Nat)
deriving Repr, DecidableEq

/-- one action: a call starts or goes on (comex.c 1074-1234, 2115-2358, 6059-6330), or a server takes one message (3379-3520) -/
def step (c : Cfg) (s : State) : Act → Option State
  | .call p op => call c s p op
  | .resume p => resume c s p
  | .direct p => direct s p
  | .recv p m => recv s p m
  | .serve m p => serve c s m p

/-- A schedule: any list of enabled steps. -/
def run (c : Cfg) : State → List Act → Option State
  | s, a :: as => (step c s a).bind fun s => run c s as
  | s, [] => some s

end GA.Comex
