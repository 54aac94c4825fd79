import Verif.Model.Net

/-!
# Broadcast through shared memory within a node

`armci/src/collectives/message.c`, `armci_smp_bcast`: the processes of a node
share two buffers and flags.  The sender takes the buffers in turn; every
process has a flag that says that there is something for it to copy.

Processes are numbered from 0 within the node (the number is relative to
`armci_clus_first`).  One step of a process is one access to shared memory:
look at a flag, set a flag, copy one byte.  The schedule is arbitrary.

Simplified: memory is sequentially consistent (`SET_SHM_FLAG` has the barriers
that the platform needs); the flags are set to `EMPTY` before the first call
(`armci_msg_gop_init`, lines 226-233, has no barrier after it); lengths do not
overflow; the pointers are not null.
-/

namespace GA.Smp

open GA.Net (upd)

/-- One turn of the loop of `armci_smp_bcast`: who sends, which bytes. -/
structure Round where
  root : Nat
  off : Nat
  len : Nat

/-- The size of the pieces: `BUF_SIZE*sizeof(double)`, less for lengths that
are near to it.  `armci/src/collectives/message.c` lines 70, 509, 516-519. -/
def bufSize (n : Nat) : Nat :=
  if n > 65536 / 2 ∧ n < 2 * 65536 - 64 then n / 2 / 8 * 8 else 65536

/-- The turns of the loop. `armci/src/collectives/message.c` lines 521-522,
549-550.  The fuel is the number of bytes. -/
def pieces (bufsize root : Nat) : Nat → Nat → Nat → List Round
  | 0, _, _ => []
  | fuel + 1, off, n =>
      let ndo := if n ≤ bufsize then n else bufsize
      if ndo = 0 then []
      else ⟨root, off, ndo⟩ :: pieces bufsize root fuel (off + ndo) (n - ndo)

/-- One call: `armci_smp_bcast(x, n, root)`. -/
structure Call where
  len : Nat
  root : Nat

/-- The turns of all calls; nothing is done on a node with one process.
`armci/src/collectives/message.c` lines 507-522. -/
def rounds (nslave : Nat) (h : List Call) : List Round :=
  if nslave < 2 then []
  else h.flatMap fun c => pieces (bufSize c.len) c.root c.len 0 c.len

/-- Where a process is in a turn of the loop. -/
inductive Pc where
  /-- waits for the flag of the buffer (sender, line 527) or for its own flag
  (line 544) -/
  | begin
  /-- the sender sets the flag of the buffer (line 528) -/
  | set
  /-- copies byte `k` (lines 536, 545) -/
  | copy (k : Nat)
  /-- the sender waits for the flag of process `i` (lines 537-539) -/
  | wait (i : Nat)
  /-- the sender sets the flag of process `i` (line 540) -/
  | full (i : Nat)
  /-- the sender declares the other buffer free (lines 552-557); the others
  clear their flag (line 546) -/
  | last
deriving DecidableEq

/-- The local state of a process: the turn, the place in it, and the static
variable `bufid` (line 510). -/
structure Loc where
  rnd : Nat
  pc : Pc
  bufid : Nat
deriving DecidableEq

/-- Flags of the buffers and of the processes (`true` is `FULL`), contents of
the buffers, memories of the processes.  `armci/src/collectives/message.c`
lines 90-104. -/
structure State (α : Type) where
  a : Nat → Bool
  b : Nat → Bool
  arr : Nat → Nat → α
  x : Nat → Nat → α
  loc : Nat → Loc

variable {α : Type}

/-- The other buffer. `armci/src/collectives/message.c` line 552. -/
def other (bufid : Nat) : Nat := bufid % 2 + 1

/-- The process goes on. -/
def go (s : State α) (p : Nat) (l : Loc) : State α := { s with loc := upd s.loc p l }

/-- A step of the sender; `none` while it has to wait.
`armci/src/collectives/message.c` lines 524-541 and 549-557. -/
def rootStep (nslave : Nat) (R : Round) (p : Nat) (s : State α) : Option (State α) :=
  let l := s.loc p
  match l.pc with
  | .begin => if s.a l.bufid = false then some (go s p { l with pc := .set }) else none
  | .set => some (go { s with a := upd s.a l.bufid true } p { l with pc := .copy 0 })
  | .copy k =>
      if k < R.len then
        some (go { s with arr := upd s.arr l.bufid (upd (s.arr l.bufid) k (s.x p (R.off + k))) } p
          { l with pc := .copy (k + 1) })
      else some (go s p { l with pc := .wait 0 })
  | .wait i =>
      if i < nslave then
        if i = p then some (go s p { l with pc := .wait (i + 1) })
        else if s.b i = false then some (go s p { l with pc := .full i }) else none
      else some (go s p { l with pc := .last })
  | .full i => some (go { s with b := upd s.b i true } p { l with pc := .wait (i + 1) })
  | .last =>
      some (go { s with a := upd s.a (other l.bufid) false } p ⟨l.rnd + 1, .begin, other l.bufid⟩)

/-- A step of another process. `armci/src/collectives/message.c` lines
543-552. -/
def recvStep (R : Round) (p : Nat) (s : State α) : Option (State α) :=
  let l := s.loc p
  match l.pc with
  | .begin => if s.b p = true then some (go s p { l with pc := .copy 0 }) else none
  | .copy k =>
      if k < R.len then
        some (go { s with x := upd s.x p (upd (s.x p) (R.off + k) (s.arr l.bufid k)) } p
          { l with pc := .copy (k + 1) })
      else some (go s p { l with pc := .last })
  | .last => some (go { s with b := upd s.b p false } p ⟨l.rnd + 1, .begin, other l.bufid⟩)
  | _ => none

/-- The next step of process `p`; `none` when it has finished or has to wait.
`armci/src/collectives/message.c` lines 521-559. -/
def step (nslave : Nat) (rs : List Round) (p : Nat) (s : State α) : Option (State α) :=
  if p < nslave then
    match rs[(s.loc p).rnd]? with
    | none => none
    | some R => if p = R.root then rootStep nslave R p s else recvStep R p s
  else none

/-- A whole schedule; the turn of a process that cannot move is lost. -/
def exec (nslave : Nat) (rs : List Round) : List Nat → State α → State α
  | [], s => s
  | p :: l, s => exec nslave rs l ((step nslave rs p s).getD s)

/-- Before the first call. `armci/src/collectives/message.c` lines 226-233,
510. -/
def start (arr x : Nat → Nat → α) : State α :=
  ⟨fun _ => false, fun _ => false, arr, x, fun _ => ⟨0, .begin, 1⟩⟩

/-- All processes have finished all calls. -/
def Done (nslave : Nat) (rs : List Round) (s : State α) : Prop :=
  ∀ p, p < nslave → (s.loc p).rnd = rs.length

end GA.Smp
