import Verif.Model.Net

/-!
# Reduction through shared memory within a node

`armci/src/collectives/message.c`, `armci_smp_reduce`: the processes of a node
are a binary tree; every process has a buffer and a flag in shared memory.  A
process puts its numbers, combined with those of its children, into its buffer
and sets its flag to `FULL`; its parent combines them with its own and sets the
flag to `EMPTY`.  Long arrays go through the buffers in pieces.

Processes are numbered from 0 within the node (`armci_me - root`, line 448).
One step is one access to shared memory: look at a flag, set a flag, read or
write one element of a buffer.  The schedule is arbitrary.

Simplified: memory is sequentially consistent; reading an element of the buffer
of the child and writing the result is one step (the place of the result is
read by nobody else at that time, which is proved, not assumed, for the buffer);
the flags are `EMPTY` before the first call; while a process waits for its two
children the code looks at the left flag and then at the right one, the model
lets the schedule choose at which it looks, which covers every order; lengths do
not overflow; the pointers are not null.
-/

namespace GA.SmpReduce

open GA.Net (upd)

variable {α : Type}

/-- One turn of the loop: the elements `off .. off + len - 1` of the array and
the operation. -/
structure Round (α : Type) where
  off : Nat
  len : Nat
  op : α → α → α

/-- One call `armci_smp_reduce(x + off, n, op, type)`; `size` is the size of the
type. -/
structure Call (α : Type) where
  off : Nat
  n : Nat
  size : Nat
  op : α → α → α

/-- The turns of the loop, `B` elements each.
`armci/src/collectives/message.c` lines 1453-1454, 1523-1524.  The fuel is the number
of elements. -/
def pieces (op : α → α → α) (B : Nat) : Nat → Nat → Nat → List (Round α)
  | 0, _, _ => []
  | fuel + 1, off, n =>
      let ndo := if n ≤ B then n else B
      if ndo = 0 then []
      else ⟨off, ndo, op⟩ :: pieces op B fuel (off + ndo) (n - ndo)

/-- The turns of all calls; nothing is done on a node with one process.
`armci/src/collectives/message.c` lines 71, 1440-1454: `BUF_SIZE*ratio` elements
in one turn. -/
def rounds (nslave : Nat) (h : List (Call α)) : List (Round α) :=
  if nslave < 2 then [] else h.flatMap fun c => pieces c.op (8192 * (8 / c.size)) c.n c.off c.n

/-- The two children. `armci/src/collectives/message.c` lines 450-451. -/
def child (p : Nat) (side : Bool) : Nat := if side then 2 * p + 2 else 2 * p + 1

/-- There is such a child. `armci/src/collectives/message.c` lines 450-451. -/
def has (n p : Nat) (side : Bool) : Bool := decide (child p side < n)

/-- Where a process is in a turn of the loop; `nl` and `nr` are `need_left` and
`need_right`. -/
inductive Pc where
  /-- waits for its own flag to be `EMPTY` (line 1456) -/
  | wait
  /-- a leaf copies its numbers into its buffer (line 1459) -/
  | copy (i : Nat)
  /-- waits for the children (lines 1468-1476) -/
  | look (nl nr first : Bool)
  /-- combines element `i` of the buffer of a child (lines 1478-1487) -/
  | comb (side : Bool) (i : Nat) (nl nr first : Bool)
  /-- frees the buffer of the child (line 1491) -/
  | clear (side : Bool) (nl nr : Bool)
  /-- sets its flag to `FULL`, unless it is the root (lines 1512-1514) -/
  | full
deriving DecidableEq

/-- How many turns a process has done, and where it is. -/
structure Loc where
  rnd : Nat
  pc : Pc
deriving DecidableEq

/-- Flags (`true` is `FULL`), buffers, arrays of the callers, processes. -/
structure State (α : Type) where
  flag : Nat → Bool
  buf : Nat → Nat → α
  x : Nat → Nat → α
  loc : Nat → Loc

/-- Write one element of the array of `p`. -/
def put (f : Nat → Nat → α) (p i : Nat) (v : α) : Nat → Nat → α := upd f p (upd (f p) i v)

/-- The next step of process `p`; `side` is the flag at which a waiting process
looks; `none` when it has finished or has to wait.
`armci/src/collectives/message.c` lines 1453-1525. -/
def step (n : Nat) (R : List (Round α)) (p : Nat) (side : Bool) (s : State α) :
    Option (State α) :=
  if p < n then
    match R[(s.loc p).rnd]? with
    | none => none
    | some rd =>
        let go := fun (s' : State α) (pc : Pc) =>
          some { s' with loc := upd s.loc p ⟨(s.loc p).rnd, pc⟩ }
        match (s.loc p).pc with
        | .wait =>
            if s.flag p then none
            else if !has n p false && !has n p true then go s (.copy 0)
            else go s (.look (has n p false) (has n p true) true)
        | .copy i =>
            if i < rd.len then
              go { s with buf := put s.buf p i (s.x p (rd.off + i)) } (.copy (i + 1))
            else go s .full
        | .look nl nr first =>
            if !nl && !nr then go s .full
            else if (if side then nr else nl) && s.flag (child p side) then
              go s (.comb side 0 (nl && side) (nr && !side) first)
            else none
        | .comb c i nl nr first =>
            if i < rd.len then
              let b := s.buf (child p c) i
              if p = 0 then
                go { s with x := put s.x p (rd.off + i) (rd.op (s.x p (rd.off + i)) b) }
                  (.comb c (i + 1) nl nr first)
              else if first then
                go { s with buf := put s.buf p i (rd.op b (s.x p (rd.off + i))) }
                  (.comb c (i + 1) nl nr first)
              else
                go { s with buf := put s.buf p i (rd.op (s.buf p i) b) }
                  (.comb c (i + 1) nl nr first)
            else go s (.clear c nl nr)
        | .clear c nl nr =>
            go { s with flag := upd s.flag (child p c) false } (.look nl nr false)
        | .full =>
            some { s with flag := if p = 0 then s.flag else upd s.flag p true,
                          loc := upd s.loc p ⟨(s.loc p).rnd + 1, .wait⟩ }
  else none

/-- A whole schedule; the turn of a process that cannot move is lost. -/
def exec (n : Nat) (R : List (Round α)) : List (Nat × Bool) → State α → State α
  | [], s => s
  | p :: l, s => exec n R l ((step n R p.1 p.2 s).getD s)

/-- Before the first call: the flags are `EMPTY`.
`armci/src/collectives/message.c` lines 226-233. -/
def start (buf x : Nat → Nat → α) : State α :=
  ⟨fun _ => false, buf, x, fun _ => ⟨0, .wait⟩⟩

/-- All processes have done all turns. -/
def Done (n : Nat) (R : List (Round α)) (s : State α) : Prop :=
  ∀ p, p < n → (s.loc p).rnd = R.length

end GA.SmpReduce
