import Verif.Model.Net

/-!
# Locks on areas of memory, and accumulate under them

`armci/src/locks/memlock.c`: a process that is going to change an area of the
memory of another process enters the area into a table of eight slots, under a
lock, when no area of the table is in conflict with it; afterwards it clears
its slot.  The accumulate operations of `armci/src/xfer/strided.c` and
`vector.c` hold such an area while they load, add and store.

The model has the memory and the table of one process, and any number of
processes that accumulate into it.  One step is one access to shared memory:
take or free the lock, copy one slot of the table, write or clear a slot, load
an element, store an element.  The schedule is arbitrary.

Simplified: memory is sequentially consistent; a slot (two pointers) is copied
at once; elements are named by their addresses and do not overlap partly;
values are integers; all processes see the memory at the same addresses (lines
110-122 correct them); a free slot is `none`, not a null start address; waiting
(`armci_waitsome`) is a retry.
-/

namespace GA.MemLock

open GA.Net (upd)

/-- `MAX_SLOTS`, `armci/src/include/memlock.h` line 7. -/
def slots : Nat := 8

/-- An entry of the table: first and last address.
`armci/src/include/memlock.h` lines 8-11. -/
structure Area where
  start : Nat
  stop : Nat
deriving DecidableEq

/-- `ALIGN_ADDRESS`, `armci/src/locks/memlock.c` line 41. -/
def align (x : Nat) : Nat := x / 64 * 64

/-- The area that is entered for the addresses from `lo` to `hi`.
`armci/src/locks/memlock.c` lines 133-136. -/
def area (lo hi : Nat) : Area := ⟨align lo, 63 + align hi⟩

/-- The test for a conflict between the area `a` and an entry `t` of the
table.  `armci/src/locks/memlock.c` lines 160-161. -/
def conflicts (a t : Area) : Bool :=
  (decide (a.start ≥ t.start) && decide (a.start ≤ t.stop)) ||
  (decide (a.stop ≥ t.start) && decide (a.stop ≤ t.stop))

/-- The loop over the copied table: conflict, and the last free slot.
`armci/src/locks/memlock.c` lines 148-171. -/
def inspect (a : Area) : List (Option Area) → Nat → Option Nat → Bool × Option Nat
  | [], _, avail => (false, avail)
  | none :: l, k, _ => inspect a l (k + 1) (some k)
  | some t :: l, k, avail => if conflicts a t then (true, avail) else inspect a l (k + 1) avail

/-- One accumulate: the addresses to lock and the elements to add. -/
structure Op where
  lo : Nat
  hi : Nat
  cells : List (Nat × Int)
deriving DecidableEq

/-- `armci_acc_1D`, `armci/src/xfer/strided.c` lines 205-254: `bytes / size`
elements from `dst` on; `v` are the numbers to add. -/
def acc1D (dst bytes size : Nat) (v : Nat → Int) : Op :=
  ⟨dst, bytes + dst, (List.range (bytes / size)).map fun i => (dst + size * i, v i)⟩

/-- `armci_acc_2D`, `armci/src/xfer/strided.c` lines 258-329. -/
def acc2D (dst bytes cols stride size : Nat) (v : Nat → Nat → Int) : Op :=
  ⟨dst, cols * stride + dst, (List.range cols).flatMap fun j =>
    (List.range (bytes / size)).map fun i => (dst + size * (j * (stride / size) + i), v j i)⟩

/-- `armci_lockmem_scatter` and `armci_scatter_acc`, `armci/src/xfer/vector.c`
lines 52-141: one segment of `bytes` bytes at every pointer; `p :: ps` are the
pointers. -/
def scatterAcc (p : Nat) (ps : List Nat) (bytes size : Nat) (v : Nat → Nat → Int) : Op :=
  ⟨(p :: ps).foldl (fun m q => min q m) p, bytes - 1 + (p :: ps).foldl (fun m q => max q m) p,
    (List.range (p :: ps).length).flatMap fun j =>
      (List.range (bytes / size)).map fun i => ((p :: ps).getD j 0 + size * i, v j i)⟩

/-- Where a process is in an accumulate. `armci/src/locks/memlock.c` lines
142-188 and 194-215. -/
inductive Pc where
  /-- waits for the lock (line 143) -/
  | enter
  /-- has copied these slots (line 145) -/
  | read (got : List (Option Area))
  /-- frees the lock because of a conflict or a full table (line 175) -/
  | giveUp
  /-- writes its area into the slot (lines 181-183) -/
  | write (slot : Nat)
  /-- frees the lock (line 187) -/
  | leave (slot : Nat)
  /-- loads the next element, or clears the slot (line 214) -/
  | load (slot : Nat) (rest : List (Nat × Int))
  /-- stores the sum -/
  | store (slot : Nat) (rest : List (Nat × Int)) (tmp : Int)
deriving DecidableEq

/-- The accumulates a process has still to do, and where it is in the first. -/
structure Loc where
  ops : List Op
  pc : Pc
deriving DecidableEq

/-- Lock, table, memory, processes. -/
structure State where
  lock : Option Nat
  table : Nat → Option Area
  mem : Nat → Int
  loc : Nat → Loc

/-- The process goes on. -/
def go (s : State) (p : Nat) (ops : List Op) (pc : Pc) : State :=
  { s with loc := upd s.loc p ⟨ops, pc⟩ }

/-- The next step of process `p`; `none` when it has finished or has to wait.
`armci/src/locks/memlock.c` lines 142-188 (`armci_lockmem`), 194-215
(`armci_unlockmem`); `armci/src/xfer/strided.c` lines 230-253. -/
def step (n p : Nat) (s : State) : Option State :=
  if p < n then
    match (s.loc p).ops with
    | [] => none
    | op :: more =>
        match (s.loc p).pc with
        | .enter =>
            if s.lock = none then some { go s p (op :: more) (.read []) with lock := some p }
            else none
        | .read got =>
            if got.length < slots then
              some (go s p (op :: more) (.read (got ++ [s.table got.length])))
            else
              match inspect (area op.lo op.hi) got 0 none with
              | (false, some k) => some (go s p (op :: more) (.write k))
              | _ => some (go s p (op :: more) .giveUp)
        | .giveUp => some { go s p (op :: more) .enter with lock := none }
        | .write k =>
            some { go s p (op :: more) (.leave k) with
              table := upd s.table k (some (area op.lo op.hi)) }
        | .leave k => some { go s p (op :: more) (.load k op.cells) with lock := none }
        | .load k [] => some { go s p more .enter with table := upd s.table k none }
        | .load k (c :: l) => some (go s p (op :: more) (.store k (c :: l) (s.mem c.1)))
        | .store k l tmp =>
            match l with
            | [] => none
            | c :: l => some { go s p (op :: more) (.load k l) with
                mem := upd s.mem c.1 (tmp + c.2) }
  else none

/-- A whole schedule; the turn of a process that cannot move is lost. -/
def exec (n : Nat) : List Nat → State → State
  | [], s => s
  | p :: l, s => exec n l ((step n p s).getD s)

/-- Before the first accumulate. -/
def start (mem : Nat → Int) (prog : Nat → List Op) : State :=
  ⟨none, fun _ => none, mem, fun p => ⟨prog p, .enter⟩⟩

/-- All processes have done all their accumulates. -/
def Done (n : Nat) (s : State) : Prop := ∀ p, p < n → (s.loc p).ops = []

end GA.MemLock
