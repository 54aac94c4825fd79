import Verif.Spec.Handles

/-!
# Array handle table and memory accounting (global/src/base.c)

The model keeps the fields of `global_array_t` that decide about handles and memory: `actv`,
`actv_handle`, `size` and whether `ptr[grp_me]` is `NULL`. Not modelled: overlay arrays, read-only and
cached arrays (`set_property`), device memory, the `GAstat` counters. Memory comes from
`gai_get_shmem`, which either succeeds with a non-null pointer (the request is padded, so it is
never empty) or terminates the program; exhaustion of that memory is not modelled.
-/

namespace GA.Handles

/-- fields of `global_array_t` (globalp.h) -/
structure Slot where
  actv : Bool
  actvHandle : Bool
  size : Int
  ptrNull : Bool
deriving DecidableEq, Repr, Inhabited

/-- the table `GA`, `GA_total_memory`, `GA_memory_limit`, `GA_memory_limited` (base.c) -/
structure PState where
  slots : List Slot
  total : Int
  limit : Int
  limited : Bool
deriving DecidableEq, Repr

/-- an entry of the table `GA` that is not in use (global/src/base.c) -/
def emptySlot : Slot := ⟨false, false, 0, true⟩

/-- `GA[i]` -/
def PState.slot (p : PState) (i : Nat) : Slot := p.slots.getD i emptySlot

/-- `pnga_initialize` (base.c 435-436): no handle is in use; `GA_total_memory` starts as -1
(base.c 143-146), `terminate` resets it to that -/
def init (max : Nat) : PState := ⟨List.replicate max emptySlot, -1, 0, false⟩

/-- `pnga_initialize_ltd` (base.c 678-683) -/
def initLtd (max : Nat) (m : Int) : PState :=
  ⟨List.replicate max emptySlot, m, m, if m ≥ 0 then true else false⟩

/-- the search for a free handle (base.c 1533-1537, 3773-3777) -/
def freeSlot (l : List Slot) : Option Nat := l.findIdx? (fun s => !s.actvHandle)

/-- assignment to a field of `GA[i]` (global/src/base.c) -/
def setSlot (p : PState) (i : Nat) (f : Slot → Slot) : PState :=
  { p with slots := p.slots.modify i f }

/-- `GA_OFFSET + g_a`, when it is an index of the table -/
def index (p : PState) (g : Int) : Option Nat :=
  if g + 1000 < 0 ∨ g + 1000 ≥ p.slots.length then none else some (g + 1000).toNat

/-- `pnga_create_handle` (base.c 1529-1563) -/
def createHandle (p : PState) : Res × PState :=
  match freeSlot p.slots with
  | none => (.abort, p)
  | some i => (.handle ((i : Int) - 1000), setSlot p i (fun s => { s with actvHandle := true }))

/-- `pnga_destroy` (base.c 3960-4061). The group is looked up in `GA[ga_handle]` before the range
check; `Allowed` keeps out the numbers for which that access is out of bounds. -/
def destroy (p : PState) (g : Int) : Res × PState :=
  match index p g with
  | none => (.bool false, p)
  | some i =>
    let s := p.slot i
    if s.actv = false then (.bool false, p)
    else
      let p1 := setSlot p i (fun s => { s with actv := false, actvHandle := false })
      if s.ptrNull then (.bool true, p1)
      else (.bool true, { p1 with total := if p1.limited then p1.total + s.size else p1.total })

/-- `pnga_deallocate` (base.c 4073-4152) -/
def deallocate (p : PState) (g : Int) : Res × PState :=
  match index p g with
  | none => (.bool false, p)
  | some i =>
    let s := p.slot i
    if s.actv = false then (.bool false, p)
    else
      let p1 := setSlot p i (fun s => { s with actv := false })
      if s.ptrNull then (.bool true, p1)
      else (.bool true, { p1 with total := if p1.limited then p1.total + s.size else p1.total })

/-- `pnga_allocate`, memory accounting before the reduction (base.c 2753, 2801-2806): the new state
and the local status -/
def allocPre (p : PState) (i : Nat) (n : Int) : PState × Bool :=
  let p1 := setSlot p i (fun s => { s with actv := true, size := n })
  let p2 := { p1 with total := if p1.limited then p1.total - n else p1.total }
  (p2, if p2.limited then (if p2.total ≥ 0 then true else false) else true)

/-- `pnga_allocate` after the reduction (base.c 2807-2851), `pnga_duplicate` (base.c 3838-3890) -/
def allocPost (p : PState) (i : Nat) (n : Int) (status : Bool) : Bool × PState :=
  if status then (true, setSlot p i (fun s => { s with ptrNull := false }))
  else
    let p1 := setSlot p i (fun s => { s with ptrNull := true })
    let p2 := { p1 with total := if p1.limited then p1.total + n else p1.total }
    (false, (destroy p2 ((i : Int) - 1000)).2)

/-- the reduction `pnga_gop(..., "&&")`, done only when memory is limited (base.c 2808-2817) -/
def reduce (p : PState) (mine others : Bool) : Bool := if p.limited then mine && others else true

/-- `pnga_allocate` (base.c 2512-2851); the handle is not checked -/
def allocate (p : PState) (g : Int) (n : Int) (others : Bool) : Res × PState :=
  match index p g with
  | none => (.abort, p)
  | some i =>
    let q := allocPre p i n
    let r := allocPost q.1 i n (reduce q.1 q.2 others)
    (.bool r.1, r.2)

/-- `pnga_duplicate` (base.c 3748-3891), steps before the reduction: index of the new handle, its
size -/
def dupPre (p : PState) (g : Int) : Option (Nat × Int × PState × Bool) :=
  match index p g with
  | none => none
  | some j =>
    let s := p.slot j
    if s.actv = false then none
    else
      match freeSlot p.slots with
      | none => none
      | some i =>
        -- shallow copy of the record, except `ptr` (3786-3790)
        let p1 := setSlot p i (fun t => { s with ptrNull := t.ptrNull })
        let p2 := { p1 with total := if p1.limited then p1.total - s.size else p1.total }
        some (i, s.size, p2, if p2.limited then (if p2.total ≥ 0 then true else false) else true)

/-- `pnga_duplicate` (base.c from 3748 on); `others` is the outcome of the test of the memory limit on the other processes -/
def duplicate (p : PState) (g : Int) (others : Bool) : Res × PState :=
  match dupPre p g with
  | none => (.abort, p)
  | some (i, n, p1, mine) =>
    let r := allocPost p1 i n (reduce p1 mine others)
    (if r.1 then .handle ((i : Int) - 1000) else .bool false, r.2)

/-- `ga_check_handleM` (base.h 138-150), the first statement of the operations on arrays -/
def use (p : PState) (g : Int) : Res :=
  match index p g with
  | none => .abort
  | some i => if (p.slot i).actv then .done else .abort

/-- `pnga_inquire_memory` (base.c 607-613) -/
def inquireMemory (p : PState) : Int :=
  p.slots.foldl (fun sum s => if s.actv then sum + s.size else sum) 0

/-- `pnga_memory_avail` (base.c 622-631), when memory does not come from MA -/
def memoryAvail (p : PState) : Int := p.total

/-- `pnga_set_memory_limit` (base.c 642-662) -/
def setMemoryLimit (p : PState) (m : Int) : PState :=
  if p.limited then
    if m ≥ 0 then { p with total := p.total + (m - p.limit) }
    else { p with limited := false, total := -1 }
  else { p with total := m, limit := m, limited := if m ≥ 0 then true else p.limited }

/-- one call of the interface, by the functions above (global/src/base.c) -/
def step (p : PState) : Op → Res × PState
  | .create => createHandle p
  | .allocate h n o => allocate p h n o
  | .duplicate h o => duplicate p h o
  | .destroy h => destroy p h
  | .deallocate h => deallocate p h
  | .use h => (use p h, p)
  | .avail => (.num (memoryAvail p), p)
  | .inquire => (.num (inquireMemory p), p)
  | .setLimit m => (.done, setMemoryLimit p m)

/-- a program: the answers, up to the one that terminates it -/
def run (p : PState) : List Op → List Res
  | [] => []
  | o :: os =>
    let r := step p o
    if r.1 = .abort then [.abort] else r.1 :: run r.2 os

end GA.Handles
