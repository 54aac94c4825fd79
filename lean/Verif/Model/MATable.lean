import Verif.Spec.Table

/-!
# Model: the MA handle table (ma/table.c)

The C array `ma_table` is a list; `ma_table_capacity` is its length. Error messages are dropped.
-/

namespace GA.Model
open Spec

/-- `TableEntry` (table.c 43-54): the data of a slot that is not allocated is stale. -/
inductive SlotSt | unused | allocated | deallocated
deriving DecidableEq, Repr

/-- `TableEntry` (table.c 49-54). Data of an unused slot is uninitialised: `none`. -/
structure Slot (D : Type) where
  data : Option D
  state : SlotSt
deriving DecidableEq, Repr

/-- the static variables (table.c 62-66) -/
structure Tbl (D : Type) where
  slots : List (Slot D)
  entries : Int
  next : Nat
deriving DecidableEq, Repr

/-- initial values (table.c 62-66) -/
def Tbl.init {D} : Tbl D := ⟨[], 0, 0⟩

/-- Growth of the table (table.c 92-129): initially 32 slots, then doubled; the search starts at the
first new slot. -/
def tblGrow {D} (t : Tbl D) : Tbl D :=
  let cap := if t.slots.length = 0 then 32 else 2 * t.slots.length
  ⟨t.slots ++ List.replicate (cap - t.slots.length) ⟨none, .unused⟩, t.entries, t.slots.length⟩

/-- Circular search for a slot that is not allocated (table.c 132-152): `n` slots left to examine. -/
def tblSearch {D} (slots : List (Slot D)) : (n i : Nat) → Option Nat
  | 0, _ => none
  | n + 1, i =>
    if (slots[i]?).map (·.state) ≠ some .allocated then some i
    else tblSearch slots n ((i + 1) % slots.length)

/-- `ma_table_allocate` (table.c 81-159); `memOk` is the success of `bytealloc`. -/
def tblAllocate {D} (t : Tbl D) (d : D) (memOk : Bool) : Tbl D × Option Int :=
  if t.entries ≥ t.slots.length ∧ memOk = false then (t, none)
  else
    let t := if t.entries ≥ t.slots.length then tblGrow t else t
    match tblSearch t.slots t.slots.length t.next with
    | some i =>
      (⟨t.slots.set i ⟨some d, .allocated⟩, t.entries + 1, (i + 1) % t.slots.length⟩, some i)
    | none => (t, none)

/-- `ma_table_verify` (table.c 233-272). -/
def tblVerify {D} (t : Tbl D) (h : Int) : Bool :=
  if h < 0 then false
  else if h ≥ t.slots.length then false
  else match t.slots[h.toNat]? with
    | some s => decide (s.state ≠ .unused) && decide (s.state ≠ .deallocated)
    | none => false

/-- `ma_table_deallocate` (table.c 167-178). -/
def tblDeallocate {D} (t : Tbl D) (h : Int) : Tbl D :=
  if tblVerify t h then
    ⟨t.slots.modify h.toNat fun s => { s with state := .deallocated }, t.entries - 1, t.next⟩
  else t

/-- `ma_table_lookup` (table.c 188-198). -/
def tblLookup {D} (t : Tbl D) (h : Int) : Option D :=
  if tblVerify t h then (t.slots[h.toNat]?).bind (·.data) else none

/-- Linear search of `ma_table_lookup_assoc` (table.c 216-219), from slot `i` on. -/
def tblAssocLoop {D} [DecidableEq D] (d : D) : (slots : List (Slot D)) → (i : Nat) → Option Int
  | [], _ => none
  | s :: ss, i =>
    if s.state = .allocated ∧ s.data = some d then some i else tblAssocLoop d ss (i + 1)

/-- `ma_table_lookup_assoc` (table.c 210-224). -/
def tblAssoc {D} [DecidableEq D] (t : Tbl D) (d : D) : Option Int := tblAssocLoop d t.slots 0

/-- one request -/
def tblStep {D} [DecidableEq D] (t : Tbl D) : TOp D → Tbl D × TRes D
  | .alloc d b => let r := tblAllocate t d b; (r.1, .handle r.2)
  | .dealloc h => (tblDeallocate t h, .done)
  | .lookup h => (t, .data (tblLookup t h))
  | .assoc d => (t, .handle (tblAssoc t d))
  | .verify h => (t, .valid (tblVerify t h))

/-- a history: requests with the responses of the code -/
def tblRun {D} [DecidableEq D] : Tbl D → List (TOp D) → Tbl D × List (TOp D × TRes D)
  | t, [] => (t, [])
  | t, o :: os =>
    let r := tblStep t o
    let rs := tblRun r.1 os
    (rs.1, (o, r.2) :: rs.2)

end GA.Model
