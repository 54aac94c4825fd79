import Verif.Spec.Implicit

/-!
# Model: requests without a handle (armci/src/progress/wait.c)

`ARMCI_MAX_IMPLICIT` = 15 (armci/src/include/armcip.h 55). Simplified: tags are the numbers of the requests and do not wrap around; waiting for a handle completes the
request with its tag, whatever the device. `none` is overflow of a signed counter.
-/

namespace GA.Model.Implicit
open Spec.Implicit

/-- entry of `armci_nb_handle` with its `hdl_flag` (wait.c 51-52) -/
structure Slot where
  flag : Bool
  proc : Nat
  id : Nat

/-- the handles, `impcount` (wait.c 53), the number of the next request, the requests that are not complete -/
structure St where
  slot : Nat → Slot
  imp : Nat
  next : Nat
  out : List Req

/-- static memory is zero -/
def start : St := ⟨fun _ => ⟨false, 0, 0⟩, 0, 0, []⟩

/-- `PARMCI_Wait` on entry `i` (wait.c 7-46): nothing to do for processes of the same node -/
def waitSlot (near : Nat → Bool) (s : St) (i : Nat) : St :=
  if near (s.slot i).proc then s else { s with out := s.out.filter fun r => r.id ≠ (s.slot i).id }

/-- the transfer itself: complete at once on the same node (for instance vector.c 504-518) -/
def send (near : Nat → Bool) (s : St) (p : Nat) (imp : Bool) : St :=
  { s with next := s.next + 1, out := if near p then s.out else s.out ++ [⟨s.next, p, imp⟩] }

/-- `armci_set_implicit_handle` (wait.c 56-72) -/
def setImplicit (near : Nat → Bool) (s : St) (p : Nat) : Option St :=
  let i := s.imp % 15
  let s1 := if (s.slot i).flag then waitSlot near s i else s
  if s.imp + 1 < 2 ^ 31 then
    some { s1 with slot := fun k => if k = i then ⟨true, p, s1.next⟩ else s1.slot k, imp := s1.imp + 1 }
  else none

/-- body of the loops of `PARMCI_WaitAll` and `PARMCI_WaitProc` (wait.c 79-82, 94-98); `test` is the condition on the process -/
def waitOne (near : Nat → Bool) (test : Nat → Bool) (s : St) (i : Nat) : St :=
  if (s.slot i).flag && test (s.slot i).proc then
    let s1 := waitSlot near s i
    { s1 with slot := fun k => if k = i then { s1.slot i with flag := false } else s1.slot k }
  else s

/-- the loop over all entries (wait.c 78, 93) -/
def waitLoop (near : Nat → Bool) (test : Nat → Bool) (s : St) : St :=
  if s.imp ≠ 0 then (List.range 15).foldl (waitOne near test) s else s

/-- one call or event. `waitAll`: `PARMCI_WaitAll` (wait.c 75-87); `waitProc`: `PARMCI_WaitProc` (90-102); `issue`: for instance `PARMCI_NbPutV` without a handle (vector.c 501-502). -/
def step (near : Nat → Bool) (s : St) : Op → Option St
  | .issue p => (setImplicit near s p).map fun s1 => send near s1 p true
  | .explicit p => some (send near s p false)
  | .arrive id => some { s with out := s.out.filter fun r => r.id ≠ id }
  | .waitAll => some { waitLoop near (fun _ => true) s with imp := 0 }
  | .waitProc p => some (waitLoop near (fun q => q == p) s)

/-- a history -/
def run (near : Nat → Bool) (ops : List Op) : Option St := ops.foldlM (step near) start

end GA.Model.Implicit
