import Verif.Model.Requests

/-!
# Model: non-blocking handles of Global Arrays

global/src/nbutil.c: `get_next_tag` (107-117), `gai_nb_init` (122-152), `get_armci_nbhandle`
(154-219), `nga_wait_internal` (221-259), `nga_test_internal` (262-309), `ga_init_nbhandle`
(311-348), and global/src/onesided.c `pnga_nbtest` (356-359), `pnga_nbwait` (369-372). The callers
(`ngai_put_common` 580-667, `ngai_get_common` 956-1037, `ngai_acc_common` 1379-1444, ghosts.c
2800-2908) all call `ga_init_nbhandle` once and then, for every piece of the patch, obtain an
internal handle with `get_armci_nbhandle` and start one transfer on it: the operation `nbop`.

The layer below is the model of the request slots of comex (`Verif/Model/Requests.lean`):
`ARMCI_Wait` is `comex_wait`, `ARMCI_Test` is `comex_test` (comex/src-armci/armci.c 761-780), a
started transfer takes a slot, stores its number in the handle and issues any number of messages
(possibly none). `ARMCI_INIT_HANDLE` is an empty macro.

Pointers to elements of `armci_ihdl_array` are their indices. `err` is set when a `while` loop over
a list does not end. The user's handle is the pair of the two bit fields (8 and 24 bits).
-/

namespace GA.Nb
open GA.Req (set)

/-- `ga_armcihdl_t` (66-72); `hdl` is the slot number of the layer below -/
structure Arm where
  next : Option Nat
  prev : Option Nat
  hdl : Nat
  ga : Nat
  active : Bool
deriving Repr, DecidableEq

/-- `ga_nbhdl_array_t` (83-88) -/
structure Slot where
  head : Option Nat
  count : Int
  tag : Int
  active : Bool
deriving Repr, DecidableEq

/-- Static state. `g` and `a` are `lastGAhandle + 1` and `lastARMCIhandle + 1`, `tg` is
`ga_nb_tag + 1`; `cx` is the state of the layer below. -/
structure St where
  arm : Nat → Arm
  slot : Nat → Slot
  g : Nat
  a : Nat
  tg : Nat
  cx : Req.St
  err : Bool

/-- `gai_nbhdl_t` (44-47) -/
structure Hdl where
  index : Nat
  tag : Nat
deriving Repr, DecidableEq

/-- State after `gai_nb_init` (122-152); static arrays are zero beyond `K` entries. -/
def init (K : Nat) : St :=
  { arm := fun _ => ⟨none, none, 0, 0, false⟩
    slot := fun i => ⟨none, 0, if i < K then -1 else 0, false⟩
    g := 0, a := 0, tg := 0, cx := Req.init, err := false }

/-- write one `armci_ihdl_array` entry -/
def setArm (s : St) (i : Nat) (x : Arm) : St := { s with arm := set s.arm i x }
/-- write one `ga_ihdl_array` entry -/
def setSlot (s : St) (i : Nat) (x : Slot) : St := { s with slot := set s.slot i x }

/-- Removal of link `i` from the list of slot `g` (177-190 and 284-297), including `count--`. -/
def unlink (s : St) (i g : Nat) : St :=
  let nx := (s.arm i).next
  let pv := (s.arm i).prev
  let s := match pv with
    | some p => setArm s p { s.arm p with next := nx }
    | none => setSlot s g { s.slot g with head := nx }
  let s := match nx with
    | some n => setArm s n { s.arm n with prev := pv }
    | none => s
  setSlot s g { s.slot g with count := (s.slot g).count - 1 }

/-- Insertion of link `i` in front of the list of slot `index` (194-205). -/
def link (s : St) (i index : Nat) : St :=
  let s := setArm s i { s.arm i with active := true, prev := none }
  let s := match (s.slot index).head with
    | some h => setArm s h { s.arm h with prev := some i }
    | none => s
  let s := setArm s i { s.arm i with next := (s.slot index).head, ga := index }
  setSlot s index { s.slot index with head := some i, count := (s.slot index).count + 1 }

/-- `get_armci_nbhandle` (160-219): the state and the index of the handle -/
def getArm (K N : Nat) (s : St) (index : Nat) : St × Nat :=
  let l := s.a % K
  let i := (Req.findFree K (fun j => (s.arm j).active) K l).getD l
  let s := if (s.arm i).active then
      let s := { s with cx := (Req.exec N s.cx (.wait (s.arm i).hdl)).1 }
      unlink s i (s.arm i).ga
    else s
  let s := link s i index
  ({ s with a := i + 1 }, i)

/-- the `while` loop of `nga_wait_internal` (238-249) -/
def waitLoop (N : Nat) : (fuel : Nat) → Option Nat → St → St
  | _, none, s => s
  | 0, some _, s => { s with err := true }
  | f + 1, some i, s =>
    let tmp := (s.arm i).next
    let s := { s with cx := (Req.exec N s.cx (.wait (s.arm i).hdl)).1 }
    let s := setArm s i { s.arm i with next := none, prev := none, active := false }
    waitLoop N f tmp s

/-- `nga_wait_internal` (225-259) -/
def waitH (K N : Nat) (s : St) (h : Hdl) : St :=
  if (h.tag : Int) = (s.slot h.index).tag then
    let s := waitLoop N K (s.slot h.index).head s
    setSlot s h.index { s.slot h.index with head := none, count := 0, active := false }
  else s

/-- the `while` loop of `nga_test_internal` (277-303) -/
def testLoop (N : Nat) (fl : Nat → Bool) (index : Nat) : (fuel : Nat) → Option Nat → St → St
  | _, none, s => s
  | 0, some _, s => { s with err := true }
  | f + 1, some i, s =>
    let r := Req.exec N s.cx (.test (s.arm i).hdl fl)
    let s := { s with cx := r.1 }
    let tmp := (s.arm i).next
    let s := if r.2 = 0 then
        let s := unlink s i index
        setArm s i { s.arm i with next := none, prev := none, active := false }
      else s
    testLoop N fl index f tmp s

/-- `nga_test_internal` (265-309); 0 means complete -/
def testH (K N : Nat) (s : St) (h : Hdl) (fl : Nat → Bool) : St × Nat :=
  if (h.tag : Int) = (s.slot h.index).tag then
    let s := testLoop N fl h.index K (s.slot h.index).head s
    let s := if (s.slot h.index).count = 0 then
        setSlot s h.index { s.slot h.index with head := none, active := false }
      else s
    (s, if (s.slot h.index).count > 0 then 1 else 0)
  else (s, 0)

/-- `ga_init_nbhandle` (314-348) with `get_next_tag` -/
def initH (K N : Nat) (s : St) : St × Hdl :=
  let l := s.g % K
  let idx := (Req.findFree K (fun j => (s.slot j).head.isSome) K l).getD l
  let s := if (s.slot idx).head.isSome then
      waitH K N s ⟨idx % 256, ((s.slot idx).tag % 2 ^ 24).toNat⟩
    else s
  let t : Nat := s.tg % 2 ^ 24
  let s := setSlot s idx ⟨none, 0, t, true⟩
  ({ s with g := idx + 1, tg := t + 1 }, ⟨idx % 256, t⟩)

/-- one piece of a non-blocking operation: obtain an internal handle and start a transfer that
issues the messages `ks` -/
def piece (K N : Nat) (s : St) (index : Nat) (ks : List Bool) : St :=
  let r := getArm K N s index
  let x := Req.exec N r.1.cx (.issue ks)
  setArm { r.1 with cx := x.1 } r.2 { r.1.arm r.2 with hdl := x.2 }

/-- a non-blocking put, get or accumulate with pieces `kss` -/
def nbop (K N : Nat) (s : St) (kss : List (List Bool)) : St × Hdl :=
  let r := initH K N s
  (kss.foldl (fun s ks => piece K N s r.2.index ks) r.1, r.2)

/-- calls of the user -/
inductive Op where
  | nb (kss : List (List Bool))
  /-- `NGA_NbWait` -/
  | wait (h : Hdl)
  /-- `NGA_NbTest`, with the answers MPI gives -/
  | test (h : Hdl) (fl : Nat → Bool)
  /-- calls that use the layer below directly (blocking transfers, fences, ...) -/
  | other (c : Req.Call)

/-- `NGA_NbWait` -/
def nbwait (K N : Nat) (s : St) (h : Hdl) : St := waitH K N s h
/-- `NGA_NbTest` (onesided.c 356-359): 1 means complete -/
def nbtest (K N : Nat) (s : St) (h : Hdl) (fl : Nat → Bool) : St × Nat :=
  let r := testH K N s h fl
  (r.1, if r.2 = 0 then 1 else 0)

/-- Execute one call. -/
def step (K N : Nat) (s : St) : Op → St
  | .nb kss => (nbop K N s kss).1
  | .wait h => nbwait K N s h
  | .test h fl => (nbtest K N s h fl).1
  | .other c => { s with cx := (Req.exec N s.cx c).1 }

/-- Execute a history. -/
def run (K N : Nat) (s : St) : List Op → St
  | [] => s
  | o :: os => run K N (step K N s o) os

end GA.Nb
