import Verif.Model.Elio
import Verif.Spec.Eaf

/-!
# Model: exclusive access files (pario/eaf/eaf.c)

A table of descriptors. A descriptor belongs to a file on disk (opened with a type `EAF_RW`, `EAF_W` or `EAF_R`) or to a file in memory (opened with a positive type, its size
in megabytes). Names are numbers. A file on disk is one physical file (`Model/Elio` has the extents), found by name in the directory; removing the name leaves the file
to the descriptors that have it open. Simplifications: reads and writes of the system are complete and do not fail (`Model/Elio` has the answers of the system); `strdup`
does not fail; the statistics are left out; asynchronous operations are those of a build without `LINUXAIO`, which is the default. Undefined behaviour is `none`.
-/

namespace GA.Eaf

open GA.Elio (Phys Mode)

/-- an entry of the table (eaf.c 73-95): `fname`, then `size`, `pointer` and `openma` of a file in memory (`size > 0`), or `elio_fd` -/
inductive Slot (V : Type)
  | mem (name size : Nat) (dat : Nat → V) (isOpen : Bool)
  | reg (name ino : Nat) (mode : Mode)

/-- `file` (a free entry has no `fname`), `eafhack_openfiles`, and the disk: directory, files, number of files -/
structure St (V : Type) where
  slot : Nat → Option (Slot V)
  hack : Nat
  dir : Nat → Option Nat
  ino : Nat → Phys V
  next : Nat

/-- calls; `ans` is the answer of the memory allocator: the contents of new memory -/
inductive Op (V : Type)
  | opn (name : Nat) (type : Int) (ans : Option (Nat → V))
  | close (fd : Nat)
  | write (fd off : Nat) (d : List V)
  | read (fd off n : Nat)
  | awrite (fd off : Nat) (d : List V)
  | aread (fd off : Nat) (buf : List V)
  | delete (name : Nat)
  | length (fd : Nat)

/-- results: a return code, a descriptor, the contents of the buffer after a return code of 0, a length -/
inductive Out (V : Type)
  | code (c : Int)
  | fd (k : Nat)
  | data (l : List V)
  | len (n : Nat)
deriving DecidableEq

section
variable {V : Type} [Zero V]

/-- set an entry -/
def put (t : Nat → Option (Slot V)) (i : Nat) (s : Option (Slot V)) : Nat → Option (Slot V) := fun j => if j = i then s else t j

/-- the first free entry (eaf.c 147-149) of `n` entries from `i` on -/
def firstFree (t : Nat → Option (Slot V)) : Nat → Nat → Option Nat
  | 0, _ => none
  | n + 1, i => if (t i).isSome then firstFree t n (i + 1) else some i

/-- the test of the loops over names (eaf.c 153, 469): a file in memory of this name -/
def isMem (name : Nat) : Option (Slot V) → Bool
  | some (.mem m _ _ _) => m = name
  | _ => false

/-- the loops over names (eaf.c 152-157, 466-473): the first file in memory of this name among `n` entries from `i` on -/
def findMem (t : Nat → Option (Slot V)) (name : Nat) : Nat → Nat → Option Nat
  | 0, _ => none
  | n + 1, i => if isMem name (t i) then some i else findMem t name n (i + 1)

/-- the types of files on disk (eaf.h 8-10, chemio.h 4-6) -/
def modeOf (type : Int) : Option Mode := if type = -1 then some .rw else if type = -2 then some .w else if type = -3 then some .r else none

/-- a megabyte (eaf.c 168) -/
def mega : Nat := 1024 * 1024

/-- a file in memory is opened again (eaf.c 190) -/
def reopen : Option (Slot V) → Option (Slot V)
  | some (.mem m s d _) => some (.mem m s d true)
  | s => s

/-- `EAF_Open` (eaf.c 141-221); `N` is `EAF_MAX_FILES`. The search for the name ends at the first free entry. -/
def openF (N name : Nat) (type : Int) (ans : Option (Nat → V)) (s : St V) : Out V × St V :=
  match firstFree s.slot N 0 with
  | none => (.code (-10002), s)
  | some i =>
    if 0 < type then
      match findMem s.slot name i 0 with
      | some j => (.fd j, { s with slot := put s.slot j (reopen (s.slot j)) })
      | none =>
        match ans with
        | none => (.code (-10004), s)
        | some d => (.fd i, { s with slot := put s.slot i (some (.mem name (type.toNat * mega) d true)), hack := if s.hack < i + 1 then s.hack + 1 else s.hack })
    else
      match modeOf type with
      | none => (.code (-44), s)
      | some m =>
        match s.dir name with
        | some o =>
          match Elio.openPhys m (some (s.ino o)) with
          | none => (.code (-44), s)
          | some p => (.fd i, { s with slot := put s.slot i (some (.reg name o m)), ino := fun k => if k = o then p else s.ino k })
        | none =>
          match Elio.openPhys m none with
          | none => (.code (-44), s)
          | some p => (.fd i, { slot := put s.slot i (some (.reg name s.next m)), hack := s.hack, dir := fun k => if k = name then some s.next else s.dir k, ino := fun k => if k = s.next then p else s.ino k, next := s.next + 1 })

/-- `EAF_Close` (eaf.c 227-246) -/
def closeF (fd : Nat) (s : St V) : Out V × St V :=
  match s.slot fd with
  | none => (.code (-10006), s)
  | some (.mem m z d _) => (.code 0, { s with slot := put s.slot fd (some (.mem m z d false)) })
  | some (.reg _ _ _) => (.code 0, { s with slot := put s.slot fd none })

/-- `memcpy` into memory -/
def copyIn (dat : Nat → V) (off : Nat) (d : List V) : Nat → V := fun z => if off ≤ z ∧ z < off + d.length then d.getD (z - off) 0 else dat z

/-- `elio_write` to a file on disk -/
def diskWrite (o : Nat) (m : Mode) (off : Nat) (d : List V) (s : St V) : Out V × St V :=
  if m = .r ∧ d ≠ [] then (.code (-1999), s)
  else (.code 0, { s with ino := fun k => if k = o then Elio.pwrite (s.ino o) off d else s.ino k })

/-- `elio_read` from a file on disk -/
def diskRead (o : Nat) (m : Mode) (off n : Nat) (s : St V) : Out V :=
  if m = .w ∧ n ≠ 0 then .code (-1997)
  else if n = 0 ∨ off + n ≤ (s.ino o).len then .data (Elio.slice (s.ino o) off n)
  else .code (-1981)

/-- `EAF_Write` (eaf.c 253-290) -/
def writeF (fd off : Nat) (d : List V) (s : St V) : Out V × St V :=
  match s.slot fd with
  | none => (.code (-10006), s)
  | some (.mem m z dat o) =>
    if z < off + d.length then (.code (-10007), s)
    else (.code 0, { s with slot := put s.slot fd (some (.mem m z (copyIn dat off d) o)) })
  | some (.reg _ o m) => diskWrite o m off d s

/-- `EAF_Read` (eaf.c 334-362): only the offset is compared with the size -/
def readF (fd off n : Nat) (s : St V) : Option (Out V × St V) :=
  match s.slot fd with
  | none => some (.code (-10006), s)
  | some (.mem _ z dat _) =>
    if z < off then some (if n = 0 then .data [] else .code (-10009), s)
    else if z < off + n then none
    else some (.data ((List.range n).map fun i => dat (off + i)), s)
  | some (.reg _ o m) => some (diskRead o m off n s, s)

/-- `EAF_Awrite` (eaf.c 299-328): the number of bytes is returned for a file in memory; on disk, `SYNC_EMULATE` of elio.c 111-115 -/
def awriteF (fd off : Nat) (d : List V) (s : St V) : Option (Out V × St V) :=
  match s.slot fd with
  | none => some (.code (-10006), s)
  | some (.mem m z dat o) =>
    if z < off then some (.code (-10007), s)
    else if z < off + d.length then none
    else some (.code d.length, { s with slot := put s.slot fd (some (.mem m z (copyIn dat off d) o)) })
  | some (.reg _ o m) => some (diskWrite o m off d s)

/-- `EAF_Aread` (eaf.c 371-400) into a buffer that holds `buf`: for a file in memory, the buffer is copied to the start of the file -/
def areadF (fd off : Nat) (buf : List V) (s : St V) : Option (Out V × St V) :=
  match s.slot fd with
  | none => some (.code (-10006), s)
  | some (.mem m z dat o) =>
    if z < off then some (.code (-10009), s)
    else if z < buf.length then none
    else some (.data buf, { s with slot := put s.slot fd (some (.mem m z (copyIn dat 0 buf) o)) })
  | some (.reg _ o m) => some (diskRead o m off buf.length s, s)

/-- `EAF_Delete` (eaf.c 452-496): files in memory are searched below `eafhack_openfiles`; then `elio_delete` -/
def deleteF (name : Nat) (s : St V) : Out V × St V :=
  match findMem s.slot name s.hack 0 with
  | some j => (.code 0, { s with slot := put s.slot j none })
  | none => (.code 0, { s with dir := fun k => if k = name then none else s.dir k })

/-- `EAF_Length` (eaf.c 612-629) -/
def lengthF (fd : Nat) (s : St V) : Out V :=
  match s.slot fd with
  | none => .code (-10006)
  | some (.mem _ z _ o) => if o then .len z else .code (-10006)
  | some (.reg _ o _) => .len (s.ino o).len

/-- a call -/
def step (N : Nat) (s : St V) : Op V → Option (Out V × St V)
  | .opn name type ans => some (openF N name type ans s)
  | .close fd => some (closeF fd s)
  | .write fd off d => some (writeF fd off d s)
  | .read fd off n => readF fd off n s
  | .awrite fd off d => awriteF fd off d s
  | .aread fd off buf => areadF fd off buf s
  | .delete name => some (deleteF name s)
  | .length fd => some (lengthF fd s, s)

/-- the table at the start of the program, before any file exists -/
def init : St V := ⟨fun _ => none, 0, fun _ => none, fun _ => Elio.empty, 0⟩

/-- a program: its calls and their results -/
def run (N : Nat) : St V → List (Op V) → Option (List (Op V × Out V) × St V)
  | s, [] => some ([], s)
  | s, op :: ops =>
    match step N s op with
    | none => none
    | some (o, s') => (run N s' ops).map fun r => ((op, o) :: r.1, r.2)

end

/-- a call in the words of the specification: the types of eaf.h 8-10 -/
def callOf {V : Type} : Op V → Spec.Eaf.Call V
  | .opn name type _ =>
    if 0 < type then .openMem name (type.toNat * (1024 * 1024))
    else if type = -1 then .openDisk name true false true true
    else if type = -2 then .openDisk name true true false true
    else if type = -3 then .openDisk name false false true false
    else .badOpen
  | .close fd => .close fd
  | .write fd off d => .write fd off d false
  | .read fd off n => .read fd off n false
  | .awrite fd off d => .write fd off d true
  | .aread fd off buf => .read fd off buf.length true
  | .delete name => .delete name
  | .length fd => .length fd

/-- a result in the words of the specification: a return code of 0 is success -/
def resOf {V : Type} : Out V → Spec.Eaf.Res V
  | .code c => if c = 0 then .done else .failed
  | .fd k => .fd k
  | .data l => .data l
  | .len n => .len n

/-- a program in the words of the specification -/
def asSeen {V : Type} (t : List (Op V × Out V)) : List (Spec.Eaf.Call V × Spec.Eaf.Res V) := t.map fun x => (callOf x.1, resOf x.2)

/-- `EAF_Wait` (eaf.c 406-421) without `LINUXAIO`, where every request is `ELIO_DONE`: for a file in memory the code that is returned was never set (`junk`) -/
def waitF {V : Type} (slot : Option (Slot V)) (junk : Int) : Int :=
  match slot with
  | some (.mem _ _ _ _) => junk
  | _ => 0

/-- `EAF_Probe` (eaf.c 429-445): the status that is returned, from the value the variable had before the call. `ELIO_DONE` is -1. The request is not used. -/
def probeF (_req status : Int) : Int := if status = -1 then 0 else 1

/-- `elio_probe` (elio.c 641-689) of a request without asynchronous operations -/
def elioProbe (req : Int) : Option Int := if req = -1 then some (-1) else none

end GA.Eaf
