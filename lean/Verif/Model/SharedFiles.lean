import Verif.Spec.SharedFiles

/-!
# Model: shared files and asynchronous input and output

pario/sf/shared.files.c (the table of shared files, `sf_write`, `sf_read`, `sf_wait`, `sf_waitall`) and the
asynchronous calls of pario/elio/elio.c (`AIO_LOOKUP`, `elio_awrite`, `elio_aread`, `elio_wait`) in a build
with asynchronous I/O (LINUXAIO).

Every process has a table of `K` (`MAX_AIO_REQ`, 4) requests in progress. The system transfers the bytes of
requests in progress one by one in any order. Processes run in any interleaving.
Simplifications: a file is one physical file, given by a number (C78 has the extents; a request that
would reach the next extent is carried out at once, here: if `mx ≤ off + n`); the blocking calls
transfer everything (C78 has the answers of the system); lengths of files are not modelled, a read
behind the end of a file counts as a failure of the transfer.
-/

namespace GA.SharedFiles
open Spec.Sf

/-- one byte to be transferred -/
structure Tr where
  dst : Cell
  src : Cell
deriving DecidableEq

/-- a control block in use (`cb_fout[i]`, elio.c 102): the number of the request (not part of the program), what it was, and the bytes not transferred yet -/
structure Slot (V : Type) where
  req : Nat
  act : Act V
  todo : List Tr

/-- An entry of `aio_req` (elio.c 113): `NULL_AIO`; the id of a request in progress (its own index); or the
zero the C language puts there at the start, which belongs to no request. -/
inductive Ent (V : Type)
  | free
  | zero
  | busy (s : Slot V)

/-- bytes of the files and memories, tables of the processes (`aio_req`), and for the statements the number
of requests so far, their issuers and ids -/
structure St (V : Type) where
  cells : Cell → V
  aio : Nat → Nat → Ent V
  num : Nat
  ids : Nat → Int
  own : Nat → Nat

section
variable {V : Type}

/-- `aio_req[aio_i] != NULL_AIO` -/
def Ent.isUsed : Ent V → Bool
  | .free => false
  | _ => true

/-- `AIO_LOOKUP` (elio.c 120-123): first free entry or `K`; `fuel` is the number of entries left -/
def lookupFrom (t : Nat → Ent V) : (fuel : Nat) → (i : Nat) → Nat
  | 0, i => i
  | fuel + 1, i => if (t i).isUsed then lookupFrom t fuel (i + 1) else i

/-- The entries `AIO_LOOKUP` reads: `aio_req[aio_i] != NULL_AIO` is evaluated before
`aio_i < MAX_AIO_REQ`. -/
def lookupReads (t : Nat → Ent V) : (fuel : Nat) → (i : Nat) → List Nat
  | 0, i => [i]
  | fuel + 1, i => if (t i).isUsed then i :: lookupReads t fuel (i + 1) else [i]

/-- the byte transfers of a request (elio.c 276-292 and the system calls) -/
def transfers : Act V → List Tr
  | .write p f off b n => (List.range n).map fun i => ⟨.file f (off + i), .mem p (b + i)⟩
  | .read p f off b n => (List.range n).map fun i => ⟨.mem p (b + i), .file f (off + i)⟩
  | _ => []

/-- one transfer -/
def move (c : Cell → V) (t : Tr) : Cell → V := fun x => if x = t.dst then c t.src else c x

/-- new table entry -/
def setSlot (t : Nat → Nat → Ent V) (p i : Nat) (s : Ent V) : Nat → Nat → Ent V :=
  fun q j => if q = p ∧ j = i then s else t q j

/-- `elio_awrite` and `elio_aread` (elio.c 297-376, 524-603): a request that reaches the end of the extent
(317-323, 545-551) or finds the table full (342-346, 569-574) is carried out at once and has the id
`ELIO_DONE`, -1; others get a control block. -/
def issue (K mx : Nat) (s : St V) (p last : Nat) (a : Act V) : St V :=
  let i := lookupFrom (s.aio p) K 0
  if mx ≤ last ∨ K ≤ i then
    { s with cells := (transfers a).foldl move s.cells, num := s.num + 1,
             ids := fun k => if k = s.num then -1 else s.ids k, own := fun k => if k = s.num then p else s.own k }
  else
    { s with aio := setSlot s.aio p i (.busy ⟨s.num, a, transfers a⟩), num := s.num + 1,
             ids := fun k => if k = s.num then (i : Int) else s.ids k, own := fun k => if k = s.num then p else s.own k }

/-- One step. `none`: the step cannot be taken (`elio_wait` blocks until the transfers are done) or
ends in an error (`HANDFAIL`).
`sf_write`, `sf_read` (shared.files.c 237-280): `issue`. `sf_wait` (286-293) with `elio_wait` (elio.c
608-647): nothing for `ELIO_DONE`; else `aio_suspend`, and the entry is free. The status of the
transfer is not asked for (no call of `aio_error` or `aio_return`). -/
def step (K mx : Nat) (s : St V) : Act V → Option (St V)
  | .write p f off b n => some (issue K mx s p (off + n) (.write p f off b n))
  | .read p f off b n => some (issue K mx s p (off + n) (.read p f off b n))
  | .store p a v => some { s with cells := fun x => if x = .mem p a then v else s.cells x }
  | .wait p id =>
    if id = -1 then some s
    else if id < 0 ∨ (K : Int) ≤ id then none
    else match s.aio p id.toNat with
      | .busy sl => if sl.todo.isEmpty then some { s with aio := setSlot s.aio p id.toNat .free } else none
      | _ => none
  | .sys p i j =>
    match s.aio p i with
    | .busy sl => match sl.todo[j]? with
      | none => none
      | some t => some { s with cells := move s.cells t,
                                aio := setSlot s.aio p i (.busy { sl with todo := sl.todo.eraseIdx j }) }
    | _ => none
  | .fail p i =>
    match s.aio p i with
    | .busy sl => some { s with aio := setSlot s.aio p i (.busy { sl with todo := [] }) }
    | _ => none

/-- a run -/
def run (K mx : Nat) : St V → List (Act V) → Option (St V)
  | s, [] => some s
  | s, a :: as => (step K mx s a).bind fun s' => run K mx s' as

/-- `elio_init` (elio.c 898-908): the entries are marked free only if the macro `ASYNC` is defined (`async`).
Nothing in the sources or the build files defines it; the macro that switches asynchronous calls on is
`AIO` (62). Without `ASYNC` the entries keep the zeros of a static array. -/
def init (async : Bool) (c : Cell → V) : St V :=
  ⟨c, fun _ _ => if async then .free else .zero, 0, fun _ => -1, fun _ => 0⟩

/-- `sf_waitall` (shared.files.c 300-314): one wait after the other -/
def waitAll (p : Nat) (list : List Int) : List (Act V) := list.map fun id => .wait p id

/-- A condition on programs, not part of the code: the action gets into the way of no request in progress -/
def Clear (s : St V) (a : Act V) : Prop := ∀ p i sl, s.aio p i = .busy sl → Apart a sl.act

/-- A condition on runs, not part of the code, no action gets into the way of a request in progress, and no transfer fails. -/
def RunClear (K mx : Nat) : St V → List (Act V) → Prop
  | _, [] => True
  | s, a :: as => Clear s a ∧ (∀ p i, a ≠ .fail p i) ∧ ∀ s', step K mx s a = some s' → RunClear K mx s' as

end

/-! ## The table of shared files -/

/-- an entry of `SF` (shared.files.c 42-49): in use, name (`fname` and the number behind the dot), descriptor open -/
structure SfEnt where
  actv : Bool
  name : Nat × Int
  opn : Bool
deriving DecidableEq

/-- `sfi_get_handle` (shared.files.c 71-83), from `candidate` on: a do-while loop; `none` for -1 -/
def getHandle (t : Nat → SfEnt) : (fuel candidate : Nat) → Option Nat
  | 0, _ => none
  | fuel + 1, c => if (t c).actv then getHandle t fuel (c + 1) else some c

/-- calls on the table; handles without `SF_OFFSET` -/
inductive Call
  | create (fname : Nat)
  | createSuffix (fname : Nat) (suffix : Int)
  | destroy (h : Nat)
  | rwtor (h : Nat)
  | close (h : Nat)
  | reopen (h : Nat)
deriving DecidableEq

/-- `sfi_create` (93-118), `sfi_create_suffix` (126-158), `sf_destroy` (162-180), `sf_rwtor` (186-197), `sf_close`
(219-225), `sf_open` (203-213): the handle and the new table; `n` is `_max_shared_files`. `none`: the program ends in an error, or (`close` of a
descriptor that is closed: `elio_close` has freed it, elio.c 808-830) uses memory that has been freed.
All processes make these calls in the same order, so all have the same table. Names are pairs: `"%s.%d"`
can be read back, the number has no dot in it. -/
def sfCall (n : Nat) (t : Nat → SfEnt) : Call → Option (Nat × (Nat → SfEnt))
  | .create fname => (getHandle t n 0).map fun h => (h, fun k => if k = h then ⟨true, (fname, (h : Int)), true⟩ else t k)
  | .createSuffix fname suffix =>
    (getHandle t n 0).map fun h => (h, fun k => if k = h then ⟨true, (fname, suffix), true⟩ else t k)
  | .destroy h => if n ≤ h then none else if (t h).actv = false then none else if (t h).opn = false then none
    else some (h, fun k => if k = h then ⟨false, (t h).name, false⟩ else t k)
  | .rwtor h => if (t h).opn = false then none else some (h, t)
  | .close h => if (t h).opn = false then none else some (h, fun k => if k = h then ⟨(t h).actv, (t h).name, false⟩ else t k)
  | .reopen h => some (h, fun k => if k = h then ⟨(t h).actv, (t h).name, true⟩ else t k)

/-- a history of calls and the handles they returned -/
def sfRun (n : Nat) : (Nat → SfEnt) → List Call → Option (List Nat × (Nat → SfEnt))
  | t, [] => some ([], t)
  | t, c :: cs => (sfCall n t c).bind fun r => (sfRun n r.2 cs).map fun q => (r.1 :: q.1, q.2)

/-- the table at the start -/
def sfInit : Nat → SfEnt := fun _ => ⟨false, (0, 0), false⟩

/-- a condition on programs: all calls except `sf_create_suffix` -/
def NoSuffix (cs : List Call) : Prop := ∀ f x, Call.createSuffix f x ∉ cs

end GA.SharedFiles
