import Verif.Spec.LockHist

/-!
# Mutexes over MPI windows (comex/src-mpi3/comex.c)

Every mutex is a window on one process with one number per process, the wait
list.  `comex_lock` enters itself into the list and reads it in one exclusive
access; if somebody else is in the list it waits for a message, of any sender,
whose tag is the number of the mutex.  `comex_unlock` removes itself, reads the
list and sends such a message to the first process in it.

An access between `MPI_Win_lock` (exclusive) and `MPI_Win_unlock` is one step, so
are the sending and the receiving of a message; between steps any other process
may run.  Messages are buffered.  The loops over `waitlistcopy` are local.
-/

namespace GA.WinMutex

open GA.Spec.LockHist

/-- `for (i=0; i<proc; i++) idx += _mutex_num[i]` (comex.c 3202) -/
def offset (num : Nat → Nat) : Nat → Nat
  | 0 => 0
  | p + 1 => offset num p + num p

/-- the index of the window of a mutex (comex.c 3202-3203, 3252-3253) -/
def index (num : Nat → Nat) (k : Key) : Nat := offset num k.1 + k.2

/-- `_mutex_list`, `_mutex_num`, `_mutex_total` (comex.c 82-85); a missing
`num` is the null pointer -/
structure Table where
  num : Option (Nat → Nat)
  total : Nat
  /-- `_mutex_list != NULL` -/
  list : Bool

/-- `comex_destroy_mutexes` (comex.c 3165-3183) -/
def destroy (t : Table) : Table := if t.list then ⟨none, 0, false⟩ else t

/-- `comex_create_mutexes` (comex.c 3108-3159): `num` are the numbers given by
the `nproc` processes, joined by `MPI_Allreduce` (3125). `none`: `_mutex_num` is
read through the null pointer (3140). -/
def create (nproc : Nat) (num : Nat → Nat) (t : Table) : Option Table :=
  let t1 : Table := { t with num := some num, total := offset num nproc }
  let t2 := if t.list then destroy t1 else t1
  match t2.num with
  | none => if nproc = 0 then some { t2 with list := true } else none
  | some _ => some { t2 with list := true }

/-- Where a process is. -/
inductive Pc where
  /-- between calls, or at the beginning of one -/
  | run
  /-- `comex_lock` in `MPI_Recv` (comex.c 3226) -/
  | recv (k : Key)
  /-- `comex_unlock` before `MPI_Send` (comex.c 3274) -/
  | send (k : Key) (next : Nat)
deriving DecidableEq, Repr

/-- the windows, the processes and the messages between them (comex/src-mpi3/comex.c) -/
structure State where
  /-- `_mutex_buf`: window, process -/
  win : Nat → Nat → Nat
  /-- messages that have arrived: receiver, tag -/
  mail : Nat → Nat → Nat
  pc : Nat → Pc
  /-- the calls a process has still to make -/
  prog : Nat → List Op
  /-- what has happened, newest first -/
  hist : List Ev
  /-- `assert(0)` was reached (comex.c 3204, 3254) -/
  failed : Bool

/-- update of a function at one place: assignment to the variable of one process -/
def upd {β : Type} (f : Nat → β) (i : Nat) (v : β) : Nat → β := fun j => if j = i then v else f j

/-- after `comex_create_mutexes`: the lists are zero (comex.c 3146) -/
def start (prog : Nat → List Op) : State :=
  ⟨fun _ _ => 0, fun _ _ => 0, fun _ => .run, prog, [], false⟩

/-- the loops over `waitlistcopy` (comex.c 3219-3222, 3265-3271): the first other
process in the list -/
def firstOther (n : Nat) (me : Nat) (copy : Nat → Nat) : Option Nat :=
  (List.range n).find? fun i => copy i != 0 && i != me

/-- `MPI_Win_lock`, `MPI_Get`, `MPI_Put`, `MPI_Win_unlock` (comex.c 3209-3215,
3259-3262): the number of process `me` becomes `v` -/
def setSlot (win : Nat → Nat → Nat) (i me v : Nat) : Nat → Nat → Nat :=
  upd win i (upd (win i) me v)

/-- One turn of process `me` of `n` in `comex_lock` (comex.c 3191-3233) or
`comex_unlock` (3241-3279); `none`: the turn is lost, because the process waits
or has ended. -/
def step (n : Nat) (num : Nat → Nat) (me : Nat) (s : State) : Option State :=
  if n ≤ me ∨ s.failed then none
  else
    match s.pc me with
    | .run =>
        match s.prog me with
        | [] => none
        | .lock k :: l =>
            let i := index num k
            if offset num n ≤ i then some { s with failed := true }
            else
              let s1 : State := { s with win := setSlot s.win i me 1, prog := upd s.prog me l }
              match firstOther n me (s.win i) with
              | none => some { s1 with hist := .got me k :: .asked me k :: s.hist }
              | some _ => some { s1 with hist := .asked me k :: s.hist, pc := upd s.pc me (.recv k) }
        | .unlock k :: l =>
            let i := index num k
            if offset num n ≤ i then some { s with failed := true }
            else
              let s1 : State := { s with win := setSlot s.win i me 0, prog := upd s.prog me l, hist := .freed me k :: s.hist }
              match firstOther n me (s.win i) with
              | none => some s1
              | some q => some { s1 with pc := upd s.pc me (.send k q) }
    | .recv k =>
        let i := index num k
        if s.mail me i = 0 then none
        else some { s with mail := upd s.mail me (upd (s.mail me) i (s.mail me i - 1)), pc := upd s.pc me .run, hist := .got me k :: s.hist }
    | .send k q =>
        let i := index num k
        some { s with mail := upd s.mail q (upd (s.mail q) i (s.mail q i + 1)), pc := upd s.pc me .run }

/-- The execution under a schedule. -/
def exec (n : Nat) (num : Nat → Nat) : List Nat → State → State
  | [], s => s
  | p :: l, s => exec n num l ((step n num p s).getD s)

/-- All calls have ended. -/
def Done (n : Nat) (s : State) : Prop := ∀ p, p < n → s.prog p = [] ∧ s.pc p = .run

end GA.WinMutex
