import Verif.Spec.Mutex

/-!
# Mutexes of the communication layer (comex/src-mpi-pr/comex.c) and of GA (global/src/base.c)

The tables `mutexes` and `lq_heads` of all progress servers are one function of the mutex; a queue is
a `List`. `UNLOCKED` is `none`. Processes and servers exchange messages over channels that keep the
order of the messages of one sender (MPI point-to-point order).
-/

namespace GA.Mutex

/-- `mutexes`, `lq_heads` (comex.c 4553-4622) -/
structure Server where
  owner : Key → Option Nat
  queue : Key → List Nat

/-- assignment to the entry of one mutex in `mutexes` and `lq_heads` (comex/src-mpi-pr/comex.c) -/
def fset {β : Type} (f : Key → β) (k : Key) (v : β) : Key → β := fun k' => if k' = k then v else f k'

/-- `_create_mutexes_handler`: all mutexes unlocked, no queue -/
def Server.init : Server := ⟨fun _ => none, fun _ => []⟩

/-- `_lock_handler` (comex.c 4553-4592): new state and the acknowledgements sent. The walk to the tail
of the queue is `++`. -/
def lockHandler (s : Server) (p : Nat) (k : Key) : Server × List (Nat × Key) :=
  match s.owner k with
  | none => ({ s with owner := fset s.owner k (some p) }, [(p, k)])
  | some _ =>
    match s.queue k with
    | [] => ({ s with queue := fset s.queue k [p] }, [])
    | q :: l => ({ s with queue := fset s.queue k (q :: l ++ [p]) }, [])

/-- `_unlock_handler` (comex.c 4595-4622); the requester is not compared with the owner -/
def unlockHandler (s : Server) (_p : Nat) (k : Key) : Server × List (Nat × Key) :=
  match s.queue k with
  | q :: l => ({ owner := fset s.owner k (some q), queue := fset s.queue k l }, [(q, k)])
  | [] => ({ s with owner := fset s.owner k none }, [])

/-- the branch of the server on the kind of request (comex.c 3505-3508) -/
def handle (s : Server) : Req → Server × List (Nat × Key)
  | .lock p k => lockHandler s p k
  | .unlock p k => unlockHandler s p k

/-- the acknowledgements sent while requests arrive -/
def grants (s : Server) : List Req → List (Nat × Key)
  | [] => []
  | r :: rs => (handle s r).2 ++ grants (handle s r).1 rs

/-! ## processes and channels -/

/-- a request message; the sender is the channel's -/
inductive Msg where
  | lock (k : Key)
  | unlock (k : Key)
deriving DecidableEq, Repr

/-- the servers, the processes and the messages between them (comex/src-mpi-pr/comex.c) -/
structure Sys where
  server : Server
  /-- messages on their way from a process to a server -/
  chan : Nat → Nat → List Msg
  /-- acknowledgements on their way to a process -/
  acks : Nat → List Key
  /-- the lock a process waits for (it is inside `comex_lock`) -/
  waiting : Nat → Option Key
  /-- mutexes a process has locked -/
  held : Nat → Key → Bool

/-- the state in which all mutexes are `UNLOCKED` and no message is on its way (comex/src-mpi-pr/comex.c) -/
def Sys.init : Sys := ⟨.init, fun _ _ => [], fun _ => [], fun _ => none, fun _ _ => false⟩

/-- update of a function at one place: assignment to the variable of one process -/
def set1 {β : Type} (f : Nat → β) (p : Nat) (v : β) : Nat → β := fun q => if q = p then v else f q

/-- deliver acknowledgements into the channels to the processes -/
def pushAcks (a : Nat → List Key) : List (Nat × Key) → Nat → List Key
  | [] => a
  | (p, k) :: gs => pushAcks (set1 a p (a p ++ [k])) gs

/-- One step of the system. `srv r` is the progress server of process `r` (`g_state.master`). -/
inductive Step (srv : Nat → Nat) : Sys → Sys → Prop
  /-- `comex_lock` (comex.c 2287-2322) up to the wait for the acknowledgement -/
  | sendLock {s : Sys} (p : Nat) (k : Key) : s.waiting p = none →
      Step srv s { s with
        waiting := set1 s.waiting p (some k)
        chan := set1 s.chan p (set1 (s.chan p) (srv k.1) (s.chan p (srv k.1) ++ [.lock k])) }
  /-- `comex_unlock` (comex.c 2325-2357) by a process that has locked the mutex -/
  | sendUnlock {s : Sys} (p : Nat) (k : Key) : s.waiting p = none → s.held p k = true →
      Step srv s { s with
        held := set1 s.held p (fset (s.held p) k false)
        chan := set1 s.chan p (set1 (s.chan p) (srv k.1) (s.chan p (srv k.1) ++ [.unlock k])) }
  /-- `_progress_server` (comex.c 3379) takes a message and calls `_lock_handler` -/
  | lock {s : Sys} (p v : Nat) (k : Key) (l : List Msg) : s.chan p v = .lock k :: l →
      Step srv s { s with
        server := (lockHandler s.server p k).1
        acks := pushAcks s.acks (lockHandler s.server p k).2
        chan := set1 s.chan p (set1 (s.chan p) v l) }
  /-- `_progress_server` takes a message and calls `_unlock_handler` -/
  | unlock {s : Sys} (p v : Nat) (k : Key) (l : List Msg) : s.chan p v = .unlock k :: l →
      Step srv s { s with
        server := (unlockHandler s.server p k).1
        acks := pushAcks s.acks (unlockHandler s.server p k).2
        chan := set1 s.chan p (set1 (s.chan p) v l) }
  /-- the acknowledgement arrives, `comex_lock` returns -/
  | ack {s : Sys} (p : Nat) (k : Key) (l : List Key) : s.acks p = k :: l →
      Step srv s { s with
        acks := set1 s.acks p l
        waiting := set1 s.waiting p none
        held := set1 s.held p (fset (s.held p) k true) }

/-- the states that can be reached by any schedule of the steps above -/
inductive Reach (srv : Nat → Nat) : Sys → Prop
  | init : Reach srv .init
  | step {s t} : Reach srv s → Step srv s t → Reach srv t

/-! ## GA mutexes -/

/-- `chunk_mutex` (base.c 5102) -/
def chunkMutex (num nproc : Nat) : Nat := (num + nproc - 1) / nproc

/-- number of mutexes `pnga_create_mutexes` makes on process `me` (base.c 5102-5107) -/
def myShare (num nproc me : Nat) : Nat :=
  if me * chunkMutex num nproc ≥ num then 0 else chunkMutex num nproc

/-- the mutex that `pnga_lock` (base.c 5121-5132) and `pnga_unlock` (5141-5152) use for mutex number
`mutex`; `none`: `pnga_error` -/
def gaLockKey (num nproc : Nat) (mutex : Int) : Option (Int × Int) :=
  if (num : Int) < mutex then none
  else some ((num : Int) / chunkMutex num nproc - 1, (num : Int) % chunkMutex num nproc)

end GA.Mutex
