import Verif.Spec.LockUse

/-!
# The mutexes of the port of comex over two-sided MPI (comex/src-mpi/comex.c)

Every process serves the mutexes at it while it is inside a call (`comex_make_progress`, 308-431):
lock requests go to one list for all mutexes, and a pass over that list (`_lq_progress`) grants those
that are free.

Simplifications.  Messages of one sender to one receiver arrive in the order in which they were sent
(one tag, one communicator); sends are buffered.  The barrier is one message of each process to each
(the exchange of requests and responses is in `Verif.Model.TwoSided`).  An update is only recorded (its
effect is in `Verif.Model.TwoSided`).  A pass over the list is one turn, as is the reception of a message;
in the code a pass follows every reception.
-/

namespace GA.MsgLock

open GA.Spec.LockUse

/-- A message (`header_t`, comex_impl.h 34-40). The notify address of a lock request is that of the call `k`. -/
inductive Msg where
  | lockReq (m k : Nat)
  | lockResp (m k : Nat)
  | unlock (m : Nat)
  | upd (k : Nat)
  | mark
deriving DecidableEq

/-- An entry of the list of lock requests (`comex_lock_t`, comex_impl.h 59-64): rank, id, notify address. -/
abbrev Ent := Nat × Nat × Nat

/-- Where a process is. -/
inductive Ph where
  /-- at the beginning of a call -/
  | run
  /-- `comex_lock`: `while (*notify)` (comex.c 2104-2109) -/
  | lockw
  /-- in a barrier -/
  | bar
  /-- in the barrier of `comex_destroy_mutexes` (comex.c 2046) -/
  | barD
  /-- the loop of `comex_destroy_mutexes` (comex.c 2049-2060) -/
  | dloop
deriving DecidableEq

/-- The local state of a process. -/
structure Loc where
  /-- calls made -/
  pc : Nat
  ph : Ph
  /-- `num_mutexes`; `mutexes` is a null pointer if it is 0 -/
  num : Nat
  /-- `mutexes`; `none` is -1 -/
  mtx : Nat → Option Nat
  /-- the list at `lq_head` -/
  lq : List Ent
  /-- `*notify` of `comex_lock` -/
  notify : Bool
  /-- barriers entered -/
  arr : Nat
  /-- messages of a barrier received -/
  marks : Nat → Nat
  /-- an assertion failed or `mutexes` was read outside its bounds (or through a null pointer) -/
  fault : Bool
  /-- history, not in the code: updates carried out here, by requester and number of the call -/
  log : List (Nat × Nat)
  /-- history: lock requests in order of arrival -/
  reqs : List Ent
  /-- history: lock requests in the order in which they were granted -/
  grants : List Ent

/-- all processes and the messages between them (comex/src-mpi/comex.c) -/
structure State where
  loc : Nat → Loc
  /-- messages on their way: sender, receiver -/
  chan : Nat → Nat → List Msg

/-- update of a function at one place: assignment to the variable of one process -/
def set1 {β : Type} (f : Nat → β) (i : Nat) (v : β) : Nat → β := fun j => if j = i then v else f j

/-- one message -/
def one (q : Nat) (m : Msg) : Nat → List Msg := fun b => if b = q then [m] else []

/-- `_lq_progress` (comex.c 1943-2007): a pass over the list with the table `t`: the new table, the list that
is left, the requests granted, and whether the table was read outside its bounds. -/
def pass (num : Nat) : List Ent → (Nat → Option Nat) → (Nat → Option Nat) × List Ent × List Ent × Bool
  | [], t => (t, [], [], false)
  | e :: es, t =>
      if num ≤ e.2.1 then
        let r := pass num es t
        (r.1, e :: r.2.1, r.2.2.1, true)
      else
        match t e.2.1 with
        | none =>
            let r := pass num es (set1 t e.2.1 (some e.1))
            (r.1, r.2.1, e :: r.2.2.1, r.2.2.2)
        | some _ =>
            let r := pass num es t
            (r.1, e :: r.2.1, r.2.2.1, r.2.2.2)

/-- the state after a pass -/
def passLoc (l : Loc) : Loc :=
  let r := pass l.num l.lq l.mtx
  { l with mtx := r.1, lq := r.2.1, grants := l.grants ++ r.2.2.1, fault := l.fault || r.2.2.2 }

/-- the responses sent in a pass (comex.c 1971-1977) -/
def passOut (l : Loc) : Nat → List Msg :=
  fun b => ((pass l.num l.lq l.mtx).2.2.1.filter fun e => e.1 == b).map fun e => .lockResp e.2.1 e.2.2

/-- One turn of process `me` of `n` with the calls `prog` that does not receive: the new state and the
messages sent; `none` if it has to wait. -/
def own (n me : Nat) (prog : List Call) (l : Loc) : Option (Loc × (Nat → List Msg)) :=
  match l.ph with
  | .run =>
      match prog[l.pc]? with
      | none => none
      -- `comex_create_mutexes` (comex.c 2011-2035) with its assertions
      | some (.create K) =>
          some ({ l with num := K, mtx := fun _ => none, fault := l.fault || l.num != 0 || !l.lq.isEmpty, pc := l.pc + 1 }, fun _ => [])
      -- `comex_lock` (comex.c 2085-2114)
      | some (.lock x) =>
          some ({ l with notify := true, ph := .lockw }, one x.1 (.lockReq x.2 l.pc))
      -- `comex_unlock` (comex.c 2117-2135)
      | some (.unlock x) => some ({ l with pc := l.pc + 1 }, one x.1 (.unlock x.2))
      -- `_put_nbi`, `_acc_nbi` (comex.c 632-732)
      | some (.upd q) =>
          if q = me then some ({ l with log := l.log ++ [(me, l.pc)], pc := l.pc + 1 }, fun _ => [])
          else some ({ l with pc := l.pc + 1 }, one q (.upd l.pc))
      -- `comex_barrier` (comex.c 1131-1327)
      | some .sync => some ({ l with arr := l.arr + 1, ph := .bar }, fun _ => [.mark])
      -- `comex_destroy_mutexes` (comex.c 2038-2082)
      | some .destroy => some ({ l with arr := l.arr + 1, ph := .barD }, fun _ => [.mark])
  | .lockw => if l.notify then none else some ({ l with ph := .run, pc := l.pc + 1 }, fun _ => [])
  | .bar =>
      if (List.range n).all (fun q => l.arr ≤ l.marks q) then
        some ({ l with ph := .run, pc := l.pc + 1 }, fun _ => [])
      else none
  | .barD =>
      if (List.range n).all (fun q => l.arr ≤ l.marks q) then some ({ l with ph := .dloop }, fun _ => [])
      else none
  | .dloop =>
      if l.lq.isEmpty && (List.range l.num).all (fun m => (l.mtx m).isNone) then
        some ({ l with num := 0, ph := .run, pc := l.pc + 1 }, fun _ => [])
      else none

/-- `comex_make_progress` with a message of `src` (comex.c 340-421). -/
def recv (src : Nat) (m : Msg) (l : Loc) : Loc :=
  match m with
  -- `_lock_request_handler`, `_lq_push` (comex.c 1873-1881, 1910-1940)
  | .lockReq m k => { l with lq := l.lq ++ [(src, m, k)], reqs := l.reqs ++ [(src, m, k)] }
  -- `_lock_response_handler` (comex.c 1884-1892)
  | .lockResp _ _ => { l with notify := false }
  -- `_unlock_request_handler` (comex.c 1895-1907) with its assertions
  | .unlock m =>
      { l with mtx := set1 l.mtx m none, fault := l.fault || decide (l.num ≤ m) || decide (l.mtx m ≠ some src) }
  -- `_put_handler`, `_acc_handler` (comex.c 434-447, 498-530)
  | .upd k => { l with log := l.log ++ [(src, k)] }
  | .mark => { l with marks := set1 l.marks src (l.marks src + 1) }

/-- `_mq_push` (comex.c 179-201) -/
def send (c : Nat → Nat → List Msg) (p : Nat) (f : Nat → List Msg) : Nat → Nat → List Msg :=
  fun a b => if a = p then c a b ++ f b else c a b

/-- the messages after the oldest of `p` to `q` was received -/
def pop (c : Nat → Nat → List Msg) (p q : Nat) : Nat → Nat → List Msg :=
  fun a b => if a = p ∧ b = q then (c a b).tail else c a b

/-- What a turn is for: go on in the call, receive a message, or look at the list of lock requests. -/
inductive Turn where
  | own
  | recv (q : Nat)
  | pass
deriving DecidableEq

/-- One turn of process `p`; `none`: the turn changes nothing. -/
def step (n : Nat) (prog : Nat → List Call) (p : Nat) (t : Turn) (s : State) : Option State :=
  if n ≤ p then none
  else
    match t with
    | .own =>
        match own n p (prog p) (s.loc p) with
        | none => none
        | some (l, f) => some ⟨set1 s.loc p l, send s.chan p f⟩
    | .recv q =>
        if n ≤ q ∨ (prog p).length ≤ (s.loc p).pc then none
        else
          match s.chan q p with
          | [] => none
          | m :: _ => some ⟨set1 s.loc p (recv q m (s.loc p)), pop s.chan q p⟩
    | .pass =>
        if (prog p).length ≤ (s.loc p).pc then none
        else
          let r := pass (s.loc p).num (s.loc p).lq (s.loc p).mtx
          if r.2.2.1.isEmpty && !r.2.2.2 then none
          else some ⟨set1 s.loc p (passLoc (s.loc p)), send s.chan p (passOut (s.loc p))⟩

/-- The execution under a schedule. -/
def exec (n : Nat) (prog : Nat → List Call) : List (Nat × Turn) → State → State
  | [], s => s
  | t :: ts, s => exec n prog ts ((step n prog t.1 t.2 s).getD s)

/-- the beginning (`comex_init`, comex.c 1360-1416) -/
def start : State :=
  ⟨fun _ => ⟨0, .run, 0, fun _ => none, [], false, 0, fun _ => 0, false, [], [], []⟩, fun _ _ => []⟩

/-- All calls have returned. -/
def Done (n : Nat) (prog : Nat → List Call) (s : State) : Prop :=
  ∀ p, p < n → (s.loc p).pc = (prog p).length ∧ (s.loc p).ph = .run

end GA.MsgLock
