import Verif.Spec.Rma

/-!
# The port of comex over two-sided MPI (comex/src-mpi/comex.c)

Processes have no helpers: a process that waits inside a call receives messages
and carries out the requests of the others (`comex_make_progress`).  All messages
have one tag, so messages of one sender to one receiver arrive in the order in
which they were sent.

Simplifications.  The memory of a process is a value of any type `M`, a put or an
accumulate is a function on it, what a get or a read-modify-write returns is a
function of it (`R`): no addresses, lengths and types.  `MPI_Isend` is buffered
(the list `mq` of unfinished sends is not modelled).  A process that has a call
to make may receive messages at any time, as it can in that call; one whose calls
have all returned receives none.  The barrier is the one of the world group.
Strided and vector calls are sequences of the calls modelled.  Mutexes are not in
this module.
-/

namespace GA.TwoSided

open GA.Spec.Rma

/-! Calls (`Op`): `upd` is put and accumulate, `_put_nbi` (comex.c 632-664), `_acc_nbi`
(668-732); `get` is `_get_nbi` (735-767); `rmw` is `comex_rmw` (1678-1757); `wait` is
`comex_wait_all` (1532-1536), which follows the others in blocking calls; `fence` is
`comex_fence_proc` (1092-1128), `fenceAll` `comex_fence_all` (1032-1089), `barrier`
`comex_barrier` (1131-1327). -/

/-- A message (`header_t`, comex_impl.h 34-40). The notify and local addresses of
a header are those of the call `k` of the requester. -/
inductive Msg (M R : Type) where
  | upd (k : Nat) (f : M → M)
  | get (k : Nat) (r : M → R)
  | rmw (k : Nat) (f : M → M) (r : M → R)
  | getResp (k : Nat) (v : R)
  | rmwResp (k : Nat) (v : R)
  | freq
  | fresp
  | breq
  | bresp

/-- Where a process is. -/
inductive Ph where
  /-- at the beginning of a call -/
  | run
  /-- `comex_rmw`: `while (*notify > 0)` (comex.c 1744) -/
  | rmw
  /-- `comex_fence_proc`: `while (*notify > 0)` (comex.c 1119) -/
  | fence (q : Nat)
  /-- `comex_fence_all`: the loop that sends, at `p = i` (comex.c 1062-1069) -/
  | fall (i : Nat)
  /-- `comex_fence_all`: `while (*notify > 0)` (comex.c 1071) -/
  | fallw
  /-- `comex_barrier`: the loop that sends requests, at `ring_proc = i` (comex.c 1177-1217) -/
  | bsend (i : Nat)
  /-- `comex_barrier`: until all requests are queued (comex.c 1222-1243) -/
  | bcoll
  /-- `comex_barrier`: the scan of the queue that sends responses (comex.c 1250-1303);
  `kept` is the list at `new_bq_head` -/
  | bresp (kept : List Nat)
  /-- `comex_barrier`: until all responses are there (comex.c 1306-1317) -/
  | bwait

/-- The local state of a process. -/
structure Loc (M R : Type) where
  mem : M
  /-- calls made -/
  pc : Nat
  ph : Ph
  /-- `fence_array` -/
  flag : Nat → Bool
  /-- `*notify` of a fence -/
  cnt : Nat
  /-- `*notify` of `comex_rmw` -/
  notify : Bool
  /-- `gq_head`: the gets whose `*notify` is set -/
  gq : List Nat
  /-- `bq_head`: the barrier requests (while it is scanned: the part not yet seen) -/
  bq : List Nat
  /-- `request_received_mask` -/
  reqm : Nat → Bool
  /-- `response_received_mask` -/
  resm : Nat → Nat
  /-- what call `k` has returned -/
  rep : Nat → Option R
  /-- history, not in the code: the requests carried out here, by requester and
  number of the call; `none` is a barrier request -/
  log : List (Nat × Option Nat)

/-- all processes and the messages between them (comex/src-mpi/comex.c) -/
structure State (M R : Type) where
  loc : Nat → Loc M R
  /-- messages on their way: sender, receiver -/
  chan : Nat → Nat → List (Msg M R)

variable {M R : Type}

/-- update of a function at one place: assignment to the variable of one process -/
def set1 {β : Type} (f : Nat → β) (i : Nat) (v : β) : Nat → β := fun j => if j = i then v else f j

/-- how many of the first `n` entries of a mask are set -/
def countN (b : Nat → Bool) : Nat → Nat
  | 0 => 0
  | n + 1 => countN b n + if b n then 1 else 0

/-- One turn of process `me` of `n` with the calls `prog` that does not receive:
the new state and the message sent; `none` if it has to wait. -/
def own (n me : Nat) (prog : List (Op M R)) (l : Loc M R) :
    Option (Loc M R × Option (Nat × Msg M R)) :=
  match l.ph with
  | .run =>
      match prog[l.pc]? with
      | none => none
      | some (.upd q f) =>
          if q = me then
            -- "Corner case" (comex.c 643-646, 706-709)
            some ({ l with mem := f l.mem, log := l.log ++ [(me, some l.pc)], pc := l.pc + 1 }, none)
          else some ({ l with flag := set1 l.flag q true, pc := l.pc + 1 }, some (q, .upd l.pc f))
      | some (.get q r) =>
          if q = me then
            some ({ l with rep := set1 l.rep l.pc (some (r l.mem)), log := l.log ++ [(me, some l.pc)], pc := l.pc + 1 }, none)
          else some ({ l with gq := l.gq ++ [l.pc], pc := l.pc + 1 }, some (q, .get l.pc r))
      | some (.rmw q f r) =>
          some ({ l with notify := true, ph := .rmw }, some (q, .rmw l.pc f r))
      | some .wait => if l.gq = [] then some ({ l with pc := l.pc + 1 }, none) else none
      | some (.fence q) =>
          if q = me ∨ l.flag q = false then some ({ l with pc := l.pc + 1 }, none)
          else some ({ l with cnt := 1, ph := .fence q }, some (q, .freq))
      | some .fenceAll =>
          if countN l.flag n = 0 then some ({ l with pc := l.pc + 1 }, none)
          else some ({ l with cnt := countN l.flag n, ph := .fall 0 }, none)
      | some .barrier =>
          some ({ l with reqm := fun _ => false, resm := fun _ => 0, ph := .bsend 0 }, none)
  | .rmw => if l.notify then none else some ({ l with ph := .run, pc := l.pc + 1 }, none)
  | .fence q =>
      if 0 < l.cnt then none
      else some ({ l with flag := set1 l.flag q false, ph := .run, pc := l.pc + 1 }, none)
  | .fall i =>
      if i < n then
        some ({ l with ph := .fall (i + 1) }, if i ≠ me ∧ l.flag i = true then some (i, .freq) else none)
      else some ({ l with ph := .fallw }, none)
  | .fallw =>
      if 0 < l.cnt then none
      else some ({ l with flag := fun _ => false, ph := .run, pc := l.pc + 1 }, none)
  | .bsend i =>
      if i < n then
        if (me + i) % n = me then
          some ({ l with reqm := set1 l.reqm me true, ph := .bsend (i + 1) }, none)
        else some ({ l with ph := .bsend (i + 1) }, some ((me + i) % n, .breq))
      else some ({ l with ph := .bcoll }, none)
  | .bcoll =>
      let reqm := fun q => l.reqm q || l.bq.contains q
      if countN reqm n = n then
        some ({ l with reqm := set1 reqm me false, resm := set1 l.resm me 1, ph := .bresp [] }, none)
      else none
  | .bresp kept =>
      match l.bq with
      | q :: rest =>
          if l.reqm q then
            some ({ l with reqm := set1 l.reqm q false, bq := rest }, some (q, .bresp))
          else some ({ l with bq := rest, ph := .bresp (kept ++ [q]) }, none)
      | [] =>
          if countN l.reqm n = 0 then some ({ l with bq := kept, ph := .bwait }, none)
          else some ({ l with bq := kept, ph := .bresp [] }, none)
  | .bwait =>
      if countN (fun q => l.resm q == 1) n = n then
        some ({ l with ph := .run, pc := l.pc + 1 }, none)
      else none

/-- `comex_make_progress` with a message of `src` (comex.c 340-421): the new state
and the answer. -/
def recv (src : Nat) (m : Msg M R) (l : Loc M R) : Loc M R × Option (Msg M R) :=
  match m with
  -- `_put_handler`, `_acc_handler` (comex.c 434-447, 498-530)
  | .upd k f => ({ l with mem := f l.mem, log := l.log ++ [(src, some k)] }, none)
  -- `_get_request_handler` (comex.c 450-478)
  | .get k r => ({ l with log := l.log ++ [(src, some k)] }, some (.getResp k (r l.mem)))
  -- `_fetch_and_add_request_handler`, `_swap_request_handler` (comex.c 1760-1800, 1820-1853)
  | .rmw k f r => ({ l with mem := f l.mem, log := l.log ++ [(src, some k)] }, some (.rmwResp k (r l.mem)))
  -- `_get_response_handler` (comex.c 481-495), `_gq_test` (270-293)
  | .getResp k v => ({ l with rep := set1 l.rep k (some v), gq := l.gq.filter (· ≠ k) }, none)
  -- `_fetch_and_add_response_handler`, `_swap_response_handler` (comex.c 1803-1817, 1856-1870)
  | .rmwResp k v => ({ l with rep := set1 l.rep k (some v), notify := false }, none)
  -- `_fence_request_handler` (comex.c 533-556)
  | .freq => (l, some .fresp)
  -- `_fence_response_handler` (comex.c 559-567)
  | .fresp => ({ l with cnt := l.cnt - 1 }, none)
  -- `_barrier_request_handler` (comex.c 571-593)
  | .breq => ({ l with bq := l.bq ++ [src], log := l.log ++ [(src, none)] }, none)
  -- `_barrier_response_handler` (comex.c 596-603): the entry of the responder
  | .bresp => ({ l with resm := set1 l.resm src (l.resm src + 1) }, none)

/-- `_mq_push` (comex.c 179-201) -/
def push (c : Nat → Nat → List (Msg M R)) (p q : Nat) (m : Msg M R) :
    Nat → Nat → List (Msg M R) :=
  fun a b => if a = p ∧ b = q then c a b ++ [m] else c a b

/-- the messages after the oldest of `p` to `q` was received -/
def pop (c : Nat → Nat → List (Msg M R)) (p q : Nat) : Nat → Nat → List (Msg M R) :=
  fun a b => if a = p ∧ b = q then (c a b).tail else c a b

/-- What a turn is for: go on in the call, or receive a message. -/
inductive Turn where
  | own
  | recv (q : Nat)
deriving DecidableEq

/-- One turn of process `p`; `none`: the turn is lost. -/
def step (n : Nat) (prog : Nat → List (Op M R)) (p : Nat) (t : Turn) (s : State M R) :
    Option (State M R) :=
  if n ≤ p then none
  else
    match t with
    | .own =>
        match own n p (prog p) (s.loc p) with
        | none => none
        | some (l, none) => some { s with loc := set1 s.loc p l }
        | some (l, some (q, m)) => some ⟨set1 s.loc p l, push s.chan p q m⟩
    | .recv q =>
        if n ≤ q ∨ (prog p).length ≤ (s.loc p).pc then none
        else
          match s.chan q p with
          | [] => none
          | m :: _ =>
              match recv q m (s.loc p) with
              | (l, none) => some ⟨set1 s.loc p l, pop s.chan q p⟩
              | (l, some a) => some ⟨set1 s.loc p l, push (pop s.chan q p) p q a⟩

/-- The execution under a schedule. -/
def exec (n : Nat) (prog : Nat → List (Op M R)) : List (Nat × Turn) → State M R → State M R
  | [], s => s
  | t :: ts, s => exec n prog ts ((step n prog t.1 t.2 s).getD s)

/-- the beginning (`_comex_init`, comex.c 1360-1416) -/
def start (mem : Nat → M) : State M R :=
  ⟨fun p => ⟨mem p, 0, .run, fun _ => false, 0, false, [], [], fun _ => false, fun _ => 0, fun _ => none, []⟩, fun _ _ => []⟩

/-- All calls have returned. -/
def Done (n : Nat) (prog : Nat → List (Op M R)) (s : State M R) : Prop :=
  ∀ p, p < n → (s.loc p).pc = (prog p).length ∧ (s.loc p).ph = .run

end GA.TwoSided
