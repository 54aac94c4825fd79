/-!
# Model: request slots of the communication layer

comex/src-mpi-pr/comex.c: `nb_send_common`, `nb_send_datatype`, `nb_recv` (5419-5650), `nb_get_handle_index` (5653-5666),
`nb_wait_for_handle` (5669-5726), `nb_wait_for_send1` / `nb_wait_for_recv1` (5729-5769, 5824-5890),
`nb_test_for_send1` / `nb_test_for_recv1` (5773-5822, 5893-5973), `nb_wait_for_all` (5975-5993),
`nb_test_for_all` (5997-6035), `nb_wait_all` (6038-6056), `comex_wait` (1776-1802), `comex_test`
(1806-1842), and the common start of `comex_put`, `comex_nbput`, ... (883, 1863-1869).

A message is a heap cell identified by a number; `next` is its link, `live` tells whether it is
allocated. Every slot has two queues: `false` is the send queue, `true` the receive queue (the code
of the two sides is the same up to the unpacking of received data). `err` is set when an assertion of
the code fails, when a freed cell is dereferenced or when a loop does not end.

What MPI reports is free: `MPI_Wait` returns (the message is then complete), `MPI_Test` answers
according to an arbitrary function of the message handed in with every test call.

Simplifications: payload, unpacking and the freeing of buffers and datatypes are not modelled; the
processing of a message (the moment at which its data are delivered and its cell is freed) is
recorded in `log`.
-/

namespace GA.Req

/-- `send_head, send_tail, send_size` or `recv_head, recv_tail, recv_size` of `nb_t`
(comex.c 150-158) -/
structure Q where
  head : Option Nat
  tail : Option Nat
  size : Nat
deriving Repr, DecidableEq

/-- The static state (comex.c 176-184) and the heap of messages. `cnt`/`cntP` are
`nb_count_send`, `nb_count_recv` and their `_processed` versions, `ev`/`evP` are
`nb_count_event`, `nb_count_event_processed`. -/
structure St where
  q : Nat → Bool → Q
  inUse : Nat → Bool
  idx : Nat
  next : Nat → Option Nat
  live : Nat → Bool
  fresh : Nat
  cnt : Bool → Nat
  cntP : Bool → Nat
  ev : Nat
  evP : Nat
  log : List Nat
  err : Bool

/-- State after `comex_init` (comex.c 581-592). -/
def init : St :=
  { q := fun _ _ => ⟨none, none, 0⟩, inUse := fun _ => false, idx := 0, next := fun _ => none,
    live := fun _ => false, fresh := 0, cnt := fun _ => 0, cntP := fun _ => 0, ev := 0, evP := 0,
    log := [], err := false }

/-- function update -/
def set {α : Type} [DecidableEq α] {β : Type} (f : α → β) (a : α) (v : β) : α → β :=
  fun b => if b = a then v else f b

/-- write one queue of one slot -/
def setQ (s : St) (i : Nat) (b : Bool) (x : Q) : St :=
  { s with q := set s.q i (set (s.q i) b x) }

/-- `nb_send_common` / `nb_recv` (5419-5451, 5613-5650): allocate a message and append it. -/
def push (s : St) (i : Nat) (b : Bool) : St :=
  let m := s.fresh
  let x := s.q i b
  let nx := set s.next m none
  let e := match x.tail with
    | some t => !(set s.live m true) t
    | none => false
  let nx := match x.tail with
    | some t => set nx t (some m)
    | none => nx
  let h := match x.head with
    | none => some m
    | some h => some h
  { setQ s i b ⟨h, some m, x.size + 1⟩ with
    next := nx, live := set s.live m true, fresh := s.fresh + 1,
    cnt := set s.cnt b (s.cnt b + 1), ev := s.ev + 1, err := s.err || e }

/-- `nb_wait_for_send1` / `nb_wait_for_recv1` (5729-5769, 5824-5890): wait for the first message,
process and free it. -/
def wait1 (s : St) (i : Nat) (b : Bool) : St :=
  let x := s.q i b
  match x.head with
  | none => { s with err := true }
  | some m =>
    let h := s.next m
    { setQ s i b ⟨h, (match h with | none => none | some _ => x.tail), x.size - 1⟩ with
      live := set s.live m false, log := s.log ++ [m],
      cntP := set s.cntP b (s.cntP b + 1), evP := s.evP + 1,
      err := s.err || !s.live m || decide (x.size = 0) }

/-- `nb_wait_for_all` (5975-5993): send and receive side in turn until both queues are empty. -/
def waitLoop (i : Nat) : (fuel : Nat) → St → St
  | fuel, s =>
    if (s.q i false).head = none ∧ (s.q i true).head = none then
      { s with inUse := set s.inUse i false }
    else
      match fuel with
      | 0 => { s with err := true }
      | f + 1 =>
        let s := if (s.q i false).head = none then s else wait1 s i false
        let s := if (s.q i true).head = none then s else wait1 s i true
        waitLoop i f s

/-- every message is freed once, so `fresh` rounds are enough for a well-formed state -/
def waitFor (s : St) (i : Nat) : St := waitLoop i s.fresh s

/-- The local variables of `nb_test_for_all` for one side: `send_prev`, `save_send_head`. -/
structure Loc where
  prev : Option Nat
  save : Option Nat

/-- `nb_test_for_send1` / `nb_test_for_recv1` (5773-5822, 5893-5973): ask MPI about the message at
the head; if it is complete process and free it, else step over it. Returns the state, `prev`, the
new value of `tmp_send_head`, and the flag. -/
def test1 (fl : Nat → Bool) (s : St) (i : Nat) (b : Bool) (prev : Option Nat) :
    St × Option Nat × Option Nat × Bool :=
  let x := s.q i b
  match x.head with
  | none => ({ s with err := true }, prev, none, false)
  | some m =>
    let h := s.next m
    if fl m then
      let nx := match prev with
        | some p => set s.next p h
        | none => s.next
      let e := match prev with
        | some p => !s.live p
        | none => false
      ({ setQ s i b ⟨h, (match h with | none => none | some _ => x.tail), x.size - 1⟩ with
          next := nx, live := set s.live m false, log := s.log ++ [m],
          cntP := set s.cntP b (s.cntP b + 1), evP := s.evP + 1,
          err := s.err || !s.live m || e || decide (x.size = 0) },
        prev, none, true)
    else
      ({ setQ s i b ⟨h, x.tail, x.size⟩ with err := s.err || !s.live m }, some m, some m, false)

/-- One side of the body of the loop of `nb_test_for_all` (6014-6029):
`if (NULL != head) { if (!test1) ret = 1; if (NULL==save && ret==1) save = tmp; }`. -/
def testSide (fl : Nat → Bool) (i : Nat) (b : Bool) (s : St) (ret : Bool) (l : Loc) :
    St × Bool × Loc :=
  if (s.q i b).head = none then (s, ret, l)
  else
    let r := test1 fl s i b l.prev
    let ret := ret || !r.2.2.2
    (r.1, ret, ⟨r.2.1, if l.save = none ∧ ret = true then r.2.2.1 else l.save⟩)

/-- `nb_test_for_all` (5997-6035); the result is 0 (`false`) if nothing is outstanding. -/
def testLoop (fl : Nat → Bool) (i : Nat) : (fuel : Nat) → St → Bool → Loc → Loc → St × Bool
  | fuel, s, ret, ls, lr =>
    if (s.q i false).head = none ∧ (s.q i true).head = none then
      let s := setQ s i false { s.q i false with head := ls.save }
      let s := setQ s i true { s.q i true with head := lr.save }
      ({ s with inUse := if ret then s.inUse else set s.inUse i false }, ret)
    else
      match fuel with
      | 0 => ({ s with err := true }, ret)
      | f + 1 =>
        let r := testSide fl i false s ret ls
        let t := testSide fl i true r.1 r.2.1 lr
        testLoop fl i f t.1 t.2.1 r.2.2 t.2.2

/-- `nb_test_for_all` -/
def testFor (fl : Nat → Bool) (s : St) (i : Nat) : St × Bool :=
  testLoop fl i s.fresh s false ⟨none, none⟩ ⟨none, none⟩

/-- The search loop of `nb_wait_for_handle` (5699-5713); `k` tries are left. -/
def findFree (N : Nat) (inUse : Nat → Bool) : (k loop : Nat) → Option Nat
  | 0, _ => none
  | k + 1, l => if inUse l then findFree N inUse k ((l + 1) % N) else some l

/-- `nb_wait_for_handle` (5669-5726) -/
def getSlot (N : Nat) (s : St) : St × Nat :=
  let r := match findFree N s.inUse N s.idx with
    | some l => ({ s with idx := l }, l)
    | none => (waitFor s s.idx, s.idx)
  ({ r.1 with idx := (r.1.idx + 1) % N, inUse := set r.1.inUse r.2 true }, r.2)

/-- `nb_get_handle_index` (5653-5666) -/
def handleIndex (N : Nat) (s : St) : Nat := if s.idx = 0 then N - 1 else s.idx - 1

/-- calls of the layer above -/
inductive Call where
  /-- `comex_nbput`, `comex_nbget`, ...: get a slot, then issue messages (`false` send, `true`
  receive). A blocking operation is an `issue` followed by a `wait` for its slot. -/
  | issue (ks : List Bool)
  /-- `comex_wait` -/
  | wait (h : Nat)
  /-- `comex_test`, with the answers MPI gives -/
  | test (h : Nat) (fl : Nat → Bool)
  /-- `comex_wait_all` -/
  | waitAll

/-- `nb_wait_all` (6038-6056) with its assertions -/
def waitAllLoop : (n i : Nat) → St → St
  | 0, _, s =>
    { s with err := s.err || !decide (s.ev = s.evP ∧ s.cnt false = s.cntP false ∧ s.cnt true = s.cntP true) }
  | n + 1, i, s =>
    let s := waitFor s i
    let ok := ∀ b : Bool, s.q i b = ⟨none, none, 0⟩
    waitAllLoop n (i + 1) { s with err := s.err || !decide ok }

/-- Execute one call. The result is the slot handed out (as `*hdl`), or the answer of the test
(1 for outstanding), or 0. -/
def exec (N : Nat) (s : St) : Call → St × Nat
  | .issue ks =>
    let r := getSlot N s
    let h := handleIndex N r.1
    let s := ks.foldl (fun s b => push s r.2 b) r.1
    ({ s with err := s.err || !decide (h = r.2) }, h)
  | .wait h =>
    if h < N then
      let s := waitFor s h
      ({ s with inUse := set s.inUse h false }, 0)
    else ({ s with err := true }, 0)
  | .test h fl =>
    if h < N then
      let r := testFor fl s h
      let ok := r.2 = true ∨ ((r.1.q h false).size = 0 ∧ (r.1.q h true).size = 0)
      ({ r.1 with
          err := r.1.err || !decide ok, inUse := if r.2 then r.1.inUse else set r.1.inUse h false },
        if r.2 then 1 else 0)
    else ({ s with err := true }, 0)
  | .waitAll =>
    let s := { s with err := s.err || decide (s.ev < s.evP) }
    (waitAllLoop N 0 s, 0)

/-- Execute a history. -/
def run (N : Nat) (s : St) : List Call → St
  | [] => s
  | c :: cs => run N (exec N s c).1 cs

end GA.Req
