import Mathlib.Data.List.Basic

/-!
# Model: pending buffers of the data server

armci/src/devices/openib/pendbufs.c with its default ordering rule `GET_GET_REORDER`. The state is that of one client; other clients appear as the number of pending
buffers they use and as the moments at which the server tries to promote a waiting request (the outer loop of `_armci_serv_pendbuf_progress`, 684-721).
Simplifications: descriptors fit into the immediate buffer, so `RECV_DSCR_PENDING` does not occur; sizes and the limit on waiting requests are left out.
-/

namespace GA.Model.PendBuf

/-- the kinds of `msginfo->operation` that pendbufs.c tells apart (pendbufs.c 698-706) -/
inductive Op where
  | put | get | acc | other
deriving DecidableEq

/-- A request: `operation`, `tag.imm_msg`, `pinned` of its header (include/request.h); `id` tells requests apart. -/
structure Req where
  id : Nat
  op : Op
  imm : Bool
  pinned : Bool
deriving DecidableEq

/-- `PendBufStatus` (pendbufs.c 127-136) -/
inductive Stat where
  | init | recvPending | recvDone | sendPending | sendDone
deriving DecidableEq

/-- a pending buffer in use (pendbufs.h 27-39) -/
structure Pend where
  req : Req
  stat : Stat
  commit : Bool
deriving DecidableEq

/-- `order`: the list from `order_head` to `order_tail`; `wait`: that from `immbuf_wlist_head` (pendbufs.c 92-103); `done`: the requests that have been carried out
(`armci_complete_immbuf`, `armci_complete_pendbuf`), the oldest first -/
structure St where
  order : List Pend
  wait : List Req
  done : List Req
deriving DecidableEq

/-- `_armci_serv_pendbuf_can_progress` with `GET_GET_REORDER` (pendbufs.c 383-407). `first`: no other request of this client waits before this one. `full`: all pending
buffers are in use. -/
def canProgress (st : St) (full first : Bool) (r : Req) : Bool :=
  if !r.imm && full then false
  else if r.imm && r.op = .acc then true
  else if !first then false
  else if r.op ≠ .put ∧ r.op ≠ .acc then
    match st.order.getLast? with
    | some t => r.op = .get ∧ t.req.op = .get
    | none => true
  else if r.imm && !st.order.isEmpty then false
  else true

/-- `_armci_serv_pendbuf_progress_get` on the buffer at place `i` (pendbufs.c 536-597), `none` is `armci_die` -/
def progressGet (st : St) (i : Nat) : Option St :=
  match st.order.drop i with
  | [] => none
  | p :: post =>
    match p.stat with
    | .init =>
      if p.req.pinned then some { st with order := st.order.take i ++ post, done := st.done ++ [p.req] }
      else some { st with order := st.order.take i ++ { p with stat := .sendPending } :: post, done := st.done ++ [p.req] }
    | .sendDone => some { st with order := st.order.take i ++ post }
    | _ => none

/-- `_armci_serv_pendbuf_progress_putacc` on the buffer at place `i` (pendbufs.c 603-669) -/
def progressPutAcc (st : St) (i : Nat) : Option St :=
  match st.order.drop i with
  | [] => none
  | p :: post =>
    if p.req.op ≠ .put ∧ p.req.op ≠ .acc then none
    else
      match p.stat with
      | .init => some { st with order := st.order.take i ++ { p with stat := .recvPending } :: post }
      | .recvDone =>
        if p.req.op = .put ∧ i ≠ 0 then
          if p.commit then none else some { st with order := st.order.take i ++ { p with commit := true } :: post }
        else some { st with order := st.order.take i ++ post, done := st.done ++ [p.req] }
      | _ => none

/-- the branch on `msginfo->operation` (pendbufs.c 698-706); `op` is the operation of the request with which the loop was entered -/
def step (op : Op) (st : St) (i : Nat) : Option St :=
  match op with
  | .put | .acc => progressPutAcc st i
  | .get => progressGet st i
  | .other => none

/-- the turns of the inner loop after the first one (pendbufs.c 707-709): `msginfo` is not set anew. A turn that does not fail removes the first buffer; `fuel` is their number. -/
def commitLoop (op : Op) : Nat → St → Option St
  | 0, st => some st
  | fuel + 1, st =>
    match st.order with
    | [] => some st
    | p :: _ => if p.commit then (step op st 0).bind (commitLoop op fuel) else some st

/-- the inner loop of `_armci_serv_pendbuf_progress` (pendbufs.c 696-709) -/
def progress (op : Op) (st : St) (i : Nat) : Option St := (step op st i).bind fun st => commitLoop op st.order.length st

/-- `_armci_serv_pendbuf_assignbuf` (pendbufs.c 170-188) and the first progress -/
def assign (st : St) (r : Req) : Option St := progress r.op { st with order := st.order ++ [⟨r, .init, false⟩] } st.order.length

/-- what happens to a client at the server: a request arrives, a transfer of the buffer at place `i` has ended, the server looks for waiting requests. `full` as above. -/
inductive Event where
  | service (r : Req) (full : Bool)
  | ended (i : Nat)
  | promote (full : Bool)

/-- `armci_pendbuf_service_req` and `_armci_serv_pendbuf_enqueue` (pendbufs.c 477-530, 752-772) -/
def service (st : St) (r : Req) (full : Bool) : Option St :=
  if canProgress st full st.wait.isEmpty r then
    if r.imm then some { st with done := st.done ++ [r] } else assign st r
  else some { st with wait := st.wait ++ [r] }

/-- `armci_pendbuf_done_put`, `armci_pendbuf_done_get` (pendbufs.c 780-809) -/
def ended (st : St) (i : Nat) : Option St :=
  match st.order.drop i with
  | [] => none
  | p :: post =>
    match p.stat with
    | .recvPending => progress p.req.op { st with order := st.order.take i ++ { p with stat := .recvDone } :: post } i
    | .sendPending => progress p.req.op { st with order := st.order.take i ++ { p with stat := .sendDone } :: post } i
    | _ => none

/-- `_armci_serv_pendbuf_promote` for this client (pendbufs.c 418-467) and what is done with the request (pendbufs.c 690-720) -/
def promote (st : St) (full : Bool) : Option St :=
  match st.wait with
  | [] => some st
  | r :: w =>
    if canProgress st full true r then
      if r.imm then some { st with wait := w, done := st.done ++ [r] } else assign { st with wait := w } r
    else some st

/-- one event, by the functions above (armci/src/devices/openib/pendbufs.c 477-530, 752-809) -/
def next (st : St) : Event → Option St
  | .service r full => service st r full
  | .ended i => ended st i
  | .promote full => promote st full

/-- a history of events of one client; `none` when the server has stopped (`armci_die` or a failed assertion in pendbufs.c) -/
def run : List Event → St → Option St
  | [], st => some st
  | e :: es, st => (next st e).bind (run es)

/-- the state after `armci_pendbuf_init` (pendbufs.c 731-750) -/
def start : St := ⟨[], [], []⟩

end GA.Model.PendBuf
