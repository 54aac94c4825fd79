/-!
# Specification: requests without a handle

Requests are numbered in the order of the calls. `near` tells which processes share memory with the caller: requests to them are complete when the call returns.
-/

namespace GA.Spec.Implicit

/-- a request: number, process, whether it was issued without a handle -/
structure Req where
  id : Nat
  proc : Nat
  implicit : Bool
deriving DecidableEq

/-- calls and events: a request without a handle, a request with a handle of the caller, completion of request `id` by the network, wait for all requests without a
handle, wait for those to one process -/
inductive Op where
  | issue (proc : Nat)
  | explicit (proc : Nat)
  | arrive (id : Nat)
  | waitAll
  | waitProc (proc : Nat)

/-- number of requests and the requests the caller may not take for complete -/
def openStep (near : Nat → Bool) (x : Nat × List Req) : Op → Nat × List Req
  | .issue p => (x.1 + 1, if near p then x.2 else x.2 ++ [⟨x.1, p, true⟩])
  | .explicit p => (x.1 + 1, if near p then x.2 else x.2 ++ [⟨x.1, p, false⟩])
  | .arrive id => (x.1, x.2.filter fun r => r.id ≠ id)
  | .waitAll => (x.1, x.2.filter fun r => !r.implicit)
  | .waitProc p => (x.1, x.2.filter fun r => !(r.implicit && r.proc == p))

/-- the requests that may be incomplete after a history -/
def openReqs (near : Nat → Bool) (ops : List Op) : List Req := (ops.foldl (openStep near) (0, [])).2

/-- the numbers of all requests without a handle, newest first; the first argument is the number of the next request -/
def implicitIds : Nat → List Op → List Nat → List Nat
  | _, [], acc => acc
  | n, .issue _ :: ops, acc => implicitIds (n + 1) ops (n :: acc)
  | n, .explicit _ :: ops, acc => implicitIds (n + 1) ops acc
  | n, _ :: ops, acc => implicitIds n ops acc

/-- requests without a handle since the last wait for all -/
def sinceWait (ops : List Op) : Nat := ops.foldl (fun n o => match o with
  | .issue _ => n + 1
  | .waitAll => 0
  | _ => n) 0

end GA.Spec.Implicit
