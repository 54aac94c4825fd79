import Verif.Model.Requests

/-!
# Specification: pending messages of a request slot

`pending s i b` reads the queue of side `b` of slot `i` by following the links from its head.
`newMsgs n ks b` are the numbers of the messages for side `b` when messages `n, n+1, ...` are issued
for the sides `ks`.
-/

namespace GA.Req

/-- follow the links -/
def walk (nx : Nat → Option Nat) : (fuel : Nat) → Option Nat → List Nat
  | _, none => []
  | 0, some _ => []
  | f + 1, some m => m :: walk nx f (nx m)

/-- the messages waiting on side `b` of slot `i`, in order -/
def pending (s : St) (i : Nat) (b : Bool) : List Nat := walk s.next s.fresh (s.q i b).head

/-- the new messages of one side -/
def newMsgs (n : Nat) : List Bool → Bool → List Nat
  | [], _ => []
  | k :: ks, b => (if k = b then [n] else []) ++ newMsgs (n + 1) ks b

/-- the call uses an existing slot -/
def CallOK (N : Nat) : Call → Prop
  | .wait h => h < N
  | .test h _ => h < N
  | _ => True

end GA.Req
