
/-!
# Specification: mutexes

`n` processes use mutexes named by a pair (process the mutex lives on, number). What happens at a
mutex server, in the order of arrival, is a list of events.
-/

namespace GA.Mutex

abbrev Key := Nat × Nat

/-- a request that arrives at the server -/
inductive Req where
  | lock (p : Nat) (k : Key)
  | unlock (p : Nat) (k : Key)
deriving DecidableEq, Repr

/-- who asked for the mutex `k`, in order of arrival -/
def askers (k : Key) : List Req → List Nat
  | [] => []
  | .lock p k' :: rs => if k' = k then p :: askers k rs else askers k rs
  | .unlock _ _ :: rs => askers k rs

/-- how often the mutex `k` was released -/
def releases (k : Key) : List Req → Nat
  | [] => 0
  | .lock _ _ :: rs => releases k rs
  | .unlock _ k' :: rs => (if k' = k then 1 else 0) + releases k rs

/-- who must have been given the mutex `k`: the first `r + 1` that asked, `r` being the number of
releases -/
def mustHold (k : Key) (rs : List Req) : List Nat := (askers k rs).take (releases k rs + 1)

/-- the processes that were given mutex `k`, in that order, in a list of grants -/
def given (k : Key) : List (Nat × Key) → List Nat
  | [] => []
  | (p, k') :: gs => if k' = k then p :: given k gs else given k gs

/-- Whoever releases a mutex holds it: it is the last one that was given the mutex, and it was given
more often than it was released before. -/
def Proper (rs : List Req) : Prop :=
  ∀ pre p k post, rs = pre ++ .unlock p k :: post →
    releases k pre < (askers k pre).length ∧ (askers k pre)[releases k pre]? = some p

end GA.Mutex
