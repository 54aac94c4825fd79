/-!
# Specification of programs that use mutexes

A mutex is named by the process it is at and its number there.
-/

namespace GA.Spec.LockUse

abbrev Mutex := Nat × Nat

inductive Call where
  /-- create `K` mutexes at this process -/
  | create (K : Nat)
  | lock (x : Mutex)
  | unlock (x : Mutex)
  /-- an update (put, accumulate) of the memory of process `q` -/
  | upd (q : Nat)
  /-- a barrier of all processes -/
  | sync
  /-- destroy the mutexes -/
  | destroy
deriving DecidableEq

/-- After the calls `l` the process holds the mutex `x`: its last lock or unlock of `x` was a lock. -/
def holding (l : List Call) (x : Mutex) : Bool :=
  l.foldl (fun b c => if c = .lock x then true else if c = .unlock x then false else b) false

/-- The calls a process may make while it holds the mutexes `held`: it locks mutexes that exist and that
it does not hold, and unlocks those it holds. -/
def Legal (n K : Nat) (held : Mutex → Bool) : Call → Prop
  | .lock x => x.1 < n ∧ x.2 < K ∧ held x = false
  | .unlock x => held x = true
  | .upd q => q < n
  | _ => False

/-- Legal calls, after which no mutex is held. -/
def Proper (n K : Nat) (body : List Call) : Prop :=
  (∀ i c, body[i]? = some c → Legal n K (holding (body.take i)) c) ∧ ∀ x, holding body x = false

/-- Mutexes are taken in increasing order. -/
def Ordered (ord : Mutex → Nat) (body : List Call) : Prop :=
  ∀ i x, body[i]? = some (.lock x) → ∀ y, holding (body.take i) y = true → ord y < ord x

/-- All processes create their mutexes, wait for each other, use them, and destroy them. -/
def program (K : Nat) (body : List Call) : List Call := .create K :: .sync :: (body ++ [.destroy])

end GA.Spec.LockUse
