/-!
# Specification of locks over histories

A mutex is named by the process it lives on and its number there.  A history
lists what happened, the newest event first: a process asked for a mutex, its
call of lock returned, or it called unlock.
-/

namespace GA.Spec.LockHist

/-- A mutex: the process it lives on, its number there. -/
abbrev Key := Nat × Nat

/-- What a process does with mutexes. -/
inductive Op where
  | lock (k : Key)
  | unlock (k : Key)
deriving DecidableEq, Repr

inductive Ev where
  /-- process `p` asked for the mutex -/
  | asked (p : Nat) (k : Key)
  /-- the call of lock of process `p` returned -/
  | got (p : Nat) (k : Key)
  /-- process `p` called unlock -/
  | freed (p : Nat) (k : Key)
deriving DecidableEq, Repr

/-- Who has the mutex after a history. -/
def holder (k : Key) : List Ev → Option Nat
  | [] => none
  | .asked _ _ :: h => holder k h
  | .got p k' :: h => if k' = k then some p else holder k h
  | .freed _ k' :: h => if k' = k then none else holder k h

/-- Mutual exclusion: whoever got a mutex got it while nobody had it. -/
def Exclusive : List Ev → Prop
  | [] => True
  | .asked _ _ :: h => Exclusive h
  | .got _ k :: h => holder k h = none ∧ Exclusive h
  | .freed p k :: h => holder k h = some p ∧ Exclusive h

/-- Process `p` has asked for the mutex and has not got it yet. -/
def waits (p : Nat) (k : Key) : List Ev → Bool
  | [] => false
  | .asked q k' :: h => if q = p ∧ k' = k then true else waits p k h
  | .got q k' :: h => if q = p ∧ k' = k then false else waits p k h
  | .freed _ _ :: h => waits p k h

/-- How often other processes got the mutex since `p` asked for it. -/
def passed (p : Nat) (k : Key) : List Ev → Nat
  | [] => 0
  | .asked q k' :: h => if q = p ∧ k' = k then 0 else passed p k h
  | .got q k' :: h => if q ≠ p ∧ k' = k then passed p k h + 1 else passed p k h
  | .freed _ _ :: h => passed p k h

/-- How often process `p` got the mutex. -/
def times (p : Nat) (k : Key) : List Ev → Nat
  | [] => 0
  | .got q k' :: h => if q = p ∧ k' = k then times p k h + 1 else times p k h
  | .asked _ _ :: h => times p k h
  | .freed _ _ :: h => times p k h

/-- How often a program locks the mutex. -/
def locks (k : Key) : List Op → Nat
  | [] => 0
  | .lock k' :: l => if k' = k then locks k l + 1 else locks k l
  | .unlock _ :: l => locks k l

/-- A correct program of a process that has the mutexes `own`: it asks only for
mutexes that exist and that it has not, releases only what it has, and releases
everything before it ends. -/
def Proper (exists_ : Key → Prop) : List Key → List Op → Prop
  | own, [] => own = []
  | own, .lock k :: l => exists_ k ∧ k ∉ own ∧ Proper exists_ (k :: own) l
  | own, .unlock k :: l => k ∈ own ∧ Proper exists_ (own.filter (· ≠ k)) l

/-- The order of mutexes: by process, then by number. -/
def Before (a b : Key) : Prop := a.1 < b.1 ∨ a.1 = b.1 ∧ a.2 < b.2

/-- A process that has several mutexes at a time asks for them in order. -/
def Ordered : List Key → List Op → Prop
  | _, [] => True
  | own, .lock k :: l => (∀ a ∈ own, Before a k) ∧ Ordered (k :: own) l
  | own, .unlock k :: l => Ordered (own.filter (· ≠ k)) l

end GA.Spec.LockHist
