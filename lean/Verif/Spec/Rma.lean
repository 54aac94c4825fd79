/-!
# Specification of one-sided calls, fences and barriers

`prog p` are the calls process `p` makes, one after the other.  The memory of a
process is a value of any type.
-/

namespace GA.Spec.Rma

/-- A call; `q` is the other process. -/
inductive Op (M R : Type) where
  /-- put or accumulate: changes the memory of `q` -/
  | upd (q : Nat) (f : M → M)
  /-- get: returns something of the memory of `q`, at the latest with the next `wait` -/
  | get (q : Nat) (r : M → R)
  /-- read-modify-write: returns something of the memory of `q` and changes it -/
  | rmw (q : Nat) (f : M → M) (r : M → R)
  /-- wait for the gets -/
  | wait
  | fence (q : Nat)
  | fenceAll
  | barrier

variable {M R : Type}

/-- The process whose memory a call is for. -/
def Op.target : Op M R → Option Nat
  | .upd q _ => some q
  | .get q _ => some q
  | .rmw q _ _ => some q
  | _ => none

def Op.isBarrier : Op M R → Bool
  | .barrier => true
  | _ => false

/-- The other process of a call. -/
def Op.other : Op M R → Option Nat
  | .fence q => some q
  | o => o.target

/-- The number of barriers among the first `m` calls. -/
def bars (prog : List (Op M R)) (m : Nat) : Nat := ((prog.take m).filter Op.isBarrier).length

/-- The calls for the memory of process `q`, by their numbers, in order. -/
def callsTo (prog : List (Op M R)) (q : Nat) : List Nat :=
  (List.range prog.length).filter fun k => (prog[k]?.bind Op.target) == some q

/-- What a call does to the memory it is for. -/
def effect (prog : Nat → List (Op M R)) (x : M) (c : Nat × Nat) : M :=
  match (prog c.1)[c.2]? with
  | some (.upd _ f) => f x
  | some (.rmw _ f _) => f x
  | _ => x

/-- The memory after calls (process, number of the call) were carried out one
after the other. -/
def memory (prog : Nat → List (Op M R)) (x : M) (l : List (Nat × Nat)) : M :=
  l.foldl (effect prog) x

/-- What a call returns if it finds the memory `x`. -/
def result (prog : Nat → List (Op M R)) (x : M) (c : Nat × Nat) : Option R :=
  match (prog c.1)[c.2]? with
  | some (.get _ r) => some (r x)
  | some (.rmw _ _ r) => some (r x)
  | _ => none

end GA.Spec.Rma
