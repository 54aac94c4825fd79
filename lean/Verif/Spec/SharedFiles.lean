/-!
# Specification: requests to shared files, one after the other

Bytes live in files and in the memories of the processes. What a program asks for, carried out
one request after the other:
-/

namespace GA.Spec.Sf

/-- a byte: byte `z` of file `f`, or address `a` of process `p` -/
inductive Cell
  | file (f z : Nat)
  | mem (p a : Nat)
deriving DecidableEq

/-- What programs do: write `n` bytes from address `b` of process `p` to offset `off` of file `f`, read them, store a
value into memory, wait for a request; and what the system does: one byte transfer, a failure. -/
inductive Act (V : Type)
  | write (p f off b n : Nat)
  | read (p f off b n : Nat)
  | store (p a : Nat) (v : V)
  | wait (p : Nat) (id : Int)
  | sys (p i j : Nat)
  | fail (p i : Nat)

variable {V : Type}

/-- the effect of an action that is carried out at once -/
def seqStep (c : Cell → V) : Act V → Cell → V
  | .write p f off b n => fun x => match x with
    | .file f' z => if f' = f ∧ off ≤ z ∧ z < off + n then c (.mem p (b + (z - off))) else c x
    | .mem _ _ => c x
  | .read p f off b n => fun x => match x with
    | .mem p' a => if p' = p ∧ b ≤ a ∧ a < b + n then c (.file f (off + (a - b))) else c x
    | .file _ _ => c x
  | .store p a v => fun x => if x = .mem p a then v else c x
  | .wait _ _ => c
  | .sys _ _ _ => c
  | .fail _ _ => c

/-- all actions, one after the other -/
def seqRun (c : Cell → V) (as : List (Act V)) : Cell → V := as.foldl seqStep c

/-- the bytes an action changes -/
def Writes : Act V → Cell → Prop
  | .write _ f off _ n, .file f' z => f' = f ∧ off ≤ z ∧ z < off + n
  | .read p _ _ b n, .mem p' a => p' = p ∧ b ≤ a ∧ a < b + n
  | .store p a _, x => x = .mem p a
  | _, _ => False

/-- the bytes an action uses -/
def Reads : Act V → Cell → Prop
  | .write p _ _ b n, .mem p' a => p' = p ∧ b ≤ a ∧ a < b + n
  | .read _ f off _ n, .file f' z => f' = f ∧ off ≤ z ∧ z < off + n
  | _, _ => False

/-- two actions do not get into each other's way -/
def Apart (a b : Act V) : Prop :=
  ∀ x, ¬ (Writes a x ∧ Writes b x) ∧ ¬ (Writes a x ∧ Reads b x) ∧ ¬ (Reads a x ∧ Writes b x)

end GA.Spec.Sf
