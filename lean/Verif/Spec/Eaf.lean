import Verif.Spec.Elio

/-!
# Specification: what a program knows about exclusive access files

A file in memory is found by its name from its first open until it is deleted, and it keeps its size and its bytes. A file on disk is found by its name until
it is deleted. A program knows the bytes it wrote last.
-/

namespace GA.Spec.Eaf

/-- what a descriptor stands for -/
inductive Desc
  | mem (name : Nat)
  | disk (file : Nat) (canRead canWrite : Bool)
deriving DecidableEq

/-- calls as the program sees them: opening a file in memory of a size in bytes, opening a file on disk (created if it is missing, emptied if it exists), and so on;
`async` marks the asynchronous calls -/
inductive Call (V : Type)
  | openMem (name size : Nat)
  | openDisk (name : Nat) (create trunc canRead canWrite : Bool)
  | badOpen
  | close (fd : Nat)
  | write (fd off : Nat) (d : List V) (async : Bool)
  | read (fd off n : Nat) (async : Bool)
  | delete (name : Nat)
  | length (fd : Nat)

/-- results as the program sees them -/
inductive Res (V : Type)
  | done
  | failed
  | fd (k : Nat)
  | data (l : List V)
  | len (n : Nat)

/-- what the program knows: sizes and bytes of files in memory by name; the files on disk by name; their bytes; descriptors; which descriptors are open; and
how many descriptors a deletion looks at -/
structure View (V : Type) where
  mem : Nat → Option (Nat × (Nat → Option V))
  dir : Nat → Option Nat
  disk : Nat → Nat → Option V
  next : Nat
  desc : Nat → Option Desc
  isOpen : Nat → Bool
  reach : Nat

variable {V : Type}

/-- nothing exists -/
def start : View V := ⟨fun _ => none, fun _ => none, fun _ => Bytes.fresh, 0, fun _ => none, fun _ => false, 0⟩

/-- change a value -/
def set {β : Type} (f : Nat → β) (k : Nat) (x : β) : Nat → β := fun j => if j = k then x else f j

/-- what the program knows after a call -/
def after (v : View V) : Call V → Res V → View V
  | .openMem name size, .fd k =>
    match v.mem name with
    | some _ => { v with desc := set v.desc k (some (.mem name)), isOpen := set v.isOpen k true }
    | none => { v with mem := set v.mem name (some (size, Bytes.fresh)), desc := set v.desc k (some (.mem name)), isOpen := set v.isOpen k true, reach := if v.reach < k + 1 then v.reach + 1 else v.reach }
  | .openDisk name _ trunc r w, .fd k =>
    match v.dir name with
    | some o => { v with disk := if trunc then set v.disk o Bytes.fresh else v.disk, desc := set v.desc k (some (.disk o r w)), isOpen := set v.isOpen k true }
    | none => { v with dir := set v.dir name (some v.next), disk := set v.disk v.next Bytes.fresh, next := v.next + 1, desc := set v.desc k (some (.disk v.next r w)), isOpen := set v.isOpen k true }
  | .close k, .done =>
    match v.desc k with
    | some (.disk _ _ _) => { v with desc := set v.desc k none, isOpen := set v.isOpen k false }
    | _ => { v with isOpen := set v.isOpen k false }
  | .write k off d _, .done =>
    match v.desc k with
    | some (.mem n) => { v with mem := set v.mem n ((v.mem n).map fun f => (f.1, Bytes.wrote f.2 off d)) }
    | some (.disk o _ _) => { v with disk := set v.disk o (Bytes.wrote (v.disk o) off d) }
    | none => v
  | .delete name, .done =>
    match v.mem name with
    | some _ => { v with mem := set v.mem name none, desc := fun k => if v.desc k = some (.mem name) then none else v.desc k, isOpen := fun k => if v.desc k = some (.mem name) then false else v.isOpen k }
    | none => { v with dir := set v.dir name none }
  | _, _ => v

/-- the bytes a descriptor gives access to, as far as they are known -/
def bytes (v : View V) (k : Nat) : Nat → Option V :=
  match v.desc k with
  | some (.mem n) => ((v.mem n).map Prod.snd).getD Bytes.fresh
  | some (.disk o _ _) => v.disk o
  | none => Bytes.fresh

/-- what the program may rely on -/
def promised (v : View V) : Call V → Res V → Prop
  | .openMem name _, r => ∀ k, r = .fd k → (v.desc k = none ∧ v.mem name = none) ∨ v.desc k = some (.mem name)
  | .openDisk name create _ _ _, r => (∀ k, r = .fd k → v.desc k = none ∧ (v.dir name = none → create = true))
  | .badOpen, r => r = .failed
  | .close _, r => r = .done
  | .write k off d _, r =>
    match v.desc k with
    | some (.mem n) => ∀ f, v.mem n = some f → (r = .done ↔ off + d.length ≤ f.1) ∧ (r ≠ .done → r = .failed)
    | some (.disk _ _ w) => (w = true → r = .done) ∧ (w = false → d ≠ [] → r = .failed)
    | none => True
  | .read k off n _, r =>
    (∀ l, r = .data l → l.length = n ∧ ∀ i < n, ∀ x, bytes v k (off + i) = some x → l[i]? = some x) ∧
    match v.desc k with
    | some (.mem m) => ∀ f, v.mem m = some f → off + n ≤ f.1 → ∃ l, r = .data l
    | some (.disk _ c _) => c = true → (∀ i < n, ∃ x, bytes v k (off + i) = some x) → ∃ l, r = .data l
    | none => True
  | .delete _, r => r = .done
  | .length k, r =>
    match v.desc k with
    | some (.mem n) => ∀ f, v.mem n = some f → r = .len f.1
    | some (.disk o _ _) => ∃ n, r = .len n ∧ ∀ z x, v.disk o z = some x → z < n
    | none => True

/-- proper use: only open descriptors are used; a file in memory is read within its size -/
def proper (v : View V) : Call V → Prop
  | .close k => v.isOpen k = true
  | .write k _ _ _ => v.isOpen k = true
  | .read k off n _ => v.isOpen k = true ∧ ∀ m f, v.desc k = some (.mem m) → v.mem m = some f → off + n ≤ f.1
  | .length k => v.isOpen k = true
  | _ => True

/-- asynchronous calls are for files on disk only -/
def asyncDisk (v : View V) : Call V → Prop
  | .write k _ _ a => a = true → ∀ n, v.desc k ≠ some (.mem n)
  | .read k _ _ a => a = true → ∀ n, v.desc k ≠ some (.mem n)
  | _ => True

/-- a file in memory that is opened again has no unused descriptor below its own -/
def noHole (v : View V) : Call V → Prop
  | .openMem name _ => ∀ k, v.desc k = some (.mem name) → ∀ j < k, v.desc j ≠ none
  | _ => True

/-- a file in memory that is deleted is one of those a deletion looks at -/
def within (v : View V) : Call V → Prop
  | .delete name => ∀ k, v.desc k = some (.mem name) → k < v.reach
  | _ => True

/-- all of these conditions -/
def good (v : View V) (c : Call V) : Prop := proper v c ∧ asyncDisk v c ∧ noHole v c ∧ within v c

/-- no descriptor is given back: files on disk are not closed, files in memory are not deleted -/
def keeps (v : View V) : Call V → Prop
  | .close k => ∀ o r w, v.desc k ≠ some (.disk o r w)
  | .delete name => v.mem name = none
  | _ => True

/-- files on disk are not opened -/
def memOnly (_ : View V) : Call V → Prop
  | .openDisk _ _ _ _ _ => False
  | _ => True

/-- what the program knows at the end of calls and results -/
def view : View V → List (Call V × Res V) → View V
  | v, [] => v
  | v, (c, r) :: t => view (after v c r) t

/-- a program all of whose calls satisfy a condition -/
def Always (ok : View V → Call V → Prop) : View V → List (Call V × Res V) → Prop
  | _, [] => True
  | v, (c, r) :: t => ok v c ∧ Always ok (after v c r) t

/-- a program all of whose results are the promised ones -/
def AllPromised : View V → List (Call V × Res V) → Prop
  | _, [] => True
  | v, (c, r) :: t => promised v c r ∧ AllPromised (after v c r) t

end GA.Spec.Eaf
