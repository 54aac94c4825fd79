
/-!
# Specification: array handles and the memory limit

What one process of the program sees. A handle is a number; the library offers the `max` handles
`-1000, ..., -1000 + max - 1` (`GA_OFFSET` is 1000).
-/

namespace GA.Handles

/-- what a handle stands for -/
inductive HState where
  /-- nothing -/
  | free
  /-- returned by `create_handle`, or its memory was given back with `deallocate` -/
  | created
  /-- an array with `bytes` bytes on this process -/
  | live (bytes : Int)
deriving DecidableEq, Repr

inductive Op where
  /-- `GA_Create_handle` -/
  | create
  /-- `GA_Allocate` of an array that has `bytes` bytes on this process; `others`: the array fits on
  the other processes -/
  | allocate (h : Int) (bytes : Int) (others : Bool)
  /-- `GA_Duplicate` -/
  | duplicate (h : Int) (others : Bool)
  /-- `GA_Destroy` -/
  | destroy (h : Int)
  /-- `GA_Deallocate` -/
  | deallocate (h : Int)
  /-- any of the operations on an array -/
  | use (h : Int)
  /-- `GA_Memory_avail` -/
  | avail
  /-- `GA_Inquire_memory` -/
  | inquire
  /-- `GA_Set_memory_limit` -/
  | setLimit (m : Int)
deriving DecidableEq, Repr

inductive Res where
  | handle (h : Int)
  | bool (b : Bool)
  | num (n : Int)
  | done
  /-- the call terminates the program with an error message -/
  | abort
deriving DecidableEq, Repr

/-- the handles and what they stand for, and the memory limit -/
structure St where
  tbl : Int → HState
  limit : Option Int
  /-- the limit was replaced by another one -/
  replaced : Bool

def Valid (max : Nat) (h : Int) : Prop := -1000 ≤ h ∧ h < -1000 + max

instance (max : Nat) (h : Int) : Decidable (Valid max h) := inferInstanceAs (Decidable (_ ∧ _))

def upd (t : Int → HState) (h : Int) (s : HState) : Int → HState := fun h' => if h' = h then s else t h'

def HState.bytes : HState → Int
  | .live n => n
  | _ => 0

/-- bytes of all arrays -/
def liveBytes (max : Nat) (t : Int → HState) : Int :=
  ((List.range max).map (fun i : Nat => (t ((i : Int) - 1000)).bytes)).sum

/-- `n` more bytes are within the limit -/
def Fits (max : Nat) (s : St) (n : Int) : Prop :=
  ∀ m, s.limit = some m → n ≤ m - liveBytes max s.tbl

/-- Creating an array of `n` bytes succeeds: without a limit always, else when it is within the limit
everywhere. -/
def Succeeds (max : Nat) (s : St) (n : Int) (others : Bool) : Prop :=
  s.limit = none ∨ (Fits max s n ∧ others = true)

/-- What the calls that concern handles may do. Whether an allocation succeeds is left open. -/
inductive HStep (max : Nat) : (Int → HState) → Op → Res → (Int → HState) → Prop
  | create {t} (h) : Valid max h → t h = .free → HStep max t .create (.handle h) (upd t h .created)
  | createFull {t} : (∀ h, Valid max h → t h ≠ .free) → HStep max t .create .abort t
  | allocateOk {t h n o} : t h = .created → HStep max t (.allocate h n o) (.bool true) (upd t h (.live n))
  | allocateFail {t h n o} : t h = .created → HStep max t (.allocate h n o) (.bool false) (upd t h .free)
  | duplicateOk {t h o n} (h') : t h = .live n → Valid max h' → t h' = .free →
      HStep max t (.duplicate h o) (.handle h') (upd t h' (.live n))
  | duplicateFail {t h o n} : t h = .live n → HStep max t (.duplicate h o) (.bool false) t
  | duplicateFull {t h o n} : t h = .live n → (∀ h, Valid max h → t h ≠ .free) →
      HStep max t (.duplicate h o) .abort t
  | duplicateBad {t h o} : (∀ n, t h ≠ .live n) → HStep max t (.duplicate h o) .abort t
  | destroy {t h n} : t h = .live n → HStep max t (.destroy h) (.bool true) (upd t h .free)
  | destroyBad {t h} : (∀ n, t h ≠ .live n) → HStep max t (.destroy h) (.bool false) t
  | deallocate {t h n} : t h = .live n → HStep max t (.deallocate h) (.bool true) (upd t h .created)
  | deallocateBad {t h} : (∀ n, t h ≠ .live n) → HStep max t (.deallocate h) (.bool false) t
  | use {t h n} : t h = .live n → HStep max t (.use h) .done t
  | useBad {t h} : (∀ n, t h ≠ .live n) → HStep max t (.use h) .abort t
  | avail {t n} : HStep max t .avail (.num n) t
  | inquire {t n} : HStep max t .inquire (.num n) t
  | setLimit {t m} : HStep max t (.setLimit m) .done t

/-- What every call answers when a memory limit is kept. -/
inductive MStep (max : Nat) : St → Op → Res → St → Prop
  | create {s} (h) : Valid max h → s.tbl h = .free →
      MStep max s .create (.handle h) { s with tbl := upd s.tbl h .created }
  | createFull {s} : (∀ h, Valid max h → s.tbl h ≠ .free) → MStep max s .create .abort s
  | allocateOk {s h n o} : s.tbl h = .created → Succeeds max s n o →
      MStep max s (.allocate h n o) (.bool true) { s with tbl := upd s.tbl h (.live n) }
  | allocateFail {s h n o} : s.tbl h = .created → ¬ Succeeds max s n o →
      MStep max s (.allocate h n o) (.bool false) { s with tbl := upd s.tbl h .free }
  | duplicateOk {s h o n} (h') : s.tbl h = .live n → Succeeds max s n o → Valid max h' →
      s.tbl h' = .free →
      MStep max s (.duplicate h o) (.handle h') { s with tbl := upd s.tbl h' (.live n) }
  | duplicateFail {s h o n} : s.tbl h = .live n → ¬ Succeeds max s n o →
      MStep max s (.duplicate h o) (.bool false) s
  | duplicateFull {s h o n} : s.tbl h = .live n → (∀ h, Valid max h → s.tbl h ≠ .free) →
      MStep max s (.duplicate h o) .abort s
  | duplicateBad {s h o} : (∀ n, s.tbl h ≠ .live n) → MStep max s (.duplicate h o) .abort s
  | destroy {s h n} : s.tbl h = .live n →
      MStep max s (.destroy h) (.bool true) { s with tbl := upd s.tbl h .free }
  | destroyBad {s h} : (∀ n, s.tbl h ≠ .live n) → MStep max s (.destroy h) (.bool false) s
  | deallocate {s h n} : s.tbl h = .live n →
      MStep max s (.deallocate h) (.bool true) { s with tbl := upd s.tbl h .created }
  | deallocateBad {s h} : (∀ n, s.tbl h ≠ .live n) → MStep max s (.deallocate h) (.bool false) s
  | use {s h n} : s.tbl h = .live n → MStep max s (.use h) .done s
  | useBad {s h} : (∀ n, s.tbl h ≠ .live n) → MStep max s (.use h) .abort s
  /-- the memory available is the limit less the bytes of the arrays -/
  | avail {s m} : s.limit = some m → MStep max s .avail (.num (m - liveBytes max s.tbl)) s
  /-- a negative number stands for unlimited memory -/
  | availUnlimited {s n} : s.limit = none → n < 0 → MStep max s .avail (.num n) s
  | inquire {s} : MStep max s .inquire (.num (liveBytes max s.tbl)) s
  | setLimit {s m} : 0 ≤ m →
      MStep max s (.setLimit m) .done { s with limit := some m, replaced := s.limit.isSome }
  | setUnlimited {s m} : m < 0 →
      MStep max s (.setLimit m) .done { s with limit := none, replaced := false }

/-- Histories. `P` says which calls the caller may make; nothing is promised once another call was
made. An error message ends the program. -/
inductive Run {σ : Type} (step : σ → Op → Res → σ → Prop) (P : σ → Op → Prop) :
    σ → List Op → List Res → Prop
  | nil {s} : Run step P s [] []
  | cons {s s' o r os rs} : step s o r s' → r ≠ .abort → Run step P s' os rs →
      Run step P s (o :: os) (r :: rs)
  | abort {s s' o os} : step s o .abort s' → Run step P s (o :: os) [.abort]
  | outside {s o os rs} : ¬ P s o → Run step P s (o :: os) rs

/-- Calls the interface allows: memory is allocated only for a handle that waits for it; only
numbers that are handles are destroyed or deallocated. -/
def Allowed (max : Nat) (t : Int → HState) : Op → Prop
  | .allocate h n _ => t h = .created ∧ 0 ≤ n
  | .destroy h => Valid max h
  | .deallocate h => Valid max h
  | _ => True

/-- The memory limit is imposed when there is no array, and it is replaced at most once. -/
def LimitOnce (max : Nat) (s : St) : Op → Prop
  | .setLimit m => 0 ≤ m → (s.limit = none ∧ liveBytes max s.tbl = 0) ∨
      (s.limit.isSome ∧ s.replaced = false)
  | _ => True

end GA.Handles
