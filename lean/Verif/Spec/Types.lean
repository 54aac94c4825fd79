
/-!
# Specification: registration of user types

A type identifier stands for nothing or for a type with an element size. Identifiers
`base .. base + reserved - 1` are the predefined types, `base + reserved .. base + max - 1` can be
given to user types.
-/

namespace GA.Types

inductive Op where
  /-- `NGA_Register_type(bytes)` -/
  | register (bytes : Nat)
  /-- `NGA_Deregister_type(type)` -/
  | deregister (type : Int)
  /-- is the type accepted by calls that create arrays, and what is its element size -/
  | query (type : Int)
deriving DecidableEq, Repr

inductive Res where
  | num (n : Int)
  /-- not a type -/
  | invalid
  | size (bytes : Int)
deriving DecidableEq, Repr

/-- identifier to element size -/
abbrev Tbl := Int → Option Int

def upd (t : Tbl) (i : Int) (v : Option Int) : Tbl := fun j => if j = i then v else t j

/-- identifiers for user types -/
def User (base reserved max : Int) (i : Int) : Prop := base + reserved ≤ i ∧ i < base + max

instance (b r m i : Int) : Decidable (User b r m i) := inferInstanceAs (Decidable (_ ∧ _))

inductive TStep (base reserved max : Int) : Tbl → Op → Res → Tbl → Prop
  /-- an identifier that was not in use -/
  | register {t b} (i) : User base reserved max i → t i = none →
      TStep base reserved max t (.register b) (.num i) (upd t i (some b))
  /-- only when all are in use -/
  | registerFull {t b} : (∀ i, User base reserved max i → t i ≠ none) →
      TStep base reserved max t (.register b) (.num (-1)) t
  | deregister {t i} : User base reserved max i → t i ≠ none →
      TStep base reserved max t (.deregister i) (.num 0) (upd t i none)
  /-- predefined types stay -/
  | deregisterReserved {t i} : i < base + reserved → TStep base reserved max t (.deregister i) (.num (-1)) t
  | deregisterFree {t i} : User base reserved max i → t i = none →
      TStep base reserved max t (.deregister i) (.num (-2)) t
  | query {t i n} : t i = some n → TStep base reserved max t (.query i) (.size n) t
  | queryBad {t i} : t i = none → TStep base reserved max t (.query i) .invalid t

/-- Histories; nothing is promised once a number beyond the identifiers is deregistered. -/
inductive TRun (base reserved max : Int) : Tbl → List Op → List Res → Prop
  | nil {t} : TRun base reserved max t [] []
  | cons {t t' o r os rs} : TStep base reserved max t o r t' → TRun base reserved max t' os rs →
      TRun base reserved max t (o :: os) (r :: rs)
  | outside {t i os rs} : base + max ≤ i → TRun base reserved max t (.deregister i :: os) rs

end GA.Types
