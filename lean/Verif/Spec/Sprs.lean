import Mathlib.Algebra.BigOperators.Group.List.Basic
import Mathlib.Algebra.Ring.Defs

/-!
# Specification: sparse arrays

A sparse matrix is a list of entries (row, column, value), with indices from zero; the order does not matter. What a process sees of it is, for every
row and block of columns, the entries of that row in that block.
-/

namespace GA.Spec.Sprs

/-- an entry -/
structure Entry (V : Type) where
  row : Int
  col : Int
  val : V
deriving DecidableEq

/-- the indices are inside the matrix -/
def Entry.In {V : Type} (idim jdim : Int) (e : Entry V) : Prop := 0 ≤ e.row ∧ e.row < idim ∧ 0 ≤ e.col ∧ e.col < jdim

/-- the entries of row `r` in the columns `clo..chi`: column and value -/
def rowPart {V : Type} (M : List (Entry V)) (r clo chi : Int) : List (Int × V) :=
  (M.filter fun e => e.row = r ∧ clo ≤ e.col ∧ e.col ≤ chi).map fun e => (e.col, e.val)

/-- row `r` (from zero) in compressed row format -/
def csrRow {V : Type} (idx : Nat → Nat) (jdx : Nat → Int) (val : Nat → V) (r : Nat) : List (Int × V) :=
  (List.range (idx (r + 1) - idx r)).map fun k => (jdx (idx r + k), val (idx r + k))

/-- `s` is an order in which `n` processes, process `p` doing `prog p` one after the other, may do their actions -/
def Interleaving {α : Type} (n : Nat) (prog : Nat → List α) (s : List (Nat × α)) : Prop :=
  (∀ e ∈ s, e.1 < n) ∧ ∀ p, p < n → (s.filter fun e => e.1 = p).map (·.2) = prog p

/-- element `r` of the product of the matrix and the vector `a` -/
def mulVec {V : Type} [Semiring V] (M : List (Entry V)) (a : Int → V) (r : Int) : V :=
  ((M.filter fun e => e.row = r).map fun e => e.val * a e.col).sum

end GA.Spec.Sprs
