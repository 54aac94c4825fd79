import Mathlib.Algebra.Ring.Defs
import Mathlib.Algebra.BigOperators.Group.Finset.Basic

/-! # Specification: linear equations -/

namespace GA.Spec.Lu

open Finset

/-- `x` solves the equations with matrix `a`, given by columns, and right hand side `b`, or those with the transposed matrix -/
def Solves {V : Type} [CommSemiring V] (trans : Bool) (n : Nat) (a : Nat → Nat → V) (b x : Nat → V) : Prop :=
  ∀ i, i < n → ∑ j ∈ range n, (if trans then a i j else a j i) * x j = b i

/-- the matrix is singular: some vector that is not zero is mapped to zero -/
def Singular {V : Type} [CommSemiring V] (n : Nat) (a : Nat → Nat → V) : Prop :=
  ∃ x : Nat → V, (∃ i, i < n ∧ x i ≠ 0) ∧ ∀ i, i < n → ∑ j ∈ range n, a j i * x j = 0

end GA.Spec.Lu
