import Verif.Spec.Sprs

/-!
# Specification: products of sparse arrays
-/

namespace GA.Spec.Sprs

/-- element `i`, `j` of the matrix: entries in the same position are added -/
def elem {V : Type} [AddCommMonoid V] (M : List (Entry V)) (i j : Int) : V := ((M.filter fun e => e.row = i ∧ e.col = j).map fun e => e.val).sum

/-- `C` is the product of `A` and `B`, where `A` has `kdim` columns: it has an entry, and only one, in those positions where some product contributes -/
structure IsProduct {V : Type} [Semiring V] (kdim : Int) (A B C : List (Entry V)) : Prop where
  once : (C.map fun e => (e.row, e.col)).Nodup
  present : ∀ i j, (∃ c ∈ C, c.row = i ∧ c.col = j) ↔ ∃ a ∈ A, ∃ b ∈ B, a.row = i ∧ a.col = b.row ∧ b.col = j
  value : ∀ i j, elem C i j = ((List.range kdim.toNat).map fun k : Nat => elem A i k * elem B k j).sum

end GA.Spec.Sprs
