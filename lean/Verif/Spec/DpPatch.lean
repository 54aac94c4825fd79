import Mathlib.Algebra.BigOperators.Group.Finset.Basic
import Mathlib.Algebra.Order.Interval.Finset.Basic
import Mathlib.Data.Int.Interval

/-! # Specification: copies and dot products of patches of matrices -/

namespace GA.Spec.Dp

variable {V : Type}

/-- `B'` is `B` with the `m` by `n` patch at `(bi, bj)` replaced with the patch of `A` at `(ai, aj)` -/
def Copied (A B B' : Int → Int → V) (ai aj bi bj m n : Int) : Prop :=
  ∀ i j, B' i j = if bi ≤ i ∧ i < bi + m ∧ bj ≤ j ∧ j < bj + n then A (ai + (i - bi)) (aj + (j - bj)) else B i j

/-- `B'` is `B` with the `n` by `m` patch at `(bi, bj)` replaced with the transpose of the `m` by `n` patch of `A` at `(ai, aj)` -/
def CopiedT (A B B' : Int → Int → V) (ai aj bi bj m n : Int) : Prop :=
  ∀ i j, B' i j = if bi ≤ i ∧ i < bi + n ∧ bj ≤ j ∧ j < bj + m then A (ai + (j - bj)) (aj + (i - bi)) else B i j

/-- the dot product of two `m` by `n` patches -/
def dot [Semiring V] (A B : Int → Int → V) (ai aj bi bj m n : Int) : V :=
  ∑ j ∈ Finset.Ico 0 n, ∑ i ∈ Finset.Ico 0 m, A (ai + i) (aj + j) * B (bi + i) (bj + j)

/-- the blocks of the processes `0..P-1` are disjoint and cover an `m` by `n` matrix -/
def Partition (P : Nat) (m n : Int) (owns : Nat → Int → Int → Prop) : Prop :=
  ∀ i j, 1 ≤ i → i ≤ m → 1 ≤ j → j ≤ n → ∃ p, p < P ∧ owns p i j ∧ ∀ q, q < P → owns q i j → q = p

end GA.Spec.Dp
