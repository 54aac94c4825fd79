import Verif.Model.Sparse
import Mathlib.Algebra.BigOperators.Group.Finset.Basic
import Mathlib.Data.Int.Interval

/-!
# Specification vocabulary for the one-dimensional operations (C36, C37, part of C35)
-/

namespace GA.Sparse

/-- The distribution is a proper one: every process either has no block or a non-empty interval
of the array, and every element lies in the block of exactly one process. -/
structure Tiles (D : Dist) : Prop where
  shape : ∀ p, p < D.nproc → D.blk p = (0, -1) ∨
    (1 ≤ (D.blk p).1 ∧ (D.blk p).1 ≤ (D.blk p).2 ∧ (D.blk p).2 ≤ D.dim)
  cover : ∀ g, 1 ≤ g → g ≤ D.dim → ∃ p, p < D.nproc ∧ (D.blk p).1 ≤ g ∧ g ≤ (D.blk p).2
  uniq : ∀ p q g, p < D.nproc → q < D.nproc → (D.blk p).1 ≤ g → g ≤ (D.blk p).2 →
    (D.blk q).1 ≤ g → g ≤ (D.blk q).2 → p = q

/-- Every process takes part exactly once, in some order. -/
def Schedule (D : Dist) (order : List Nat) : Prop := order.Perm (List.range D.nproc)

/-- `k` is the last mask position in `lo..g`. -/
def LastBit (msk : Int → Bool) (lo g k : Int) : Prop :=
  lo ≤ k ∧ k ≤ g ∧ msk k = true ∧ ∀ j, k < j → j ≤ g → msk j = false

/-- There is no mask position in `lo..g`. -/
def NoBit (msk : Int → Bool) (lo g : Int) : Prop := ∀ j, lo ≤ j → j ≤ g → msk j = false

/-- Number of mask positions in `lo..g`. -/
def bits (msk : Int → Bool) (lo g : Int) : Int := ((Finset.Icc lo g).filter fun j => msk j = true).card

end GA.Sparse
