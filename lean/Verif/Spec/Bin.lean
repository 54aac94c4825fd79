import Verif.Model.Bin
import Mathlib.Data.List.Perm.Basic
import Mathlib.Algebra.BigOperators.Group.List.Basic

/-! # Specification vocabulary for binning (C38) -/

namespace GA.Bin

/-- The ranges `off r, ..., off r + x r - 1` of the processes `0..n-1` are disjoint and exactly
fill `0..total-1`. -/
structure Fills (n : Nat) (x off : Nat → Int) (total : Int) : Prop where
  inside : ∀ r, r < n → 0 ≤ off r ∧ off r + x r ≤ total
  disjoint : ∀ r s, r < n → s < n → r ≠ s → off r + x r ≤ off s ∨ off s + x s ≤ off r
  cover : ∀ k, 0 ≤ k → k < total → ∃ r, r < n ∧ off r ≤ k ∧ k < off r + x r

/-- Sum over all processes. -/
def total (n : Nat) (x : Nat → Int) : Int := ((List.range n).map x).sum

/-- The values which the input assigns to bin `b`, in order. -/
def valuesFor {V : Type} (inp : Input V) (b : Int) : List V :=
  ((inp.subs.zip inp.vals).filter fun p => p.1 == b).map Prod.snd

/-- A legal call: as many values as bin numbers, bin numbers sorted and in range; the offset array
gives every bin room for all elements which the processes contribute to it, bins do not overlap and
lie inside the bin array of length `nbin`. -/
structure CallOK {V : Type} (n nbin : Nat) (goff : Int → Int) (inp : Nat → Input V) : Prop where
  len : ∀ r, r < n → (inp r).subs.length = (inp r).vals.length
  sorted : ∀ r, r < n → (inp r).subs.Pairwise (· ≤ ·)
  range : ∀ r, r < n → ∀ s ∈ (inp r).subs, 1 ≤ s ∧ s ≤ (nbin : Int)
  low : ∀ b, 0 ≤ goff b
  room : ∀ b : Int, 1 ≤ b → b ≤ (nbin : Int) →
    goff b + total n (fun r => ((inp r).subs.count b : Nat)) ≤ (nbin : Int)
  apart : ∀ b c : Int, 1 ≤ b → b < c → c ≤ (nbin : Int) →
    goff b + total n (fun r => ((inp r).subs.count b : Nat)) ≤ goff c

/-- Condition under which the offsets are right: the number of processes is odd, or there are at
most `NWORK` bins and the work array of the one process with a single child is still zero, as it is
when the program starts. -/
def WorkOK (n nbin : Nat) (w : Work) : Prop :=
  n % 2 = 1 ∨ (nbin ≤ 2000 ∧ ∀ r, 2 * r + 2 = n → ∀ b, b < nbin → w r b = 0)

/-- The elements `lo, ..., lo + k - 1` of an array. -/
def elements {V : Type} (a : Int → V) (lo : Int) (k : Nat) : List V :=
  (List.range k).map fun (i : Nat) => a (lo + i)

end GA.Bin
