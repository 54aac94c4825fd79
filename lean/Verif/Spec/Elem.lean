import Verif.Spec.AddDot
import Mathlib.Order.Defs.LinearOrder
import Mathlib.Algebra.Ring.Defs

/-!
# Specification: elementwise operations, median and norms
-/

namespace GA.Spec

/-- `fc'` is the content of the result array after an operation on the elements of two patches: every
element of the patch of `C` is the result (`R first second result`) for the elements at the same place (in
column order) of the patches of `A` and `B`; the other elements of `C` keep their values. -/
structure ElemResult {V : Type} (R : V → V → V → Prop) (alo ahi blo bhi clo chi : List Int)
    (fa fb fc fc' : List Int → V) : Prop where
  inside : ∀ x y z, InPatch alo ahi x → InPatch blo bhi y → InPatch clo chi z →
    SamePlace false alo ahi clo chi x z → SamePlace false blo bhi clo chi y z → R (fa x) (fb y) (fc' z)
  outside : ∀ z, ¬ InPatch clo chi z → fc' z = fc z

/-- the same for three operands and the result array `M` -/
structure Elem3Result {V : Type} (R : V → V → V → V → Prop) (alo ahi blo bhi clo chi mlo mhi : List Int)
    (fa fb fc fm fm' : List Int → V) : Prop where
  inside : ∀ x y w z, InPatch alo ahi x → InPatch blo bhi y → InPatch clo chi w → InPatch mlo mhi z →
    SamePlace false alo ahi mlo mhi x z → SamePlace false blo bhi mlo mhi y z → SamePlace false clo chi mlo mhi w z →
    R (fa x) (fb y) (fc w) (fm' z)
  outside : ∀ z, ¬ InPatch mlo mhi z → fm' z = fm z

/-- the same for one array: `fc'` after an operation on the elements `lo..hi` of an array with content `fc` and
extents `dims`; bounds outside the array are cut -/
structure MapResult {V : Type} (R : V → V → Prop) (dims lo hi : List Int) (fc fc' : List Int → V) : Prop where
  inside : ∀ z, InArray dims z → InPatch lo hi z → R (fc z) (fc' z)
  outside : ∀ z, ¬ InPatch lo hi z → fc' z = fc z

/-- `q` is the integer quotient of `a` by `b`, truncated towards zero: the remainder is smaller than `b` and
has the sign of `a` -/
def TruncQuot (a b q : Int) : Prop :=
  (a - q * b).natAbs < b.natAbs ∧ (0 ≤ a → 0 ≤ a - q * b) ∧ (a ≤ 0 → a - q * b ≤ 0)

/-- real and imaginary part of the complex product `(a + bi) (c + di)` -/
def cmulRe {K : Type} [Ring K] (a b c d : K) : K := a * c - b * d
@[inherit_doc cmulRe]
def cmulIm {K : Type} [Ring K] (a b c d : K) : K := a * d + b * c

/-- `v` is one of the three values, at least two of them are at most `v` and at least two of them at
least `v` (values compared by `key`) -/
def IsMedian {V K : Type} [LinearOrder K] (key : V → K) (a b c v : V) : Prop :=
  (v = a ∨ v = b ∨ v = c) ∧
  2 ≤ ([a, b, c].filter fun x => decide (key x ≤ key v)).length ∧
  2 ≤ ([a, b, c].filter fun x => decide (key v ≤ key x)).length

end GA.Spec
