import Verif.Spec.Patch

/-!
# Specification: copying a patch to another patch, possibly of another shape
-/

namespace GA.Spec

/-- Position of element `x` in the patch in column order (Fortran order, first subscript fastest),
counted from 0. -/
def colRank : (lo hi x : List Int) → Int
  | l :: lo, h :: hi, x :: xs => (x - l) + (h - l + 1) * colRank lo hi xs
  | _, _, _ => 0

/-- Position in row order (last subscript fastest). -/
def rowRank (lo hi x : List Int) : Int := colRank lo.reverse hi.reverse x.reverse

/-- Element `x` of patch `A` and element `y` of patch `B` are at the same place: the elements of `B`
are numbered in column order, those of `A` in column order, or in row order if the patch is
transposed. -/
def SamePlace (tr : Bool) (alo ahi blo bhi x y : List Int) : Prop :=
  (if tr then rowRank alo ahi x else colRank alo ahi x) = colRank blo bhi y

/-- `fb` is the content of the destination before, `fb'` after the copy; `fa` is the content of the
source. -/
structure CopyResult {V : Type} (tr : Bool) (alo ahi blo bhi : List Int) (fa fb fb' : List Int → V) :
    Prop where
  inside : ∀ x y, InPatch alo ahi x → InPatch blo bhi y → SamePlace tr alo ahi blo bhi x y → fb' y = fa x
  outside : ∀ y, ¬ InPatch blo bhi y → fb' y = fb y

end GA.Spec
