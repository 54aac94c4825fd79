import Verif.Spec.Copy
import Mathlib.Algebra.Ring.Defs
import Mathlib.Algebra.BigOperators.Group.List.Basic

/-!
# Specification: linear combination and inner product of patches
-/

namespace GA.Spec

/-- `fc'` is the content of the result array after `C = alpha*A + beta*B` on patches: every element of the
patch of `C` is computed from the elements at the same place (in column order) of the patches of `A`
and `B`; the other elements of `C` keep their values. -/
structure AddResult {V : Type} [CommSemiring V] (alpha beta : V) (alo ahi blo bhi clo chi : List Int)
    (fa fb fc fc' : List Int → V) : Prop where
  inside : ∀ x y z, InPatch alo ahi x → InPatch blo bhi y → InPatch clo chi z →
    SamePlace false alo ahi clo chi x z → SamePlace false blo bhi clo chi y z →
    fc' z = alpha * fa x + beta * fb y
  outside : ∀ z, ¬ InPatch clo chi z → fc' z = fc z

/-- sum of `f` over the elements of the patch `lo..hi` -/
def patchSum {V : Type} [AddCommMonoid V] : (lo hi : List Int) → (f : List Int → V) → V
  | l :: lo, h :: hi, f =>
    ((List.range (h - l + 1).toNat).map fun i : Nat => patchSum lo hi fun r => f ((l + i) :: r)).sum
  | [], [], f => f []
  | _, _, _ => 0

/-- `v` is the inner product of two patches: the sum over the patch of `A` of the products with the
elements of the patch of `B` at the same place; with `tr` the elements of `B` are counted in row
order. -/
def DotResult {V : Type} [CommSemiring V] (tr : Bool) (alo ahi blo bhi : List Int) (fa fb : List Int → V)
    (v : V) : Prop :=
  ∃ mate : List Int → List Int, (∀ x, InPatch alo ahi x → InPatch blo bhi (mate x) ∧
      SamePlace tr blo bhi alo ahi (mate x) x) ∧
    v = patchSum alo ahi fun x => fa x * fb (mate x)

end GA.Spec
