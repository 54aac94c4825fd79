import Mathlib.Algebra.BigOperators.Group.List.Basic
import Mathlib.Algebra.Ring.Defs

/-!
# Specification: matrix multiplication

Matrices are functions of two subscripts. `i`, `j` and `l` count from zero inside the patches.
-/

namespace GA.Spec

variable {V : Type}

/-- entry `i`, `l` of `op(X)` for a patch of `op(X)` that begins at row `ilo` and column `jlo` -/
def opEntry (tr : Bool) (f : Int → Int → V) (ilo jlo i l : Int) : V :=
  if tr then f (jlo + l) (ilo + i) else f (ilo + i) (jlo + l)

/-- `fc'` is `fc` with `alpha op(A) op(B) + beta C` in the patch of `m` rows and `n` columns that begins at `cilo`, `cjlo`; the
inner extent is `k` -/
def MatmulResult [Semiring V] (ta tb : Bool) (alpha beta : V) (m n : Int) (k : Nat) (ailo ajlo bilo bjlo cilo cjlo : Int)
    (fa fb fc fc' : Int → Int → V) : Prop :=
  (∀ i j, 0 ≤ i → i < m → 0 ≤ j → j < n → fc' (cilo + i) (cjlo + j) =
    alpha * ((List.range k).map fun (l : Nat) => opEntry ta fa ailo ajlo i l * opEntry tb fb bilo bjlo l j).sum +
      beta * fc (cilo + i) (cjlo + j)) ∧
  ∀ x y, ¬ ((cilo ≤ x ∧ x < cilo + m) ∧ cjlo ≤ y ∧ y < cjlo + n) → fc' x y = fc x y

end GA.Spec
