import Verif.Spec.Patch
import Mathlib.Algebra.Ring.Defs

/-!
# Specification: matrix operations

Contents of arrays are functions of the subscript lists; `fa`, `fb`, `fv` before, `fa'`, `fb'`, `fv'` after the
call.
-/

namespace GA.Spec

/-- `B = A^T` for a `d1 x d2` matrix `A`; elements of `B` beyond `d2 x d1` keep their values. -/
structure TransposeResult {V : Type} (d1 d2 : Int) (fa fb fb' : List Int → V) : Prop where
  inside : ∀ i j, 1 ≤ i → i ≤ d1 → 1 ≤ j → j ≤ d2 → fb' [j, i] = fa [i, j]
  outside : ∀ i j, ¬ (1 ≤ i ∧ i ≤ d1 ∧ 1 ≤ j ∧ j ≤ d2) → fb' [j, i] = fb [j, i]

/-- `A = half * (A + A^T)`, where the last two subscripts are transposed. -/
def SymmetrizeResult {V : Type} [CommSemiring V] (half : V) (dims : List Int) (fa fa' : List Int → V) : Prop :=
  ∀ pre i j, InArray dims (pre ++ [i, j]) → fa' (pre ++ [i, j]) = half * (fa (pre ++ [i, j]) + fa (pre ++ [j, i]))

/-- Only the diagonal elements of a `d1 x d2` matrix change: `A[i][i] = new i`. -/
structure DiagResult {V : Type} (d1 d2 : Int) (fa : List Int → V) (new : Int → V) (fa' : List Int → V) : Prop where
  diag : ∀ i, 1 ≤ i → i ≤ d1 → i ≤ d2 → fa' [i, i] = new i
  off : ∀ i j, i ≠ j → fa' [i, j] = fa [i, j]

/-- `v[i] = A[i][i]` for a `d1 x d2` matrix -/
def DiagonalOf {V : Type} (d1 d2 : Int) (fa fv : List Int → V) : Prop :=
  ∀ i, 1 ≤ i → i ≤ d1 → i ≤ d2 → fv [i] = fa [i, i]

/-- `A[i][j] = A[i][j] * v[i]` -/
def RowsScaled {V : Type} [Mul V] (d1 d2 : Int) (fa fv fa' : List Int → V) : Prop :=
  ∀ i j, 1 ≤ i → i ≤ d1 → 1 ≤ j → j ≤ d2 → fa' [i, j] = fa [i, j] * fv [i]

/-- `A[i][j] = A[i][j] * v[j]` -/
def ColsScaled {V : Type} [Mul V] (d1 d2 : Int) (fa fv fa' : List Int → V) : Prop :=
  ∀ i j, 1 ≤ i → i ≤ d1 → 1 ≤ j → j ≤ d2 → fa' [i, j] = fa [i, j] * fv [j]

end GA.Spec
