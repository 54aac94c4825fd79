import Verif.Spec.Patch
import Mathlib.Order.Defs.LinearOrder

/-! # Specification: the extreme element of an array -/

namespace GA.Spec

/-- the operator of `NGA_Select_elem` -/
inductive SelOp where
  | min
  | max
deriving DecidableEq, Repr

/-- `a` is at least as extreme as `b`: not larger for "min", not smaller for "max" -/
def SelOp.atLeast {K} [LinearOrder K] : SelOp → K → K → Prop
  | .min, a, b => a ≤ b
  | .max, a, b => b ≤ a

/-- `v` is the minimum (maximum) of the keys of all elements of an array with content `f`. The key
of a number is the number, the key of a complex number is the square of its modulus. -/
def Extreme {K V} [LinearOrder K] (op : SelOp) (key : V → K) (dims : List Int) (f : List Int → V) (v : K) : Prop :=
  (∃ x, InArray dims x ∧ key (f x) = v) ∧ ∀ x, InArray dims x → op.atLeast v (key (f x))

end GA.Spec
