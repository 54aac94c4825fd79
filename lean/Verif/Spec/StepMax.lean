import Mathlib.Order.Basic

/-!
# Specification: largest steps

`IsLargest ok inf r`: all steps from 0 to `r` are admissible, and no larger step is, unless `r` has reached the infinity `inf`.
-/

namespace GA.Spec.Step

structure IsLargest {V : Type} [Zero V] [LT V] [LE V] (ok : V → Prop) (inf r : V) : Prop where
  nonneg : 0 ≤ r
  all : ∀ s, 0 ≤ s → s ≤ r → ok s
  sharp : r < inf → ∀ s, r < s → ¬ ok s

end GA.Spec.Step
