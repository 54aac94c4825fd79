import Verif.Spec.Gop

/-!
# Specification of a reduction within a node
-/

namespace GA.Spec.Reduce

open GA.Spec.Gop

variable {α : Type}

/-- The arrays `x p` of the processes after a reduction of the elements
`off .. off + n - 1`: process 0 has them combined over all processes. -/
def reduceAll (op : α → α → α) (nproc off n : Nat) (x : Nat → Nat → α) : Nat → Nat → α :=
  fun p k => if p = 0 ∧ off ≤ k ∧ k < off + n
    then combine op (fun q => x q k) (nproc - 1) else x p k

end GA.Spec.Reduce
