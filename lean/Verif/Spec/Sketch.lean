import Verif.Spec.Sprs

/-!
# Specification: count sketch of a sparse matrix
-/

namespace GA.Spec.Sprs

/-- Element (`k`, `j`) of the sketch: the rows with label `k`, each multiplied by its weight, are added up. -/
def sketchAt {V : Type} [Semiring V] (M : List (Entry V)) (lab : Int → Nat) (w : Int → V) (k : Nat) (j : Int) : V :=
  ((M.filter fun e => lab e.row = k ∧ e.col = j).map fun e => w e.row * e.val).sum

end GA.Spec.Sprs
