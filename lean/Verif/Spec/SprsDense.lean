import Verif.Spec.SprsMul

/-!
# Specification: sparse and dense arrays
-/

namespace GA.Spec.Sprs

/-- `M` holds the elements of the dense matrix `a` with `idim` rows and `jdim` columns that are not zero, and the whole diagonal, each once -/
structure Represents {V : Type} [Zero V] (idim jdim : Int) (a : Int → Int → V) (M : List (Entry V)) : Prop where
  once : (M.map fun e => (e.row, e.col)).Nodup
  entries : ∀ e, e ∈ M ↔ e.In idim jdim ∧ e.val = a e.row e.col ∧ (a e.row e.col ≠ 0 ∨ e.row = e.col)

end GA.Spec.Sprs
