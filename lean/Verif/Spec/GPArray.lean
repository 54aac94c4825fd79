/-!
# Specification vocabulary: arrays whose elements are byte strings

The value of a global pointer array is a function that gives every subscript a list of bytes, the empty list for an element that was not assigned.
-/

namespace GA.Spec

/-- the `n` bytes at address `a` of memory `m` -/
def bytesAt {B : Type} (m : Int → B) (a : Int) (n : Nat) : List B := (List.range n).map fun k : Nat => m (a + k)

/-- `old` with its first bytes replaced by `new` -/
def overwrite {B : Type} (new old : List B) : List B := new ++ old.drop new.length

/-- address `a` is one of the `n` bytes at address `s` -/
def Within (s n a : Int) : Prop := s ≤ a ∧ a < s + n

instance (s n a : Int) : Decidable (Within s n a) := by unfold Within; infer_instance

/-- the leading dimensions of a buffer that holds the patch without gaps: all extents but the last one -/
def tightLd : (lo hi : List Int) → List Int
  | l :: l' :: lo, h :: h' :: hi => (h - l + 1) :: tightLd (l' :: lo) (h' :: hi)
  | _, _ => []

end GA.Spec
