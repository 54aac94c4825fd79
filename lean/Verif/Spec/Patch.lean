/-!
# Specification vocabulary: subscripts, patches

These definitions are used to *state* properties. They do not refer to the model of the code.
A subscript is a list of integers, one per dimension; a patch is given by its two corner
subscripts `lo` and `hi` (inclusive), as in the GA API.
-/

namespace GA.Spec

/-- `x` lies in the patch `lo..hi` (same number of dimensions, every component in range). -/
def InPatch : (lo hi x : List Int) → Prop
  | [], [], [] => True
  | l :: lo, h :: hi, x :: xs => (l ≤ x ∧ x ≤ h) ∧ InPatch lo hi xs
  | _, _, _ => False

instance decInPatch : (lo hi x : List Int) → Decidable (InPatch lo hi x)
  | [], [], [] => isTrue trivial
  | _ :: lo, _ :: hi, _ :: xs =>
    have := decInPatch lo hi xs
    inferInstanceAs (Decidable (_ ∧ _))
  | [], [], _ :: _ => isFalse id
  | [], _ :: _, _ => isFalse (by cases ‹List Int› <;> exact id)
  | _ :: _, [], _ => isFalse (by cases ‹List Int› <;> exact id)
  | _ :: _, _ :: _, [] => isFalse id

/-- `x` is a legal (1-based) subscript of an array with dimensions `dims`. -/
def InArray (dims x : List Int) : Prop := InPatch (dims.map fun _ => 1) dims x

instance (dims x : List Int) : Decidable (InArray dims x) := by
  unfold InArray; infer_instance

/-- The boundaries of one axis of length `d`: the first block starts at 1, the starts do not
decrease, and no start lies beyond `d + 1` (a block starting at `d + 1` is empty). -/
def AxisOK (d : Int) (starts : List Int) : Prop :=
  starts.head? = some 1 ∧ starts.Pairwise (· ≤ ·) ∧ ∀ m ∈ starts, m ≤ d + 1

instance (d : Int) (s : List Int) : Decidable (AxisOK d s) := by
  unfold AxisOK; infer_instance

/-- A distribution map, given as in `NGA_Create_irreg`: `nblock` says how many blocks there are
in each dimension, `mapc` is the concatenation of the block starts of all dimensions. -/
def MapOK : (nblock : List Nat) → (dims mapc : List Int) → Prop
  | [], [], _ => True
  | n :: ns, d :: ds, m => (0 < n ∧ n ≤ m.length ∧ 1 ≤ d ∧ AxisOK d (m.take n)) ∧ MapOK ns ds (m.drop n)
  | _, _, _ => False

instance decMapOK : (nblock : List Nat) → (dims mapc : List Int) → Decidable (MapOK nblock dims mapc)
  | [], [], _ => isTrue trivial
  | n :: ns, _ :: ds, m =>
    have := decMapOK ns ds (m.drop n)
    inferInstanceAs (Decidable (_ ∧ _))
  | [], _ :: _, _ => isFalse id
  | _ :: _, [], _ => isFalse id

end GA.Spec

namespace GA.Spec

/-- Position of subscript `x` in a user buffer that holds the patch with lower corner `lo` in
column-major order with leading dimensions `ld` (`ndim - 1` numbers). -/
def bufPos : (lo ld x : List Int) → Int
  | l :: lo, d :: ld, x :: xs => (x - l) + d * bufPos lo ld xs
  | l :: _, [], x :: _ => x - l
  | _, _, _ => 0

/-- The leading dimensions are large enough for the patch: `ld[d] ≥ hi[d]-lo[d]+1` for all
dimensions but the last. -/
def LdOK : (lo hi ld : List Int) → Prop
  | [_], [_], [] => True
  | l :: l' :: lo, h :: h' :: hi, d :: ld => h - l + 1 ≤ d ∧ LdOK (l' :: lo) (h' :: hi) ld
  | _, _, _ => False

instance decLdOK : (lo hi ld : List Int) → Decidable (LdOK lo hi ld)
  | [_], [_], [] => isTrue trivial
  | l :: l' :: lo, h :: h' :: hi, d :: ld =>
    have := decLdOK (l' :: lo) (h' :: hi) ld
    inferInstanceAs (Decidable (_ ∧ _))
  | [], _, _ => isFalse id
  | [_], [], _ => isFalse id
  | [_], [_], _ :: _ => isFalse id
  | [_], _ :: _ :: _, _ => isFalse (by cases ‹List Int› <;> exact id)
  | _ :: _ :: _, [], _ => isFalse id
  | _ :: _ :: _, [_], _ => isFalse (by cases ‹List Int› <;> exact id)
  | _ :: _ :: _, _ :: _ :: _, [] => isFalse id

/-- A patch request is legal: both corners inside the array and `lo ≤ hi`. -/
def PatchOK (dims lo hi : List Int) : Prop := InArray dims lo ∧ InArray dims hi ∧ InPatch lo hi lo

instance (dims lo hi : List Int) : Decidable (PatchOK dims lo hi) := by
  unfold PatchOK; infer_instance

end GA.Spec
