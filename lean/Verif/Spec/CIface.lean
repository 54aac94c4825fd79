import Verif.Spec.Ops
import Mathlib.Data.List.Forall2

/-!
# Specification: the view of a C program

In C subscripts start at 0, and arrays are stored row by row: the last subscript runs fastest. The leading dimensions `ld` of a
buffer are the extents of its second, third, .. dimension.
-/

namespace GA.Spec

/-- `x` is a legal 0-based subscript of an array with dimensions `dims` -/
def InArrayC (dims x : List Int) : Prop := InPatch (dims.map fun _ => 0) (dims.map fun d => d - 1) x

instance (dims x : List Int) : Decidable (InArrayC dims x) := by unfold InArrayC; infer_instance

/-- a patch request is legal: both corners inside the array and `lo ≤ hi` -/
def PatchOKC (dims lo hi : List Int) : Prop := InArrayC dims lo ∧ InArrayC dims hi ∧ InPatch lo hi lo

instance (dims lo hi : List Int) : Decidable (PatchOKC dims lo hi) := by unfold PatchOKC; infer_instance

/-- continue a row-major position: `pos = pos*ld[k-1] + (x[k]-lo[k])` for the dimensions after the first -/
def rowStep : (pos : Int) → (lo ld x : List Int) → Int
  | pos, l :: lo, d :: ld, x :: xs => rowStep (pos * d + (x - l)) lo ld xs
  | pos, _, _, _ => pos

/-- Position of subscript `x` in a C buffer that holds the patch with lower corner `lo`: this is where
`buf[x[0]-lo[0]][x[1]-lo[1]]..` lies when `buf` is declared as `T buf[..][ld[0]][ld[1]]..`. -/
def rowPos : (lo ld x : List Int) → Int
  | l :: lo, ld, x :: xs => rowStep (x - l) lo ld xs
  | _, _, _ => 0

/-- the leading dimensions are large enough: `ld[k-1] ≥ hi[k]-lo[k]+1` for all dimensions but the first -/
def LdOKC (lo hi ld : List Int) : Prop :=
  lo ≠ [] ∧ hi.length = lo.length ∧ List.Forall₂ (· ≤ ·) (edgeLens lo hi).tail ld

/-- leading dimensions of a request are legal -/
def Op.LdOKC {V} : Op V → Prop
  | .put lo hi ld _ => Spec.LdOKC lo hi ld
  | .acc lo hi ld _ _ => Spec.LdOKC lo hi ld

/-- the patch of a request is legal -/
def Op.PatchOKC {V} (dims : List Int) : Op V → Prop
  | .put lo hi _ _ => Spec.PatchOKC dims lo hi
  | .acc lo hi _ _ _ => Spec.PatchOKC dims lo hi

/-- effect of one request of a C program on the plain array -/
def specStepC {V} [Add V] [Mul V] (f : List Int → V) : Op V → (List Int → V)
  | .put lo hi ld buf => fun x => if InPatch lo hi x then buf (rowPos lo ld x) else f x
  | .acc lo hi ld alpha buf =>
    fun x => if InPatch lo hi x then f x + alpha * buf (rowPos lo ld x) else f x

/-- effect of a history of requests -/
def specRunC {V} [Add V] [Mul V] (f : List Int → V) (ops : List (Op V)) : List Int → V :=
  ops.foldl specStepC f

/-- correct result of a get of a C program -/
def GetResultC {V} (lo hi ld : List Int) (f : List Int → V) (buf buf' : Int → V) : Prop :=
  (∀ x, InPatch lo hi x → buf' (rowPos lo ld x) = f x) ∧
  (∀ i, (∀ x, InPatch lo hi x → rowPos lo ld x ≠ i) → buf' i = buf i)

/-! ## distributions -/

/-- number of the cell `c` of a grid with extents `ns`, counted row by row -/
def rowNum : (num : Nat) → (ns c : List Nat) → Nat
  | num, n :: ns, c :: cs => rowNum (num * n + c) ns cs
  | num, _, _ => num

/-- cut a concatenated list of block starts into the lists of the dimensions -/
def cutMap : (block : List Nat) → (map : List Int) → List (List Int)
  | n :: ns, m => m.take n :: cutMap ns (m.drop n)
  | [], _ => []

/-- lower corner of the block with grid coordinates `c` -/
def gridLo : (starts : List (List Int)) → (c : List Nat) → List Int
  | s :: ss, c :: cs => s.getD c 0 :: gridLo ss cs
  | _, _ => []

/-- upper corner of the block with grid coordinates `c`: up to the element before the next start, the last block up to the end
of the array -/
def gridHi : (dims : List Int) → (starts : List (List Int)) → (c : List Nat) → List Int
  | d :: ds, s :: ss, c :: cs => (if c + 1 = s.length then d - 1 else s.getD (c + 1) 0 - 1) :: gridHi ds ss cs
  | _, _, _ => []

end GA.Spec
