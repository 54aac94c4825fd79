import Verif.Spec.Patch

/-!
# Specification: fields of the elements of an array

An element of an array with elements of `size` bytes is a string of bytes `0..size-1`. A field is the
bytes `foff..foff+fsize-1` of an element. The user buffer of a field operation holds the fields of the
elements of a patch one after the other, `fsize` bytes each, in column-major order with leading
dimensions counted in elements.
-/

namespace GA.Spec

/-- Result of a put of a field: `f x b` is byte `b` of element `x`. -/
def FieldPut {V} (dims lo hi ld : List Int) (size foff fsize : Int) (buf : Int → V)
    (f f' : List Int → Int → V) : Prop :=
  ∀ x, InArray dims x → ∀ b, 0 ≤ b → b < size →
    (InPatch lo hi x ∧ foff ≤ b ∧ b < foff + fsize → f' x b = buf (fsize * bufPos lo ld x + (b - foff))) ∧
    (¬ (InPatch lo hi x ∧ foff ≤ b ∧ b < foff + fsize) → f' x b = f x b)

/-- Result of a get of a field. -/
def FieldGet {V} (lo hi ld : List Int) (foff fsize : Int) (f : List Int → Int → V) (buf buf' : Int → V) :
    Prop :=
  (∀ x, InPatch lo hi x → ∀ j, 0 ≤ j → j < fsize → buf' (fsize * bufPos lo ld x + j) = f x (foff + j)) ∧
  ∀ i, (∀ x, InPatch lo hi x → ∀ j, 0 ≤ j → j < fsize → fsize * bufPos lo ld x + j ≠ i) → buf' i = buf i

/-- A put of a field, as a request -/
structure FieldOp (V : Type) where
  lo : List Int
  hi : List Int
  ld : List Int
  foff : Int
  fsize : Int
  buf : Int → V

/-- the fields put by a history, the last put of a byte wins -/
def fieldRun {V} (f : List Int → Int → V) : List (FieldOp V) → List Int → Int → V
  | [] => f
  | o :: os => fieldRun (fun x b =>
      if InPatch o.lo o.hi x ∧ o.foff ≤ b ∧ b < o.foff + o.fsize then
        o.buf (o.fsize * bufPos o.lo o.ld x + (b - o.foff))
      else f x b) os

end GA.Spec
