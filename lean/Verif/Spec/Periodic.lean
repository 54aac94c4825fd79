import Verif.Spec.Ops

/-! # Specification: periodic access -/

namespace GA.Spec

/-- The element a subscript of the periodically continued array stands for. -/
def wrap : (dims x : List Int) → List Int
  | d :: dims, x :: xs => ((x - 1) % d + 1) :: wrap dims xs
  | _, _ => []

/-- Result of a periodic get: buffer position of `x` holds element `wrap x`, for every `x` of the
requested patch, and nothing else in the buffer changed. -/
def PeriodicGet {V} (dims lo hi ld : List Int) (f : List Int → V) (buf buf' : Int → V) : Prop :=
  (∀ x, InPatch lo hi x → buf' (bufPos lo ld x) = f (wrap dims x)) ∧
  (∀ i, (∀ x, InPatch lo hi x → bufPos lo ld x ≠ i) → buf' i = buf i)

/-- Result of a periodic update of the array content `f`: element `wrap x` gets the new value
`g (old value) (buffer element of x)`, for every `x` of the requested patch; all other elements
keep their value. -/
def PeriodicUpdate {V} (dims lo hi ld : List Int) (g : V → V → V) (buf : Int → V)
    (f f' : List Int → V) : Prop :=
  (∀ x, InPatch lo hi x → f' (wrap dims x) = g (f (wrap dims x)) (buf (bufPos lo ld x))) ∧
  (∀ y, InArray dims y → (∀ x, InPatch lo hi x → wrap dims x ≠ y) → f' y = f y)

/-- no axis of the patch is longer than the array -/
def Narrow : (dims lo hi : List Int) → Prop
  | d :: dims, l :: lo, h :: hi => h - l + 1 ≤ d ∧ Narrow dims lo hi
  | [], [], [] => True
  | _, _, _ => False

/-- on every axis the patch reaches into or above the first period below the array -/
def NotFarBelow : (dims hi : List Int) → Prop
  | d :: dims, h :: hi => -d < h ∧ NotFarBelow dims hi
  | [], [] => True
  | _, _ => False

instance decNarrow : (dims lo hi : List Int) → Decidable (Narrow dims lo hi)
  | _ :: dims, _ :: lo, _ :: hi =>
    have := decNarrow dims lo hi
    inferInstanceAs (Decidable (_ ∧ _))
  | [], [], [] => isTrue trivial
  | [], [], _ :: _ => isFalse id
  | [], _ :: _, _ => isFalse (by cases ‹List Int› <;> exact id)
  | _ :: _, [], _ => isFalse (by cases ‹List Int› <;> exact id)
  | _ :: _, _ :: _, [] => isFalse id

instance decNotFarBelow : (dims hi : List Int) → Decidable (NotFarBelow dims hi)
  | _ :: dims, _ :: hi =>
    have := decNotFarBelow dims hi
    inferInstanceAs (Decidable (_ ∧ _))
  | [], [] => isTrue trivial
  | [], _ :: _ => isFalse id
  | _ :: _, [] => isFalse id

end GA.Spec
