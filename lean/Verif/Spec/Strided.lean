/-!
# Specification: multi-dimensional strided regions

A strided region is described as in ARMCI/ComEx: `c0` units are contiguous (bytes in the code),
`counts` says how often the pattern repeats on each stride level and `strides` gives the distance
of two repetitions. An element of the region is named by its index vector `b :: is` with `b < c0`
and `is` below `counts` component by component.
-/

namespace GA.Spec

/-- index vector within bounds -/
def IdxOK : (counts idx : List Nat) → Prop
  | c :: cs, i :: is => i < c ∧ IdxOK cs is
  | [], [] => True
  | _, _ => False

instance decIdxOK : (counts idx : List Nat) → Decidable (IdxOK counts idx)
  | c :: cs, i :: is =>
    have := decIdxOK cs is
    inferInstanceAs (Decidable (_ ∧ _))
  | [], [] => isTrue trivial
  | [], _ :: _ => isFalse id
  | _ :: _, [] => isFalse id

/-- `Σ is[j] * strides[j]` -/
def strideSum : (strides : List Int) → (is : List Nat) → Int
  | s :: ss, i :: is => i * s + strideSum ss is
  | _, _ => 0

/-- address of an element relative to the start of the region -/
def strAddr (strides : List Int) : (idx : List Nat) → Int
  | b :: is => b + strideSum strides is
  | [] => 0

/-- position of an element in the packed message: contiguous index first -/
def packPos : (counts idx : List Nat) → Nat
  | c :: cs, i :: is => i + c * packPos cs is
  | _, _ => 0

/-- number of elements -/
def prodNat : List Nat → Nat
  | [] => 1
  | a :: as => a * prodNat as

/-- Strides do not let repetitions overlap: `stride[0] ≥ c0`, `stride[i] ≥ stride[i-1]*count[i]`
(the documented precondition of ARMCI strided transfers). -/
def StrideFit : (w : Int) → (strides : List Int) → (counts : List Nat) → Prop
  | w, s :: ss, c :: cs => w ≤ s ∧ StrideFit (s * c) ss cs
  | _, [], [] => True
  | _, _, _ => False

instance decStrideFit : (w : Int) → (strides : List Int) → (counts : List Nat) →
    Decidable (StrideFit w strides counts)
  | w, s :: ss, c :: cs =>
    have := decStrideFit (s * c) ss cs
    inferInstanceAs (Decidable (_ ∧ _))
  | _, [], [] => isTrue trivial
  | _, [], _ :: _ => isFalse id
  | _, _ :: _, [] => isFalse id

end GA.Spec
