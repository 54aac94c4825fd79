import Verif.Spec.Periodic

/-!
# Specification: ghost cells

A process that owns the block `lo..hi` of an array with ghost widths `width` stores the box
`lo - width .. hi + width`, in column-major order; the leading dimensions are those of the box, as
`NGA_Access_ghosts` reports them. The cells outside `lo..hi` are the ghost cells.
-/

namespace GA.Spec

/-- `lo - width` -/
def boxLo : (lo : List Int) → (width : List Nat) → List Int
  | l :: ls, w :: ws => (l - w) :: boxLo ls ws
  | _, _ => []

/-- `hi + width` -/
def boxHi : (hi : List Int) → (width : List Nat) → List Int
  | h :: hs, w :: ws => (h + w) :: boxHi hs ws
  | _, _ => []

/-- extents of the box in all dimensions but the last -/
def boxLd : (lo hi : List Int) → (width : List Nat) → List Int
  | l :: l' :: ls, h :: h' :: hs, w :: ws => (h - l + 1 + 2 * w) :: boxLd (l' :: ls) (h' :: hs) ws
  | _, _, _ => []

/-- position of the cell for subscript `x` in the memory of the owner of `lo..hi` -/
def boxPos (lo hi : List Int) (width : List Nat) (x : List Int) : Int :=
  bufPos (boxLo lo width) (boxLd lo hi width) x

/-- the block is not empty and at least as wide as its ghost cells -/
def WideBlock : (lo hi : List Int) → (width : List Nat) → Prop
  | l :: ls, h :: hs, w :: ws => (l ≤ h ∧ w ≤ h - l + 1) ∧ WideBlock ls hs ws
  | [], [], [] => True
  | _, _, _ => False

instance decWideBlock : (lo hi : List Int) → (width : List Nat) → Decidable (WideBlock lo hi width)
  | l :: ls, h :: hs, w :: ws =>
    have := decWideBlock ls hs ws
    inferInstanceAs (Decidable (_ ∧ _))
  | [], [], [] => isTrue trivial
  | [], [], _ :: _ => isFalse id
  | [], _ :: _, _ => isFalse (by cases ‹List Nat› <;> exact id)
  | _ :: _, [], _ => isFalse (by cases ‹List Nat› <;> exact id)
  | _ :: _, _ :: _, [] => isFalse id

/-- number of coordinates of `x` outside `lo..hi` -/
def outside : (lo hi x : List Int) → Nat
  | l :: ls, h :: hs, x :: xs => (if l ≤ x ∧ x ≤ h then 0 else 1) + outside ls hs xs
  | _, _, _ => 0

/-- Every stored cell, owned or ghost, holds the element its subscript stands for in the
periodically continued array with content `f`. -/
def GhostsCurrent {V} (dims lo hi : List Int) (width : List Nat) (f : List Int → V) (mem : Int → V) :
    Prop :=
  ∀ x, InPatch (boxLo lo width) (boxHi hi width) x → mem (boxPos lo hi width x) = f (wrap dims x)

/-- The same for all cells but the corner cells (those with more than one coordinate outside). -/
def FacesCurrent {V} (dims lo hi : List Int) (width : List Nat) (f : List Int → V) (mem : Int → V) :
    Prop :=
  ∀ x, InPatch (boxLo lo width) (boxHi hi width) x → outside lo hi x ≤ 1 →
    mem (boxPos lo hi width x) = f (wrap dims x)

/-- Only ghost cells changed. -/
def OnlyGhosts {V} (lo hi : List Int) (width : List Nat) (mem mem' : Int → V) : Prop :=
  ∀ i, (∀ x, InPatch (boxLo lo width) (boxHi hi width) x → ¬ InPatch lo hi x → boxPos lo hi width x ≠ i) →
    mem' i = mem i

end GA.Spec
