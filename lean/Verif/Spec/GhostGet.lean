import Verif.Spec.Ghosts

/-!
# Specification: ghost cells of one direction

A direction is one of `-1`, `0`, `1` per dimension. The ghost cells of a process in that direction
are the cells of its box below (`-1`), inside (`0`) or above (`1`) its block, dimension by dimension.
-/

namespace GA.Spec

/-- `x` lies in direction `mask` of the block `lo..hi` -/
def OnSide : (mask lo hi x : List Int) → Prop
  | k :: ks, l :: ls, h :: hs, x :: xs =>
    ((k = -1 ∧ x < l) ∨ (k = 0 ∧ l ≤ x ∧ x ≤ h) ∨ (k = 1 ∧ h < x)) ∧ OnSide ks ls hs xs
  | [], [], [], [] => True
  | _, _, _, _ => False

/-- the cell for `x` lies beyond the block in dimension `d` (counted from 0), on side `dir` -/
def Beyond (d : Nat) (dir : Int) (lo hi x : List Int) : Prop :=
  (dir = -1 ∧ x.getD d 0 < lo.getD d 0) ∨ (dir = 1 ∧ hi.getD d 0 < x.getD d 0)

/-- all coordinates but the one of dimension `d` are inside the block -/
def OthersInside (d : Nat) (lo hi x : List Int) : Prop :=
  ∀ i, i < lo.length → i ≠ d → lo.getD i 0 ≤ x.getD i 0 ∧ x.getD i 0 ≤ hi.getD i 0

/-- Every stored cell with property `P` holds the element its subscript stands for in the
periodically continued array with content `f`. -/
def CellsCurrent {V} (P : List Int → Prop) (dims lo hi : List Int) (width : List Nat)
    (f : List Int → V) (mem : Int → V) : Prop :=
  ∀ x, InPatch (boxLo lo width) (boxHi hi width) x → P x → mem (boxPos lo hi width x) = f (wrap dims x)

/-- Only stored cells with property `P` changed. -/
def OnlyCells {V} (P : List Int → Prop) (lo hi : List Int) (width : List Nat) (mem mem' : Int → V) :
    Prop :=
  ∀ i, (∀ x, InPatch (boxLo lo width) (boxHi hi width) x → P x → boxPos lo hi width x ≠ i) →
    mem' i = mem i

/-- every entry is -1, 0 or 1 -/
def IsDirection (mask : List Int) : Prop := ∀ k ∈ mask, k = -1 ∨ k = 0 ∨ k = 1

end GA.Spec
