/-!
# Model: index arithmetic macros

`ga_ComputeIndexM`, `ga_UpdateSubscriptM`, `ga_InitLoopM` (global/src/base.c 172-208),
`gam_find_block_indices`, `gam_find_block_from_indices` (global/src/base.h).
-/

namespace GA.Model

/-- Loop of `ga_ComputeIndexM` (base.c 176-183): `*_index += _subscript[_i]*_factor;
_factor *= _dims[_i]`. The C code skips the last multiplication of `_factor`, which is then
unused. -/
def computeIndexLoop : (sub dims : List Int) → (idx factor : Int) → Int
  | s :: ss, d :: ds, idx, f => computeIndexLoop ss ds (idx + s * f) (f * d)
  | _, _, idx, _ => idx

/-- `ga_ComputeIndexM` (base.c 176-183). -/
def computeIndex (sub dims : List Int) : Int := computeIndexLoop sub dims 0 1

/-- `ga_UpdateSubscriptM` (base.c 188-195): advance the odometer `sub` inside `lo..hi`,
first component fastest; wraps around to `lo` after the last element. -/
def updateSubscript : (sub lo hi : List Int) → List Int
  | s :: ss, l :: ls, h :: hs => if s < h then (s + 1) :: ss else l :: updateSubscript ss ls hs
  | _, _, _ => []

/-- `ga_InitLoopM` (base.c 200-208): number of elements of the patch. -/
def initLoopElems : (lo hi : List Int) → Int
  | l :: lo, h :: hi => (h - l + 1) * initLoopElems lo hi
  | _, _ => 1

/-- The subscripts visited by the idiom
`ga_InitLoopM(&elems,..); for(i=0;i<elems;i++){ ..subscript..; ga_UpdateSubscriptM(..) }`
(e.g. base.c 4629-4645, 4720-4750). -/
def loopFrom (lo hi : List Int) : (n : Nat) → (sub : List Int) → List (List Int)
  | 0, _ => []
  | n + 1, sub => sub :: loopFrom lo hi n (updateSubscript sub lo hi)

/-- All subscripts visited by the loop idiom over the patch `lo..hi`. -/
def loopAll (lo hi : List Int) : List (List Int) :=
  loopFrom lo hi (initLoopElems lo hi).toNat lo

end GA.Model
