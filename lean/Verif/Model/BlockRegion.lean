import Verif.Model.BlockCyclic
import Verif.Model.Region

/-!
# Model: blocks of a patch of a block-cyclic or tiled array

`pnga_locate_region` for arrays that are not REGULAR, `pnga_locate_nnodes` and `pnga_locate_num_blocks` (global/src/base.c).
-/

namespace GA.Model

/-- the overlap test of base.c 4633-4640, 4825-4832 and 5617-5624: one end of the block lies in the patch, in every dimension -/
def endsOverlap : (blo bhi lo hi : List Int) → Bool
  | bl :: blo, bh :: bhi, l :: lo, h :: hi =>
    ((bl ≥ l && bl ≤ h) || (bh ≥ l && bh ≤ h)) && endsOverlap blo bhi lo hi
  | _, _, _, _ => true

/-- the blocks that pass the test, in increasing order (base.c 4625-4645, 4817-4839, 5609-5629) -/
def endBlocks (A : BArray) (lo hi : List Int) : List Nat :=
  (List.range (bTotal A)).filter fun b => endsOverlap (bOwns A b).1 (bOwns A b).2 lo hi

/-- block number computed by the loop `for (i=ndim-1; i>=0; i--) { idx = idx*factor+count[i]; factor *= num_blocks[i]; }`
(base.c 4870-4873): number and factor -/
def slIndex : (ns c : List Nat) → Nat × Nat
  | n :: ns, c :: cs => ((slIndex ns cs).1 * (slIndex ns cs).2 + c, (slIndex ns cs).2 * n)
  | _, _ => (0, 1)

/-- `pnga_locate_region` for arrays that are not REGULAR (base.c 4756-4896). The loop of the last branch over `count` (4862-4893) visits
the block coordinates between `min` and `max`, first dimension fastest, like the loop macros of the other branches. The
bounds stored there are those of the block (4877-4882). -/
def locateBlocks (A : BArray) (candT candB : List Nat) (lo hi : List Int) : Option (List Piece) :=
  if regionOK A.dims lo hi then
    match A.kind with
    | .tiledIrreg =>
      some <| (loopAll ((findblocks A.nblocks A.mapc candT lo).map Int.ofNat) ((findblocks A.nblocks A.mapc candB hi).map Int.ofNat)).map
        fun s =>
          let proc := computeIndex s (A.nblocks.map Int.ofNat)
          ⟨proc, clipLo lo (bOwns A proc.toNat).1, clipHi hi (bOwns A proc.toNat).2⟩
    | .cyclic => some <| (endBlocks A lo hi).map fun b : Nat => ⟨(b : Int), clipLo lo (bOwns A b).1, clipHi hi (bOwns A b).2⟩
    | _ =>
      some <| (loopAll ((unifFind A.bdims lo).map Int.ofNat) ((unifFind A.bdims hi).map Int.ofNat)).map fun s =>
        let c := s.map Int.toNat
        ⟨(slIndex A.nblocks c).1, unifLo A.bdims c, unifHi A.dims A.bdims c⟩
  else none

/-- `pnga_locate_nnodes` for REGULAR arrays (base.c 4575-4617): `none` for FALSE -/
def locateNNodes (A : RegArray) (candT candB : List Nat) (lo hi : List Int) : Option Nat :=
  if regionOK A.dims lo hi then
    some (loopAll ((findblocks A.nblock A.mapc candT lo).map Int.ofNat) ((findblocks A.nblock A.mapc candB hi).map Int.ofNat)).length
  else none

/-- `pnga_locate_nnodes` for other arrays (base.c 4618-4645) -/
def locateNNodesB (A : BArray) (lo hi : List Int) : Option Nat :=
  if regionOK A.dims lo hi then some (endBlocks A lo hi).length else none

/-- `pnga_locate_num_blocks` (base.c 5591-5635) for arrays that are not REGULAR; `none`: error -/
def locateNumBlocks (A : BArray) (lo hi : List Int) : Option Nat :=
  if regionOK A.dims lo hi then some (endBlocks A lo hi).length else none

end GA.Model
