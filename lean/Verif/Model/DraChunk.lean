import Verif.Model.Dra

/-!
# Model: the block size of a disk resident array (pario/dra/disk.arrays.c 287-307, 1806-1908)

The code uses `double` in two places: `near d b` is `(int)((double)d/(double)b + 0.5)` and `scale c` is `(int)((double)c*ratio)`. Both are parameters of
the model; the theorems assume only that the first is positive for `0 < b < d` and the second not larger than `c`. Products are not reduced modulo
`2^64`.
-/

namespace GA.Dra
open GA.Model

/-- `DRA_BUF_SIZE` (disk.arrays.c 95, buffers.h 6-8): bytes in an I/O buffer -/
def bufBytes : Int := 131072 * 8

/-- insertion of `_block_tmp[_j]`, `_block_map[_j]` into the part that is already sorted (disk.arrays.c 296-305) -/
def sortIns (b : Int × Nat) : List (Int × Nat) → List (Int × Nat)
  | [] => [b]
  | x :: xs => if b.1 < x.1 then x :: sortIns b xs else b :: x :: xs

/-- `block_sortM` (disk.arrays.c 287-307): `_block_map` -/
def blockSort (vals : List Int) : List Nat := (vals.zipIdx.foldr sortIns []).map (·.2)

/-- the adjustments of a requested block size (disk.arrays.c 1816-1831) -/
def adjBlock (near : Int → Int → Int) (d b0 : Int) : Int :=
  let b := if d < b0 then d else b0
  if 0 < b ∧ b < d ∧ d % b ≠ 0 then (if d % near d b = 0 then d / near d b else b) else b

/-- one turn of the loop that sets unspecified block sizes (disk.arrays.c 1854-1866); state: `block`, `patch_size` -/
def fillStep (elem : Int) (dims : List Int) (s : List Int × Int) (k : Nat) : List Int × Int :=
  if s.1.getD k 0 < 0 then
    let d := dims.getD k 0
    if s.2 * d * elem < bufBytes then (s.1.set k d, s.2 * d)
    else (s.1.set k (bufBytes / (s.2 * elem)), s.2 * (bufBytes / (s.2 * elem)))
  else s

/-- the `while` loop that reduces one block size (disk.arrays.c 1900-1905); `fuel` bounds the number of turns -/
def nudgeOne (elem : Int) (k : Nat) : (fuel : Nat) → List Int × Int → List Int × Int
  | 0, s => s
  | fuel + 1, s =>
    let c := s.1.getD k 0
    if 1 < c ∧ bufBytes < elem * s.2 then nudgeOne elem k fuel (s.1.set k (c - 1), s.2 / c * (c - 1)) else s

/-- the loop over the dimensions, largest block first (disk.arrays.c 1896-1907) -/
def nudge (elem : Int) (s : List Int × Int) : List Int × Int :=
  if bufBytes < elem * s.2 then (blockSort s.1).foldl (fun s k => nudgeOne elem k (s.1.getD k 0).toNat s) s else s

/-- `ndai_chunking` (disk.arrays.c 1806-1908) -/
def chunking (near : Int → Int → Int) (scale : Int → Int) (elem : Int) (dims reqdims : List Int) : List Int :=
  let block := List.zipWith (adjBlock near) dims reqdims
  let patch := prodI (block.map fun b => if 0 < b then b else 1)
  let someNeg := block.any fun b => decide (b ≤ 0)
  let over := decide (bufBytes < patch * elem)
  let s := if !over && someNeg then (blockSort dims).reverse.foldl (fillStep elem dims) (block, patch) else (block, patch)
  let chunk := s.1.map fun b => if 0 < b then b else 1
  let chunk1 := if over then chunk.map fun c => if scale c < 1 then 1 else scale c else chunk
  let patch1 := if over then prodI chunk1 else s.2
  (nudge elem (chunk1.map fun c => if c = 0 then 1 else c, patch1)).1

end GA.Dra
