import Verif.Model.Distr

/-!
# Model: decomposition of a patch into per-process pieces (REGULAR layout)

`pnga_locate_region` (global/src/base.c 4658-4755, REGULAR branch) and the REGULAR branch of the
patch iterator `gai_iterator_init/reset/next` (global/src/iterator.c 188-216, 282-287, 319-457)
including the splitting of blocks whose byte size exceeds `MAX_INT_VALUE`.
-/

namespace GA.Model

/-- A piece of a patch: process (block number), lower corner, upper corner. -/
structure Piece where
  proc : Int
  plo : List Int
  phi : List Int
deriving Repr, DecidableEq

/-- Argument check of `pnga_locate_region` (base.c 4694-4695). -/
def regionOK : (dims lo hi : List Int) → Bool
  | d :: ds, l :: ls, h :: hs => decide (¬ ((l < 1 ∨ h > d) ∨ l > h)) && regionOK ds ls hs
  | [], [], [] => true
  | _, _, _ => false

/-- `map[d+offset] = lo[d] < _lo[d] ? _lo[d] : lo[d]` (base.c 4735-4736). -/
def clipLo : (lo blo : List Int) → List Int
  | l :: ls, b :: bs => (if l < b then b else l) :: clipLo ls bs
  | _, _ => []

/-- `map[ndim+d+offset] = hi[d] > _hi[d] ? _hi[d] : hi[d]` (base.c 4738-4739). -/
def clipHi : (hi bhi : List Int) → List Int
  | h :: hs, b :: bs => (if h > b then b else h) :: clipHi hs bs
  | _, _ => []

/-- `pnga_locate_region`, REGULAR branch (base.c 4697-4752): the process coordinates
`procT..procB` of the two corners are enumerated with the odometer loop, each block is clipped to
the patch. `none` models the return value FALSE. `candT`, `candB` are the floating point guesses
of the two `findblock` loops. -/
def locateRegion (A : RegArray) (candT candB : List Nat) (lo hi : List Int) :
    Option (List Piece) :=
  if regionOK A.dims lo hi then
    let procT := (findblocks A.nblock A.mapc candT lo).map Int.ofNat
    let procB := (findblocks A.nblock A.mapc candB hi).map Int.ofNat
    some <| (loopAll procT procB).map fun s =>
      let proc := computeIndex s (A.nblock.map Int.ofNat)
      ⟨proc, clipLo lo (owns A proc).1, clipHi hi (owns A proc).2⟩
  else none

/-- One step of the random swapping in `gaPermuteProcList` (iterator.c 91-96); `r` is
`rand() % nproc`. -/
def swapAt (l : List Nat) (i r : Nat) : List Nat :=
  (l.set r (l.getD i 0)).set i (l.getD r 0)

/-- Swap loop of `gaPermuteProcList` (iterator.c 91-96) for an arbitrary random sequence. -/
def permLoop (rand : Nat → Nat) (n : Nat) : (k : Nat) → List Nat → List Nat
  | 0, l => l
  | k + 1, l => permLoop rand n k (swapAt l (n - (k + 1)) (rand (n - (k + 1)) % n))

/-- `gaPermuteProcList` (iterator.c 78-99). -/
def permuteProcList (rand : Nat → Nat) (n : Nat) : List Nat :=
  if n = 1 then [0] else permLoop rand n n (List.range n)

/-- Product of block sizes (`nelems`). -/
def prodI : List Int → Int
  | [] => 1
  | a :: as => a * prodI as

/-- `for (i..) if (blk_size[i] > maxint) { maxidx = i; maxint = blk_size[i]; }`
(iterator.c 384-389). -/
def scanMax : (sizes : List Int) → (i maxidx : Nat) → (maxint : Int) → Nat × Int
  | [], _, mi, mx => (mi, mx)
  | s :: ss, i, mi, mx => if s > mx then scanMax ss (i + 1) i s else scanMax ss (i + 1) mi mx

/-- The loop `while (elemsize*nelems > MAX_INT_VALUE)` (iterator.c 383-393). `maxint` is *not*
reset between the passes (as in the code). `fuel` bounds the number of iterations; the lemma
`splitLoop_done` shows that the fuel used below always suffices. -/
def splitLoop (elemsize M : Int) : (fuel : Nat) → (sizes : List Int) → (maxidx : Nat) →
    (maxint : Int) → List Int
  | 0, sizes, _, _ => sizes
  | fuel + 1, sizes, mi, mx =>
    if elemsize * prodI sizes > M then
      let r := scanMax sizes 0 mi mx
      splitLoop elemsize M fuel (sizes.set r.1 (sizes.getD r.1 0 / 2)) r.1 r.2
    else sizes

/-- sum of the sizes, used as fuel -/
def sumNat : List Int → Nat
  | [] => 0
  | a :: as => a.toNat + sumNat as

/-- `blk_size[]` chosen for an oversized block (iterator.c 375-393). -/
def splitSizes (elemsize M : Int) (sizes : List Int) : List Int :=
  splitLoop elemsize M (sumNat sizes + 1) sizes 0 0

/-- Edge lengths of a patch. -/
def edges : (lo hi : List Int) → List Int
  | l :: ls, h :: hs => (h - l + 1) :: edges ls hs
  | _, _ => []

/-- `blk_dim[i] = size/blk_size[i]; if (blk_dim[i]*blk_size[i] < size) blk_dim[i]++`
(iterator.c 395-399). -/
def blkDims : (sizes blk : List Int) → List Int
  | s :: ss, b :: bs => (if s / b * b < s then s / b + 1 else s / b) :: blkDims ss bs
  | _, _ => []

/-- The part of `_iterator_hdl` used for REGULAR arrays. -/
structure RegHdl where
  count : Nat
  oversize : Bool
  blkSize : List Int
  blkDim : List Int
  blkInc : List Int
deriving Repr, DecidableEq

/-- `gai_iterator_init` (iterator.c 199-200) followed by `gai_iterator_reset` (286). -/
def regInit : RegHdl := ⟨0, false, [], [], []⟩

/-- `lobuf[i] += blk_inc[i]*blk_size[i]` (iterator.c 416). -/
def subLo : (blo inc size : List Int) → List Int
  | b :: bs, i :: is, s :: ss => (b + i * s) :: subLo bs is ss
  | _, _, _ => []

/-- `tmp = lobuf[i]+blk_size[i]-1; if (tmp < hibuf[i]) hibuf[i] = tmp` (iterator.c 417-418). -/
def subHi : (lobuf bhi size : List Int) → List Int
  | b :: bs, h :: hs, s :: ss => (if b + s - 1 < h then b + s - 1 else h) :: subHi bs hs ss
  | _, _, _ => []

/-- Carry loop `for(i=0;i<ndim-1;i++) if (blk_inc[i]>=blk_dim[i]) {blk_inc[i]=0; blk_inc[i+1]++;}`
(iterator.c 444-449), after `blk_inc[0]++`. -/
def carry : (inc dim : List Int) → List Int
  | i :: j :: is, d :: ds => if i ≥ d then 0 :: carry ((j + 1) :: is) ds else i :: carry (j :: is) ds
  | is, _ => is

/-- increment of the first component -/
def inc0 : List Int → List Int
  | [] => []
  | i :: is => (i + 1) :: is

/-- Update at the end of `gai_iterator_next` (iterator.c 435-455). -/
def regAdvance (h : RegHdl) : RegHdl :=
  if !h.oversize then { h with count := h.count + 1 }
  else
    let inc := carry (inc0 h.blkInc) h.blkDim
    if inc.getLastD 0 ≥ h.blkDim.getLastD 0 then
      { h with blkInc := inc, count := h.count + 1, oversize := false }
    else { h with blkInc := inc }

/-- `ok` test (iterator.c 357-363): no component with `phi[i]<plo[i]`. -/
def pieceOK : (plo phi : List Int) → Bool
  | l :: ls, h :: hs => decide (¬ h < l) && pieceOK ls hs
  | _, _ => true

/-- Handling of an `ok` block (iterator.c 364-420): possibly start splitting, then compute the
sub-block. `none` models a division by zero (`blk_size[i] = 0`, iterator.c 396). -/
def regEmit (elemsize M : Int) (h : RegHdl) (p : Piece) : Option (Piece × RegHdl) :=
  let sizes := edges p.plo p.phi
  let h1 : Option RegHdl :=
    if !h.oversize && decide (elemsize * prodI sizes > M) then
      let blk := splitSizes elemsize M sizes
      if blk.any (· = 0) then none
      else some { h with oversize := true, blkSize := blk, blkDim := blkDims sizes blk,
                         blkInc := sizes.map fun _ => 0 }
    else some h
  h1.map fun h1 =>
    if h1.oversize then
      let lob := subLo p.plo h1.blkInc h1.blkSize
      (⟨p.proc, lob, subHi lob p.phi h1.blkSize⟩, regAdvance h1)
    else (p, regAdvance h1)

/-- Result of `gai_iterator_next`. -/
inductive NextResult where
  | done                                  -- return 0
  | crash                                 -- division by zero
  | piece (p : Piece) (h : RegHdl)        -- return 1
deriving Repr, DecidableEq

/-- `gai_iterator_next`, REGULAR branch (iterator.c 336-457). `perm` is `hdl->proclistperm`, the
list of pieces is `hdl->map`/`hdl->proclist`. The first argument is the number of blocks not yet
visited and bounds the `while(!ok)` loop. Blocks that are not `ok` are never oversized, so the
code always takes `count++` for them. -/
def regNext (elemsize M : Int) (pieces : List Piece) (perm : List Nat) :
    (k : Nat) → RegHdl → NextResult
  | 0, _ => .done
  | k + 1, h =>
    if h.count ≥ pieces.length then .done
    else
      let p := pieces.getD (perm.getD h.count 0) ⟨0, [], []⟩
      if pieceOK p.plo p.phi then
        match regEmit elemsize M h p with
        | none => .crash
        | some (q, h') => .piece q h'
      else regNext elemsize M pieces perm k { h with count := h.count + 1 }

/-- The loop `while (gai_iterator_next(..)) {..}` of put/get/acc: the list of sub-blocks that are
visited, or `none` if the iterator crashes or more than `fuel` sub-blocks are visited. -/
def regCollect (elemsize M : Int) (pieces : List Piece) (perm : List Nat) :
    (fuel : Nat) → RegHdl → Option (List Piece)
  | 0, _ => none
  | fuel + 1, h =>
    match regNext elemsize M pieces perm (pieces.length + 1) h with
    | .done => some []
    | .crash => none
    | .piece p h' => (regCollect elemsize M pieces perm fuel h').map (p :: ·)

end GA.Model
