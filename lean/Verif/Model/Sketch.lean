import Verif.Model.SprsArray

/-!
# Model: count sketch (global/src/sketch.c 85-376)

The random numbers are inputs: `lab p r`, `wt p r` are the label and the weight that process `p` draws for its row `r` (from zero). The accumulates of
rows into the result (339-366) are single steps, in any order (the elements of one accumulate: C07, C10, C85).
-/

namespace GA.Sprs
open Model

variable {V : Type}

/-- A label (sketch.c 145) from the random number `y` of 32 bits: `pnga_rand` returns `y / 0xffffffff` (mtwister.c `genRand`, base.c 5916-5931), and the
conversion to `Integer` truncates. Simplified: exact arithmetic instead of double precision. -/
def sketchLabel (sizeK y : Nat) : Nat := sizeK * y / 4294967295

/-- The array `size` after the global sum (sketch.c 126-134) on process `me`. With indices of four bytes `nprocs` numbers of four bytes are summed, but
the array has elements of eight bytes: the first `(nprocs+1)/2` elements are summed (little endian, sizes below 2^31), the others keep what the process put there. -/
def sketchSizes (idx8 : Bool) (n : Nat) (nrows : Nat → Nat) (me q : Nat) : Nat :=
  if idx8 ∨ q < (n + 1) / 2 then nrows q else if q = me then nrows me else 0

/-- `map[i]` (sketch.c 135-138) on process `me`: where block `i` of the vectors of labels and weights begins -/
def sketchMap (idx8 : Bool) (n : Nat) (nrows : Nat → Nat) (me i : Nat) : Nat :=
  1 + ((List.range i).map (sketchSizes idx8 n nrows me)).sum

/-- the loop over the elements of row `r` in one block (sketch.c 257-291, 298-332) -/
def addRowBlock [Add V] [Mul V] (w : View V) (wt : V) (r : Nat) (buf : Int → V) : Int → V :=
  (List.range (w.idx (r + 1) - w.idx r)).foldl
    (fun b k x => if x = w.jdx (w.idx r + k) then b x + wt * w.val (w.idx r + k) else b x) buf

/-- The loop over the blocks of a row (sketch.c 248-336). Block `n` is asked for (256, 297), where the number of the `n`-th block would be
`blkidx[n]`; `none` is the use of the null pointers returned for a block the process does not have. -/
def addRow [Add V] [Mul V] (l : Loc V) (wt : Nat → V) (buf : Int → V) (r : Nat) : Option (Int → V) :=
  (List.range l.blkidx.length).foldlM (fun b n => (accessColBlock l n).map fun w => addRowBlock w (wt r) r b) buf

/-- the buffer `kbuf` for label `kk` (sketch.c 236-338): the list of rows with this label is walked -/
def sketchBuf [Zero V] [Add V] [Mul V] (raw : Nat → Int) (l : Loc V) (lab : Nat → Nat) (wt : Nat → V) (kk : Nat) : Option (Int → V) :=
  (binned raw lab (List.range (l.ihi - l.ilo + 1).toNat) kk).foldlM (addRow l wt) fun _ => 0

/-- The rows one process accumulates into the result (sketch.c 214-367): label and buffer. A label outside the table `top` (218-221) is an access out of bounds. -/
def sketchLocal [Zero V] [Add V] [Mul V] (raw : Nat → Int) (l : Loc V) (lab : Nat → Nat) (wt : Nat → V) (sizeK : Nat) :
    Option (List (Nat × (Int → V))) :=
  if (List.range (l.ihi - l.ilo + 1).toNat).any fun r => decide (sizeK ≤ lab r) then none
  else ((List.range sizeK).filter fun kk => decide (binTop raw lab (List.range (l.ihi - l.ilo + 1).toNat) kk > -1)).mapM fun kk =>
    (sketchBuf raw l lab wt kk).map fun b => (kk, b)

/-- `pnga_acc(g_a, lo, hi, kbuf, &ld, &one)` (sketch.c 223-247, 339-366): row `kk` of the result, or its column if the result is transposed -/
def accRow [Add V] (jdim : Int) (trans : Bool) (g : Int → Int → V) (c : Nat × (Int → V)) : Int → Int → V := fun a b =>
  let k := if trans then b else a
  let j := if trans then a else b
  if k = c.1 ∧ 0 ≤ j ∧ j < jdim then g a b + c.2 j else g a b

/-- `pnga_sprs_array_count_sketch` (sketch.c 85-376): what all processes accumulate. `none`: a sketch with more rows than the matrix (107-110), or one of
the processes fails. -/
def countSketch [Zero V] [Add V] [Mul V] (idim : Int) (n sizeK : Nat) (raw : Nat → Nat → Int) (loc : Nat → Loc V) (lab : Nat → Nat → Nat)
    (wt : Nat → Nat → V) : Option (List (Nat × (Int → V))) :=
  if idim < sizeK then none
  else ((List.range n).mapM fun p => sketchLocal (raw p) (loc p) (lab p) (wt p) sizeK).map List.flatten

/-- the result: zero (sketch.c 212), then the accumulates in some order -/
def sketchResult [Zero V] [Add V] (jdim : Int) (trans : Bool) (cs : List (Nat × (Int → V))) : Int → Int → V :=
  cs.foldl (accRow jdim trans) fun _ _ => 0

end GA.Sprs
