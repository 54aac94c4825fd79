import Verif.Model.Distr

/-!
# Model: default data distribution

`ddb_h2` (global/src/decomp.c 611-709) and the construction of the distribution map in
`pnga_allocate` (global/src/base.c 2549-2643; the same code is in `pnga_overlay` and
`pnga_set_property`).

`ddb_h2` is called with `threshold = 0.0` and `bias = 0`; the load balance ratio `ub` is never
negative, so the exhaustive search (decomp.c 694-696) is not reached and not modelled, and
`dd_su` (698) only sets `blk`, which is overwritten afterwards. Memory allocation succeeds.
-/

namespace GA.Model

/-! ## Prime factors -/

/-- `for(j=0,i=1;i<=npes;i++) if(npes%i==0) pdivs[j++] = i;` (decomp.c 653) -/
def divisors (npes : Nat) : List Nat := (List.range' 1 npes).filter fun i => npes % i = 0

/-- The `do`-loop of decomp.c 656-666. The list holds `pdivs[k..npdivs-1]`: the entry `pdivs[k]` is
kept and the later entries divisible by it are divided by it and moved together
(`pdivs[h++] = pdivs[j]/pdivs[k]`; the entry written never lies behind the entry read). The first
argument bounds the number of rounds. -/
def sieve : (fuel : Nat) → List Nat → List Nat
  | f + 1, p :: rest => p :: sieve f ((rest.filter fun q => q % p = 0).map fun q => q / p)
  | _, l => l

/-- `pdivs[1..npdivs-1]` after the loop -/
def primeDivs (npes : Nat) : List Nat := sieve npes ((divisors npes).drop 1)

/-! ## Process grid -/

/-- A `double` computed at decomp.c 680-685: `none` stands for 1.1, `some (a, b)` for
`a/(double) b`. -/
abbrev Waste := Option (Int × Int)

/-- `(tard[i]<p0*pedims[i]) ? 1.1 : (tard[i]%(p0*pedims[i]))/(double) tard[i]` -/
def waste (t : Int) (pe p0 : Nat) : Waste :=
  if t < (p0 * pe : Nat) then none else some (t % (p0 * pe : Nat), t)

/-- The loop over `j` (decomp.c 682-687) with `k` rounds left: `q` is the best value so far and `h`
its dimension. `less` is the comparison `w<q` of doubles; it is a parameter because it depends on
rounding. -/
def pickLoop (less : Waste → Waste → Bool) (tard : List Int) (pe : List Nat) (p0 istart : Nat) :
    (k j : Nat) → (q : Waste) → (h : Nat) → Nat
  | 0, _, _, h => h
  | k + 1, j, q, h =>
    let ilook := (istart + j) % tard.length
    let w := waste (tard.getD ilook 0) (pe.getD ilook 0) p0
    if less w q then pickLoop less tard pe p0 istart k (j + 1) w ilook
    else pickLoop less tard pe p0 istart k (j + 1) q h

/-- `pedims[h] *= p0` for the dimension found (decomp.c 679-688) -/
def dealOne (less : Waste → Waste → Bool) (tard : List Int) (pe : List Nat) (p0 istart : Nat) :
    List Nat :=
  pe.modify (pickLoop less tard pe p0 istart (tard.length - 1) 1
    (waste (tard.getD istart 0) (pe.getD istart 0) p0) istart) (· * p0)

/-- `for(k=npdivs-1;k>=1;k--)` (decomp.c 678-690): the list holds the remaining factors, largest
index first; `istart = (istart+1)%ndims` because `bias==0`. -/
def deal (less : Waste → Waste → Bool) (tard : List Int) : (factors : List Nat) → (istart : Nat) →
    (pe : List Nat) → List Nat
  | p0 :: fs, istart, pe =>
    deal less tard fs ((istart + 1) % tard.length) (dealOne less tard pe p0 istart)
  | [], _, pe => pe

/-- `if (blk[i]<1) blk[i] = 1; tard[i] = (ardims[i]+blk[i]-1)/blk[i]; if (tard[i]<1) tard[i] = 1`
(decomp.c 632-637) -/
def granules : (dims blk : List Int) → List Int
  | d :: ds, b :: bs =>
    let b := if b < 1 then 1 else b
    let t := (d + b - 1) / b
    (if t < 1 then 1 else t) :: granules ds bs
  | _, _ => []

/-- `pedims` of `ddb_h2` -/
def procGrid (less : Waste → Waste → Bool) (npes : Nat) (dims blk : List Int) : List Nat :=
  deal less (granules dims blk) (primeDivs npes).reverse 0 (dims.map fun _ => 1)

/-- `blk[i] = (tard[i]+pedims[i]-1)/pedims[i]` (decomp.c 700-705); `none` is the error for a zero
grid dimension. -/
def gridBlk : (tard : List Int) → (pe : List Nat) → Option (List Int)
  | t :: ts, p :: ps =>
    if p = 0 then none else (gridBlk ts ps).map fun r => ((t + p - 1) / p) :: r
  | _, _ => some []

/-! ## Distribution map -/

/-- `blk[]` before the call of `ddb_h2` (base.c 2554-2561): the chunk hints if `chunk[0]!=0`,
otherwise -1; 1 in dimensions of extent 1. -/
def startBlk (dims chunk : List Int) : List Int :=
  (dims.zip (if chunk.headD 0 ≠ 0 then (chunk.zip dims).map fun c => min c.1 c.2
    else dims.map fun _ => -1)).map fun b => if b.1 = 1 then 1 else b.2

/-- `pcut` (base.c 2601-2607) -/
def pcutOf (d c b : Int) (pe : Nat) : Int :=
  if c > 1 then ((d - 1) / min c d + 1) - (b - 1) * pe else d - (b - 1) * pe

/-- Number of elements of block `p` (base.c 2610-2614) -/
def blkLen (d c b pcut : Int) (p : Nat) : Int :=
  let b := if (p : Int) ≥ pcut then b - 1 else b
  if c > 1 then b * min c d else b

/-- The loop `for (nblock=i=p=0; (p<pe[d]) && (i<dims[d]); p++, nblock++)` (base.c 2609-2616): the
entries written to `map`. `k` is `pe[d]-p`. -/
def axisMap (d c b pcut : Int) : (k p : Nat) → (i : Int) → List Int
  | k + 1, p, i =>
    if i < d then (i + 1) :: axisMap d c b pcut k (p + 1) (i + blkLen d c b pcut p) else []
  | 0, _, _ => []

/-- all dimensions: the parts of `mapALL` -/
def axisMaps : (dims chunk blk : List Int) → (pe : List Nat) → List (List Int)
  | d :: ds, c :: cs, b :: bs, p :: ps => axisMap d c b (pcutOf d c b p) p 0 0 :: axisMaps ds cs bs ps
  | _, _, _, _ => []

/-- The distribution of a new array (base.c 2549-2643) on `npes` processes (`GAnproc`, the group
size or the number of processes of a restricted array): `nblock[d] = min(pe[d], nblock)` is the
number of entries written, `mapc` the entries of all dimensions. `none` if `ddb_h2` ends in an
error. -/
def defaultArray (less : Waste → Waste → Bool) (npes : Nat) (dims chunk : List Int)
    (width : List Nat) : Option RegArray :=
  let blk0 := startBlk dims chunk
  let pe := procGrid less npes dims blk0
  (gridBlk (granules dims blk0) pe).map fun blk =>
    let maps := axisMaps dims chunk blk pe
    ⟨dims, maps.map List.length, maps.flatten, width⟩

end GA.Model
