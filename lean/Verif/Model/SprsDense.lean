import Verif.Model.SprsArray

/-!
# Model: sparse and dense arrays (global/src/sparse.array.c)

A dense array is given by its two internal dimensions and its content; internal subscripts start at one and the first one is the fastest. Through the C
interface element `(i, j)` of the user, from zero, has the internal subscripts `(j+1, i+1)`; the functions below are called with `trans = 1` from C and with
`trans = 0` from Fortran.
-/

namespace GA.Sprs
open GA.Model

/-- a dense two dimensional global array -/
structure Dns (V : Type) where
  d0 : Int
  d1 : Int
  at' : Int → Int → V

/-- a rectangular patch, subscripts from one -/
structure Box where
  lo0 : Int
  hi0 : Int
  lo1 : Int
  hi1 : Int

/-! ## dense to sparse -/

/-- `SPRS_REAL_FILTER_M` (sparse.array.c 3222-3248; the complex version 3250-3279 differs in the comparison with zero): the elements added by a process with
the patch `b`; `mem k` is the element at distance `k` from the pointer returned by `pnga_access_ptr`. The distance of two columns is taken as the width
of the patch. -/
def filterElems {V : Type} [Zero V] [DecidableEq V] (trans : Bool) (b : Box) (mem : Int → V) : List (El V) :=
  (List.range (b.hi1 - b.lo1 + 1).toNat).flatMap fun jj : Nat => (List.range (b.hi0 - b.lo0 + 1).toNat).filterMap fun ii : Nat =>
    let i := b.lo0 + ii
    let j := b.lo1 + jj
    let val := mem (ii + jj * (b.hi0 - b.lo0 + 1))
    if val ≠ 0 ∨ i = j then some (if trans then ⟨j - 1, i - 1, val⟩ else ⟨i - 1, j - 1, val⟩) else none

/-- `pnga_sprs_array_create_from_dense` (sparse.array.c 3290-3373): `box p` is the patch of process `p` (`pnga_distribution`), `mem p` its memory.
`pnga_access_ptr` aborts on an empty patch. -/
def fromDense {V : Type} [Zero V] [DecidableEq V] (raw : Nat → Raw V) (g0 : Nat → El V) (trans : Bool) (d0 d1 : Int) (nproc : Nat) (box : Nat → Box)
    (mem : Nat → Int → V) (s1 s2 : List Ev) : Option (Nat → Option (Loc V)) :=
  if (List.range nproc).any fun p => decide ((box p).lo0 > (box p).hi0 ∨ (box p).lo1 > (box p).hi1) then none
  else assemble raw g0 (if trans then d1 else d0) (if trans then d0 else d1) nproc (fun p => filterElems trans (box p) (mem p)) s1 s2

/-! ## sparse to dense -/

/-- the checks of `pnga_set_irreg_distr` for one dimension (base.c 1739-1757) -/
def dimOK (d : Int) (map : List Int) : Bool :=
  decide ((map.length : Int) ≤ d) && (map.all fun m => decide (1 ≤ m ∧ m ≤ d + 1)) && ((map.zip map.tail).all fun m => decide (m.1 ≤ m.2))

/-- `memcpy` of single elements to the distances `W`, in order, in new memory of `size` elements that is zero. A store outside has no result. -/
def stores {V : Type} [Zero V] (size : Int) (W : List (Int × V)) : Option (Int → V) :=
  if W.all fun w => decide (0 ≤ w.1 ∧ w.1 < size) then some (W.foldl (fun m w => fun x => if x = w.1 then w.2 else m x) fun _ => 0) else none

/-- the stores of one process with `trans` (sparse.array.c 3466-3511): `(i-lo[1]+1)*ld+jdx-lo[0]+1` -/
def sparseStores {V : Type} (ld : Int) (l : Loc V) : List (Int × V) :=
  l.blkidx.flatMap fun c =>
    match accessColBlock l c with
    | some w => (cells (l.ihi - l.ilo + 1).toNat w).map fun k => ((k.1 : Int) * ld + w.jdx k.2, w.val k.2)
    | none => []

/-- the `map` of `pnga_sprs_array_create_from_sparse` (sparse.array.c 3411-3430): `nprocs+1` entries, the lower limits from entry 1 on -/
def sparseMap {V : Type} (trans : Bool) (nproc : Nat) (loc : Nat → Loc V) : List Int :=
  (0 :: (List.range nproc).map fun p => (loc p).ilo + 1).set (if trans then 0 else nproc) 1

/-- `pnga_sprs_array_create_from_sparse` (sparse.array.c 3386-3515). Both dimensions are passed in the same order for C and Fortran (3432-3433). Without
`trans` entry 0 of the map is zero and `pnga_set_irreg_distr` aborts, so the rest is that of `trans`: process `p` has the internal patch
`1..idim, ilo+1..ihi+1` with leading dimension `idim`; `pnga_access_ptr` aborts if that is not inside the array. -/
def fromSparse {V : Type} [Zero V] (trans : Bool) (idim jdim : Int) (nproc : Nat) (loc : Nat → Loc V) : Option (Dns V) :=
  let map := sparseMap trans nproc loc
  let k := if trans then 1 else nproc
  if ¬ (dimOK idim (map.take k) = true ∧ dimOK jdim (map.drop k) = true) then none
  else if (List.range nproc).any fun p => decide ((loc p).ilo > (loc p).ihi ∨ (loc p).ihi + 1 > jdim) then none
  else
    let mem := fun p => stores (idim * ((loc p).ihi - (loc p).ilo + 1)) (sparseStores idim (loc p))
    if (List.range nproc).all fun p => (mem p).isSome then
      some ⟨idim, jdim, fun x0 x1 =>
        match (List.range nproc).find? fun p => decide ((loc p).ilo + 1 ≤ x1 ∧ x1 ≤ (loc p).ihi + 1) with
        | some p => ((mem p).getD fun _ => 0) (x0 - 1 + (x1 - ((loc p).ilo + 1)) * idim)
        | none => 0⟩
    else none

/-- `pnga_sprs_array_get_column` (sparse.array.c 3113-3220) on one process: its part of the vector. The prefix sums of the numbers of rows are the lower
limits, so the process has the same rows of the vector and of the sparse array. -/
def getColumn {V : Type} [Zero V] (jdim : Int) (nproc : Nat) (icol : Int) (l : Loc V) : Nat → V :=
  let iblock := Int.tdiv (icol * nproc) jdim
  l.blkidx.foldl (fun (d : Nat → V) (c : Nat) =>
    if (c : Int) = iblock then
      match accessColBlock l c with
      | some w => (cells (l.ihi - l.ilo + 1).toNat w).foldl (fun d k => if w.jdx k.2 = icol then upd d k.1 (w.val k.2) else d) d
      | none => d
    else d) fun _ => 0

/-! ## products -/

/-- `+=` at the distances `W`, in order, in memory that is zero -/
def accums {V : Type} [Zero V] [Add V] (size : Int) (W : List (Int × V)) : Option (Int → V) :=
  if W.all fun w => decide (0 ≤ w.1 ∧ w.1 < size) then some (W.foldl (fun m w => fun x => if x = w.1 then m x + w.2 else m x) fun _ => 0) else none

/-- `pnga_get` of the patch that starts at `lo0`, `lo1` into a buffer with leading dimension `ld` -/
def getBox {V : Type} (B : Dns V) (lo0 lo1 ld : Int) (k : Int) : V := B.at' (lo0 + k % ld) (lo1 + k / ld)

/-- the result of a product, from the memory of the processes: process `p` has the internal patch `1..d0, lo p..hi p` -/
def gather {V : Type} [Zero V] (d0 d1 : Int) (nproc : Nat) (lo hi : Nat → Int) (mem : Nat → Option (Int → V)) : Option (Dns V) :=
  if (List.range nproc).all fun p => (mem p).isSome then
    some ⟨d0, d1, fun x0 x1 =>
      match (List.range nproc).find? fun p => decide (lo p ≤ x1 ∧ x1 ≤ hi p) with
      | some p => ((mem p).getD fun _ => 0) (x0 - 1 + (x1 - lo p) * d0)
      | none => 0⟩
  else none

/-- block column `l` of the product and block `c` of `A` in `pnga_sprs_array_sprsdns_multiply` with `trans` (sparse.array.c 3517-3531, 3711-3835): the
additions to the memory of `g_c`. The columns of the product are taken from the distribution of the columns of `A` (3715). -/
def sprsdnsBlock {V : Type} [Mul V] (kdim jdim : Int) (nproc : Nat) (B : Dns V) (la : Loc V) (l c : Nat) : List (Int × V) :=
  match accessColBlock la c with
  | some w =>
    let loC := (colDistribution kdim nproc l).1 + 1
    let hiC := (colDistribution kdim nproc l).2 + 1
    let jloA := (colDistribution kdim nproc c).1
    let ldB := hiC - loC + 1
    let buf := getBox B loC (jloA + 1) ldB
    (cells (la.ihi - la.ilo + 1).toNat w).flatMap fun k => (List.range ldB.toNat).map fun j : Nat =>
      (loC - 1 + j + k.1 * jdim, w.val k.2 * buf ((w.jdx k.2 - jloA) * ldB + j))
  | none => []

/-- `pnga_access_ptr` (3750) and `pnga_get` (3777) do not abort: the columns of the product and the patch of `B` are inside the arrays -/
def sprsdnsOK {V : Type} (kdim : Int) (nproc : Nat) (B : Dns V) (la : Loc V) : Bool :=
  (List.range nproc).all fun l => la.blkidx.all fun c =>
    decide ((colDistribution kdim nproc l).1 ≤ (colDistribution kdim nproc l).2 ∧ (colDistribution kdim nproc l).2 + 1 ≤ B.d0 ∧
      (colDistribution kdim nproc c).2 + 1 ≤ B.d1 ∧ la.ilo ≤ la.ihi)

/-- `pnga_sprs_array_sprsdns_multiply` (sparse.array.c 3594-3840) with `trans`: `A` is sparse with dimensions `idim`, `kdim`, the internal dimensions of the
dense `B` are its columns and rows. Process `p` has the rows of the product that it has of `A` (3666-3694). -/
def sprsdns {V : Type} [Zero V] [Add V] [Mul V] (idim kdim : Int) (nproc : Nat) (locA : Nat → Loc V) (B : Dns V) : Option (Dns V) :=
  if kdim ≠ B.d1 then none
  else if ¬ ((nproc : Int) ≤ idim ∧ 1 ≤ B.d0) then none
  else if ¬ ((List.range nproc).all fun p => sprsdnsOK kdim nproc B (locA p)) then none
  else
    gather B.d0 idim nproc (fun p => (locA p).ilo + 1) (fun p => (locA p).ihi + 1) fun p =>
      accums (B.d0 * ((locA p).ihi - (locA p).ilo + 1)) ((List.range nproc).flatMap fun l => (locA p).blkidx.flatMap fun c =>
        sprsdnsBlock kdim B.d0 nproc B (locA p) l c)

/-- block column `l` and block row `m` of `B` in `pnga_sprs_array_dnssprs_multiply` with `trans` (sparse.array.c 3844-3878, 4080-4205) on a process with
the rows `ilo..ihi` (from one) of the product. The columns of the product are taken from the distribution of the rows of `B` (4087). -/
def dnssprsBlock {V : Type} [Mul V] (kdim jdim : Int) (nproc me : Nat) (A : Dns V) (ilo ihi : Int) (locB : Nat → Loc V) (l m : Nat) : List (Int × V) :=
  match accessColBlock (locB m) l with
  | some w =>
    let loC := (rowDistribution kdim nproc me l).1 + 1
    let iloB := (locB m).ilo
    let ihiB := (locB m).ihi
    let jloB := (colDistribution jdim nproc l).1
    let ldA := ihiB - iloB + 1
    let buf := getBox A (iloB + 1) ilo ldA
    (List.range (ihi - ilo + 1).toNat).flatMap fun i : Nat => (cells (ihiB - iloB + 1).toNat w).map fun k =>
      (loC - 1 + (w.jdx k.2 - jloB) + i * jdim, buf (i * ldA + k.1) * w.val k.2)
  | none => []

/-- `pnga_access_ptr` (4120) and `pnga_get` (4145) do not abort -/
def dnssprsOK {V : Type} (kdim jdim : Int) (nproc me : Nat) (A : Dns V) (ilo ihi : Int) (locB : Nat → Loc V) : Bool :=
  (List.range nproc).all fun l => (List.range nproc).all fun m =>
    decide ((rowDistribution kdim nproc me l).1 ≤ (rowDistribution kdim nproc me l).2 ∧ (rowDistribution kdim nproc me l).2 + 1 ≤ jdim ∧ ilo ≤ ihi) &&
      (decide (accessColBlock (locB m) l).isNone || decide ((locB m).ihi + 1 ≤ A.d0))

/-- `pnga_sprs_array_dnssprs_multiply` (sparse.array.c 3943-4209) with `trans`: `B` is sparse with dimensions `kdim`, `jdim`. The columns of the dense `A` are
compared with the columns of `B` (3992-3996). -/
def dnssprs {V : Type} [Zero V] [Add V] [Mul V] (kdim jdim : Int) (nproc : Nat) (A : Dns V) (locB : Nat → Loc V) : Option (Dns V) :=
  if A.d0 ≠ jdim then none
  else if ¬ ((nproc : Int) ≤ A.d1 ∧ 1 ≤ jdim) then none
  else
    let ilo := fun p => ownLo A.d1 nproc p + 1
    let ihi := fun p => limHi A.d1 nproc p + 1
    if ¬ ((List.range nproc).all fun p => dnssprsOK kdim jdim nproc p A (ilo p) (ihi p) locB) then none
    else
      gather jdim A.d1 nproc ilo ihi fun p =>
        accums (jdim * (ihi p - ilo p + 1)) ((List.range nproc).flatMap fun l => (List.range nproc).flatMap fun m =>
          dnssprsBlock kdim jdim nproc p A (ilo p) (ihi p) locB l m)

end GA.Sprs
