import Verif.Model.SprsArray

/-!
# Model: products of sparse arrays (global/src/sparse.array.c)

Row and column indices are zero based here; the code adds one to `i`, `kdx`, `jj` and to the limits read from `g_blk`, and takes it off again.
-/

namespace GA.Sprs
open GA.Model

/-- `top`, `list`, (`idx`, `jdx`, `data`) and `lcnt` of `pnga_sprs_array_matmat_multiply` (sparse.array.c 2523-2528) -/
structure Tab (V : Type) where
  top : Nat → Int
  list : Nat → Int
  data : Nat → El V
  cnt : Nat

/-- `((i-1)*jdim+jj-1)%bufsize` (sparse.array.c 2352, 2366) -/
def slot (jdim : Int) (bufsize : Nat) (i j : Int) : Nat := ((i * jdim + j) % bufsize).toNat

/-- `while (ldx >= 0) { if (i == idx[ldx] && jj == jdx[ldx]) break; ldx = list[ldx]; }` (sparse.array.c 2354-2357), at most `fuel` passes -/
def search {V : Type} (list : Nat → Int) (data : Nat → El V) (i j : Int) : (fuel : Nat) → (ldx : Int) → Option Nat
  | 0, _ => none
  | fuel + 1, ldx =>
    if 0 ≤ ldx then
      if (data ldx.toNat).row = i ∧ (data ldx.toNat).col = j then some ldx.toNat else search list data i j fuel (list ldx.toNat)
    else none

/-- one product `v` for row `i` and column `j` (sparse.array.c 2351-2370). A remainder by zero and an access outside the buffers
(`top`, `list` and `data` have `bufsize` elements) have no result. -/
def accumulate {V : Type} [Add V] (jdim : Int) (bufsize : Nat) (t : Tab V) (e : El V) : Option (Tab V) :=
  if bufsize = 0 ∨ bufsize ≤ slot jdim bufsize e.row e.col then none
  else
    match search t.list t.data e.row e.col t.cnt (t.top (slot jdim bufsize e.row e.col)) with
    | some k => some { t with data := upd t.data k ⟨(t.data k).row, (t.data k).col, (t.data k).val + e.val⟩ }
    | none =>
      if t.cnt < bufsize then
        let s := slot jdim bufsize e.row e.col
        some ⟨upd t.top s t.cnt, upd t.list t.cnt (t.top s), upd t.data t.cnt e, t.cnt + 1⟩
      else none

/-- one pass of the loops over `i` and `k` of `SPRS_REAL_MATMAT_MULTIPLY_M` (sparse.array.c 2341-2373): `c` is the cell of the block of `A`, `ilo` the first
row of that block, `ilob..ihib` are the rows of the block of `B`. The complex version (2375-2417) differs in the arithmetic only. -/
def mulCell {V : Type} [Add V] [Mul V] (jdim : Int) (bufsize : Nat) (ilo : Int) (wa : View V) (ilob ihib : Int) (wb : View V) (t : Tab V) (c : Nat × Nat) :
    Option (Tab V) :=
  let k := wa.jdx c.2 - ilob
  if 0 ≤ k ∧ k ≤ ihib - ilob then
    ((List.range (wb.idx (k.toNat + 1) - wb.idx k.toNat)).map fun m : Nat =>
      (⟨ilo + c.1, wb.jdx (wb.idx k.toNat + m), wa.val c.2 * wb.val (wb.idx k.toNat + m)⟩ : El V)).foldlM (accumulate jdim bufsize) t
  else none

/-- the loops over the blocks (sparse.array.c 2610-2655) on process `me`. `pnga_sprs_array_get_block` (2186-2268) copies block `(l, n)` from process `l`:
the same row pointers, columns and values that process `l` sees; `g_blk` tells where they are. -/
def localProduct {V : Type} [Add V] [Mul V] (jdim : Int) (nproc bufsize : Nat) (locA locB : Nat → Loc V) (me : Nat) (t : Tab V) : Option (Tab V) :=
  (List.range nproc).foldlM (fun t l => (List.range nproc).foldlM (fun t c =>
    match accessColBlock (locA me) l, accessColBlock (locB l) c with
    | some wa, some wb =>
      (cells ((locA me).ihi - (locA me).ilo + 1).toNat wa).foldlM (mulCell jdim bufsize (locA me).ilo wa (locB l).ilo (locB l).ihi wb) t
    | _, _ => some t) t) t

/-- `row_nnz[r]` (sparse.array.c 690-691, 744, 764): the loops count the elements they copy for row `r`, which are the differences of the row pointers -/
def rowNnz {V : Type} (l : Loc V) (r : Nat) : Nat :=
  ((List.range l.blkidx.length).map fun x =>
    l.gi (x * ((l.ihi - l.ilo + 1).toNat + 1) + (r + 1)) - l.gi (x * ((l.ihi - l.ilo + 1).toNat + 1) + r)).sum

/-- `max_nnz` (sparse.array.c 770-776, 2907-2913): the maximum over the rows of all processes -/
def maxNnz {V : Type} (nproc : Nat) (loc : Nat → Loc V) : Nat :=
  ((List.range nproc).flatMap fun p => (List.range ((loc p).ihi - (loc p).ilo + 1).toNat).map fun r => rowNnz (loc p) r).foldl max 0

/-- `bufsize` (sparse.array.c 2584-2593) -/
def bufSize (nrows : Nat) (jdim : Int) (ma mb : Nat) : Nat :=
  if ((ma * mb : Nat) : Int) > jdim then nrows * jdim.toNat else nrows * ma * mb

/-- `top[i] = -1; list[i] = -1; lcnt = 0` (sparse.array.c 2603-2605); `d0` is the content of the new memory -/
def Tab.empty {V : Type} (d0 : Nat → El V) : Tab V := ⟨fun _ => -1, fun _ => -1, d0, 0⟩

/-- `pnga_sprs_array_matmat_multiply` (sparse.array.c 2522-3100, with `ENABLE_PREALLOC`) on all processes: the local parts of the product. The sorting
of the products into blocks and rows (2657-2903) is that of `assemble`. `pnga_access_ptr` aborts on a process without products (2807-2823, onesided.c
1520-1523); if every process has one, `pnga_set_irreg_distr` does not abort. -/
def matmat {V : Type} [Add V] [Mul V] (raw : Nat → Raw V) (d0 : Nat → Nat → El V) (kdimA kdimB jdim : Int) (nproc : Nat) (locA locB : Nat → Loc V) :
    Option (Nat → Option (Loc V)) :=
  if kdimA ≠ kdimB then none
  else
    let bufsize := fun p => bufSize ((locA p).ihi - (locA p).ilo + 1).toNat jdim (maxNnz nproc locA) (maxNnz nproc locB)
    let tab := fun p => localProduct jdim nproc (bufsize p) locA locB p (Tab.empty (d0 p))
    if (List.range nproc).all fun p => ((tab p).map fun t => decide (0 < t.cnt)).getD false then
      some fun p => (tab p).bind fun t => layout (raw p) jdim nproc (locA p).ilo (locA p).ihi ((List.range t.cnt).map t.data)
    else none

end GA.Sprs
