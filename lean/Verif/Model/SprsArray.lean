import Verif.Model.OneSided
import Verif.Spec.Sprs
import Mathlib.Algebra.Ring.Defs

/-!
# Model: distributed sparse arrays (global/src/sparse.array.c)

Row indices, column indices and limits are zero based `Int`s; positions, counts and process numbers are `Nat`s. All quantities that the code divides are
not negative, so the division of `Int` is that of C. Values have an arbitrary type `V`. A global array with an irregular distribution is modelled by
its content, as a function of the (zero based) position; the distribution is the list of the first positions of the processes (C02, C06 treat such
arrays). `none` is an abort with `pnga_error` or an access outside an array. `longidx` and the four byte indices run through the same code; only the
widths differ, which is not modelled.
-/

namespace GA.Sprs
open GA.Model

/-- one element: `idx[k]`, `jdx[k]`, `val[k]` -/
abbrev El (V : Type) := GA.Spec.Sprs.Entry V

/-! ## adding elements -/

/-- `idx`, `jdx`, `val`, `nval` and `maxval` of a sparse array that is not yet assembled (sparse.array.h) -/
structure Buf (V : Type) where
  nval : Nat
  maxval : Nat
  data : Nat → El V

/-- `INIT_BUF_SIZE` (sparse.array.c 74) -/
def initBuf : Nat := 1024

/-- `pnga_sprs_array_create` (sparse.array.c 145-161); `raw` is the content of the new memory -/
def create {V : Type} (raw : Nat → El V) : Buf V := ⟨0, initBuf, raw⟩

/-- `pnga_sprs_array_add_element` (sparse.array.c 191-223); `raw` is the content of the memory of a larger buffer before the copy. An access outside the
buffer has no result. -/
def addElement {V : Type} (raw : Nat → El V) (b : Buf V) (e : El V) : Option (Buf V) :=
  let b' : Buf V := if b.nval ≥ b.maxval then { b with maxval := 2 * b.maxval, data := fun k => if k < b.nval then b.data k else raw k } else b
  if b'.nval < b'.maxval then some { b' with nval := b'.nval + 1, data := upd b'.data b'.nval e } else none

/-- successive calls -/
def addAll {V : Type} (raw : Nat → El V) : (es : List (El V)) → Buf V → Option (Buf V)
  | [], b => some b
  | e :: es, b => (addElement raw b e).bind (addAll raw es)

/-- the elements in the buffer, in the order of the loops over `i < nval` -/
def Buf.items {V : Type} (b : Buf V) : List (El V) := (List.range b.nval).map b.data

/-! ## linked lists -/

/-- `top`, `list` and `count` of the sorting loops -/
structure Bins where
  top : Nat → Int
  list : Nat → Int
  count : Nat → Nat

/-- `top[i] = -1; count[i] = 0` (sparse.array.c 320-323, 489-493, 712-715). `list` is not initialised. -/
def Bins.empty (raw : Nat → Int) : Bins := ⟨fun _ => -1, raw, fun _ => 0⟩

/-- `count[q]++; list[i] = top[q]; top[q] = i` (sparse.array.c 327-329, 499-501, 722-724) -/
def Bins.add (b : Bins) (i q : Nat) : Bins := ⟨upd b.top q i, upd b.list i (b.top q), upd b.count q (b.count q + 1)⟩

/-- the loop over the elements `i, i+1, ..` with bins `keys` -/
def Bins.addAll : (keys : List Nat) → (i : Nat) → Bins → Bins
  | [], _, b => b
  | q :: qs, i, b => Bins.addAll qs (i + 1) (b.add i q)

/-- `while (j >= 0) { ..; j = list[j]; }`, at most `fuel` passes -/
def Bins.walk (list : Nat → Int) : (fuel : Nat) → (j : Int) → List Nat
  | 0, _ => []
  | fuel + 1, j => if 0 ≤ j then j.toNat :: Bins.walk list fuel (list j.toNat) else []

/-- the elements copied by the walk through bin `q` of `es` sorted by `key` -/
def binned {α : Type} (raw : Nat → Int) (key : α → Nat) (es : List α) (q : Nat) : List α :=
  let b := Bins.addAll (es.map key) 0 (Bins.empty raw)
  (Bins.walk b.list es.length (b.top q)).filterMap (es[·]?)

/-- `count[q]` after the loop -/
def binCount {α : Type} (raw : Nat → Int) (key : α → Nat) (es : List α) (q : Nat) : Nat :=
  (Bins.addAll (es.map key) 0 (Bins.empty raw)).count q

/-- `top[q]` after the loop -/
def binTop {α : Type} (raw : Nat → Int) (key : α → Nat) (es : List α) (q : Nat) : Int :=
  (Bins.addAll (es.map key) 0 (Bins.empty raw)).top q

/-! ## limits -/

/-- `iproc = (idx*nproc)/dim; if (iproc >= nproc) iproc = nproc-1;` (sparse.array.c 325-326, 497-498) -/
def owner (dim : Int) (nproc : Nat) (x : Int) : Nat :=
  let p := x * nproc / dim
  if p ≥ nproc then nproc - 1 else p.toNat

/-- `while ((lo*nproc)/dim < p) lo++;` at most `fuel` passes -/
def stepUp (dim : Int) (nproc : Nat) (p : Int) : (fuel : Nat) → (lo : Int) → Int
  | 0, lo => lo
  | fuel + 1, lo => if lo * nproc / dim < p then stepUp dim nproc p fuel (lo + 1) else lo

/-- `while ((lo*nproc)/dim > p) lo--;` at most `fuel` passes -/
def stepDown (dim : Int) (nproc : Nat) (p : Int) : (fuel : Nat) → (lo : Int) → Int
  | 0, lo => lo
  | fuel + 1, lo => if lo * nproc / dim > p then stepDown dim nproc p fuel (lo - 1) else lo

/-- `lo = (dim*p)/nproc` and the two loops (sparse.array.c 902-908, 940-946) -/
def bound (dim : Int) (nproc : Nat) (p : Int) : Int :=
  stepDown dim nproc p (dim.toNat + 1) (stepUp dim nproc p (dim.toNat + 1) (dim * p / nproc))

/-- lower limit in `pnga_sprs_array_assemble` (sparse.array.c 599-608): with a last correction -/
def ownLo (dim : Int) (nproc : Nat) (p : Nat) : Int :=
  let l := bound dim nproc p
  if l * nproc / dim ≠ p then l + 1 else l

/-- upper limit (sparse.array.c 609-620, 909-918, 947-956) -/
def limHi (dim : Int) (nproc : Nat) (p : Nat) : Int :=
  if p + 1 < nproc then bound dim nproc (p + 1) - 1 else dim - 1

/-- `pnga_sprs_array_row_distribution` (sparse.array.c 889-921) called by process `me` -/
def rowDistribution (idim : Int) (nproc me p : Nat) : Int × Int :=
  if p = me then (ownLo idim nproc me, limHi idim nproc me) else (bound idim nproc p, limHi idim nproc p)

/-- `pnga_sprs_array_column_distribution` (sparse.array.c 932-957) -/
def colDistribution (jdim : Int) (nproc p : Nat) : Int × Int := (bound jdim nproc p, limHi jdim nproc p)

/-! ## assemble: moving the elements to the owners of the rows -/

/-- one entry of the interleaving: process and target -/
abbrev Ev := Nat × Nat

/-- the targets of process `me` in the order of the loops `iproc = (i+me)%nproc` with `count[iproc] > 0` (sparse.array.c 381-393, 441-443) -/
def targets (nproc : Nat) (count : Nat → Nat) (me : Nat) : List Nat :=
  ((List.range nproc).map fun i => (i + me) % nproc).filter fun q => 0 < count q

/-- the targets of process `p` in `pnga_sprs_array_assemble`, in order -/
def program {V : Type} (raw : Nat → Nat → Int) (idim : Int) (nproc : Nat) (adds : Nat → List (El V)) (p : Nat) : List Nat :=
  targets nproc (binCount (raw p) (fun e : El V => owner idim nproc e.row) (adds p)) p

/-- `g_offset` and the `offset` arrays of all processes -/
structure Tickets where
  next : Nat → Nat
  off : Nat → Nat → Nat

/-- `offset[iproc] = pnga_read_inc(g_offset, &iproc, count[iproc])` (sparse.array.c 391) of process `ev.1` for target `ev.2` -/
def ticket (count : Nat → Nat → Nat) (t : Tickets) (ev : Ev) : Tickets :=
  ⟨upd t.next ev.2 (t.next ev.2 + count ev.1 ev.2), upd t.off ev.1 (upd (t.off ev.1) ev.2 (t.next ev.2))⟩

/-- all `pnga_read_inc` calls in the order `s`; `g_offset` and `offset` are zeroed first (sparse.array.c 378-380) -/
def tickets (count : Nat → Nat → Nat) (s : List Ev) : Tickets := s.foldl (ticket count) ⟨fun _ => 0, fun _ _ => 0⟩

/-- `map[i] = map[i-1] + size[i-1]` (sparse.array.c 406-410), zero based -/
def mapOf (size : Nat → Nat) (q : Nat) : Nat := ((List.range q).map size).sum

/-- `pnga_put` of a contiguous piece -/
def putPiece {α : Type} (g : Nat → α) (lo : Nat) (buf : List α) : Nat → α := fun x => if lo ≤ x then (buf[x - lo]?).getD (g x) else g x

/-- the puts in the order `s` (sparse.array.c 440-496): `buf p q` is what process `p` sends to process `q`. The three arrays `g_data`, `g_i`, `g_j` have
the same layout and are filled by the same calls, so they are one array of elements here. -/
def puts {α : Type} (buf : Nat → Nat → List α) (lo : Nat → Nat → Nat) (g : Nat → α) (s : List Ev) : Nat → α :=
  s.foldl (fun g ev => putPiece g (lo ev.1 ev.2) (buf ev.1 ev.2)) g

/-! ## assemble: compressed rows -/

/-- what process `me` keeps: `ilo`, `ihi`, `blkidx`, `offset`, `blksize` (the number of blocks is their length) and its parts of `g_i`, `g_j`,
`g_data`; `tot` is the number of elements -/
structure Loc (V : Type) where
  ilo : Int
  ihi : Int
  blkidx : List Nat
  off : List Nat
  blksize : List Nat
  gi : Nat → Nat
  gj : Nat → Int
  gv : Nat → V
  tot : Nat

/-- the copy loop of one row (sparse.array.c 738-745): `jldx[jcnt] = ..; vptr[icnt] = ..; icnt++; jcnt++`. `(icnt, jcnt, gj, gv)` is the state. -/
def copyRow {V : Type} (ncnt : Nat) : (row : List (El V)) → Nat × Nat × (Nat → Int) × (Nat → V) → Nat × Nat × (Nat → Int) × (Nat → V)
  | [], s => s
  | e :: es, (icnt, jcnt, gj, gv) => copyRow ncnt es (icnt + 1, jcnt + 1, upd gj jcnt e.col, upd gv (ncnt + icnt) e.val)

/-- state of the loops over blocks and rows -/
structure CState (V : Type) where
  gi : Nat → Nat
  gj : Nat → Int
  gv : Nat → V
  ncnt : Nat
  jcnt : Nat
  off : List Nat

/-- the loop over the rows of block `i` (sparse.array.c 734-746): row `r` of the list is `top[r]`, `list[top[r]]`, .. -/
def copyRows {V : Type} (base ncnt : Nat) : (rows : List (List (El V))) → (r : Nat) →
    (Nat → Nat) × Nat × Nat × (Nat → Int) × (Nat → V) → (Nat → Nat) × Nat × Nat × (Nat → Int) × (Nat → V)
  | [], _, s => s
  | row :: rows, r, (gi, icnt, jcnt, gj, gv) =>
    let c := copyRow ncnt row (icnt, jcnt, gj, gv)
    copyRows base ncnt rows (r + 1) (upd gi (base + r) icnt, c.1, c.2.1, c.2.2.1, c.2.2.2)

/-- one block (sparse.array.c 707-793): `rows` are its sorted rows, `bsz` is `blksize[i]` -/
def copyBlock {V : Type} (nrows : Nat) (i bsz : Nat) (rows : List (List (El V))) (s : CState V) : CState V :=
  let base := i * (nrows + 1)
  let c := copyRows base s.ncnt rows 0 (s.gi, 0, s.jcnt, s.gj, s.gv)
  { gi := if c.2.1 > 0 then upd c.1 (base + nrows) c.2.1 else c.1, gj := c.2.2.2.1, gv := c.2.2.2.2, ncnt := s.ncnt + bsz, jcnt := c.2.2.1,
    off := s.off ++ [s.ncnt] }

/-- the loop over the blocks -/
def copyBlocks {V : Type} (nrows : Nat) : (blocks : List (List (List (El V)))) → (i : Nat) → CState V → CState V
  | [], _, s => s
  | b :: bs, i, s => copyBlocks nrows bs (i + 1) (copyBlock nrows i b.flatten.length b s)

/-- the column blocks that have elements, in order (sparse.array.c 558-596) -/
def colBlocks {V : Type} (raw : Nat → Int) (jdim : Int) (nproc : Nat) (es : List (El V)) : List (Nat × List (El V)) :=
  ((List.range nproc).filter fun c => 0 ≤ binTop raw (fun e : El V => owner jdim nproc e.col) es c).map fun c =>
    (c, binned raw (fun e => owner jdim nproc e.col) es c)

/-- the rows of one block (sparse.array.c 712-745) -/
def blockRows {V : Type} (raw : Nat → Int) (ilo : Int) (nrows : Nat) (es : List (El V)) : List (List (El V)) :=
  (List.range nrows).map fun r => binned raw (fun e => (e.row - ilo).toNat) es r

/-- fresh memory -/
structure Raw (V : Type) where
  list : Nat → Int
  gi : Nat → Nat
  gj : Nat → Int
  gv : Nat → V

/-- The local part of `assemble` (sparse.array.c 480-793), also the last part of `pnga_sprs_array_matmat_multiply` (2643-2896, which does the same):
`es` are the elements of the process in the order of its part of the arrays. An element with a row outside `ilo..ihi` makes the code write outside
`top` (717-724): no result. -/
def layout {V : Type} (raw : Raw V) (jdim : Int) (nproc : Nat) (ilo ihi : Int) (es : List (El V)) : Option (Loc V) :=
  let nrows := (ihi - ilo + 1).toNat
  if es.all fun e => decide (0 ≤ e.row - ilo ∧ e.row - ilo < ihi - ilo + 1) then
    let cb := colBlocks raw.list jdim nproc es
    let rows := cb.map fun b => blockRows raw.list ilo nrows b.2
    let s := copyBlocks nrows rows 0 ⟨raw.gi, raw.gj, raw.gv, 0, 0, []⟩
    some { ilo := ilo, ihi := ihi, blkidx := cb.map (·.1), off := s.off, blksize := cb.map fun b => b.2.length, gi := s.gi, gj := s.gj, gv := s.gv,
           tot := es.length }
  else none

/-- `pnga_set_irreg_distr` (base.c 1740-1742) aborts if there are more blocks than elements -/
def irregOK (nproc : Nat) (total : Nat) : Bool := decide (nproc ≤ total)

/-- `pnga_sprs_array_assemble` (sparse.array.c 267-876) on all processes: `adds p` are the elements added by process `p`, `s1` is the order of the
`pnga_read_inc` calls, `s2` the order of the puts, `raw p` the memory of process `p`, `g0` the content of the new global arrays. The result is the
local part of every process. `g_blk` (332-366, 810-850) only repeats values of `Loc`. -/
def assemble {V : Type} (raw : Nat → Raw V) (g0 : Nat → El V) (idim jdim : Int) (nproc : Nat) (adds : Nat → List (El V)) (s1 s2 : List Ev) :
    Option (Nat → Option (Loc V)) :=
  let key := fun e : El V => owner idim nproc e.row
  let count := fun p q => binCount (raw p).list key (adds p) q
  let t := tickets count s1
  let buf := fun p q => binned (raw p).list key (adds p) q
  let base := mapOf t.next
  let g := puts buf (fun p q => base q + t.off p q) g0 s2
  let loc := fun q => layout (raw q) jdim nproc (ownLo idim nproc q) (limHi idim nproc q) ((List.range (t.next q)).map fun k => g (base q + k))
  if irregOK nproc (base nproc) ∧
      irregOK nproc (((List.range nproc).map fun q => match loc q with
        | some l => ((l.ihi - l.ilo + 1).toNat + 1) * l.blkidx.length
        | none => 0).sum) then
    some loc
  else none

/-! ## access -/

/-- the pointers `idx`, `jdx`, `val` returned by `pnga_sprs_array_access_col_block` -/
structure View (V : Type) where
  idx : Nat → Nat
  jdx : Nat → Int
  val : Nat → V

/-- the search for `blkidx[i] == icol` (sparse.array.c 1006-1012) -/
def findBlock (blkidx : List Nat) (icol : Nat) : Option Nat := blkidx.findIdx? (· == icol)

/-- `pnga_sprs_array_access_col_block` (sparse.array.c 995-1066); `none` is the null pointers -/
def accessColBlock {V : Type} (l : Loc V) (icol : Nat) : Option (View V) :=
  (findBlock l.blkidx icol).map fun index =>
    let offset := l.off.getD index 0
    let ld := (l.ihi - l.ilo + 2).toNat
    ⟨fun k => l.gi (ld * index + k), fun k => l.gj (offset + k), fun k => l.gv (offset + k)⟩

/-! ## operations on the assembled array -/

/-- the loops `for (i=ilo; i<=ihi; i++) for (j=0; j<ncols; j++)` of one block: pairs of the row number from zero and the position `iptr[i-ilo]+j` -/
def cells {V : Type} (nrows : Nat) (w : View V) : List (Nat × Nat) :=
  (List.range nrows).flatMap fun r => (List.range (w.idx (r + 1) - w.idx r)).map fun k => (r, w.idx r + k)

/-- `_ptr[..] = ..` in all the cells of block `icol`: `f r j v` is the new value of the cell in row `r` from zero with column `j` and value `v` -/
def mapBlock {V : Type} (f : Nat → Int → V → V) (icol : Nat) (l : Loc V) : Loc V :=
  match findBlock l.blkidx icol, accessColBlock l icol with
  | some index, some w =>
    let o := l.off.getD index 0
    { l with gv := (cells (l.ihi - l.ilo + 1).toNat w).foldl (fun gv c => upd gv (o + c.2) (f c.1 (l.gj (o + c.2)) (gv (o + c.2)))) l.gv }
  | _, _ => l

/-- a dense vector: its length and its content (zero based) -/
structure Vec (V : Type) where
  len : Int
  at' : Int → V

/-- `pnga_get(g_d, &klo, &khi, vbuf, &one)`: `vbuf[k]` is element `lo + k` -/
def getBuf {V : Type} (d : Vec V) (lo : Int) : Int → V := fun k => d.at' (lo + k)

/-- `pnga_sprs_array_diag_left_multiply` (sparse.array.c 1709-1828) on one process. The buffer must be inside the vector. -/
def leftMultiply {V : Type} [Mul V] (idim : Int) (nproc : Nat) (d : Vec V) (l : Loc V) : Option (Loc V) :=
  if idim ≠ d.len then none
  else
    let vbuf := getBuf d l.ilo
    some ((List.range nproc).foldl (fun l c => mapBlock (fun r _ v => vbuf r * v) c l) l)

/-- `pnga_sprs_array_diag_right_multiply` (sparse.array.c 1838-1962) on one process; the code compares the length of the vector with `idim`, and
`pnga_get` aborts if the columns are not inside the vector -/
def rightMultiply {V : Type} [Mul V] (idim jdim : Int) (nproc : Nat) (d : Vec V) (l : Loc V) : Option (Loc V) :=
  if idim ≠ d.len then none
  else if (List.range nproc).any fun c => decide ((colDistribution jdim nproc c).2 ≥ d.len) then none
  else
    some ((List.range nproc).foldl (fun l c =>
      let jlo := (colDistribution jdim nproc c).1
      let vbuf := getBuf d jlo
      mapBlock (fun _ j v => v * vbuf (j - jlo)) c l) l)

/-- `pnga_sprs_array_shift_diag` (sparse.array.c 1972-2072) on one process -/
def shiftDiag {V : Type} [Add V] (nproc : Nat) (shift : V) (l : Loc V) : Loc V :=
  (List.range nproc).foldl (fun l c => mapBlock (fun r j v => if l.ilo + r = j then v + shift else v) c l) l

/-- `pnga_sprs_array_scale` (sparse.array.c 4245-4278) on one process -/
def scale {V : Type} [Mul V] (a : V) (l : Loc V) : Loc V :=
  { l with gv := (List.range l.tot).foldl (fun gv k => upd gv k (a * gv k)) l.gv }

/-- `pnga_sprs_array_get_diag` (sparse.array.c 1640-1695) on one process: the local part of the diagonal, zero first. `access_col_block` returns null
pointers for an empty block and the loop dereferences them: no result. -/
def getDiag {V : Type} [Zero V] (me : Nat) (l : Loc V) : Option (Nat → V) :=
  (accessColBlock l me).map fun w =>
    (cells (l.ihi - l.ilo + 1).toNat w).foldl (fun d c => if l.ilo + c.1 = w.jdx c.2 then upd d c.1 (w.val c.2) else d) fun _ => 0

/-! ## matrix times vector -/

/-- `SPRS_REAL_MULTIPLY_M` (sparse.array.c 1192-1213) for one block, after the zeroing -/
def realBody {V : Type} [Add V] [Mul V] (w : View V) (buf : Int → V) (jlo : Int) (sum : Nat → V) (c : Nat × Nat) : Nat → V :=
  upd sum c.1 (sum c.1 + w.val c.2 * buf (w.jdx c.2 - jlo))

/-- `SPRS_COMPLEX_MULTIPLY_M` (sparse.array.c 1215-1240): `rval`, `ival` are read from `_buf`, and `_sum` is assigned -/
def complexBody {V : Type} [Mul V] (w : View V) (buf : Int → V) (jlo : Int) (sum : Nat → V) (c : Nat × Nat) : Nat → V :=
  upd sum c.1 (buf c.2 * buf (w.jdx c.2 - jlo))

/-- the loop over the column blocks of `pnga_sprs_array_matvec_multiply` (sparse.array.c 1246-1292) on one process: `vsum` is the memory returned by
`malloc`, zeroed by the first block that has elements -/
def localSum {V : Type} [Zero V] (body : View V → (Int → V) → Int → (Nat → V) → Nat × Nat → Nat → V) (jdim : Int) (nproc : Nat) (a : Vec V)
    (vsum : Nat → V) (l : Loc V) : Nat → V :=
  ((List.range nproc).foldl (fun (s : Bool × (Nat → V)) c =>
    match accessColBlock l c with
    | none => s
    | some w =>
      let jlo := (colDistribution jdim nproc c).1
      let s0 := if s.1 then fun _ => 0 else s.2
      (false, (cells (l.ihi - l.ilo + 1).toNat w).foldl (body w (getBuf a jlo) jlo) s0)) (true, vsum)).2

/-- `pnga_sprs_array_matvec_multiply` (sparse.array.c 1143-1304): `loc p` is the local part of process `p`; the result is the content of `g_v`, zeroed and
then accumulated by every process over its rows (1296-1300) in the order of the list `ord` -/
def matvec {V : Type} [Zero V] [Add V] (body : View V → (Int → V) → Int → (Nat → V) → Nat × Nat → Nat → V) (jdim : Int) (nproc : Nat) (a : Vec V)
    (vlen : Int) (vsum : Nat → Nat → V) (loc : Nat → Loc V) (ord : List Nat) : Option (Int → V) :=
  if a.len ≠ jdim ∨ vlen ≠ jdim then none
  else if ord.any fun p => decide ((loc p).ilo ≤ (loc p).ihi ∧ (loc p).ihi ≥ vlen) then none
  else
    some (ord.foldl (fun g p =>
      let s := localSum body jdim nproc a (vsum p) (loc p)
      fun i => if (loc p).ilo ≤ i ∧ i ≤ (loc p).ihi then g i + s (i - (loc p).ilo).toNat else g i) fun _ => 0)

end GA.Sprs
