import Verif.Model.AddDot

/-!
# Model: transposition, symmetrisation, diagonals, rows and columns of matrices

`pnga_transpose` (global/src/global.nalg.c 912-1051), `pnga_symmetrize` (global/src/ga_symmetr.c),
`pnga_get_diag`, `pnga_add_diagonal`, `pnga_set_diagonal`, `pnga_shift_diagonal`, `pnga_zero_diagonal`,
`pnga_scale_rows`, `pnga_scale_cols` (global/src/matrix.c 1359-2840).

Memory, interleavings and errors as in `Model/Copy.lean` and `Model/AddDot.lean`. Simplifications: element
types are equal and known, exact arithmetic, Integer arithmetic without overflow, allocation of local
buffers succeeds, no mirrored arrays, no array restriction; arrays on the world group. The code under
`#else` of `#if 1` is not compiled and not modelled.
-/

namespace GA.Model

/-! ## GA_Transpose -/

/-- The loops over the columns of a block and over the elements of a column (global.nalg.c 1006-1011 and
`snga_local_transpose`): position in `ptr_tmp` and offset from `ptr_a` of every assignment. -/
def transLoops (nrow ncol ld : Int) : List (Int × Int) :=
  (List.range ncol.toNat).flatMap fun i : Nat => (List.range nrow.toNat).map fun j : Nat =>
    ((i : Int) + j * ncol, i * ld + j)

/-- what is at position `i` of a buffer after the assignments `ws` (position, source); all positions are
different -/
def bufAt {α} (ws : List (Int × α)) (i : Int) : Option α := (ws.find? fun w => decide (w.1 = i)).map Prod.snd

/-- One block of `pnga_transpose` (global.nalg.c 983-1020): transposed into a buffer, then sent to `B`. -/
def transItem (E : Env) (a b : Nat) (B : GArr) (p : Nat) (it : LItem) : Option (List LAct) :=
  match it.lo, it.hi, it.ld with
  | [l1, l2], [h1, h2], [ld] =>
    let nrow := h1 - l1 + 1
    let ncol := h2 - l2 + 1
    match B.xfers E [l2, l1] [h2, h1] [ncol] with
    | none => none
    | some ts => mapOpt (fun t : Xfer => (bufAt (transLoops nrow ncol ld) t.buf).map fun o =>
        ⟨(b, t.addr), [(a, ((p : Int), it.off + o))]⟩) ts
  | _, _, _ => none

/-- Moves of process `p` in `pnga_transpose` (global.nalg.c 954-1051) -/
def transposeActs (E : Nat → List Int → Env) (a : Nat) (A : GArr) (b : Nat) (B : GArr) (p : Nat) :
    Option (List LAct) :=
  if a = b then none
  else if A.dims.length ≠ 2 ∨ B.dims.length ≠ 2 then none
  else
    match A.localIter p with
    | none => none
    | some items => (mapOpt (fun it : LItem => transItem (E p it.lo) a b B p it) items).map List.flatten

/-! ## GA_Symmetrize -/

/-- inner loop of `gai_add` (ga_symmetr.c 38-42): the pairs `indexA`, `indexB` -/
def symInner (off1 off2 nelem j : Int) : (n : Nat) → (ia ib m : Int) → List (Int × Int)
  | 0, _, _, _ => []
  | n + 1, ia, ib, m =>
    if ia ≥ nelem then
      (j + (m + 1) * off2, ib) :: symInner off1 off2 nelem j n (j + (m + 1) * off2 + off1) (ib + off2) (m + 1)
    else (ia, ib) :: symInner off1 off2 nelem j n (ia + off1) (ib + off2) m

/-- `gai_add` (ga_symmetr.c 20-44). `es`: extents of the block, the last two are `nrow` and `ncol`. With
one dimension the code reads `hi[-1]`: `none`. -/
def symOffs (es : List Int) : Option (List (Int × Int)) :=
  match es.reverse with
  | ncol :: nrow :: pre =>
    let off2 := prodI pre
    some ((List.range off2.toNat).flatMap fun j : Nat =>
      symInner (off2 * nrow) off2 (prodI es) j (nrow * ncol).toNat j j 0)
  | _ => none

/-- "switch rows and cols" (ga_symmetr.c 97-102) -/
def swapLast (l : List Int) : List Int :=
  match l.reverse with
  | y :: x :: pre => pre.reverse ++ [y, x]
  | _ => l

/-- `have_data` (ga_symmetr.c 84-85) -/
def haveData (hi : List Int) : Bool := hi.all fun h => decide (0 < h)

/-- first phase of `pnga_symmetrize` on a REGULAR array (ga_symmetr.c 87-107): the transposed patch goes
to the local buffer, modelled as the segment of process `p` of handle `t` -/
def symGet (E : Nat → Env) (a : Nat) (A : RegArray) (n t p : Nat) : Option (List LAct) :=
  let o := owns A p
  if haveData o.2 then
    let blo := swapLast o.1
    let bhi := swapLast o.2
    match (GArr.reg A n).xfers (E p) blo bhi (extents blo bhi).dropLast with
    | none => none
    | some ts => some (ts.map fun x => ⟨(t, ((p : Int), x.buf)), [(a, x.addr)]⟩)
  else some []

/-- second phase (ga_symmetr.c 110-114) -/
def symAdd (a : Nat) (A : RegArray) (t p : Nat) : Option (List LAct) :=
  let o := owns A p
  if haveData o.2 then
    match symOffs (extents o.1 o.2) with
    | none => none
    | some l => some (l.map fun x => ⟨(a, ((p : Int), locOffset A p o.1 + x.1)),
        [(a, ((p : Int), locOffset A p o.1 + x.1)), (t, ((p : Int), x.2))]⟩)
  else some []

/-- `dims[ndim-1] != dims[ndim-2]` -/
def notSquare (dims : List Int) : Bool :=
  match dims.reverse with
  | y :: x :: _ => decide (y ≠ x)
  | _ => true

section
variable {V : Type} [CommSemiring V] [Inhabited V]

/-- `alpha*(a + b)` -/
def symVal (half : V) : List V → V
  | [x, y] => half * (x + y)
  | _ => default

/-- `pnga_symmetrize` (ga_symmetr.c 49-123). `t`: the buffers, or the temporary array; `K`, `t1`, `t2`:
for the call of `pnga_add`. -/
def symmetrizeRun (E : Nat → List Int → Env) (K1 K2 : CopyEnv) (half : V) (a : Nat) (A : GArr) (t t1 t2 : Nat)
    (m m' : Loc → V) : Prop :=
  match A with
  | .reg A' n =>
    if notSquare A'.dims then False
    else ∃ m1, Par n (symGet (fun p => E p []) a A' n t) moveVal m m1 ∧ Par n (symAdd a A' t) (symVal half) m1 m'
  | .blk _ => ∃ m1, Par A.nproc (transposeActs E a A t A) moveVal m m1 ∧
      addRun K1 K2 half half a A t A a A t1 t2 m1 m'

/-! ## Diagonals -/

/-- `y + x` -/
def addVal : List V → V
  | [x, y] => x + y
  | _ => default

/-- `c + x` -/
def shiftVal (c : V) : List V → V
  | [x] => x + c
  | _ => default

/-- `0` -/
def zeroVal : List V → V
  | _ => 0

/-- `x * y` -/
def mulVal : List V → V
  | [x, y] => x * y
  | _ => default

end

/-- The part of the diagonal in a block (matrix.c 1374-1388, 1602-1618, 1827-1843, 2057-2068):
`max(ilo,jlo)` and `min(ihi,jhi)`; the block is used if `ilo > 0` and the range is not empty. -/
def diagRange (l1 l2 h1 h2 : Int) : Option (Int × Int) :=
  if l1 > 0 then if min h1 h2 ≥ max l1 l2 then some (max l1 l2, min h1 h2) else none else none

/-- `ptr += ld*(lo[1]-jlo) + lo[0]-ilo`, then `ptr += ld + 1` in every step: index in the buffer and offset
from the corner of the block -/
def diagWalk (l1 l2 ld v w : Int) : List (Int × Int) :=
  (List.range (w - v + 1).toNat).map fun i : Nat => ((i : Int), ld * (v - l2) + (v - l1) + i * (ld + 1))

/-- One block of `pnga_get_diag` (`sgai_get_diagonal_block`, matrix.c 1359-1476) -/
def getDiagItem (E : Env) (a v : Nat) (Vc : GArr) (p : Nat) (it : LItem) : Option (List LAct) :=
  match it.lo, it.hi, it.ld with
  | [l1, l2], [h1, h2], [ld] =>
    match diagRange l1 l2 h1 h2 with
    | none => some []
    | some (x, y) =>
      match Vc.xfers E [x] [y] [] with
      | none => none
      | some ts => mapOpt (fun t : Xfer => (bufAt (diagWalk l1 l2 ld x y) t.buf).map fun o =>
          ⟨(v, t.addr), [(a, ((p : Int), it.off + o))]⟩) ts
  | _, _, _ => none

/-- One block of `pnga_add_diagonal` (`self`, matrix.c 1588-1700) and `pnga_set_diagonal` (1813-1932): the
part of the vector is fetched to a buffer, then the loop over the diagonal of the block. -/
def putDiagItem (self : Bool) (E : Env) (a v : Nat) (Vc : GArr) (p : Nat) (it : LItem) : Option (List LAct) :=
  match it.lo, it.hi, it.ld with
  | [l1, l2], [h1, h2], [ld] =>
    match diagRange l1 l2 h1 h2 with
    | none => some []
    | some (x, y) =>
      match Vc.xfers E [x] [y] [] with
      | none => none
      | some ts => mapOpt (fun w : Int × Int => (bufAt (ts.map fun t => (t.buf, t.addr)) w.1).map fun ad =>
          ⟨(a, ((p : Int), it.off + w.2)), (if self then [(a, ((p : Int), it.off + w.2))] else []) ++ [(v, ad)]⟩)
          (diagWalk l1 l2 ld x y)
  | _, _, _ => none

/-- One block of `pnga_shift_diagonal` (`sgai_shift_diagonal_block`, matrix.c 2045-2136) -/
def shiftDiagItem (a p : Nat) (it : LItem) : Option (List LAct) :=
  match it.lo, it.hi, it.ld with
  | [l1, l2], [h1, h2], [ld] =>
    match diagRange l1 l2 h1 h2 with
    | none => some []
    | some (x, y) => some ((diagWalk l1 l2 ld x y).map fun w =>
        ⟨(a, ((p : Int), it.off + w.2)), [(a, ((p : Int), it.off + w.2))]⟩)
  | _, _, _ => none

/-- One block of `pnga_zero_diagonal` (matrix.c 2313-2325 and `sgai_zero_diagonal_block`, 2227-2286): the
pointer is that of the corner of the block, and `offset` is 0. The number of dimensions is not checked;
arrays with another number overrun `loA`: `none`. -/
def zeroDiagItem (a p : Nat) (it : LItem) : Option (List LAct) :=
  match it.lo, it.hi, it.ld with
  | [l1, l2], [h1, h2], [ld] =>
    match diagRange l1 l2 h1 h2 with
    | none => some []
    | some (x, y) => some ((List.range (y - x + 1).toNat).map fun i : Nat =>
        ⟨(a, ((p : Int), it.off + 0 + i * (ld + 1))), []⟩)
  | _, _, _ => none

/-- all blocks of process `p` -/
def eachItem (A : GArr) (f : LItem → Option (List LAct)) (p : Nat) : Option (List LAct) :=
  match A.localIter p with
  | none => none
  | some items => (mapOpt f items).map List.flatten

/-- the checks of the number of dimensions and of the size of the vector (matrix.c 1505-1514, 1733-1743,
1963-1973) -/
def diagChecks (A Vc : GArr) : Bool :=
  match A.dims, Vc.dims with
  | [d1, d2], [n] => decide (n = min d1 d2)
  | _, _ => false

/-- `pnga_get_diag` (matrix.c 1482-1585) -/
def getDiagActs (E : Nat → List Int → Env) (a : Nat) (A : GArr) (v : Nat) (Vc : GArr) (p : Nat) :
    Option (List LAct) :=
  if diagChecks A Vc then eachItem A (fun it => getDiagItem (E p it.lo) a v Vc p it) p else none

/-- `pnga_add_diagonal` (matrix.c 1709-1810), `pnga_set_diagonal` (1939-2042) -/
def putDiagActs (self : Bool) (E : Nat → List Int → Env) (a : Nat) (A : GArr) (v : Nat) (Vc : GArr) (p : Nat) :
    Option (List LAct) :=
  if diagChecks A Vc then eachItem A (fun it => putDiagItem self (E p it.lo) a v Vc p it) p else none

/-- `pnga_shift_diagonal` (matrix.c 2142-2224) -/
def shiftDiagActs (a : Nat) (A : GArr) (p : Nat) : Option (List LAct) :=
  if A.dims.length = 2 then eachItem A (shiftDiagItem a p) p else none

/-- `pnga_zero_diagonal` (matrix.c 2291-2426) -/
def zeroDiagActs (a : Nat) (A : GArr) (p : Nat) : Option (List LAct) :=
  eachItem A (zeroDiagItem a p) p

/-! ## Rows and columns -/

/-- the loops of `sgai_scale_row_values` (matrix.c 2463-2505) and `sgai_scale_col_values` (2669-2712): index
in the buffer and offset from the corner of the block -/
def rowColWalk (row : Bool) (l1 l2 h1 h2 ld : Int) : List (Int × Int) :=
  if row then (List.range (h1 - l1 + 1).toNat).flatMap fun i : Nat => (List.range (h2 - l2 + 1).toNat).map fun j : Nat =>
    ((i : Int), j * ld + i)
  else (List.range (h2 - l2 + 1).toNat).flatMap fun j : Nat => (List.range (h1 - l1 + 1).toNat).map fun i : Nat =>
    ((j : Int), j * ld + i)

/-- One block of `pnga_scale_rows` (`row`, matrix.c 2429-2512) and `pnga_scale_cols` (2635-2719). The
emptiness test in both functions is that of the rows. -/
def scaleRCItem (row : Bool) (E : Env) (a v : Nat) (Vc : GArr) (p : Nat) (it : LItem) : Option (List LAct) :=
  match it.lo, it.hi, it.ld with
  | [l1, l2], [h1, h2], [ld] =>
    if (if row then l1 else l2) > 0 then
      if h1 ≥ l1 then
        match Vc.xfers E [if row then l1 else l2] [if row then h1 else h2] [] with
        | none => none
        | some ts => mapOpt (fun w : Int × Int => (bufAt (ts.map fun t => (t.buf, t.addr)) w.1).map fun ad =>
            ⟨(a, ((p : Int), it.off + w.2)), [(a, ((p : Int), it.off + w.2)), (v, ad)]⟩)
            (rowColWalk row l1 l2 h1 h2 ld)
      else some []
    else some []
  | _, _, _ => none

/-- the checks (matrix.c 2544-2555, 2747-2758) -/
def rcChecks (row : Bool) (A Vc : GArr) : Bool :=
  match A.dims, Vc.dims with
  | [d1, d2], [n] => decide (n = if row then d1 else d2)
  | _, _ => false

/-- `pnga_scale_rows` (matrix.c 2519-2632), `pnga_scale_cols` (2725-2840) -/
def scaleRCActs (row : Bool) (E : Nat → List Int → Env) (a : Nat) (A : GArr) (v : Nat) (Vc : GArr) (p : Nat) :
    Option (List LAct) :=
  if rcChecks row A Vc then eachItem A (fun it => scaleRCItem row (E p it.lo) a v Vc p it) p else none

end GA.Model
