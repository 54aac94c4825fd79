import Verif.Model.AddDot
import Mathlib.Algebra.Field.Basic
import Mathlib.Algebra.Order.Field.Basic

/-!
# Model: elementwise operations, median and norms

`gai_oper_elem` and `ngai_elem2_patch_` (global/src/elem_alg.c 721-990, 1823-2236) with the functions that
handle one element (245-560, 1068-1715), `pnga_median_patch`, `pnga_norm_infinity` and `pnga_norm1`
(global/src/matrix.c 40-62, 288-728, 730-1356).

The simplifications of Model/AddDot.lean hold here too. A function on elements can fail (`none`): the
process calls `pnga_error` and no execution exists. Floating-point numbers are a linearly ordered field.
-/

namespace GA.Model

/-! ## steps that can fail -/

/-- run steps with a value function that can fail -/
def runActsO {V} (g : List V → Option V) : List LAct → (Loc → V) → Option (Loc → V)
  | [], m => some m
  | a :: acts, m =>
    match g (a.srcs.map m) with
    | none => none
    | some v => runActsO g acts (upd m a.dst v)

/-- `Par` with a value function that can fail -/
def ParO {V} (n : Nat) (acts : Nat → Option (List LAct)) (g : List V → Option V) (m m' : Loc → V) : Prop :=
  ∃ l sched, mapOpt acts (List.range n) = some l ∧ sched.Perm l.flatten ∧ runActsO g sched m = some m'

/-! ## functions on one element -/

section
variable {K : Type}

/-- `GA_MAX` (globalp.h 55) -/
def gaMax [LinearOrder K] (a b : K) : K := if b ≤ a then a else b

/-- `GA_MIN` (globalp.h 56) -/
def gaMin [LinearOrder K] (a b : K) : K := if a ≤ b then a else b

/-- `GA_ABS` (globalp.h 57) -/
def gaAbs [LinearOrder K] [Zero K] [Neg K] (a : K) : K := if 0 ≤ a then a else -a

/-- `DoubleComplex`, `SingleComplex` -/
structure Cx (K : Type) where
  re : K
  im : K
deriving DecidableEq, Inhabited

/-- `do_recip` for integer types (elem_alg.c 365-376, 508-518) -/
def recipInt (x : Int) : Option Int := if x ≠ 0 then some (Int.tdiv 1 x) else none

/-- `do_divide` for integer types (elem_alg.c 1233-1241, 1252-1260) -/
def divInt (a b : Int) : Option Int := if b ≠ 0 then some (Int.tdiv a b) else none

section
variable [Field K] [LinearOrder K]

/-- `do_recip` for real types (elem_alg.c 487-507) -/
def recipReal (x : K) : Option K := if x ≠ 0 then some (1 / x) else none

/-- `do_divide` for real types (elem_alg.c 1148-1156, 1242-1251) -/
def divReal (a b : K) : Option K := if b ≠ 0 then some (a / b) else none

/-- `do_recip` for complex types (elem_alg.c 377-486) -/
def recipCpl (z : Cx K) : Option (Cx K) :=
  if gaAbs z.re ≥ gaAbs z.im then
    if gaAbs z.re ≠ 0 then
      let c := z.im / z.re
      let d := 1 / ((1 + c * c) * z.re)
      some ⟨d, -c * d⟩
    else none
  else
    let c := z.re / z.im
    let d := 1 / ((1 + c * c) * z.im)
    some ⟨c * d, -d⟩

/-- `do_divide` for complex types (elem_alg.c 1157-1232) -/
def divCpl (a b : Cx K) : Option (Cx K) :=
  if gaAbs b.re ≥ gaAbs b.im then
    if b.re ≠ 0 then
      let x1 := b.im / b.re
      let x2 := 1 / (b.re * (1 + x1 * x1))
      some ⟨(a.re + a.im * x1) * x2, (a.im - a.re * x1) * x2⟩
    else none
  else
    let x1 := b.re / b.im
    let x2 := 1 / (b.im * (1 + x1 * x1))
    some ⟨(a.re * x1 + a.im) * x2, (a.im * x1 - a.re) * x2⟩

/-- `do_abs` for complex types without `hypot` (elem_alg.c 263-290); `root` is the function `sqrt` -/
def absCpl (root : K → K) (z : Cx K) : Cx K :=
  if gaAbs z.re ≥ gaAbs z.im then
    if z.re = 0 then ⟨0, 0⟩
    else
      let x2 := z.im / z.re
      ⟨gaAbs z.re * root (1 + x2 * x2), 0⟩
  else
    let x2 := z.re / z.im
    ⟨gaAbs z.im * root (1 + x2 * x2), 0⟩

/-- the common part of `do_maximum` and `do_minimum` for complex types (elem_alg.c 1545-1606, 1641-1702):
the components are scaled, then `pick temp1 temp2` tells whether to take `a`. -/
def pickCpl (pick : K → K → Bool) (a b : Cx K) : Cx K :=
  let x1 := gaMax (gaAbs a.re) (gaAbs a.im)
  let x2 := gaMax (gaAbs b.re) (gaAbs b.im)
  let x1 := gaMax x1 x2
  if x1 = 0 then a
  else
    let s := 1 / x1
    let t1 := (a.re * s) * (a.re * s) + (a.im * s) * (a.im * s)
    let t2 := (b.re * s) * (b.re * s) + (b.im * s) * (b.im * s)
    if pick t1 t2 then a else b

/-- `do_maximum` for complex types -/
def maxCpl (a b : Cx K) : Cx K := pickCpl (fun s t => decide (s > t)) a b

/-- `do_minimum` for complex types -/
def minCpl (a b : Cx K) : Cx K := pickCpl (fun s t => decide (s < t)) a b

end

/-- `do_multiply` for complex types (elem_alg.c 1068-1086 with `assign_mul_cpl`, abstract_ops.h 41): the real
part of the result is stored before the imaginary part is computed from the operands. `ac`, `bc`: the
result is stored in the cell of the first, second operand. Simplification: the pointers are
declared `restrict`, so the call is undefined if they are equal; the model is the execution of the
statements in order. -/
def mulCpl [Ring K] (ac bc : Bool) (a b : Cx K) : Option (Cx K) :=
  let r := a.re * b.re - a.im * b.im
  let a' : Cx K := if ac then ⟨r, a.im⟩ else a
  let b' : Cx K := if bc then ⟨r, b.im⟩ else b
  some ⟨r, a'.re * b'.im + a'.im * b'.re⟩

/-- `auxi_median` (matrix.c 40-45) -/
def auxiMedian {V} [LinearOrder K] (key : V → K) (a b c : V) : V :=
  if key c < key a ∧ key a < key b then a
  else if key a ≤ key c ∧ key c ≤ key b then c
  else b

/-- `median`, `median_dcpl` and `median_scpl` (matrix.c 47-81). Real numbers are compared by value
(`key` is the identity), complex numbers by their norm. -/
def median3 {V} [LinearOrder K] (key : V → K) (a b c : V) : V :=
  if key a = key b then a
  else if key a < key b then auxiMedian key a b c
  else auxiMedian key b a c

end

/-! ## operations on one array -/

section
variable {V : Type}

/-- value function of an operation on one element -/
def un (f : V → Option V) : List V → Option V
  | [x] => f x
  | _ => none

/-- `gai_oper_elem` (elem_alg.c 721-990): the loops of `pnga_scale_patch` with another function. Called by
`pnga_abs_value_patch`, `pnga_recip_patch`, `pnga_add_constant_patch` (992-1016) with the patch and by
`pnga_abs_value`, `pnga_recip`, `pnga_add_constant` (1018-1066) with the bounds `1 .. dims`. There is no
check of the bounds. -/
def operRun (f : V → Option V) (c : Nat) (C : GArr) (lo hi : List Int) (m m' : Loc → V) : Prop :=
  ParO C.nproc (scaleActs c C lo hi) (un f) m m'

/-! ## operations on two arrays -/

/-- value function of an operation on two elements -/
def bin (f : V → V → Option V) : List V → Option V
  | [x, y] => f x y
  | _ => none

variable [Inhabited V]

/-- `ngai_elem2_patch_` when all three arrays are REGULAR (elem_alg.c 1879-1955). `op ac bc` computes one
element; `ac`, `bc` tell whether the array that is read as first, second operand is the result
array: then the cells are the same too. -/
def elem2Reg (op : Bool → Bool → V → V → Option V) (K1 K2 : CopyEnv) (n : Nat) (a : Nat) (A : RegArray)
    (alo ahi : List Int) (b : Nat) (B : RegArray) (blo bhi : List Int) (c : Nat) (C : RegArray)
    (clo chi : List Int) (t1 t2 : Nat) (m m' : Loc → V) : Prop :=
  let ca := compatible n A alo ahi C clo chi
  let cb := compatible n B blo bhi C clo chi
  let ga : Nat × RegArray := if ca then (a, A) else if b ≠ c then (c, C) else (t1, C)
  let gb : Nat × RegArray := if cb then (b, B) else (t2, C)
  ∃ m1 m2,
    (if ca then m1 = m else copyRun K1 false a (.reg A n) alo ahi ga.1 (.reg C n) clo chi m m1) ∧
    (if cb then m2 = m1 else copyRun K2 false b (.reg B n) blo bhi gb.1 (.reg C n) clo chi m1 m2) ∧
    ParO n (addLocal ga.1 ga.2 gb.1 gb.2 c C clo chi) (bin (op (ga.1 == c) (gb.1 == c))) m2 m'

/-- `ngai_elem2_patch_` when one of the arrays is block-cyclic (elem_alg.c 1956-2035) -/
def elem2Blk (op : Bool → Bool → V → V → Option V) (K1 K2 : CopyEnv) (a : Nat) (A : GArr) (alo ahi : List Int)
    (b : Nat) (B : GArr) (blo bhi : List Int) (c : Nat) (C : GArr) (clo chi : List Int) (t1 t2 : Nat)
    (m m' : Loc → V) : Prop :=
  ∃ m1 m2, copyRun K1 false a A alo ahi t1 C clo chi m m1 ∧ copyRun K2 false b B blo bhi t2 C clo chi m1 m2 ∧
    ParO C.nproc (addItems t1 t2 c C clo chi) (bin (op (t1 == c) (t2 == c))) m2 m'

/-- `ngai_elem2_patch_` (elem_alg.c 1823-2236), called by `pnga_elem_multiply_patch`,
`pnga_elem_divide_patch`, `pnga_elem_maximum_patch`, `pnga_elem_minimum_patch` (2366-2432). -/
def elem2Run (op : Bool → Bool → V → V → Option V) (K1 K2 : CopyEnv) (a : Nat) (A : GArr) (alo ahi : List Int)
    (b : Nat) (B : GArr) (blo bhi : List Int) (c : Nat) (C : GArr) (clo chi : List Int) (t1 t2 : Nat)
    (m m' : Loc → V) : Prop :=
  if outOfRange alo ahi A.dims || outOfRange blo bhi B.dims || outOfRange clo chi C.dims then False
  else if prodI (extents alo ahi) ≠ prodI (extents clo chi) ∨ prodI (extents blo bhi) ≠ prodI (extents clo chi) then False
  else
    match A, B, C with
    | .reg A' _, .reg B' _, .reg C' n => elem2Reg op K1 K2 n a A' alo ahi b B' blo bhi c C' clo chi t1 t2 m m'
    | _, _, _ => elem2Blk op K1 K2 a A alo ahi b B blo bhi c C clo chi t1 t2 m m'

/-- `pnga_elem_multiply`, `pnga_elem_divide`, `pnga_elem_maximum`, `pnga_elem_minimum` (elem_alg.c
2238-2362) -/
def elem2All (op : Bool → Bool → V → V → Option V) (K1 K2 : CopyEnv) (a : Nat) (A : GArr) (b : Nat) (B : GArr)
    (c : Nat) (C : GArr) (t1 t2 : Nat) (m m' : Loc → V) : Prop :=
  if A.dims.length ≠ B.dims.length ∨ A.dims.length ≠ C.dims.length then False
  else elem2Run op K1 K2 a A (A.dims.map fun _ => 1) A.dims b B (B.dims.map fun _ => 1) B.dims
    c C (C.dims.map fun _ => 1) C.dims t1 t2 m m'

/-! ## median -/

/-- value function of the median of three elements -/
def med (f : V → V → V → V) : List V → V
  | [x, y, z] => f x y z
  | _ => default

/-- the variable `compatible` for one operand (matrix.c 405-409, 425-429, 445-449): the test is negated, it
is set if the own blocks differ on every process, and the patches are not compared -/
def medianKeep (n : Nat) (A M : RegArray) : Bool :=
  (List.range n).all fun p => !compPatch (owns A p).1 (owns A p).2 (owns M p).1 (owns M p).2

/-- the test before the computation (matrix.c 464-469) -/
def medianMatch (n : Nat) (M A : RegArray) : Bool :=
  (List.range n).all fun p => compPatch (owns M p).1 (owns M p).2 (owns A p).1 (owns A p).2

/-- the computation on the own part of the patch (matrix.c 481-498) -/
def medLocal (a : Nat) (A : RegArray) (b : Nat) (B : RegArray) (c : Nat) (C : RegArray) (r : Nat) (M : RegArray)
    (mlo mhi : List Int) (p : Nat) : Option (List LAct) :=
  match patchIntersect mlo mhi (owns M p).1 (owns M p).2 with
  | none => some []
  | some (los, his) =>
    match accessOff A p los his, accessOff B p los his, accessOff C p los his, accessOff M p los his with
    | some oa, some ob, some oc, some om =>
      some (combActs p (r, om) [(a, oa), (b, ob), (c, oc)] (patchOffs los his (ownLd M p)))
    | _, _, _, _ => none

/-- the local iterators on `M` and three arrays with the layout of `M` (matrix.c 519-551): the blocks are
not intersected with the patch, so `offset` is zero and all own elements of `M` are computed -/
def medItems (a b c r : Nat) (M : GArr) (p : Nat) : Option (List LAct) :=
  (M.localIter p).map fun items => items.flatMap fun it =>
    combActs p (r, it.off) [(a, it.off), (b, it.off), (c, it.off)] (patchOffs it.lo it.hi it.ld)

/-- `pnga_median_patch` when all arrays are REGULAR (matrix.c 395-499) -/
def medianReg (f : V → V → V → V) (K1 K2 K3 : CopyEnv) (n : Nat) (a : Nat) (A : RegArray) (alo ahi : List Int)
    (b : Nat) (B : RegArray) (blo bhi : List Int) (c : Nat) (C : RegArray) (clo chi : List Int) (r : Nat)
    (M : RegArray) (mlo mhi : List Int) (t1 t2 t3 : Nat) (m m' : Loc → V) : Prop :=
  let ga : Nat × RegArray := if medianKeep n A M then (a, A) else (t1, M)
  let gb : Nat × RegArray := if medianKeep n B M then (b, B) else (t2, M)
  let gc : Nat × RegArray := if medianKeep n C M then (c, C) else (t3, M)
  ∃ m1 m2 m3,
    (if medianKeep n A M then m1 = m else copyRun K1 false a (.reg A n) alo ahi t1 (.reg M n) mlo mhi m m1) ∧
    (if medianKeep n B M then m2 = m1 else copyRun K2 false b (.reg B n) blo bhi t2 (.reg M n) mlo mhi m1 m2) ∧
    (if medianKeep n C M then m3 = m2 else copyRun K3 false c (.reg C n) clo chi t3 (.reg M n) mlo mhi m2 m3) ∧
    (medianMatch n M ga.2 = true ∧ medianMatch n M gb.2 = true ∧ medianMatch n M gc.2 = true) ∧
    Par n (medLocal ga.1 ga.2 gb.1 gb.2 gc.1 gc.2 r M mlo mhi) (med f) m3 m'

/-- `pnga_median_patch` when one of the arrays is block-cyclic (matrix.c 500-551) -/
def medianBlk (f : V → V → V → V) (K1 K2 K3 : CopyEnv) (a : Nat) (A : GArr) (alo ahi : List Int) (b : Nat)
    (B : GArr) (blo bhi : List Int) (c : Nat) (C : GArr) (clo chi : List Int) (r : Nat) (M : GArr)
    (mlo mhi : List Int) (t1 t2 t3 : Nat) (m m' : Loc → V) : Prop :=
  ∃ m1 m2 m3, copyRun K1 false a A alo ahi t1 M mlo mhi m m1 ∧ copyRun K2 false b B blo bhi t2 M mlo mhi m1 m2 ∧
    copyRun K3 false c C clo chi t3 M mlo mhi m2 m3 ∧ Par M.nproc (medItems t1 t2 t3 r M) (med f) m3 m'

/-- `pnga_median_patch` (matrix.c 288-684) -/
def medianRun (f : V → V → V → V) (K1 K2 K3 : CopyEnv) (a : Nat) (A : GArr) (alo ahi : List Int) (b : Nat)
    (B : GArr) (blo bhi : List Int) (c : Nat) (C : GArr) (clo chi : List Int) (r : Nat) (M : GArr)
    (mlo mhi : List Int) (t1 t2 t3 : Nat) (m m' : Loc → V) : Prop :=
  if outOfRange alo ahi A.dims || outOfRange blo bhi B.dims || outOfRange clo chi C.dims ||
      outOfRange mlo mhi M.dims then False
  else if prodI (extents mlo mhi) ≠ prodI (extents alo ahi) ∨ prodI (extents mlo mhi) ≠ prodI (extents blo bhi) ∨
      prodI (extents mlo mhi) ≠ prodI (extents clo chi) then False
  else
    match A, B, C, M with
    | .reg A' _, .reg B' _, .reg C' _, .reg M' n =>
      medianReg f K1 K2 K3 n a A' alo ahi b B' blo bhi c C' clo chi r M' mlo mhi t1 t2 t3 m m'
    | _, _, _, _ => medianBlk f K1 K2 K3 a A alo ahi b B blo bhi c C clo chi r M mlo mhi t1 t2 t3 m m'

/-- `pnga_median` (matrix.c 690-728) -/
def medianAll (f : V → V → V → V) (K1 K2 K3 : CopyEnv) (a : Nat) (A : GArr) (b : Nat) (B : GArr) (c : Nat) (C : GArr)
    (r : Nat) (M : GArr) (t1 t2 t3 : Nat) (m m' : Loc → V) : Prop :=
  medianRun f K1 K2 K3 a A (A.dims.map fun _ => 1) A.dims b B (B.dims.map fun _ => 1) B.dims
    c C (C.dims.map fun _ => 1) C.dims r M (M.dims.map fun _ => 1) M.dims t1 t2 t3 m m'

end

/-! ## norms -/

section
variable {V K : Type} [LinearOrder K]

/-- the values of one block of the local iterator, in the order of the loops -/
def blockVals (m : Addr → V) (it : LItem) : List V :=
  (patchOffs it.lo it.hi it.ld).map fun o => m ((it.proc : Int), it.off + o)

/-- `sgai_norm1_block` (matrix.c 1051-1186): the accumulator is set to zero first, so the previous value
`_acc` is lost. `size` is the absolute value. Simplification: the test `ihiA > 0 && jhiA > 0` is omitted,
it is true for every block of the iterator. -/
def norm1Block [AddCommMonoid K] (size : V → K) (m : Addr → V) (_acc : K) (it : LItem) : K :=
  (blockVals m it).foldl (fun s v => s + size v) 0

/-- `sgai_norm_infinity_block` (matrix.c 730-863): the accumulator is set from the first element of the block
(`first`: the absolute value for integer and complex types, the value itself for `float` and
`double`). Simplification: a block without elements (a tile of extent zero) leaves the accumulator; the code reads
the cell after the block. -/
def normInfBlock (first size : V → K) (m : Addr → V) (acc : K) (it : LItem) : K :=
  match blockVals m it with
  | [] => acc
  | v :: vs => (v :: vs).foldl (fun s v => if size v > s then size v else s) (first v)

/-- the loop over the local iterator (matrix.c 1246-1249, 933-936) with start value zero -/
def normLocal [Zero K] (block : K → LItem → K) (G : GArr) (p : Nat) : Option K :=
  (G.localIter p).map fun items => items.foldl block 0

/-- `pnga_norm1` (matrix.c 1188-1356): sum of the local values -/
def norm1Run [AddCommMonoid K] (size : V → K) (G : GArr) (m : Addr → V) : Option K :=
  if G.dims.length = 0 ∨ 2 < G.dims.length then none
  else (mapOpt (normLocal (norm1Block size m) G) (List.range G.nproc)).map List.sum

/-- `pnga_norm_infinity` (matrix.c 870-1048): maximum of the local values -/
def normInfRun [Zero K] (first size : V → K) (G : GArr) (m : Addr → V) : Option K :=
  if G.dims.length = 0 ∨ 2 < G.dims.length then none
  else (mapOpt (normLocal (normInfBlock first size m) G) (List.range G.nproc)).bind fun l =>
    match l with
    | [] => none
    | v :: vs => some (vs.foldl max v)

end

end GA.Model
