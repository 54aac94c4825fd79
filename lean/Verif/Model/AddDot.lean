import Verif.Model.Copy
import Verif.Model.Restrict
import Mathlib.Algebra.Ring.Defs
import Mathlib.Algebra.BigOperators.Group.List.Basic

/-!
# Model: linear combinations and inner products of arrays and patches

`pnga_add_patch` and `pnga_dot_patch` (global/src/global.npatch.c 938-1527, 2341-3124), `pnga_add` and
`pnga_dot` (global/src/global.nalg.c 392-594, 744-909).

The calls consist of phases with barriers in between (`pnga_copy_patch`, `pnga_scale_patch` and
`pnga_duplicate` synchronise); in each phase the steps of the processes are interleaved in any
way (`Par`). A temporary array from `pnga_duplicate` has the layout of the original, a fresh handle and
any content. An error of a process means that no execution exists.
Simplifications: element types are equal and known, exact arithmetic in a commutative semiring, Integer
arithmetic without overflow, arrays on the world group (the code uses the rank in the world group and
global reductions over all processes), no mirrored arrays, no array restriction, and the memory
limit is not reached.
-/

namespace GA.Model

/-- guesses and environments of the one-sided calls in one `pnga_copy_patch` -/
structure CopyEnv where
  E : Nat → List Int → Env
  cand : Nat → Nat → List Nat
  cand' : Nat → Nat → List Nat

/-- one call of `pnga_copy_patch` -/
def copyRun {V} [Inhabited V] (K : CopyEnv) (tr : Bool) (a : Nat) (A : GArr) (alo ahi : List Int) (b : Nat)
    (B : GArr) (blo bhi : List Int) (m m' : Loc → V) : Prop :=
  Par (copyProcs A B) (copyPatchActs K.E K.cand K.cand' tr a A alo ahi b B blo bhi) moveVal m m'

/-! ## NGA_Add_patch -/

/-- `compatible_a`: `pnga_comp_patch` of the own blocks and of the patches, and the global `&&`
(global.npatch.c 2706-2718; the same in `pnga_dot_patch`, 1211-1219) -/
def compatible (n : Nat) (A : RegArray) (alo ahi : List Int) (C : RegArray) (clo chi : List Int) : Bool :=
  (List.range n).all fun p =>
    compPatch (owns A p).1 (owns A p).2 (owns C p).1 (owns C p).2 && compPatch alo ahi clo chi

/-- `pnga_access_ptr(g, lo, hi, &ptr, ld)` of process `p` (onesided.c 1499-1532): the offset of `lo`
in the own segment. Simplifications: `none` if the patch is not in the own block (the code finds the
owner with `pnga_locate` and accepts other processes of the node), and for an array with another
number of dimensions (the code then reads unset bounds or ignores some). -/
def accessOff (A : RegArray) (p : Nat) (lo hi : List Int) : Option Int :=
  if lo.length = A.dims.length ∧ checkSubscript lo (owns A p).1 (owns A p).2 = true ∧
      checkSubscript hi (owns A p).1 (owns A p).2 = true then some (locOffset A p lo)
  else none

/-- leading dimensions from `pnga_access_ptr` -/
def ownLd (A : RegArray) (p : Nat) : List Int := ldRem (owns A p).1 (owns A p).2 A.width

/-- The loops of `snga_add_patch_values` (global.npatch.c 2485-2631), `snga_acc_patch_values`
(2341-2481): every step uses the same offset from all pointers; `offs` are the offsets. A pointer
is a handle and an offset in the own segment of process `p`. -/
def combActs (p : Nat) (dst : Nat × Int) (srcs : List (Nat × Int)) (offs : List Int) : List LAct :=
  offs.map fun o => ⟨(dst.1, ((p : Int), dst.2 + o)), srcs.map fun s => (s.1, ((p : Int), s.2 + o))⟩

/-- `C = alpha*A + beta*B` on the own part of the patch (global.npatch.c 2726-2738, 2766-2777,
2800-2811): all three pointers are used with the leading dimensions of `C`. -/
def addLocal (a : Nat) (A : RegArray) (b : Nat) (B : RegArray) (c : Nat) (C : RegArray) (clo chi : List Int)
    (p : Nat) : Option (List LAct) :=
  match patchIntersect clo chi (owns C p).1 (owns C p).2 with
  | none => some []
  | some (los, his) =>
    match accessOff A p los his, accessOff B p los his, accessOff C p los his with
    | some oa, some ob, some oc =>
      some (combActs p (c, oc) [(a, oa), (b, ob)] (patchOffs los his (ownLd C p)))
    | _, _, _ => none

/-- `C += beta*B` on the own part of the patch (global.npatch.c 2825-2835) -/
def accLocal (b : Nat) (B : RegArray) (c : Nat) (C : RegArray) (clo chi : List Int) (p : Nat) :
    Option (List LAct) :=
  match patchIntersect clo chi (owns C p).1 (owns C p).2 with
  | none => some []
  | some (los, his) =>
    match accessOff B p los his, accessOff C p los his with
    | some ob, some oc => some (combActs p (c, oc) [(c, oc), (b, ob)] (patchOffs los his (ownLd C p)))
    | _, _ => none

/-- `pnga_scale_patch(g_c, clo, chi, alpha)` (global.npatch.c 2073-2160) -/
def scaleActs (c : Nat) (C : GArr) (clo chi : List Int) (p : Nat) : Option (List LAct) :=
  (patchCells C clo chi p).map fun l => l.map fun x => ⟨(c, x), [(c, x)]⟩

/-- The local iterators on `C` and on two arrays with the layout of `C` (global.npatch.c 2851-2921):
the iterators deliver the same blocks and offsets. -/
def addItems (a b c : Nat) (C : GArr) (clo chi : List Int) (p : Nat) : Option (List LAct) :=
  (C.localIter p).map fun items => items.flatMap fun it =>
    match patchIntersect clo chi it.lo it.hi with
    | none => []
    | some (los, his) =>
      let off := it.off + cornerOff it.lo los it.ld 1
      combActs p (c, off) [(a, off), (b, off)] (patchOffs los his it.ld)

section
variable {V : Type} [CommSemiring V] [Inhabited V]

/-- `alpha*a + beta*b` -/
def axpby (alpha beta : V) : List V → V
  | [x, y] => alpha * x + beta * y
  | _ => default

/-- `c + beta*b` -/
def accVal (beta : V) : List V → V
  | [x, y] => x + beta * y
  | _ => default

/-- `c *= alpha` -/
def scaleVal (alpha : V) : List V → V
  | [x] => x * alpha
  | _ => default

/-- `pnga_add_patch` when all three arrays are REGULAR (global.npatch.c 2700-2836). `t1`, `t2`:
handles of the temporary arrays. -/
def addReg (K1 K2 : CopyEnv) (alpha beta : V) (n : Nat) (a : Nat) (A : RegArray) (alo ahi : List Int) (b : Nat)
    (B : RegArray) (blo bhi : List Int) (c : Nat) (C : RegArray) (clo chi : List Int) (t1 t2 : Nat)
    (m m' : Loc → V) : Prop :=
  match compatible n A alo ahi C clo chi, compatible n B blo bhi C clo chi with
  | true, true => Par n (addLocal a A b B c C clo chi) (axpby alpha beta) m m'
  | false, true =>
    if b ≠ c then
      ∃ m1, copyRun K1 false a (.reg A n) alo ahi c (.reg C n) clo chi m m1 ∧
        Par n (addLocal c C b B c C clo chi) (axpby alpha beta) m1 m'
    else
      ∃ m1, copyRun K1 false a (.reg A n) alo ahi t1 (.reg C n) clo chi m m1 ∧
        Par n (addLocal t1 C b B c C clo chi) (axpby alpha beta) m1 m'
  | true, false =>
    ∃ m1, copyRun K2 false b (.reg B n) blo bhi t2 (.reg C n) clo chi m m1 ∧
      Par n (addLocal a A t2 C c C clo chi) (axpby alpha beta) m1 m'
  | false, false =>
    ∃ m1 m2 m3, copyRun K2 false b (.reg B n) blo bhi t2 (.reg C n) clo chi m m1 ∧
      copyRun K1 false a (.reg A n) alo ahi c (.reg C n) clo chi m1 m2 ∧
      Par n (scaleActs c (.reg C n) clo chi) (scaleVal alpha) m2 m3 ∧
      Par n (accLocal t2 C c C clo chi) (accVal beta) m3 m'

/-- `pnga_add_patch` when one of the arrays is block-cyclic (global.npatch.c 2837-2921) -/
def addBlk (K1 K2 : CopyEnv) (alpha beta : V) (a : Nat) (A : GArr) (alo ahi : List Int) (b : Nat)
    (B : GArr) (blo bhi : List Int) (c : Nat) (C : GArr) (clo chi : List Int) (t1 t2 : Nat)
    (m m' : Loc → V) : Prop :=
  ∃ m1 m2, copyRun K1 false a A alo ahi t1 C clo chi m m1 ∧ copyRun K2 false b B blo bhi t2 C clo chi m1 m2 ∧
    Par C.nproc (addItems t1 t2 c C clo chi) (axpby alpha beta) m2 m'

/-- `pnga_add_patch` (global.npatch.c 2640-3124): `m'` is a possible memory after the call. -/
def addPatchRun (K1 K2 : CopyEnv) (alpha beta : V) (a : Nat) (A : GArr) (alo ahi : List Int) (b : Nat)
    (B : GArr) (blo bhi : List Int) (c : Nat) (C : GArr) (clo chi : List Int) (t1 t2 : Nat)
    (m m' : Loc → V) : Prop :=
  if outOfRange alo ahi A.dims || outOfRange blo bhi B.dims || outOfRange clo chi C.dims then False
  else if prodI (extents alo ahi) ≠ prodI (extents clo chi) ∨ prodI (extents blo bhi) ≠ prodI (extents clo chi) then False
  else
    match A, B, C with
    | .reg A' _, .reg B' _, .reg C' n => addReg K1 K2 alpha beta n a A' alo ahi b B' blo bhi c C' clo chi t1 t2 m m'
    | _, _, _ => addBlk K1 K2 alpha beta a A alo ahi b B blo bhi c C clo chi t1 t2 m m'

/-! ## GA_Add -/

/-- `pnga_distribution`, and if `_lo[0] > 0` `pnga_access_ptr` and `GET_ELEMS` (global.nalg.c 791-823):
offset and number of elements. -/
def ownSeg (A : RegArray) (p : Nat) : Option (Int × Int) :=
  if headPos (owns A p).1 then
    if anyEmpty (owns A p).1 (owns A p).2 then none
    else (getElems (owns A p).1 (owns A p).2 (ownLd A p)).map fun n => (locOffset A p (owns A p).1, n)
  else some (0, 0)

/-- The local branch of `pnga_add` (global.nalg.c 787-905). If both operands are the result array,
the variable `type` is never set (807, 819 are skipped) and selects the loop: undefined. -/
def addOwn (a : Nat) (A : RegArray) (b : Nat) (B : RegArray) (c : Nat) (C : RegArray) (p : Nat) :
    Option (List LAct) :=
  if a = c ∧ b = c then none
  else
    match ownSeg C p, ownSeg A p, ownSeg B p with
    | some (oc, nc), some (oa, na), some (ob, nb) =>
      if nc = nb ∧ nc = na then
        some (combActs p (c, oc) [(a, oa), (b, ob)] ((List.range nc.toNat).map fun i : Nat => (i : Int)))
      else none
    | _, _, _ => none

/-- the tests of `pnga_add` (global.nalg.c 770-774) for REGULAR arrays: same distributions and no
ghost cells -/
def addSame (A B C : RegArray) : Bool :=
  compareDistr ⟨.regular A, [], 0⟩ ⟨.regular B, [], 0⟩ && compareDistr ⟨.regular A, [], 0⟩ ⟨.regular C, [], 0⟩ &&
    !hasGhosts A && !hasGhosts B && !hasGhosts C

/-- `pnga_add` (global.nalg.c 744-909). The bounds passed for `g_c` are those of `g_b` (780). -/
def addRun (K1 K2 : CopyEnv) (alpha beta : V) (a : Nat) (A : GArr) (b : Nat) (B : GArr) (c : Nat) (C : GArr)
    (t1 t2 : Nat) (m m' : Loc → V) : Prop :=
  match A, B, C with
  | .reg A' _, .reg B' _, .reg C' n =>
    if addSame A' B' C' then Par n (addOwn a A' b B' c C') (axpby alpha beta) m m'
    else addPatchRun K1 K2 alpha beta a A (A.dims.map fun _ => 1) A.dims b B (B.dims.map fun _ => 1) B.dims
      c C (B.dims.map fun _ => 1) B.dims t1 t2 m m'
  | _, _, _ => addPatchRun K1 K2 alpha beta a A (A.dims.map fun _ => 1) A.dims b B (B.dims.map fun _ => 1) B.dims
      c C (B.dims.map fun _ => 1) B.dims t1 t2 m m'

/-! ## NGA_Dot_patch and GA_Dot -/

/-- sum of the products of the pairs of cells (`snga_dot_local_patch`, global.npatch.c 938-1094) -/
def dotPairs (m : Loc → V) (l : List (Loc × Loc)) : V := (l.map fun q => m q.1 * m q.2).sum

/-- The pairs of cells of process `p` in `pnga_dot_patch` on REGULAR arrays (global.npatch.c 1235-1250):
both pointers are used with the leading dimensions of `A`. -/
def dotLocal (a : Nat) (A : RegArray) (b : Nat) (B : RegArray) (alo ahi : List Int) (p : Nat) :
    Option (List (Loc × Loc)) :=
  match patchIntersect alo ahi (owns A p).1 (owns A p).2 with
  | none => some []
  | some (los, his) =>
    match accessOff A p los his, accessOff B p los his with
    | some oa, some ob =>
      some ((patchOffs los his (ownLd A p)).map fun o => ((a, ((p : Int), oa + o)), (b, ((p : Int), ob + o))))
    | _, _ => none

/-- The pairs of cells with the local iterators on `A` and an array with the layout of `A`
(global.npatch.c 1258-1321) -/
def dotItems (a b : Nat) (A : GArr) (alo ahi : List Int) (p : Nat) : Option (List (Loc × Loc)) :=
  (A.localIter p).map fun items => items.flatMap fun it =>
    match patchIntersect alo ahi it.lo it.hi with
    | none => []
    | some (los, his) =>
      let off := it.off + cornerOff it.lo los it.ld 1
      (patchOffs los his it.ld).map fun o => ((a, ((p : Int), off + o)), (b, ((p : Int), off + o)))

/-- global sum of the local values (global.npatch.c 1503-1514) -/
def dotSum (n : Nat) (pairs : Nat → Option (List (Loc × Loc))) (m : Loc → V) (v : V) : Prop :=
  ∃ l, mapOpt pairs (List.range n) = some l ∧ v = (l.map (dotPairs m)).sum

/-- `pnga_dot_patch` (global.npatch.c 1103-1527): `v` is a possible result, `m'` the memory after the
call. `ta`, `tb`: the transposition flags. `t`: handle of the temporary array. -/
def dotPatchRun (K : CopyEnv) (ta tb : Bool) (a : Nat) (A : GArr) (alo ahi : List Int) (b : Nat) (B : GArr)
    (blo bhi : List Int) (t : Nat) (m m' : Loc → V) (v : V) : Prop :=
  if outOfRange alo ahi A.dims || outOfRange blo bhi B.dims then False
  else if prodI (extents alo ahi) ≠ prodI (extents blo bhi) then False
  else if (A.isBlk || B.isBlk) && (ta || tb) then False
  else
    match A, B with
    | .reg A' n, .reg B' _ =>
      if compatible n A' alo ahi B' blo bhi && (ta == tb) then
        m' = m ∧ dotSum n (dotLocal a A' b B' alo ahi) m v
      else
        copyRun K (ta != tb) b B blo bhi t A alo ahi m m' ∧ dotSum n (dotLocal a A' t A' alo ahi) m' v
    | _, _ =>
      copyRun K (ta != tb) b B blo bhi t A alo ahi m m' ∧ dotSum A.nproc (dotItems a t A alo ahi) m' v

/-- The local branch of `pnga_dot` (global.nalg.c 440-470, 484-550) -/
def dotOwn (a : Nat) (A : RegArray) (b : Nat) (B : RegArray) (p : Nat) : Option (List (Loc × Loc)) :=
  match ownSeg A p, ownSeg B p with
  | some (oa, na), some (ob, nb) =>
    if na = nb then
      some ((List.range na.toNat).map fun i : Nat => ((a, ((p : Int), oa + i)), (b, ((p : Int), ob + i))))
    else none
  | _, _ => none

/-- `pnga_dot` (global.nalg.c 392-594) -/
def dotRun (K : CopyEnv) (a : Nat) (A : GArr) (b : Nat) (B : GArr) (t : Nat) (m m' : Loc → V) (v : V) : Prop :=
  match A, B with
  | .reg A' n, .reg B' _ =>
    if compareDistr ⟨.regular A', [], 0⟩ ⟨.regular B', [], 0⟩ && !hasGhosts A' && !hasGhosts B' then
      m' = m ∧ dotSum n (dotOwn a A' b B') m v
    else dotPatchRun K false false a A (A.dims.map fun _ => 1) A.dims b B (B.dims.map fun _ => 1) B.dims t m m' v
  | _, _ =>
    dotPatchRun K false false a A (A.dims.map fun _ => 1) A.dims b B (B.dims.map fun _ => 1) B.dims t m m' v

end

end GA.Model
