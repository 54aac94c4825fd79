import Verif.Model.LocalPatch
import Verif.Spec.Select

/-!
# Model: `NGA_Select_elem`

`snga_select_elem`, `snga_compare_elem`, `pnga_select_elem` (global/src/select.c) and
`armci_msg_sel_scope` (comex/src-armci/message.c 255-324).

`key : V → K` is the number compared: the element itself, or the square of the modulus for complex
types. Simplifications: the keys are linearly ordered (no NaN); Integer arithmetic without
overflow; world group.
-/

namespace GA.Model
open Spec (SelOp)

variable {K V : Type} [LinearOrder K]

/-- The comparison of the loops (select.c 160-246, `ival > ia[i]` for "min", `ival < ia[i]` for
"max") and of `snga_compare_elem` (select.c 34-141). -/
def selBetter (op : SelOp) (new old : K) : Bool :=
  match op with
  | .min => decide (new < old)
  | .max => decide (old < new)

/-- `elem_info_t` (select.c 25-30): `v` is the number compared, `extra` the complex value. For the
other types `extra` is not used; the model sets it in the same way. -/
structure SelInfo (K V : Type) where
  v : K
  subscr : List Int
  extra : V
deriving DecidableEq, Repr

/-- The loop of `snga_select_elem` (select.c 160-246): `n` elements left, current element `i`. -/
def selLoop (op : SelOp) (key : V → K) (rd : Nat → V) : (n i : Nat) → (k : K) → (ind : Int) → K × Int
  | 0, _, k, ind => (k, ind)
  | n + 1, i, k, ind =>
    if selBetter op (key (rd i)) k then selLoop op key rd n (i + 1) (key (rd i)) i
    else selLoop op key rd n (i + 1) k ind

/-- "determine element subscript" (select.c 297-301, 310-314): `subscr[i] = ind%elems + lo[i];
ind /= elems`. Returns the subscript and the new value of `ind`; `none` for a division by zero. -/
def selSubscr : (lo hi : List Int) → (ind : Int) → Option (List Int × Int)
  | l :: lo, h :: hi, ind =>
    if h - l + 1 = 0 then none
    else (selSubscr lo hi (ind.tdiv (h - l + 1))).map fun r => ((ind.tmod (h - l + 1) + l) :: r.1, r.2)
  | _, _, ind => some ([], ind)

/-- Body of the loop over the local blocks (select.c 283-318). The state is `info` (`none`:
`first_pass`) and the variable `ind`, which keeps its value from one block to the next. -/
def selStep (op : SelOp) (key : V → K) (m : Addr → V) (st : Option (SelInfo K V) × Int) (it : LItem) :
    Option (Option (SelInfo K V) × Int) :=
  (getElems it.lo it.hi it.ld).bind fun n =>
    let rd := fun j : Nat => m ((it.proc : Int), it.off + j)
    let r := selLoop op key rd n.toNat 0 (key (rd 0)) st.2
    let new := (selSubscr it.lo it.hi r.2).map fun s =>
      (some ⟨r.1, s.1, m ((it.proc : Int), it.off + r.2)⟩, s.2)
    match st.1 with
    | none => new
    | some info => if selBetter op r.1 info.v then new else some (some info, r.2)

/-- the loop over the local blocks -/
def selBlocks (op : SelOp) (key : V → K) (m : Addr → V) :
    List LItem → (Option (SelInfo K V) × Int) → Option (Option (SelInfo K V) × Int)
  | [], st => some st
  | it :: its, st => (selStep op key m st it).bind (selBlocks op key m its)

/-- The local result of process `p` (select.c 255-318); `junk p` is the content of the
uninitialised variable `info`. -/
def selLocal (op : SelOp) (key : V → K) (G : GArr) (junk : Nat → SelInfo K V) (m : Addr → V) (p : Nat) :
    Option (SelInfo K V) :=
  ((G.localIter p).bind fun items => selBlocks op key m items (none, 0)).map fun st => st.1.getD (junk p)

/-- MPI_MINLOC or MPI_MAXLOC and the broadcast from the process found (message.c 309-314): the first
process with the extreme number. `participate` is passed to the function but not used. -/
def selGlobal (op : SelOp) : List (SelInfo K V) → Option (SelInfo K V)
  | [] => none
  | i :: is => some (is.foldl (fun b n => if selBetter op n.v b.v then n else b) i)

/-- `pnga_select_elem` (select.c 255-454): value and subscript returned on all processes. -/
def selectElem (op : SelOp) (key : V → K) (G : GArr) (junk : Nat → SelInfo K V) (m : Addr → V) :
    Option (SelInfo K V) :=
  (mapOpt (selLocal op key G junk m) (List.range G.nproc)).bind (selGlobal op)

end GA.Model
