import Verif.Model.LocalPatch

/-!
# Model: gather, scatter, scatter-accumulate

`gai_gatscat_new` (global/src/onesided.c 3375-3587), the routine behind `NGA_Gather`,
`NGA_Scatter` and `NGA_Scatter_acc` (`USE_GATSCAT_NEW` is defined in onesided.c 34 and capi.c 32),
with its linked lists. The C arrays `header`, `list`, `nelems` are functions on indices.
Simplifications: world group, no array restriction, statistics dropped, `nv` at least 1 (the
callers return immediately for `nv < 1`). ARMCI vector calls move the listed elements one after the
other.
-/

namespace GA.Model

/-- linked list data of `gai_gatscat_new`: `nelems`, `header`, `list`, `maxlen` -/
structure GSLists where
  nelems : Nat → Nat
  header : Nat → Int
  next : Nat → Int
  maxlen : Nat

/-- initial values (onesided.c 3427-3439) -/
def gsInit : GSLists := ⟨fun _ => 0, fun _ => -1, fun _ => 0, 1⟩

/-- Home process of a subscript: `pnga_locate` and the map from block to process (onesided.c
3447-3468). `none`: "invalid subscript". -/
def gsHome (G : GArr) (cand : List Nat) (x : List Int) : Option Nat :=
  match G with
  | .reg A _ => (locate A cand x).map Int.toNat
  | .blk A => some (bProc A (bLocate A cand x))

/-- `nelems[idx]++; if (maxlen<nelems[idx]) ...; j = header[idx]; header[idx] = i; list[i] = j`
(onesided.c 3469-3473) -/
def gsInsert (s : GSLists) (i p : Nat) : GSLists where
  nelems := upd s.nelems p (s.nelems p + 1)
  maxlen := if s.maxlen < s.nelems p + 1 then s.nelems p + 1 else s.maxlen
  next := upd s.next i (s.header p)
  header := upd s.header p i

/-- First loop (onesided.c 3440-3474). `cand i` are the floating point guesses of `findblock` for
element `i`. A home process outside the arrays would be a memory error: `none`. -/
def gsBuild (G : GArr) (cand : Nat → List Nat) : (i : Nat) → List (List Int) → GSLists → Option GSLists
  | _, [], s => some s
  | i, x :: xs, s =>
    match gsHome G (cand i) x with
    | none => none
    | some p => if p < G.nproc then gsBuild G cand (i + 1) xs (gsInsert s i p) else none

/-- `idx = header[iproc]; while (idx > -1) { ...; idx = list[idx]; j++; }` (onesided.c 3487-3525) -/
def gsWalk (next : Nat → Int) : (fuel : Nat) → (idx : Int) → Option (List Nat)
  | 0, idx => if idx > -1 then none else some []
  | f + 1, idx =>
    if idx > -1 then (gsWalk next f (next idx.toNat)).map (idx.toNat :: ·) else some []

/-- The remote pointer (onesided.c 3496-3521) as element offset in the segment of process `p`:
`gam_Loc_ptr` (base.h 369-391, with its subscript check) for REGULAR arrays, otherwise
`pnga_locate`, `pnga_distribution`, `pnga_access_block_ptr` and the offset inside the block. A
pointer into the segment of another process would be a memory error: `none`. -/
def gsPtr (G : GArr) (cand : List Nat) (p : Nat) (x : List Int) : Option Int :=
  match G with
  | .reg A _ =>
    if checkSubscript x (owns A p).1 (owns A p).2 then some (locOffset A p x) else none
  | .blk A =>
    let b := bLocate A cand x
    match accessBlock A b with
    | none => none
    | some (q, off, ld) => if q = p then some (off + cornerOff (bOwns A b).1 x ld 1) else none

/-- One vector operation (onesided.c 3482-3578): the elements moved to or from process `p`.
`desc.ptr_array_len = nelems[iproc]` must be the number of pointers that were stored, and they must
fit into the buffers of length `maxlen`; otherwise it is a memory error. -/
def gsProc (G : GArr) (cand : Nat → List Nat) (subs : List (List Int)) (s : GSLists) (p : Nat) :
    Option (List Xfer) :=
  if 0 < s.nelems p then
    match gsWalk s.next subs.length (s.header p) with
    | none => none
    | some ks =>
      if ks.length = s.nelems p ∧ ks.length ≤ s.maxlen then
        mapOpt (fun k : Nat => (gsPtr G (cand k) p (subs.getD k [])).map fun o => ⟨k, (p, o)⟩) ks
      else none
  else some []

/-- All elements moved by `gai_gatscat_new` (onesided.c 3375-3587), in order. -/
def gsXfers (G : GArr) (cand cand' : Nat → List Nat) (subs : List (List Int)) : Option (List Xfer) :=
  match gsBuild G cand 0 subs gsInit with
  | none => none
  | some s => (mapOpt (gsProc G cand' subs s) (List.range G.nproc)).map List.flatten

/-- `pnga_gather` (onesided.c 3595-3612): new content of the user vector -/
def ngaGather {V} (G : GArr) (cand cand' : Nat → List Nat) (subs : List (List Int)) (v : Int → V)
    (mem : Addr → V) : Option (Int → V) :=
  (gsXfers G cand cand' subs).map fun ts => applyGet ts mem v

/-- `pnga_scatter` (onesided.c 3619-3636) -/
def ngaScatter {V} (G : GArr) (cand cand' : Nat → List Nat) (subs : List (List Int)) (v : Int → V)
    (mem : Addr → V) : Option (Addr → V) :=
  (gsXfers G cand cand' subs).map fun ts => applyPut ts v mem

/-- `pnga_scatter_acc` (onesided.c 3643-3663) -/
def ngaScatterAcc {V} [Add V] [Mul V] (G : GArr) (cand cand' : Nat → List Nat)
    (subs : List (List Int)) (alpha : V) (v : Int → V) (mem : Addr → V) : Option (Addr → V) :=
  (gsXfers G cand cand' subs).map fun ts => applyAcc ts alpha v mem

/-! ## Subscripts of the C interface -/

/-- `gam_c2f_index` (onesided.c 3363-3369): `index_f[i] = index_c[ndim-1-i]+1`, where `index_c`
points to 32-bit integers. -/
def c2f (ndim : Nat) (indexC : List Int) : List Int :=
  (List.range ndim).map fun i => indexC.getD (ndim - 1 - i) 0 + 1

/-- `NGA_Gather`, `NGA_Scatter`, `NGA_Scatter_acc` (capi.c 3026-3046, 3109-3130, 3190-3211) pass
`int* subsArray[]` with `c_flag = 1`. -/
def subsC (G : GArr) (subs : List (List Int)) : List (List Int) := subs.map (c2f G.dims.length)

/-- `NGA_Scatter_flat` and relatives (capi.c 3048-3066): `_subs_array[idx*ndim+(ndim-i-1)] =
subsArray[idx*ndim+i] + 1`, `c_flag = 0`. The argument is already cut into rows of length `ndim`. -/
def subsFlat (subs : List (List Int)) : List (List Int) := subs.map fun s => (s.map (· + 1)).reverse

/-- low 32 bits of a 64-bit integer, as `int` -/
def loWord (v : Int) : Int := (v + 2147483648) % 4294967296 - 2147483648

/-- high 32 bits of a 64-bit integer, as `int` -/
def hiWord (v : Int) : Int := v / 4294967296

/-- a vector of 64-bit integers in memory, read as a vector of `int` (little endian) -/
def words (s : List Int) : List Int := s.flatMap fun v => [loWord v, hiWord v]

/-- `NGA_Scatter64` and relatives (capi.c 3069-3089): `int64_t* subsArray[]` is handed over with
`c_flag = 1` and read through `((int**)subscript)[i]` (onesided.c 3443-3446). -/
def subsC64 (G : GArr) (subs : List (List Int)) : List (List Int) :=
  subs.map fun s => c2f G.dims.length (words s)

end GA.Model
