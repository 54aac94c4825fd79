import Verif.Model.Region

/-!
# Model: put / get / accumulate

`ngai_put_common` (global/src/onesided.c 530-679), `ngai_get_common` (902-1043),
`ngai_acc_common` (1334-1455), `gam_ComputePatchIndex` (onesided.c 330-337), `gam_setstride`,
`gam_ComputeCount` (base.h 321-346), `gam_Location` (iterator.c 110-138), and the strided ARMCI
transfers they call, at element granularity: one memory cell holds one array element, so byte
offsets are divided by the element size.

Memory of the whole machine: cell `(p, o)` is element `o` of the segment of process `p`.
Simplifications: statistics and profiling are dropped; the non-blocking transfers issued for the
individual pieces are applied in issue order (different orders are covered because the theorems
hold for every permutation of the pieces); groups and restricted arrays are in `Model.Restrict`.
-/

namespace GA.Model

/-- address of an element in the machine: (process, element offset in its segment) -/
abbrev Addr := Int × Int

/-- A piece with the remote base offset `prem` and the remote leading dimensions `ldrem` that
`gai_iterator_next` returns. -/
structure RPiece where
  proc : Int
  plo : List Int
  phi : List Int
  prem : Int
  ldrem : List Int
deriving Repr, DecidableEq

/-- `gam_ComputePatchIndex` (onesided.c 330-337): loop with `_factor`. -/
def patchIndexLoop : (lo plo dims : List Int) → (pidx factor : Int) → Int
  | l :: lo, p :: plo, d :: dims, pidx, f =>
    patchIndexLoop lo plo dims (pidx + (f * d) * (p - l)) (f * d)
  | _, _, _, pidx, _ => pidx

/-- `gam_ComputePatchIndex` (onesided.c 330-337). -/
def patchIndex : (lo plo dims : List Int) → Int
  | l :: lo, p :: plo, dims => patchIndexLoop lo plo dims (p - l) 1
  | _, _, _ => 0

/-- `gam_setstride` (base.h 326-335) in units of elements: `stride[i] = ld[0]*...*ld[i]`. -/
def setstride : (acc : Int) → (ld : List Int) → List Int
  | acc, l :: ls => (acc * l) :: setstride (acc * l) ls
  | _, [] => []

/-- scalar product of strides and indices -/
def dotI : (a b : List Int) → Int
  | a :: as, b :: bs => a * b + dotI as bs
  | _, _ => 0

/-- Offset of the element with index vector `idx` in a strided ARMCI transfer: the first index
runs inside a contiguous segment, index `k` has stride `strides[k-1]`
(e.g. comex/src-mpi-pr/comex.c 1267-1328, nb_puts loops). -/
def strideOff (strides : List Int) : (idx : List Int) → Int
  | i :: is => i + dotI strides is
  | [] => 0

/-- One element moved by a transfer: buffer position and machine address. -/
structure Xfer where
  buf : Int
  addr : Addr
deriving Repr, DecidableEq

/-- The elements moved for one piece (onesided.c 603-611 and the strided ARMCI call 632-657):
`idx_buf` from `gam_ComputePatchIndex`, counts from `gam_ComputeCount`, strides from
`gam_setstride`. -/
def xferPiece (lo ld : List Int) (p : RPiece) : List Xfer :=
  (loopAll (p.plo.map fun _ => 0) ((edges p.plo p.phi).map (· - 1))).map fun i =>
    ⟨patchIndex lo p.plo ld + strideOff (setstride 1 ld) i,
     (p.proc, p.prem + strideOff (setstride 1 p.ldrem) i)⟩

/-- The two passes over the iterator (onesided.c 577-672): first the pieces on other nodes, then
the pieces inside the SMP node; `isLocal` is `armci_domain_same_id`. -/
def twoPass (isLocal : Int → Bool) (ps : List RPiece) : List RPiece :=
  ps.filter (fun p => !isLocal p.proc) ++ ps.filter (fun p => isLocal p.proc)

/-- all elements moved by one put/get/acc -/
def xfers (isLocal : Int → Bool) (lo ld : List Int) (ps : List RPiece) : List Xfer :=
  (twoPass isLocal ps).flatMap (xferPiece lo ld)

/-- function update -/
def upd {α V} [DecidableEq α] (m : α → V) (a : α) (v : V) : α → V := fun b => if b = a then v else m b

/-- effect of a put on memory -/
def applyPut {V} (ts : List Xfer) (buf : Int → V) (mem : Addr → V) : Addr → V :=
  ts.foldl (fun m t => upd m t.addr (buf t.buf)) mem

/-- effect of a get on the user buffer -/
def applyGet {V} (ts : List Xfer) (mem : Addr → V) (buf : Int → V) : Int → V :=
  ts.foldl (fun b t => upd b t.buf (mem t.addr)) buf

/-- effect of an accumulate on memory: `mem += alpha*buf` -/
def applyAcc {V} [Add V] [Mul V] (ts : List Xfer) (alpha : V) (buf : Int → V) (mem : Addr → V) :
    Addr → V :=
  ts.foldl (fun m t => upd m t.addr (m t.addr + alpha * buf t.buf)) mem

/-! ## REGULAR arrays -/

/-- Offset loop of `gam_Location` (iterator.c 110-126) / `gam_Loc_ptr` (base.h 375-393). The C
code treats the last dimension outside the loop because its `_factor` is not needed any more. -/
def locLoop : (sub lo hi : List Int) → (width : List Nat) → (off factor : Int) → Int
  | s :: ss, l :: ls, h :: hs, w :: ws, off, f =>
    locLoop ss ls hs ws (off + (s - l + w) * f) (f * (h - l + 1 + 2 * w))
  | _, _, _, _, off, _ => off

/-- `_offset` of `gam_Location` for process `proc` and a subscript in its block. -/
def locOffset (A : RegArray) (proc : Int) (sub : List Int) : Int :=
  locLoop sub (owns A proc).1 (owns A proc).2 A.width 0 1

/-- `ld[_d] = _hi[_d]-_lo[_d]+1+2*_w` of `gam_Location` (iterator.c 118-123), for the first
`ndim-1` dimensions (for `ndim = 1` the C code also sets `ld[0]`, which is then unused). -/
def ldRem : (lo hi : List Int) → (width : List Nat) → List Int
  | l :: l' :: ls, h :: h' :: hs, w :: ws => (h - l + 1 + 2 * w) :: ldRem (l' :: ls) (h' :: hs) ws
  | _, _, _ => []

/-- `gaCheckSubscriptM` (base.h 409-419): true if no error is raised. -/
def checkSubscript : (sub lo hi : List Int) → Bool
  | s :: ss, l :: ls, h :: hs => decide (¬ (s < l ∨ s > h)) && checkSubscript ss ls hs
  | _, _, _ => true

/-- Number of elements a process allocates for its block (base.c 2786-2793):
`nelem *= hi[i]-lo[i]+1+2*width[i]`. -/
def allocLoop : (lo hi : List Int) → (width : List Nat) → Int
  | l :: ls, h :: hs, w :: ws => (h - l + 1 + 2 * w) * allocLoop ls hs ws
  | _, _, _ => 1

/-- `nelem` of `pnga_allocate` for process `proc`. -/
def allocElems (A : RegArray) (proc : Int) : Int :=
  allocLoop (owns A proc).1 (owns A proc).2 A.width

/-- Everything a one-sided call depends on besides its arguments: floating point guesses of the
block searches, the random numbers of the process permutation, node locality, element size and the
limit `MAX_INT_VALUE`. -/
structure Env where
  candT : List Nat
  candB : List Nat
  rand : Nat → Nat
  isLocal : Int → Bool
  elemsize : Int
  maxInt : Int

/-- attach location data to a piece; `none` if `gaCheckSubscriptM` raises an error -/
def locatePiece (A : RegArray) (p : Piece) : Option RPiece :=
  let o := owns A p.proc
  if checkSubscript p.plo o.1 o.2 then
    some ⟨p.proc, p.plo, p.phi, locOffset A p.proc p.plo, ldRem o.1 o.2 A.width⟩
  else none

/-- apply an optional function to all members of a list -/
def mapOpt {α β} (f : α → Option β) : List α → Option (List β)
  | [] => some []
  | a :: as => match f a, mapOpt f as with
    | some b, some bs => some (b :: bs)
    | _, _ => none

/-- The pieces visited by one put/get/acc on a REGULAR array. The fuel is the number of elements
of the patch plus one: every sub-block contains at least one element. -/
def regPieces (E : Env) (A : RegArray) (lo hi : List Int) : Option (List RPiece) :=
  match locateRegion A E.candT E.candB lo hi with
  | none => none
  | some ps =>
    match regCollect E.elemsize E.maxInt ps (permuteProcList E.rand ps.length)
        ((initLoopElems lo hi).toNat + 1) regInit with
    | none => none
    | some qs => mapOpt (locatePiece A) qs

/-- `NGA_Put` (onesided.c 530-679). `none` models an error exit. -/
def ngaPut {V} (E : Env) (A : RegArray) (lo hi : List Int) (buf : Int → V) (ld : List Int)
    (mem : Addr → V) : Option (Addr → V) :=
  (regPieces E A lo hi).map fun ps => applyPut (xfers E.isLocal lo ld ps) buf mem

/-- `NGA_Get` (onesided.c 902-1043): new content of the user buffer. -/
def ngaGet {V} (E : Env) (A : RegArray) (lo hi : List Int) (buf : Int → V) (ld : List Int)
    (mem : Addr → V) : Option (Int → V) :=
  (regPieces E A lo hi).map fun ps => applyGet (xfers E.isLocal lo ld ps) mem buf

/-- `NGA_Acc` (onesided.c 1334-1455). -/
def ngaAcc {V} [Add V] [Mul V] (E : Env) (A : RegArray) (lo hi : List Int) (buf : Int → V)
    (ld : List Int) (alpha : V) (mem : Addr → V) : Option (Addr → V) :=
  (regPieces E A lo hi).map fun ps => applyAcc (xfers E.isLocal lo ld ps) alpha buf mem

end GA.Model
