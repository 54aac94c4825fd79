import Verif.Model.OneSided

/-!
# Model: global pointer arrays (gparrays/src/gpbase.c, gponesided.c)

A GP array is a pair of global arrays with the same distribution: one holds the sizes of the elements in bytes, the other one their addresses. Both are
REGULAR arrays on all processes. They are modelled by their content, a function of the subscript: that `pnga_get` and `pnga_put` act on the content is
property C06. `B` is the type of bytes.
-/

namespace GA.GP
open GA.Model

/-- `armci_meminfo_t`: process and address. The three ways to name an address (`addr`, `ARMCI_Memat`, `armci_addr`) are not distinguished. -/
structure Ptr where
  proc : Int
  addr : Int
deriving DecidableEq

/-- the two arrays and the memory of all processes -/
structure St (B : Type) where
  sz : List Int → Int
  pt : List Int → Ptr
  mem : Int → Int → B

variable {B : Type}

/-- copying of `n` bytes from address `s` to address `d` -/
def memcpy (n : Int) (src : Int → B) (s d : Int) (dst : Int → B) : Int → B :=
  fun a => if d ≤ a ∧ a < d + n then src (s + (a - d)) else dst a

/-- `index[j] = itmp%block_ld[j]; itmp = (itmp - index[j])/block_ld[j]; ..; index[ndim-1] = itmp` (gponesided.c 207-212, 279-284, 487-492) -/
def elemIndex : (ext : List Int) → (j : Int) → List Int
  | d :: ds, j => j % d :: elemIndex ds ((j - j % d) / d)
  | [], j => [j]

/-- `offset = index[ndim-1]; for (d=ndim-2; d>=0; d--) offset = offset*ld[d] + index[d]` (gponesided.c 215-220, 289-296, 497-504) -/
def offset : (ld index : List Int) → Int
  | d :: ds, i :: is => offset ds is * d + i
  | [], i :: _ => i
  | _, [] => 0

/-- `index[d] + plo[d] - lo[d]` -/
def shift : (index plo lo : List Int) → List Int
  | i :: is, p :: ps, l :: ls => (i + p - l) :: shift is ps ls
  | _, _, _ => []

/-- `x[d] - lo[d]` -/
def rel : (x lo : List Int) → List Int
  | x :: xs, l :: ls => (x - l) :: rel xs ls
  | _, _ => []

/-- `pnga_get` on an array with content `f`: the elements of the patch are written to the buffer (C06) -/
def arrGet {α : Type} (f : List Int → α) (lo hi ld : List Int) (buf : Int → α) : Int → α :=
  (loopAll lo hi).foldl (fun b x => upd b (offset ld (rel x lo)) (f x)) buf

/-- a process without elements gets the error "illegal block size specified" (gponesided.c 174-177, 405-408) -/
def emptyBlock (A : RegArray) (me : Int) : Bool := ((owns A me).1.zip (owns A me).2).any fun x => x.1 > x.2

/-- the loop that makes `buf_ptr` (gponesided.c 195-233): places in a buffer at address `b0`, one after the other -/
def ptrLoop (ext ld ldSz : List Int) (b0 : Int) (bs : Int → Int) : (js : List Nat) → (bp : Int → Int) → (off : Int) → (Int → Int) × Int
  | [], bp, off => (bp, off)
  | j :: js, bp, off =>
    ptrLoop ext ld ldSz b0 bs js (upd bp (offset ld (elemIndex ext j)) (b0 + off)) (off + bs (offset ldSz (elemIndex ext j)))

/-- the descriptors for one piece (gponesided.c 251-340, 463-534): remote address, local address, number of bytes. `bs`: sizes,
`bp`: local addresses -/
def descs (st : St B) (plo phi lo ld ldSz : List Int) (bs bp : Int → Int) : List (Int × Int × Int) :=
  let ext := (edges plo phi).dropLast
  let rem := arrGet st.pt plo phi ext (fun _ => ⟨0, 0⟩)
  (List.range (prodI (edges plo phi)).toNat).filterMap fun j : Nat =>
    let ix := elemIndex ext j
    let bytes := bs (offset ldSz (shift ix plo lo))
    if 0 < bytes then some ((rem (offset ext ix)).addr, bp (offset ld (shift ix plo lo)), bytes) else none

/-- results of a get: memory of the caller, `buf_ptr`, `buf_size`, `size` -/
structure GetOut (B : Type) where
  loc : Int → B
  bp : Int → Int
  bs : Int → Int
  size : Int

/-- `pgp_get` (gponesided.c 156-365) on process `me`; `setbuf`: places and sizes are given by the caller. The transfers of one `ARMCI_GetV` are
done in the order of the descriptors. The pieces are those of `pnga_locate_region`; the call of `pnga_get` for the addresses of an empty piece
(gponesided.c 275, 483) ends with an error (iterator.c 216). Temporary storage is not modelled (a part of it is not freed). -/
def gpGet (A : RegArray) (candT candB : List Nat) (me : Int) (st : St B) (lo hi : List Int) (b0 : Int) (ld ldSz : List Int) (setbuf : Bool)
    (loc : Int → B) (bp bs : Int → Int) : Option (GetOut B) :=
  if emptyBlock A me then none
  else
    match locateRegion A candT candB lo hi with
    | none => none
    | some ps =>
      if !ps.all fun p => regionOK A.dims p.plo p.phi then none else
      let bs1 := if setbuf then bs else arrGet st.sz lo hi ldSz bs
      let r := if setbuf then (bp, 0) else
        ptrLoop (edges lo hi).dropLast ld ldSz b0 bs1 (List.range (prodI (edges lo hi)).toNat) bp 0
      let loc1 := ps.foldl (fun l p => (descs st p.plo p.phi lo ld ldSz bs1 r.1).foldl
        (fun l d => memcpy d.2.2 (st.mem p.proc) d.1 d.2.1 l) l) loc
      some ⟨loc1, r.1, bs1, r.2⟩

/-- the comparison of sizes in `pgp_put` (gponesided.c 418-444): `buf_size` is read without regard to `ld_sz` -/
def sizesEqual (st : St B) (lo hi : List Int) (bs : Int → Int) : Bool :=
  let tmp := arrGet st.sz lo hi (edges lo hi) (fun _ => 0)
  (List.range (prodI (edges lo hi)).toNat).all fun i : Nat => decide (tmp i = bs i)

/-- `pgp_put` (gponesided.c 385-556) on process `me`; `size` is never set. For an illegal patch the number of pieces is not set
(gponesided.c 456-459): `none`. -/
def gpPut (A : RegArray) (candT candB : List Nat) (me : Int) (st : St B) (lo hi ld ldSz : List Int) (check : Bool) (loc : Int → B)
    (bp bs : Int → Int) : Option (St B) :=
  if emptyBlock A me then none
  else
    match locateRegion A candT candB lo hi with
    | none => none
    | some ps =>
      if !ps.all fun p => regionOK A.dims p.plo p.phi then none
      else if check && !sizesEqual st lo hi bs then none
      else
        some { st with mem := ps.foldl (fun m p => (descs st p.plo p.phi lo ld ldSz bs bp).foldl
          (fun m d => upd m p.proc (memcpy d.2.2 loc d.2.1 d.1 (m p.proc))) m) st.mem }

/-- `pgp_assign_local_element` (gpbase.c 372-413) on process `me`: the element becomes the `size` bytes at address `ptr` of this process; `ptr` is a result
of `pgp_malloc`, which stores process and address in front of it (gpbase.c 84-107) -/
def gpAssign (A : RegArray) (me : Int) (x : List Int) (ptr size : Int) (st : St B) : Option (St B) :=
  if !checkSubscript x (owns A me).1 (owns A me).2 then none
  else some { st with sz := upd st.sz x size, pt := upd st.pt x ⟨me, ptr⟩ }

/-- `pgp_free_local_element` (gpbase.c 424-450) -/
def gpFree (A : RegArray) (me : Int) (x : List Int) (st : St B) : Option (St B) :=
  if !checkSubscript x (owns A me).1 (owns A me).2 then none
  else some { st with sz := upd st.sz x 0, pt := upd st.pt x ⟨0, 0⟩ }

/-- `pgp_memzero` (gpbase.c 460-527) on process `p`. A process without elements ends with an error in `pnga_access_ptr`. -/
def memzero1 (zero : B) (A : RegArray) (st : St B) (p : Nat) : Option (St B) :=
  if emptyBlock A p then none
  else
    let lo := (owns A p).1
    let hi := (owns A p).2
    some { st with mem := (List.range (prodI (edges lo hi)).toNat).foldl (fun m (i : Nat) =>
      let x := shift (elemIndex (edges lo hi).dropLast i) lo (lo.map fun _ => 0)
      upd m p (memcpy (st.sz x) (fun _ => zero) 0 (st.pt x).addr (m p))) st.mem }

/-- `pgp_memzero` on processes `ps`, one after the other: each one writes to its own memory only -/
def memzero (zero : B) (A : RegArray) : (ps : List Nat) → St B → Option (St B)
  | [], st => some st
  | p :: ps, st => (memzero1 zero A st p).bind (memzero zero A ps)

/-- `pgp_allocate` (gpbase.c 252-274): both arrays are zero -/
def gpAllocate (mem : Int → Int → B) : St B := ⟨fun _ => 0, fun _ => ⟨0, 0⟩, mem⟩

/-- `pgp_get_size` (gponesided.c 80-126) for sizes of 4 bytes -/
def gpGetSize (A : RegArray) (candT candB : List Nat) (me : Int) (st : St B) (lo hi : List Int) : Option Int :=
  if emptyBlock A me then none
  else
    match locateRegion A candT candB lo hi with
    | none => none
    | some _ =>
      let buf := arrGet st.sz lo hi (edges lo hi).dropLast (fun _ => 0)
      some (((List.range (prodI (edges lo hi)).toNat).map fun i : Nat => buf i).sum)

/-- the `i`-th 4-byte integer in a list of 8-byte integers that fit into 31 bits, least significant part first -/
def half (buf : Int → Int) (i : Int) : Int := if i % 2 = 0 then buf (i / 2) else 0

/-- `pgp_get_size` (gponesided.c 115-123) for sizes of 8 bytes: `long_ptr` has type `int *` -/
def gpGetSize8 (A : RegArray) (candT candB : List Nat) (me : Int) (st : St B) (lo hi : List Int) : Option Int :=
  if emptyBlock A me then none
  else
    match locateRegion A candT candB lo hi with
    | none => none
    | some _ =>
      let buf := arrGet st.sz lo hi (edges lo hi).dropLast (fun _ => 0)
      some (((List.range (prodI (edges lo hi)).toNat).map fun i : Nat => half buf i).sum)

/-! ## gather and scatter -/

/-- the linked lists of `pgp_gather` and `pgp_scatter` (gponesided.c 714-758, 909-930): `header[idx]`, `list[i]`, `nelems[idx]` for elements
`i, i+1, ..` of processes `cpids` -/
def link : (cpids : List Int) → (i : Int) → (header list nelems : Int → Int) → (Int → Int) × (Int → Int) × (Int → Int)
  | [], _, h, l, n => (h, l, n)
  | c :: cs, i, h, l, n => link cs (i + 1) (upd h c i) (upd l i (h c)) (upd n c (n c + 1))

/-- `while (idx > -1) { ..; idx = list[idx]; }`; at most `fuel` passes -/
def chase (list : Int → Int) : (fuel : Nat) → (idx : Int) → List Int
  | 0, _ => []
  | fuel + 1, idx => if idx > -1 then idx :: chase list fuel (list idx) else []

/-- the elements in the list of process `p` -/
def chain (ptrs : List Ptr) (p : Int) : List Int :=
  let r := link (ptrs.map (·.proc)) 0 (fun _ => -1) (fun _ => 0) (fun _ => 0)
  chase r.2.1 ptrs.length (r.1 p)

/-- the loop that makes `buf_ptr` in `pgp_gather` (gponesided.c 733-758) -/
def gatherPtrs (b0 : Int) : (sizes : List Int) → List Int
  | [] => []
  | s :: ss => b0 :: gatherPtrs (b0 + s) ss

/-- the sum returned by `pgp_gather` and `pgp_scatter` (gponesided.c 831-834, 1003-1006): `buf_size` is read as a list of `Integer`. `wide`: the list
has 4-byte elements (always so for C callers) and `Integer` has 8 bytes; then twice as much is read as there is. -/
def gatherSize (wide : Bool) (nv : Nat) (bs : Int → Int) : Int :=
  ((List.range nv).map fun i : Nat => if wide then bs (2 * i) + 2 ^ 32 * bs (2 * i + 1) else bs i).sum

/-- `pgp_gather` (gponesided.c 693-835): memory of the caller, `buf_ptr`, `buf_size`, as lists, for subscripts `xs` on `nproc` processes; `setbuf`: places
`bp0` and sizes `bs0` are given by the caller. An element of size 0 makes the calls of `free` (gponesided.c 814-818) act on pointers that were not set:
`none`. -/
def gpGather (nproc : Nat) (dims : List Int) (st : St B) (xs : List (List Int)) (b0 : Int) (setbuf : Bool) (loc : Int → B) (bp0 bs0 : List Int) :
    Option ((Int → B) × List Int × List Int) :=
  if !xs.all fun x => checkSubscript x (dims.map fun _ => 1) dims then none
  else
    let ptrs := xs.map st.pt
    let bs := if setbuf then bs0 else xs.map st.sz
    let bp := if setbuf then bp0 else gatherPtrs b0 bs
    if bs.any fun s => decide (s ≤ 0) then none
    else
      some ((List.range nproc).foldl (fun l (p : Nat) => (chain ptrs p).foldl (fun l i =>
        memcpy (bs.getD i.toNat 0) (st.mem p) (ptrs.getD i.toNat ⟨0, 0⟩).addr (bp.getD i.toNat 0) l) l) loc, bp, bs)

/-- `pgp_scatter` (gponesided.c 854-1007): `bp`, `bs` are the places and sizes of the data; the comparison of sizes never refuses a call -/
def gpScatter (nproc : Nat) (dims : List Int) (st : St B) (xs : List (List Int)) (loc : Int → B) (bp bs : List Int) : Option (St B) :=
  if !xs.all fun x => checkSubscript x (dims.map fun _ => 1) dims then none
  else
    let ptrs := xs.map st.pt
    if bs.any fun s => decide (s ≤ 0) then none
    else
      some { st with mem := (List.range nproc).foldl (fun m (p : Nat) => (chain ptrs p).foldl (fun m i =>
        upd m (p : Int) (memcpy (bs.getD i.toNat 0) loc (bp.getD i.toNat 0) (ptrs.getD i.toNat ⟨0, 0⟩).addr (m p))) m) st.mem }

/-- `pgp_gather_size` (gponesided.c 639-674) -/
def gpGatherSize (dims : List Int) (st : St B) (xs : List (List Int)) : Option Int :=
  if !xs.all fun x => checkSubscript x (dims.map fun _ => 1) dims then none
  else some ((xs.map st.sz).foldl (· + ·) 0)

/-- `pgp_access_element` (gponesided.c 570-594) for an `Integer` of 4 bytes: address and size of an element of the calling process -/
def gpAccess (A : RegArray) (me : Int) (st : St B) (x : List Int) : Option (Int × Int) :=
  if !checkSubscript x (owns A me).1 (owns A me).2 then none else some ((st.pt x).addr, st.sz x)

end GA.GP
