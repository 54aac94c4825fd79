import Verif.Model.OneSided

/-!
# Model: strided messages

* `pack`/`unpack`/`_packed_size` of comex/src-mpi-pr/comex.c (1237-1384),
* the ARMCI stride iterator of comex/src-armci/iterator.c (27-193).

`counts` is `count[1..stride_levels]`, `c0` is `count[0]`; one cell stands for one byte.
-/

namespace GA.Model

/-! ## comex pack / unpack -/

/-- `n1dim` (comex.c 1250-1253, 1291-1294, 1354-1357): product of `count[1..]`. -/
def n1dim : (counts : List Nat) → Nat
  | [] => 1
  | c :: cs => c * n1dim cs

/-- `_packed_size` (comex.c 1237-1264). -/
def packedSize (c0 : Nat) (counts : List Nat) : Nat := n1dim counts * c0

/-- `src_bunit[1..]` (comex.c 1301-1306): `bunit[1] = 1`, `bunit[i] = bunit[i-1]*count[i-1]`. -/
def bunits : (u : Nat) → (counts : List Nat) → List Nat
  | u, c :: cs => u :: bunits (u * c) cs
  | _, [] => []

/-- Inner loop over `j` (comex.c 1310-1318, 1369-1377) for block number `i`: returns the index
offset and the updated `bvalue`. -/
def packRow (i : Nat) : (bv bu counts : List Nat) → (strides : List Int) → Int × List Nat
  | b :: bs, u :: us, c :: cs, s :: ss =>
    let r := packRow i bs us cs ss
    let b1 := if (i + 1) % u = 0 then b + 1 else b
    let b2 := if b1 > c - 1 then 0 else b1
    (b * s + r.1, b2 :: r.2)
  | _, _, _, _ => (0, [])

/-- Outer loop (comex.c 1308-1319): offsets of the blocks, starting with block `i`, `n` blocks. -/
def packOffs (bu counts : List Nat) (strides : List Int) : (n i : Nat) → (bv : List Nat) → List Int
  | 0, _, _ => []
  | n + 1, i, bv =>
    let r := packRow i bv bu counts strides
    r.1 :: packOffs bu counts strides n (i + 1) r.2

/-- all block offsets of one pack/unpack call -/
def blockOffs (strides : List Int) (counts : List Nat) : List Int :=
  packOffs (bunits 1 counts) counts strides (n1dim counts) 0 (counts.map fun _ => 0)

/-- `memcpy` of `c0` units out of memory -/
def readSeg {V} (mem : Int → V) (a : Int) (c0 : Nat) : List V :=
  (List.range c0).map fun (b : Nat) => mem (a + b)

/-- `memcpy` of `c0` units to memory -/
def writeSeg {V} (mem : Int → V) (a : Int) (seg : Nat → V) : (c0 : Nat) → (Int → V)
  | 0 => mem
  | n + 1 => upd (writeSeg mem a seg n) (a + n) (seg n)

/-- `pack` (comex.c 1267-1328): the packed buffer. -/
def pack {V} (src : Int → V) (base : Int) (strides : List Int) (c0 : Nat) (counts : List Nat) :
    List V :=
  (blockOffs strides counts).flatMap fun o => readSeg src (base + o) c0

/-- Loop of `unpack` (comex.c 1366-1381): `pos` is `packed_index`. -/
def unpackLoop {V} (buf : Nat → V) (base : Int) (c0 : Nat) :
    (offs : List Int) → (pos : Nat) → (Int → V) → (Int → V)
  | [], _, mem => mem
  | o :: os, pos, mem =>
    unpackLoop buf base c0 os (pos + c0) (writeSeg mem (base + o) (fun b => buf (pos + b)) c0)

/-- `unpack` (comex.c 1331-1384). -/
def unpack {V} (buf : Nat → V) (dst : Int → V) (base : Int) (strides : List Int) (c0 : Nat)
    (counts : List Nat) : Int → V :=
  unpackLoop buf base c0 (blockOffs strides counts) 0 dst

/-! ## ARMCI stride iterator -/

/-- `stride_info_t` (comex/src-armci/iterator.h); `itr` has `stride_levels` entries (the last
entry of the C array is never used). -/
structure StrideIt where
  strides : List Int
  c0 : Nat
  counts : List Nat
  size : Nat
  pos : Nat
  itr : List Nat
deriving Repr, DecidableEq

/-- the asserts of `armci_stride_info_init` (iterator.c 36-41): `prev` is the required minimum -/
def strideAsserts : (prev : Int) → (strides : List Int) → (counts : List Nat) → Bool
  | prev, s :: ss, c :: cs => decide (s ≥ prev) && strideAsserts (s * c) ss cs
  | _, _, _ => true

/-- `armci_stride_info_init` (iterator.c 27-60); `none` is a failed assert. -/
def strideInit (strides : List Int) (c0 : Nat) (counts : List Nat) : Option StrideIt :=
  if strideAsserts c0 strides counts && decide (n1dim counts > 0) then
    some ⟨strides, c0, counts, n1dim counts, 0, counts.map fun _ => 0⟩
  else none

/-- carry loop of `armci_stride_info_next` (iterator.c 101-105): stops at the first component that
has not reached its count; `none` if the closing assert `itr[i] <= seg_count[i+1]` fails -/
def strideCarry : (itr counts : List Nat) → Option (List Nat)
  | i :: j :: is, c :: cs =>
    if i = c then (strideCarry ((j + 1) :: is) cs).map (0 :: ·)
    else if i ≤ c then some (i :: j :: is) else none
  | i :: is, c :: _ => if i ≤ c then some (i :: is) else none
  | is, _ => some is

/-- `armci_stride_info_next` (iterator.c 94-107); `none` is a failed assert (`pos < size`). -/
def strideNext (it : StrideIt) : Option StrideIt :=
  if it.pos < it.size then
    match it.itr with
    | [] => some { it with pos := it.pos + 1 }
    | i :: is =>
      (strideCarry ((i + 1) :: is) it.counts).map fun v => { it with pos := it.pos + 1, itr := v }
  else none

/-- `armci_stride_info_seg_off` (iterator.c 134-144). -/
def segOff : (itr : List Nat) → (strides : List Int) → Int
  | i :: is, s :: ss => i * s + segOff is ss
  | _, _ => 0

/-- `armci_stride_info_has_more` (iterator.c 152-155). -/
def strideMore (it : StrideIt) : Bool := decide (it.pos < it.size)

/-- The loop `while (has_more) { seg_off; next; }` of iterator.c 167-172: offsets of the visited
segments; `none` if an assert fails. The fuel is the number of iterations left. -/
def strideVisit : (fuel : Nat) → StrideIt → Option (List Int)
  | 0, it => if strideMore it then none else some []
  | f + 1, it =>
    if strideMore it then
      match strideNext it with
      | none => none
      | some it' => (strideVisit f it').map (segOff it.itr it.strides :: ·)
    else some []

/-- offsets visited by `armci_write_strided`/`armci_read_strided` (iterator.c 158-193);
`c0 > 0` is asserted there -/
def stridedSegs (strides : List Int) (c0 : Nat) (counts : List Nat) : Option (List Int) :=
  if c0 > 0 then (strideInit strides c0 counts).bind fun it => strideVisit (it.size + 1) it
  else none

/-- `armci_write_strided` (iterator.c 158-174): copy a strided region into a contiguous buffer. -/
def writeStrided {V} (mem : Int → V) (base : Int) (strides : List Int) (c0 : Nat)
    (counts : List Nat) : Option (List V) :=
  (stridedSegs strides c0 counts).map fun os => os.flatMap fun o => readSeg mem (base + o) c0

/-- `armci_read_strided` (iterator.c 177-193): copy a contiguous buffer into a strided region. -/
def readStrided {V} (buf : Nat → V) (mem : Int → V) (base : Int) (strides : List Int) (c0 : Nat)
    (counts : List Nat) : Option (Int → V) :=
  (stridedSegs strides c0 counts).map fun os => unpackLoop buf base c0 os 0 mem

end GA.Model
