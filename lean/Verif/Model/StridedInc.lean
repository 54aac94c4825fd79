import Verif.Model.Strided

/-!
# Model: receiving a strided message piece by piece

armci/src/xfer/strided.c: `armci_read_strided_inc` (1018-1046), and its loop in armci/src/common/ds-shared.c (669-682). The iterator is that of
`Verif.Model.Strided`: armci/src/common/iterator.c has the same functions (28-155). One cell stands for one byte; `none` is a failed assert.
-/

namespace GA.Model.StridedInc

/-- the loop of `armci_read_strided_inc` (strided.c 1036-1042): `off` bytes of the buffer are done. The number of iterations is bounded by `fuel`. -/
def incLoop {V} (base : Int) (buf : Nat → V) (bytes : Nat) : Nat → StrideIt → Nat → (Int → V) → Option (StrideIt × (Int → V))
  | 0, _, _, _ => none
  | fuel + 1, it, off, mem =>
    if bytes > off then
      let size := min it.c0 (bytes - off)
      if strideMore it then
        let mem' := writeSeg mem (base + segOff it.itr it.strides) (fun b => buf (off + b)) size
        match if size = it.c0 then strideNext it else some it with
        | none => none
        | some it' => incLoop base buf bytes fuel it' (off + size) mem'
      else none
    else some (it, mem)

/-- the part before the loop (strided.c 1024-1035): the rest of the segment begun by the last call. Iterator, bytes done, memory. -/
def incFirst {V} (base : Int) (buf : Nat → V) (bytes : Nat) (it : StrideIt) (so : Nat) (mem : Int → V) : Option (StrideIt × Nat × (Int → V)) :=
  if so ≠ 0 then
    let size := min (it.c0 - so) bytes
    if strideMore it then
      let mem' := writeSeg mem (base + segOff it.itr it.strides + so) buf size
      (if so + size = it.c0 then strideNext it else some it).map fun it' => (it', size, mem')
    else none
  else some (it, 0, mem)

/-- `armci_read_strided_inc` (strided.c 1018-1046): iterator, `*seg_off`, memory after the call -/
def readInc {V} (base : Int) (buf : Nat → V) (bytes : Nat) (it : StrideIt) (so : Nat) (mem : Int → V) : Option (StrideIt × Nat × (Int → V)) :=
  if bytes > 0 then
    (incFirst base buf bytes it so mem).bind fun x =>
      (incLoop base buf bytes (bytes + 1) x.1 x.2.1 x.2.2).map fun y => (y.1, (bytes + so) % it.c0, y.2)
  else none

/-- The loop of ds-shared.c 675-678. `pieces` are the numbers of bytes that have arrived since the last look; `usr` is `bytes_usr`, the message is `data`.
`none` also if the pieces end before `datalen` bytes are there. -/
def receiveLoop {V} (base : Int) (data : Nat → V) (datalen : Nat) : List Nat → Nat → StrideIt → Nat → (Int → V) → Option (Int → V)
  | [], _, _, _, _ => none
  | n :: ns, usr, it, so, mem =>
    match readInc base (fun b => data (usr + b)) n it so mem with
    | none => none
    | some (it', so', mem') => if usr + n < datalen then receiveLoop base data datalen ns (usr + n) it' so' mem' else some mem'

/-- ds-shared.c 669-682: the message has the size of the region -/
def receive {V} (base : Int) (strides : List Int) (c0 : Nat) (counts : List Nat) (data : Nat → V) (pieces : List Nat) (mem : Int → V) : Option (Int → V) :=
  (strideInit strides c0 counts).bind fun it => receiveLoop base data (n1dim counts * c0) pieces 0 it 0 mem

end GA.Model.StridedInc
