import Verif.Model.StridedInc

/-!
# Model: noticing the arrival of the answer to a strided get

armci/src/devices/openib/openib.c: the stamps of `armci_send_req_msg` (2570-2591) and `armci_ReadFromDirectSegment` (3457-3549); the loop in
armci/src/common/ds-shared.c (675-678). Addresses are relative to the end of the request header; one cell is one byte, the machine is little endian.
`ARMCI_STAMP` = 20080528 (include/armcip.h 39), `GET_STRIDED_COPY_PIPELINED_SIZE` = 1024 (armci-vapi.h 227), integers have four bytes. `len` is the length of the answer,
`D` that of the descriptor.
-/

namespace GA.Model.Stamp

/-- the bytes of `ARMCI_STAMP` = 0x01326790 -/
def stampByte (j : Nat) : Nat := [0x90, 0x67, 0x32, 0x01].getD j 0

/-- `*ptr = ARMCI_STAMP` -/
def store4 (m : Int → Nat) (p : Int) : Int → Nat := fun x => if p ≤ x ∧ x < p + 4 then stampByte (x - p).toNat else m x

/-- start of the answer: it overwrites the descriptor if it is longer (openib.c 3474-3478). The comparison is between unsigned numbers: `len - 4` wraps around. -/
def dataStart (len D : Nat) : Nat := if len < 4 ∨ D < len - 4 then 0 else D

/-- `last` of the receiver (openib.c 3474-3478) -/
def lastPos (len D : Nat) : Int := dataStart len D + (len : Int) - 4

/-- `last` of the sender of the request (openib.c 2575-2578) -/
def lastSent (len D : Nat) : Int := if len < 4 ∨ D < len - 4 then (len : Int) - 4 else D + (len : Int) - 4

/-- number of stamps before the last one (openib.c 2583-2589): those at `D + 1024`, `D + 2048`, … below `last` -/
def numStamps (len D : Nat) : Nat := ((lastSent len D - (D + 1024) + 1023) / 1024).toNat

/-- the stamps (openib.c 2579-2590): the last one first -/
def stamped (len D : Nat) (m : Int → Nat) : Int → Nat :=
  (List.range (numStamps len D)).foldl (fun (m : Int → Nat) (k : Nat) => store4 m (D + 1024 + 1024 * (k : Int))) (store4 m (lastSent len D))

/-- the buffer when the first `a` bytes of the answer have arrived -/
def arrived (len D : Nat) (data : Nat → Nat) (a : Nat) (m : Int → Nat) : Int → Nat :=
  fun x => if (dataStart len D : Int) ≤ x ∧ x < dataStart len D + a then data (x - dataStart len D).toNat else m x

/-- `armci_util_int_getval(p) == ARMCI_STAMP` -/
def isStamp (m : Int → Nat) (p : Int) : Bool := m p = stampByte 0 ∧ m (p + 1) = stampByte 1 ∧ m (p + 2) = stampByte 2 ∧ m (p + 3) = stampByte 3

/-- outcome of one turn of the loop of `armci_ReadFromDirectSegment`: failed assert, next turn, return with `*bytes_done` -/
inductive Look where
  | fail
  | again
  | report (n : Nat)
deriving DecidableEq

/-- One turn (openib.c 3485-3516): `m` is the buffer, `flag` tells whether the acknowledgement is there, `done` is `*bytes_done`. -/
def look (len D : Nat) (m : Int → Nat) (flag : Bool) (done : Nat) : Look :=
  if isStamp m (lastPos len D) && !flag then
    let sfirst : Int := D + 1024
    let off := (Int.tdiv (dataStart len D + done - sfirst) 4 + 256).tdiv 256 * 256
    let ptr := sfirst + 4 * off
    if off < 0 then .fail
    else if sfirst ≤ dataStart len D ∨ ptr ≤ dataStart len D then .fail
    else if ptr ≤ lastPos len D ∧ isStamp m ptr = false then .report (ptr - dataStart len D).toNat
    else .again
  else .report len

/-- All turns of the loop of ds-shared.c 675-678 and of the loop inside: each turn sees the bytes arrived and the acknowledgement. The pieces, and whether the loop
has ended; `none` is a failed assert. -/
def pieces (len D : Nat) (m : Int → Nat) (data : Nat → Nat) : List (Nat × Bool) → Nat → Option (List Nat × Bool)
  | [], _ => some ([], false)
  | (a, flag) :: os, done =>
    match look len D (arrived len D data a (stamped len D m)) flag done with
    | .fail => none
    | .again => pieces len D m data os done
    | .report n => if n < len then (pieces len D m data os n).map fun x => ((n - done) :: x.1, x.2) else some ([n - done], true)

end GA.Model.Stamp
