import Verif.Model.OneSided
import Verif.Model.BlockAccess

/-!
# Model: `pnga_read_inc` (global/src/onesided.c 3955-4045)

Simplifications: the element type check, the statistics and the lock are dropped; the world group
without restriction (`p_handle = -1`, `num_rstrctd = 0`); the remote fetch-and-add is one step here,
its atomicity is the subject of `Model.Comex`; element values do not overflow.
-/

namespace GA.Model

/-- The conversion `(int)inc` in the call of `ARMCI_Rmw` (onesided.c 4035), for 32-bit `int` in
two's complement. -/
def castInt (v : Int) : Int := (v + 2147483648) % 4294967296 - 2147483648

/-- `ARMCI_Rmw(optype, pval, ptr, (int)inc, proc)` (onesided.c 4035): returns the old value. -/
def rmwAdd (a : Addr) (inc : Int) (m : Addr → Int) : Int × (Addr → Int) :=
  (m a, upd m a (m a + castInt inc))

/-- `pnga_read_inc` on a REGULAR array. A subscript outside the array leaves `proc = -1`
(`pnga_locate` returns FALSE, base.c 796-797), and then the subscript check of `gam_Location`
(iterator.c 115) ends the program. -/
def readInc (A : RegArray) (cand : List Nat) (x : List Int) (inc : Int) (m : Addr → Int) :
    Option (Int × (Addr → Int)) :=
  let proc := (locate A cand x).getD (-1)
  if checkSubscript x (owns A proc).1 (owns A proc).2 then
    some (rmwAdd (proc, locOffset A proc x) inc m)
  else none

/-- The offset loop of onesided.c 3995-4002: `offset += (subscript[j]-lo[j])*jtot; jtot *= ldp[j]`,
the last dimension treated after the loop. -/
def riOff : (sub lo ldp : List Int) → (off jtot : Int) → Int
  | s :: ss, l :: ls, d :: ds, off, jtot => riOff ss ls ds (off + (s - l) * jtot) (jtot * d)
  | s :: _, l :: _, [], off, jtot => off + (s - l) * jtot
  | _, _, _, off, _ => off

/-- `pnga_read_inc` on an array that is not REGULAR: `pnga_locate` returns the block number
(base.c 815-820), `pnga_distribution` its bounds, `pnga_access_block_ptr` its address
(onesided.c 3990-4003), and the block number is then turned into a process (4016-4033). -/
def bReadInc (A : BArray) (cand : List Nat) (x : List Int) (inc : Int) (m : Addr → Int) :
    Option (Int × (Addr → Int)) :=
  let b := bLocate A cand x
  match accessBlock A b with
  | none => none
  | some (_, off, ldp) =>
    some (rmwAdd ((bProc A b : Nat), off + riOff x (bOwns A b).1 ldp 0 1) inc m)

end GA.Model
