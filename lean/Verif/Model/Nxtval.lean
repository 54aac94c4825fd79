/-!
# Model: the shared counter NXTVAL (tcgmsg/tcgmsg-mpi/nxtval-armci.c)

A state has the counter of the last process (`pnxtval_counter`, the server) and for each process the numbers of barriers it entered and left. Every call `NXTVAL(-n)` has two barriers,
so the number of calls completed is half the number of barriers left. `draws` is an observation: process, number of resets it completed, value returned. A step is one action of one
process; the schedule is arbitrary. Simplifications: `ARMCI_Rmw` is atomic (shown for the read-increment of arrays elsewhere), a barrier lets a process go when all have entered it.
-/

namespace GA.Nxt

/-- `pnxtval_counter` (tcgmsg/tcgmsg-mpi/nxtval-armci.c 19-20) and the progress of each process; see the head of this file -/
structure St where
  cnt : Int
  ent : Nat → Nat
  lft : Nat → Nat
  resets : Nat
  draws : List (Nat × Nat × Int)

/-- actions of a process -/
inductive Act
  | draw (p : Nat)
  | enter (p : Nat)
  | reset
  | leave (p : Nat)

/-- the id of the server, `NXTV_SERVER` (nxtval-armci.c 26) -/
def server (n : Nat) : Nat := n - 1

/-- `install_nxtval` (nxtval-armci.c 104-158) -/
def start : St := ⟨0, fun _ => 0, fun _ => 0, 0, []⟩

/-- outside of calls `NXTVAL(-n)` -/
def idle (st : St) (p : Nat) : Bool := st.ent p == st.lft p && st.lft p % 2 == 0

/-- between the barriers of a call `NXTVAL(-n)` -/
def middle (st : St) (p : Nat) : Bool := st.ent p == st.lft p && st.lft p % 2 == 1

/-- one action, if it is possible in this state (nxtval-armci.c 38-98).
`draw`: line 73 or 76. `enter`: the calls of the barrier in lines 53 and 63; the server enters the second one after line 60. `reset`: line 60. `leave`: a barrier returns. -/
def step (n : Nat) (st : St) : Act → Option St
  | .draw p =>
    if p < n && idle st p then some { st with cnt := st.cnt + 1, draws := st.draws ++ [(p, st.lft p / 2, st.cnt)] } else none
  | .enter p =>
    if p < n && (idle st p || (middle st p && (p != server n || st.resets == st.lft p / 2 + 1))) then some { st with ent := fun q => if q = p then st.ent q + 1 else st.ent q } else none
  | .reset =>
    if 0 < n && middle st (server n) && st.resets == st.lft (server n) / 2 then some { st with cnt := 0, resets := st.resets + 1 } else none
  | .leave p =>
    if p < n && st.ent p == st.lft p + 1 && (List.range n).all fun q => st.lft p + 1 ≤ st.ent q then some { st with lft := fun q => if q = p then st.lft q + 1 else st.lft q } else none

/-- a schedule -/
def run (n : Nat) : List Act → St → Option St
  | [], st => some st
  | a :: s, st => match step n st a with
    | none => none
    | some st' => run n s st'

/-- `tcg_nxtval` and `NXTVAL_` (nxtval-armci.c 40, 71-73; capi.c 139-144) if Fortran integers have 4 bytes: `ARMCI_FETCH_AND_ADD` stores the lower half of the local variable, the upper half is
whatever was there -/
def cValue (upper value : Int) : Int := upper * 2 ^ 32 + value

/-- the sequential version (nxtval-armci.c 83-95) -/
def seq (cnt mproc : Int) : Option (Int × Int) := if mproc = 1 then some (cnt, cnt + 1) else if mproc = -1 then some (0, 0) else none

end GA.Nxt
