import Verif.Model.OneSided
import Verif.Model.BlockRegion
import Verif.Model.ReadInc
import Verif.Model.Restrict
import Verif.Model.Ghosts
import Verif.Model.Decomp

/-!
# Model: the C interface (global/src/capi.c)

The C calls convert 0-based row-major arguments to the 1-based column-major arguments of the `wnga_`/`pnga_` routines. Variant
without `USE_FAPI` (capi.c 52-67). The `64` variants of the calls differ only in the integer type. `ndim` is the length of the lists.
-/

namespace GA.Model

/-- `COPYC2F` and `COPYF2C` (capi.c 53-56): `farr[n-i-1] = carr[i]` -/
def copyC2F (l : List Int) : List Int := l.reverse

/-- `COPYINDEX_C2F` (capi.c 59-60): `farr[n-i-1] = carr[i]+1` -/
def indexC2F (l : List Int) : List Int := (l.map fun v => v + 1).reverse

/-- `COPYINDEX_F2C` (capi.c 61-62): `carr[n-i-1] = farr[i]-1` -/
def indexF2C (l : List Int) : List Int := (l.map fun v => v - 1).reverse

section
variable {V : Type}

/-- `NGA_Put` (capi.c 1930-1940) -/
def cPut (E : Env) (A : RegArray) (lo hi : List Int) (buf : Int → V) (ld : List Int) (m : Addr → V) : Option (Addr → V) :=
  ngaPut E A (indexC2F lo) (indexC2F hi) buf (copyC2F ld) m

/-- `NGA_Get` (capi.c 1880-1890) -/
def cGet (E : Env) (A : RegArray) (lo hi : List Int) (buf : Int → V) (ld : List Int) (m : Addr → V) : Option (Int → V) :=
  ngaGet E A (indexC2F lo) (indexC2F hi) buf (copyC2F ld) m

/-- `NGA_Acc` (capi.c 2079-2090) -/
def cAcc [Add V] [Mul V] (E : Env) (A : RegArray) (lo hi : List Int) (buf : Int → V) (ld : List Int) (alpha : V) (m : Addr → V) :
    Option (Addr → V) :=
  ngaAcc E A (indexC2F lo) (indexC2F hi) buf (copyC2F ld) alpha m

/-- `NGA_Put` on an array that is not REGULAR -/
def cPutB (isLocal : Int → Bool) (A : BArray) (lo hi : List Int) (buf : Int → V) (ld : List Int) (m : Addr → V) : Option (Addr → V) :=
  bPut isLocal A (indexC2F lo) (indexC2F hi) buf (copyC2F ld) m

/-- `NGA_Get` on an array that is not REGULAR -/
def cGetB (isLocal : Int → Bool) (A : BArray) (lo hi : List Int) (buf : Int → V) (ld : List Int) (m : Addr → V) : Option (Int → V) :=
  bGet isLocal A (indexC2F lo) (indexC2F hi) buf (copyC2F ld) m

/-- `NGA_Acc` on an array that is not REGULAR -/
def cAccB [Add V] [Mul V] (isLocal : Int → Bool) (A : BArray) (lo hi : List Int) (buf : Int → V) (ld : List Int) (alpha : V)
    (m : Addr → V) : Option (Addr → V) :=
  bAcc isLocal A (indexC2F lo) (indexC2F hi) buf (copyC2F ld) alpha m

end

/-- `NGA_Read_inc` (capi.c 2202-2210) -/
def cReadInc (A : RegArray) (cand : List Nat) (x : List Int) (inc : Int) (m : Addr → Int) : Option (Int × (Addr → Int)) :=
  readInc A cand (indexC2F x) inc m

/-- `NGA_Distribution` (capi.c 2222-2231) -/
def cDistribution (A : RegArray) (p : Int) : List Int × List Int := (indexF2C (owns A p).1, indexF2C (owns A p).2)

/-- `NGA_Locate` (capi.c 2602-2613) -/
def cLocate (A : RegArray) (cand : List Nat) (x : List Int) : Int := (locate A cand (indexC2F x)).getD (-1)

/-- `pnga_access_ptr` (onesided.c 1499-1532), world group without restriction: process, offset of the returned pointer in the memory of
this process, and `ld`. `same p`: process `p` is on the node of the caller; `candT`, `candB` are the guesses of the two searches. Process and
address are those of the owner of `hi`; the subscript check of `gam_Location` (iterator.c 115) ends the program if `lo` is not in its block. -/
def accessPtr (same : Int → Bool) (A : RegArray) (candT candB : List Nat) (lo hi : List Int) : Option (Int × Int × List Int) :=
  match locate A candT lo with
  | none => none
  | some p =>
    if !same p then none
    else
      match locate A candB hi with
      | none => none
      | some q =>
        if !same q then none
        else if (lo.zip hi).any fun x => x.1 > x.2 then none
        else if !checkSubscript lo (owns A q).1 (owns A q).2 then none
        else some (q, locOffset A q lo, ldRem (owns A q).1 (owns A q).2 A.width)

/-- `NGA_Access` (capi.c 2395-2406) -/
def cAccess (same : Int → Bool) (A : RegArray) (candT candB : List Nat) (lo hi : List Int) : Option (Int × Int × List Int) :=
  (accessPtr same A candT candB (indexC2F lo) (indexC2F hi)).map fun r => (r.1, r.2.1, copyC2F r.2.2)

/-- `NGA_Create` (capi.c 164-181), as far as the distribution of the new array is concerned; a null pointer `chunk` is a list of zeros. The ghost
widths are zero. -/
def cCreate (less : Waste → Waste → Bool) (npes : Nat) (dims chunk : List Int) : Option RegArray :=
  defaultArray less npes (copyC2F dims) (copyC2F chunk) (dims.map fun _ => 0)

/-- the loop of `copy_map` (capi.c 5242-5249): the part of dimension `d` is written in front of the parts of the dimensions
before it; `done` is what has been written -/
def copyMapLoop : (block : List Nat) → (map done : List Int) → List Int
  | n :: ns, m, done => copyMapLoop ns (m.drop n) (((m.take n).map fun v => v + 1) ++ done)
  | [], _, done => done

/-- `copy_map` (capi.c 5229-5253) -/
def copyMap (block : List Nat) (map : List Int) : List Int := copyMapLoop block map []

/-- `NGA_Create_irreg` (capi.c 245-266): the distribution of the new array, `none` if the call fails. Ghost widths are zero
(they are set by `NGA_Create_ghosts_irreg`, which converts in the same way). -/
def cCreateIrreg (dims : List Int) (block : List Nat) (map : List Int) : Option RegArray :=
  setIrreg (copyC2F dims) (copyMap block map) block.reverse (block.map fun _ => 0)

/-- `NGA_Locate_region` (capi.c 2660-2695): the pieces as they are copied to `map` and `procs`. `none`: not defined. For a patch that is
refused, `np_guess` is not set and is used as a size (capi.c 2670-2673); when the count is not the number of pieces, the temporary lists
have the wrong size and the assertion fails (2675-2676). -/
def cLocateRegion (A : RegArray) (candT candB : List Nat) (lo hi : List Int) : Option (List Piece) :=
  match locateNNodes A candT candB (indexC2F lo) (indexC2F hi), locateRegion A candT candB (indexC2F lo) (indexC2F hi) with
  | some n, some ps => if n = ps.length then some (ps.map fun p => ⟨p.proc, indexF2C p.plo, indexF2C p.phi⟩) else none
  | _, _ => none

/-- `NGA_Locate_region` on an array that is not REGULAR -/
def cLocateRegionB (A : BArray) (candT candB : List Nat) (lo hi : List Int) : Option (List Piece) :=
  match locateNNodesB A (indexC2F lo) (indexC2F hi), locateBlocks A candT candB (indexC2F lo) (indexC2F hi) with
  | some n, some ps => if n = ps.length then some (ps.map fun p => ⟨p.proc, indexF2C p.plo, indexF2C p.phi⟩) else none
  | _, _ => none

/-- `NGA_Proc_topology` (capi.c 2808-2816): the result is copied with `COPY`, in the same order -/
def cTopology (A : RegArray) (p : Nat) : List Nat := Ghost.procTopology A.nblock p

/-- `GA_Get_proc_grid`, `NGA_Get_proc_grid` (capi.c 2818-2834) of a REGULAR array: `pnga_get_proc_grid` (base.c) returns `nblock`, and
the result is copied with `COPY`, in the same order -/
def cProcGrid (A : RegArray) : List Nat := A.nblock

/-- `GA_Nblock` (capi.c 1462-1470): `pnga_nblock` returns `nblock`, copied with `COPYF2C` -/
def cNblock (A : RegArray) : List Nat := A.nblock.reverse

/-- `NGA_NbGet_ghost_dir` (capi.c 1572-1589): the direction that is passed on. It is converted like a subscript. -/
def cGhostDirMask (mask : List Int) : List Int := indexC2F mask

end GA.Model
