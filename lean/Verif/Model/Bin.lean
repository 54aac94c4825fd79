import Mathlib.Data.Int.Notation

/-!
# Model: `pnga_bin_index` (global/src/sparse.c 698-745, 901-960)

Bins are numbered from 1.  The messages of `sgai_bin_offset` go up and down a fixed binary tree of
processes with blocking receives from a named source; MPI delivers the messages between two
processes in order, so the values received are determined by the tree and are given here as
functions of the rank.  Counts are unbounded integers (`int` in the code).
-/

namespace GA.Bin

/-- left child in the tree of `armci_msg_bintree` (comex/src-armci/message.c 543-561); `nproc`
processes, root 0: `left = 2*index+1`, `-1` if there is no such process -/
def hasLeft (n r : Nat) : Bool := decide (2 * r + 1 < n)

/-- right child: `right = 2*index+2` (message.c 555) -/
def hasRight (n r : Nat) : Bool := decide (2 * r + 2 < n)

/-- `workL` on process `r` after the up-tree phase (sparse.c 716-724), for one bin to which process
`s` contributes `x s` elements: the number of elements in the subtree of `r`. The first argument
bounds the depth; `n` is enough. -/
def upSum (n : Nat) (x : Nat → Int) : (fuel : Nat) → (r : Nat) → Int
  | 0, _ => 0
  | f + 1, r =>
    if hasRight n r ∧ hasLeft n r then upSum n x f (2 * r + 1) + (upSum n x f (2 * r + 2) + x r)
    else if hasLeft n r then upSum n x f (2 * r + 1) + x r
    else x r

/-- `workR` on process `r` at the end of the up-tree phase: received from the right child
(sparse.c 718), or else the value it had before (`workR` is a global array, 701). -/
def workR (n : Nat) (x w : Nat → Int) (r : Nat) : Int :=
  if hasRight n r then upSum n x n (2 * r + 2) else w r

/-- `workL` on process `r` in the down-tree phase (sparse.c 729-744): the root keeps the total; a
right child receives `offset[]` of its parent, a left child receives `offset[] - workR[]`. -/
def downVal (n : Nat) (x w : Nat → Int) : (fuel : Nat) → (r : Nat) → Int
  | 0, _ => 0
  | f + 1, r =>
    if r = 0 then upSum n x n 0
    else
      let up := (r - 1) / 2
      let offUp := downVal n x w f up - x up
      if r = 2 * up + 2 then offUp else offUp - workR n x w up

/-- `offset[i] = workL[i]-x[i]` (sparse.c 734). -/
def binOffset (n : Nat) (x w : Nat → Int) (r : Nat) : Int := downVal n x w (r + 1) r - x r

/-- `workR` after the call: `workR[i] = offset[i]-workR[i]` if there is a left child
(sparse.c 737-740). -/
def workRNext (n : Nat) (x w : Nat → Int) (r : Nat) : Int :=
  if hasLeft n r then binOffset n x w r - workR n x w r else workR n x w r

/-- `NWORK` (sparse.c 700) -/
def nwork : Nat := 2000

/-- The global array `workR` of every process: `W r i` is element `i` on process `r`. -/
abbrev Work := Nat → Nat → Int

/-- State of the chunk loop: `workR` and the offsets computed so far (`off r b` is element `b` of
`offset` on process `r`, counted from 0). -/
structure ChunkSt where
  w : Work
  off : Nat → Nat → Int

/-- One chunk of `cn` bins starting at bin `i` (counted from 0): one call of `sgai_bin_offset`
(sparse.c 706-745, 927). -/
def chunkStep (n : Nat) (x : Nat → Nat → Int) (i cn : Nat) (s : ChunkSt) : ChunkSt :=
  { w := fun r k => if k < cn then workRNext n (fun q => x q (i + k)) (fun q => s.w q k) r else s.w r k
    off := fun r b =>
      if i ≤ b ∧ b < i + cn then binOffset n (fun q => x q b) (fun q => s.w q (b - i)) r
      else s.off r b }

/-- `for(i=0;i<nbin;i+=NWORK){ cnbin=((i+NWORK)<nbin)?NWORK:nbin-i; sgai_bin_offset(...); }`
(sparse.c 925-928). -/
def chunkLoop (n nbin : Nat) (x : Nat → Nat → Int) : (fuel : Nat) → (i : Nat) → ChunkSt → ChunkSt
  | 0, _, s => s
  | f + 1, i, s =>
    if i < nbin then
      chunkLoop n nbin x f (i + nwork)
        (chunkStep n x i (if i + nwork < nbin then nwork else nbin - i) s)
    else s

/-- All offsets of one `pnga_bin_index` call and the new content of `workR`; `x r b` is the number
of elements process `r` contributes to bin `b` (counted from 0). -/
def offsets (n nbin : Nat) (x : Nat → Nat → Int) (w : Work) : ChunkSt :=
  chunkLoop n nbin x nbin 0 ⟨w, fun _ _ => 0⟩

/-- The input of one process: bin numbers and values. -/
structure Input (V : Type) where
  subs : List Int
  vals : List V

/-- `all_bin_contrib` of one process (sparse.c 916-923): entry `b` counts the subscripts equal to
`b+1`. -/
def contrib (subs : List Int) (b : Nat) : Int := (subs.count ((b : Int) + 1) : Nat)

/-- A put of consecutive values into the bin array: first subscript and values. -/
structure Put (V : Type) where
  lo : Int
  vals : List V

/-- Loop over the groups of equal bin numbers (sparse.c 930-950).  The result lists the puts; the
flag is false if one of the puts is rejected, or the loop stops early because `lo > nbin` (the
code then drops the remaining values). `goff b` is element `b` of the offset array. -/
def putLoop {V : Type} (nbin : Nat) (goff : Int → Int) (contr off : Nat → Int) (inp : Input V) :
    (fuel : Nat) → (i : Nat) → List (Put V) × Bool
  | 0, _ => ([], true)
  | f + 1, i =>
    if i < inp.subs.length then
      let sel := inp.subs.getD i 0
      let b := (sel - 1).toNat
      let elems := contr b
      let lo := goff sel + (off b + 1)
      let hi := lo + elems - 1
      if lo > (nbin : Int) then ([], false)
      else
        let rest := putLoop nbin goff contr off inp f (i + elems.toNat)
        (⟨lo, (inp.vals.drop i).take elems.toNat⟩ :: rest.1,
          decide (1 ≤ lo ∧ hi ≤ (nbin : Int)) && rest.2)
    else ([], true)

/-- The puts of process `r` in one call. -/
def procPuts {V : Type} (n nbin : Nat) (goff : Int → Int) (inp : Nat → Input V) (w : Work)
    (r : Nat) : List (Put V) × Bool :=
  putLoop nbin goff (contrib (inp r).subs)
    ((offsets n nbin (fun q b => contrib (inp q).subs b) w).off r) (inp r) (inp r).subs.length 0

/-- effect of one put -/
def Put.apply {V : Type} (p : Put V) (a : Int → V) : Int → V := fun g =>
  if p.lo ≤ g then (p.vals[(g - p.lo).toNat]?).getD (a g) else a g

/-- One call of `pnga_bin_index` by all processes (without sorting).  The puts of different
processes may be executed in any order: `sched` is the order in which the memory sees them.
`none`: some process stopped with an error or dropped values. -/
def binIndex {V : Type} (n nbin : Nat) (goff : Int → Int) (inp : Nat → Input V) (w : Work)
    (sched : List (Put V)) (a : Int → V) : Option (Int → V) :=
  if (List.range n).all fun r => (inp r).subs.all (fun s => decide (1 ≤ s ∧ s ≤ (nbin : Int))) &&
      (procPuts n nbin goff inp w r).2
  then some (sched.foldl (fun a p => p.apply a) a)
  else none

/-- Content of `workR` after one call. -/
def workAfter {V : Type} (n nbin : Nat) (inp : Nat → Input V) (w : Work) : Work :=
  (offsets n nbin (fun q b => contrib (inp q).subs b) w).w

end GA.Bin
