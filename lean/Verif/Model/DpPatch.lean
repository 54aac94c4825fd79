import Mathlib.Algebra.Ring.Defs
import Mathlib.Algebra.BigOperators.Group.List.Defs

/-!
# Model: copies and dot products of patches of two-dimensional arrays (global/src/DP.c)

Indices start at 1, as in Fortran. An array is a function of two indices, its distribution gives each process a block; a process without elements has an empty block. `pnga_access_ptr`
gives a pointer to the first element of the region it is asked for, and the leading dimension of the block. Simplifications: arrays have no ghost cells; each process runs its
part without interruption (the source is not changed, the parts of the destination are disjoint); an error of `pnga_put` or `pnga_get` is `none`.
-/

namespace GA.DpPatch

/-- a region of a matrix: rows `ilo` to `ihi`, columns `jlo` to `jhi` -/
structure Reg where
  ilo : Int
  ihi : Int
  jlo : Int
  jhi : Int
deriving DecidableEq

/-- numbers of rows and columns -/
structure Dims where
  m : Int
  n : Int

/-- a region that lies in a matrix -/
def inDims (d : Dims) (r : Reg) : Bool := 1 ≤ r.ilo ∧ r.ihi ≤ d.m ∧ 1 ≤ r.jlo ∧ r.jhi ≤ d.n

/-- an element of a region -/
def mem (r : Reg) (i j : Int) : Bool := r.ilo ≤ i ∧ i ≤ r.ihi ∧ r.jlo ≤ j ∧ j ≤ r.jhi

/-- `own_patch` (DP.c 19-32) -/
def ownPatch (mine r : Reg) : Bool := mine = r

/-- `patch_intersect` (DP.c 34-51) -/
def intersect (a p : Reg) : Option Reg :=
  if a.ihi < a.ilo ∨ a.jhi < a.jlo then none
  else if p.ihi < p.ilo ∨ p.jhi < p.jlo then none
  else if a.ihi < p.ilo ∨ p.ihi < a.ilo then none
  else if a.jhi < p.jlo ∨ p.jhi < a.jlo then none
  else some ⟨max a.ilo p.ilo, min a.ihi p.ihi, max a.jlo p.jlo, min a.jhi p.jhi⟩

section
variable {V : Type}

/-- element `j * ld + i` behind a pointer from `pnga_access_ptr` for region `r` (`i < ld`) -/
def deref (A : Int → Int → V) (r : Reg) (i j : Int) : V := A (r.ilo + i) (r.jlo + j)

/-- `pnga_put` of a region from a buffer whose element `j * ld + i` is `buf i j` -/
def put (d : Dims) (B : Int → Int → V) (r : Reg) (buf : Int → Int → V) : Option (Int → Int → V) :=
  if inDims d r then some fun i j => if mem r i j then buf (i - r.ilo) (j - r.jlo) else B i j else none

/-- the part of `pnga_copy_patch_dp` of the process with block `blk` (DP.c 108-160): the pointer is for the block, not for the intersection -/
def copyPart (trans : Bool) (A : Int → Int → V) (db : Dims) (blk a b : Reg) (B : Int → Int → V) : Option (Int → Int → V) :=
  match intersect a blk with
  | none => some B
  | some s =>
    if trans = false then
      put db B ⟨s.ilo + (b.ilo - a.ilo), s.ihi + (b.ilo - a.ilo), s.jlo + (b.jlo - a.jlo), s.jhi + (b.jlo - a.jlo)⟩ fun i j => deref A blk i j
    else
      put db B ⟨s.jlo + (b.ilo - a.jlo), s.jhi + (b.ilo - a.jlo), s.ilo + (b.jlo - a.ilo), s.ihi + (b.jlo - a.ilo)⟩ fun i j => deref A blk j i

/-- the checks of `pnga_copy_patch_dp` (DP.c 93-102) -/
def copyOk (da db : Dims) (a b : Reg) : Bool :=
  inDims da a ∧ inDims db b ∧ b.ihi - b.ilo + 1 = a.ihi - a.ilo + 1 ∧ b.jhi - b.jlo + 1 = a.jhi - a.jlo + 1

/-- the processes one after the other -/
def copyParts (trans : Bool) (A : Int → Int → V) (db : Dims) (blk : Nat → Reg) (a b : Reg) : List Nat → (Int → Int → V) → Option (Int → Int → V)
  | [], B => some B
  | p :: ps, B =>
    match copyPart trans A db (blk p) a b B with
    | none => none
    | some B' => copyParts trans A db blk a b ps B'

/-- `pnga_copy_patch_dp` (DP.c 62-161) called by all processes, in some order -/
def copyPatch (trans : Bool) (A : Int → Int → V) (da db : Dims) (blk : Nat → Reg) (a b : Reg) (order : List Nat) (B : Int → Int → V) : Option (Int → Int → V) :=
  if copyOk da db a b then copyParts trans A db blk a b order B else none

variable [Semiring V]

/-- the loop of `pnga_ddot_patch_dp` (DP.c 250-254) -/
def dotLoop (ni nj : Nat) (f g : Int → Int → V) : V := ((List.range nj).map fun j : Nat => ((List.range ni).map fun i : Nat => f i j * g i j).sum).sum

/-- `pnga_ddot_patch_dp` (DP.c 166-261) of the process with blocks `blkA` and `blkB`: the pointer to `A` is for the block, not for the intersection. There is no check of the shape of `b`. -/
def dotPart (A B : Int → Int → V) (da db : Dims) (blkA blkB a b : Reg) : Option V :=
  if inDims da a && inDims db b then
    match intersect a blkA with
    | none => some 0
    | some s =>
      let r : Reg := ⟨s.ilo + (b.ilo - a.ilo), s.ihi + (b.ilo - a.ilo), s.jlo + (b.jlo - a.jlo), s.jhi + (b.jlo - a.jlo)⟩
      if ownPatch blkB r then some (dotLoop (s.ihi - s.ilo + 1).toNat (s.jhi - s.jlo + 1).toNat (deref A blkA) (deref B r))
      else if inDims db r then some (dotLoop (s.ihi - s.ilo + 1).toNat (s.jhi - s.jlo + 1).toNat (deref A blkA) (fun i j => B (r.ilo + i) (r.jlo + j)))
      else none
  else none

end

end GA.DpPatch
