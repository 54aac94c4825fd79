import Verif.Spec.Patch

/-!
# Specification: disk resident arrays

A disk resident array is an array like any other: a value for every subscript. A request names a section `dlo..dhi` of the disk array and a section
`glo..ghi` of the global array; the element at distance `k` from `dlo` belongs to the element at distance `k` from `glo`, with the order of the
dimensions reversed for a transposed request.
-/

namespace GA.Spec.Dra
open GA.Spec

/-- the element of a section with lower corner `b` that belongs to element `x` of a section with lower corner `a` -/
def partner (trans : Bool) (a b x : List Int) : List Int :=
  (List.range x.length).map fun i =>
    let j := if trans then x.length - 1 - i else i
    b.getD i 0 + (x.getD j 0 - a.getD j 0)

/-- a request -/
structure SReq where
  trans : Bool
  dlo : List Int
  dhi : List Int
  glo : List Int
  ghi : List Int

/-- the sections are inside the arrays and have the same extents -/
def SReq.OK (ddims gdims : List Int) (R : SReq) : Prop :=
  PatchOK ddims R.dlo R.dhi ∧ PatchOK gdims R.glo R.ghi ∧
    List.zipWith (· - ·) R.dhi R.dlo = if R.trans then (List.zipWith (· - ·) R.ghi R.glo).reverse else List.zipWith (· - ·) R.ghi R.glo

/-- content of the disk array after a write; `f` disk array, `g` global array -/
def write {V : Type} (R : SReq) (f g : List Int → V) : List Int → V :=
  fun x => if InPatch R.dlo R.dhi x then g (partner R.trans R.dlo R.glo x) else f x

/-- content of the global array after a read -/
def read {V : Type} (R : SReq) (f g : List Int → V) : List Int → V :=
  fun y => if InPatch R.glo R.ghi y then f (partner R.trans R.glo R.dlo y) else g y

/-- what a program does: changes the global array in some way, writes, reads -/
inductive HOp (V : Type) where
  | setGa (g : List Int → V)
  | write (R : SReq)
  | read (R : SReq)

/-- contents of disk array and global array after one operation -/
def HOp.apply {V : Type} (s : (List Int → V) × (List Int → V)) : HOp V → (List Int → V) × (List Int → V)
  | .setGa g => (s.1, g)
  | .write R => (Dra.write R s.1 s.2, s.2)
  | .read R => (s.1, Dra.read R s.1 s.2)

/-- contents after a history -/
def hist {V : Type} (s : (List Int → V) × (List Int → V)) (ops : List (HOp V)) : (List Int → V) × (List Int → V) := ops.foldl HOp.apply s

end GA.Spec.Dra
