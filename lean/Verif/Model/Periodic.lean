import Verif.Model.OneSided

/-! # Periodic put/get/accumulate (global/src/global.periodic.c) -/

namespace GA.Model

/-- One range of an axis: `range[i][2*j]`, `range[i][2*j+1]`, `offset[i][j]`
(global.periodic.c 163-183). -/
structure ARange where
  lo : Int
  hi : Int
  off : Int
deriving DecidableEq, Repr

/-- First `if` of the shift loop (global.periodic.c 91-99): a request starting above the array is
moved down by whole periods. C division and remainder are `tdiv`, `tmod`. Third component:
`id != 0`. -/
def shiftDown (d lo hi : Int) : Int × Int × Bool :=
  if lo > d then
    let rmndr := lo.tmod d
    let id := (lo - rmndr).tdiv d
    (lo - id * d, hi - id * d, id != 0)
  else (lo, hi, false)

/-- Second `if` of the shift loop (global.periodic.c 100-108): a request ending below the array
is moved (meant: up). -/
def shiftUp (d lo hi : Int) : Int × Int × Bool :=
  if hi < 1 then
    let rmndr := (-hi).tmod d
    let id := (hi + rmndr).tdiv d + 1
    (lo + id * d, hi + id * d, id != 0)
  else (lo, hi, false)

/-- Both steps for one axis: shifted corners and "was shifted" (global.periodic.c 90-109). -/
def periShift (d lo hi : Int) : Int × Int × Bool :=
  let s := shiftDown d lo hi
  let t := shiftUp d s.1 s.2.1
  (t.1, t.2.1, s.2.2 || t.2.2)

/-- Ranges of one axis after the shift (global.periodic.c 122-152, 163-183). `low` is used iff
`lo<1`, `hig` iff `hi>d`; `mid` is marked valid in every case: by `lo>=1`, by `hi<=d`, or by
`lo<1 && hi>d`. -/
def periRanges (d lo hi : Int) : List ARange :=
  let midLo := if lo < 1 then 1 else lo
  let midHi := if hi > d then d else hi
  (if lo < 1 then [⟨lo + d, 0 + d, lo - lo⟩] else []) ++
  ([⟨midLo, midHi, midLo - lo⟩] ++
  (if hi > d then [⟨d + 1 - d, hi - d, d + 1 - lo⟩] else []))

/-- `low` or `hig` is valid (global.periodic.c 155-158) -/
def periOutside (d lo hi : Int) : Bool := lo < 1 || hi > d

/-- validity check of one axis (global.periodic.c 84), negated -/
def periWidthOK (d lo hi : Int) : Bool := !(hi - lo + 1 < 1 || hi - lo + 1 > 2 * d)

/-- apply a function of (dimension, lo, hi) to every axis -/
def axesMap {α} (f : Int → Int → Int → α) : (dims lo hi : List Int) → List α
  | d :: dims, l :: lo, h :: hi => f d l h :: axesMap f dims lo hi
  | _, _, _ => []

/-- Result of `ngai_peri_get_range_`: 0, `IS_REGULAR_PATCH`, or 1 with the ranges. -/
inductive PRange where
  | invalid
  | regular
  | ranges (r : List (List ARange))
deriving DecidableEq, Repr

/-- `ngai_peri_get_range_` (global.periodic.c 61-186) -/
def periGetRange (dims lo hi : List Int) : PRange :=
  if (axesMap periWidthOK dims lo hi).all id then
    let sh := axesMap periShift dims lo hi
    let lo' := sh.map (·.1)
    let hi' := sh.map (·.2.1)
    if !(axesMap periOutside dims lo' hi').any id && !(sh.map (·.2.2)).any id then .regular
    else .ranges (axesMap periRanges dims lo' hi')
  else .invalid

/-- The carry loop of the odometer (global.periodic.c 266-272), applied after `counter[0]++`.
`none` = `done`. -/
def periCarry : (nums c : List Nat) → Option (List Nat)
  | [n], [c] => if c = n then none else some [c]
  | n :: n' :: ns, c :: c' :: cs =>
    if c = n then (periCarry (n' :: ns) ((c' + 1) :: cs)).map (0 :: ·)
    else (periCarry (n' :: ns) (c' :: cs)).map (c :: ·)
  | _, _ => none

/-- `counter[0]++` (global.periodic.c 265) -/
def inc1 : List Nat → List Nat
  | c :: cs => (c + 1) :: cs
  | [] => []

/-- The counter values of the do-while loop (global.periodic.c 224-273), `none` if it has not
ended after `fuel` passes. -/
def periVisit (nums : List Nat) : Nat → List Nat → Option (List (List Nat))
  | 0, _ => none
  | fuel + 1, c =>
    match periCarry nums (inc1 c) with
    | none => some [c]
    | some c' => (periVisit nums fuel c').map (c :: ·)

/-- the ranges selected by a counter -/
def selRanges : List (List ARange) → List Nat → List ARange
  | a :: as, c :: cs => a.getD c ⟨0, 0, 0⟩ :: selRanges as cs
  | _, _ => []

/-- `my_offset` (global.periodic.c 231-240): sum of `offset[i]*ld[0]*...*ld[i-1]`; `p` is the
product so far. -/
def myOffset : (r : List ARange) → (ld : List Int) → (p : Int) → Int
  | [], _, _ => 0
  | a :: as, d :: ld, p => a.off * p + myOffset as ld (p * d)
  | [a], [], p => a.off * p
  | _ :: _ :: _, [], _ => 0

/-- One request issued by the loop: `lop`, `hip`, `my_offset`. -/
structure PPiece where
  lo : List Int
  hi : List Int
  off : Int
deriving DecidableEq, Repr

/-- the bounds and the offset of one request (global.periodic.c 231-240) -/
def toPiece (ld : List Int) (r : List ARange) : PPiece :=
  ⟨r.map (·.lo), r.map (·.hi), myOffset r ld 1⟩

/-- The requests issued by `pnga_periodic` (global.periodic.c 191-275), in order. `none` is the
error exit for an invalid range. -/
def periPieces (dims lo hi ld : List Int) : Option (List PPiece) :=
  match periGetRange dims lo hi with
  | .invalid => none
  | .regular => some [⟨lo, hi, 0⟩]
  | .ranges axes =>
    let nums := axes.map List.length
    (periVisit nums (gridSize nums) (nums.map fun _ => 0)).map fun cs =>
      cs.map fun c => toPiece ld (selRanges axes c)

/-- `pnga_get` on a buffer starting at `buf + off` (global.periodic.c 246) -/
def getAt {V} (E : Env) (A : RegArray) (p : PPiece) (ld : List Int) (mem : Addr → V)
    (buf : Int → V) : Option (Int → V) :=
  (ngaGet E A p.lo p.hi (fun j => buf (j + p.off)) ld mem).map fun b i => b (i - p.off)

/-- a sequence of gets -/
def getAll {V} (E : PPiece → Env) (A : RegArray) (ld : List Int) (mem : Addr → V) :
    List PPiece → (Int → V) → Option (Int → V)
  | [], buf => some buf
  | p :: ps, buf => (getAt (E p) A p ld mem buf).bind (getAll E A ld mem ps)

/-- `NGA_Periodic_get` -/
def periodicGet {V} (E : PPiece → Env) (A : RegArray) (lo hi ld : List Int) (mem : Addr → V)
    (buf : Int → V) : Option (Int → V) :=
  (periPieces A.dims lo hi ld).bind fun ps => getAll E A ld mem ps buf

/-- a sequence of puts (global.periodic.c 250) -/
def putAll {V} (E : PPiece → Env) (A : RegArray) (ld : List Int) (buf : Int → V) :
    List PPiece → (Addr → V) → Option (Addr → V)
  | [], m => some m
  | p :: ps, m =>
    (ngaPut (E p) A p.lo p.hi (fun j => buf (j + p.off)) ld m).bind (putAll E A ld buf ps)

/-- `NGA_Periodic_put` -/
def periodicPut {V} (E : PPiece → Env) (A : RegArray) (lo hi ld : List Int) (buf : Int → V)
    (mem : Addr → V) : Option (Addr → V) :=
  (periPieces A.dims lo hi ld).bind fun ps => putAll E A ld buf ps mem

/-- a sequence of accumulates (global.periodic.c 254) -/
def accAll {V} [Add V] [Mul V] (E : PPiece → Env) (A : RegArray) (ld : List Int) (alpha : V)
    (buf : Int → V) : List PPiece → (Addr → V) → Option (Addr → V)
  | [], m => some m
  | p :: ps, m =>
    (ngaAcc (E p) A p.lo p.hi (fun j => buf (j + p.off)) ld alpha m).bind
      (accAll E A ld alpha buf ps)

/-- `NGA_Periodic_acc` -/
def periodicAcc {V} [Add V] [Mul V] (E : PPiece → Env) (A : RegArray) (lo hi ld : List Int)
    (alpha : V) (buf : Int → V) (mem : Addr → V) : Option (Addr → V) :=
  (periPieces A.dims lo hi ld).bind fun ps => accAll E A ld alpha buf ps mem

end GA.Model
