import Mathlib.Algebra.Order.Ring.Defs

/-!
# Model: the largest step within bounds (GA_Step_max, GA_Step_bound_info; global/src/elem_alg.c)

Arrays are functions from subscripts `ι`. `procs` gives for each process its blocks and for each block its subscripts, in the order of the local iterator; a regular distribution has at most one
block per process. `inP` says which subscripts are in the patch. `inf` is `GA_INFINITY_D` (`_I`, `_L`, `_F`) and `div` the division of the type. `none`: the program ends with an error.
Simplifications: no rounding and no overflow; the elementwise operations and `pnga_select_elem` act on the array as a whole (their distribution is modelled elsewhere); both patches are equal
(otherwise the code reports an error).
-/

namespace GA.StepMax

section
variable {V ι : Type} [CommRing V] [LinearOrder V]

/-- `do_step_divide` (elem_alg.c 1269-1371) -/
def stepDivide (div : V → V → V) (inf a b : V) : V :=
  if a = 0 then (if 0 ≤ b then inf else 0) else if b ≠ 0 then div a b else inf

/-- `do_stepmax` (elem_alg.c 189-241) -/
def stepMaxElem (inf c : V) : V := if 0 < c then -inf else c

/-- `do_stepb_divide` (elem_alg.c 1373-1475) -/
def stepbDivide (div : V → V → V) (inf a b : V) : V :=
  if a = 0 then (if 0 < b then 0 else inf) else if b ≠ 0 then div a b else inf

/-- `do_step_mask` (elem_alg.c 1477-1531) -/
def stepMask (a b : V) : V := if a ≠ 0 then b else 0

/-- `GA_ABS` (globalp.h 57) -/
def gaAbs (a : V) : V := if 0 ≤ a then a else -a

/-- `ngai_has_negative_element` (elem_alg.c 2761-2833) for the part of a block in the patch; the result is set to 0 first -/
def blockNegative (inP : ι → Bool) (f : ι → V) (blk : List ι) : Bool := blk.any fun i => inP i && decide (f i < 0)

/-- `has_negative_elem` (elem_alg.c 2835-3096) on one process: every block that meets the patch sets the result -/
def hasNegative (inP : ι → Bool) (f : ι → V) (blocks : List (List ι)) : Bool :=
  (blocks.filter fun blk => blk.any inP).foldl (fun _ blk => blockNegative inP f blk) false

/-- `pnga_step_max_patch` (elem_alg.c 3487-3656). `same`: both arrays are the same array. `junk`: the contents of the temporary array before it is written. -/
def stepMax (div : V → V → V) (inf : V) (procs : List (List (List ι))) (inP : ι → Bool) (same : Bool) (a b junk : ι → V) : Option V :=
  if same then some inf
  else if procs.any (hasNegative inP a) then none
  else
    let c : ι → V := fun i => if inP i then stepMaxElem inf (stepDivide div inf (a i) (b i)) else junk i
    ((procs.flatten.flatten.map c).max?).map gaAbs

/-- the result of `pnga_step_bound_info_patch` -/
structure Bounds (V : Type) where
  boundmin : V
  wolfemin : V
  boundmax : V
deriving DecidableEq

/-- `pnga_step_bound_info_patch` (elem_alg.c 3102-3475): bounds `xl`, `xu`, vector `x`, direction `v` -/
def boundInfo (div : V → V → V) (inf : V) (procs : List (List (List ι))) (inP : ι → Bool) (x v xl xu junk : ι → V) : Option (Bounds V) :=
  let s : ι → V := fun i => if inP i then xu i - x i else junk i
  if procs.any (hasNegative inP s) then none
  else
    let t0 : ι → V := fun i => max (v i) 0
    let t1 : ι → V := fun i => if inP i then stepbDivide div inf (s i) (t0 i) else t0 i
    let q : ι → V := fun i => if inP i then x i - xl i else junk i
    if procs.any (hasNegative inP q) then none
    else
      let r0 : ι → V := fun i => gaAbs (min (v i) 0)
      let r1 : ι → V := fun i => if inP i then stepbDivide div inf (q i) (r0 i) else r0 i
      let t2 : ι → V := fun i => min (r1 i) (t1 i)
      let s1 : ι → V := fun i => if inP i then gaAbs (v i) + q i * s i else q i * s i
      let t3 : ι → V := fun i => if inP i then stepMask (s1 i) (t2 i) else t2 i
      let sel := procs.flatten.flatten
      match (sel.map t1).min?, (sel.map r1).min?, (sel.map t3).min?, (sel.map t3).max? with
      | some r, some r', some lo, some hi => some ⟨lo, gaAbs (min r r'), hi⟩
      | _, _, _, _ => none

end

end GA.StepMax
