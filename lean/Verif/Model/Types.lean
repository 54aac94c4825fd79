import Verif.Spec.Types

/-!
# User type registration (global/src/base.c 5851-5903, globalp.h 55-71)

`ga_types` is a list of `GA_TYPES_MAX` entries. The sizes of the predefined types are not fixed.
-/

namespace GA.Types

/-- `ga_typeinfo_t` (globalp.h) -/
structure Entry where
  active : Bool
  size : Int
deriving DecidableEq, Repr

/-- `MT_BASE` (ma/macommon.h) -/
def mtBase : Int := 1000
/-- `GA_TYPES_MAX` (globalp.h 66) -/
def typesMax : Nat := 256
/-- `GA_TYPES_RESERVED` (globalp.h 67) -/
def typesReserved : Nat := 17

/-- an entry of `ga_types` that is not active (globalp.h 59-62) -/
def noEntry : Entry := ⟨false, 0⟩

/-- the initial table (base.c 5851-5869): predefined types active -/
def table0 (sizes : Nat → Int) : List Entry :=
  (List.range typesReserved).map (fun i => ⟨true, sizes i⟩) ++
    List.replicate (typesMax - typesReserved) noEntry

/-- the `for` loop of `pnga_register_type` (base.c 5878); `n` counts the remaining entries -/
def scan (tbl : List Entry) : (n i : Nat) → Nat
  | 0, i => i
  | n + 1, i => if (tbl.getD i noEntry).active then scan tbl n (i + 1) else i

/-- `pnga_register_type` (base.c 5876-5886) -/
def register (tbl : List Entry) (bytes : Nat) : Int × List Entry :=
  let i := scan tbl (typesMax - typesReserved) typesReserved
  if i = typesMax then (-1, tbl)
  else ((i : Int) + mtBase, tbl.set i ⟨true, bytes⟩)

/-- `pnga_deregister_type` (base.c 5890-5903). There is no check against `GA_TYPES_MAX`; the
specification excludes such arguments, which read beyond the table. -/
def deregister (tbl : List Entry) (type : Int) : Int × List Entry :=
  let tp := type - mtBase
  if tp < typesReserved then (-1, tbl)
  else if (tbl.getD tp.toNat noEntry).active = false then (-2, tbl)
  else (0, tbl.set tp.toNat ⟨false, 0⟩)

/-- `GAvalidtypeM` (globalp.h 71), then `GAsizeofM` (globalp.h 70) -/
def query (tbl : List Entry) (type : Int) : Res :=
  if type ≥ mtBase ∧ type < mtBase + typesMax ∧ (tbl.getD (type - mtBase).toNat noEntry).active = true then
    .size (tbl.getD (type - mtBase).toNat noEntry).size
  else .invalid

/-- one call of the interface, by the functions above -/
def step (tbl : List Entry) : Op → Res × List Entry
  | .register b => (.num (register tbl b).1, (register tbl b).2)
  | .deregister t => (.num (deregister tbl t).1, (deregister tbl t).2)
  | .query t => (query tbl t, tbl)

/-- the results of a history of calls -/
def run (tbl : List Entry) : List Op → List Res
  | [] => []
  | o :: os => (step tbl o).1 :: run (step tbl o).2 os

end GA.Types
