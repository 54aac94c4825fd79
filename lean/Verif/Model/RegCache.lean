import Verif.Spec.Registry

/-!
# Registration cache (comex/src-mpi-pr/reg_cache.c)

A cache entry is modelled by the fields the lookups use (`buf`, `len`) and one that identifies it
(`mapped`); names, keys and device flags are not modelled. The linked list of a process is a `List`.
Addresses and lengths are unbounded integers, so `ptrdiff_t` overflow is not modelled. A failing
`COMEX_ASSERT` (built without `NDEBUG`) is `none`.
-/

namespace GA.Model
open GA.Spec (Seg ROp RRes)

/-- `seg_cmp` with `TEST_FOR_INTERSECTION` (reg_cache.c 62-124) -/
def segIntersects (s : Seg) (buf len : Int) : Bool :=
  let regBeg := s.buf
  let regEnd := regBeg + s.len
  let othBeg := buf
  let othEnd := if othBeg = buf + len then buf + len + 1 else buf + len
  (regBeg ≥ othBeg && regBeg < othEnd) || (regEnd > othBeg && regEnd ≤ othEnd)

/-- `seg_cmp` with `TEST_FOR_CONTAINMENT` (reg_cache.c 62-124) -/
def segContains (s : Seg) (buf len : Int) : Bool :=
  let regBeg := s.buf
  let regEnd := regBeg + s.len
  let othBeg := buf
  let othEnd := if othBeg = buf + len then buf + len + 1 else buf + len
  regBeg ≤ othBeg && regEnd ≥ othEnd

/-- `reg_entry_contains` (reg_cache.c 220-239): both addresses must not be NULL -/
def entryContains (s : Seg) (buf len : Int) : Option Bool :=
  if s.buf = 0 ∨ buf = 0 then none else some (segContains s buf len)

/-- `reg_entry_intersects` (reg_cache.c 188-206) -/
def entryIntersects (s : Seg) (buf len : Int) : Option Bool :=
  if s.buf = 0 ∨ buf = 0 then none else some (segIntersects s buf len)

/-- the second loop of both searches (reg_cache.c 412-428, 471-477): no further entry may contain
the range -/
def noneContains (buf len : Int) : List Seg → Option Unit
  | [] => some ()
  | s :: l =>
    match entryContains s buf len with
    | none => none
    | some true => none
    | some false => noneContains buf len l

/-- the first loop of `reg_cache_find` (reg_cache.c 397-411): result and the rest of the list -/
def findFirst (buf len : Int) : List Seg → Option (Option Seg × List Seg)
  | [] => some (none, [])
  | s :: l =>
    match entryContains s buf len with
    | none => none
    | some true => some (some s, l)
    | some false => findFirst buf len l

/-- the first loop of `reg_cache_find_intersection` (reg_cache.c 463-468) -/
def findFirstI (buf len : Int) : List Seg → Option (Option Seg × List Seg)
  | [] => some (none, [])
  | s :: l =>
    match entryIntersects s buf len with
    | none => none
    | some true => some (some s, l)
    | some false => findFirstI buf len l

/-- `reg_cache_find` (reg_cache.c 379-431). The NULL check of `buf` sits in
`reg_entry_contains`, so it only strikes if the list is not empty. -/
def listFind (l : List Seg) (buf len : Int) : Option (Option Seg) :=
  (findFirst buf len l).bind fun r => (noneContains buf len r.2).map fun _ => r.1

/-- `reg_cache_find_intersection` (reg_cache.c 445-480) -/
def listFindI (l : List Seg) (buf len : Int) : Option (Option Seg) :=
  (findFirstI buf len l).bind fun r => (noneContains buf len r.2).map fun _ => r.1

/-- the caches of all processes: `reg_nprocs` and `reg_cache` -/
structure RegCache where
  nprocs : Int
  lists : Int → List Seg

/-- `reg_cache_init` (reg_cache.c 288-316) -/
def rcInit (nprocs : Int) : RegCache := ⟨nprocs, fun _ => []⟩

/-- rank check of all functions -/
def rankOK (C : RegCache) (rank : Int) : Bool := 0 ≤ rank && rank < C.nprocs

/-- assignment to the head of the list of one rank (reg_cache.c) -/
def setList (C : RegCache) (rank : Int) (l : List Seg) : RegCache :=
  { C with lists := fun r => if r = rank then l else C.lists r }

/-- `reg_cache_insert` (reg_cache.c 493-557) -/
def regInsert (C : RegCache) (rank : Int) (s : Seg) : Option RegCache :=
  if !rankOK C rank then none
  else if s.buf = 0 then none
  else if s.len < 0 then none
  else
    match listFind (C.lists rank) s.buf s.len with
    | some none =>
      match listFindI (C.lists rank) s.buf s.len with
      | some none => some (setList C rank (C.lists rank ++ [s]))
      | _ => none
    | _ => none

/-- the unlink loop of `reg_cache_delete` (reg_cache.c 595-620): remove the first entry that starts
at `buf`; `none` if there is none -/
def unlink (buf : Int) : List Seg → Option (List Seg)
  | [] => none
  | s :: l => if s.buf = buf then some l else (unlink buf l).map (s :: ·)

/-- `reg_cache_delete` (reg_cache.c 574-625) -/
def regDelete (C : RegCache) (rank : Int) (buf : Int) : Option RegCache :=
  if !rankOK C rank then none
  else if buf = 0 then none
  else
    match listFind (C.lists rank) buf 0 with
    | some (some _) => (unlink buf (C.lists rank)).map (setList C rank)
    | _ => none

/-- one call -/
def regStep (C : RegCache) : ROp → RRes × RegCache
  | .register r s =>
    match regInsert C r s with
    | some C' => (.done, C')
    | none => (.abort, C)
  | .deregister r b =>
    match regDelete C r b with
    | some C' => (.done, C')
    | none => (.abort, C)
  | .lookup r b n =>
    if !rankOK C r then (.abort, C)
    else
      match listFind (C.lists r) b n with
      | some e => (.found e, C)
      | none => (.abort, C)

/-- A history of calls; an abort ends the program. -/
def regRun (C : RegCache) : List ROp → List (ROp × RRes) × RegCache
  | [] => ([], C)
  | o :: os =>
    let r := regStep C o
    if r.1 = .abort then ([(o, .abort)], r.2)
    else
      let t := regRun r.2 os
      ((o, r.1) :: t.1, t.2)

end GA.Model
