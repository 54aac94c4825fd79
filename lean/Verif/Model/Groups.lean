import Verif.Spec.Groups

/-!
# Process groups (global/src/base.c 1068-1513, 4956-5010, 5813; comex/src-mpi-pr/groups.c)

State of one process. A communication-layer group is the list of its processes in rank order; the
list of groups with identifiers in groups.c is left out. MPI groups and communicators are lists of
processes in rank order (`MPI_Group_incl`, `MPI_Intercomm_merge`: the low group first).
-/

namespace GA.Groups

/-- the members of `PGRP_LIST[i]` (base.h 24-34); `armci` is `group` -/
structure Grp where
  actv : Bool
  map : List Int
  inv : List Int
  nproc : Nat
  parent : Int
  armci : List Nat
deriving DecidableEq, Repr

/-- an entry of `PGRP_LIST` that is not in use (global/src/base.c 411-412) -/
def noGrp : Grp := ⟨false, [], [], 0, 0, []⟩

/-- the tables of groups of one process (global/src/base.c 107, 114) -/
structure GSt where
  /-- `PGRP_LIST` -/
  list : List Grp
  /-- `GA_Default_Proc_Group` -/
  dflt : Int
  /-- `ARMCI_Default_Proc_Group` (comex/src-armci/groups.c) -/
  armciDflt : List Nat
deriving DecidableEq, Repr

/-- `PGRP_LIST[g]` (global/src/base.c 107) -/
def GSt.grp (s : GSt) (g : Int) : Grp := s.list.getD g.toNat noGrp

/-! ## communication layer: `comex_group_create` (groups.c 275-376) -/

/-- the positions `local_ldr_pos` and the processes of `comm`, for each position in the new group -/
abbrev HC := Nat → Nat × List Nat

/-- one turn of the loop (groups.c 336-356), at all processes: the merge with the communicator of the
process at `remote_ldr_pos`, the one with the smaller leader first; `(~0)^lvl` on 32 bits. -/
def hcStep (n lvl : Nat) (c : HC) : HC := fun p =>
  let local_ldr := (c p).1
  let remote := local_ldr ^^^ lvl
  let comm := if remote < n then
      (if local_ldr < remote then (c p).2 ++ (c remote).2 else (c remote).2 ++ (c p).2)
    else (c p).2
  (local_ldr &&& ((2 ^ 32 - 1) ^^^ lvl), comm)

/-- `while(n>lvl)`; `fuel` bounds the turns -/
def hcLoop (n : Nat) : (fuel lvl : Nat) → HC → HC
  | 0, _, c => c
  | fuel + 1, lvl, c => if n > lvl then hcLoop n fuel (lvl * 2) (hcStep n lvl c) else c

/-- `comex_group_create` as seen by the process `me` (world number): the group of the communicator
that was built, or for a process that is not in the group the result of `MPI_Group_incl` -/
def comexCreate (me : Nat) (pids : List Nat) (parent : List Nat) : List Nat :=
  let incl := pids.map (fun i => parent.getD i 0)
  if me ∈ incl then
    ((hcLoop pids.length 32 1 (fun p => (p, [p]))) (incl.idxOf me)).2.map (fun i => incl.getD i 0)
  else incl

/-! ## GA -/

/-- `do ... while` search for a free handle (base.c 1121-1125); `n` counts the remaining ones -/
def freeHandle (l : List Grp) : (n i : Nat) → Option Nat
  | 0, _ => none
  | n + 1, i => if (l.getD i noGrp).actv then freeHandle l n (i + 1) else some i

/-- the checks of the list (base.c 1130-1138) -/
def listOK (np : Nat) : List Int → Bool
  | [] => true
  | x :: xs => decide (¬ (x < 0 ∨ x ≥ np)) && decide (¬ ∃ y ∈ xs, x = y) && listOK np xs

/-- the inner loop of the sort (base.c 1158-1163): the sorted part is given in reverse order -/
def insR (x : Int) : List Int → List Int
  | [] => [x]
  | y :: r => if y > x then y :: insR x r else x :: y :: r

/-- the sort (base.c 1156-1164) -/
def sortR : (rest sortedRev : List Int) → List Int
  | [], r => r
  | x :: xs, r => sortR xs (insR x r)

/-- the sorted list of processes (base.c 1156-1164) -/
def insSort (l : List Int) : List Int := (sortR l []).reverse

/-- the loop that fills the maps (base.c 1180-1184); a negative process number overwrites memory
before the array: `none` -/
def fillMaps : (procs : List Int) → (i : Nat) → (map inv : List Int) → Option (List Int × List Int)
  | [], _, map, inv => some (map, inv)
  | j :: js, i, map, inv =>
    if j < 0 then none
    else fillMaps js (i + 1) (map.set j.toNat i) (inv.set i j)

/-- how a call ends: it returns, it calls `pnga_error` (global/src/base.c), or it writes outside an array -/
inductive Out (α : Type) where
  | ok (a : α)
  | abort
  | corrupt
deriving DecidableEq, Repr

/-- `pnga_pgroup_create` (base.c 1104-1208) on process `me` -/
def create (np me : Nat) (s : GSt) (list : List Int) : Out (Int × GSt) :=
  match freeHandle s.list s.list.length 0 with
  | none => .abort
  | some h =>
    if listOK np list = false then .abort
    else
      let tmp2 := insSort list
      let tmp := if s.dflt ≠ -1 then tmp2.map (fun x => (s.grp s.dflt).inv.getD x.toNat (-1)) else tmp2
      match fillMaps tmp 0 (List.replicate np (-1)) (List.replicate np (-1)) with
      | none => .corrupt
      | some (map, inv) =>
        .ok ((h : Int), { s with list := s.list.set h (Grp.mk true map inv list.length s.dflt
          (comexCreate me (tmp2.map Int.toNat) s.armciDflt)) })

/-- `pnga_pgroup_set_default` (base.c 1068-1093) -/
def setDefault (np : Nat) (s : GSt) (g : Int) : GSt :=
  { s with dflt := g, armciDflt := if g > 0 then (s.grp g).armci else List.range np }

/-- `pnga_pgroup_destroy` (base.c 1332-1360) when no array uses the group -/
def destroy (s : GSt) (g : Int) : Int × GSt :=
  (if (s.grp g).actv then 1 else 0, { s with list := s.list.set g.toNat { s.grp g with actv := false } })

/-- `pnga_pgroup_nnodes` (base.c 5004-5010) -/
def nnodes (np : Nat) (s : GSt) (g : Int) : Int := if g ≥ 0 then (s.grp g).nproc else np

/-- `pnga_pgroup_nodeid` (base.c 4972-4979) -/
def nodeid (me : Nat) (s : GSt) (g : Int) : Int := if g ≥ 0 then (s.grp g).map.getD me (-1) else me

/-- `pnga_nodeid` (base.c 4956-4963) -/
def myNodeid (me : Nat) (s : GSt) : Int := if s.dflt > 0 then (s.grp s.dflt).map.getD me (-1) else me

/-- `pnga_nnodes` (base.c 4988-4995) -/
def myNnodes (np : Nat) (s : GSt) : Int := if s.dflt > 0 then (s.grp s.dflt).nproc else np

/-- `pnga_pgroup_absolute_id` (base.c 5813-5824) and `comex_group_translate_world` (groups.c 155) -/
def absId (s : GSt) (g : Int) (r : Nat) : Int := if g = -1 then r else (s.grp g).armci.getD r 0

/-- `pnga_pgroup_duplicate` (base.c 1217-1309) of a group `grp ≥ 0`; `ARMCI_Group_create` uses the
default group of the communication layer, which is not changed here -/
def duplicate (me : Nat) (s : GSt) (grp : Int) : Out (Int × GSt) :=
  if (s.grp grp).actv = false then .abort
  else match freeHandle s.list s.list.length 0 with
  | none => .abort
  | some h =>
    let g := s.grp grp
    let tmp := (List.range g.nproc).map (fun i =>
      if g.parent ≠ -1 then (s.grp g.parent).map.getD (g.inv.getD i (-1)).toNat (-1)
      else g.map.getD (g.inv.getD i (-1)).toNat (-1))
    .ok ((h : Int), { s with list := s.list.set h (Grp.mk true g.map g.inv g.nproc g.parent
      (comexCreate me (tmp.map Int.toNat) s.armciDflt)) })

/-- the state after initialisation (base.c 394-454): group 0 holds the processes `j .. j + cnt - 1` of
the machine -/
def init (np max j cnt : Nat) : GSt :=
  ⟨⟨true, (List.range np).map (fun p => if j ≤ p ∧ p < j + cnt then ((p - j : Nat) : Int) else -1),
      (List.range np).map (fun i => if i < cnt then ((i + j : Nat) : Int) else -1), cnt, -1, []⟩ ::
    List.replicate (max - 1) noGrp, -1, List.range np⟩

/-! ## splitting -/

/-- the loop of `pnga_pgroup_split` (base.c 1442-1452); `rem` counts the remaining turns, `nodes` are
the first `icnt` entries -/
def splitLoop (np me : Nat) (grp_size endv : Int) : (rem : Nat) → (i : Nat) → (nodes : List Int) → (ret : Int) →
    GSt → Out (List Int × Int × GSt)
  | 0, _, nodes, ret, s => .ok (nodes, ret, s)
  | rem + 1, i, nodes, ret, s =>
    if (nodes.length : Int) % grp_size = 0 ∧ i > 0 then
      match create np me s nodes with
      | .ok (h, s') => splitLoop np me grp_size endv rem (i + 1) [(i : Int)] (if (i : Int) = endv + 1 then h else ret) s'
      | .abort => .abort
      | .corrupt => .corrupt
    else splitLoop np me grp_size endv rem (i + 1) (nodes ++ [(i : Int)]) ret s

/-- `pnga_pgroup_split` (base.c 1409-1463) -/
def split (np me : Nat) (s : GSt) (grp : Int) (grp_num : Int) : Out (Int × GSt) :=
  if grp_num < 0 then .abort
  else if grp_num = 0 then .ok (grp, s)
  else
    let s1 := setDefault np s grp
    let nprocs := myNnodes np s1
    let rank := myNodeid me s1
    let q := nprocs.tdiv grp_num
    let grp_size := if nprocs > q * grp_num then q + 1 else q
    let ratio := rank.tdiv grp_size
    let start := ratio * grp_size
    let end1 := (ratio + 1) * grp_size - 1
    let endv := min end1 (nprocs - 1)
    if endv < start then .abort
    else match splitLoop np me grp_size endv nprocs.toNat 0 [] (-1) s1 with
      | .ok (nodes, ret, s2) =>
        match create np me s2 nodes with
        | .ok (h, s3) =>
          let ret := if endv = nprocs - 1 then h else ret
          if ret = -1 then .abort else .ok (ret, setDefault np s3 s.dflt)
        | .abort => .abort
        | .corrupt => .corrupt
      | .abort => .abort
      | .corrupt => .corrupt

/-- `pnga_pgroup_split_irreg` (base.c 1473-1513); `colors` are the colours given by the processes in
the order of their ranks, as the sum reduction leaves them in `color_arr` -/
def splitIrreg (np me : Nat) (s : GSt) (grp : Int) (mycolor : Int) (colors : List Int) : Out (Int × GSt) :=
  if mycolor < 0 then .abort
  else
    let s1 := setDefault np s grp
    let nodes := ((List.range (myNnodes np s1).toNat).filter (fun i => colors.getD i 0 = mycolor)).map Int.ofNat
    match create np me s1 nodes with
    | .ok (h, s2) => .ok (h, setDefault np s2 s.dflt)
    | .abort => .abort
    | .corrupt => .corrupt

/-- one call of the interface of groups, by the functions above (global/src/base.c) -/
def step (np me : Nat) (s : GSt) : Op → Res × GSt
  | .create list =>
    match create np me s list with
    | .ok (h, s') => (.num h, s')
    | .abort => (.abort, s)
    | .corrupt => (.corrupt, s)
  | .destroy g => (.num (destroy s g).1, (destroy s g).2)
  | .setDefault g => (.done, setDefault np s g)
  | .nnodes g => (.num (nnodes np s g), s)
  | .nodeid g => (.num (nodeid me s g), s)
  | .absId g r => (.num (absId s g r), s)
  | .myNnodes => (.num (myNnodes np s), s)
  | .myNodeid => (.num (myNodeid me s), s)
  | .split g num =>
    match split np me s g num with
    | .ok (h, s') => (.num h, s')
    | .abort => (.abort, s)
    | .corrupt => (.corrupt, s)
  | .splitIrreg g colors =>
    match splitIrreg np me s g (colors.getD (nodeid me s g).toNat 0) colors with
    | .ok (h, s') => (.num h, s')
    | .abort => (.abort, s)
    | .corrupt => (.corrupt, s)

/-- the answers to a history of calls, up to the end of the program -/
def run (np me : Nat) (s : GSt) : List Op → List Res
  | [] => []
  | o :: os => match step np me s o with
    | (.abort, _) => [.abort]
    | (r, s') => r :: run np me s' os

end GA.Groups
