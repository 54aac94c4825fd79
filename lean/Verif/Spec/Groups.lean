/-!
# Specification: process groups

What one process `me` of a program of `np` processes sees. A group is a set of processes, numbered by
their rank in the group in the order of the process numbers, so a group is the ascending list of its
processes. Handle -1 is the group of all processes. Handle 0 is made by the library (the processes of
the own machine). The library offers handles below `max`.
-/

namespace GA.Groups

inductive Op where
  /-- `GA_Pgroup_create(list)`: the entries of the list are ranks in the default group -/
  | create (list : List Int)
  /-- `GA_Pgroup_destroy` of a group that no array uses -/
  | destroy (g : Int)
  /-- `GA_Pgroup_set_default` -/
  | setDefault (g : Int)
  /-- `GA_Pgroup_nnodes` -/
  | nnodes (g : Int)
  /-- `GA_Pgroup_nodeid` -/
  | nodeid (g : Int)
  /-- `GA_Pgroup_absolute_id` -/
  | absId (g : Int) (rank : Nat)
  /-- `GA_Nnodes` -/
  | myNnodes
  /-- `GA_Nodeid` -/
  | myNodeid
  /-- `GA_Pgroup_split` -/
  | split (g : Int) (num : Int)
  /-- `GA_Pgroup_split_irreg`; the colours that the processes of the group give, by rank -/
  | splitIrreg (g : Int) (colors : List Int)
deriving DecidableEq, Repr

inductive Res where
  | num (n : Int)
  | done
  /-- the program ends with an error message -/
  | abort
  /-- memory that is not the library's is overwritten -/
  | corrupt
deriving DecidableEq, Repr

/-- handle to processes of the group in ascending order; the default group -/
structure St where
  tbl : Int → Option (List Nat)
  dflt : Int

/-- `ms` is the ascending list of the processes in `S` -/
def Lists (ms : List Nat) (S : Nat → Prop) : Prop := ms.Pairwise (· < ·) ∧ ∀ p, p ∈ ms ↔ S p

/-- rank of process `p` in the group `ms`, -1 if it is not in the group -/
def rankIn (ms : List Nat) (p : Nat) : Int := if p ∈ ms then (ms.idxOf p : Int) else -1

/-- processes of the group with handle `g` -/
def St.procs (np : Nat) (s : St) (g : Int) : Option (List Nat) :=
  if g = -1 then some (List.range np) else s.tbl g

/-- a list that `GA_Pgroup_create` accepts when the default group has `n` processes -/
def ValidList (n : Nat) (list : List Int) : Prop := list.Nodup ∧ ∀ x ∈ list, 0 ≤ x ∧ x < n

def upd (t : Int → Option (List Nat)) (g : Int) (v : Option (List Nat)) : Int → Option (List Nat) :=
  fun h => if h = g then v else t h

/-- give the handles to the groups -/
def addGroups (t : Int → Option (List Nat)) (hs : List Int) (gs : List (List Nat)) : Int → Option (List Nat) :=
  (hs.zip gs).foldl (fun t hg => upd t hg.1 (some hg.2)) t

/-- `P` in parts of `sz` consecutive processes; the last part may be smaller -/
def parts (sz : Nat) (P : List Nat) : List (List Nat) :=
  (List.range ((P.length + sz - 1) / sz)).map (fun b => (P.drop (b * sz)).take sz)

/-- distinct handles that are free -/
def FreeHandles (max : Nat) (t : Int → Option (List Nat)) (hs : List Int) : Prop :=
  hs.Nodup ∧ ∀ h ∈ hs, 0 ≤ h ∧ h < max ∧ t h = none

/-- size of the parts: `n / num` rounded up -/
def partSize (n num : Nat) : Nat := (n + num - 1) / num

inductive SStep (np max me : Nat) : St → Op → Res → St → Prop
  | create {s list P} (h : Int) (ms) : s.procs np s.dflt = some P → ValidList P.length list →
      0 ≤ h → h < max → s.tbl h = none →
      Lists ms (fun p => ∃ x ∈ list, P[x.toNat]? = some p) →
      SStep np max me s (.create list) (.num h) { s with tbl := upd s.tbl h (some ms) }
  | createFull {s list} : (∀ h : Int, 0 ≤ h → h < max → s.tbl h ≠ none) →
      SStep np max me s (.create list) .abort s
  | createInvalid {s list P} : s.procs np s.dflt = some P → ¬ ValidList P.length list →
      SStep np max me s (.create list) .abort s
  | destroy {s g ms} : s.tbl g = some ms → SStep np max me s (.destroy g) (.num 1) { s with tbl := upd s.tbl g none }
  | setDefault {s g} : SStep np max me s (.setDefault g) .done { s with dflt := g }
  | nnodes {s g ms} : s.procs np g = some ms → SStep np max me s (.nnodes g) (.num ms.length) s
  | nodeid {s g ms} : s.procs np g = some ms → SStep np max me s (.nodeid g) (.num (rankIn ms me)) s
  | absId {s g r ms} {p : Nat} : s.procs np g = some ms → ms[r]? = some p → SStep np max me s (.absId g r) (.num p) s
  | myNnodes {s ms} : s.procs np s.dflt = some ms → SStep np max me s .myNnodes (.num ms.length) s
  | myNodeid {s ms} : s.procs np s.dflt = some ms → SStep np max me s .myNodeid (.num (rankIn ms me)) s
  /-- all parts become groups; the answer is the part the process is in -/
  | split {s g P} {num : Nat} (hs : List Int) (h : Int) : 0 < num → s.procs np g = some P →
      FreeHandles max s.tbl hs → hs.length = (parts (partSize P.length num) P).length →
      hs[P.idxOf me / partSize P.length num]? = some h →
      SStep np max me s (.split g num) (.num h)
        { s with tbl := addGroups s.tbl hs (parts (partSize P.length num) P) }
  | splitFull {s g P} {num : Nat} : 0 < num → s.procs np g = some P →
      (∀ hs, FreeHandles max s.tbl hs → hs.length < (parts (partSize P.length num) P).length) →
      SStep np max me s (.split g num) .abort s
  | splitNone {s g} : SStep np max me s (.split g 0) (.num g) s
  | splitNeg {s g num} : num < 0 → SStep np max me s (.split g num) .abort s
  /-- the processes with the same colour become a group -/
  | splitIrreg {s g P colors ms} (h c : Int) : s.procs np g = some P → colors[P.idxOf me]? = some c → 0 ≤ c →
      0 ≤ h → h < max → s.tbl h = none → Lists ms (fun p => p ∈ P ∧ colors[P.idxOf p]? = some c) →
      SStep np max me s (.splitIrreg g colors) (.num h) { s with tbl := upd s.tbl h (some ms) }
  | splitIrregFull {s g colors} : (∀ h : Int, 0 ≤ h → h < max → s.tbl h ≠ none) →
      SStep np max me s (.splitIrreg g colors) .abort s
  | splitIrregNeg {s g P colors} {c : Int} : s.procs np g = some P → colors[P.idxOf me]? = some c → c < 0 →
      SStep np max me s (.splitIrreg g colors) .abort s

/-- Calls for which something is promised: the group exists; group 0 is neither destroyed nor made the
default nor asked for process numbers; the default group is not destroyed; the entries of a list that
are not ranks in the default group are not process numbers at all; a group is split by its members. -/
def Allowed (np me : Nat) (s : St) : Op → Prop
  | .create list => ∀ P, s.procs np s.dflt = some P → ∀ x ∈ list, 0 ≤ x → x < np → x < P.length
  | .destroy g => 0 < g ∧ s.tbl g ≠ none ∧ g ≠ s.dflt
  | .setDefault g => g = -1 ∨ (0 < g ∧ s.tbl g ≠ none)
  | .nnodes g => s.procs np g ≠ none
  | .nodeid g => s.procs np g ≠ none
  | .absId g r => g ≠ 0 ∧ ∃ ms, s.procs np g = some ms ∧ r < ms.length
  | .myNnodes => True
  | .myNodeid => True
  | .split g _ => g ≠ 0 ∧ ∃ ms, s.procs np g = some ms ∧ me ∈ ms
  | .splitIrreg g colors => g ≠ 0 ∧ ∃ ms, s.procs np g = some ms ∧ me ∈ ms ∧ colors.length = ms.length

inductive SRun (np max me : Nat) : St → List Op → List Res → Prop
  | nil {s} : SRun np max me s [] []
  | cons {s s' o r os rs} : SStep np max me s o r s' → SRun np max me s' os rs →
      SRun np max me s (o :: os) (r :: rs)
  /-- the program has ended -/
  | abort {s s' o os} : SStep np max me s o .abort s' → SRun np max me s (o :: os) [.abort]
  | outside {s o os rs} : ¬ Allowed np me s o → SRun np max me s (o :: os) rs

end GA.Groups
