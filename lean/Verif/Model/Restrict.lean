import Verif.Model.Distr
import Verif.Model.BlockCyclic
import Verif.Model.Decomp

/-!
# Model: irregular distributions, restricted arrays, comparing distributions

`pnga_set_irreg_distr` (global/src/base.c 1731-1771), `pnga_set_restricted`,
`pnga_set_restricted_range` (base.c 1977-2064), `pnga_locate` and `pnga_distribution` for restricted
arrays (base.c 792-826, 3689-3708, `ga_ownsM` base.h 227-246), the distribution fields copied by
`pnga_duplicate` (base.c 3783-3811) and `pnga_compare_distr` (base.c 5019-5077).
-/

namespace GA.Model

/-! ## Irregular distributions -/

/-- The loop over the map entries of all dimensions (base.c 1746-1762). The first entry of a
dimension is read even if `nblock[i]` is zero. -/
def irregCheck : (nblock : List Nat) → (dims mapc : List Int) → Bool
  | n :: ns, d :: ds, m =>
    axisCheck d (m.take (max n 1)) && irregCheck ns ds (m.drop (max n 1))
  | _, _, _ => true

/-- `pnga_set_irreg_distr` (base.c 1731-1771): `none` when a check ends in an error, otherwise the
distribution of the array. Negative block counts are not modelled. -/
def setIrreg (dims mapc : List Int) (nblock : List Nat) (width : List Nat) : Option RegArray :=
  if tooMany nblock dims then none
  else if !irregCheck nblock dims mapc then none
  else some ⟨dims, nblock, mapc.take nblock.sum, width⟩

/-! ## Restricted arrays -/

/-- The fields `rstrctd_list` and `rank_rstrctd` (base.h 80-84). -/
structure Restriction where
  list : List Int
  rank : List Int
deriving Repr, DecidableEq

/-- The loop `for (i=0; i<size; i++)` of `pnga_set_restricted` (base.c 1999-2011): checks
`list[i]` and sets `rank_rstrctd[list[i]] = i`. -/
def rankLoop (nproc : Nat) : (list : List Int) → (i : Int) → (rank : List Int) → Option (List Int)
  | p :: ps, i, rank =>
    if p < 0 ∨ p ≥ nproc then none else rankLoop nproc ps (i + 1) (rank.set p.toNat i)
  | [], _, rank => some rank

/-- `pnga_set_restricted` (base.c 1977-2014). `nproc` is the number of processes of the group of
the array, `ganproc` the number of all processes. `none`: a process number is invalid. -/
def setRestricted (ganproc nproc : Nat) (list : List Int) : Option Restriction :=
  (rankLoop nproc list 0 (List.replicate ganproc (-1))).map fun rank => ⟨list, rank⟩

/-- `pnga_set_restricted_range` (base.c 2024-2064): the same loop for `lo_proc..hi_proc`. -/
def setRestrictedRange (ganproc nproc : Nat) (lo hi : Int) : Option Restriction :=
  setRestricted ganproc nproc ((List.range (hi - lo + 1).toNat).map fun i : Nat => lo + i)

/-- `has_data` and `rstrctd_id` (base.c 1993-2013): whether process `me` is in the list, and the
last position at which it is. -/
def hasDataLoop (me : Int) : (list : List Int) → (i : Int) → (has : Bool) → (id : Int) → Bool × Int
  | p :: ps, i, has, id =>
    if me = p then hasDataLoop me ps (i + 1) true i else hasDataLoop me ps (i + 1) has id
  | [], _, has, id => (has, id)

/-- `pnga_locate` for a REGULAR array with restriction (base.c 796-815): `rstrctd_list[owner]` if
the list is not empty. The inner `none` stands for reading behind the end of the list. -/
def rLocate (A : RegArray) (R : Restriction) (cand : List Nat) (x : List Int) :
    Option (Option Int) :=
  (locate A cand x).map fun b =>
    if R.list.length > 0 then (if 0 ≤ b then R.list[b.toNat]? else none) else some b

/-- `ga_ownsM` for a REGULAR array with restriction (base.h 229-245). -/
def rOwnsBlock (A : RegArray) (R : Restriction) (proc : Int) : List Int × List Int :=
  if R.list.length = 0 then owns A proc
  else if proc < R.list.length then owns A proc
  else (A.dims.map fun _ => 0, A.dims.map fun _ => -1)

/-- `pnga_distribution` for a REGULAR array (base.c 3689-3708): `lproc = rank_rstrctd[proc]` if the
array is restricted. `none` stands for reading outside `rank_rstrctd`. -/
def rOwns (A : RegArray) (R : Restriction) (proc : Int) : Option (List Int × List Int) :=
  if R.list.length > 0 then
    (if 0 ≤ proc then R.rank[proc.toNat]? else none).map (rOwnsBlock A R)
  else some (rOwnsBlock A R proc)

/-- Number of elements allocated on process `me` for a REGULAR array (base.c 2774-2793): the extents
of `pnga_distribution` widened by the ghost widths, and nothing without data. -/
def rAlloc (A : RegArray) (R : Restriction) (me : Int) : Option Int :=
  (rOwns A R me).map fun b =>
    if R.list.length = 0 ∨ (hasDataLoop me R.list 0 false 0).1 = true then
      ((b.1.zip b.2).zip A.width).foldl (fun n e => n * (e.1.2 - e.1.1 + 1 + 2 * e.2)) 1
    else 0

/-! ## Comparing distributions -/

/-- A distribution: `distr_type` with the fields used by it, the restriction list and the process
group. -/
inductive Dist where
  | regular (A : RegArray)
  | block (A : BArray)
deriving Repr, DecidableEq

/-- the part of `global_array_t` looked at here -/
structure DArray where
  dist : Dist
  rstrctd : List Int
  group : Int
deriving Repr, DecidableEq

/-- `calc_maplen` (base.c 5826-5845); BLOCK_CYCLIC, SCALAPACK and TILED arrays have no map. -/
def maplen : Dist → Nat
  | .regular A => A.nblock.sum
  | .block A => if A.kind = .tiledIrreg then A.nblocks.sum else 0

/-- the loop `for(i=0; i<maplen; i++){ if(a[i]!=b[i]) return FALSE; if(a[i]==-1) break; }` -/
def sameMap : (k : Nat) → (a b : List Int) → Bool
  | k + 1, x :: a, y :: b => if x ≠ y then false else if x = -1 then true else sameMap k a b
  | _ + 1, _, _ => false
  | 0, _, _ => true

/-- `pnga_compare_distr` (base.c 5019-5077) for active handles. Lists of length `ndim` are compared
as a whole. -/
def compareDistr (a b : DArray) : Bool :=
  (match a.dist, b.dist with
    | .regular A, .regular B =>
      decide (A.dims = B.dims) && decide (maplen a.dist = maplen b.dist) &&
        sameMap (maplen a.dist) A.mapc B.mapc
    | .block A, .block B =>
      decide (A.dims = B.dims) && decide (A.kind = B.kind) &&
        (if A.kind = .tiledIrreg then
          decide (maplen a.dist = maplen b.dist) && sameMap (maplen a.dist) A.mapc B.mapc &&
            decide (A.grid = B.grid)
        else
          decide (A.bdims = B.bdims) && decide (A.nblocks = B.nblocks) &&
            (if A.kind = .cyclic then true else decide (A.grid = B.grid)))
    | _, _ => false) && decide (a.rstrctd = b.rstrctd)

/-- The distribution of the array made by `pnga_duplicate` (base.c 3783-3811): all fields are
copied, the map entry by entry, the restriction list through `pnga_set_restricted`. -/
def duplicateDist (a : DArray) : DArray :=
  { a with dist := match a.dist with
      | .regular A => .regular { A with mapc := A.mapc.take (maplen (.regular A)) }
      | .block A =>
        if maplen (.block A) > 0 then .block { A with mapc := A.mapc.take (maplen (.block A)) }
        else .block A }

end GA.Model
