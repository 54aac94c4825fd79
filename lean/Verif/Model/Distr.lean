import Verif.Model.Index

/-!
# Model: regular (and irregular) block distribution

`ga_ownsM_no_handle` (global/src/base.h 153-176), `findblock` (global/src/base.c 726-751),
`pnga_locate` (base.c 792-826, REGULAR branch), `pnga_distribution` (base.c 3689-3708).
-/

namespace GA.Model

/-- The fields of `global_array_t` (global/src/gaconfig.h / globalp.h, struct `global_array_t`)
that describe a REGULAR distribution. `nblock` is the process grid, `mapc` the concatenated block
starts, `width` the ghost cell widths. Array restriction and groups are modelled in
`Model.Restrict`. -/
structure RegArray where
  dims : List Int
  nblock : List Nat
  mapc : List Int
  width : List Nat
deriving Repr, DecidableEq

/-- `lo[]` computed in the `else` branch of `ga_ownsM_no_handle` (base.h 164-172):
`_loc=_index%nblock[_d]; _index/=nblock[_d]; lo[_d]=mapc[_loc+_dimstart]`. The pointer
`mapc+_dimstart` is modelled by dropping a prefix. -/
def ownsLo : (nblock : List Nat) → (mapc : List Int) → (index : Nat) → List Int
  | n :: ns, m, idx => m.getD (idx % n) 0 :: ownsLo ns (m.drop n) (idx / n)
  | [], _, _ => []

/-- `hi[]` computed in the `else` branch of `ga_ownsM_no_handle` (base.h 164-174):
`if(_loc==nblock[_d]-1) hi[_d]=dims[_d]; else hi[_d]=mapc[_dimpos+1]-1`. -/
def ownsHi : (nblock : List Nat) → (dims mapc : List Int) → (index : Nat) → List Int
  | n :: ns, d :: ds, m, idx =>
    (if idx % n = n - 1 then d else m.getD (idx % n + 1) 0 - 1) :: ownsHi ns ds (m.drop n) (idx / n)
  | _, _, _, _ => []

/-- Product of the grid extents (`_nb`, base.h 156). -/
def gridSize : List Nat → Nat
  | [] => 1
  | n :: ns => n * gridSize ns

/-- `ga_ownsM_no_handle` (base.h 153-176): corners of the block of process `proc`; processes
outside the grid get `lo=0, hi=-1`. -/
def owns (A : RegArray) (proc : Int) : List Int × List Int :=
  if proc > (gridSize A.nblock : Int) - 1 ∨ proc < 0 then
    (A.nblock.map fun _ => 0, A.nblock.map fun _ => -1)
  else
    (ownsLo A.nblock A.mapc proc.toNat, ownsHi A.nblock A.dims A.mapc proc.toNat)

/-- Upward search loop of `findblock` (base.c 734-740), `while(b<(n)-1)`: returns the final `b`
and `found`. The second argument is the number `n-1-b` of remaining iterations. -/
def findUp (map : List Int) (elem : Int) : (k b : Nat) → Nat × Bool
  | k + 1, b => if map.getD (b + 1) 0 > elem then (b, true) else findUp map elem k (b + 1)
  | 0, b => (b, false)

/-- Downward search loop of `findblock` (base.c 741-748), started with `b = candidate-1`;
the argument is `b+1`. -/
def findDown (map : List Int) (elem : Int) : (b1 : Nat) → Nat × Bool
  | 0 => (0, false)
  | b + 1 => if map.getD b 0 ≤ elem then (b, true) else findDown map elem b

/-- `findblock` (base.c 726-751). `candidate` stands for `(int)(scale*(elem))`; it is a free
parameter because it depends on floating point rounding. -/
def findblock (map : List Int) (n candidate : Nat) (elem : Int) : Nat :=
  let c := if candidate = n then n - 1 else candidate
  let r := if map.getD c 0 ≤ elem then findUp map elem (n - 1 - c) c else findDown map elem c
  if r.2 then r.1 else n - 1

/-- The loop `for(d=0,dpos=0;d<ndim;d++){ findblock(mapc+dpos,nblock[d],..,subscript[d],
&proc_s[d]); dpos+=nblock[d]; }` (base.c 803-807, 4606-4611, 4703-4708). -/
def findblocks : (nblock : List Nat) → (mapc : List Int) → (cand : List Nat) → (sub : List Int) →
    List Nat
  | n :: ns, m, c :: cs, x :: xs => findblock m n c x :: findblocks ns (m.drop n) cs xs
  | _, _, _, _ => []

/-- bounds check of `pnga_locate` (base.c 800-801) -/
def subscriptOK : (dims sub : List Int) → Bool
  | d :: ds, x :: xs => decide (¬ (x < 1 ∨ x > d)) && subscriptOK ds xs
  | _, _ => true

/-- `pnga_locate`, REGULAR branch (base.c 792-816) without array restriction: `none` models the
return value FALSE. -/
def locate (A : RegArray) (cand : List Nat) (sub : List Int) : Option Int :=
  if subscriptOK A.dims sub then
    some (computeIndex ((findblocks A.nblock A.mapc cand sub).map Int.ofNat)
      (A.nblock.map Int.ofNat))
  else none

end GA.Model
