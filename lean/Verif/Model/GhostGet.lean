import Verif.Model.Ghosts
import Verif.Model.Periodic

/-!
# Model: ghost cells fetched with one-sided gets

`pnga_update_ghosts_nb` (global/src/ghosts.c 2755-2915), `pnga_update_ghost_dir` (2921-3108),
`pnga_nbget_ghost_dir` (4297-4358), `pnga_get_ghost_block` (323-386) and the C interface of the two
direction calls (global/src/capi.c 1561-1589).

Modelled: REGULAR arrays on the world group. One memory cell stands for one element. A strided get is
the list of the element copies it makes; nothing is assumed about when they happen. Conversions of
strides and counts to `int` are taken as exact. `cand x` are the floating point guesses of the block
search for subscript `x`. Synchronisation at the begin and end of `pnga_update_ghost_dir` and the
progress of the non-blocking handle are not part of this model.
-/

namespace GA.GhostGet
open Model Ghost

/-- one element copied by a get -/
structure Copy where
  dst : Addr
  src : Addr
deriving Repr, DecidableEq

/-- Effect of copies made one after the other. -/
def exec {V} (l : List Copy) (m : Addr → V) : Addr → V :=
  l.foldl (fun m c => upd m c.dst (m c.src)) m

/-! ## masks -/

/-- `i = itmp%3; mask[idx] = i-1; itmp = (itmp-i)/3` (ghosts.c 2822-2829, 3004-3008). -/
def maskLoop : (n : Nat) → (itmp : Nat) → List Int
  | 0, _ => []
  | n + 1, t => (((t % 3 : Nat) : Int) - 1) :: maskLoop n ((t - t % 3) / 3)

/-- `if (mask[idx] != 0 && width[idx] == 0) mask0 = TRUE` (ghosts.c 2833-2840). -/
def zeroBlock (mask : List Int) (width : List Nat) : Bool :=
  (List.range width.length).any fun i => decide (mask.getD i 0 ≠ 0 ∧ width.getD i 0 = 0)

/-- The masks `pnga_update_ghosts_nb` works on (ghosts.c 2810-2840): all but the mask of zeros and
those of empty ghost blocks. -/
def nbMasks (width : List Nat) : List (List Int) :=
  (((List.range (3 ^ width.length)).map (maskLoop width.length)).filter fun k =>
    !(k.all fun e => decide (e = 0))).filter fun k => !zeroBlock k width

/-- `mask[idx] = idir` at `idx == idim-1`, else `mask[idx] = lmask[inx++]` (ghosts.c 3012-3020). -/
def putDir (idim dir : Int) : (n idx : Nat) → (lmask : List Int) → List Int
  | 0, _, _ => []
  | n + 1, idx, l =>
    if (idx : Int) = idim - 1 then dir :: putDir idim dir n (idx + 1) l
    else l.headD 0 :: putDir idim dir n (idx + 1) l.tail

/-- The masks `pnga_update_ghost_dir` works on (ghosts.c 2992-3020). Empty ghost blocks are not left
out. -/
def dirMasks (n : Nat) (idim dir : Int) (flag : Bool) : List (List Int) :=
  (if flag then (List.range (3 ^ (n - 1))).map (maskLoop (n - 1)) else [List.replicate (n - 1) 0]).map
    (putDir idim dir n 0)

/-! ## one get -/

/-- `tlo_rem[idx]` (ghosts.c 2844-2867, 3023-3046): first subscript of the data wanted. -/
def remLo (k lo hi d w : Int) : Int :=
  if k = 0 then lo else if k = -1 then (if lo > 1 then lo - w else d - w + 1)
  else (if hi < d then hi + 1 else 1)

/-- `thi_rem[idx]` (the same lines). -/
def remHi (k lo hi d w : Int) : Int :=
  if k = 0 then hi else if k = -1 then (if lo > 1 then lo - 1 else d)
  else (if hi < d then hi + w else w)

/-- `plo_loc[idx]` (ghosts.c 2882-2895, 3061-3077). -/
def locLo (k e w : Int) : Int := if k = 0 then w else if k = -1 then 0 else e + w + 1

/-- `phi_loc[idx]` (the same lines). -/
def locHi (k e w : Int) : Int := if k = 0 then e + w else if k = -1 then w - 1 else e + 2 * w

/-- `plo_rem[idx]` (the same lines); `er` is `thi_rem[idx]-tlo_rem[idx]` of the remote block. -/
def remOff (k er w : Int) : Int := if k = 0 then w else if k = -1 then er + 1 else w

/-- The get for one mask (ghosts.c 2841-2909, 3021-3099). `none`: `ga_RegionError`, or a mask value
for which the code goes on with uninitialised corners. -/
def copies (A : RegArray) (cand : List Int → List Nat) (me : Int) (mask : List Int) :
    Option (List Copy) :=
  let n := A.dims.length
  let o := owns A me
  let w := fun i => (A.width.getD i 0 : Int)
  let k := fun i => mask.getD i 0
  if mask.all fun e => decide (e = -1 ∨ e = 0 ∨ e = 1) then
    match firstProc A cand
        (tab n fun i => remLo (k i) (o.1.getD i 0) (o.2.getD i 0) (A.dims.getD i 0) (w i),
         tab n fun i => remHi (k i) (o.1.getD i 0) (o.2.getD i 0) (A.dims.getD i 0) (w i)) with
    | none => none
    | some q =>
      let r := owns A q
      let plo := tab n fun i => locLo (k i) (o.2.getD i 0 - o.1.getD i 0) (w i)
      let phi := tab n fun i => locHi (k i) (o.2.getD i 0 - o.1.getD i 0) (w i)
      let prem := tab n fun i => remOff (k i) (r.2.getD i 0 - r.1.getD i 0) (w i)
      some <| (loopAll (plo.map fun _ => 0) ((edges plo phi).map (· - 1))).map fun i =>
        ⟨(me, ghostLoc plo o.1 o.2 A.width 0 1 + strideOff (setstride 1 (ldRem o.1 o.2 A.width)) i),
         (q, ghostLoc prem r.1 r.2 A.width 0 1 + strideOff (setstride 1 (ldRem r.1 r.2 A.width)) i)⟩
  else none

/-! ## the calls -/

/-- `pnga_update_ghosts_nb` (ghosts.c 2755-2915): was the handle initialised, and the copies of all
gets. -/
def updateNb (A : RegArray) (cand : List Int → List Nat) (me : Int) : Option (Bool × List Copy) :=
  if !Ghost.hasGhosts A.width then some (false, [])
  else if !checkDistr A.nblock A.dims A.mapc A.width then some (false, [])
  else (mapOpt (copies A cand me) (nbMasks A.width)).map fun l => (true, l.flatten)

/-- `pnga_update_ghost_dir` (ghosts.c 2921-3108): return value and copies. The check of the
distribution (2962-2980) is written out once more but is the one of `gai_check_ghost_distr`. -/
def updateDir (A : RegArray) (cand : List Int → List Nat) (me : Int) (idim dir : Int) (flag : Bool) :
    Option (Bool × List Copy) :=
  if !Ghost.hasGhosts A.width then some (true, [])
  else if !checkDistr A.nblock A.dims A.mapc A.width then some (false, [])
  else (mapOpt (copies A cand me) (dirMasks A.dims.length idim dir flag)).map fun l => (true, l.flatten)

/-- `pnga_nbget_ghost_dir` (ghosts.c 4297-4358) together with the wait for its handle: a get of the
wrapped patch straight into the ghost cells. `none`: the mask is refused, or the get is. -/
def nbgetDir {V} (E : Env) (A : RegArray) (me : Int) (mask : List Int) (m : Addr → V) :
    Option (Addr → V) :=
  let n := A.dims.length
  let o := owns A me
  let w := fun i => (A.width.getD i 0 : Int)
  if mask.all fun e => decide (e = -1 ∨ e = 0 ∨ e = 1) then
    let lo := tab n fun i =>
      if mask.getD i 0 = 1 then (if o.2.getD i 0 = A.dims.getD i 0 then 1 else o.2.getD i 0 + 1)
      else if mask.getD i 0 = -1 then
        (if o.1.getD i 0 = 1 then A.dims.getD i 0 - w i + 1 else o.1.getD i 0 - w i)
      else o.1.getD i 0
    let hi := tab n fun i =>
      if mask.getD i 0 = 1 then (if o.2.getD i 0 = A.dims.getD i 0 then w i else o.2.getD i 0 + w i)
      else if mask.getD i 0 = -1 then (if o.1.getD i 0 = 1 then A.dims.getD i 0 else o.1.getD i 0 - 1)
      else o.2.getD i 0
    let sub := tab n fun i =>
      if mask.getD i 0 = 1 then o.2.getD i 0 - o.1.getD i 0 + 1 + w i
      else if mask.getD i 0 = -1 then 0 else w i
    let off := ghostLoc sub o.1 o.2 A.width 0 1
    (ngaGet E A lo hi (fun j => m (me, off + j)) (ldRem o.1 o.2 A.width) m).map fun b a =>
      if a.1 = me then b (a.2 - off) else m a
  else none

/-- `pnga_get_ghost_block` (ghosts.c 323-386): a local strided copy if the patch lies in the box of
this process, else a periodic get. -/
def getGhostBlock {V} (E : PPiece → Env) (A : RegArray) (me : Int) (lo hi ld : List Int)
    (m : Addr → V) (buf : Int → V) : Option (Int → V) :=
  let o := owns A me
  let n := A.dims.length
  let w := fun i => (A.width.getD i 0 : Int)
  let llo := tab n fun i => o.1.getD i 0 - w i
  if (List.range n).all fun i => decide (¬ lo.getD i 0 < o.1.getD i 0 - w i ∧
      ¬ hi.getD i 0 > o.2.getD i 0 + w i) then
    let off := ghostLoc (tab n fun i => lo.getD i 0 - llo.getD i 0) o.1 o.2 A.width 0 1
    some <| (loopAll (lo.map fun _ => 0) ((edges lo hi).map (· - 1))).foldl (fun b i =>
      upd b (strideOff (setstride 1 ld) i)
        (m (me, off + strideOff (setstride 1 (ldRem o.1 o.2 A.width)) i))) buf
  else periodicGet E A lo hi ld m buf

/-! ## C interface -/

/-- `COPYINDEX_C2F` (capi.c 60-61): reversed, and one added to every entry. -/
def copyIndexC2F (c : List Int) : List Int := (c.map (· + 1)).reverse

/-- `NGA_NbGet_ghost_dir` (capi.c 1572-1579) with the wait for its handle. -/
def cNbgetDir {V} (E : Env) (A : RegArray) (me : Int) (mask : List Int) (m : Addr → V) :
    Option (Addr → V) := nbgetDir E A me (copyIndexC2F mask) m

/-- `NGA_Update_ghost_dir` (capi.c 1559-1570). -/
def cUpdateDir (A : RegArray) (cand : List Int → List Nat) (me : Int) (dimension dir : Int)
    (flag : Bool) : Option (Bool × List Copy) := updateDir A cand me (dimension + 1) dir flag

end GA.GhostGet
