import Verif.Model.Pieces

/-!
# Model: strided put, get, accumulate

`pnga_strided_put`, `pnga_strided_get`, `pnga_strided_acc` (global/src/onesided.c 4215-4475) and
their helpers (4051-4208), at element granularity. C's `/` and `%` truncate towards zero: `Int.tdiv`
and `Int.tmod`. Simplification: the counts and strides, `int` in the code, are not truncated.
-/

namespace GA.Model

/-- `gai_correct_strided_patch` (onesided.c 4055-4062), new `plo[i]` -/
def skipLo (l s p : Int) : Int :=
  if (p - l).tmod s ≠ 0 then p - (p - l).tmod s + s else p

/-- `gai_correct_strided_patch` (onesided.c 4063-4066), new `phi[i]` -/
def skipHi (l s h : Int) : Int :=
  if (h - l).tmod s ≠ 0 then h - (h - l).tmod s else h

/-- `gai_correct_strided_patch` (onesided.c 4050-4070): the corrected corners, or `none` if no data
is left (return value 0). -/
def correctSkip : (lo skip plo phi : List Int) → Option (List Int × List Int)
  | l :: lo, s :: skip, p :: plo, h :: phi =>
    if skipHi l s h < skipLo l s p then none
    else (correctSkip lo skip plo phi).map fun r => (skipLo l s p :: r.1, skipHi l s h :: r.2)
  | _, _, _, _ => some ([], [])

/-- One entry of `count` (onesided.c 4092-4102). -/
def skipCount (s l h : Int) : Int := if s > 1 then (h - l).tdiv s + 1 else h - l + 1

/-- `gai_ComputeCountWithSkip` (onesided.c 4077-4106) without the leading 1 -/
def skipCounts : (skip lo hi : List Int) → List Int
  | s :: skip, l :: lo, h :: hi => skipCount s l h :: skipCounts skip lo hi
  | _, _, _ => []

/-- `gai_SetStrideWithSkip` (onesided.c 4138-4151): `stride_rem` in elements; the argument `acc` is
the product of the `ldrem` so far. The last entry `stride_rem[ndim]` is never used. -/
def skipStrideRem : (acc : Int) → (skip ldrem : List Int) → List Int
  | acc, s :: skip, d :: ldrem => acc * s :: skipStrideRem (acc * d) skip ldrem
  | acc, s :: _, [] => [acc * s]
  | _, [], _ => []

/-- `gai_SetStrideWithSkip`: `stride_loc` -/
def skipStrideLoc : (acc : Int) → (ld : List Int) → List Int
  | acc, d :: ld => acc :: skipStrideLoc (acc * d) ld
  | acc, [] => [acc]

/-- `delta = plo-lo; inc = delta%skip; delta -= inc; delta /= skip` (onesided.c 4182-4185) -/
def skipDelta (l p s : Int) : Int := ((p - l) - (p - l).tmod s).tdiv s

/-- Loop of `gai_ComputePatchIndexWithSkip` (onesided.c 4187-4194): `factor = ld[i]`. -/
def skipIndexLoop : (lo plo skip ld : List Int) → (idx : Int) → Int
  | l :: lo, p :: plo, s :: skip, d :: ld, idx => skipIndexLoop lo plo skip ld (idx + d * skipDelta l p s)
  | _, _, _, _, idx => idx

/-- `gai_ComputePatchIndexWithSkip` (onesided.c 4178-4195) -/
def skipIndex : (lo plo skip ld : List Int) → Int
  | l :: lo, p :: plo, s :: skip, ld => skipIndexLoop lo plo skip ld (skipDelta l p s)
  | _, _, _, _ => 0

/-- `gai_FindOffset` (onesided.c 4204-4215): `*offset += (plo[i]-lo[i])*factor; factor *= ld[i]` -/
def findOffset : (lo plo ld : List Int) → (off factor : Int) → Int
  | l :: lo, p :: plo, d :: ld, off, f => findOffset lo plo ld (off + (p - l) * f) (f * d)
  | l :: _, p :: _, [], off, f => off + (p - l) * f
  | _, _, _, off, _ => off

/-- The process a piece is sent to (onesided.c 4289-4293). `grp` is `inv_map_proc_list` of the group
of the array, `none` for the world group (`p_handle == -1`). The iterator has already translated
the group rank to a process number (iterator.c 428-433); the code translates again. -/
def skipProc (grp : Option (List Int)) (proc : Int) : Int :=
  match grp with
  | none => proc
  | some inv => inv.getD (inv.getD proc.toNat 0).toNat 0

/-- The elements moved for one piece (onesided.c 4255-4294), nothing if no data is left. -/
def skipPiece (grp : Option (List Int)) (lo skip ld : List Int) (p : RPiece) : List Xfer :=
  match correctSkip lo skip p.plo p.phi with
  | none => []
  | some (plo, phi) =>
    (loopAll (plo.map fun _ => 0) ((skipCounts skip plo phi).map (· - 1))).map fun i =>
      ⟨skipIndex lo plo skip ld + dotI (skipStrideLoc 1 ld) i,
       (skipProc grp p.proc, p.prem + findOffset p.plo plo p.ldrem 0 1 + dotI (skipStrideRem 1 skip p.ldrem) i)⟩

/-- All elements moved by one call; `none`: "Invalid value of skip" (onesided.c 4243-4248) or an
error of the iterator. -/
def skipXfers (E : Env) (G : GArr) (grp : Option (List Int)) (lo hi skip ld : List Int) : Option (List Xfer) :=
  if skip.any fun s => decide (s < 1) then none
  else (G.pieces E lo hi).map fun ps => ps.flatMap (skipPiece grp lo skip ld)

/-- `pnga_strided_put` (onesided.c 4226-4296) -/
def ngaSPut {V} (E : Env) (G : GArr) (grp : Option (List Int)) (lo hi skip ld : List Int) (buf : Int → V)
    (mem : Addr → V) : Option (Addr → V) :=
  (skipXfers E G grp lo hi skip ld).map fun ts => applyPut ts buf mem

/-- `pnga_strided_get` (onesided.c 4306-4376) -/
def ngaSGet {V} (E : Env) (G : GArr) (grp : Option (List Int)) (lo hi skip ld : List Int) (buf : Int → V)
    (mem : Addr → V) : Option (Int → V) :=
  (skipXfers E G grp lo hi skip ld).map fun ts => applyGet ts mem buf

/-- `pnga_strided_acc` (onesided.c 4388-4475) -/
def ngaSAcc {V} [Add V] [Mul V] (E : Env) (G : GArr) (grp : Option (List Int)) (lo hi skip ld : List Int)
    (alpha : V) (buf : Int → V) (mem : Addr → V) : Option (Addr → V) :=
  (skipXfers E G grp lo hi skip ld).map fun ts => applyAcc ts alpha buf mem

end GA.Model
