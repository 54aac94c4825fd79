import Verif.Model.Pieces
import Verif.Model.Strided

/-!
# Model: gets on arrays with the property `read_cache`

`pnga_get` (global/src/onesided.c 1151-1294) and `gai_mem_copy` (1050-1142). One cell stands for
one element. The loop over the segments is the same as in `pack` of ComEx: `Model.Strided`.
Simplification: strides and offsets, `int` in `gai_mem_copy`, are not truncated.
-/

namespace GA.Model

/-- `src_offset`, `dst_offset` (onesided.c 1067-1082): `off += start[i]*factor;
if (i<ndim-1) factor *= ld[i]` -/
def memOff : (start ld : List Int) → (off f : Int) → Int
  | s :: start, d :: ld, off, f => memOff start ld (off + s * f) (f * d)
  | s :: _, [], off, f => off + s * f
  | [], _, off, _ => off

/-- `src_stride[1..]`, `dst_stride[1..]` (onesided.c 1088-1094) in elements -/
def memStrides : (acc : Int) → (ld : List Int) → List Int
  | acc, d :: ld => acc * d :: memStrides (acc * d) ld
  | _, [] => []

/-- `gai_mem_copy` (onesided.c 1050-1142): the new content of the destination. `none` for counts
below one (a negative number of bytes to copy). The leading dimensions are lists of `ndim-1`
numbers. -/
def memCopy {V} (count start sld dstart dld : List Int) (src dst : Int → V) : Option (Int → V) :=
  match count with
  | [] => none
  | c0 :: cs =>
    if (c0 :: cs).any fun c => decide (c < 1) then none
    else
      let counts := cs.map Int.toNat
      some (((blockOffs (memStrides 1 sld) counts).zip (blockOffs (memStrides 1 dld) counts)).foldl
        (fun d o => writeSeg d (memOff dstart dld 0 1 + o.2)
          (fun b => src (memOff start sld 0 1 + o.1 + b)) c0.toNat) dst)

/-- a number stored in a C `int` -/
def asInt32 (x : Int) : Int := (x + 2147483648) % 4294967296 - 2147483648

/-- `cache_struct_t` (base.h 41-46) -/
structure CEntry (V : Type) where
  lo : List Int
  hi : List Int
  buf : Int → V

/-- test of one entry (onesided.c 1211-1217): `temp_lo[i] <= lo[i] && temp_hi[i] >= hi[i]` -/
def covers : (tlo thi lo hi : List Int) → Bool
  | a :: tlo, b :: thi, l :: lo, h :: hi => decide (a ≤ l) && decide (b ≥ h) && covers tlo thi lo hi
  | _, _, _, _ => true

/-- componentwise difference (`nstart[i] = lo[i]-temp_lo[i]`, onesided.c 1225) -/
def subStart : (lo tlo : List Int) → List Int
  | l :: lo, a :: tlo => (l - a) :: subStart lo tlo
  | _, _ => []

/-- Limit on the number of entries (onesided.c 1272-1292). `cache_temp_pointer` is not advanced, so
the counter always passes `MAXCACHE` at the head of the list: all entries after the head are freed.
The loop that frees them does not advance either: with two or more of them it reads and frees the
same entry again, `none`. -/
def cacheTrim {V} : List (CEntry V) → Option (List (CEntry V))
  | [] => some []
  | [a] => some [a]
  | [a, _] => some [a]
  | _ => none

/-- `ngai_get_common` on any array -/
def gGet {V} (E : Env) (G : GArr) (lo hi ld : List Int) (buf : Int → V) (m : Addr → V) :
    Option (Int → V) :=
  (G.xfers E lo hi ld).map fun ts => applyGet ts m buf

/-- `pnga_get` on an array with the property READ_CACHE (onesided.c 1160-1292). The branch for the
empty list (1171-1193) is the same as the branch without match (1243-1269). `junk` is the content of
the new memory. `none`: the get ends with an error, or the size of the new memory, computed as
`int`, overflows. -/
def cachedGet {V} (E : Env) (G : GArr) (junk : Int → V) (cache : List (CEntry V)) (lo hi ld : List Int)
    (buf : Int → V) (m : Addr → V) : Option ((Int → V) × List (CEntry V)) :=
  match cache.find? fun e => covers e.lo e.hi lo hi with
  | some e =>
    (memCopy (edges lo hi) (subStart lo e.lo) (edges e.lo e.hi).dropLast (lo.map fun _ => 0)
      (edges lo hi).dropLast e.buf buf).bind fun b => (cacheTrim cache).map fun c => (b, c)
  | none =>
    if E.elemsize * prodI (edges lo hi) > E.maxInt then none
    else
      (gGet E G lo hi ld buf m).bind fun b =>
        (memCopy (edges lo hi) (lo.map fun _ => 0) ld (lo.map fun _ => 0) (edges lo hi).dropLast b junk).bind
          fun cb => (cacheTrim (⟨lo.map asInt32, hi.map asInt32, cb⟩ :: cache)).map fun c => (b, c)

/-- one call of `NGA_Get`: environment, patch, user buffer, and content of newly allocated memory -/
structure GetReq (V : Type) where
  E : Env
  lo : List Int
  hi : List Int
  ld : List Int
  buf : Int → V
  junk : Int → V

/-- A sequence of gets with the property set: the user buffers after the calls. -/
def runCached {V} (G : GArr) (m : Addr → V) : (cache : List (CEntry V)) → List (GetReq V) → Option (List (Int → V))
  | _, [] => some []
  | c, r :: rs =>
    (cachedGet r.E G r.junk c r.lo r.hi r.ld r.buf m).bind fun bc => (runCached G m bc.2 rs).map (bc.1 :: ·)

/-- The same sequence without the property. -/
def runPlain {V} (G : GArr) (m : Addr → V) : List (GetReq V) → Option (List (Int → V))
  | [] => some []
  | r :: rs => (gGet r.E G r.lo r.hi r.ld r.buf m).bind fun b => (runPlain G m rs).map (b :: ·)

end GA.Model
