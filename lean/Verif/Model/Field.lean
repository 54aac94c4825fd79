import Verif.Model.OneSided
import Verif.Model.CApi

/-!
# Model: fields of elements

`NGA_Put_field` and `NGA_Get_field` (global/src/onesided.c 375-524, 530-679, 862-885, 1315-1332 and
global/src/capi.c 5284-5335), for REGULAR arrays. Memory and buffers are bytes: byte `b` of the element at
offset `o` of process `p` is at `(p, size*o + b)`. The non-blocking calls are modelled together with the
wait for their handle. Conversions of counts and strides to `int` are taken as exact.
-/

namespace GA.Field
open Model

/-- `stride_loc[i] /= type_size; stride_loc[i] *= field_size` (onesided.c 388-391, 420-423, 456-459). -/
def rescale (size fs s : Int) : Int := s.tdiv size * fs

/-- all index vectors of a strided transfer with the given counts -/
def counted (count : List Int) : List (List Int) :=
  loopAll (count.map fun _ => 0) (count.map (· - 1))

/-- The bytes moved for one piece: `ngai_puts`, `ngai_nbputs` (onesided.c 375-437) and `ngai_nbgets`
(438-487) with the arguments set up in onesided.c 565-568, 603-611. Whole elements: the strided call as
it is. Fields: one more stride level, of `field_size` bytes at a distance of `type_size` (`_stride_rem[0]`)
in the array and of `field_size` (`_stride_loc[0]`) in the buffer. -/
def fieldPiece (size foff fs : Int) (lo ld : List Int) (p : RPiece) : List Xfer :=
  let e := edges p.plo p.phi
  let pbuf := size * patchIndex lo p.plo ld
  if fs < 0 ∨ fs = size then
    (counted (match e with | n :: ns => (n * size) :: ns | [] => [])).map fun i =>
      ⟨pbuf + strideOff (setstride size ld) i, (p.proc, size * p.prem + strideOff (setstride size p.ldrem) i)⟩
  else
    (counted (fs :: e)).map fun i =>
      ⟨pbuf.tdiv size * fs + strideOff (fs :: (setstride size ld).map (rescale size fs)) i,
       (p.proc, size * p.prem + foff + strideOff (size :: setstride size p.ldrem) i)⟩

/-- all bytes of a call -/
def fieldXfers (E : Env) (foff fs : Int) (lo ld : List Int) (ps : List RPiece) : List Xfer :=
  (twoPass E.isLocal ps).flatMap (fieldPiece E.elemsize foff fs lo ld)

/-- `pnga_put_field` (onesided.c 877-885). `none`: an error exit, or the division by `field_size` when the
strides are restored (400, 432) with an empty field. -/
def putField {V} (E : Env) (A : RegArray) (lo hi : List Int) (foff fs : Int) (buf : Int → V)
    (ld : List Int) (mem : Addr → V) : Option (Addr → V) :=
  if fs = 0 ∧ ld ≠ [] then none
  else (regPieces E A lo hi).map fun ps => applyPut (fieldXfers E foff fs lo ld ps) buf mem

/-- `pnga_get_field` (onesided.c 1325-1332). -/
def getField {V} (E : Env) (A : RegArray) (lo hi : List Int) (foff fs : Int) (buf : Int → V)
    (ld : List Int) (mem : Addr → V) : Option (Int → V) :=
  if fs = 0 ∧ ld ≠ [] then none
  else (regPieces E A lo hi).map fun ps => applyGet (fieldXfers E foff fs lo ld ps) mem buf

/-- `NGA_Put_field`, `NGA_Nbput_field` (capi.c 5311-5335): the leading dimensions are converted like
subscripts. -/
def cPutField {V} (E : Env) (A : RegArray) (lo hi : List Int) (foff fs : Int) (buf : Int → V)
    (ld : List Int) (mem : Addr → V) : Option (Addr → V) :=
  putField E A (indexC2F lo) (indexC2F hi) foff fs buf (indexC2F ld) mem

/-- `NGA_Get_field`, `NGA_Nbget_field` (capi.c 5284-5309). -/
def cGetField {V} (E : Env) (A : RegArray) (lo hi : List Int) (foff fs : Int) (buf : Int → V)
    (ld : List Int) (mem : Addr → V) : Option (Int → V) :=
  getField E A (indexC2F lo) (indexC2F hi) foff fs buf (indexC2F ld) mem

end GA.Field
