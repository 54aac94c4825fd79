import Verif.Model.LocalPatch

/-!
# Model: one-sided calls on all kinds of arrays

`gai_iterator_init`/`gai_iterator_next` (global/src/iterator.c 190-770) dispatch on the
distribution; the pieces are those of `Model.OneSided` and `Model.BlockCyclic`.
-/

namespace GA.Model

/-- the pieces visited by one request -/
def GArr.pieces (E : Env) : GArr → (lo hi : List Int) → Option (List RPiece)
  | .reg A _, lo, hi => regPieces E A lo hi
  | .blk A, lo, hi => bPieces A lo hi

/-- elements moved by a put, get or accumulate (onesided.c 530-679, 902-1043, 1334-1455) -/
def GArr.xfers (E : Env) (G : GArr) (lo hi ld : List Int) : Option (List Xfer) :=
  (G.pieces E lo hi).map (Model.xfers E.isLocal lo ld)

end GA.Model
