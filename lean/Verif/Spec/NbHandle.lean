import Verif.Model.NbHandle
import Verif.Spec.Requests

/-! # Specification: histories of non-blocking operations

The messages of an operation are numbered consecutively, starting with `fresh` of the state before
it; a message is complete when it is in the `log` of the layer below. -/

namespace GA.Nb

/-- the number of messages of an operation with pieces `kss` -/
def total (kss : List (List Bool)) : Nat := (kss.map List.length).sum

/-- calls of the layer below use existing slots; nothing is required of the user's handles -/
def OpOK (N : Nat) : Op → Prop
  | .other c => Req.CallOK N c
  | _ => True

end GA.Nb
