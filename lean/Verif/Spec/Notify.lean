import Verif.Spec.Patch

/-!
# Specification: put with notification

A request stores the patch `lo..hi` of array `g` from a buffer and the element `e` of array `gn`, the
notification. Requests of one process take effect as if executed one after the other.
-/

namespace GA.Spec

/-- a put with notification: `vals` is the content of the buffer, `v` the value of the notification -/
structure NotifyReq (V : Type) where
  g : Int
  lo : List Int
  hi : List Int
  ld : List Int
  vals : Int → V
  gn : Int
  e : List Int
  v : V

/-- the request stores element `x` of array `g` -/
def NotifyReq.Touches {V} (r : NotifyReq V) (g : Int) (x : List Int) : Prop :=
  (g = r.gn ∧ x = r.e) ∨ (g = r.g ∧ InPatch r.lo r.hi x)

/-- contents of the arrays after a request -/
def notifyStep {V} (f : Int → List Int → V) (r : NotifyReq V) : Int → List Int → V := fun g x =>
  if g = r.gn ∧ x = r.e then r.v
  else if g = r.g ∧ InPatch r.lo r.hi x then r.vals (bufPos r.lo r.ld x)
  else f g x

/-- contents of the arrays after requests one after the other -/
def notifyRun {V} (f : Int → List Int → V) (rs : List (NotifyReq V)) : Int → List Int → V :=
  rs.foldl notifyStep f

end GA.Spec
