import Verif.Spec.Ops

/-!
# Specification: histories with read-and-increment on a plain array

A step is a put, an accumulate or a read-and-increment. The specification returns the final content
and the list of the values returned by the read-and-increment calls.
-/

namespace GA.Spec

/-- one request -/
inductive RIStep where
  | op (o : Op Int)
  | rinc (x : List Int) (inc : Int)

/-- content after the history, values returned by the read-and-increment calls -/
def specR (f : List Int → Int) : List RIStep → (List Int → Int) × List Int
  | [] => (f, [])
  | .op o :: rest => specR (specStep f o) rest
  | .rinc x inc :: rest =>
    let r := specR (fun y => if y = x then f y + inc else f y) rest
    (r.1, f x :: r.2)

end GA.Spec
