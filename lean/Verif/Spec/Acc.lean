/-!
# What accumulates into one memory must leave behind

An accumulate is a list of addresses with the numbers to add to them.
-/

namespace GA.Spec.Acc

/-- What the list adds to address `a`. -/
def added (a : Nat) (l : List (Nat × Int)) : Int :=
  ((l.filter fun c => c.1 == a).map Prod.snd).sum

/-- The lists of the processes `0 .. n - 1`, one after the other. -/
def everybody (n : Nat) (f : Nat → List (Nat × Int)) : List (Nat × Int) :=
  (List.range n).flatMap f

end GA.Spec.Acc
