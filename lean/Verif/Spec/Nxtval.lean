/-!
# Specification: a shared counter

The values handed out since the last reset are 0, 1, 2, ... in the order in which they were drawn. A value drawn by a process is attributed to the number of resets the process completed.
-/

namespace GA.Spec.Counter

/-- `n` values of a counter that starts at 0 -/
def counted (n : Nat) : List Int := (List.range n).map fun (i : Nat) => (i : Int)

/-- the values of round `r` among all draws (process, round, value) -/
def ofRound (r : Nat) (draws : List (Nat × Nat × Int)) : List Int := (draws.filter fun d => d.2.1 == r).map fun d => d.2.2

end GA.Spec.Counter
