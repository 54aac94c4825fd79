/-!
# Specification: memory given out by an allocator

A live allocation is the pointer that was returned and the number of bytes that was asked for. Independent of the model of the allocator.
-/

namespace GA.Spec.Mem

/-- two ranges of bytes, given by address and length, have no byte in common -/
def Apart (x y : Nat × Nat) : Prop := x.1 + x.2 ≤ y.1 ∨ y.1 + y.2 ≤ x.1

/-- the byte belongs to the range -/
def In (z : Nat) (x : Nat × Nat) : Prop := x.1 ≤ z ∧ z < x.1 + x.2

/-- the bytes an allocation takes with its header: one unit of 64 bytes for the header, and the bytes asked for in whole units -/
def gross (n : Nat) : Nat := 64 + 64 * ((n + 63) / 64)

/-- the units all live allocations take -/
def unitsLive (live : List (Nat × Nat)) : Nat := (live.map fun x => gross x.2 / 64).sum

end GA.Spec.Mem
