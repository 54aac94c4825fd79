/-!
# Specification: what a program knows about the bytes of a file

`known z = some v`: byte `z` of the file was last written with `v`. `none`: the byte was not written, or the last write to it failed.
-/

namespace GA.Spec.Bytes

variable {V : Type}

/-- nothing is known of a new file -/
def fresh : Nat → Option V := fun _ => none

/-- after a write of `d` at `off` -/
def wrote (known : Nat → Option V) (off : Nat) (d : List V) : Nat → Option V := fun z => if off ≤ z ∧ z < off + d.length then d[z - off]? else known z

/-- after a failed write of `n` bytes at `off` -/
def spoiled (known : Nat → Option V) (off n : Nat) : Nat → Option V := fun z => if off ≤ z ∧ z < off + n then none else known z

end GA.Spec.Bytes
