/-!
# Specification: aggregated requests
-/

namespace GA.Spec.Agg

/-- Where the bytes of a put come from: memory that is read when the request is carried out, or a value copied when the call was made. -/
inductive Src where
  | addr (a : Int)
  | value (v : Int)
  deriving DecidableEq

/-- One contiguous transfer. -/
structure Item where
  put : Bool
  proc : Nat
  bytes : Nat
  src : Src
  dst : Int
  deriving DecidableEq

/-- The calls of one process; `h` is the handle of the caller. -/
inductive Op where
  /-- a contiguous put or get, or a put of a value (`reg`) of at most eight bytes -/
  | one (h : Nat) (put : Bool) (proc bytes : Nat) (reg : Bool) (src : Src) (dst : Int)
  /-- a strided put or get of `total` segments; `seg i` is the `i`-th one -/
  | many (h : Nat) (put : Bool) (proc bytes total : Nat) (seg : Nat → Src × Int)
  /-- wait for the handle -/
  | wait (h : Nat)

/-- the transfers a call asks for under handle `h` -/
def Op.asks (h : Nat) : Op → List Item
  | .one h' put proc bytes _ src dst => if h' = h then [⟨put, proc, bytes, src, dst⟩] else []
  | .many h' put proc bytes total seg => if h' = h then (List.range total).map fun i => ⟨put, proc, bytes, (seg i).1, (seg i).2⟩ else []
  | .wait _ => []

/-- all transfers asked for under handle `h`, in the order of the calls -/
def asked (h : Nat) (ops : List Op) : List Item := ops.flatMap (Op.asks h)

/-- values have at most eight bytes (int, long, float, double); a strided call has at most 512 segments or a multiple of 256 -/
def Op.Ok : Op → Prop
  | .one _ _ _ bytes reg _ _ => reg = true → bytes ≤ 8
  | .many _ _ _ _ total _ => 0 < total ∧ (total ≤ 512 ∨ 256 ∣ total)
  | .wait _ => True

/-- offset of the `i`-th segment of a strided transfer with the given counts (of segments) and strides -/
def stridedOffset : List (Nat × Int) → Nat → Int
  | [], _ => 0
  | (c, stride) :: l, i => stride * ((i % c : Nat) : Int) + stridedOffset l (i / c)

end GA.Spec.Agg
