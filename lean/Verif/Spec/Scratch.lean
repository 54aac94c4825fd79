/-!
# Specification: temporary buffers out of a registered stack memory

The two sides of the bargain. The allocator (MA, or the pair of functions the user registered) hands
out memory that is not in use; whoever got a buffer writes inside it only and gives it back. Then
every buffer is aligned, lies inside the memory the allocator gave, and giving it back hands the
allocator exactly what the allocator returned for it.
-/

namespace GA.Spec.Scratch

/-- A buffer in use: the memory the allocator gave (`base`, `bytes`), the name it goes by with the
allocator (`id`: the handle of MA, the address of a registered allocator), and the part in use
(`ptr`, `size`). -/
structure Blk where
  id : Int
  base : Int
  bytes : Int
  ptr : Int
  size : Int
deriving DecidableEq, Repr

inductive Op where
  /-- a buffer of `n` elements of `size` bytes is asked for; the allocator answers with memory at
  `base` (and `handle`, if it is MA) -/
  | alloc (n size base handle : Int)
  /-- the holder of the buffer at `ptr` writes `len` bytes from byte `off` on -/
  | write (ptr off len : Int)
  /-- anybody else (the allocator too) writes `len` bytes at address `a` -/
  | other (a len : Int)
  /-- the buffer at `ptr` is given back -/
  | free (ptr : Int)
deriving DecidableEq, Repr

inductive Ans where
  /-- `bytes` bytes were asked of the allocator, the buffer is at `ptr` -/
  | got (bytes ptr : Int)
  | done
  /-- the allocator was given back `id` -/
  | freed (id : Int)
  /-- error exit or undefined behaviour -/
  | broken
deriving DecidableEq, Repr

/-- two ranges of addresses have no byte in common -/
def Apart (a n b m : Int) : Prop := a + n ≤ b ∨ b + m ≤ a

/-- What may be expected of the others. `ma`: the allocator is MA, whose buffers are given back in
the reverse order (last first). -/
def Fair (ma : Bool) (live : List Blk) : Op → Ans → Prop
  | .alloc n size base _, .got bytes _ =>
    0 ≤ n ∧ 0 < size ∧ size ∣ 16 ∧ 0 < base ∧ ∀ b ∈ live, Apart base bytes b.base b.bytes
  | .alloc n size base _, _ => 0 ≤ n ∧ 0 < size ∧ size ∣ 16 ∧ 0 < base
  | .write ptr off len, _ =>
    ∃ b ∈ live, b.ptr = ptr ∧ 0 ≤ off ∧ 0 ≤ len ∧ off + len ≤ b.size
  | .other a len, _ => 0 ≤ len ∧ ∀ b ∈ live, Apart a len b.base b.bytes
  | .free ptr, _ => if ma then ∃ b rest, live = b :: rest ∧ b.ptr = ptr else ∃ b ∈ live, b.ptr = ptr

/-- What is promised. -/
def Good (live : List Blk) : Op → Ans → Prop
  | .alloc n size base _, .got bytes ptr =>
    ptr % 16 = 0 ∧ base ≤ ptr ∧ ptr + n * size ≤ base + bytes ∧ ∀ b ∈ live, b.ptr ≠ ptr
  | .write _ _ _, .done => True
  | .other _ _, .done => True
  | .free ptr, .freed id => ∃ b ∈ live, b.ptr = ptr ∧ b.id = id
  | _, _ => False

/-- the buffers in use afterwards -/
def after (ma : Bool) (live : List Blk) : Op → Ans → List Blk
  | .alloc n size base handle, .got bytes ptr =>
    ⟨if ma then handle else base, base, bytes, ptr, n * size⟩ :: live
  | .free ptr, _ => live.filter fun b => b.ptr ≠ ptr
  | _, _ => live

/-- Along a history: as long as the others keep to the bargain, the promise is kept. -/
def Kept (ma : Bool) : List Blk → List (Op × Ans) → Prop
  | _, [] => True
  | live, (o, a) :: t => Fair ma live o a → Good live o a ∧ Kept ma (after ma live o a) t

end GA.Spec.Scratch
