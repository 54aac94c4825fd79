import Verif.Spec.Scratch

/-!
# Model: temporary buffers (global/src/ga_malloc.c)

Addresses are unbounded integers (no overflow of `size_t` or `Integer`). Of the contents of the memory
only what `ga_free` can read is kept: `hdr x` is the 8-byte integer last stored at `x`, or `none` if
any of its bytes has been written since by something else. `ALIGNMENT` is `sizeof(DoubleComplex)` = 16
(13), an `Integer` has 8 bytes.
-/

namespace GA.Model.Scratch
open Spec.Scratch

/-- The memory, the flag `ga_usesMA` (ga_malloc.c 17) and the stack of MA (handles, last one first).
The functions `ga_ext_alloc`, `ga_ext_free` (15-16) are the environment. -/
structure St where
  hdr : Int → Option Int
  usesMA : Bool
  stack : List Int

/-- `GA_Register_stack_memory` (ga_malloc.c 19-26); `ok`: neither pointer is null. -/
def register (s : St) (ok : Bool) : Option St :=
  if ok then some { s with usesMA := false } else none

/-- store of an `Integer` at `a` -/
def store (hdr : Int → Option Int) (a v : Int) : Int → Option Int :=
  fun x => if x = a then some v else if x < a + 8 ∧ a < x + 8 then none else hdr x

/-- bytes `a … a+len-1` are overwritten -/
def clobber (hdr : Int → Option Int) (a len : Int) : Int → Option Int :=
  fun x => if x < a + len ∧ a < x + 8 then none else hdr x

/-- Number of bytes asked for (ga_malloc.c 43-44, 52). With MA the same number of elements is asked
for (47), which MA turns into at least this many bytes. -/
def asked (n size : Int) : Int := (n + (2 * 16 : Int).tdiv size) * size

/-- The aligned address (ga_malloc.c 58-59). -/
def align (addr : Int) : Int :=
  if addr % 16 ≠ 0 then addr + (16 - addr % 16) else addr

/-- `ga_malloc` (ga_malloc.c 29-68) when the allocator answers with memory at `base`: bytes asked for,
buffer, new state. `none` is an error exit: element sizes that do not divide 16 (41-42), no memory
(63; a failing `MA_push_stack`, 48, is not among the answers). -/
def gaMalloc (s : St) (n size base handle : Int) : Option (Int × Int × St) :=
  if (16 : Int) % size ≠ 0 then none
  else
    let a := align base
    let h := if s.usesMA then handle else a - base
    if a = 0 then none
    else some (asked n size, a + 16,
      ⟨store s.hdr a h, s.usesMA, if s.usesMA then handle :: s.stack else s.stack⟩)

/-- `ga_free` (ga_malloc.c 70-80): what the allocator is given back, new state. `MA_pop_stack` fails
for a handle that is not the last one pushed (ma/ma.c 3104-3146); that is an error exit (77). -/
def gaFree (s : St) (ptr : Int) : Option (Int × St) :=
  match s.hdr (ptr - 16) with
  | none => none
  | some h =>
    if s.usesMA then
      match s.stack with
      | t :: rest => if t = h then some (h, { s with stack := rest }) else none
      | [] => none
    else some (ptr - 16 - h, s)

/-- one step of a history -/
def step (s : St) : Op → Ans × St
  | .alloc n size base handle =>
    match gaMalloc s n size base handle with
    | some (b, p, s') => (.got b p, s')
    | none => (.broken, s)
  | .write ptr off len => (.done, { s with hdr := clobber s.hdr (ptr + off) len })
  | .other a len => (.done, { s with hdr := clobber s.hdr a len })
  | .free ptr =>
    match gaFree s ptr with
    | some (id, s') => (.freed id, s')
    | none => (.broken, s)

/-- a history with its answers -/
def run : St → List Op → List (Op × Ans)
  | _, [] => []
  | s, o :: os => (o, (step s o).1) :: run (step s o).2 os

end GA.Model.Scratch
