import Mathlib.Data.List.Nodup

/-!
# Model: the pool of registered buffers

armci/src/devices/openib/cbuf.c. A buffer is its number in the order of allocation; the free list is kept in the buffers (`desc.next`). Allocation of memory does not fail. Each call
is made under the lock `cbuf_lock`, so calls do not overlap.
-/

namespace GA.Model.CBuf

/-- `desc.next` of the buffers, `free_cbuf_head`, `cbuf_n_allocated`, `num_free_cbuf` (cbuf.c 61-72) -/
structure St where
  next : Nat → Option Nat
  head : Option Nat
  total : Nat
  nfree : Int

/-- before `allocate_cbufs` -/
def empty : St := ⟨fun _ => none, none, 0, 0⟩

/-- `allocate_cbuf_region` (cbuf.c 126-218). For `ncbufs ≤ 0` the last buffer would lie outside the region (cbuf.c 200-205): `none`. -/
def allocate (st : St) (n : Nat) : Option St :=
  if n = 0 then none
  else some
    { next := fun x => if st.total ≤ x ∧ x < st.total + n then (if x + 1 < st.total + n then some (x + 1) else none) else st.next x
      head := some st.total
      total := st.total + n
      nfree := st.nfree + n }

/-- `get_cbuf` (cbuf.c 233-276); `pool` is `viadev_cbuf_secondary_pool_size`; `none`: null pointer dereferenced -/
def getBuf (pool : Nat) (st : St) : Option (Nat × St) :=
  (if st.head.isNone then allocate st pool else some st).bind fun st =>
    match st.head with
    | none => none
    | some v => some (v, { st with head := st.next v, nfree := st.nfree - 1 })

/-- `release_cbuf` (cbuf.c 282-303); `none`: failed assert -/
def release (st : St) (v : Nat) : Option St :=
  if st.head = some v then none
  else some { st with next := fun x => if x = v then st.head else st.next x, head := some v, nfree := st.nfree + 1 }

end GA.Model.CBuf
