import Verif.Model.OneSided

/-!
# Model: put with notification

`pnga_nbput_notify` and `pnga_nbwait_notify` (global/src/onesided.c 692-856), called by one process, for
REGULAR arrays. The element transfers of the two puts are pending until the network performs them; the
transport keeps the order of the transfers to one process and no other order (ARMCI's location
consistency; a transport that keeps less order than that is not modelled). Simplifications: memory and
buffers hold elements, not bytes, and incrementing every byte of an element is an arbitrary function
`bump`; a transfer takes its value from the buffer when it is started; the handles of the two puts (C31)
are represented by the slot of the table.
-/

namespace GA.Notify
open Model

/-- one pending element transfer: slot of its request, array, address, value -/
structure Write (V : Type) where
  slot : Nat
  key : Int × Addr
  val : V

/-- State of the calling process and of the arrays: `putn_handles[].orighdl` (onesided.c 700-708; 0 is
`NULL`), transfers started and not performed, memory of the arrays, memory of the caller. -/
structure St (V : Type) where
  slots : List Int
  pend : List (Write V)
  mem : Int × Addr → V
  ub : Int → V

/-- the table after `memset` (onesided.c 780-783), `HANDLES_OUTSTANDING` (697) entries -/
def init {V} (mem : Int × Addr → V) (ub : Int → V) : St V := ⟨List.replicate 100 0, [], mem, ub⟩

/-- `putn_find_empty_slot` (onesided.c 722-731) -/
def emptySlot (slots : List Int) : Option Nat := slots.findIdx? (· == 0)

/-- `putn_intersect_coords` (onesided.c 733-744) -/
def intersects : (lo hi e : List Int) → Bool
  | l :: lo, h :: hi, c :: e => if c < l ∨ c > h then false else intersects lo hi e
  | _, _, _ => true

/-- the loop of `putn_verify_element_in_buf` (onesided.c 763-764): leading dimensions are not multiplied up -/
def offLoop : (lo ld e : List Int) → Int
  | l :: lo, d :: ld, c :: e => (c - l) * d + offLoop lo ld e
  | _, _, _ => 0

/-- `eoff` of `putn_verify_element_in_buf` (onesided.c 746-767) -/
def putnOff (lo ld e : List Int) : Int :=
  match lo, e with
  | l :: lo, c :: e => (c - l) + offLoop lo ld e
  | _, _ => 0

/-- the transfers of a put, with values from the buffer (`ngai_put_common`, see `Model.ngaPut`) -/
def writes {V} (pos : Nat) (g : Int) (ts : List Xfer) (buf : Int → V) : List (Write V) :=
  ts.map fun t => ⟨pos, (g, t.addr), buf t.buf⟩

/-- `ldn` (onesided.c 776): 1 and then zeros -/
def ldn (n : Nat) : List Int := (1 :: List.replicate n 0).take (n - 1)

/-- Arguments of `pnga_nbput_notify`; `buf` and `bufn` are positions in the caller's memory, `h` is the
pointer to the handle; the environments are those of the two puts. -/
structure Args where
  E : Env
  E' : Env
  g : Int
  lo : List Int
  hi : List Int
  ld : List Int
  buf : Int
  gn : Int
  e : List Int
  bufn : Int
  h : Int

/-- `pnga_nbput_notify` (onesided.c 774-827). `none`: an error exit. -/
def nbputNotify {V} (arr : Int → RegArray) (bump : V → V) (a : Args) (s : St V) : Option (St V) :=
  (emptySlot s.slots).bind fun pos =>
    if a.g = a.gn ∧ intersects a.lo a.hi a.e then
      if putnOff a.lo a.ld a.e = a.bufn - a.buf then
        let copy := s.ub a.bufn
        let ub := upd s.ub a.bufn (bump copy)
        (regPieces a.E (arr a.g) a.lo a.hi).bind fun ps =>
          (regPieces a.E' (arr a.g) a.e a.e).map fun qs =>
            ⟨s.slots.set pos a.h,
             s.pend ++ (writes pos a.g (xfers a.E.isLocal a.lo a.ld ps) (fun i => ub (a.buf + i)) ++
               writes pos a.g (xfers a.E'.isLocal a.e (ldn a.e.length) qs) (fun _ => copy)),
             s.mem, ub⟩
      else none
    else
      (regPieces a.E (arr a.g) a.lo a.hi).bind fun ps =>
        (regPieces a.E' (arr a.gn) a.e a.e).map fun qs =>
          ⟨s.slots.set pos a.h,
           s.pend ++ (writes pos a.g (xfers a.E.isLocal a.lo a.ld ps) (fun i => s.ub (a.buf + i)) ++
             writes pos a.gn (xfers a.E'.isLocal a.e (ldn a.e.length) qs) (fun i => s.ub (a.bufn + i))),
           s.mem, s.ub⟩

/-- `pnga_nbwait_notify` (onesided.c 836-856): returns at once if no slot has the handle; `none` while
transfers of the slot are pending (the two `nga_wait_internal`). -/
def nbwaitNotify {V} (h : Int) (s : St V) : Option (St V) :=
  match s.slots.findIdx? (· == h) with
  | none => some s
  | some i => if s.pend.any (·.slot == i) then none else some { s with slots := s.slots.set i 0 }

/-- The network performs the `k`-th pending transfer; earlier transfers to the same process come first. -/
def deliver {V} (k : Nat) (s : St V) : Option (St V) :=
  match s.pend[k]? with
  | none => none
  | some w =>
    if (s.pend.take k).any (·.key.2.1 == w.key.2.1) then none
    else some { s with pend := s.pend.take k ++ s.pend.drop (k + 1), mem := upd s.mem w.key w.val }

/-- what can happen -/
inductive Ev where
  | put (a : Args)
  | wait (h : Int)
  | deliver (k : Nat)

/-- one event -/
def step {V} (arr : Int → RegArray) (bump : V → V) (s : St V) : Ev → Option (St V)
  | .put a => nbputNotify arr bump a s
  | .wait h => nbwaitNotify h s
  | .deliver k => deliver k s

/-- a history of calls and deliveries; `none` if an event is not possible -/
def run {V} (arr : Int → RegArray) (bump : V → V) : List Ev → St V → Option (St V)
  | [], s => some s
  | ev :: evs, s => (step arr bump s ev).bind (run arr bump evs)

end GA.Notify
