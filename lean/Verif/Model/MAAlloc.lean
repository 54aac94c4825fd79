/-
Model of the MA memory allocator: ma/ma.c.

One segment `[seg, eos)` holds a heap growing upwards (`[seg, hp)`) and a
stack growing downwards (`[sp, eos)`).  Every block starts with an allocation
descriptor (AD, 80 bytes on an LP64 machine), followed by a gap, a guard word
of 4 bytes, the client space, another guard word, and a gap.

Simplifications, for the whole file:
* Addresses and lengths are integers; all computations which the code does on
  `size_t`/`unsigned long` are reduced modulo 2^64 (`U`), as in C.
* The used and free lists are linked through the ADs in the segment.  They are
  modelled as lists of records.  (That the ADs are not overwritten by client
  data is what the theorems about this model say.)
* A handle is represented by the address of the AD it is mapped to; the handle
  table is modelled in `Model/MATable.lean`.  Operations are defined for every
  address, and fail if there is no live block with that address, as `mh2ad`
  does.
* The name, checksum and guard contents, statistics, tracing and error
  messages are left out, and so is the failure of the handle table to grow.
* `MA_init` is modelled by the initial state `init`.
-/
import Mathlib.Data.Int.Init

namespace GA.MA

/-- Reduction of a `size_t` computation modulo 2^64. -/
def U (x : Int) : Int := x % 18446744073709551616

/-- `sizeof(AD)` on LP64: ma.c 127-136 (Integer datatype, Integer nelem, name of
32 bytes, client_space, nbytes, next, checksum). -/
def adL : Int := 80
/-- `sizeof(Guard)`: ma.c 117 (unsigned int). -/
def guardL : Int := 4
/-- `ALIGNMENT`: ma.c 103. -/
def alignL : Int := 8
/-- `BLOCK_OVERHEAD_FIXED`: ma.c 88. -/
def overhead : Int := adL + 2 * guardL
/-- `MINBLOCKSIZE`: ma.c 106-107, with `mai_round` of ma.c 1767 (96 is a
multiple of 8 already). -/
def minBlock : Int := (alignL + overhead + (alignL - 1)) / alignL * alignL

/-- The tables `ma_sizeof` and `ma_base`: ma.c 240-259 and 196-215; they are constant
after `ma_preinitialize` (ma.c 1573-1640). -/
structure Env where
  sz : Nat → Int
  base : Nat → Int

/-- An allocation descriptor: ma.c 127-136.  `addr` is the address of the AD,
that is of the block. -/
structure Blk where
  addr : Int
  nbytes : Int
  client : Int
  dt : Nat
  nelem : Int
deriving DecidableEq, Repr

/-- The static variables of ma.c 282-290 and 327: `ma_segment`, `ma_partition`,
`ma_eos`, `ma_hp`, `ma_sp`, `ma_hfree`, `ma_hused`, `ma_sused`,
`ma_numalign`. -/
structure St where
  seg : Int
  part : Int
  eos : Int
  hp : Int
  sp : Int
  hfree : List Blk
  hused : List Blk
  sused : List Blk
  al : Nat
deriving Repr

/-- The shift of the client space to a 2^numalign boundary in `balloc_after`:
ma.c 659-688.  (`x & mask` is `x % 2^al`.) -/
def shiftUp (al : Nat) (sz c : Int) : Int :=
  if al > 0 then
    let d := c % 2 ^ al
    if d ≠ 0 then
      if (2 ^ al - d) % sz = 0 then U (c + (2 ^ al - d)) else c
    else c
  else c

/-- `balloc_after`: ma.c 617-724.  Returns `client_space` and `nbytes`. -/
def ballocAfter (e : Env) (al : Nat) (address : Int) (dt : Nat) (nelem : Int) : Int × Int :=
  let L := U (nelem * e.sz dt)
  let gap1 := U (e.base dt - address - adL - guardL) % e.sz dt
  let c := shiftUp al (e.sz dt) (U (address + adL + gap1 + guardL))
  let gap2 := U (address - c - L - guardL) % alignL
  (c, U (c + L + guardL + gap2 - address))

/-- The shift of the client space to a 2^numalign boundary in `balloc_before`:
ma.c 776-801. -/
def shiftDown (al : Nat) (sz c : Int) : Int :=
  if al > 0 then
    let d := c % 2 ^ al
    if d ≠ 0 then
      if d % sz = 0 then U (c - d) else c
    else c
  else c

/-- `balloc_before`: ma.c 733-834. -/
def ballocBefore (e : Env) (al : Nat) (address : Int) (dt : Nat) (nelem : Int) : Int × Int :=
  let L := U (nelem * e.sz dt)
  let gap2 := U (address - guardL - L - e.base dt) % e.sz dt
  let c := shiftDown al (e.sz dt) (U (address - gap2 - guardL - L))
  let gap1 := U (c - guardL - adL) % alignL
  (c, U (address - c + guardL + gap1 + adL))

/-- `list_insert_ordered` with `ad_lt`: ma.c 1244-1285. -/
def insOrd (b : Blk) : List Blk → List Blk
  | [] => [b]
  | x :: t => if b.addr < x.addr then b :: x :: t else x :: insOrd b t

/-- `list_coalesce`: ma.c 1089-1113; `a` is the block the trailing pointer
stands at. -/
def coalFrom (a : Blk) : List Blk → List Blk
  | [] => [a]
  | b :: t =>
    if a.addr + a.nbytes = b.addr then coalFrom { a with nbytes := a.nbytes + b.nbytes } t
    else a :: coalFrom b t

/-- `list_coalesce`: ma.c 1089-1113. -/
def coalesce : List Blk → List Blk
  | [] => []
  | a :: t => coalFrom a t

/-- Deletion of the descriptor at address `a`: `list_delete_one` with `ad_eq`,
ma.c 1122-1128 and 1187-1218. -/
def delAddr (a : Int) : List Blk → List Blk
  | [] => []
  | x :: t => if x.addr = a then t else x :: delAddr a t

/-- The descriptor at address `a` in a list: `list_member`, ma.c 1295-1309. -/
def findAddr (a : Int) : List Blk → Option Blk
  | [] => none
  | x :: t => if x.addr = a then some x else findAddr a t

/-- The rightmost used heap block: the loop of ma.c 848-853. -/
def rightmost : List Blk → Option Blk
  | [] => none
  | x :: t =>
    match rightmost t with
    | none => some x
    | some m => if x.addr ≥ m.addr then some x else some m

/-- `block_free_heap`: ma.c 842-888. -/
def blockFree (s : St) (b : Blk) : St :=
  match rightmost s.hused with
  | some m =>
    let kept := s.hfree.filter (fun x => ¬ x.addr > m.addr)
    { s with
      hp := m.addr + m.nbytes
      hfree := if b.addr < m.addr then coalesce (insOrd b kept) else kept }
  | none => { s with hp := s.seg, hfree := [] }

/-- `block_split`: ma.c 900-943.  The shortened block and the new block, if
one is created. -/
def blockSplit (b : Blk) (needed : Int) : Blk × Option Blk :=
  let extra := b.nbytes - needed
  if extra ≥ minBlock then
    ({ b with nbytes := needed },
     some { addr := b.addr + needed, nbytes := extra, client := 0, dt := 0, nelem := 0 })
  else (b, none)

/-- The first free block which is big enough: `list_delete_one` with
`ad_big_enough`, ma.c 1187-1218 and 504-528. -/
def firstFit (e : Env) (al : Nat) (dt : Nat) (n : Int) : List Blk → Option Blk
  | [] => none
  | x :: t =>
    if (ballocAfter e al x.addr dt n).2 ≤ x.nbytes then some x else firstFit e al dt n t

/-- `MA_allocate_heap`: ma.c 1949-2083. -/
def allocHeap (e : Env) (s : St) (dt : Nat) (n : Int) : St × Option Blk :=
  if n < 0 then (s, none)
  else
    match firstFit e s.al dt n s.hfree with
    | some x =>
      let r := ballocAfter e s.al x.addr dt n
      let sp := blockSplit x r.2
      let free1 := match sp.2 with
        | some x2 => insOrd x2 s.hfree
        | none => s.hfree
      let b : Blk := { sp.1 with client := r.1, dt := dt, nelem := n }
      let newHp := b.addr + b.nbytes
      ({ s with
          hfree := delAddr x.addr free1
          hused := b :: s.hused
          hp := if newHp > s.hp then newHp else s.hp }, some b)
    | none =>
      let r := ballocAfter e s.al s.hp dt n
      if U (s.hp + r.2) > s.sp then (s, none)
      else
        let b : Blk := { addr := s.hp, nbytes := r.2, client := r.1, dt := dt, nelem := n }
        let newHp := b.addr + b.nbytes
        ({ s with
            hused := b :: s.hused
            hp := if newHp > s.hp then newHp else s.hp }, some b)

/-- `MA_free_heap`: ma.c 2137-2184.  The Boolean is the return value. -/
def freeHeap (s : St) (a : Int) : St × Bool :=
  match findAddr a s.hused with
  | none => (s, false)
  | some b => (blockFree { s with hused := delAddr a s.hused } b, true)

/-- Replace the descriptor at address `a`. -/
def setAddr (a : Int) (b : Blk) : List Blk → List Blk
  | [] => []
  | x :: t => if x.addr = a then b :: t else x :: setAddr a b t

/-- `MA_free_heap_piece`: ma.c 2194-2272.  `n` is the number of elements given
back. -/
def freePiece (e : Env) (s : St) (a : Int) (n : Int) : St × Bool :=
  match findAddr a s.hused with
  | none => (s, false)
  | some b =>
    if n < 0 then (s, false)
    else if n ≥ b.nelem then freeHeap s a
    else
      let keep := b.nelem - n
      let need := (ballocAfter e s.al a b.dt keep).2
      let r := if need < b.nbytes then blockSplit b need else (b, none)
      let b1 : Blk := { r.1 with nelem := keep }
      let s1 := { s with hused := setAddr a b1 s.hused }
      match r.2 with
      | none => (s1, true)
      | some x => (blockFree s1 x, true)

/-- `MA_push_stack`: ma.c 3244-3362. -/
def pushStack (e : Env) (s : St) (dt : Nat) (n : Int) : St × Option Blk :=
  if n < 0 then (s, none)
  else
    let r := ballocBefore e s.al s.sp dt n
    if U (s.sp - s.hp) < r.2 then (s, none)
    else
      let b : Blk := { addr := s.sp - r.2, nbytes := r.2, client := r.1, dt := dt, nelem := n }
      ({ s with sused := b :: s.sused, sp := s.sp - r.2 }, some b)

/-- `MA_pop_stack`: ma.c 3104-3146; `mh2ad` with `BL_StackTop` (ma.c 1600-1735)
demands that the block is on the stack list and starts at `ma_sp`. -/
def popStack (s : St) (a : Int) : St × Bool :=
  match findAddr a s.sused with
  | none => (s, false)
  | some b =>
    if a ≠ s.sp then (s, false)
    else ({ s with sused := delAddr a s.sused, sp := s.sp + b.nbytes }, true)

/-- `MA_chop_stack`: ma.c 2094-2127. -/
def chopStack (s : St) (a : Int) : St × Bool :=
  match findAddr a s.sused with
  | none => (s, false)
  | some b =>
    ({ s with
        sused := s.sused.filter (fun x => ¬ x.addr ≤ a)
        sp := a + b.nbytes }, true)

/-- `MA_set_numalign`: ma.c 3429-3445. -/
def setNumalign (s : St) (v : Int) : St × Bool :=
  if v < 0 ∨ v > 30 then (s, false) else ({ s with al := v.toNat }, true)

/-- The state after `MA_init`: ma.c 2443-2570.  `heap` and `stack` are the
rounded sizes `heap_bytes` and `stack_bytes`. -/
def init (seg heap stack : Int) (al : Nat) : St :=
  { seg := seg, part := seg + heap, eos := seg + (heap + stack)
    hp := seg, sp := seg + (heap + stack)
    hfree := [], hused := [], sused := [], al := al }

/-- The calls of the interface which change the state. -/
inductive Op where
  | alloc (dt : Nat) (n : Int)
  | free (a : Int)
  | piece (a : Int) (n : Int)
  | push (dt : Nat) (n : Int)
  | pop (a : Int)
  | chop (a : Int)
  | numalign (v : Int)
deriving DecidableEq, Repr

/-- One call. -/
def step (e : Env) (s : St) : Op → St
  | .alloc dt n => (allocHeap e s dt n).1
  | .free a => (freeHeap s a).1
  | .piece a n => (freePiece e s a n).1
  | .push dt n => (pushStack e s dt n).1
  | .pop a => (popStack s a).1
  | .chop a => (chopStack s a).1
  | .numalign v => (setNumalign s v).1

/-- A history of calls. -/
def run (e : Env) (s : St) : List Op → St
  | [] => s
  | o :: t => run e (step e s o) t

/-- The loop of `ma_nelem`: ma.c 1549-1562. -/
def nelemLoop (e : Env) (al : Nat) (address length : Int) (dt : Nat) : Nat → Nat
  | 0 => 0
  | k + 1 =>
    if (ballocAfter e al address dt ((k + 1 : Nat) : Int)).2 > length then
      nelemLoop e al address length dt k
    else k + 1

/-- `ma_nelem`: ma.c 1531-1566. -/
def maNelem (e : Env) (al : Nat) (address length : Int) (dt : Nat) : Nat :=
  if length ≤ overhead then 0
  else nelemLoop e al address length dt ((length - overhead) / e.sz dt).toNat

/-- `MA_inquire_avail`: ma.c 2631-2677 (the same code as
`MA_inquire_stack_no_partition`, ma.c 3043-3090). -/
def inquireAvail (e : Env) (s : St) (dt : Nat) : Nat :=
  let gap := U (s.sp - s.hp)
  if gap > 0 then maNelem e s.al s.hp gap dt else 0

/-- `ma_max_heap_frag_nelem`: ma.c 1472-1521. -/
def fragNelem (e : Env) (s : St) (dt : Nat) (minNelem : Nat) : Nat :=
  let minBytes := U (minNelem * e.sz dt + overhead)
  s.hfree.foldl (fun m x =>
    if x.addr ≥ s.part then m
    else
      let nb := if x.addr + x.nbytes ≥ s.part then U (s.part - x.addr) else x.nbytes
      if nb ≥ minBytes then max m (maNelem e s.al x.addr nb dt) else m) 0

/-- `MA_inquire_heap_check_stack`: ma.c 2767-2820. -/
def inquireHeapCheckStack (e : Env) (s : St) (dt : Nat) : Nat :=
  let gap := min (U (s.part - s.hp)) (U (s.sp - s.hp))
  let g := if gap > 0 then maNelem e s.al s.hp gap dt else 0
  max g (fragNelem e s dt g)

/-- `MA_inquire_heap_no_partition`: ma.c 2838-2890. -/
def inquireHeapNoPartition (e : Env) (s : St) (dt : Nat) : Nat :=
  let gap := U (s.sp - s.hp)
  let g := if gap > 0 then maNelem e s.al s.hp gap dt else 0
  max g (fragNelem e s dt g)

/-- `MA_inquire_stack_check_heap`: ma.c 2974-3022. -/
def inquireStackCheckHeap (e : Env) (s : St) (dt : Nat) : Nat :=
  let gap := min (U (s.sp - s.part)) (U (s.sp - s.hp))
  if gap > 0 then maNelem e s.al s.part gap dt else 0

end GA.MA
