/-!
# Model: the local memory allocator of ARMCI (armci/src/memory/kr_malloc.c)

A header has the size of one unit, 64 bytes (kr_malloc.h 4-6, 11-22). Addresses are byte addresses, sizes are in units and include the header. The circular list
of free blocks is the list of its nodes in the order of the pointers `ptr`, starting at `freep`; a node is the address of its header and the `size` in it.
The list of blocks in use is the list of its nodes starting at `usedp`. Simplifications: sizes do not overflow, nobody else writes into headers, the checks of the
tokens in headers and `kr_malloc_verify` are left out. An error ends the program: `none`.
-/

namespace GA.Kr

/-- a block: the address of the header and its field `size` (kr_malloc.h 11-22) -/
structure Blk where
  addr : Nat
  size : Nat
deriving DecidableEq

/-- the header `p + p->s.size` points to -/
def Blk.fin (b : Blk) : Nat := b.addr + 64 * b.size

/-- the context (kr_malloc.h 26-50); `base` is the address of the header in it. `chunks` is not stored by the code: the memory obtained from the system. -/
structure Ctx where
  base : Nat
  nalloc : Nat
  maxNalloc : Nat
  free : List Blk
  used : List Blk
  total : Nat
  inuse : Int
  maxuse : Int
  nfrags : Int
  nchunk : Nat
  chunks : List Blk

/-- `kr_malloc_init` (kr_malloc.c 116-142): `freep` and `usedp` are null; the counters are set by the first call of `kr_malloc` -/
def init (base nalloc maxNalloc : Nat) : Ctx := ⟨base, nalloc, maxNalloc, [], [], 0, 0, 0, 0, 0, []⟩

/-- `p->s.ptr` for the first node `p` -/
def next : List Blk → Blk
  | [] => ⟨0, 0⟩
  | [p] => p
  | _ :: q :: _ => q

/-- `p = p->s.ptr` -/
def rot : List Blk → List Blk
  | [] => []
  | p :: r => r ++ [p]

/-- walk around the list until the node and its successor satisfy the condition; at most `k` nodes are looked at. The result is the list from that node. -/
def walk (ok : Blk → Blk → Bool) : Nat → List Blk → Option (List Blk)
  | 0, _ => none
  | _, [] => none
  | k + 1, p :: r => if ok p (next (p :: r)) then some (p :: r) else walk ok k (rot (p :: r))

/-- `nunits` (kr_malloc.c 177) -/
def nunits (nbytes : Nat) : Nat := (nbytes + 64 - 1) / 64 + 1

/-- take a block from the successor of the first node (kr_malloc.c 181-198): the list from that node, the block and the new fragments. In a list with one node
the node is its own successor and an exact fit stores its own pointer. -/
def take (nu : Nat) : List Blk → List Blk × Blk × Int
  | [] => ([], ⟨0, 0⟩, 0)
  | [p] =>
    if p.size = nu then ([p], p, 0)
    else ([⟨p.addr, p.size - nu⟩], ⟨p.addr + 64 * (p.size - nu), nu⟩, 1)
  | q :: p :: r =>
    if p.size = nu then (q :: r, p, 0)
    else (q :: ⟨p.addr, p.size - nu⟩ :: r, ⟨p.addr + 64 * (p.size - nu), nu⟩, 1)

/-- the condition that ends the search of `kr_free` (kr_malloc.c 258-260): either the condition of the loop is false or the `break` is reached -/
def place (b p q : Blk) : Bool :=
  (decide (p.addr < b.addr) && decide (b.addr < q.addr)) ||
    (decide (q.addr ≤ p.addr) && (decide (p.addr < b.addr) || decide (b.addr < q.addr)))

/-- join with the upper neighbour (kr_malloc.c 262-267): the list from `p` with the block behind `p`, and the lost fragments -/
def joinUp (b : Blk) : List Blk → List Blk × Int
  | [] => ([], 0)
  | [p] => if b.fin = p.addr then ([p, ⟨b.addr, b.size + p.size⟩], 1) else ([p, b], 0)
  | p :: q :: r => if b.fin = q.addr then (p :: ⟨b.addr, b.size + q.size⟩ :: r, 1) else (p :: b :: q :: r, 0)

/-- join with the lower neighbour (kr_malloc.c 269-274) -/
def joinLow : List Blk → List Blk × Int
  | p :: b :: r => if p.fin = b.addr then (⟨p.addr, p.size + b.size⟩ :: r, 1) else (p :: b :: r, 0)
  | l => (l, 0)

/-- return a block to the list of free blocks (kr_malloc.c 256-275); `none` if the search does not end -/
def insert (b : Blk) (l : List Blk) : Option (List Blk × Int) :=
  match walk (place b) l.length l with
  | none => none
  | some l' =>
    let u := joinUp b l'
    let v := joinLow u.1
    some (v.1, u.2 + v.2)

/-- `kr_free` (kr_malloc.c 217-278) with a pointer that is not null. The pointer is behind the header. -/
def kfree (ap : Nat) (c : Ctx) : Option Ctx :=
  match c.used.find? fun b => b.addr + 64 == ap with
  | none => none
  | some b =>
    match insert b c.free with
    | none => none
    | some (l, lost) => some { c with used := c.used.erase b, inuse := c.inuse - b.size, free := l, nfrags := c.nfrags - lost }

/-- the number of units `morecore` asks for (kr_malloc.c 83-85) -/
def coreUnits (nu nalloc : Nat) : Nat :=
  let m := 1024 * ((nu - 1) / 1024 + 1)
  if m < nalloc then nalloc else m

/-- results of `morecore` -/
inductive Core
  /-- a null pointer -/
  | null
  | ok (c : Ctx)
  /-- `kr_free` does not return -/
  | stuck

/-- `morecore` (kr_malloc.c 64-114). `sys` is the answer of the system to a request for a number of units, `none` for a null pointer. -/
def morecore (sys : Nat → Option Nat) (nu : Nat) (c : Ctx) : Core :=
  if c.maxNalloc ≤ c.total then .null
  else
    let m := coreUnits nu c.nalloc
    match sys m with
    | none => .null
    | some a =>
      let b : Blk := ⟨a, m⟩
      match kfree (a + 64) { c with total := c.total + m, nchunk := c.nchunk + 1, nfrags := c.nfrags + 1, inuse := c.inuse + m, used := b :: c.used,
                                    chunks := b :: c.chunks } with
      | none => .stuck
      | some c' => .ok c'

/-- the context at the start of the search: the first call initializes the list (kr_malloc.c 153-169) -/
def start (c : Ctx) : Ctx :=
  if c.free = [] then { c with free := [⟨c.base, 0⟩], total := 0, nchunk := 0, inuse := 0, nfrags := 0, maxuse := 0 } else c

/-- the block is found (kr_malloc.c 181-207) -/
def found (nu : Nat) (l : List Blk) (c : Ctx) : Ctx × Nat :=
  let t := take nu l
  ({ c with free := t.1, used := t.2.1 :: c.used, nfrags := c.nfrags + t.2.2, inuse := c.inuse + nu,
            maxuse := if c.maxuse < c.inuse + nu then c.inuse + nu else c.maxuse }, t.2.1.addr + 64)

/-- `p->s.size >= nunits` for the successor (kr_malloc.c 181) -/
def fits (nu : Nat) (_ q : Blk) : Bool := decide (nu ≤ q.size)

/-- `kr_malloc` (kr_malloc.c 145-214): the context and the pointer, `none` for a null pointer. The search goes around the list; if nothing fits, `morecore` is
called, and the search goes around again. `none` as result: it does not end. -/
def kmalloc (sys : Nat → Option Nat) (nbytes : Nat) (c0 : Ctx) : Option (Ctx × Option Nat) :=
  let c := start c0
  let nu := nunits nbytes
  match walk (fits nu) c.free.length c.free with
  | some l => let r := found nu l c; some (r.1, some r.2)
  | none =>
    match morecore sys nu c with
    | .null => some (c, none)
    | .stuck => none
    | .ok c' =>
      match walk (fits nu) c'.free.length c'.free with
      | some l => let r := found nu l c'; some (r.1, some r.2)
      | none => none

/-- `SHMEM_CTX_UNITS` (kr_malloc.h 55-56) with a context of `n` bytes -/
def ctxUnits (n : Nat) : Nat := (n + 8 + 64 - 1) / 64 + 1

/-- the part of `kr_malloc_shmem` (kr_malloc.c 356-441) that searches the list, if a block is found without `morecore`. The list has no node for `base`, and blocks
in use are not listed (`USEDP` is 0): `used` is not stored by the code here. -/
def shmTake (nbytes : Nat) (c : Ctx) : Option (Ctx × Nat) :=
  match walk (fits (nunits nbytes)) c.free.length c.free with
  | some l => some (found (nunits nbytes) l c)
  | none => none

/-- the first call of `kr_malloc_shmem` (kr_malloc.c 368-390, 484-500): `morecore` makes the chunk, without the units for the context, the only node -/
def shmFirst (sys : Nat → Option Nat) (ctxBytes nbytes : Nat) (c : Ctx) : Option (Ctx × Nat) :=
  let m := coreUnits (nunits nbytes) c.nalloc
  match sys m with
  | none => none
  | some a =>
    shmTake nbytes { c with free := [⟨a, m - ctxUnits ctxBytes⟩], total := m, nchunk := 1, nfrags := 1, chunks := [⟨a, m⟩] }

end GA.Kr
