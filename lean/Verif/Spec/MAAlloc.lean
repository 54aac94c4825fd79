/-
Specification for the MA allocator properties (C29, C30): what a safe layout of
the segment is, and which calls are covered.
-/
import Verif.Model.MAAlloc

namespace GA.MA

/-- The datatype tables are sane: every size is a power of two (as on LP64
machines), not larger than 2^16 bytes. -/
def EnvOK (e : Env) : Prop :=
  ∀ d, ∃ k : Nat, k ≤ 16 ∧ e.sz d = 2 ^ k

/-- The segment obtained in `MA_init`: 8-byte aligned bounds, below 2^62. -/
def SegOK (seg heap stack : Int) : Prop :=
  0 ≤ seg ∧ 0 ≤ heap ∧ 0 ≤ stack ∧ seg + (heap + stack) ≤ 2 ^ 62 ∧
  seg % 8 = 0 ∧ heap % 8 = 0 ∧ stack % 8 = 0

/-- A block is well laid out: the descriptor (80 bytes at its start), the guard
words (4 bytes before and after the client space) and the client space of
`nelem` elements are inside the block and do not overlap; the client space is
aligned for its datatype and the descriptor is aligned to 8 bytes. -/
def GoodBlk (e : Env) (b : Blk) : Prop :=
  b.addr + 80 ≤ b.client - 4 ∧
  0 ≤ b.nelem ∧
  b.client + b.nelem * e.sz b.dt + 4 ≤ b.addr + b.nbytes ∧
  (b.client - e.base b.dt) % e.sz b.dt = 0 ∧
  b.addr % 8 = 0

/-- Two blocks do not share a byte. -/
def DisjBlk (a b : Blk) : Prop :=
  a.addr + a.nbytes ≤ b.addr ∨ b.addr + b.nbytes ≤ a.addr

/-- The safe layouts. -/
structure Safe (e : Env) (s : St) : Prop where
  /-- heap and stack do not cross and stay inside the segment -/
  order : s.seg ≤ s.hp ∧ s.hp ≤ s.sp ∧ s.sp ≤ s.eos
  /-- heap blocks are in the heap region, stack blocks in the stack region -/
  inHeap : ∀ b ∈ s.hused, s.seg ≤ b.addr ∧ b.addr + b.nbytes ≤ s.hp
  inStack : ∀ b ∈ s.sused, s.sp ≤ b.addr ∧ b.addr + b.nbytes ≤ s.eos
  /-- live blocks are well laid out -/
  good : ∀ b ∈ s.hused ++ s.sused, GoodBlk e b
  /-- live blocks are pairwise disjoint -/
  disj : (s.hused ++ s.sused).Pairwise DisjBlk

/-- The request sizes for which `nelem * sizeof` does not overflow. -/
def ReqOK (e : Env) : Op → Prop
  | .alloc dt n => n * e.sz dt < 2 ^ 62
  | .push dt n => n * e.sz dt < 2 ^ 62
  | _ => True

/-- A call which gives back a piece of a block is made while the block's client
space is where a new allocation at its place would put it.  (This holds unless
the alignment was changed after the block had been allocated.) -/
def PieceOK (e : Env) (s : St) : Op → Prop
  | .piece a _ => ∀ b ∈ s.hused, b.addr = a → b.client = (ballocAfter e s.al a b.dt b.nelem).1
  | _ => True

/-- A history whose calls are all covered. -/
def Allowed (e : Env) (s : St) : List Op → Prop
  | [] => True
  | o :: t => ReqOK e o ∧ PieceOK e s o ∧ Allowed e (step e s o) t

/-- The bytes held by a list of blocks. -/
def bytes (l : List Blk) : Int := (l.map (·.nbytes)).sum

end GA.MA
