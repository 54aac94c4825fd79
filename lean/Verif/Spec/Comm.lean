/-!
# Specification vocabulary: one-sided operations and their traces

A run of the communication layer is observed as a trace: calls made by the processes, accesses to
the memory of the processes, and results handed back. Nothing here refers to messages, servers or
flags. Memory cells are addressed by the rank of the process that owns them and an address.
-/

namespace GA.Comex

/-- What happens to one cell: `put v` stores `v`, `add v` adds `v`; `unlock id` gives back mutex
`id` of the process (no cell changes). -/
inductive Upd where
  | put (v : Int)
  | add (v : Int)
  | unlock (id : Nat)
deriving Repr, DecidableEq

/-- An effect on address `addr` of process `rank`, caused by call number `tag` of its caller. -/
structure Fx where
  tag : Nat
  rank : Nat
  addr : Nat
  upd : Upd
deriving Repr, DecidableEq

/-- The calls of the one-sided interface (blocking or not). `get` may be completed later. -/
inductive Op where
  /-- store `vals` at `addr, addr+1, ...` of process `rank` -/
  | put (rank addr : Nat) (vals : List Int)
  /-- add `scale * vals[i]` to address `addr+i` -/
  | acc (rank addr : Nat) (scale : Int) (vals : List Int)
  /-- read `len` cells (non-blocking; see `wait`) -/
  | get (rank addr len : Nat)
  /-- atomic fetch-and-add, blocking -/
  | fadd (rank addr : Nat) (inc : Int)
  /-- atomic swap, blocking -/
  | swap (rank addr : Nat) (v : Int)
  /-- release mutex `id` of process `rank` -/
  | unlock (rank id : Nat)
  /-- fence towards one process -/
  | fence (rank : Nat)
  /-- fence towards all processes -/
  | fenceAll
  /-- fence towards all processes, then a barrier of all processes -/
  | barrier
  /-- wait for completion of call number `tag` of the same process -/
  | wait (tag : Nat)
deriving Repr, DecidableEq

/-- Observable events. -/
inductive Ev where
  /-- process `p` makes a call; the calls of a process are numbered 0, 1, 2, ... -/
  | call (p : Nat) (op : Op)
  /-- memory is changed on behalf of process `p` -/
  | mem (p : Nat) (fx : List Fx)
  /-- call `tag` of process `p` reads memory and finds `vals` -/
  | load (p tag rank addr : Nat) (vals : List Int)
  /-- an atomic operation of process `p` finds `old` and has effect `fx`, in one step -/
  | rmw (p : Nat) (old : Int) (fx : Fx)
  /-- call `tag` of process `p` is complete, with result `vals` -/
  | ret (p tag : Nat) (vals : List Int)
deriving Repr, DecidableEq

/-- effects of storing / adding a list of values -/
def putFx (tag rank : Nat) : (addr : Nat) → (vals : List Int) → List Fx
  | a, v :: vs => ⟨tag, rank, a, .put v⟩ :: putFx tag rank (a + 1) vs
  | _, [] => []

def accFx (tag rank : Nat) (scale : Int) : (addr : Nat) → (vals : List Int) → List Fx
  | a, v :: vs => ⟨tag, rank, a, .add (scale * v)⟩ :: accFx tag rank scale (a + 1) vs
  | _, [] => []

/-- All effects call number `tag` must have. -/
def opFx (tag : Nat) : Op → List Fx
  | .put r a vs => putFx tag r a vs
  | .acc r a sc vs => accFx tag r sc a vs
  | .fadd r a inc => [⟨tag, r, a, .add inc⟩]
  | .swap r a v => [⟨tag, r, a, .put v⟩]
  | .unlock r id => [⟨tag, r, 0, .unlock id⟩]
  | _ => []

/-- The calls of process `p` in a trace, in order. -/
def calls (p : Nat) : List Ev → List Op
  | .call q op :: tr => if q = p then op :: calls p tr else calls p tr
  | _ :: tr => calls p tr
  | [] => []

/-- effects of a list of calls numbered from `tag` -/
def opsFx : (tag : Nat) → List Op → List Fx
  | tag, op :: ops => opFx tag op ++ opsFx (tag + 1) ops
  | _, [] => []

/-- the calls before the `k`-th barrier (counted from 1) -/
def beforeBar : (k : Nat) → List Op → List Op
  | k + 1, .barrier :: ops => if k = 0 then [] else .barrier :: beforeBar k ops
  | k + 1, op :: ops => op :: beforeBar (k + 1) ops
  | _, _ => []

/-- number of barriers among the calls -/
def bars : List Op → Nat
  | .barrier :: ops => bars ops + 1
  | _ :: ops => bars ops
  | [] => 0

/-- Effects process `p` has asked for so far. -/
def issued (p : Nat) (tr : List Ev) : List Fx := opsFx 0 (calls p tr)

/-- All effects that have happened to memory so far, with the process that asked for them. -/
def applied : List Ev → List (Nat × Fx)
  | .mem p fx :: tr => fx.map (fun f => (p, f)) ++ applied tr
  | .rmw p _ fx :: tr => (p, fx) :: applied tr
  | _ :: tr => applied tr
  | [] => []

/-- those asked for by process `p` -/
def appliedBy (p : Nat) (tr : List Ev) : List Fx :=
  ((applied tr).filter (fun e => decide (e.1 = p))).map Prod.snd

/-- value of a cell after an effect on some cell -/
def Fx.on (f : Fx) (r a : Nat) (v : Int) : Int :=
  if f.rank = r ∧ f.addr = a then
    match f.upd with
    | .put w => w
    | .add w => v + w
    | .unlock _ => v
  else v

/-- Value of cell `a` of process `r` after the effects in `l`, starting with the contents `init`. -/
def cellVal (init : Nat → Nat → Int) (l : List (Nat × Fx)) (r a : Nat) : Int :=
  l.foldl (fun v e => e.2.on r a v) (init r a)

/-- the effect changes (or may change) cell `a` of process `r` -/
def Fx.touches (f : Fx) (r a : Nat) : Prop := f.rank = r ∧ f.addr = a ∧ ∀ id, f.upd ≠ .unlock id

/-- the increments of fetch-and-add calls on cell `a` of process `r`, in the order in which they
happened, with the calling process, the number of the call and the value found -/
def fetches (r a : Nat) : List Ev → List (Nat × Nat × Int × Int)
  | .rmw p old fx :: tr =>
    match fx.upd with
    | .add inc => if fx.rank = r ∧ fx.addr = a then (p, fx.tag, inc, old) :: fetches r a tr else fetches r a tr
    | _ => fetches r a tr
  | _ :: tr => fetches r a tr
  | [] => []

/-- Only fetch-and-add calls are made that change cell `a` of process `r`. -/
def OnlyFetchAdd (r a : Nat) (tr : List Ev) : Prop :=
  ∀ p, ∀ op ∈ calls p tr, ∀ tag, ∀ f ∈ opFx tag op, f.touches r a → ∃ inc, op = .fadd r a inc

end GA.Comex
