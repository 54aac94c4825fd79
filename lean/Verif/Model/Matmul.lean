import Verif.Model.LocalPatch
import Mathlib.Algebra.BigOperators.Group.List.Basic
import Mathlib.Algebra.Ring.Defs

/-!
# Model: matrix multiplication

`pnga_matmul` with its three algorithms, `gai_matmul_patch` and `pnga_matmul_basic` (global/src/matmul.c).

The model works on the contents of the matrices (`Mat`): `pnga_get` and `pnga_nbget` read the content (C08), `pnga_put` and
`pnga_acc` store and add element by element (C08, C10), `pnga_scale_patch` and `pnga_fill_patch` do what C35 says. The
arrays have two dimensions; `VECTORCHECK` for one dimension is not modelled. The result array is
neither operand. Local buffers are linear and hold their real leading dimensions. A non-blocking get marks the buffer as
pending until the wait; reading a pending buffer, or starting a get into one, has no execution (`none`), as
has a call of `pnga_error`.
-/

namespace GA.Matmul
open GA.Model

/-- content of a matrix, by subscripts from 1 -/
abbrev Mat (V : Type) := Int → Int → V

/-- a global array with two dimensions -/
structure Arr (V : Type) where
  d0 : Int
  d1 : Int
  f : Mat V

/-- `for (x = lo; x <= hi; x += step)` -/
def starts (lo hi step : Int) : List Int :=
  (List.range ((hi - lo + step) / step).toNat).map fun (t : Nat) => lo + (t : Int) * step

/-- end of a chunk: `GA_MIN(end, lo+chunk-1)` -/
def chunkEnd (e lo c : Int) : Int := min e (lo + c - 1)

/-- a local buffer -/
structure Buf (V : Type) where
  val : Int → V
  pending : Bool

section
variable {V : Type}

/-- `pnga_get` of `lo0..hi0 x lo1..hi1` into a buffer with leading dimension `ld`: the new content of the buffer. Bounds outside
the array are an error. -/
def getBuf (A : Arr V) (lo0 hi0 lo1 hi1 ld : Int) (old : Int → V) : Option (Int → V) :=
  if lo0 < 1 ∨ A.d0 < hi0 ∨ lo1 < 1 ∨ A.d1 < hi1 then none
  else some fun q =>
    if 0 ≤ q ∧ q % ld ≤ hi0 - lo0 ∧ q / ld ≤ hi1 - lo1 then A.f (lo0 + q % ld) (lo1 + q / ld) else old q

/-- `GET_BLOCK` (matmul.c 57-81) and the same statements in the other functions (396-432, 888-931, 1758-1806): the chunk
`r0..r1 x c0..c1` of `op(X)`, whose patch begins at `xilo`, `xjlo`. Result: buffer and leading dimension. -/
def getChunk (A : Arr V) (tr : Bool) (xilo xjlo r0 r1 c0 c1 : Int) (old : Int → V) : Option ((Int → V) × Int) :=
  if tr then (getBuf A (xjlo + c0) (xjlo + c1) (xilo + r0) (xilo + r1) (c1 - c0 + 1) old).map (·, c1 - c0 + 1)
  else (getBuf A (xilo + r0) (xilo + r1) (xjlo + c0) (xjlo + c1) (r1 - r0 + 1) old).map (·, r1 - r0 + 1)

/-- `pnga_nbget` into a buffer -/
def nbGet (b : Buf V) (g : (Int → V) → Option ((Int → V) × Int)) : Option (Buf V × Int) :=
  if b.pending then none else (g b.val).map fun r => (⟨r.1, true⟩, r.2)

/-- `pnga_nbwait` -/
def nbWait (b : Buf V) : Buf V := { b with pending := false }

/-- one element stored in (`put`) or added to the result array -/
structure CAct (V : Type) where
  put : Bool
  i : Int
  j : Int
  v : V

/-- effect of a store or accumulate on the content -/
def app [Add V] (C : Mat V) (a : CAct V) : Mat V := fun i j =>
  if i = a.i ∧ j = a.j then (if a.put then a.v else C i j + a.v) else C i j

/-- `pnga_put` or `pnga_acc` (with factor 1) of `i0..i1 x j0..j1` from the buffer `c` with leading dimension `cdim` into an array
with extents `d0`, `d1` -/
def emit (put : Bool) (d0 d1 i0 i1 j0 j1 : Int) (c : Int → V) (cdim : Int) : Option (List (CAct V)) :=
  if i0 < 1 ∨ d0 < i1 ∨ j0 < 1 ∨ d1 < j1 then none
  else some ((starts j0 j1 1).flatMap fun y => (starts i0 i1 1).map fun x => ⟨put, x, y, c (x - i0 + cdim * (y - j0))⟩)

/-- `GAI_DGEMM` (matmul.c 295-341): the BLAS function with the factor zero for the old content of `c` -/
def gemm [Semiring V] (ta tb : Bool) (kdim : Int) (alpha : V) (a : Int → V) (adim : Int) (b : Int → V) (bdim cdim : Int) :
    Int → V := fun q =>
  alpha * ((List.range kdim.toNat).map fun (l : Nat) =>
    (if ta then a (l + adim * (q % cdim)) else a (q % cdim + adim * l)) *
    (if tb then b (q / cdim + bdim * l) else b (l + bdim * (q / cdim)))).sum

/-- run steps one after the other and collect their results -/
def seqRun {σ τ α : Type} (step : σ → τ → Option (List α × σ)) : σ → List τ → Option (List α × σ)
  | st, [] => some ([], st)
  | st, t :: ts =>
    match step st t with
    | none => none
    | some (out, st') => (seqRun step st' ts).map fun r => (out ++ r.1, r.2)

/-- All processes run at once: `s` is any interleaving of their stores and accumulates. -/
def Exec [Add V] (n : Nat) (acts : Nat → Option (List (CAct V))) (C C' : Mat V) : Prop :=
  ∃ s : List (Nat × CAct V), (∀ e ∈ s, e.1 < n) ∧
    (∀ p, p < n → acts p = some ((s.filter fun e => e.1 == p).map (·.2))) ∧ C' = (s.map (·.2)).foldl app C

/-- arguments of a multiplication -/
structure Call (V : Type) where
  ta : Bool
  tb : Bool
  alpha : V
  beta : V
  ailo : Int
  aihi : Int
  ajlo : Int
  ajhi : Int
  bilo : Int
  bihi : Int
  bjlo : Int
  bjhi : Int
  cilo : Int
  cihi : Int
  cjlo : Int
  cjhi : Int

/-- chunk sizes -/
structure Chunks where
  i : Int
  j : Int
  k : Int

/-! ## one node -/

/-- local variables of `gai_matmul_shmem` -/
structure ShSt (V : Type) where
  a : Int → V
  b : Int → V
  bdim : Int
  newB : Bool
  doPut : Bool

section
variable [Semiring V]

/-- body of the loop over `ilo` (matmul.c 403-478) -/
def shmemI (c : Call V) (A B : Arr V) (d0 d1 iend jhi khi : Int) (ch : Chunks) (jlo klo : Int) (st : ShSt V) (ilo : Int) :
    Option (List (CAct V) × ShSt V) :=
  let ihi := chunkEnd iend ilo ch.i
  match getChunk A c.ta c.ailo c.ajlo ilo ihi klo khi st.a with
  | none => none
  | some (a, adim) =>
    match (if st.newB then getChunk B c.tb c.bilo c.bjlo klo khi jlo jhi st.b else some (st.b, st.bdim)) with
    | none => none
    | some (b, bdim) =>
      let cdim := ihi - ilo + 1
      (emit st.doPut d0 d1 (c.cilo + ilo) (c.cilo + ihi) (c.cjlo + jlo) (c.cjlo + jhi)
        (gemm c.ta c.tb (khi - klo + 1) c.alpha a adim b bdim cdim) cdim).map
        (·, { st with a := a, b := b, bdim := bdim, newB := false })

/-- body of the loop over `klo` (matmul.c 396-480) -/
def shmemK (c : Call V) (A B : Arr V) (d0 d1 istart iend jhi kend : Int) (ch : Chunks) (jlo : Int) (st : ShSt V) (klo : Int) :
    Option (List (CAct V) × ShSt V) :=
  (seqRun (shmemI c A B d0 d1 iend jhi (chunkEnd kend klo ch.k) ch jlo klo) { st with newB := true }
    (starts istart iend ch.i)).map fun r => (r.1, { r.2 with doPut := false })

/-- body of the loop over `jlo` (matmul.c 388-481); `scaled`: `need_scaling` -/
def shmemJ (c : Call V) (A B : Arr V) (d0 d1 istart iend jend kend : Int) (ch : Chunks) (scaled : Bool) (st : ShSt V) (jlo : Int) :
    Option (List (CAct V) × ShSt V) :=
  seqRun (shmemK c A B d0 d1 istart iend (chunkEnd jend jlo ch.j) kend ch jlo)
    { st with doPut := if scaled then st.doPut else true } (starts 0 kend ch.k)

/-- `gai_matmul_shmem` (matmul.c 345-482) on the process with the block `l0..h0 x l1..h1` of the result. `DIRECT_ACCESS_OPT_FLAG` is
off on one node (1401), so `single_task_flag` is never set. `old`: the buffers before the call. -/
def shmem (c : Call V) (A B : Arr V) (d0 d1 l0 h0 l1 h1 : Int) (ch : Chunks) (scaled : Bool) (old : Int → V) :
    Option (List (CAct V)) :=
  (seqRun (shmemJ c A B d0 d1 (l0 - 1) (h0 - 1) (h1 - 1) (c.ajhi - c.ajlo) ch scaled) ⟨old, old, 0, true, false⟩
    (starts (l1 - 1) (h1 - 1) ch.j)).map (·.1)

/-! ## several nodes, irregular -/

/-- a started task: `taskListC`, `idim_prev`, ... -/
structure Prev where
  ilo : Int
  ihi : Int
  jlo : Int
  jhi : Int
  kdim : Int
  adim : Int
  bdim : Int
  cdim : Int
  chunkB : Bool

/-- local variables of `gai_matmul_irreg` -/
structure IrSt (V : Type) where
  ijk : Nat
  newB : Bool
  bdim : Int
  shA : Bool
  shB : Bool
  bufA : Bool → Buf V
  bufB : Bool → Buf V
  b : Bool
  prev : Option Prev

/-- replace one of the two buffers -/
def set2 {α : Type} (f : Bool → α) (s : Bool) (x : α) : Bool → α := fun t => if t = s then x else f t

/-- compute the task that was started before (matmul.c 933-977, 1011-1053) -/
def irFlush (c : Call V) (d0 d1 : Int) (st : IrSt V) : Option (List (CAct V) × IrSt V) :=
  match st.prev with
  | none => some ([], st)
  | some t =>
    let a := nbWait (st.bufA (!st.shA))
    let bp := if t.chunkB then !st.shB else st.b
    let b := if t.chunkB then nbWait (st.bufB (!st.shB)) else st.bufB st.b
    if b.pending then none
    else
      (emit false d0 d1 (c.cilo + t.ilo) (c.cilo + t.ihi) (c.cjlo + t.jlo) (c.cjlo + t.jhi)
        (gemm c.ta c.tb t.kdim c.alpha a.val t.adim b.val t.bdim t.cdim) t.cdim).map
        (·, { st with bufA := set2 st.bufA (!st.shA) a, bufB := set2 st.bufB bp b, b := bp })

/-- body of the loop over `ilo` (matmul.c 882-1006). `nproc`: `pnga_nnodes()`, `me`: rank in the group of the arrays. -/
def irI (c : Call V) (A B : Arr V) (d0 d1 m jhi khi : Int) (ch : Chunks) (nproc me : Nat) (jlo klo : Int) (st : IrSt V)
    (ilo : Int) : Option (List (CAct V) × IrSt V) :=
  if st.ijk % nproc = me then
    let ihi := chunkEnd (m - 1) ilo ch.i
    match nbGet (st.bufA st.shA) (getChunk A c.ta c.ailo c.ajlo ilo ihi klo khi) with
    | none => none
    | some (ba, adim) =>
      match (if st.newB then nbGet (st.bufB st.shB) (getChunk B c.tb c.bilo c.bjlo klo khi jlo jhi)
          else some (st.bufB st.shB, st.bdim)) with
      | none => none
      | some (bb, bdim) =>
        match irFlush c d0 d1 { st with bufA := set2 st.bufA st.shA ba, bufB := set2 st.bufB st.shB bb } with
        | none => none
        | some (out, st) =>
          some (out, { st with
            ijk := st.ijk + 1
            prev := some ⟨ilo, ihi, jlo, jhi, khi - klo + 1, adim, bdim, ihi - ilo + 1, st.newB⟩
            bdim := bdim
            shA := !st.shA
            shB := if st.newB then !st.shB else st.shB
            newB := false })
  else some ([], { st with ijk := st.ijk + 1 })

/-- body of the loop over `klo` (matmul.c 874-1007) -/
def irK (c : Call V) (A B : Arr V) (d0 d1 m jhi k : Int) (ch : Chunks) (nproc me : Nat) (jlo : Int) (st : IrSt V) (klo : Int) :
    Option (List (CAct V) × IrSt V) :=
  seqRun (irI c A B d0 d1 m jhi (chunkEnd (k - 1) klo ch.k) ch nproc me jlo klo) { st with newB := true } (starts 0 (m - 1) ch.i)

/-- body of the loop over `jlo` (matmul.c 870-1008) -/
def irJ (c : Call V) (A B : Arr V) (d0 d1 m n k : Int) (ch : Chunks) (nproc me : Nat) (st : IrSt V) (jlo : Int) :
    Option (List (CAct V) × IrSt V) :=
  seqRun (irK c A B d0 d1 m (chunkEnd (n - 1) jlo ch.j) k ch nproc me jlo) st (starts 0 (k - 1) ch.k)

/-- `gai_matmul_irreg` (matmul.c 821-1055) after the call of `pnga_fill_patch` -/
def irreg (c : Call V) (A B : Arr V) (d0 d1 : Int) (ch : Chunks) (nproc me : Nat) (old : Int → V) : Option (List (CAct V)) :=
  let m := c.aihi - c.ailo + 1
  let n := c.bjhi - c.bjlo + 1
  let k := c.ajhi - c.ajlo + 1
  match seqRun (irJ c A B d0 d1 m n k ch nproc me)
      ⟨0, true, 0, false, false, fun _ => ⟨old, false⟩, fun _ => ⟨old, false⟩, false, none⟩ (starts 0 (n - 1) ch.j) with
  | none => none
  | some (out, st) => (irFlush c d0 d1 st).map fun r => out ++ r.1

/-! ## several nodes, regular -/

/-- entry of `taskListA` -/
structure ATask where
  ilo : Int
  ihi : Int
  klo : Int
  khi : Int
  put : Bool
  bid : Nat
deriving Inhabited

/-- entry of `taskListB` -/
structure BTask where
  klo : Int
  khi : Int
  jlo : Int
  jhi : Int
deriving Inhabited

/-- `state` of `gai_get_task_list`: `none` for `state->lo[0] == -1` -/
structure TState where
  jlo : Int
  klo : Int
  put : Bool

/-- one pass of the loop over `klo` for the chunks `ks`: `do_put` is cleared after the first -/
def pairsK (jlo : Int) (put : Bool) : List Int → List TState
  | [] => []
  | k :: ks => ⟨jlo, k, put⟩ :: ks.map fun k => ⟨jlo, k, false⟩

/-- the pairs of chunks that the two outer loops of `gai_get_task_list` visit, starting at the saved state (matmul.c
92-110) -/
def pairs (jstart jend kend J K : Int) (st : Option TState) : List TState :=
  match starts (match st with | some s => s.jlo | none => jstart) jend J with
  | [] => []
  | j :: js =>
    (match st with
      | some s => pairsK j s.put (starts s.klo kend K)
      | none => pairsK j true (starts 0 kend K)) ++
    js.flatMap fun j => pairsK j true (starts 0 kend K)

/-- the tasks of one pair (matmul.c 128-149) -/
def pairTasks (istart iend kend I K : Int) (s : TState) (jj : Nat) : List ATask :=
  (starts istart iend I).map fun i => ⟨i, chunkEnd iend i I, s.klo, chunkEnd kend s.klo K, s.put, jj⟩

/-- `MAX_CHUNKS` (matmul.h 24) -/
def maxChunks : Nat := 1024

/-- the loops of `gai_get_task_list` (matmul.c 93-157): the lists and the saved state (`more_chunks_left`). `ii`, `jj`: lengths of the
lists. -/
def taskLoop (istart iend jend kend : Int) (ch : Chunks) (nloops : Nat) : (ii jj : Nat) → List TState →
    List ATask × List BTask × Option TState
  | _, _, [] => ([], [], none)
  | ii, jj, s :: ss =>
    if ii + nloops ≥ maxChunks then ([], [], some s)
    else
      let ts := pairTasks istart iend kend ch.i ch.k s jj
      let r := taskLoop istart iend jend kend ch nloops (ii + ts.length) (jj + 1) ss
      (ts ++ r.1, ⟨s.klo, chunkEnd kend s.klo ch.k, s.jlo, chunkEnd jend s.jlo ch.j⟩ :: r.2.1, r.2.2)

/-- `gai_get_task_list` (matmul.c 82-178). `CYCLIC_DISTR_OPT_FLAG` is off (1317), so the part after the loops does nothing. -/
def getTaskList (istart iend jstart jend kend : Int) (ch : Chunks) (st : Option TState) :
    Option (List ATask × List BTask × Option TState) :=
  let nloops := ((iend - istart + 1) / ch.i + if (iend - istart + 1) % ch.i ≠ 0 then 1 else 0).toNat
  if nloops > maxChunks then none
  else some (taskLoop istart iend jend kend ch nloops 0 0 (pairs jstart jend kend ch.j ch.k st))

/-- local variables of `gai_matmul_regular` -/
structure RgSt (V : Type) where
  shA : Bool
  shB : Bool
  bufA : Bool → Buf V
  bufB : Bool → Buf V
  b : Bool
  adim : Int
  bdimNext : Int
  newB : Bool
  nextB : Nat

/-- the main loop (matmul.c 725-808), one task after the other; `scaled`: `need_scaling` -/
def regLoop (c : Call V) (A B : Arr V) (d0 d1 : Int) (tb : List BTask) (scaled : Bool) : List ATask → RgSt V →
    Option (List (CAct V))
  | [], _ => some []
  | t :: rest, st =>
    let u := tb.getD t.bid default
    let cdim := t.ihi - t.ilo + 1
    let bdim := st.bdimNext
    let put := if scaled then false else t.put
    -- wait for the current blocks
    let bufA := set2 st.bufA st.shA (nbWait (st.bufA st.shA))
    let b := if st.newB then st.shB else st.b
    let bufB := if st.newB then set2 st.bufB st.shB (nbWait (st.bufB st.shB)) else st.bufB
    -- start the next gets
    let next : Option (RgSt V) :=
      match rest with
      | [] => some { st with bufA := bufA, bufB := bufB, b := b, newB := false || (t.bid != st.nextB) }
      | t' :: _ =>
        match nbGet (bufA (!st.shA)) (getChunk A c.ta c.ailo c.ajlo t'.ilo t'.ihi t'.klo t'.khi) with
        | none => none
        | some (ba, adimNext) =>
          if t.bid ≠ t'.bid then
            let u' := tb.getD t'.bid default
            match nbGet (bufB (!st.shB)) (getChunk B c.tb c.bilo c.bjlo u'.klo u'.khi u'.jlo u'.jhi) with
            | none => none
            | some (bb, bdimNext) => some { st with
                bufA := set2 bufA (!st.shA) ba, bufB := set2 bufB (!st.shB) bb, shB := !st.shB, b := b
                newB := true, nextB := t'.bid, adim := adimNext, bdimNext := bdimNext }
          else some { st with
            bufA := set2 bufA (!st.shA) ba, bufB := bufB, b := b, newB := false, nextB := t'.bid, adim := adimNext }
    match next with
    | none => none
    | some st' =>
      if (bufA st.shA).pending || (st'.bufB b).pending then none
      else
        match emit put d0 d1 (c.cilo + t.ilo) (c.cilo + t.ihi) (c.cjlo + u.jlo) (c.cjlo + u.jhi)
            (gemm c.ta c.tb (t.khi - t.klo + 1) c.alpha (bufA st.shA).val st.adim (st'.bufB b).val bdim cdim) cdim with
        | none => none
        | some out => (regLoop c A B d0 d1 tb scaled rest { st' with shA := !st.shA }).map (out ++ ·)

/-- one pass of the `do ... while` loop (matmul.c 651-809) with a finished task list -/
def regPass (c : Call V) (A B : Arr V) (d0 d1 : Int) (scaled : Bool) (ta : List ATask) (tb : List BTask) (old : Int → V) :
    Option (List (CAct V)) :=
  match ta with
  | [] => some []
  | t :: _ =>
    let u := tb.getD t.bid default
    match nbGet ⟨old, false⟩ (getChunk A c.ta c.ailo c.ajlo t.ilo t.ihi t.klo t.khi),
        nbGet ⟨old, false⟩ (getChunk B c.tb c.bilo c.bjlo u.klo u.khi u.jlo u.jhi) with
    | some (ba, adim), some (bb, bdim) =>
      regLoop c A B d0 d1 tb scaled ta
        ⟨false, false, set2 (fun _ => ⟨old, false⟩) false ba, set2 (fun _ => ⟨old, false⟩) false bb, false, adim, bdim, true, t.bid⟩
    | _, _ => none

/-- the `do ... while(chunks_left)` loop, at most `fuel` passes. `single_task_flag` is only set if `chunks_left` and one task only,
which needs `MAX_CHUNKS = 2`. -/
def regDo (c : Call V) (A B : Arr V) (d0 d1 istart iend jstart jend kend : Int) (ch : Chunks) (scaled : Bool) (old : Int → V) :
    Nat → Option TState → Option (List (CAct V))
  | 0, _ => none
  | fuel + 1, st =>
    match getTaskList istart iend jstart jend kend ch st with
    | none => none
    | some (ta, tb, more) =>
      match regPass c A B d0 d1 scaled ta tb old with
      | none => none
      | some out =>
        match more with
        | none => some out
        | some s => (regDo c A B d0 d1 istart iend jstart jend kend ch scaled old fuel (some s)).map (out ++ ·)

/-- `gai_matmul_regular` (matmul.c 569-813) on the process with the block `l0..h0 x l1..h1` of the result. The result array
is not block-cyclic (1410-1436), so the local iterator gives this block, or none if it is empty. -/
def regular (c : Call V) (A B : Arr V) (d0 d1 l0 h0 l1 h1 : Int) (ch : Chunks) (scaled : Bool) (old : Int → V) (fuel : Nat) :
    Option (List (CAct V)) :=
  if l0 > h0 ∨ l1 > h1 then some []
  else
    let lo0 := max c.cilo l0
    let hi0 := min c.cihi h0
    let lo1 := max c.cjlo l1
    let hi1 := min c.cjhi h1
    if lo0 > hi0 ∨ lo1 > hi1 then some []
    else regDo c A B d0 d1 (lo0 - 1) (hi0 - 1) (lo1 - 1) (hi1 - 1) (c.ajhi - c.ajlo + 1 - 1) ch scaled old fuel none

/-! ## choice of the algorithm -/

/-- what the call finds besides its arguments -/
structure MEnv where
  /-- `GA_Cluster_nnodes() > 1` -/
  nodes : Bool
  /-- one of the arrays has an irregular distribution, or the call comes from `GA_Matmul_patch` -/
  irreg : Bool
  /-- the chunks of a process have a bad aspect ratio (1478-1486) -/
  aspect : Bool
  /-- chunk sizes of each process: `gai_get_chunk_size` (181-266) returns at least 1 for each (257-259) and, if the irregular
  algorithm is taken, values that depend only on `m`, `n`, `k` and the smallest free memory of all processes -/
  chunk : Nat → Chunks
  /-- processes of the group of the arrays -/
  procs : Nat
  /-- `pnga_nnodes()` -/
  nnodes : Nat

/-- scale the patch of the result (C35) -/
def scalePatch (c : Call V) (C : Mat V) : Mat V := fun i j =>
  if (c.cilo ≤ i ∧ i ≤ c.cihi) ∧ c.cjlo ≤ j ∧ j ≤ c.cjhi then C i j * c.beta else C i j

/-- fill the patch of the result with `beta` (C35) -/
def fillPatch (c : Call V) (C : Mat V) : Mat V := fun i j =>
  if (c.cilo ≤ i ∧ i ≤ c.cihi) ∧ c.cjlo ≤ j ∧ j ≤ c.cjhi then c.beta else C i j

/-- the test of one patch (matmul.c 1360-1373) -/
def patchBad (tr : Bool) (d0 d1 ilo ihi jlo jhi : Int) : Bool :=
  if tr then decide (ilo ≤ 0 ∨ d1 < ihi ∨ jlo ≤ 0 ∨ d0 < jhi)
  else decide (ilo ≤ 0 ∨ d0 < ihi ∨ jlo ≤ 0 ∨ d1 < jhi)

/-- the bounds of a block of a two-dimensional array: `loC`, `hiC` -/
def blk2 (b : List Int × List Int) : Int × Int × Int × Int :=
  (b.1.getD 0 0, b.2.getD 0 0, b.1.getD 1 0, b.2.getD 1 0)

/-- `pnga_matmul` (matmul.c 1290-1575) with a REGULAR result array `C` on `e.procs` processes, `old`: the buffers of each process.
Simplification: group and type mismatches, which are errors, are left out. -/
def matmul [DecidableEq V] (e : MEnv) (c : Call V) (A B : Arr V) (C : RegArray) (old : Nat → Int → V) (f f' : Mat V) : Prop :=
  let d0 := C.dims.getD 0 0
  let d1 := C.dims.getD 1 0
  let m := c.aihi - c.ailo + 1
  let n := c.bjhi - c.bjlo + 1
  let k := c.ajhi - c.ajlo + 1
  if patchBad c.ta A.d0 A.d1 c.ailo c.aihi c.ajlo c.ajhi || patchBad c.tb B.d0 B.d1 c.bilo c.bihi c.bjlo c.bjhi ||
      patchBad false d0 d1 c.cilo c.cihi c.cjlo c.cjhi then False
  else if c.cihi - c.cilo + 1 ≠ m ∨ c.cjhi - c.cjlo + 1 ≠ n ∨ c.bihi - c.bilo + 1 ≠ k then False
  else
    let irregular0 := e.irreg || decide (d0 ≠ m ∨ d1 ≠ n)
    let useNB := irregular0 || e.nodes
    let irregular := irregular0 || e.aspect
    let scaled := decide (c.beta ≠ 0)
    let f1 := if scaled then scalePatch c f else f
    if !useNB then
      Exec e.procs (fun p => let b := blk2 (owns C p)
        shmem c A B d0 d1 b.1 b.2.1 b.2.2.1 b.2.2.2 (e.chunk p) scaled (old p)) f1 f'
    else if irregular then
      Exec e.procs (fun p => irreg c A B d0 d1 (e.chunk p) e.nnodes p (old p)) (if scaled then f1 else fillPatch c f1) f'
    else
      ∃ fuel, Exec e.procs (fun p => let b := blk2 (owns C p)
        regular c A B d0 d1 b.1 b.2.1 b.2.2.1 b.2.2.2 (e.chunk p) scaled (old p) fuel) f1 f'

/-! ## `gai_matmul_patch` -/

/-- local variables of `gai_matmul_patch` -/
structure PaSt (V : Type) where
  ijk : Nat
  newB : Bool
  a : Int → V
  b : Int → V
  bdim : Int

/-- body of the loop over `ilo` (matmul.c 2248-2352) -/
def paI (c : Call V) (A B : Arr V) (d0 d1 m jhi khi : Int) (ch : Chunks) (nproc me : Nat) (jlo klo : Int) (st : PaSt V)
    (ilo : Int) : Option (List (CAct V) × PaSt V) :=
  if st.ijk % nproc = me then
    let ihi := chunkEnd (m - 1) ilo ch.i
    match getChunk A c.ta c.ailo c.ajlo ilo ihi klo khi st.a with
    | none => none
    | some (a, adim) =>
      match (if st.newB then getChunk B c.tb c.bilo c.bjlo klo khi jlo jhi st.b else some (st.b, st.bdim)) with
      | none => none
      | some (b, bdim) =>
        let cdim := ihi - ilo + 1
        (emit false d0 d1 (c.cilo + ilo) (c.cilo + ihi) (c.cjlo + jlo) (c.cjlo + jhi)
          (gemm c.ta c.tb (khi - klo + 1) c.alpha a adim b bdim cdim) cdim).map
          (·, ⟨st.ijk + 1, false, a, b, bdim⟩)
  else some ([], { st with ijk := st.ijk + 1 })

/-- body of the loop over `klo` (matmul.c 2242-2353) -/
def paK (c : Call V) (A B : Arr V) (d0 d1 m jhi k : Int) (ch : Chunks) (nproc me : Nat) (jlo : Int) (st : PaSt V) (klo : Int) :
    Option (List (CAct V) × PaSt V) :=
  seqRun (paI c A B d0 d1 m jhi (chunkEnd (k - 1) klo ch.k) ch nproc me jlo klo) { st with newB := true } (starts 0 (m - 1) ch.i)

/-- body of the loop over `jlo` (matmul.c 2238-2354) -/
def paJ (c : Call V) (A B : Arr V) (d0 d1 m n k : Int) (ch : Chunks) (nproc me : Nat) (st : PaSt V) (jlo : Int) :
    Option (List (CAct V) × PaSt V) :=
  seqRun (paK c A B d0 d1 m (chunkEnd (n - 1) jlo ch.j) k ch nproc me jlo) st (starts 0 (k - 1) ch.k)

/-- `gai_matmul_patch` (matmul.c 2024-2361) for REGULAR arrays with two dimensions: `gai_setup_2d_patch` selects dimensions 0 and 1 for
every patch. The three buffers are set to zero or read before use; the BLAS function adds to the zeroed buffer `c`. All
processes use the same chunk sizes. -/
def matmulPatch [DecidableEq V] (nproc : Nat) (ch : Chunks) (c : Call V) (A B : Arr V) (d0 d1 : Int) (old : Nat → Int → V)
    (f f' : Mat V) : Prop :=
  let m := c.aihi - c.ailo + 1
  let n := c.bjhi - c.bjlo + 1
  let k := c.ajhi - c.ajlo + 1
  if patchBad c.ta A.d0 A.d1 c.ailo c.aihi c.ajlo c.ajhi || patchBad c.tb B.d0 B.d1 c.bilo c.bihi c.bjlo c.bjhi ||
      patchBad false d0 d1 c.cilo c.cihi c.cjlo c.cjhi then False
  else if c.cihi - c.cilo + 1 ≠ m ∨ c.cjhi - c.cjlo + 1 ≠ n ∨ c.bihi - c.bilo + 1 ≠ k then False
  else
    Exec nproc (fun p => (seqRun (paJ c A B d0 d1 m n k ch nproc p) ⟨0, true, old p, old p, 0⟩ (starts 0 (n - 1) ch.j)).map (·.1))
      (if c.beta ≠ 0 then scalePatch c f else fillPatch c f) f'

/-! ## `pnga_matmul_basic` -/

/-- one pass of the loop over `nb` (matmul.c 2699-2790): the block `l0..h0 x l1..h1` of the result, `num` chunks. The buffers
have the size of the block; a larger chunk is written behind their end. Old content of buffers is irrelevant. -/
def basicStep (c : Call V) (A B : Arr V) (d0 d1 l0 h0 l1 h1 num istart : Int) (old : Int → V) (nb : Nat) :
    Option (List (CAct V)) :=
  let r := h0 - l0 + 1
  let inn := Int.tmod (istart + nb) num
  let la := c.ajlo + inn * r
  let ha := min c.ajhi (la + r - 1)
  let lb := c.bilo + inn * r
  let hb := min c.bihi (lb + r - 1)
  let size := r * (h1 - l1 + 1)
  if r * (ha - la + 1) > size ∨ (hb - lb + 1) * (h1 - l1 + 1) > size then none
  else
    match getBuf A l0 h0 la ha r old, getBuf B lb hb l1 h1 (hb - lb + 1) old with
    | some a, some b => emit false d0 d1 l0 h0 l1 h1 (gemm false false (ha - la + 1) c.alpha a r b (hb - lb + 1) r) r
    | _, _ => none

/-- the work for one block of the result (matmul.c 2652-2795): `pnga_patch_intersect` is called with the block twice, so the patch
`clo..chi` plays no role; it rejects empty blocks -/
def basicBlock (c : Call V) (A B : Arr V) (d0 d1 : Int) (old : Int → V) (b : Int × Int × Int × Int) : Option (List (CAct V)) :=
  let r := b.2.1 - b.1 + 1
  let k := c.ajhi - c.ajlo + 1
  let num := if Int.tdiv k r * r < k then Int.tdiv k r + 1 else Int.tdiv k r
  if b.2.1 < b.1 ∨ b.2.2.2 < b.2.2.1 then some []
  else (mapOpt (basicStep c A B d0 d1 b.1 b.2.1 b.2.2.1 b.2.2.2 num (Int.tdiv (b.1 - c.cilo) r) old) (List.range num.toNat)).map
    List.flatten

/-- `pnga_matmul_basic` (matmul.c 2572-2800), used if the result is block-cyclic: every process works on the blocks of its local
iterator -/
def matmulBasic (c : Call V) (A B : Arr V) (C : GArr) (old : Nat → Int → V) (f f' : Mat V) : Prop :=
  let d0 := C.dims.getD 0 0
  let d1 := C.dims.getD 1 0
  if c.ta || c.tb then False
  else if patchBad false A.d0 A.d1 c.ailo c.aihi c.ajlo c.ajhi || patchBad false B.d0 B.d1 c.bilo c.bihi c.bjlo c.bjhi ||
      patchBad false d0 d1 c.cilo c.cihi c.cjlo c.cjhi then False
  else if c.aihi < c.ailo ∨ c.ajhi < c.ajlo ∨ c.bihi < c.bilo ∨ c.bjhi < c.bjlo ∨ c.cihi < c.cilo ∨ c.cjhi < c.cjlo then False
  else if c.ajhi - c.ajlo + 1 ≠ c.bihi - c.bilo + 1 ∨ c.aihi - c.ailo + 1 ≠ c.cihi - c.cilo + 1 ∨
      c.bjhi - c.bjlo + 1 ≠ c.cjhi - c.cjlo + 1 then False
  else
    Exec C.nproc (fun p =>
      (C.localIter p).bind fun items =>
        (mapOpt (fun it => basicBlock c A B d0 d1 (old p) (blk2 (it.lo, it.hi))) items).map List.flatten)
      (scalePatch c f) f'

end

end

end GA.Matmul
