import Verif.Model.GPArray
import Verif.Spec.Dra

/-!
# Model: disk resident arrays (pario/dra/disk.arrays.c, patch.util.c)

A disk resident array is stored in one file or in several files in blocks ("chunks"). Global arrays are modelled by their content, a function of the
subscript (C06). A file is a function from offsets, counted in elements, to values of type `V`: that a disk returns what was written, the division of
large files into extents (pario/elio) and bytes are not modelled. All subscripts, extents and offsets are positive where the code divides, so the
division of `Int` is that of C. `dims[i]` and `chunk[i]` are kept together as pairs.
-/

namespace GA.Dra
open GA.Model
open GA.GP (arrGet rel offset)

/-- the part of `disk_array_t` (drap.h 36-51) used here: `shape` has the pairs (`dims[i]`, `chunk[i]`); `multi` is
`INDEPFILES(d_a) || numfiles > 1`; `ioprocs` is the result of `dai_io_procs` -/
structure DArr where
  shape : List (Int × Int)
  multi : Bool
  ioprocs : Int
deriving DecidableEq

/-! ## I/O processes -/

/-- `pnga_cluster_nodeid` of process `me` on a cluster whose nodes have `cl` processes, numbered node by node -/
def clNode : (cl : List Nat) → (me : Nat) → Nat
  | n :: ns, me => if me < n then 0 else clNode ns (me - n) + 1
  | [], _ => 0

/-- `dai_io_procs` (disk.arrays.c 394-408) -/
def ioProcs (indep : Bool) (cl : List Nat) (ioprocs : Int) : Int := min (cl.sum : Int) (if indep then cl.length else ioprocs)

/-- `dai_io_nodeid` (disk.arrays.c 429-461): rank among the I/O processes, negative for a process that does no I/O.
`pnga_cluster_procid(nodeid, 0)` is the first process of the node. -/
def ioNode (indep : Bool) (cl : List Nat) (ioprocs : Int) (me : Nat) : Int :=
  let node := clNode cl me
  if indep then (if me = (cl.take node).sum then (node : Int) else -1)
  else if ioprocs = 1 then (if me = 0 then 0 else -1)
  else
    let nprocs := cl.getD node 0
    let pid := me % nprocs
    let nid := (me - pid) / nprocs
    let id := pid * cl.length + nid
    if (id : Int) < ioprocs then (id : Int) else -1

/-! ## the place of a block in the file -/

/-- number of blocks in a dimension (disk.arrays.c 222, 322, 1953) -/
def nblk (d c : Int) : Int := (d + c - 1) / c

/-- `nsect_to_blockM` (disk.arrays.c 214-226): number of the block that contains the corner `lo` -/
def blockNo : (sh : List (Int × Int)) → (lo : List Int) → Int
  | (d, c) :: sh, l :: ls => blockNo sh ls * nblk d c + (l - 1) / c
  | _, _ => 0

/-- `nblock_to_indicesM` (disk.arrays.c 348-356) with `block_dims` of lines 1952-1955 -/
def blockIdx : (sh : List (Int × Int)) → (n : Int) → List Int
  | (d, c) :: sh, n => n % nblk d c :: blockIdx sh ((n - n % nblk d c) / nblk d c)
  | [], _ => []

/-- extent of the block with index `k` in one dimension (disk.arrays.c 1963-1971, 1979-1987) -/
def extent (d c k : Int) : Int := if k < nblk d c - 1 then c else if d % c ≠ 0 then d % c else c

/-- extents of the block with indices `index` -/
def extents : (sh : List (Int × Int)) → (index : List Int) → List Int
  | (d, c) :: sh, k :: ks => extent d c k :: extents sh ks
  | _, _ => []

/-- number of elements of block `n` (disk.arrays.c 1961-1972) -/
def blockSize (sh : List (Int × Int)) (n : Int) : Int := prodI (extents sh (blockIdx sh n))

/-- `for (i=iome; i<CR; i+=ioprocs) offelem += nelem` (disk.arrays.c 1958-1974), `fuel` bounds the number of turns -/
def sumBlocks (size : Int → Int) (step cr : Int) : (fuel : Nat) → (i : Int) → Int
  | 0, _ => 0
  | fuel + 1, i => if i < cr then size i + sumBlocks size step cr fuel (i + step) else 0

/-- `cur_ld[i]` (disk.arrays.c 1933-1938) for block index `b` -/
def curLd (d c b : Int) : Int := if b = d / c then d % c else c

/-- `par_block[i]` (disk.arrays.c 1997-2013); `acc` is the product of the `cur_ld[j]`, `j < i` -/
def parBlocks : (acc : Int) → (sh : List (Int × Int)) → (lo : List Int) → List Int
  | acc, [_], [l] => [acc * (l - 1)]
  | acc, (d, c) :: sh, l :: ls =>
    acc * ((l - 1) / c * c) * prodI (sh.map (·.1)) :: parBlocks (acc * curLd d c ((l - 1) / c)) sh ls
  | _, _, _ => []

/-- the test that leads to the error "not alligned ??" (disk.arrays.c 1923-1926): all dimensions but the last -/
def alignedLo : (sh : List (Int × Int)) → (lo : List Int) → Bool
  | (_, c) :: s :: sh, l :: ls => decide ((l - 1) % c = 0) && alignedLo (s :: sh) ls
  | _, _ => true

/-- last element of a list of subscripts, `lo[ndim-1]` -/
def lastOf (l : List Int) : Int := l.getLastD 0

/-- `ndai_file_location` (disk.arrays.c 1914-2019) on the I/O process `iome`: offset in elements, `none` for the error -/
def fileLoc (A : DArr) (iome : Int) (lo : List Int) : Option Int :=
  if !alignedLo A.shape lo then none
  else if A.multi then
    let cr := blockNo A.shape lo
    if 0 ≤ iome then
      some (sumBlocks (blockSize A.shape) A.ioprocs cr cr.toNat iome +
        prodI (extents A.shape (blockIdx A.shape cr)).dropLast * ((lastOf lo - 1) % lastOf (A.shape.map (·.2))))
    else some 0
  else some (parBlocks 1 A.shape lo).sum

/-- the file of I/O process `iome`: each has its own file, or all share one -/
def fileOf (A : DArr) (iome : Int) : Int := if A.multi then iome else 0

/-! ## decomposition of a section -/

/-- one dimension: `dims[i]`, `chunk[i]`, `ds_a.lo[i]`, `ds_a.hi[i]` -/
structure Ax where
  d : Int
  c : Int
  l : Int
  h : Int
deriving DecidableEq, Inhabited

/-- the dimensions of a section -/
def axes : (sh : List (Int × Int)) → (lo hi : List Int) → List Ax
  | (d, c) :: sh, l :: ls, h :: hs => ⟨d, c, l, h⟩ :: axes sh ls hs
  | _, _, _ => []

/-- `cover[u][2*i]`, `cover[u][2*i+1]`, `unaligned[u][2*i]`, `unaligned[u][2*i+1]` -/
structure Ent where
  cl : Int
  ch : Int
  ul : Int
  uh : Int
deriving DecidableEq, Inhabited

/-- `off_low[i]` (disk.arrays.c 2497) -/
def Ax.offLow (a : Ax) : Int := (a.l - 1) % a.c
/-- `off_hi[i]` (disk.arrays.c 2501) -/
def Ax.offHi (a : Ax) : Int := a.h % a.c

/-- entries for `i < idir` (disk.arrays.c 2569-2587), the same as `cover_lo`, `cover_hi` (2506-2518) -/
def Ax.full (a : Ax) : Ent :=
  ⟨if a.offLow ≠ 0 then (a.l - 1) / a.c * a.c + 1 else a.l, if a.offHi ≠ 0 then min ((a.h / a.c + 1) * a.c) a.d else a.h, a.l, a.h⟩

/-- entries for `i > idir` (disk.arrays.c 2597-2614), the same as the aligned section (2522-2534) -/
def Ax.mid (a : Ax) : Ent :=
  ⟨if a.offLow ≠ 0 then ((a.l - 1) / a.c + 1) * a.c + 1 else a.l, if a.offHi ≠ 0 then a.h / a.c * a.c else a.h, a.l, a.h⟩

/-- entries for `i == idir`, lower end (disk.arrays.c 2588-2596) -/
def Ax.low (a : Ax) : Ent :=
  let cl := (a.l - 1) / a.c * a.c + 1
  let ch := min (cl + a.c - 1) a.d
  ⟨cl, ch, a.l, min a.h ch⟩

/-- entries for `i == idir`, upper end (disk.arrays.c 2652-2661) -/
def Ax.high (a : Ax) : Ent :=
  let cl := a.h / a.c * a.c + 1
  let ch := min (cl + a.c - 1) a.d
  ⟨cl, ch, cl, min a.h ch⟩

/-- entries of the last dimension (disk.arrays.c 2617-2622) -/
def Ax.whole (a : Ax) : Ent := ⟨a.l, a.h, a.l, a.h⟩

/-- entries of the aligned section after the loop over `idir`: `aligned[a][2*idir] = cover[u-1][2*idir+1]+1` (disk.arrays.c 2625). The assignment
`aligned[a][2*idir+1] = cover[u-1][2*idir]-1` (2686) gives the value of lines 2529-2530 again. -/
def Ax.algn (a : Ax) : Int × Int := (if a.offLow ≠ 0 then a.low.ch + 1 else a.l, a.mid.ch)

/-- the loop over `idir` (disk.arrays.c 2564-2688): `pre` are the dimensions before `idir`, `rest` those from `idir` on but the last one, `last` the
entries of the last dimension. `prev i` is `cover[u-1][2*i+1]`, which is read in line 2630; before the first section has been made this is
`cover[-1][2*i+1]`, outside the array. -/
def coverLoop (last : Ent) : (pre : List Ax) → (prev : Nat → Int) → (rest : List Ax) → List (List Ent)
  | _, _, [] => []
  | pre, prev, a :: rest =>
    let low := if a.offLow ≠ 0 then [pre.map Ax.full ++ a.low :: rest.map Ax.mid ++ [last]] else []
    let prev1 := match low with | [r] => fun i => (r.getD i default).ch | _ => prev
    let high := if a.offHi ≠ 0 ∧ ¬ a.h ≤ prev1 pre.length then [pre.map Ax.full ++ a.high :: rest.map Ax.mid ++ [last]] else []
    let prev2 := match high with | [r] => fun i => (r.getD i default).ch | _ => prev1
    low ++ high ++ coverLoop last (pre ++ [a]) prev2 rest

/-- `ndai_decomp_section` (disk.arrays.c 2457-2691): the aligned sections (`na` is 0 or 1) and the rows of `cover` and `unaligned`. `stale i` is the
number found in place of `cover[-1][2*i+1]`. -/
def decomp (stale : Nat → Int) (ax : List Ax) : List (List (Int × Int)) × List (List Ent) :=
  let ini := ax.dropLast
  let last := (ax.getLastD default).whole
  if ini.all fun a => decide (a.mid.cl ≤ a.mid.ch) then ([ini.map Ax.algn ++ [(last.cl, last.ch)]], coverLoop last [] stale ini)
  else ([], [ini.map Ax.full ++ [last]])

/-- `list_unlgn[11]` of the request, which lies before `list_cover[0]` (drap.h 79-88), after a request with these rows: `cover[-1][2*i+1]` of the
next request that uses the slot -/
def staleAfter (stale : Nat → Int) (rows : List (List Ent)) : Nat → Int :=
  match rows[11]? with
  | some r => fun i => if i < r.length then (r.getD i default).uh else stale i
  | none => stale

/-! ## the chunks of a section -/

/-- the increment in `ndai_next` (disk.arrays.c 2720-2729) -/
def incr : (sh : List (Int × Int)) → (lo clo chi : List Int) → List Int
  | [(_, c)], [l], _, _ => [l + c]
  | (_, c) :: sh, l :: ls, a :: as, h :: hs => if h < l + c then a :: incr sh ls as hs else (l + c) :: ls
  | _, _, _, _ => []

/-- the alignment of `lo[ndim-1]` (disk.arrays.c 2742-2744) -/
def alignLast : (sh : List (Int × Int)) → (lo : List Int) → List Int
  | [(_, c)], [l] => [if l ≠ 0 ∧ 1 < c then l - (l - 1) % c else l]
  | _ :: sh, l :: ls => l :: alignLast sh ls
  | _, _ => []

/-- `ds_chunk->hi` (disk.arrays.c 2759-2762, 2768-2771) -/
def chunkHi : (sh : List (Int × Int)) → (lo chi : List Int) → List Int
  | [(_, c)], [l], [h] => [min (min h (l + c - 1)) (l + c - 1 - (l + c - 1) % c)]
  | (_, c) :: sh, l :: ls, h :: hs => min h (l + c - 1) :: chunkHi sh ls hs
  | _, _, _ => []

/-- `ds_chunk->lo` (disk.arrays.c 2774-2775) -/
def chunkLo : (lo clo : List Int) → List Int
  | [l], [a] => [if l < a then a else l]
  | l :: ls, _ :: as => l :: chunkLo ls as
  | _, _ => []

/-- `ndai_next_chunk` (disk.arrays.c 2734-2783) with `ndai_next` (2699-2731) -/
def nextChunk (sh : List (Int × Int)) (clo chi lo : List Int) : Option (List Int × List Int) :=
  let lo1 := alignLast sh lo
  let lo2 := if lo1.any (· == 0) then clo else incr sh lo1 clo chi
  if lastOf lo2 ≤ lastOf chi then some (chunkLo lo2 clo, chunkHi sh lo2 chi) else none

/-- `while(ndai_next_chunk(..))` (disk.arrays.c 2887-2888, 2998-3000), `fuel` bounds the number of turns -/
def chunkLoop (sh : List (Int × Int)) (clo chi : List Int) : (fuel : Nat) → (lo : List Int) → List (List Int × List Int)
  | 0, _ => []
  | fuel + 1, lo => match nextChunk sh clo chi lo with
    | none => []
    | some s => s :: chunkLoop sh clo chi fuel s.1

/-- the chunks of the section `clo..chi`. There are at most as many as elements. -/
def chunks (sh : List (Int × Int)) (clo chi : List Int) : List (List Int × List Int) :=
  chunkLoop sh clo chi ((prodI (edges clo chi)).toNat + 1) (clo.map fun _ => 0)

/-- `dai_myturn` (disk.arrays.c 1112-1130) -/
def myturn (A : DArr) (iome : Int) (lo : List Int) : Bool := decide (blockNo A.shape lo % A.ioprocs = iome)

/-- `dai_section_intersect` (patch.util.c 76-107) for sections with the same number of dimensions -/
def sectInter (lo hi ulo uhi : List Int) : Option (List Int × List Int) :=
  if ((lo.zip hi).all fun s => decide (s.1 ≤ s.2)) && ((ulo.zip uhi).all fun s => decide (s.1 ≤ s.2)) &&
      ((hi.zip ulo).all fun s => decide (s.2 ≤ s.1)) && ((uhi.zip lo).all fun s => decide (s.2 ≤ s.1))
  then some (List.zipWith max lo ulo, List.zipWith min hi uhi) else none

/-- a chunk to transfer: the chunk on disk, the part of it that belongs to the section, file and offset -/
structure Item where
  lo : List Int
  hi : List Int
  ulo : List Int
  uhi : List Int
  file : Int
  off : Int
  algn : Bool
deriving DecidableEq

/-- a chunk of a cover section (disk.arrays.c 2890-2933); `none` is the error "inconsistent cover" or an error of `ndai_file_location` -/
def coverItem (A : DArr) (iome : Int) (r : List Ent) (s : List Int × List Int) : Option Item :=
  match sectInter s.1 s.2 (r.map (·.ul)) (r.map (·.uh)), fileLoc A iome s.1 with
  | some u, some o => some ⟨s.1, s.2, u.1, u.2, fileOf A iome, o, false⟩
  | _, _ => none

/-- a chunk of the aligned section (disk.arrays.c 3011-3037) -/
def algnItem (A : DArr) (iome : Int) (s : List Int × List Int) : Option Item :=
  (fileLoc A iome s.1).map fun o => ⟨s.1, s.2, s.1, s.2, fileOf A iome, o, true⟩

/-- all of the list, or an error -/
def seqO {α : Type} : List (Option α) → Option (List α)
  | [] => some []
  | some a :: l => (seqO l).map (a :: ·)
  | none :: _ => none

/-- the chunks process `iome` transfers for the section `dlo..dhi` (disk.arrays.c 3125-3140): `ndai_transfer_unlgn`, `ndai_transfer_algn` -/
def items (A : DArr) (stale : Nat → Int) (iome : Int) (dlo dhi : List Int) : Option (List Item) :=
  let D := decomp stale (axes A.shape dlo dhi)
  seqO ((D.2.flatMap fun r => ((chunks A.shape (r.map (·.cl)) (r.map (·.ch))).filter fun s => myturn A iome s.1).map (coverItem A iome r)) ++
    D.1.flatMap fun r => ((chunks A.shape (r.map (·.1)) (r.map (·.2))).filter fun s => myturn A iome s.1).map (algnItem A iome))

/-! ## transfers -/

variable {V : Type}

/-- state: the files, the buffer of each process, the global array -/
structure St (V : Type) where
  disk : Int → Int → V
  buf : Nat → Int → V
  ga : List Int → V

/-- `pnga_put` on an array with content `f` (C06) -/
def arrPut (f : List Int → V) (lo hi ld : List Int) (buf : Int → V) : List Int → V :=
  (loopAll lo hi).foldl (fun f x => upd f x (buf (offset ld (rel x lo)))) f

/-- `ndai_dest_indicesM` (disk.arrays.c 262-271) -/
def destIdx : (x dlo glo : List Int) → List Int
  | x :: xs, d :: ds, g :: gs => (g + x - d) :: destIdx xs ds gs
  | _, _, _ => []

/-- `ndai_trnsp_dest_indicesM` (disk.arrays.c 274-285) -/
def trDestIdx (x dlo glo : List Int) : List Int := (destIdx x dlo glo.reverse).reverse

/-- `buf + offset` seen as a buffer -/
def shiftBuf (b : Int → V) (o : Int) : Int → V := fun i => b (o + i)

/-- position in the I/O buffer of the `i`-th row, `nelem3` (disk.arrays.c 1385-1405); `ext` is `ldg[1], .., ldg[ndim-1]`, `ldb` has `ndim-1` elements -/
def nelem3 (ldb ext : List Int) (i : Int) : Int :=
  offset (ldb.take (ext.length - 1)) (if ext = [] then [] else (GA.GP.elemIndex ext.dropLast i).reverse)

/-- `nga_move(LOAD, ..)` (disk.arrays.c 1307-1422) for the part `lo..hi` of the section with lower corner `dlo`, to a buffer with leading dimensions
`ldb`. For `trans` the transfer to the temporary array is non-blocking; here it is complete when the temporary array is read. -/
def moveLoad (trans : Bool) (ga : List Int → V) (dlo glo lo hi ldb : List Int) (b : Int → V) : Int → V :=
  if trans then
    let gl := trDestIdx lo dlo glo
    let gh := trDestIdx hi dlo glo
    let ldg := edges gl gh
    let tmp := arrGet ga gl gh ldg.dropLast b
    let nelem2 := prodI ldb
    (List.range (prodI ldg.tail).toNat).foldl (fun b (i : Nat) => (List.range (ldg.headD 0).toNat).foldl
      (fun b (j : Nat) => upd b (nelem3 ldb ldg.tail i + nelem2 * j) (tmp (ldg.headD 0 * i + j))) b) b
  else arrGet ga (destIdx lo dlo glo) (destIdx hi dlo glo) ldb b

/-- `nga_move(STORE, ..)` (disk.arrays.c 1423-1497): `ldt[ndim-1-i]` is the extent of dimension `i` of the chunk. For `trans` the transfer from the
temporary array is non-blocking; here it is complete when the temporary array is released. -/
def moveStore (trans : Bool) (b : Int → V) (dlo glo lo hi ldb : List Int) (ga : List Int → V) : List Int → V :=
  if trans then
    let gl := trDestIdx lo dlo glo
    let gh := trDestIdx hi dlo glo
    let ldg := edges gl gh
    let ldt := (edges lo hi).tail.reverse
    let nelem2 := prodI ldb
    let tmp := (List.range (prodI ldg.tail).toNat).foldl (fun t (i : Nat) => (List.range (ldg.headD 0).toNat).foldl
      (fun t (j : Nat) => upd t (ldg.headD 0 * i + j) (b (nelem3 ldb ldg.tail i + nelem2 * j))) t) b
    arrPut ga gl gh ldt tmp
  else arrPut ga (destIdx lo dlo glo) (destIdx hi dlo glo) ldb b

/-- what a process does with its buffer -/
inductive Act where
  /-- `ndai_get`: read the chunk from disk -/
  | get (t : Item)
  /-- `nga_move(LOAD, ..)` -/
  | load (t : Item)
  /-- `ndai_put`: write the chunk to disk -/
  | put (t : Item)
  /-- `nga_move(STORE, ..)` -/
  | store (t : Item)

/-- the two sections of a request -/
structure Req where
  trans : Bool
  dlo : List Int
  dhi : List Int
  glo : List Int
  ghi : List Int

/-- `chunk_ld` (disk.arrays.c 2919) -/
def chunkLd (t : Item) : List Int := (edges t.lo t.hi).dropLast

/-- one action of process `p`: `ndai_get` (2410-2445), `nga_move` with the buffer position of lines 2934-2941, `ndai_put` (2370-2405) -/
def step (R : Req) (st : St V) (e : Nat × Act) : St V :=
  match e.2 with
  | .get t => { st with buf := upd st.buf e.1 fun o => if 0 ≤ o ∧ o < prodI (edges t.lo t.hi) then st.disk t.file (t.off + o) else st.buf e.1 o }
  | .load t =>
    let o0 := offset (chunkLd t) (rel t.ulo t.lo)
    { st with buf := upd st.buf e.1 fun o =>
        moveLoad R.trans st.ga R.dlo R.glo t.ulo t.uhi (chunkLd t) (shiftBuf (st.buf e.1) o0) (o - o0) }
  | .put t => { st with disk := upd st.disk t.file fun o =>
        if t.off ≤ o ∧ o < t.off + prodI (edges t.lo t.hi) then st.buf e.1 (o - t.off) else st.disk t.file o }
  | .store t =>
    let o0 := offset (chunkLd t) (rel t.ulo t.lo)
    { st with ga := moveStore R.trans (shiftBuf (st.buf e.1) o0) R.dlo R.glo t.ulo t.uhi (chunkLd t) st.ga }

/-- `DRA_OP_WRITE` (disk.arrays.c 2944-2953, 3018-3027): chunks of a cover section are read first -/
def writeActs (t : Item) : List Act := if t.algn then [.load t, .put t] else [.get t, .load t, .put t]

/-- `DRA_OP_READ` (disk.arrays.c 2955-2960, 3029-3037): the store of an aligned chunk is executed by `dai_exec_callback` when the buffer is needed
again or in `dra_wait` -/
def readActs (t : Item) : List Act := [.get t, .store t]

/-- the checks of `ndra_write_section`, `ndra_read_section` (disk.arrays.c 3095-3117) and `nga_move` (1320-1328) -/
def accepted (A : DArr) (gdims : List Int) (R : Req) : Bool :=
  let inr := fun (dims lo hi : List Int) => decide (lo.length = dims.length) && decide (hi.length = dims.length) &&
    ((lo.zip (hi.zip dims)).all fun s => decide (0 < s.1) && decide (s.1 ≤ s.2.1) && decide (s.2.1 ≤ s.2.2))
  let ed := edges R.dlo R.dhi
  let eg := if R.trans then (edges R.glo R.ghi).reverse else edges R.glo R.ghi
  decide (gdims.length = A.shape.length) && inr gdims R.glo R.ghi && inr (A.shape.map (·.1)) R.dlo R.dhi &&
    decide (prodI eg = prodI ed) && decide (eg.dropLast = ed.dropLast)

/-- an execution by `n` processes in any order: every process performs its own actions in order; `none` (an error) on one process: no result -/
def Exec (n : Nat) (prog : Nat → Option (List Act)) (R : Req) (st st' : St V) : Prop :=
  ∃ s : List (Nat × Act), (∀ e ∈ s, e.1 < n) ∧ (∀ p < n, prog p = some ((s.filter fun e => e.1 == p).map (·.2))) ∧ st' = s.foldl (step R) st

/-- `ndra_write_section` and `dra_wait`; `ids p` is the I/O rank of process `p` -/
def WriteOp (A : DArr) (gdims : List Int) (ids : Nat → Int) (n : Nat) (stale : Nat → Int) (R : Req) (st st' : St V) : Prop :=
  accepted A gdims R = true ∧ Exec n (fun p => (items A stale (ids p) R.dlo R.dhi).map (·.flatMap writeActs)) R st st'

/-- `ndra_read_section` and `dra_wait` -/
def ReadOp (A : DArr) (gdims : List Int) (ids : Nat → Int) (n : Nat) (stale : Nat → Int) (R : Req) (st st' : St V) : Prop :=
  accepted A gdims R = true ∧ Exec n (fun p => (items A stale (ids p) R.dlo R.dhi).map (·.flatMap readActs)) R st st'

/-! ## configuration -/

/-- `dai_set_config` (disk.arrays.c 2089-2141) with `nnodes` nodes and `nprocs` processes: number of files, number of I/O processes -/
def setConfig (nnodes nprocs numfiles numioprocs : Int) : Int × Int :=
  let nf := if numfiles < 1 then (if 0 < numioprocs then numioprocs else nnodes) else numfiles
  let io := if numioprocs < 1 then nf else numioprocs
  let nf1 := if nprocs < nf then nprocs else nf
  let io1 := if 1 < io ∧ 1 < nf1 then nf1 else io
  let io2 := if nf1 = 1 ∧ nprocs < io1 then nprocs else io1
  (if io2 < nf1 then io2 else nf1, io2)

/-- the array made by `ndrai_create_config` (disk.arrays.c 2158-2240) with blocks `chunk`; `indep` is the result of `dai_file_config` -/
def create (indep : Bool) (cl : List Nat) (dims chunk : List Int) (numfiles numioprocs : Int) : DArr :=
  let c := setConfig cl.length cl.sum numfiles numioprocs
  ⟨dims.zip chunk, indep || decide (1 < c.1), ioProcs indep cl c.2⟩

/-- rank of process `me` among the I/O processes of that array -/
def createId (indep : Bool) (cl : List Nat) (numfiles numioprocs : Int) (me : Nat) : Int :=
  ioNode indep cl (setConfig cl.length cl.sum numfiles numioprocs).2 me

/-! ## a program -/

open GA.Spec.Dra in
/-- the two sections of a request -/
def reqOf (R : SReq) : Req := ⟨R.trans, R.dlo, R.dhi, R.glo, R.ghi⟩

open GA.Spec.Dra in
/-- a program with one disk array and one global array with dimensions `gdims`, run by `n` processes. `slots k` has the numbers in `list_unlgn[11]` of
request `k` (see `decomp`); a request uses any slot (`dai_assign_request_handle`, disk.arrays.c 851-869) and is waited for before the next operation. -/
inductive Run (A : DArr) (gdims : List Int) (ids : Nat → Int) (n : Nat) : (slots : Nat → Nat → Int) → St V → List (HOp V) → St V → Prop where
  | nil (slots : Nat → Nat → Int) (st : St V) : Run A gdims ids n slots st [] st
  | setGa (slots : Nat → Nat → Int) (st : St V) (g : List Int → V) (ops : List (HOp V)) (st' : St V) :
      Run A gdims ids n slots { st with ga := g } ops st' → Run A gdims ids n slots st (.setGa g :: ops) st'
  | write (slots : Nat → Nat → Int) (st : St V) (R : SReq) (k : Nat) (st1 : St V) (ops : List (HOp V)) (st' : St V) :
      WriteOp A gdims ids n (slots k) (reqOf R) st st1 →
      Run A gdims ids n (upd slots k (staleAfter (slots k) (decomp (slots k) (axes A.shape R.dlo R.dhi)).2)) st1 ops st' →
      Run A gdims ids n slots st (.write R :: ops) st'
  | read (slots : Nat → Nat → Int) (st : St V) (R : SReq) (k : Nat) (st1 : St V) (ops : List (HOp V)) (st' : St V) :
      ReadOp A gdims ids n (slots k) (reqOf R) st st1 →
      Run A gdims ids n (upd slots k (staleAfter (slots k) (decomp (slots k) (axes A.shape R.dlo R.dhi)).2)) st1 ops st' →
      Run A gdims ids n slots st (.read R :: ops) st'

end GA.Dra
