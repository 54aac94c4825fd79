import Verif.Spec.Agg

/-!
# Model: aggregated requests (armci/src/common/aggregate.c)

`sizeof(agg_req_t)` = `sizeof(armci_giov_t)` = 24, `_MAX_AGG_BUFFERS` = 32, `_MAX_AGG_BUFSIZE` = 2048, `_MAX_PTRS` = 256 (17-20). The two arrays of pointers of a
buffer (46-47) are one array of pairs. All requests go to processes of other nodes: the callers carry out the others at once. `none` is `armci_die`.
-/

namespace GA.Model.Agg
open Spec.Agg

/-- A vector descriptor `armci_giov_t`: its pointers are those from position `start` of the arrays of the buffer (170-175). -/
structure Descr where
  start : Nat
  len : Nat
  bytes : Nat

/-- `agg_req_t` (aggregate.c 23-30) and the pointers. The descriptors are listed last one first; those beyond `request_len` are left out. -/
structure Buf where
  tag : Nat
  proc : Int
  darr : List Descr
  ptrLen : Nat
  bufEnd : Int
  ptrs : Nat → Src × Int

/-- `armci_ireq_t` (include/request.h 57-66); `proc` is negative while the handle has no requests -/
structure Hdl where
  tag : Nat
  put : Bool
  proc : Int

/-- The lists of buffers `ulist`, `alist` (aggregate.c 34-38), the buffers, the handles of the caller, the counter of tags (armci.c 540), and what has been
transferred, with the handle it was transferred for. -/
structure St where
  used : List Nat
  avail : List Nat
  buf : Nat → Buf
  hdl : Nat → Hdl
  tags : Nat
  log : List (Nat × Item)

/-- at the start; all handles are set up by `ARMCI_SET_AGGREGATE_HANDLE` (armci.c 547-550), the memory holds `raw` -/
def start (raw : Nat → Buf) : St := ⟨[], [], raw, fun _ => ⟨0, false, -1⟩, 0, []⟩

/-- write into one aggregation buffer: `agg_buf`, `agg_src_ptr`, `agg_dst_ptr` at one index (armci/src/common/aggregate.c 42-46) -/
def setBuf (s : St) (i : Nat) (b : Buf) : St := { s with buf := fun j => if j = i then b else s.buf j }

/-- `AGG_INIT_NB_HANDLE` (aggregate.c 65-76) -/
def initHandle (s : St) (h : Nat) (put : Bool) (proc : Nat) : Option St :=
  if (s.hdl h).proc < 0 then
    some { s with tags := s.tags + 1, hdl := fun k => if k = h then ⟨s.tags + 1, put, proc⟩ else s.hdl k }
  else if (s.hdl h).put ≠ put then none
  else if (s.hdl h).proc ≠ proc then none
  else some s

/-- the search in the list of buffers in use, last one first (aggregate.c 92-97, 297-302) -/
def findBuf (s : St) (h : Nat) : Option Nat :=
  s.used.reverse.find? fun i => (s.buf i).tag = (s.hdl h).tag ∧ (s.buf i).proc = (s.hdl h).proc

/-- `_armci_agg_get_bufferid` (aggregate.c 87-122) -/
def bufferId (s : St) (h : Nat) : Option (St × Nat) :=
  match findBuf s h with
  | some i => some (s, i)
  | none =>
    if s.used.length ≥ 32 ∧ s.avail.length = 0 then none
    else
      match s.avail.getLast? with
      | some i => some ({ setBuf s i { s.buf i with tag := (s.hdl h).tag, proc := (s.hdl h).proc, darr := [] } with
          used := s.used ++ [i], avail := s.avail.dropLast }, i)
      | none =>
        let i := s.used.length
        some ({ setBuf s i ⟨(s.hdl h).tag, (s.hdl h).proc, [], 0, 2048, (s.buf i).ptrs⟩ with used := s.used ++ [i] }, i)

/-- the segments of the descriptors, in the order of `PARMCI_PutV` and `PARMCI_GetV`: descriptor by descriptor -/
def segments (ptrs : Nat → Src × Int) : List Descr → List ((Src × Int) × Nat)
  | [] => []
  | d :: ds => segments ptrs ds ++ (List.range d.len).map fun j => (ptrs (d.start + j), d.bytes)

/-- one segment as it is recorded when `armci_agg_complete` (aggregate.c 304-330) passes the descriptors on -/
def item (hd : Hdl) (x : (Src × Int) × Nat) : Item := ⟨hd.put, hd.proc.toNat, x.2, x.1.1, x.1.2⟩

/-- `armci_agg_complete` up to the condition (aggregate.c 304-330), for the buffer that was found: the requests are carried out, the buffer is empty -/
def flush (s : St) (h i : Nat) : St :=
  { setBuf s i { s.buf i with darr := [], ptrLen := 0, bufEnd := 2048 } with
    log := s.log ++ (segments (s.buf i).ptrs (s.buf i).darr).map fun x => (h, item (s.hdl h) x) }

/-- `_armci_agg_update_lists` (aggregate.c 124-137): the last one takes the place of the one removed -/
def updateLists (s : St) (i : Nat) : St :=
  let u := match s.used.idxOf? i with
    | none => s.used
    | some k => (s.used.set k (s.used.getLast?.getD 0)).dropLast
  { s with used := u, avail := s.avail ++ [i] }

/-- `PARMCI_Wait` on an aggregate handle (wait.c 17-22): `armci_agg_complete(nb_handle, UNSET)` (aggregate.c 293-337) -/
def wait (s : St) (h : Nat) : St :=
  match findBuf s h with
  | none => s
  | some i =>
    let s1 := flush s h i
    updateLists { s1 with hdl := fun k => if k = h then { s1.hdl h with proc := -1 } else s1.hdl k } i

/-- the end of `_armci_agg_get_descriptor` (aggregate.c 170-188) and the stores of the caller (202-207, 265-283): `m` pointers are added to a new descriptor or
to the last one. Simplified: `bytes` is set here. -/
def addTo (b : Buf) (new : Bool) (bytes m : Nat) (reg : Bool) (seg : Nat → Src × Int) : Buf :=
  let darr := if new then ⟨b.ptrLen, 0, bytes⟩ :: b.darr else b.darr
  match darr with
  | [] => b
  | d :: ds =>
    { b with
      darr := { d with len := d.len + m } :: ds
      bufEnd := b.bufEnd - (if reg then (bytes : Int) else 0)
      ptrLen := b.ptrLen + m
      ptrs := fun x => if d.start + d.len ≤ x ∧ x < d.start + d.len + m then seg (x - (d.start + d.len)) else b.ptrs x }

/-- `_armci_agg_get_descriptor` (aggregate.c 141-189) and the stores of its caller: new state, number of pointers taken. -/
def pass (s : St) (h bytes m : Nat) (reg : Bool) (seg : Nat → Src × Int) : Option (St × Nat) :=
  (bufferId s h).map fun si =>
    let s1 := si.1
    let i := si.2
    let b := s1.buf i
    let same := b.darr.head?.map Descr.bytes = some bytes
    let need : Int := (if reg then (bytes : Int) else 0) + (if same then 0 else 24)
    if need > b.bufEnd - (24 + 24 * (b.darr.length : Int)) ∨ (256 : Int) - b.ptrLen < m then
      let s2 := match findBuf s1 h with
        | none => s1
        | some j => flush s1 h j
      let m' := if m > 256 then 256 else m
      (setBuf s2 i (addTo (s2.buf i) true bytes m' reg seg), m')
    else (setBuf s1 i (addTo b (!decide same) bytes m reg seg), m)

/-- the loop of `armci_agg_save_strided_descriptor` (aggregate.c 264-287): `m` is `ptr_array_len`, `k` is `num1D`. The number of passes is bounded by `fuel`. -/
def manyLoop (h bytes total : Nat) (seg : Nat → Src × Int) : Nat → St → Nat → Nat → Option St
  | 0, _, _, _ => none
  | fuel + 1, s, m, k =>
    match pass s h bytes m false (fun j => seg (k + j)) with
    | none => none
    | some (s', m') =>
      if total < m' then none
      else if k + m' < total then manyLoop h bytes total seg fuel s' (total - m') (k + m')
      else some s'

/-- The loop of `armci_agg_save_giov_descriptor` for one vector of `n` segments (aggregate.c 224-239): `m` is `ptr_array_len`. The loop goes on while `k` is less than the
number of pointers of the descriptor in the buffer (239: `darr[i]`, here with `i` = 0; `dscr[i]` would be the caller's vector). `none` is also a read behind the end
of the caller's vector. -/
def vecLoop (h bytes n : Nat) (seg : Nat → Src × Int) : Nat → St → Nat → Nat → Option St
  | 0, _, _, _ => none
  | fuel + 1, s, m, k =>
    match pass s h bytes m false (fun j => seg (k + j)) with
    | none => none
    | some (s', m') =>
      if n < k + m' then none
      else if n < m' then none
      else
        match (findBuf s' h).bind fun i => (s'.buf i).darr.head? with
        | none => none
        | some d => if k + m' < d.len then vecLoop h bytes n seg fuel s' (n - m') (k + m') else some s'

/-- one call: `armci_agg_save_descriptor` (aggregate.c 191-211), `armci_agg_save_strided_descriptor` (244-290), `PARMCI_Wait` -/
def step (s : St) : Op → Option St
  | .one h put proc bytes reg src dst => (initHandle s h put proc).bind fun s1 => (pass s1 h bytes 1 reg fun _ => (src, dst)).map (·.1)
  | .many h put proc bytes total seg => (initHandle s h put proc).bind fun s1 => manyLoop h bytes total seg (total + 1) s1 total 0
  | .wait h => some (wait s h)

/-- a history -/
def run (s : St) (ops : List Op) : Option St := ops.foldlM step s

/-- what has been transferred for handle `h` -/
def sent (s : St) (h : Nat) : List Item := (s.log.filter fun x => x.1 = h).map (·.2)

/-! ## strided requests -/

/-- the counters `factor` after a segment (aggregate.c 275-281): `cs` are `count[1]`, `count[2]`, …; `num` is `num1D` after its increment. `count[j]` is
compared, not the product of `count[1]` … `count[j]`. -/
def bump (cs : List Nat) (num : Nat) (f : List Nat) : List Nat :=
  let f0 := f.modify 0 (· + 1)
  (List.range (f.length - 1)).foldl (fun f j => if num % cs.getD j 0 = 0 then (f.modify (j + 1) (· + 1)).mapIdx fun k x => if k < j + 1 then 0 else x else f) f0

/-- the counters before segment `i` -/
def factorAt (cs : List Nat) : Nat → List Nat
  | 0 => cs.map fun _ => 0
  | i + 1 => bump cs (i + 1) (factorAt cs i)

/-- the offset of segment `i` (aggregate.c 270-273) -/
def offsetAt (cs : List Nat) (strides : List Int) (i : Nat) : Int := ((strides.zip (factorAt cs i)).map fun x => x.1 * (x.2 : Int)).sum

end GA.Model.Agg
