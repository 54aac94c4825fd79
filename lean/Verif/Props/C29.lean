import Verif.Lemmas.MAGap

/-!
# C29: the MA allocator never overlaps blocks

`Safe` (in `Spec/MAAlloc.lean`) says: heap and stack do not cross, heap blocks
are in the heap region, stack blocks in the stack region, every live block has
room for its descriptor, guard words and client elements, is aligned for its
datatype, and no two live blocks share a byte.

The property fails for histories in which the alignment is changed with
`MA_set_numalign` and a piece of an older block is given back afterwards
(`C29_piece_after_numalign`), therefore the positive theorems have the suffix
`_partial`.  They cover every other history.
-/

namespace GA.MA

/-- A datatype table for the examples: sizes 1, 8 and 16. -/
private def exEnv : Env := { sz := fun d => if d = 0 then 1 else if d = 1 then 8 else 16, base := fun d => 4096 + 16 * d }

private theorem exEnv_ok : EnvOK exEnv := by
  intro d
  by_cases h0 : d = 0
  · exact ⟨0, by omega, by simp [exEnv, h0]⟩
  · by_cases h1 : d = 1
    · exact ⟨3, by omega, by simp [exEnv, h1]⟩
    · exact ⟨4, by omega, by simp [exEnv, h0, h1]⟩

private theorem exSeg : SegOK 8200 4096 4096 := by
  unfold SegOK; norm_num

/-- A history with two heap blocks, a freed block, a new block in its place, a
piece given back, and stack blocks. -/
private def exOps : List Op :=
  [.alloc 0 1000, .alloc 1 20, .alloc 2 3, .free 8200, .alloc 2 10, .push 1 4, .push 2 1, .piece 9296 15, .chop 16264]

/-- Every history whose calls are covered leads to a safe layout. -/
theorem C29_safe_partial {e : Env} (he : EnvOK e) {seg heap stack : Int} (hs : SegOK seg heap stack)
    {al : Nat} (hal : al ≤ 30) (ops : List Op) (hops : Allowed e (init seg heap stack al) ops) :
    Safe e (run e (init seg heap stack al) ops) :=
  ((Inv.init hs hal).run he hops).safe he

/-- In particular every history in which the alignment is not changed. -/
theorem C29_safe_fixed_alignment_partial {e : Env} (he : EnvOK e) {seg heap stack : Int}
    (hs : SegOK seg heap stack) {al : Nat} (hal : al ≤ 30) (ops : List Op)
    (h1 : ∀ o ∈ ops, ReqOK e o) (h2 : ∀ o ∈ ops, ∀ v, o ≠ .numalign v) :
    Safe e (run e (init seg heap stack al) ops) :=
  C29_safe_partial he hs hal ops (allowed_fixed (Canon.init e seg heap stack al) h1 h2)

/-- And every history, with any changes of the alignment, in which no piece of a
block is given back. -/
theorem C29_safe_no_piece_partial {e : Env} (he : EnvOK e) {seg heap stack : Int}
    (hs : SegOK seg heap stack) {al : Nat} (hal : al ≤ 30) (ops : List Op)
    (h1 : ∀ o ∈ ops, ReqOK e o) (h2 : ∀ o ∈ ops, ∀ a n, o ≠ .piece a n) :
    Safe e (run e (init seg heap stack al) ops) :=
  C29_safe_partial he hs hal ops (allowed_no_piece h1 h2)

private theorem exOps_req : ∀ o ∈ exOps, ReqOK exEnv o := by
  simp [exOps, ReqOK, exEnv]

private theorem exOps_al : ∀ o ∈ exOps, ∀ v, o ≠ .numalign v := by
  simp [exOps]

/-- The hypotheses are met by a history in which every call succeeds; four
blocks are live at its end. -/
example : Safe exEnv (run exEnv (init 8200 4096 4096 4) exOps) :=
  C29_safe_fixed_alignment_partial exEnv_ok exSeg (by decide) exOps exOps_req exOps_al

example : Allowed exEnv (init 8200 4096 4096 4) exOps :=
  allowed_fixed (Canon.init _ _ _ _ _) exOps_req exOps_al

example : ((run exEnv (init 8200 4096 4096 4) exOps).hused.map (fun b => (b.addr, b.client, b.nelem)) =
    [(8200, 8288, 10), (9560, 9648, 3), (9296, 9392, 5)]) := by decide +kernel

example : Safe exEnv (run exEnv (init 8200 4096 4096 0) [.alloc 0 3, .numalign 6, .alloc 0 9, .free 8200, .push 0 4]) :=
  C29_safe_no_piece_partial exEnv_ok exSeg (by decide) _ (by simp [ReqOK, exEnv]) (by simp)

/-- A successful allocation on the heap gives a new live block of the requested
datatype and size; on the stack as well. -/
theorem C29_alloc_block (e : Env) (s : St) (dt : Nat) (n : Int) (b : Blk) (h : (allocHeap e s dt n).2 = some b) :
    (step e s (.alloc dt n)).hused = b :: s.hused ∧ b.dt = dt ∧ b.nelem = n := by
  rcases allocHeap_cases e s dt n with hc | ⟨b', h1, h2, h3, h4, h5, h6, _⟩
  · rw [hc] at h; cases h
  · rw [h1] at h; cases h
    exact ⟨h2, h5, h6⟩

theorem C29_push_block (e : Env) (s : St) (dt : Nat) (n : Int) (b : Blk) (h : (pushStack e s dt n).2 = some b) :
    (step e s (.push dt n)).sused = b :: s.sused ∧ b.dt = dt ∧ b.nelem = n := by
  show (pushStack e s dt n).1.sused = b :: s.sused ∧ b.dt = dt ∧ b.nelem = n
  unfold pushStack at h ⊢
  simp only at h ⊢
  split at h
  · cases h
  · rename_i hn
    simp only [if_neg hn]
    split at h
    · cases h
    · rename_i hc
      simp only [if_neg hc]
      cases h
      exact ⟨rfl, rfl, rfl⟩

example : (allocHeap exEnv (init 8200 4096 4096 0) 2 3).2.isSome ∧ (pushStack exEnv (init 8200 4096 4096 0) 2 3).2.isSome := by
  decide +kernel

/-- Calls never move or change a live heap block other than the one they are
applied to. -/
theorem C29_heap_block_stable (e : Env) (s : St) (o : Op) (b : Blk) (hb : b ∈ s.hused)
    (h1 : o ≠ .free b.addr) (h2 : ∀ n, o ≠ .piece b.addr n) : b ∈ (step e s o).hused := by
  cases o with
  | alloc dt n =>
    show b ∈ (allocHeap e s dt n).1.hused
    rcases allocHeap_cases e s dt n with hc | ⟨b', _, k2, _⟩
    · rw [hc]; exact hb
    · rw [k2]; exact List.mem_cons_of_mem _ hb
  | free a =>
    show b ∈ (freeHeap s a).1.hused
    unfold freeHeap
    split
    · exact hb
    · simp only [blockFree_hused]
      exact mem_delAddr_of hb (fun h => h1 (by rw [h]))
  | piece a n =>
    show b ∈ (freePiece e s a n).1.hused
    have hne : b.addr ≠ a := fun h => h2 n (by rw [h])
    rcases freePiece_cases e s a n with hc | ⟨x, _, _, hc⟩ | ⟨x, x', f, c1, c2, c3, c4, c5, c6, c7, _⟩
    · rw [hc]; exact hb
    · rw [hc]
      unfold freeHeap
      split
      · exact hb
      · simp only [blockFree_hused]
        exact mem_delAddr_of hb hne
    · rw [c7]; exact mem_setAddr_of hb hne
  | push dt n =>
    show b ∈ (pushStack e s dt n).1.hused
    unfold pushStack
    simp only
    split
    · exact hb
    · split <;> exact hb
  | pop a =>
    show b ∈ (popStack s a).1.hused
    unfold popStack
    split
    · exact hb
    · split <;> exact hb
  | chop a =>
    show b ∈ (chopStack s a).1.hused
    unfold chopStack
    split <;> exact hb
  | numalign v =>
    show b ∈ (setNumalign s v).1.hused
    unfold setNumalign
    split <;> exact hb

/-- Nor a live stack block, unless it is popped or lies above the block the
stack is chopped to. -/
theorem C29_stack_block_stable (e : Env) (s : St) (o : Op) (b : Blk) (hb : b ∈ s.sused)
    (h1 : o ≠ .pop b.addr) (h2 : ∀ a, o = .chop a → a < b.addr) : b ∈ (step e s o).sused := by
  cases o with
  | alloc dt n =>
    show b ∈ (allocHeap e s dt n).1.sused
    rcases allocHeap_cases e s dt n with hc | ⟨b', _, _, k3, _⟩
    · rw [hc]; exact hb
    · rw [k3]; exact hb
  | free a =>
    show b ∈ (freeHeap s a).1.sused
    unfold freeHeap
    split
    · exact hb
    · simp only [blockFree_sused]; exact hb
  | piece a n =>
    show b ∈ (freePiece e s a n).1.sused
    rcases freePiece_cases e s a n with hc | ⟨x, _, _, hc⟩ | ⟨x, x', f, c1, c2, c3, c4, c5, c6, c7, c8, _⟩
    · rw [hc]; exact hb
    · rw [hc]
      unfold freeHeap
      split
      · exact hb
      · simp only [blockFree_sused]; exact hb
    · rw [c8]; exact hb
  | push dt n =>
    show b ∈ (pushStack e s dt n).1.sused
    unfold pushStack
    simp only
    split
    · exact hb
    · split
      · exact hb
      · exact List.mem_cons_of_mem _ hb
  | pop a =>
    show b ∈ (popStack s a).1.sused
    unfold popStack
    split
    · exact hb
    · split
      · exact hb
      · exact mem_delAddr_of hb (fun h => h1 (by rw [h]))
  | chop a =>
    show b ∈ (chopStack s a).1.sused
    unfold chopStack
    split
    · exact hb
    · simp only
      rw [List.mem_filter]
      have := h2 a rfl
      exact ⟨hb, by simp; omega⟩
  | numalign v =>
    show b ∈ (setNumalign s v).1.sused
    unfold setNumalign
    split <;> exact hb

/-- A successfully freed block is not live any more, and giving back a piece
leaves the address of the client space unchanged and reduces the number of
elements. -/
theorem C29_freed_gone_partial {e : Env} (he : EnvOK e) {seg heap stack : Int} (hs : SegOK seg heap stack)
    {al : Nat} (hal : al ≤ 30) (ops : List Op) (hops : Allowed e (init seg heap stack al) ops) (a : Int) :
    let s := run e (init seg heap stack al) ops
    (freeHeap s a).2 = true → ∀ b ∈ (step e s (.free a)).hused, b.addr ≠ a := by
  intro s hf b hb
  have hinv : Inv e s := (Inv.init hs hal).run he hops
  change b ∈ (freeHeap s a).1.hused at hb
  unfold freeHeap at hf hb
  cases hx : findAddr a s.hused with
  | none => rw [hx] at hf; cases hf
  | some x =>
    rw [hx] at hb
    simp only [blockFree_hused] at hb
    have hp := delAddr_perm hx
    have hd : D (x :: delAddr a s.hused) := (D_perm hp).mp (List.pairwise_append.mp hinv.disj).1
    rw [D_cons] at hd
    have h1 := hd.1 b hb
    have h2 := good_len he (hinv.used x (findAddr_mem hx)).2.2.2
    have h3 := good_len he (hinv.used b (mem_delAddr hb)).2.2.2
    have h4 := findAddr_addr hx
    unfold DisjBlk at h1
    omega

example : (freeHeap (run exEnv (init 8200 4096 4096 4) exOps) 9296).2 = true := by decide +kernel

theorem C29_piece_keeps_client (e : Env) (s : St) (a n : Int) (b : Blk) (hb : findAddr a s.hused = some b)
    (h0 : 0 ≤ n) (h1 : n < b.nelem) :
    ∃ b' ∈ (step e s (.piece a n)).hused, b'.addr = a ∧ b'.client = b.client ∧ b'.dt = b.dt ∧
      b'.nelem = b.nelem - n := by
  show ∃ b' ∈ (freePiece e s a n).1.hused, _
  rcases freePiece_cases e s a n with hc | ⟨x, f, hle, hc⟩ | ⟨x, x', f, c1, c2, c3, c4, c5, c6, c7, _⟩
  · exfalso
    unfold freePiece at hc
    rw [hb] at hc
    have g1 : ¬ n < 0 := by omega
    have g2 : ¬ n ≥ b.nelem := by omega
    simp only [if_neg g1, if_neg g2] at hc
    split at hc <;> exact absurd (congrArg Prod.snd hc) (by simp)
  · rw [hb] at f; cases f; omega
  · rw [hb] at f; cases f
    refine ⟨x', ?_, c3.trans (findAddr_addr hb), c4, c5, c6⟩
    rw [c7]
    exact (setAddr_perm hb).mem_iff.mpr List.mem_cons_self

example : ∃ b, findAddr 9296 (run exEnv (init 8200 4096 4096 4) exOps).hused = some b ∧ 2 < b.nelem :=
  ⟨{ addr := 9296, nbytes := 144, client := 9392, dt := 1, nelem := 5 }, by decide +kernel, by decide⟩

/-- No memory is lost: the live and the free blocks of the heap together fill the
heap region, the live blocks of the stack fill the stack region.  Every free
block is disjoint from the live blocks and has room for its descriptor. -/
theorem C29_no_leak_partial {e : Env} (he : EnvOK e) {seg heap stack : Int} (hs : SegOK seg heap stack)
    {al : Nat} (hal : al ≤ 30) (ops : List Op) (hops : Allowed e (init seg heap stack al) ops) :
    let s := run e (init seg heap stack al) ops
    bytes s.hused + bytes s.hfree = s.hp - seg ∧ bytes s.sused = seg + (heap + stack) - s.sp ∧
    (s.hused ++ s.hfree).Pairwise DisjBlk ∧
    ∀ b ∈ s.hfree, seg ≤ b.addr ∧ b.addr + b.nbytes ≤ s.hp ∧ 80 ≤ b.nbytes ∧ b.addr % 8 = 0 := by
  intro s
  have h : Inv e s := (Inv.init hs hal).run he hops
  obtain ⟨c1, c2, c3⟩ := run_const e (init seg heap stack al) ops
  have e1 : s.seg = seg := c1
  have e3 : s.eos = seg + (heap + stack) := c3
  refine ⟨?_, ?_, h.disj, ?_⟩
  · rw [← e1]; exact h.sum
  · rw [← e3]; exact h.stack.bytes
  · intro b hb
    rw [← e1]
    have := h.free b hb
    unfold FreeOK at this
    omega

example : bytes (run exEnv (init 8200 4096 4096 4) exOps).hfree = 960 := by decide +kernel

/-- **Neighbouring free blocks are merged.** After every history the free blocks are listed
in the order of their addresses, and no free block begins where another one ends: space given back in
pieces is available as a whole. -/
theorem C29_merged_partial {e : Env} (he : EnvOK e) {seg heap stack : Int} (hs : SegOK seg heap stack)
    {al : Nat} (hal : al ≤ 30) (ops : List Op) (hops : Allowed e (init seg heap stack al) ops) :
    (run e (init seg heap stack al) ops).hfree.Pairwise fun x y => x.addr + x.nbytes < y.addr :=
  run_gap he (Inv.init hs hal) List.Pairwise.nil hops

/-- **The heap ends with a live block.** After every history the heap region is empty or ends with a live block, and no free
block touches its end: space at the end of the heap that is given back can be used by heap and stack. -/
theorem C29_top_partial {e : Env} (he : EnvOK e) {seg heap stack : Int} (hs : SegOK seg heap stack)
    {al : Nat} (hal : al ≤ 30) (ops : List Op) (hops : Allowed e (init seg heap stack al) ops) :
    let s := run e (init seg heap stack al) ops
    ((s.hused = [] ∧ s.hp = seg) ∨ ∃ b ∈ s.hused, b.addr + b.nbytes = s.hp) ∧ ∀ x ∈ s.hfree, x.addr + x.nbytes < s.hp := by
  intro s
  have hi : Inv e s := (Inv.init hs hal).run he hops
  have ht : Top s := run_top he (Inv.init hs hal) (.inl ⟨rfl, rfl⟩) hops
  have e1 : s.seg = seg := (run_const e (init seg heap stack al) ops).1
  refine ⟨?_, ht.nofree he hi⟩
  rw [← e1]
  exact ht

/-- four blocks: the second and the first, its neighbour, given back make one free block, the first and the third make two -/
example : ((run exEnv (init 8200 4096 4096 0) [.alloc 0 8, .alloc 0 8, .alloc 0 8, .alloc 0 8,
    .free (8200 + (ballocAfter exEnv 0 8200 0 8).2), .free 8200]).hfree.length,
    (run exEnv (init 8200 4096 4096 0) [.alloc 0 8, .alloc 0 8, .alloc 0 8, .alloc 0 8,
      .free 8200, .free (8200 + 2 * (ballocAfter exEnv 0 8200 0 8).2)]).hfree.length) = (1, 2) := by decide +kernel

private theorem eq_init {seg heap stack : Int} (s : St) (e1 : s.seg = seg) (e2 : s.part = seg + heap)
    (e3 : s.eos = seg + (heap + stack)) (e4 : s.hp = seg) (e5 : s.sp = seg + (heap + stack))
    (e6 : s.hfree = []) (e7 : s.hused = []) (e8 : s.sused = []) : s = init seg heap stack s.al := by
  cases s
  simp only at e1 e2 e3 e4 e5 e6 e7 e8
  subst e1 e2 e3 e4 e5 e6 e7 e8
  rfl

/-- Once all blocks have been given back the allocator is in its initial state. -/
theorem C29_all_returned_partial {e : Env} (he : EnvOK e) {seg heap stack : Int} (hs : SegOK seg heap stack)
    {al : Nat} (hal : al ≤ 30) (ops : List Op) (hops : Allowed e (init seg heap stack al) ops) :
    let s := run e (init seg heap stack al) ops
    s.hused = [] → s.sused = [] → s = init seg heap stack s.al := by
  intro s h1 h2
  have h : Inv e s := (Inv.init hs hal).run he hops
  obtain ⟨c1, c2, c3⟩ := run_const e (init seg heap stack al) ops
  have hE : Emptied s := Emptied.run (by intro _; exact ⟨rfl, rfl⟩) ops
  obtain ⟨d1, d2⟩ := hE h1
  have ht := h.stack
  rw [h2] at ht
  have e1 : s.seg = seg := c1
  have e2 : s.part = seg + heap := c2
  have e3 : s.eos = seg + (heap + stack) := c3
  have e4 : s.sp = s.eos := ht
  exact eq_init s e1 e2 e3 (d1.trans e1) (e4.trans e3) d2 h1 h2

example : (run exEnv (init 8200 4096 4096 4) (exOps ++ [.free 8200, .free 9560, .free 9296])).hused = [] ∧
    (run exEnv (init 8200 4096 4096 4) (exOps ++ [.free 8200, .free 9560, .free 9296])).sused = [] := by
  decide +kernel

/-- The requested alignment: if the size of the datatype divides 2^numalign and
the base address of the datatype is a multiple of its size, the client space of
a new heap block starts at a multiple of 2^numalign. -/
theorem C29_requested_alignment_partial {e : Env} (he : EnvOK e) {seg heap stack : Int} (hs : SegOK seg heap stack)
    {al : Nat} (hal : al ≤ 30) (ops : List Op) (hops : Allowed e (init seg heap stack al) ops)
    (dt : Nat) (n : Int) (hn : n * e.sz dt < 2 ^ 62) :
    let s := run e (init seg heap stack al) ops
    ∀ b, (allocHeap e s dt n).2 = some b → e.sz dt ∣ 2 ^ s.al → e.sz dt ∣ e.base dt → b.client % 2 ^ s.al = 0 := by
  intro s b hb h1 h2
  have h : Inv e s := (Inv.init hs hal).run he hops
  have hn' : n * e.sz dt < 4611686018427387904 := lt_of_lt_of_eq hn (by norm_num)
  rcases allocHeap_cases e s dt n with hc | ⟨b', k1, k2, k3, k4, k5, k6, k7, k8, k9⟩
  · rw [hc] at hb; cases hb
  · rw [k1] at hb; cases hb
    have b1 := h.seg0; have b2 := h.lo; have b3 := h.mid; have b4 := h.hi; have b5 := h.eos1
    have hr : 0 ≤ b.addr ∧ b.addr ≤ 4611686018427387904 := by
      rcases k9 with k9 | ⟨x, hx, k9⟩
      · omega
      · have := h.free x hx
        unfold FreeOK at this
        omega
    obtain ⟨_, _, i3, _⟩ := after_spec (dt := dt) he h.al hr.1 hr.2 k7 hn'
    rw [k8]
    exact Int.emod_eq_zero_of_dvd (i3.2 h1 h2)

example : ∃ b, (allocHeap exEnv (init 8200 4096 4096 6) 2 3).2 = some b ∧ exEnv.sz 2 ∣ 2 ^ 6 ∧ exEnv.sz 2 ∣ exEnv.base 2 ∧
    b.client = 8320 :=
  ⟨{ addr := 8200, nbytes := 176, client := 8320, dt := 2, nelem := 3 }, by decide +kernel, ⟨4, by decide⟩,
    ⟨258, by decide⟩, rfl⟩

/-! ### The failure of the full property -/

/-- The history: a block is allocated with 4096-byte alignment, the alignment is
reset, and part of the block is given back; then another block is allocated. -/
def pieceOps : List Op := [.numalign 12, .alloc 0 3000, .alloc 0 8, .numalign 0, .piece 8200 2000, .alloc 0 5000]

/-- Giving back a piece after the alignment was changed makes live blocks
overlap: every call of the history succeeds, and afterwards the client spaces of
two live blocks share bytes. -/
theorem C29_piece_after_numalign :
    ∃ b c, b ∈ (run exEnv (init 8200 65536 4096 0) pieceOps).hused ∧
      c ∈ (run exEnv (init 8200 65536 4096 0) pieceOps).hused ∧ b.addr ≠ c.addr ∧
      ∃ x, b.client ≤ x ∧ x < b.client + b.nelem * exEnv.sz b.dt ∧
           c.client ≤ x ∧ x < c.client + c.nelem * exEnv.sz c.dt := by
  refine ⟨{ addr := 8200, nbytes := 1088, client := 12288, dt := 0, nelem := 1000 },
    { addr := 9288, nbytes := 5088, client := 9372, dt := 0, nelem := 5000 }, ?_, ?_, ?_, 12288, ?_⟩
  all_goals decide +kernel

end GA.MA
