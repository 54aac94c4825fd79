import Verif.Lemmas.DraSpec

/-!
# C69: disk resident arrays

Whatever a program writes to sections of a disk resident array it reads back, as if the array was an array in memory.
-/

namespace GA
open Spec Model Spec.Dra
open GA.Dra

variable {V : Type}

/-- what a user knows about the array: every dimension has blocks that are not larger than the dimension -/
def C69_Geometry (A : DArr) : Prop := A.shape ≠ [] ∧ (∀ s ∈ A.shape, 1 ≤ s.2 ∧ s.2 ≤ s.1) ∧ 0 < A.ioprocs

/-- the I/O processes have the ranks `0 .. ioprocs-1`, one process for each rank -/
def C69_OneEach (ids : Nat → Int) (n : Nat) (ioprocs : Int) : Prop :=
  (∀ p q, p < n → q < n → 0 ≤ ids p → ids p = ids q → p = q) ∧ ∀ k, 0 ≤ k → k < ioprocs → ∃ p, p < n ∧ ids p = k

private theorem C69_write {A : DArr} (hA : C69_Geometry A) {gdims : List Int} (hg : gdims.length = A.shape.length) {ids : Nat → Int} {n : Nat}
    (hid : C69_OneEach ids n A.ioprocs) {stale : Nat → Int} (hst : ∀ i, stale i ≤ 0) {R : SReq} {st st' : St V}
    (h : WriteOp A gdims ids n stale (reqOf R) st st') {f : List Int → V} (hf : ∀ x, InArray (A.shape.map (·.1)) x → st.disk (loc A x).1 (loc A x).2 = f x) :
    st'.ga = st.ga ∧ ∀ x, InArray (A.shape.map (·.1)) x → st'.disk (loc A x).1 (loc A x).2 = Spec.Dra.write R f st.ga x := by
  obtain ⟨h1, h2, h3⟩ := writeOp_effect hA.2.1 hA.2.2 hA.1 hst ⟨hid.1, hid.2⟩ h.1 h
  obtain ⟨_, _, hd, hgl⟩ := accepted_facts h.1
  refine ⟨h1, fun x hx => ?_⟩
  unfold Spec.Dra.write
  split
  · rename_i hu
    have hxl := hx.length
    rw [List.length_map] at hxl
    rw [h2 x hx hu]
    congr 1
    exact dest_partner (by rw [hxl, hd]) (by rw [hxl, hgl])
  · rename_i hu
    rw [h3 _ _ ?_]
    · exact hf x hx
    · intro y hy hyu he
      have := loc_inj hA.2.1 hA.2.2 hy hx he
      subst this
      exact hu hyu

private theorem C69_read {A : DArr} (hA : C69_Geometry A) {gdims : List Int} (hg : gdims.length = A.shape.length) {ids : Nat → Int} {n : Nat}
    (hid : C69_OneEach ids n A.ioprocs) {stale : Nat → Int} (hst : ∀ i, stale i ≤ 0) {R : SReq} {st st' : St V}
    (h : ReadOp A gdims ids n stale (reqOf R) st st') {f : List Int → V} (hf : ∀ x, InArray (A.shape.map (·.1)) x → st.disk (loc A x).1 (loc A x).2 = f x) :
    st'.disk = st.disk ∧ st'.ga = Spec.Dra.read R f st.ga := by
  obtain ⟨h1, h2, h3⟩ := readOp_effect hA.2.1 hA.2.2 hA.1 hst ⟨hid.1, hid.2⟩ h.1 h
  obtain ⟨hp, _, hd, hgl⟩ := accepted_facts h.1
  have hok := (accepted_iff hg).1 h.1
  have hgp := fun y => glob_patch (y := y) hok (by rw [hg, List.length_map])
  refine ⟨h1, funext fun y => ?_⟩
  unfold Spec.Dra.read
  split
  · rename_i hy
    obtain ⟨x, hx, rfl⟩ := (hgp y).1 hy
    have hxl := hx.length.1
    have e := h2 x hx
    refine e.trans ?_
    have hin : InArray (A.shape.map (·.1)) x := by
      have hl : ∀ (dims lo hi x : List Int), PatchOK dims lo hi → InPatch lo hi x → InArray dims x := by
        intro dims
        induction dims with
        | nil =>
          intro lo hi x h1 h2
          have l1 := InPatch.length h1.1
          have l2 := InPatch.length h1.2.1
          cases lo <;> cases hi <;> cases x <;> simp_all [InPatch, InArray]
        | cons d dims ih =>
          intro lo hi x h1 h2
          match lo, hi, x, h1, h2 with
          | l :: lo, h :: hi, x :: xs, h1, h2 =>
            simp only [PatchOK, InArray, List.map_cons, InPatch] at h1 h2 ⊢
            exact ⟨by omega, ih lo hi xs ⟨h1.1.2, h1.2.1.2, h1.2.2.2⟩ h2.2⟩
          | [], _, _, h1, _ => exact absurd h1.1 (by simp [InArray, InPatch])
      exact hl _ _ _ _ hp hx
    rw [hf x hin]
    congr 1
    have hdl : (reqOf R).dlo.length = x.length := by rw [hxl]; rfl
    have hgl' : (reqOf R).glo.length = x.length := by rw [hgl, ← hd, hxl]; rfl
    have : dest R.trans R.dlo R.glo x = partner R.trans R.dlo R.glo x := dest_partner hdl hgl'
    rw [this]
    exact (partner_back hdl).symm
  · rename_i hy
    exact h3 y fun x hx he => hy ((hgp y).2 ⟨x, hx, he.symm⟩)

private theorem C69_run {A : DArr} (hA : C69_Geometry A) (h6 : A.shape.length ≤ 6) {gdims : List Int} (hg : gdims.length = A.shape.length) {ids : Nat → Int}
    {n : Nat} (hid : C69_OneEach ids n A.ioprocs) (slots : Nat → Nat → Int) (st : St V) (ops : List (HOp V)) (st' : St V)
    (hrun : Run A gdims ids n slots st ops st') (hsl : ∀ k i, slots k i ≤ 0) (f : List Int → V)
    (hf : ∀ x, InArray (A.shape.map (·.1)) x → st.disk (loc A x).1 (loc A x).2 = f x) :
    st'.ga = (hist (f, st.ga) ops).2 ∧ ∀ x, InArray (A.shape.map (·.1)) x → st'.disk (loc A x).1 (loc A x).2 = (hist (f, st.ga) ops).1 x := by
  induction hrun generalizing f with
  | nil slots st => exact ⟨rfl, hf⟩
  | setGa slots st g ops st' _ ih => exact ih hsl f hf
  | write slots st R k st1 ops st' h1 _ ih =>
    obtain ⟨a, b⟩ := C69_write hA hg hid (hsl k) h1 hf
    have := ih (fun k' i => by unfold upd; split <;> [rw [staleAfter_zero h6]; skip] <;> exact hsl _ _) (Spec.Dra.write R f st.ga) b
    rw [a] at this
    exact this
  | read slots st R k st1 ops st' h1 _ ih =>
    obtain ⟨a, b⟩ := C69_read hA hg hid (hsl k) h1 hf
    have := ih (fun k' i => by unfold upd; split <;> [rw [staleAfter_zero h6]; skip] <;> exact hsl _ _) f (by rw [a]; exact hf)
    rw [b] at this
    exact this

/-- **C69, histories.** For an array with at most six dimensions there is a meaning of the files as an array such that every program - any number of
processes and files, any order of the steps of the processes, any sequence of changes of the global array, writes and reads of sections, straight or
transposed - leaves in the global array and in the files what the same operations on plain arrays leave. What is missing: seven dimensions
(`C69_not_seven_dims`), clusters without a process for every rank (`C69_not_nonuniform`), several requests at the same time. -/
theorem C69_history_partial {A : DArr} (hA : C69_Geometry A) (h6 : A.shape.length ≤ 6) {gdims : List Int} (hg : gdims.length = A.shape.length)
    {ids : Nat → Int} {n : Nat} (hid : C69_OneEach ids n A.ioprocs) :
    ∃ content : (Int → Int → V) → List Int → V, ∀ (st st' : St V) (ops : List (HOp V)), Run A gdims ids n (fun _ _ => 0) st ops st' →
      st'.ga = (hist (content st.disk, st.ga) ops).2 ∧
      ∀ x, InArray (A.shape.map (·.1)) x → content st'.disk x = (hist (content st.disk, st.ga) ops).1 x :=
  ⟨fun d x => d (loc A x).1 (loc A x).2, fun _ _ _ hrun => C69_run hA h6 hg hid _ _ _ _ hrun (fun _ _ => le_refl 0) _ fun _ _ => rfl⟩

/-- **C69, opening an array again.** An array in one file means the same to every program, whatever the number of its processes and I/O processes: a
program that opens the array finds the content the program before has left. -/
theorem C69_reopen (shape : List (Int × Int)) (h6 : shape.length ≤ 6) :
    ∃ content : (Int → Int → V) → List Int → V, ∀ (ioprocs : Int) (gdims : List Int) (ids : Nat → Int) (n : Nat),
      C69_Geometry ⟨shape, false, ioprocs⟩ → gdims.length = shape.length → C69_OneEach ids n ioprocs →
      ∀ (st st' : St V) (ops : List (HOp V)), Run ⟨shape, false, ioprocs⟩ gdims ids n (fun _ _ => 0) st ops st' →
        st'.ga = (hist (content st.disk, st.ga) ops).2 ∧
        ∀ x, InArray (shape.map (·.1)) x → content st'.disk x = (hist (content st.disk, st.ga) ops).1 x :=
  ⟨fun d x => d (loc ⟨shape, false, 1⟩ x).1 (loc ⟨shape, false, 1⟩ x).2, fun _ _ _ _ hA hg hid _ _ _ hrun =>
    C69_run hA h6 hg hid _ _ _ _ hrun (fun _ _ => le_refl 0) _ fun _ _ => rfl⟩

/-- **C69, requests that are refused.** A request is accepted exactly if both sections lie in their arrays and have the same extents, reversed for a
transposed request. So a section cannot be read into a section of another form with the same number of elements, although the documentation of the
interface allows "reshaping". -/
theorem C69_accepted {A : DArr} {gdims : List Int} (hg : gdims.length = A.shape.length) (R : SReq) :
    accepted A gdims (reqOf R) = true ↔ R.OK (A.shape.map (·.1)) gdims := accepted_iff hg

/-- **C69, progress.** An accepted request succeeds on every process: no process ends in "inconsistent cover" or "not aligned". -/
theorem C69_progress {A : DArr} (hA : C69_Geometry A) {gdims : List Int} (hg : gdims.length = A.shape.length) (ids : Nat → Int) (n : Nat) {stale : Nat → Int}
    (hst : ∀ i, stale i ≤ 0) {R : SReq} (h : R.OK (A.shape.map (·.1)) gdims) (st : St V) :
    (∃ st', WriteOp A gdims ids n stale (reqOf R) st st') ∧ ∃ st', ReadOp A gdims ids n stale (reqOf R) st st' := by
  have hacc := (accepted_iff hg).2 h
  obtain ⟨hp, _, _, _⟩ := accepted_facts hacc
  constructor
  · obtain ⟨st', h'⟩ := exec_exists n (fun p => (items A stale (ids p) (reqOf R).dlo (reqOf R).dhi).map (·.flatMap writeActs)) (reqOf R) st (by
      intro p _
      obtain ⟨L, hL, _⟩ := items_ok hA.2.1 hA.2.2 hA.1 hst hp (ids p)
      exact ⟨_, by rw [hL]; rfl⟩)
    exact ⟨st', hacc, h'⟩
  · obtain ⟨st', h'⟩ := exec_exists n (fun p => (items A stale (ids p) (reqOf R).dlo (reqOf R).dhi).map (·.flatMap readActs)) (reqOf R) st (by
      intro p _
      obtain ⟨L, hL, _⟩ := items_ok hA.2.1 hA.2.2 hA.1 hst hp (ids p)
      exact ⟨_, by rw [hL]; rfl⟩)
    exact ⟨st', hacc, h'⟩

/-- **C69, the files.** An array in one file occupies exactly the first `dims[0]*dims[1]*...` elements: a write of the whole array changes no other
place. -/
theorem C69_extent {A : DArr} (hA : C69_Geometry A) (h1 : A.multi = false) {gdims : List Int} {ids : Nat → Int} {n : Nat}
    (hid : C69_OneEach ids n A.ioprocs) {stale : Nat → Int} (hst : ∀ i, stale i ≤ 0) {R : SReq} {st st' : St V}
    (h : WriteOp A gdims ids n stale (reqOf R) st st') (f o : Int) (hfo : f ≠ 0 ∨ o < 0 ∨ (A.shape.map (·.1)).prod ≤ o) : st'.disk f o = st.disk f o := by
  obtain ⟨_, _, h3⟩ := writeOp_effect hA.2.1 hA.2.2 hA.1 hst ⟨hid.1, hid.2⟩ h.1 h
  apply h3
  intro x hx _ he
  unfold loc at he
  rw [h1] at he
  simp only [Bool.false_eq_true, if_false, Prod.mk.injEq] at he
  have hr := place1_range hA.2.1 hx
  have hp : prodI (A.shape.map (·.1)) = (A.shape.map (·.1)).prod := by
    induction A.shape.map (·.1) with
    | nil => simp [prodI]
    | cons a l ih => simp [prodI, ih]
  rw [hp] at hr
  omega

/-! ## I/O processes -/

private theorem clNode_replicate {N m me : Nat} (hm : 0 < m) (h : me < N * m) : clNode (List.replicate N m) me = me / m := by
  induction N generalizing me with
  | zero => simp at h
  | succ N ih =>
    rw [List.replicate_succ, clNode]
    split
    · rw [Nat.div_eq_of_lt (by assumption)]
    · rename_i hlt
      have e : (N + 1) * m = N * m + m := by ring
      rw [ih (by omega)]
      rw [← Nat.add_div_right _ hm]
      congr 1
      omega

/-- **C69, I/O processes.** On nodes with the same number of processes every array has its I/O processes, one for each rank, whatever number of files
and I/O processes is asked for. -/
theorem C69_io_uniform (N m : Nat) (hN : 0 < N) (hm : 0 < m) (dims chunk : List Int) (numfiles numioprocs : Int) :
    C69_OneEach (createId false (List.replicate N m) numfiles numioprocs) (N * m) (create false (List.replicate N m) dims chunk numfiles numioprocs).ioprocs ∧
      0 < (create false (List.replicate N m) dims chunk numfiles numioprocs).ioprocs := by
  have hNm : 0 < N * m := Nat.mul_pos hN hm
  have hsum : (List.replicate N m).sum = N * m := by simp
  have hlen : (List.replicate N m).length = N := by simp
  have hpos : 0 < (setConfig (List.replicate N m).length (List.replicate N m).sum numfiles numioprocs).2 := by
    unfold setConfig
    rw [hsum, hlen]
    dsimp only
    split_ifs <;> omega
  have hnode : ∀ me, me < N * m → (List.replicate N m).getD (clNode (List.replicate N m) me) 0 = m := by
    intro me h
    rw [clNode_replicate hm h]
    have : me / m < N := Nat.div_lt_of_lt_mul (by rw [Nat.mul_comm]; exact h)
    rw [List.getD_eq_getElem?_getD, List.getElem?_replicate, if_pos this]
    rfl
  generalize hio : (setConfig (List.replicate N m).length (List.replicate N m).sum numfiles numioprocs).2 = io at hpos
  have hid : ∀ me, me < N * m → createId false (List.replicate N m) numfiles numioprocs me =
      if io = 1 then (if me = 0 then 0 else -1) else if ((me % m * N + me / m : Nat) : Int) < io then ((me % m * N + me / m : Nat) : Int) else -1 := by
    intro me h
    unfold createId ioNode
    rw [hio]
    simp only [Bool.false_eq_true, if_false]
    rw [hnode me h, hlen]
    have : (me - me % m) / m = me / m := by
      have e := Nat.div_add_mod me m
      have : me - me % m = m * (me / m) := by omega
      rw [this, Nat.mul_div_cancel_left _ hm]
    rw [this]
  have hios : (create false (List.replicate N m) dims chunk numfiles numioprocs).ioprocs = min ((N * m : Nat) : Int) io := by
    unfold create ioProcs
    dsimp only
    rw [hio, hsum]
    simp
  rw [hios]
  refine ⟨⟨?_, ?_⟩, by omega⟩
  · intro p q hp hq h0 he
    rw [hid p hp] at h0 he
    rw [hid q hq] at he
    split at he
    · rename_i h1
      rw [if_pos h1] at h0
      split at he
      · split at he
        · omega
        · omega
      · rename_i hp0; rw [if_neg hp0] at h0; omega
    · rename_i h1
      rw [if_neg h1] at h0
      split at he
      · split at he
        · have hpd : p / m < N := Nat.div_lt_of_lt_mul (by rw [Nat.mul_comm]; exact hp)
          have hqd : q / m < N := Nat.div_lt_of_lt_mul (by rw [Nat.mul_comm]; exact hq)
          have e : p % m * N + p / m = q % m * N + q / m := by exact_mod_cast he
          have e1 : p % m = q % m := by
            have a := congrArg (· / N) e
            rw [Nat.add_comm, Nat.add_mul_div_right _ _ hN, Nat.div_eq_of_lt hpd, Nat.add_comm (q % m * N), Nat.add_mul_div_right _ _ hN, Nat.div_eq_of_lt hqd] at a
            omega
          rw [e1] at e
          have e2 : p / m = q / m := by omega
          rw [← Nat.div_add_mod p m, ← Nat.div_add_mod q m, e1, e2]
        · omega
      · rename_i hp0; rw [if_neg hp0] at h0; omega
  · intro k hk0 hk1
    by_cases h1 : io = 1
    · refine ⟨0, hNm, ?_⟩
      rw [hid 0 hNm, if_pos h1, if_pos rfl]
      omega
    · have hkn : k.toNat < N * m := by omega
      have hd : k.toNat / N < m := Nat.div_lt_of_lt_mul hkn
      have hmo := Nat.mod_lt k.toNat hN
      have hlt : k.toNat % N * m + k.toNat / N < N * m := by
        have : k.toNat % N * m + m ≤ N * m := by
          have : (k.toNat % N + 1) * m ≤ N * m := Nat.mul_le_mul_right _ hmo
          rw [Nat.add_mul, Nat.one_mul] at this
          exact this
        omega
      refine ⟨k.toNat % N * m + k.toNat / N, hlt, ?_⟩
      rw [hid _ hlt, if_neg h1]
      have e1 : (k.toNat % N * m + k.toNat / N) % m = k.toNat / N := by
        rw [Nat.add_comm, Nat.add_mul_mod_self_right, Nat.mod_eq_of_lt hd]
      have e2 : (k.toNat % N * m + k.toNat / N) / m = k.toNat % N := by
        rw [Nat.add_comm, Nat.add_mul_div_right _ _ hm, Nat.div_eq_of_lt hd, Nat.zero_add]
      rw [e1, e2, Nat.mul_comm, Nat.div_add_mod]
      rw [if_pos (by omega)]
      omega

private theorem clNode_first {cl : List Nat} (h1 : ∀ c ∈ cl, 0 < c) {k : Nat} (hk : k < cl.length) :
    clNode cl (cl.take k).sum = k ∧ (cl.take k).sum < cl.sum := by
  induction cl generalizing k with
  | nil => simp at hk
  | cons c cl ih =>
    have hc := h1 c List.mem_cons_self
    cases k with
    | zero => simp [clNode, hc]
    | succ k =>
      obtain ⟨a, b⟩ := ih (fun c hc => h1 c (List.mem_cons_of_mem _ hc)) (k := k) (by simpa using hk)
      rw [List.take_succ_cons, List.sum_cons, List.sum_cons, clNode, if_neg (by omega), Nat.add_sub_cancel_left, a]
      exact ⟨rfl, by omega⟩

/-- **C69, I/O processes with independent files.** If every node has its own disk the first process of each node does the I/O: all ranks are there on
every cluster. -/
theorem C69_io_indep (cl : List Nat) (hne : cl ≠ []) (h1 : ∀ c ∈ cl, 0 < c) (dims chunk : List Int) (numfiles numioprocs : Int) :
    C69_OneEach (createId true cl numfiles numioprocs) cl.sum (create true cl dims chunk numfiles numioprocs).ioprocs ∧
      0 < (create true cl dims chunk numfiles numioprocs).ioprocs := by
  have hle : cl.length ≤ cl.sum := by
    clear hne
    induction cl with
    | nil => simp
    | cons c cl ih =>
      have := h1 c List.mem_cons_self
      have := ih fun c hc => h1 c (List.mem_cons_of_mem _ hc)
      simp only [List.length_cons, List.sum_cons]
      omega
  have hlen : 0 < cl.length := List.length_pos_iff.2 hne
  have hios : (create true cl dims chunk numfiles numioprocs).ioprocs = cl.length := by
    unfold create ioProcs
    simp only [if_true]
    omega
  have hid : ∀ me, createId true cl numfiles numioprocs me = if me = (cl.take (clNode cl me)).sum then (clNode cl me : Int) else -1 := fun me => by
    simp [createId, ioNode]
  rw [hios]
  refine ⟨⟨?_, ?_⟩, by omega⟩
  · intro p q hp hq h0 he
    rw [hid] at h0 he
    rw [hid] at he
    split at he
    · split at he
      · rename_i a b
        have : clNode cl p = clNode cl q := by exact_mod_cast he
        rw [a, b, this]
      · omega
    · rename_i a; rw [if_neg a] at h0; omega
  · intro k hk0 hk1
    obtain ⟨a, b⟩ := clNode_first h1 (k := k.toNat) (by omega)
    refine ⟨_, b, ?_⟩
    rw [hid, a, if_pos rfl]
    omega

/-! ## concrete cases -/

instance (ddims gdims : List Int) (R : SReq) : Decidable (R.OK ddims gdims) := by unfold SReq.OK PatchOK; infer_instance

/-- a 10 x 7 array with blocks 4 x 3 in two files on two nodes of two processes, and a request that is not aligned with the blocks -/
example : C69_Geometry (create false [2, 2] [10, 7] [4, 3] 2 (-1)) ∧ (create false [2, 2] [10, 7] [4, 3] 2 (-1)).multi = true ∧
    C69_OneEach (createId false [2, 2] 2 (-1)) 4 (create false [2, 2] [10, 7] [4, 3] 2 (-1)).ioprocs ∧
    (⟨true, [2, 2], [9, 6], [1, 1], [5, 8]⟩ : SReq).OK [10, 7] [5, 8] :=
  ⟨by unfold C69_Geometry; decide, by decide, (C69_io_uniform 2 2 (by decide) (by decide) [10, 7] [4, 3] 2 (-1)).1, by decide⟩

/-- the array on a cluster with own disks and nodes of different size -/
example : C69_OneEach (createId true [3, 1, 2] (-1) (-1)) 6 (create true [3, 1, 2] [10, 7] [4, 3] (-1) (-1)).ioprocs :=
  (C69_io_indep [3, 1, 2] (by decide) (by decide) [10, 7] [4, 3] (-1) (-1)).1

/-- a program with a transposed write and a read runs -/
example (st : St Int) : ∃ st', Run (create false [2, 2] [10, 7] [4, 3] 2 (-1)) [5, 8] (createId false [2, 2] 2 (-1)) 4 (fun _ _ => 0) st
    [.setGa (fun x => x.sum), .write ⟨true, [2, 2], [9, 6], [1, 1], [5, 8]⟩, .read ⟨false, [3, 3], [7, 5], [1, 1], [5, 3]⟩] st' := by
  have hA : C69_Geometry (create false [2, 2] [10, 7] [4, 3] 2 (-1)) := by unfold C69_Geometry; decide
  have h6 : (create false [2, 2] [10, 7] [4, 3] 2 (-1)).shape.length ≤ 6 := by decide
  obtain ⟨st1, h1⟩ := (C69_progress hA (gdims := [5, 8]) rfl (createId false [2, 2] 2 (-1)) 4 (stale := fun _ => 0) (fun _ => le_refl 0)
    (R := ⟨true, [2, 2], [9, 6], [1, 1], [5, 8]⟩) (by decide) { st with ga := fun x => x.sum }).1
  obtain ⟨st2, h2⟩ := (C69_progress hA (gdims := [5, 8]) rfl (createId false [2, 2] 2 (-1)) 4 (stale := fun _ => 0) (fun _ => le_refl 0)
    (R := ⟨false, [3, 3], [7, 5], [1, 1], [5, 3]⟩) (by decide) st1).2
  exact ⟨st2, .setGa _ _ _ _ _ (.write _ _ _ 0 _ _ _ h1 (.read _ _ _ 1 _ _ _ h2 (.nil _ _)))⟩

/-! ## what does not hold -/

private def sevenA : DArr := ⟨[(6, 2), (6, 2), (6, 2), (6, 2), (6, 2), (6, 2), (1, 1)], false, 1⟩
private def sevenR1 : SReq := ⟨false, [2, 2, 2, 2, 2, 2, 1], [5, 5, 5, 5, 5, 5, 1], [2, 2, 2, 2, 2, 2, 1], [5, 5, 5, 5, 5, 5, 1]⟩
private def sevenR2 : SReq := ⟨false, [3, 1, 1, 1, 1, 1, 1], [5, 2, 2, 2, 2, 2, 1], [3, 1, 1, 1, 1, 1, 1], [5, 2, 2, 2, 2, 2, 1]⟩

private theorem store_out (R : Req) (t : Item) (st : St V) (p : Nat) (h : R.trans = false) {y : List Int}
    (hne : ∃ x, InPatch (destIdx t.ulo R.dlo R.glo) (destIdx t.uhi R.dlo R.glo) x)
    (hy : ¬ InPatch (destIdx t.ulo R.dlo R.glo) (destIdx t.uhi R.dlo R.glo) y) :
    ([(p, Act.get t), (p, Act.store t)].foldl (step R) st).ga y = st.ga y := by
  simp only [List.foldl_cons, List.foldl_nil, step, moveStore, h, Bool.false_eq_true, if_false]
  exact arrPut_out _ _ _ hne hy

/-- **C69 does not hold with seven dimensions.** All elements of the array on disk are 1. A program reads two sections; after the second, valid
request the element [5,1,1,1,1,1,1] of the global array, inside the section, still has the value from before: the number found before the first
element of `cover` is one the first request has left there. -/
theorem C69_not_seven_dims : ∃ (A : DArr) (gdims : List Int) (R1 R2 : SReq) (st' : St Int) (y : List Int),
    C69_Geometry A ∧ C69_OneEach (fun p => (p : Int)) 1 A.ioprocs ∧ gdims.length = A.shape.length ∧
    R1.OK (A.shape.map (·.1)) gdims ∧ R2.OK (A.shape.map (·.1)) gdims ∧ InPatch R2.glo R2.ghi y ∧
    Run A gdims (fun p => (p : Int)) 1 (fun _ _ => 0) ⟨fun _ _ => 1, fun _ _ => 0, fun _ => 0⟩ [.read R1, .setGa fun _ => 0, .read R2] st' ∧
    st'.ga y = 0 := by
  have hA : C69_Geometry sevenA := by unfold C69_Geometry; decide
  have o1 : sevenR1.OK (sevenA.shape.map (·.1)) [6, 6, 6, 6, 6, 6, 1] := by decide
  have o2 : sevenR2.OK (sevenA.shape.map (·.1)) [6, 6, 6, 6, 6, 6, 1] := by decide
  obtain ⟨st1, h1⟩ := (C69_progress hA (gdims := [6, 6, 6, 6, 6, 6, 1]) rfl (fun p => (p : Int)) 1 (stale := fun _ => 0) (fun _ => le_refl 0) o1
    (⟨fun _ _ => 1, fun _ _ => 0, fun _ => 0⟩ : St Int)).2
  let stale := staleAfter (fun _ => 0) (decomp (fun _ => 0) (axes sevenA.shape sevenR1.dlo sevenR1.dhi)).2
  let t : Item := ⟨[3, 1, 1, 1, 1, 1, 1], [4, 2, 2, 2, 2, 2, 1], [3, 1, 1, 1, 1, 1, 1], [4, 2, 2, 2, 2, 2, 1], 0, 2 * 6 * 6 * 6 * 6 * 6, true⟩
  have hit : items sevenA stale 0 sevenR2.dlo sevenR2.dhi = some [t] := by decide +kernel
  let st2 : St Int := { st1 with ga := fun _ => 0 }
  refine ⟨sevenA, [6, 6, 6, 6, 6, 6, 1], sevenR1, sevenR2, [(0, Act.get t), (0, Act.store t)].foldl (step (reqOf sevenR2)) st2, [5, 1, 1, 1, 1, 1, 1],
    hA, ⟨fun p q hp hq _ _ => by omega, fun k h0 h1 => ⟨0, by omega, by simp [sevenA] at h1 ⊢; omega⟩⟩, rfl, o1, o2, by decide, ?_, ?_⟩
  · refine .read _ _ _ 0 _ _ _ h1 (.setGa _ _ _ _ _ (.read _ _ _ 0 _ _ _ ?_ (.nil _ _)))
    refine ⟨(accepted_iff rfl).2 o2, [(0, Act.get t), (0, Act.store t)], by simp, ?_, rfl⟩
    intro p hp
    have : p = 0 := by omega
    subst this
    show (items sevenA (upd _ _ _ _) _ _ _).map _ = _
    rw [show upd (fun _ _ => 0) 0 stale 0 = stale by simp [upd]]
    show (items sevenA stale 0 sevenR2.dlo sevenR2.dhi).map _ = _
    rw [hit]
    rfl
  · exact store_out _ _ _ _ rfl ⟨[3, 1, 1, 1, 1, 1, 1], by decide⟩ (by decide)

/-- **C69 does not hold on every cluster.** On two nodes, one with two processes and one with one, an array created with the default configuration has
I/O ranks 0 and 1, but no process has rank 1: what is written to the second block is not found again. -/
theorem C69_not_nonuniform : ∃ (A : DArr) (st st' : St Int) (R : SReq),
    A = create false [2, 1] [2] [1] (-1) (-1) ∧ C69_Geometry A ∧ R.OK (A.shape.map (·.1)) [2] ∧ InPatch R.glo R.ghi [2] ∧
    Run A [2] (createId false [2, 1] (-1) (-1)) 3 (fun _ _ => 0) st [.setGa fun _ => 1, .write R, .setGa fun _ => 0, .read R] st' ∧
    st'.ga [1] = 1 ∧ st'.ga [2] = 0 := by
  let A := create false [2, 1] [2] [1] (-1) (-1)
  let R : SReq := ⟨false, [1], [2], [1], [2]⟩
  let t : Item := ⟨[1], [1], [1], [1], 0, 0, true⟩
  let st : St Int := ⟨fun _ _ => 0, fun _ _ => 0, fun _ => 0⟩
  let st1 := [(0, Act.load t), (0, Act.put t)].foldl (step (reqOf R)) { st with ga := fun _ => 1 }
  let st2 := [(0, Act.get t), (0, Act.store t)].foldl (step (reqOf R)) { st1 with ga := fun _ => 0 }
  have hst : ∀ r, staleAfter (fun _ => 0) (decomp (fun _ => 0) (axes A.shape R.dlo R.dhi)).2 = r → r = fun _ => 0 := by
    intro r hr; rw [← hr]; exact staleAfter_zero (by decide) _ _ _
  have h0 : items A (fun _ => 0) 0 [1] [2] = some [t] := by decide +kernel
  have h1 : items A (fun _ => 0) (-1) [1] [2] = some [] := by decide +kernel
  have i0 : createId false [2, 1] (-1) (-1) 0 = 0 := by decide
  have i1 : createId false [2, 1] (-1) (-1) 1 = -1 := by decide
  have i2 : createId false [2, 1] (-1) (-1) 2 = -1 := by decide
  refine ⟨A, st, st2, R, rfl, by unfold C69_Geometry; decide, by decide, by decide, ?_, by decide +kernel, by decide +kernel⟩
  refine .setGa _ _ _ _ _ (.write _ _ _ 0 st1 _ _ ⟨by decide, _, ?_, ?_, rfl⟩ (.setGa _ _ _ _ _ (.read _ _ _ 1 st2 _ _ ⟨by decide, _, ?_, ?_, rfl⟩ (.nil _ _))))
  · simp
  · intro p hp
    match p, hp with
    | 0, _ => show (items A _ (createId false [2, 1] (-1) (-1) 0) [1] [2]).map _ = _; rw [i0, h0]; rfl
    | 1, _ => show (items A _ (createId false [2, 1] (-1) (-1) 1) [1] [2]).map _ = _; rw [i1, h1]; rfl
    | 2, _ => show (items A _ (createId false [2, 1] (-1) (-1) 2) [1] [2]).map _ = _; rw [i2, h1]; rfl
  · simp
  · intro p hp
    match p, hp with
    | 0, _ => show (items A (fun _ => 0) (createId false [2, 1] (-1) (-1) 0) [1] [2]).map _ = _; rw [i0, h0]; rfl
    | 1, _ => show (items A (fun _ => 0) (createId false [2, 1] (-1) (-1) 1) [1] [2]).map _ = _; rw [i1, h1]; rfl
    | 2, _ => show (items A (fun _ => 0) (createId false [2, 1] (-1) (-1) 2) [1] [2]).map _ = _; rw [i2, h1]; rfl

/-- **C69, opening again, does not hold for several files.** An array in two files, written by two processes and opened again by one process (then
`dai_io_procs` is 1): the second element is not found in the first file. -/
theorem C69_not_reopen_files : ∃ (st st1 st' : St Int) (R : SReq), R.OK [2] [2] ∧
    Run ⟨[(2, 1)], true, ioProcs false [2] 2⟩ [2] (ioNode false [2] 2) 2 (fun _ _ => 0) st [.setGa fun _ => 1, .write R] st1 ∧
    Run ⟨[(2, 1)], true, ioProcs false [1] 2⟩ [2] (ioNode false [1] 2) 1 (fun _ _ => 0) st1 [.setGa fun _ => 0, .read R] st' ∧
    C69_OneEach (ioNode false [1] 2) 1 (ioProcs false [1] 2) ∧ st'.ga [1] = 1 ∧ st'.ga [2] = 0 := by
  let A : DArr := ⟨[(2, 1)], true, ioProcs false [2] 2⟩
  let B : DArr := ⟨[(2, 1)], true, ioProcs false [1] 2⟩
  let R : SReq := ⟨false, [1], [2], [1], [2]⟩
  let t : Item := ⟨[1], [1], [1], [1], 0, 0, true⟩
  let u : Item := ⟨[2], [2], [2], [2], 1, 0, true⟩
  let v : Item := ⟨[2], [2], [2], [2], 0, 1, true⟩
  let st : St Int := ⟨fun _ _ => 0, fun _ _ => 0, fun _ => 0⟩
  let st1 := [(0, Act.load t), (0, Act.put t), (1, Act.load u), (1, Act.put u)].foldl (step (reqOf R)) { st with ga := fun _ => 1 }
  let st2 := [(0, Act.get t), (0, Act.store t), (0, Act.get v), (0, Act.store v)].foldl (step (reqOf R)) { st1 with ga := fun _ => 0 }
  have h0 : items A (fun _ => 0) 0 [1] [2] = some [t] := by decide +kernel
  have h1 : items A (fun _ => 0) 1 [1] [2] = some [u] := by decide +kernel
  have h2 : items B (fun _ => 0) 0 [1] [2] = some [t, v] := by decide +kernel
  have i0 : ioNode false [2] 2 0 = 0 := by decide
  have i1 : ioNode false [2] 2 1 = 1 := by decide
  have i2 : ioNode false [1] 2 0 = 0 := by decide
  refine ⟨st, st1, st2, R, by decide, ?_, ?_, ⟨fun p q hp hq _ _ => by omega, fun k h0 h1 => ⟨0, by omega, ?_⟩⟩, by decide +kernel, by decide +kernel⟩
  · refine .setGa _ _ _ _ _ (.write _ _ _ 0 st1 _ _ ⟨by decide, _, ?_, ?_, rfl⟩ (.nil _ _))
    · simp
    · intro p hp
      match p, hp with
      | 0, _ => show (items A _ (ioNode false [2] 2 0) [1] [2]).map _ = _; rw [i0, h0]; rfl
      | 1, _ => show (items A _ (ioNode false [2] 2 1) [1] [2]).map _ = _; rw [i1, h1]; rfl
  · refine .setGa _ _ _ _ _ (.read _ _ _ 0 st2 _ _ ⟨by decide, _, ?_, ?_, rfl⟩ (.nil _ _))
    · simp
    · intro p hp
      match p, hp with
      | 0, _ => show (items B _ (ioNode false [1] 2 0) [1] [2]).map _ = _; rw [i2, h2]; rfl
  · have : ioProcs false [1] 2 = 1 := by decide
    rw [i2]; omega

end GA
