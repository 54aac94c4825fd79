import Verif.Lemmas.Agg

/-!
# C97: aggregated requests
-/

namespace GA
open Spec.Agg Model.Agg

private theorem valid_of_ok {o : Op} (h : o.Ok) : Valid o := by
  cases o with
  | one => exact h
  | many => exact h.1
  | wait => trivial

private theorem added_eq {o : Op} (h : o.Ok) (k : Nat) : added k o = o.asks k := by
  cases o with
  | one h' => simp only [added, Op.asks, eq_comm]
  | many h' put proc bytes total seg => simp only [added, Op.asks, rounded_eq h.2, eq_comm]
  | wait => rfl

private theorem run_ok {raw : Nat → Buf} {ops : List Op} (hok : ∀ o ∈ ops, o.Ok) {s : St} (hs : run (start raw) ops = some s) :
    Inv s fun k => asked k ops := by
  have h := run_inv (start_inv raw) (fun o ho => valid_of_ok (hok o ho)) hs
  convert h using 1
  funext k
  rw [List.nil_append, asked]
  exact (List.flatMap_congr fun o ho => added_eq (hok o ho) k).symm

/-- **C97, histories.** After a wait for handle `h` exactly the transfers asked for under this handle have been carried out, each one once and in the order of the
calls, whatever other handles were used in between, for every history of contiguous and strided calls, puts of values and waits. Missing: strided calls with more
than 512 segments (`C97_overrun`), vector calls (`C97_vector_again`). -/
theorem C97_history_partial {raw : Nat → Buf} {ops : List Op} (hok : ∀ o ∈ ops, o.Ok) {s : St} {h : Nat} (hs : run (start raw) (ops ++ [.wait h]) = some s) :
    sent s h = asked h ops := by
  rw [run, List.foldlM_append] at hs
  cases hx : ops.foldlM step (start raw) with
  | none => rw [hx] at hs; cases hs
  | some s1 =>
    rw [hx] at hs
    have hs : some (wait s1 h) = some s := by simpa [step] using hs
    cases hs
    exact (wait_inv (run_ok hok hx) h).2

/-- **C97, nothing else.** At every moment what has been carried out for a handle is a beginning of what was asked for. -/
theorem C97_prefix_partial {raw : Nat → Buf} {ops : List Op} (hok : ∀ o ∈ ops, o.Ok) {s : St} (hs : run (start raw) ops = some s) (h : Nat) :
    sent s h <+: asked h ops := by
  have H := run_ok hok hs
  by_cases ha : (s.hdl h).proc < 0
  · rw [H.idle h ha]
    exact List.prefix_refl _
  · by_cases hno : ∀ i ∈ s.used, (s.buf i).tag ≠ (s.hdl h).tag
    · rw [H.fresh h (by omega) hno]
      exact List.prefix_refl _
    · push Not at hno
      obtain ⟨i, hi, ht⟩ := hno
      rw [← H.busy h (by omega) i hi ht]
      exact List.prefix_append _ _

/-- **C97, memory.** For all histories (with any number of segments) there are at most 32 buffers, no buffer is on the lists twice, the pointers of a buffer fit into
its arrays, and the descriptors, which grow upwards, never meet the copied values, which grow downwards. -/
theorem C97_memory {raw : Nat → Buf} {ops : List Op} (hv : ∀ o ∈ ops, match o with
      | .one _ _ _ bytes reg _ _ => reg = true → bytes ≤ 8
      | .many _ _ _ _ total _ => 0 < total
      | .wait _ => True) {s : St} (hs : run (start raw) ops = some s) :
    (s.used ++ s.avail).Nodup ∧ (∀ i ∈ s.used ++ s.avail, i < 32) ∧
    ∀ i ∈ s.used, (s.buf i).ptrLen ≤ 256 ∧ 24 + 24 * ((s.buf i).darr.length : Int) ≤ (s.buf i).bufEnd ∧ (s.buf i).bufEnd ≤ 2048 ∧
      ∀ d ∈ (s.buf i).darr, d.start + d.len ≤ (s.buf i).ptrLen := by
  have H := run_inv (start_inv raw) (fun o ho => by have := hv o ho; cases o <;> exact this) hs
  refine ⟨H.nodup, fun i hi => ?_, fun i hi => ?_⟩
  · have := List.mem_range.1 (H.pool.mem_iff.1 hi)
    have := H.small
    omega
  · obtain ⟨c, p, l, u⟩ := H.ok i hi
    refine ⟨p, l, u, ?_⟩
    have key : ∀ (ds : List Descr) (x : Nat), Chain ds x → ∀ d ∈ ds, d.start + d.len ≤ x := by
      intro ds
      induction ds with
      | nil => simp
      | cons e ds ih =>
        rintro x ⟨h1, h2⟩ d hd
        rcases List.mem_cons.1 hd with rfl | hd
        · omega
        · have := ih e.start h2 d hd
          omega
    exact key _ _ c

/-- **C97, progress.** A call returns if the handle has no requests, or has requests of the same kind to the same process, and fewer than 32 buffers are in use. -/
theorem C97_progress {raw : Nat → Buf} {ops : List Op} (hok : ∀ o ∈ ops, o.Ok) {s : St} (hs : run (start raw) ops = some s) (hu : s.used.length < 32)
    {h : Nat} {put : Bool} {proc : Nat} (hh : (s.hdl h).proc < 0 ∨ (s.hdl h).put = put ∧ (s.hdl h).proc = proc) (bytes : Nat) :
    (∀ reg src dst, step s (.one h put proc bytes reg src dst) ≠ none) ∧ (∀ total seg, 0 < total → step s (.many h put proc bytes total seg) ≠ none) := by
  have H := run_ok hok hs
  obtain ⟨s1, hs1, hu1⟩ : ∃ s1, initHandle s h put proc = some s1 ∧ s1.used = s.used := by
    unfold initHandle
    rcases hh with hh | ⟨h1, h2⟩
    · rw [if_pos hh]
      exact ⟨_, rfl, rfl⟩
    · rw [if_neg (by omega), if_neg (by simp [h1]), if_neg (by simp [h2])]
      exact ⟨_, rfl, rfl⟩
  obtain ⟨H1, e1, e2, -⟩ := init_inv H hs1
  have hb := bufferId_some (s := s1) (by rw [hu1]; exact hu) h
  refine ⟨fun reg src dst => ?_, fun total seg ht => ?_⟩
  · simp only [step, hs1, Option.bind_some, ne_eq, Option.map_eq_none_iff]
    exact pass_some hb _ _ _ _
  · simp only [step, hs1, Option.bind_some]
    exact manyLoop_some H1 (by rw [e2]; omega) hb ht (Nat.le_refl _) ht (by omega) (.inl ⟨rfl, rfl⟩)

/-- A handle in use for another kind of request or another process stops the program. -/
theorem C97_refused {s : St} {h : Nat} {put : Bool} {proc : Nat} (ha : 0 ≤ (s.hdl h).proc) (hne : (s.hdl h).put ≠ put ∨ (s.hdl h).proc ≠ proc) (bytes : Nat) (reg : Bool)
    (src : Src) (dst : Int) : step s (.one h put proc bytes reg src dst) = none := by
  have : initHandle s h put proc = none := by
    unfold initHandle
    rw [if_neg (by omega)]
    split
    · rfl
    · rename_i h1
      rw [if_pos (hne.resolve_left (by simpa using h1))]
  simp [step, this]

/-- **C97, negation: more than 512 segments.** The number of segments still to do is computed from the last part alone, so that the number of segments carried out is
rounded up to a multiple of 256: segments behind the end of the request are transferred. -/
theorem C97_overrun {raw : Nat → Buf} {h : Nat} {put : Bool} {proc bytes total : Nat} {seg : Nat → Src × Int} (ht : 512 < total) (hd : ¬ 256 ∣ total) :
    ∃ s, run (start raw) [.many h put proc bytes total seg, .wait h] = some s ∧
      sent s h = (List.range (256 * ((total + 255) / 256))).map (fun i => ⟨put, proc, bytes, (seg i).1, (seg i).2⟩) ∧ total < 256 * ((total + 255) / 256) := by
  have hp := (C97_progress (raw := raw) (ops := []) (by simp) rfl (by simp [start]) (h := h) (put := put) (proc := proc) (.inl (by simp [start])) bytes).2 total seg (by omega)
  obtain ⟨s1, hs1⟩ := Option.ne_none_iff_exists'.1 hp
  refine ⟨wait s1 h, by rw [run, List.foldlM_cons, hs1]; rfl, ?_, by omega⟩
  have H := step_inv (start_inv raw) (o := .many h put proc bytes total seg) (by exact Nat.lt_trans (by omega) ht) hs1
  rw [(wait_inv H h).2]
  simp only [added, if_true, List.nil_append, rounded]
  rw [if_neg (by omega)]

/-- **C97, negation: vectors.** A vector whose segments are as large as those of the last descriptor in the buffer is read behind its end: the loop compares with the
length of the descriptor in the buffer, not with that of the vector. -/
theorem C97_vector_again {raw : Nat → Buf} {ops : List Op} (hok : ∀ o ∈ ops, o.Ok) {s : St} (hs : run (start raw) ops = some s) {h i n : Nat} (hn : 0 < n)
    (ha : 0 ≤ (s.hdl h).proc) (hi : findBuf s h = some i) {d : Descr} {ds : List Descr} (hd : (s.buf i).darr = d :: ds) (hlen : 0 < d.len)
    (hroom : (s.buf i).ptrLen + n ≤ 256) (seg : Nat → Src × Int) (fuel : Nat) : vecLoop h d.bytes n seg fuel s n 0 = none := by
  have H := run_ok hok hs
  obtain ⟨hu, ht, -⟩ := find_some hi
  cases fuel with
  | zero => rfl
  | succ fuel =>
    obtain ⟨a1, a2, a3, a4⟩ := addTo_spec (b := s.buf i) (bytes := d.bytes) (m := n) (reg := false) (new := false) (fun j => seg (0 + j)) (H.ok i hu)
      (by rw [hd]; simp) (by have := (H.ok i hu).low; simp only [Bool.false_eq_true, if_false]; omega) hroom
    have H1 := add_inv H ha hu ht a1 a2 a3 a4
    have hb1 : (setBuf s i (addTo (s.buf i) false d.bytes n false fun j => seg (0 + j))).buf i = addTo (s.buf i) false d.bytes n false fun j => seg (0 + j) := if_pos rfl
    have hd1 : ((setBuf s i (addTo (s.buf i) false d.bytes n false fun j => seg (0 + j))).buf i).darr = { d with len := d.len + n } :: ds := by
      rw [hb1]
      simp [addTo, hd]
    generalize hS : setBuf s i (addTo (s.buf i) false d.bytes n false fun j => seg (0 + j)) = S at *
    have hSh : S.hdl = s.hdl := by rw [← hS]; rfl
    have hSu : S.used = s.used := by rw [← hS]; rfl
    have htS : (S.buf i).tag = (S.hdl h).tag := by rw [hb1, a2, hSh]; exact ht
    have hf1 := H1.find (by rw [hSh]; exact ha) (by rw [hSu]; exact hu) htS
    rw [vecLoop, pass_same H ha hu ht hd hroom]
    dsimp only
    rw [hS, if_neg (by omega), if_neg (by omega), hf1, Option.bind_some, hd1, List.head?_cons]
    dsimp only
    rw [if_pos (by omega), Nat.sub_self, Nat.zero_add]
    cases fuel with
    | zero => rfl
    | succ fuel =>
      have hpl : (S.buf i).ptrLen ≤ 256 := (H1.ok i (by rw [hSu]; exact hu)).ptrs
      have hp2 := pass_same (d := { d with len := d.len + n }) H1 (by rw [hSh]; exact ha) (by rw [hSu]; exact hu) htS hd1 (n := 0) hpl (fun j => seg (n + j))
      obtain ⟨b1, b2, b3, b4⟩ := addTo_spec (b := S.buf i) (bytes := d.bytes) (m := 0) (reg := false) (new := false) (fun j => seg (n + j)) (H1.ok i (by rw [hSu]; exact hu))
        (by rw [hd1]; simp) (by have := (H1.ok i (by rw [hSu]; exact hu)).low; simp only [Bool.false_eq_true, if_false]; omega) hpl
      have H2 := add_inv H1 (h := h) (by rw [hSh]; exact ha) (by rw [hSu]; exact hu) htS b1 b2 b3 b4
      have hb2 : (setBuf S i (addTo (S.buf i) false d.bytes 0 false fun j => seg (n + j))).buf i = addTo (S.buf i) false d.bytes 0 false fun j => seg (n + j) := if_pos rfl
      have hd2 : ((setBuf S i (addTo (S.buf i) false d.bytes 0 false fun j => seg (n + j))).buf i).darr = { d with len := d.len + n } :: ds := by
        rw [hb2]
        simp [addTo, hd1]
      have hf2 := H2.find (h := h) (i := i) (by change 0 ≤ (S.hdl h).proc; rw [hSh]; exact ha) (by change i ∈ S.used; rw [hSu]; exact hu) (by
        rw [hb2, b2]
        exact htS)
      rw [vecLoop, hp2]
      dsimp only
      rw [if_neg (by omega), if_neg (by omega), hf2, Option.bind_some, hd2, List.head?_cons]
      dsimp only
      rw [if_pos (by omega), Nat.sub_zero, Nat.add_zero]
      cases fuel with
      | zero => rfl
      | succ fuel =>
        rw [vecLoop]
        split
        · rfl
        · rename_i s3 m3 hp3
          obtain ⟨q1, -⟩ := pass_inv H2 (by change 0 ≤ (S.hdl h).proc; rw [hSh]; exact ha) (by simp) hp3
          rw [if_pos (by omega)]

/-! ## strided requests -/

private theorem factor_one (c i : Nat) : factorAt [c] i = [i] := by
  induction i with
  | zero => rfl
  | succ i ih => simp [factorAt, ih, bump]

private theorem factor_two {c1 : Nat} (h1 : 0 < c1) (c2 i : Nat) : factorAt [c1, c2] i = [i % c1, i / c1] := by
  induction i with
  | zero => simp [factorAt]
  | succ i ih =>
    have hd := Nat.div_add_mod i c1
    have hm := Nat.mod_lt i h1
    simp only [factorAt, ih, bump, List.length_cons, List.length_nil, List.modify_cons, Nat.zero_add, Nat.add_sub_cancel, List.range_one, List.foldl_cons, List.foldl_nil,
      List.getD_cons_zero]
    by_cases hz : (i + 1) % c1 = 0
    · obtain ⟨q, hq⟩ := Nat.dvd_of_mod_eq_zero hz
      have hq2 : (i + 1) / c1 = i / c1 + 1 := Nat.succ_div_of_dvd ⟨q, hq⟩
      simp [hz, hq2]
    · have hq2 : (i + 1) / c1 = i / c1 := Nat.succ_div_of_not_dvd fun hdv => hz (Nat.mod_eq_zero_of_dvd hdv)
      have hr : (i + 1) % c1 = i % c1 + 1 := by
        have := Nat.div_add_mod (i + 1) c1
        rw [hq2] at this
        omega
      simp [hz, hq2, hr]

/-- **C97, strided requests.** With one or two stride levels segment `i` is the one the caller means. Missing: three and more levels (`C97_three_levels`). -/
theorem C97_offsets_partial :
    (∀ (c : Nat) (stride : Int) (i : Nat), i < c → offsetAt [c] [stride] i = stridedOffset [(c, stride)] i) ∧
    (∀ (c1 c2 : Nat) (stride1 stride2 : Int) (i : Nat), i < c1 * c2 → offsetAt [c1, c2] [stride1, stride2] i = stridedOffset [(c1, stride1), (c2, stride2)] i) := by
  refine ⟨fun c stride i hi => ?_, fun c1 c2 stride1 stride2 i hi => ?_⟩
  · simp [offsetAt, factor_one, stridedOffset, Nat.mod_eq_of_lt hi]
  · have h1 : 0 < c1 := Nat.pos_of_ne_zero (by rintro rfl; simp at hi)
    have h2 : i / c1 < c2 := Nat.div_lt_of_lt_mul hi
    simp [offsetAt, factor_two h1, stridedOffset, Nat.mod_eq_of_lt h2]

/-- **C97, negation: three stride levels.** The counter of the third level goes up every `count[2]` segments, not every `count[1] * count[2]`: of a block of 2 x 3 x 2
segments the fourth one and later ones are wrong. -/
theorem C97_three_levels : ((List.range 12).map fun i => decide (offsetAt [2, 3, 2] [10, 100, 1000] i = stridedOffset [(2, 10), (3, 100), (2, 1000)] i)) =
    [true, true, true, false, false, false, false, false, false, false, false, false] := by decide +kernel

/-! ## concrete cases -/

/-- two handles, a strided put that fills the pointers, a copied value, waits -/
def C97_ex : List Op := [.one 0 true 3 8 false (.addr 100) 200, .many 1 false 5 16 250 (fun i => (.addr (16 * i), 32 * i)), .one 0 true 3 8 true (.value 7) 300,
  .many 1 false 5 16 20 (fun i => (.addr (5000 + i), 6000 + i)), .wait 0, .one 0 false 4 4 false (.addr 1) 2]

private def raw0 : Nat → Buf := fun _ => ⟨9, 9, [⟨5, 5, 5⟩], 77, 1, fun _ => (.addr 9, 9)⟩

example : (∀ o ∈ C97_ex, o.Ok) ∧ (run (start raw0) (C97_ex ++ [.wait 1])).map (fun s => (sent s 0, (sent s 1).length, s.used, s.avail)) =
    some ([⟨true, 3, 8, .addr 100, 200⟩, ⟨true, 3, 8, .value 7, 300⟩], 270, [0], [1]) := by
  refine ⟨?_, by decide +kernel⟩
  intro o ho
  simp only [C97_ex, List.mem_cons, List.not_mem_nil, or_false] at ho
  rcases ho with rfl | rfl | rfl | rfl | rfl | rfl <;> simp [Op.Ok]

/-- the second of two vector puts of the same size -/
example : (run (start raw0) [.one 0 true 3 8 false (.addr 100) 200]).map (fun s => (vecLoop 0 8 2 (fun i => (.addr i, i)) 9 s 2 0).isNone) = some true ∧
    (run (start raw0) [.one 0 true 3 4 false (.addr 100) 200]).map (fun s => (vecLoop 0 8 2 (fun i => (.addr i, i)) 9 s 2 0).isNone) = some false := by decide +kernel

end GA
