import Verif.Lemmas.TwoSidedEnd

/-!
# C88: one-sided calls, fences and barriers over two-sided MPI

Every process makes its calls (`Spec.Rma.Op`) one after the other; `sched` is any
list of turns of the processes (go on in the call, or receive a message).
`calls (s.loc q).log` are the calls carried out at process `q` (process, number of
the call) in the order in which they were carried out there.
-/

namespace GA

open Spec.Rma
open TwoSided (Turn AI Valid Closed calls)

variable {M R : Type}

/-- every call is for one of the `n` processes -/
abbrev c88Valid (n : Nat) (prog : Nat → List (Op M R)) : Prop :=
  ∀ p, p < n → ∀ op ∈ prog p, ∀ q, op.other = some q → q < n

private theorem c88_inv {n : Nat} {prog : Nat → List (Op M R)} (hv : c88Valid n prog) (mem : Nat → M)
    (sched : List (Nat × Turn)) :
    AI n prog mem (TwoSided.exec n prog sched (TwoSided.start mem)) :=
  AI.exec hv sched (AI.init mem)

/-- **C88, order.**  Under every schedule the calls of a process for the memory of
another are carried out in the order in which they were made, each once, none
left out; nothing else is carried out. -/
theorem C88_order {n : Nat} {prog : Nat → List (Op M R)} (hv : c88Valid n prog) (mem : Nat → M)
    (sched : List (Nat × Turn)) (p q : Nat) (hp : p < n) (hq : q < n) :
    let s := TwoSided.exec n prog sched (TwoSided.start mem)
    (((calls (s.loc q).log).filter fun c => c.1 == p).map fun c => c.2) <+: callsTo (prog p) q ∧
    ∀ c ∈ calls (s.loc q).log, c.1 < n := by
  dsimp only
  have h := c88_inv hv mem sched
  generalize TwoSided.exec n prog sched (TwoSided.start mem) = s at h ⊢
  refine ⟨?_, fun c hc => ?_⟩
  · have h1 : TwoSided.fromLog (s.loc q).log p <+: TwoSided.iss n p (prog p) (s.loc p) q :=
      ⟨_, h.gi.fifo p q hp hq⟩
    rw [← TwoSided.fromLog_calls]
    exact (List.IsPrefix.filterMap _ h1).trans (TwoSided.iss_calls (h.pc p hp) (h.gi.li p hp))
  · obtain ⟨x, hx, he⟩ := List.mem_filterMap.1 hc
    have := h.src q hq x hx
    cases hk : x.2 with
    | none => rw [hk] at he; exact absurd he (by simp)
    | some k =>
      rw [hk] at he
      simp at he
      rw [← he]; exact this

/-- **C88, memory.**  The memory of a process is what the calls carried out there
make of it, one after the other: updates are atomic and none is lost. -/
theorem C88_memory {n : Nat} {prog : Nat → List (Op M R)} (hv : c88Valid n prog) (mem : Nat → M)
    (sched : List (Nat × Turn)) (q : Nat) (hq : q < n) :
    let s := TwoSided.exec n prog sched (TwoSided.start mem)
    (s.loc q).mem = memory prog (mem q) (calls (s.loc q).log) := by
  dsimp only
  exact (c88_inv hv mem sched).mi.memo q hq

/-- **C88, answers.**  What a get or a read-modify-write returns is what it finds in
the memory it is for, at the moment it is carried out there. -/
theorem C88_answer {n : Nat} {prog : Nat → List (Op M R)} (hv : c88Valid n prog) (mem : Nat → M)
    (sched : List (Nat × Turn)) (p k : Nat) (hp : p < n) (v : R) :
    let s := TwoSided.exec n prog sched (TwoSided.start mem)
    (s.loc p).rep k = some v → ∃ q, q < n ∧ (prog p)[k]?.bind Op.target = some q ∧
      ∃ a b, calls (s.loc q).log = a ++ (p, k) :: b ∧
        result prog (memory prog (mem q) a) (p, k) = some v := by
  dsimp only
  exact (c88_inv hv mem sched).mi.rep p k v hp

/-- **C88, own updates.**  A get or read-modify-write finds the effect of the calls
the same process made before for the same memory: no fence is needed. -/
theorem C88_read_own {n : Nat} {prog : Nat → List (Op M R)} (hv : c88Valid n prog) (mem : Nat → M)
    (sched : List (Nat × Turn)) (p q k j : Nat) (hp : p < n) (v : R) (hkj : k < j)
    (hk : (prog p)[k]?.bind Op.target = some q) (hj : (prog p)[j]?.bind Op.target = some q) :
    let s := TwoSided.exec n prog sched (TwoSided.start mem)
    (s.loc p).rep j = some v → ∃ a b, calls (s.loc q).log = a ++ (p, j) :: b ∧ (p, k) ∈ a ∧
      result prog (memory prog (mem q) a) (p, j) = some v := by
  intro s hr
  obtain ⟨q', hq, ht, a, b, hab, hres⟩ := C88_answer hv mem sched p j hp v hr
  rw [hj] at ht
  cases ht
  refine ⟨a, b, hab, ?_, hres⟩
  obtain ⟨t, ht⟩ := (C88_order hv mem sched p q hp hq).1
  rw [show calls ((TwoSided.exec n prog sched (TwoSided.start mem)).loc q).log = a ++ (p, j) :: b from hab] at ht
  rw [List.filter_append, List.map_append, List.filter_cons] at ht
  simp only [beq_self_eq_true, if_true, List.map_cons, List.append_assoc, List.cons_append] at ht
  have hs : (callsTo (prog p) q).Pairwise (· < ·) := List.Pairwise.filter _ List.pairwise_lt_range
  have hkm : k ∈ callsTo (prog p) q := by
    unfold callsTo
    rw [List.mem_filter, List.mem_range]
    refine ⟨?_, by simp [hk]⟩
    cases hx : (prog p)[k]? with
    | none => rw [hx] at hk; exact absurd hk (by simp)
    | some op => exact TwoSided.lt_of_some hx
  rw [← ht] at hs hkm
  rcases List.mem_append.1 hkm with h1 | h1
  · obtain ⟨c, hc, he⟩ := List.mem_map.1 h1
    rw [List.mem_filter] at hc
    obtain ⟨c1, c2⟩ := c
    have h2 : c1 = p := by simpa using hc.2
    dsimp only at he
    rw [← h2, ← he]; exact hc.1
  · exfalso
    rcases List.mem_cons.1 h1 with h1 | h1
    · omega
    · have := (List.pairwise_cons.1 (List.pairwise_append.1 hs).2.1).1 k h1
      omega

/-- **C88, completion of reads.**  When a wait has returned, the gets before it have
their answers; when a read-modify-write has returned, it has its answer. -/
theorem C88_wait {n : Nat} {prog : Nat → List (Op M R)} (hv : c88Valid n prog) (mem : Nat → M)
    (sched : List (Nat × Turn)) (p : Nat) (hp : p < n) :
    let s := TwoSided.exec n prog sched (TwoSided.start mem)
    (∀ j k q r, j < (s.loc p).pc → (prog p)[j]? = some .wait → k < j →
      (prog p)[k]? = some (.get q r) → (s.loc p).rep k ≠ none) ∧
    (∀ k q f r, k < (s.loc p).pc → (prog p)[k]? = some (.rmw q f r) → (s.loc p).rep k ≠ none) := by
  dsimp only
  have h := (c88_inv hv mem sched).mi.la p hp
  exact ⟨h.wait, h.rmw⟩

/-- **C88, fence.**  When a fence has returned, the updates the process made before
for that process (for all, after a fence for all) have been carried out. -/
theorem C88_fence {n : Nat} {prog : Nat → List (Op M R)} (hv : c88Valid n prog) (mem : Nat → M)
    (sched : List (Nat × Turn)) (p q j k : Nat) (hp : p < n) (f : M → M) :
    let s := TwoSided.exec n prog sched (TwoSided.start mem)
    j < (s.loc p).pc → (prog p)[j]? = some (.fence q) ∨ (prog p)[j]? = some .fenceAll →
    k < j → (prog p)[k]? = some (.upd q f) → (p, k) ∈ calls (s.loc q).log := by
  dsimp only
  have h := c88_inv hv mem sched
  generalize TwoSided.exec n prog sched (TwoSided.start mem) = s at h ⊢
  intro hj hf hkj hk
  have hq : q < n := hv p hp _ (List.mem_of_getElem? hk) q rfl
  have ht : (prog p)[k]?.bind Op.target = some q := by rw [hk]; rfl
  have h1 : some k ∈ TwoSided.iss n p (prog p) (s.loc p) q := by
    unfold TwoSided.iss
    refine List.mem_append_left _ (List.mem_filterMap.2 ⟨k, ?_, TwoSided.callItem_target ht⟩)
    rw [List.mem_range]; omega
  rw [← h.gi.fifo p q hp hq] at h1
  rcases List.mem_append.1 h1 with h1 | h1
  · exact List.mem_filterMap.2 ⟨_, TwoSided.mem_fromLog h1, rfl⟩
  · exfalso
    obtain ⟨m, hm, he⟩ := List.mem_filterMap.1 h1
    have hok := h.mi.msg p q hp hq m hm
    cases m with
    | upd k' f' =>
      have : k' = k := by simpa [TwoSided.item] using he
      subst this
      have := (h.fi.upk p q hp hq _ _ hm).2 j hkj hj
      rcases hf with hf | hf
      · exact this.1 hf
      · exact this.2 hf
    | get k' r =>
      have : k' = k := by simpa [TwoSided.item] using he
      subst this
      have hok : (prog p)[k']? = some (.get q r) := hok
      rw [hk] at hok; exact absurd hok (by simp)
    | rmw k' f' r =>
      have : k' = k := by simpa [TwoSided.item] using he
      subst this
      have hok : (prog p)[k']? = some (.rmw q f' r) := hok
      rw [hk] at hok; exact absurd hok (by simp)
    | _ => simp [TwoSided.item] at he

/-- **C88, barrier.**  When one process has returned from its `b`-th barrier, every
process has made all its calls before its own `b`-th barrier, and all of them have
been carried out, at every process: a barrier is also a fence. -/
theorem C88_barrier {n : Nat} {prog : Nat → List (Op M R)} (hv : c88Valid n prog) (mem : Nat → M)
    (sched : List (Nat × Turn)) (p p' q k b : Nat) (hp : p < n) (hp' : p' < n) (hq : q < n) :
    let s := TwoSided.exec n prog sched (TwoSided.start mem)
    b ≤ bars (prog p) (s.loc p).pc → bars (prog p') k < b →
    ((prog p')[k]? ≠ some .barrier → k < (s.loc p').pc) ∧
    ((prog p')[k]?.bind Op.target = some q → (p', k) ∈ calls (s.loc q).log) := by
  dsimp only
  have h := c88_inv hv mem sched
  generalize TwoSided.exec n prog sched (TwoSided.start mem) = s at h ⊢
  intro hb hk
  have h1 := TwoSided.barrier_logged h hp hb hp' hq hk
  exact ⟨h1.1, fun ht => List.mem_filterMap.2 ⟨_, h1.2 ht, rfl⟩⟩

/-- Every process ends with a barrier (`comex_finalize`) and all call the barrier
equally often. -/
abbrev c88Closed (n : Nat) (prog : Nat → List (Op M R)) : Prop :=
  (∀ p, p < n → ∃ pre, prog p = pre ++ [.barrier]) ∧
  ∀ p q, p < n → q < n → bars (prog p) (prog p).length = bars (prog q) (prog q).length

private theorem c88_all {n : Nat} {prog : Nat → List (Op M R)} (hcl : c88Closed n prog)
    {mem : Nat → M} {s : TwoSided.State M R} (h : AI n prog mem s) (hd : TwoSided.Done n prog s)
    {p q : Nat} (hp : p < n) (hq : q < n) :
    (((calls (s.loc q).log).filter fun c => c.1 == p).map fun c => c.2) = callsTo (prog p) q := by
  have h1 : TwoSided.fromLog (s.loc q).log p <+: TwoSided.iss n p (prog p) (s.loc p) q :=
    ⟨_, h.gi.fifo p q hp hq⟩
  rw [← TwoSided.fromLog_calls]
  have h2 := (List.IsPrefix.filterMap id h1).trans (TwoSided.iss_calls (h.pc p hp) (h.gi.li p hp))
  have hs : (callsTo (prog p) q).Nodup :=
    (List.Pairwise.filter _ List.pairwise_lt_range : (callsTo (prog p) q).Pairwise (· < ·)).imp (fun h => Nat.ne_of_lt h)
  have hin : ∀ k ∈ callsTo (prog p) q, k ∈ (TwoSided.fromLog (s.loc q).log p).filterMap id := by
    intro k hk
    unfold callsTo at hk
    rw [List.mem_filter, List.mem_range] at hk
    have ht : (prog p)[k]?.bind Op.target = some q := by simpa using hk.2
    obtain ⟨pre, hpre⟩ := hcl.1 p hp
    have hb := TwoSided.closed_lt hpre hk.1
    have := (TwoSided.barrier_logged h hp (b := bars (prog p) (prog p).length) (by rw [(hd p hp).1]; exact Nat.le_refl _) hp hq (k := k) (by omega)).2 ht
    refine List.mem_filterMap.2 ⟨some k, ?_, rfl⟩
    exact List.mem_filterMap.2 ⟨_, this, by simp⟩
  obtain ⟨t, ht⟩ := h2
  cases t with
  | nil => rw [List.append_nil] at ht; exact ht
  | cons k t =>
    exfalso
    have hk := hin k (by rw [← ht]; simp)
    rw [← ht] at hs
    exact (List.nodup_append.1 hs).2.2 k hk k (by simp) rfl

/-- **C88, no deadlock.**  If no process can take a turn, all calls of all
processes have returned. -/
theorem C88_no_deadlock {n : Nat} {prog : Nat → List (Op M R)} (hv : c88Valid n prog)
    (hcl : c88Closed n prog) (mem : Nat → M) (sched : List (Nat × Turn))
    (hst : ∀ p t, p < n →
      TwoSided.step n prog p t (TwoSided.exec n prog sched (TwoSided.start mem)) = none) :
    TwoSided.Done n prog (TwoSided.exec n prog sched (TwoSided.start mem)) :=
  TwoSided.stuck_done hv hcl (c88_inv hv mem sched) hst

/-- **C88, end.**  If turns are given for ever so that every process is given each
kind of turn again and again, all calls return, and then every call has been
carried out once, in the order in which its process made it. -/
theorem C88_end {n : Nat} {prog : Nat → List (Op M R)} (hv : c88Valid n prog)
    (hcl : c88Closed n prog) (mem : Nat → M) (σ : Nat → Nat × Turn)
    (hfair : ∀ p t, p < n → (∀ q, t = Turn.recv q → q < n) → ∀ i, ∃ j, i ≤ j ∧ σ j = (p, t)) :
    ∃ t, let s := TwoSided.exec n prog ((List.range t).map σ) (TwoSided.start mem)
      TwoSided.Done n prog s ∧ ∀ q, q < n →
        (∀ p, p < n →
          (((calls (s.loc q).log).filter fun c => c.1 == p).map fun c => c.2) = callsTo (prog p) q) ∧
        (s.loc q).mem = memory prog (mem q) (calls (s.loc q).log) := by
  have hi : ∀ t, AI n prog mem (TwoSided.runTo n prog σ (TwoSided.start mem) t) :=
    fun t => c88_inv hv mem _
  obtain ⟨t, -, hd⟩ := TwoSided.fair_done hv hcl hi hfair _ 0 rfl
  exact ⟨t, hd, fun q hq => ⟨fun p hp => c88_all hcl (hi t) hd hp hq, (hi t).mi.memo q hq⟩⟩

/-! ## the last barrier is needed -/

private def lone (p : Nat) : List (Op Nat Nat) :=
  if p = 0 then [.rmw 1 (· + 1) id] else []

private theorem lone_inv : ∀ (sched : List (Nat × Turn)) (s : TwoSided.State Nat Nat),
    (s.loc 1).ph = .run → (s.loc 1).pc = 0 → s.chan 1 0 = [] → s.chan 0 0 = [] → (s.loc 0).pc = 0 →
    ((s.loc 0).ph = .run ∨ ((s.loc 0).ph = .rmw ∧ (s.loc 0).notify = true)) →
    ((TwoSided.exec 2 lone sched s).loc 0).pc = 0
  | [], _, _, _, _, _, h, _ => h
  | (p, t) :: ts, s, h1, h2, h3, h4, h5, h6 => by
      simp only [TwoSided.exec]
      cases hs : TwoSided.step 2 lone p t s with
      | none => exact lone_inv ts s h1 h2 h3 h4 h5 h6
      | some s' =>
        rw [Option.getD_some]
        unfold TwoSided.step at hs
        split at hs
        · exact absurd hs (by simp)
        · rename_i hp
          by_cases e : p = 1
          · subst e
            exfalso
            cases t with
            | own => simp [TwoSided.own, h1, h2, lone] at hs
            | recv q => simp [h2, lone] at hs
          · have : p = 0 := by omega
            subst this
            cases t with
            | recv q =>
              exfalso
              dsimp only at hs
              split at hs
              · exact absurd hs (by simp)
              · rename_i hq
                have hq : q = 0 ∨ q = 1 := by omega
                rcases hq with hq | hq <;> subst hq <;> simp [h3, h4] at hs
            | own =>
              rcases h6 with h6 | ⟨h6, h7⟩
              · simp [TwoSided.own, h6, h5, lone] at hs
                rw [← hs]
                apply lone_inv ts <;> simp [TwoSided.set1, TwoSided.push, h1, h2, h3, h4, h5]
              · simp [TwoSided.own, h6, h7] at hs

/-- **C88, the last barrier is needed.**  A process carries out the requests of
others only inside its own calls: if process 1 makes no call, a read-modify-write
of process 0 for its memory never returns. -/
theorem C88_needs_barrier (sched : List (Nat × Turn)) :
    ∃ (prog : Nat → List (Op Nat Nat)), prog 1 = [] ∧ prog 0 = [.rmw 1 (· + 1) id] ∧
      c88Valid 2 prog ∧
      ((TwoSided.exec 2 prog sched (TwoSided.start fun _ => 0)).loc 0).pc = 0 := by
  refine ⟨lone, rfl, rfl, ?_, ?_⟩
  · intro p hp op hop q hq
    by_cases e : p = 0
    · subst e
      simp [lone] at hop
      subst hop
      simp [Op.other, Op.target] at hq
      omega
    · simp [lone, e] at hop
  · exact lone_inv sched _ rfl rfl rfl rfl rfl (.inl rfl)

/-! ## the hypotheses can be met -/

/-- process 0 updates, reads and fences the memory of process 1 -/
private def demo (p : Nat) : List (Op Nat Nat) :=
  if p = 0 then [.upd 1 (· + 5), .get 1 id, .wait, .fence 1, .rmw 1 (· * 2) id, .barrier]
  else [.upd 0 (· + 1), .rmw 1 (· + 100) id, .barrier]

private def rr (i : Nat) : Nat × Turn :=
  match i % 6 with
  | 0 => (0, .own)
  | 1 => (0, .recv 0)
  | 2 => (0, .recv 1)
  | 3 => (1, .own)
  | 4 => (1, .recv 0)
  | _ => (1, .recv 1)

example : c88Valid 2 demo ∧ c88Closed 2 demo := by
  refine ⟨?_, ?_, ?_⟩
  · intro p hp op hop q hq
    by_cases e : p = 0
    · subst e
      simp [demo] at hop
      rcases hop with h | h | h | h | h | h <;> subst h <;> simp [Op.other, Op.target] at hq <;> omega
    · simp [demo, e] at hop
      rcases hop with h | h | h <;> subst h <;> simp [Op.other, Op.target] at hq <;> omega
  · intro p hp
    by_cases e : p = 0
    · subst e; exact ⟨[.upd 1 (· + 5), .get 1 id, .wait, .fence 1, .rmw 1 (· * 2) id], rfl⟩
    · exact ⟨[.upd 0 (· + 1), .rmw 1 (· + 100) id], by simp [demo, e]⟩
  · intro p q hp hq
    have : p = 0 ∨ p = 1 := by omega
    have : q = 0 ∨ q = 1 := by omega
    rcases ‹p = 0 ∨ p = 1› with h | h <;> rcases ‹q = 0 ∨ q = 1› with h' | h' <;> subst h <;> subst h' <;> rfl

example : ∀ p t, p < 2 → (∀ q, t = Turn.recv q → q < 2) → ∀ i, ∃ j, i ≤ j ∧ rr j = (p, t) := by
  intro p t hp ht i
  have hp : p = 0 ∨ p = 1 := by omega
  have key : ∀ c, c < 6 → ∃ j, i ≤ j ∧ j % 6 = c := fun c hc => ⟨6 * i + c, by omega, by omega⟩
  cases t with
  | own =>
    rcases hp with hp | hp <;> subst hp
    · obtain ⟨j, h1, h2⟩ := key 0 (by omega); exact ⟨j, h1, by simp [rr, h2]⟩
    · obtain ⟨j, h1, h2⟩ := key 3 (by omega); exact ⟨j, h1, by simp [rr, h2]⟩
  | recv q =>
    have := ht q rfl
    have hq : q = 0 ∨ q = 1 := by omega
    rcases hp with hp | hp <;> rcases hq with hq | hq <;> subst hp <;> subst hq
    · obtain ⟨j, h1, h2⟩ := key 1 (by omega); exact ⟨j, h1, by simp [rr, h2]⟩
    · obtain ⟨j, h1, h2⟩ := key 2 (by omega); exact ⟨j, h1, by simp [rr, h2]⟩
    · obtain ⟨j, h1, h2⟩ := key 4 (by omega); exact ⟨j, h1, by simp [rr, h2]⟩
    · obtain ⟨j, h1, h2⟩ := key 5 (by omega); exact ⟨j, h1, by simp [rr, h2]⟩

private def demoEnd : TwoSided.State Nat Nat :=
  TwoSided.exec 2 demo ((List.range 120).map rr) (TwoSided.start fun _ => 0)

/-- here the update of process 0 comes before the read-modify-write of process 1 -/
example : (demoEnd.loc 0).pc = 6 ∧ (demoEnd.loc 1).pc = 3 ∧ (demoEnd.loc 0).mem = 1 ∧
    (demoEnd.loc 1).mem = 210 ∧ calls (demoEnd.loc 1).log = [(0, 0), (0, 1), (1, 1), (0, 4)] ∧
    (demoEnd.loc 0).rep 1 = some 5 ∧ (demoEnd.loc 0).rep 4 = some 105 ∧
    (demoEnd.loc 1).rep 1 = some 5 := by
  decide +kernel

/-- without a fence an update is not carried out when the call returns -/
example : let s := TwoSided.exec 2 demo [(0, .own)] (TwoSided.start fun _ => 0)
    (s.loc 0).pc = 1 ∧ (s.loc 1).mem = 0 := by
  decide +kernel

end GA
