import Verif.Lemmas.WinMutex

/-!
# C87: mutexes over MPI windows

However the processes are scheduled, access by access and message by message, at
most one process has a mutex, every call of lock returns if mutexes are locked
in order, and processes 0 and 1 are overtaken at most once and twice; every other
process can be overtaken any number of times.
-/

namespace GA
open WinMutex Spec.LockHist

/-- The mutex exists. -/
def c87Exists (n : Nat) (num : Nat → Nat) (k : Spec.LockHist.Key) : Prop := k.1 < n ∧ k.2 < num k.1

/-- The turns of a schedule that are not lost. -/
def c87Moves (n : Nat) (num : Nat → Nat) : List Nat → WinMutex.State → Nat
  | [], _ => 0
  | p :: l, s =>
      match WinMutex.step n num p s with
      | none => c87Moves n num l s
      | some s' => 1 + c87Moves n num l s'

/-- **C87, mutual exclusion.**  `n` processes, `num p` mutexes on process `p`,
correct programs, any schedule: no assertion fails, and in the history whoever
got a mutex got it while nobody had it. -/
theorem C87_exclusive {n : Nat} {num : Nat → Nat} {prog : Nat → List Spec.LockHist.Op}
    (hp : ∀ p, p < n → Proper (c87Exists n num) [] (prog p)) (sched : List Nat) :
    (WinMutex.exec n num sched (WinMutex.start prog)).failed = false ∧
    Exclusive (WinMutex.exec n num sched (WinMutex.start prog)).hist := by
  obtain ⟨tok, h⟩ := WinMutex.inv_exec (inv_start (n := n) (num := num) hp) sched
  exact ⟨h.nofail, h.excl⟩

/-- **C87, nobody is forgotten.**  If a process waits for a mutex, somebody has
it, or is telling a waiting process that it has it now, or the message is there. -/
theorem C87_no_lost_wakeup {n : Nat} {num : Nat → Nat} {prog : Nat → List Spec.LockHist.Op}
    (hp : ∀ p, p < n → Proper (c87Exists n num) [] (prog p)) (sched : List Nat) (p : Nat)
    (k : Spec.LockHist.Key) :
    let s := WinMutex.exec n num sched (WinMutex.start prog)
    waits p k s.hist = true →
    (∃ q, q < n ∧ holder k s.hist = some q) ∨
    (∃ q r, s.pc q = .send k r ∧ waits r k s.hist = true) ∨
    ∃ r, waits r k s.hist = true ∧ s.mail r (index num k) = 1 := by
  dsimp only
  obtain ⟨tok, h⟩ := WinMutex.inv_exec (inv_start (n := n) (num := num) hp) sched
  generalize WinMutex.exec n num sched (WinMutex.start prog) = s at h ⊢
  intro hw
  rw [h.wait] at hw
  obtain ⟨hk, -, hnf, -⟩ := h.rcv p k (by simpa using hw)
  cases ht : tok k with
  | free => exact absurd ht hnf
  | held q => exact .inl ⟨q, (h.heldlt k q ht).1, by rw [h.hold, ht]; rfl⟩
  | sending q r =>
    exact .inr (.inl ⟨q, r, (h.snd q k r).2 ht, by rw [h.wait]; simpa using (h.toSend k q r ht).1⟩)
  | mailed r =>
    refine .inr (.inr ⟨r, by rw [h.wait]; simpa using h.toMail k r ht, ?_⟩)
    rw [h.mail k hk, if_pos ht]

/-- **C87, all calls return.**  If every process locks mutexes in order, then
under every infinite schedule in which each process gets turns for ever, all
programs end, and every process got every mutex as often as it asked. -/
theorem C87_all_end {n : Nat} {num : Nat → Nat} {prog : Nat → List Spec.LockHist.Op}
    (hp : ∀ p, p < n → Proper (c87Exists n num) [] (prog p))
    (ho : ∀ p, p < n → Ordered [] (prog p)) (σ : Nat → Nat)
    (hfair : ∀ p, p < n → ∀ t, ∃ t', t ≤ t' ∧ σ t' = p) :
    ∃ t, WinMutex.Done n (WinMutex.exec n num ((List.range t).map σ) (WinMutex.start prog)) ∧
      ∀ p, p < n → ∀ k,
        times p k (WinMutex.exec n num ((List.range t).map σ) (WinMutex.start prog)).hist =
          locks k (prog p) := by
  have hi : ∀ t, ∃ tok, WinMutex.Inv n num prog (runTo n num σ (WinMutex.start prog) t) tok :=
    fun t => WinMutex.inv_exec (inv_start hp) _
  obtain ⟨t, -, hd⟩ := fair_done hi ho hfair _ 0 rfl
  refine ⟨t, hd, fun p hpn k => ?_⟩
  obtain ⟨tok, h⟩ := hi t
  have h1 := h.time p hpn k
  rw [(hd p hpn).1, (hd p hpn).2] at h1
  simpa [locks, runTo] using h1

/-- **C87, no deadlock.**  If every process locks mutexes in order, then as long
as not all programs have ended some process can take a turn. -/
theorem C87_no_deadlock {n : Nat} {num : Nat → Nat} {prog : Nat → List Spec.LockHist.Op}
    (hp : ∀ p, p < n → Proper (c87Exists n num) [] (prog p))
    (ho : ∀ p, p < n → Ordered [] (prog p)) (sched : List Nat)
    (hst : ∀ p, p < n →
      WinMutex.step n num p (WinMutex.exec n num sched (WinMutex.start prog)) = none) :
    WinMutex.Done n (WinMutex.exec n num sched (WinMutex.start prog)) := by
  obtain ⟨tok, h⟩ := WinMutex.inv_exec (inv_start (n := n) (num := num) hp) sched
  exact stuck_done h ho hst

/-- **C87, bounded waiting of processes 0 and 1.**  Since process 0 asked for a
mutex at most one other call of lock has returned before its own, since process
1 asked at most two. -/
theorem C87_low_ranks {n : Nat} {num : Nat → Nat} {prog : Nat → List Spec.LockHist.Op}
    (hp : ∀ p, p < n → Proper (c87Exists n num) [] (prog p)) (sched : List Nat) (p : Nat)
    (hp2 : p < 2) (k : Spec.LockHist.Key) :
    let s := WinMutex.exec n num sched (WinMutex.start prog)
    waits p k s.hist = true → passed p k s.hist ≤ p + 1 := by
  dsimp only
  obtain ⟨tok, h⟩ := WinMutex.inv_exec (inv_start (n := n) (num := num) hp) sched
  generalize WinMutex.exec n num sched (WinMutex.start prog) = s at h ⊢
  intro hw
  rw [h.wait] at hw
  have := h.pass p hp2 k (by simpa using hw)
  omega

/-! ## the others can be overtaken for ever -/

/-- `r` times lock, unlock -/
private def again (k : Spec.LockHist.Key) : Nat → List Spec.LockHist.Op
  | 0 => []
  | r + 1 => .lock k :: .unlock k :: again k r

private theorem again_proper (P : Spec.LockHist.Key → Prop) (k : Spec.LockHist.Key) (hk : P k) :
    ∀ r, Proper P [] (again k r)
  | 0 => rfl
  | r + 1 => by simpa [again, Proper, hk] using again_proper P k hk r

private theorem again_ordered (k : Spec.LockHist.Key) : ∀ r, Ordered [] (again k r)
  | 0 => trivial
  | r + 1 => by simpa [again, Ordered] using again_ordered k r

private theorem firstOther_eq {n me q : Nat} {c : Nat → Nat} (hq : q < n) (hne : q ≠ me)
    (hc : c q ≠ 0) (hf : ∀ i, i < q → i ≠ me → c i = 0) : firstOther n me c = some q := by
  cases h : firstOther n me c with
  | none => exact absurd (firstOther_none h hq hne) hc
  | some x =>
    obtain ⟨h1, h2, h3, h4⟩ := firstOther_some h
    by_cases hlt : x < q
    · exact absurd (hf x hlt h2) h3
    · by_cases hgt : q < x
      · exact absurd (h4 q hgt hne) hc
      · rw [show x = q by omega]

/-- process 0 has the mutex, 1 and `p` wait, 0 and 1 have still `r` and `r'` pairs to do -/
private structure Shape (n : Nat) (num : Nat → Nat) (k : Spec.LockHist.Key) (p r c : Nat)
    (s : WinMutex.State) : Prop where
  nofail : s.failed = false
  pc0 : s.pc 0 = .run
  pc1 : s.pc 1 = .recv k
  pcp : s.pc p = .recv k
  w0 : s.win (index num k) 0 ≠ 0
  w1 : s.win (index num k) 1 ≠ 0
  m0 : s.mail 0 (index num k) = 0
  m1 : s.mail 1 (index num k) = 0
  prog0 : s.prog 0 = .unlock k :: again k r
  prog1 : s.prog 1 = .unlock k :: again k r
  wait : waits p k s.hist = true
  pass : passed p k s.hist = c

private theorem round {n : Nat} {num : Nat → Nat} {k : Spec.LockHist.Key} {p r c : Nat}
    {s : WinMutex.State} (hk : c87Exists n num k) (hp : 2 ≤ p) (hpn : p < n)
    (h : Shape n num k p (r + 1) c s) :
    Shape n num k p r (c + 2) (WinMutex.exec n num [0, 0, 1, 0, 1, 1, 0, 1] s) := by
  obtain ⟨h1, h2, h3, h4, h5, h6, h7, h8, h9, h10, h11, h12⟩ := h
  have hlt : ¬ offset num n ≤ index num k := by have := index_lt hk; omega
  have n0 : ¬ n ≤ 0 := by omega
  have n1 : ¬ n ≤ 1 := by omega
  have p0 : ¬ p = 0 := by omega
  have p1 : ¬ p = 1 := by omega
  have p0' : ¬ 0 = p := by omega
  have p1' : ¬ 1 = p := by omega
  obtain ⟨win, mail, pc, prog, hist, failed⟩ := s
  dsimp only at *
  subst h1
  simp only [again] at h9 h10
  generalize hi : index num k = i at *
  have f1 : firstOther n 0 (win i) = some 1 :=
    firstOther_eq (by omega) (by omega) h6 (fun j hj hne => absurd hj (by omega))
  -- 0 unlocks
  have s1 : WinMutex.step n num 0 ⟨win, mail, pc, prog, hist, false⟩ =
      some ⟨setSlot win i 0 0, mail, upd pc 0 (.send k 1), upd prog 0 (.lock k :: .unlock k :: again k r), .freed 0 k :: hist, false⟩ := by
    simp [WinMutex.step, n0, h2, h9, hlt, f1, hi]
  generalize hwin2 : setSlot win i 0 0 = win2 at s1
  generalize hprog2 : upd prog 0 (.lock k :: .unlock k :: again k r) = prog2 at s1
  generalize hpc2 : upd pc 0 (.send k 1) = pc2 at s1
  have w20 : win2 i 0 = 0 := by subst hwin2; simp [setSlot, upd]
  have w21 : win2 i 1 ≠ 0 := by subst hwin2; simpa [setSlot, upd] using h6
  have q20 : prog2 0 = .lock k :: .unlock k :: again k r := by subst hprog2; simp [upd]
  have q21 : prog2 1 = .unlock k :: .lock k :: .unlock k :: again k r := by
    subst hprog2; simpa [upd] using h10
  have c20 : pc2 0 = .send k 1 := by subst hpc2; simp [upd]
  have c21 : pc2 1 = .recv k := by subst hpc2; simpa [upd] using h3
  have c2p : pc2 p = .recv k := by subst hpc2; simpa [upd, p0] using h4
  -- 0 sends
  have s2 : WinMutex.step n num 0 ⟨win2, mail, pc2, prog2, .freed 0 k :: hist, false⟩ =
      some ⟨win2, upd mail 1 (upd (mail 1) i (mail 1 i + 1)), upd pc2 0 .run, prog2, .freed 0 k :: hist, false⟩ := by
    simp [WinMutex.step, n0, c20, hi]
  generalize hmail3 : upd mail 1 (upd (mail 1) i (mail 1 i + 1)) = mail3 at s2
  generalize hpc3 : upd pc2 0 .run = pc3 at s2
  have m30 : mail3 0 i = 0 := by subst hmail3; simpa [upd] using h7
  have m31 : mail3 1 i = 1 := by subst hmail3; simpa [upd] using h8
  have c30 : pc3 0 = .run := by subst hpc3; simp [upd]
  have c31 : pc3 1 = .recv k := by subst hpc3; simpa [upd] using c21
  have c3p : pc3 p = .recv k := by subst hpc3; simpa [upd, p0] using c2p
  -- 1 receives
  have s3 : WinMutex.step n num 1 ⟨win2, mail3, pc3, prog2, .freed 0 k :: hist, false⟩ =
      some ⟨win2, upd mail3 1 (upd (mail3 1) i 0), upd pc3 1 .run, prog2, .got 1 k :: .freed 0 k :: hist, false⟩ := by
    simp [WinMutex.step, n1, c31, hi, m31]
  generalize hmail4 : upd mail3 1 (upd (mail3 1) i 0) = mail4 at s3
  generalize hpc4 : upd pc3 1 .run = pc4 at s3
  have m40 : mail4 0 i = 0 := by subst hmail4; simpa [upd] using m30
  have m41 : mail4 1 i = 0 := by subst hmail4; simp [upd]
  have c40 : pc4 0 = .run := by subst hpc4; simpa [upd] using c30
  have c41 : pc4 1 = .run := by subst hpc4; simp [upd]
  have c4p : pc4 p = .recv k := by subst hpc4; simpa [upd, p1] using c3p
  have f4 : firstOther n 0 (win2 i) = some 1 :=
    firstOther_eq (by omega) (by omega) w21 (fun j hj hne => absurd hj (by omega))
  -- 0 asks again
  have s4 : WinMutex.step n num 0 ⟨win2, mail4, pc4, prog2, .got 1 k :: .freed 0 k :: hist, false⟩ =
      some ⟨setSlot win2 i 0 1, mail4, upd pc4 0 (.recv k), upd prog2 0 (.unlock k :: again k r), .asked 0 k :: .got 1 k :: .freed 0 k :: hist, false⟩ := by
    simp [WinMutex.step, n0, c40, q20, hlt, f4, hi]
  generalize hwin5 : setSlot win2 i 0 1 = win5 at s4
  generalize hprog5 : upd prog2 0 (.unlock k :: again k r) = prog5 at s4
  generalize hpc5 : upd pc4 0 (.recv k) = pc5 at s4
  have w50 : win5 i 0 ≠ 0 := by subst hwin5; simp [setSlot, upd]
  have q50 : prog5 0 = .unlock k :: again k r := by subst hprog5; simp [upd]
  have q51 : prog5 1 = .unlock k :: .lock k :: .unlock k :: again k r := by
    subst hprog5; simpa [upd] using q21
  have c50 : pc5 0 = .recv k := by subst hpc5; simp [upd]
  have c51 : pc5 1 = .run := by subst hpc5; simpa [upd] using c41
  have c5p : pc5 p = .recv k := by subst hpc5; simpa [upd, p0] using c4p
  have f5 : firstOther n 1 (win5 i) = some 0 :=
    firstOther_eq (by omega) (by omega) w50 (fun j hj hne => absurd hj (by omega))
  -- 1 unlocks
  have s5 : WinMutex.step n num 1 ⟨win5, mail4, pc5, prog5, .asked 0 k :: .got 1 k :: .freed 0 k :: hist, false⟩ =
      some ⟨setSlot win5 i 1 0, mail4, upd pc5 1 (.send k 0), upd prog5 1 (.lock k :: .unlock k :: again k r), .freed 1 k :: .asked 0 k :: .got 1 k :: .freed 0 k :: hist, false⟩ := by
    simp [WinMutex.step, n1, c51, q51, hlt, f5, hi]
  generalize hwin6 : setSlot win5 i 1 0 = win6 at s5
  generalize hprog6 : upd prog5 1 (.lock k :: .unlock k :: again k r) = prog6 at s5
  generalize hpc6 : upd pc5 1 (.send k 0) = pc6 at s5
  have w60 : win6 i 0 ≠ 0 := by subst hwin6; simpa [setSlot, upd] using w50
  have q60 : prog6 0 = .unlock k :: again k r := by subst hprog6; simpa [upd] using q50
  have q61 : prog6 1 = .lock k :: .unlock k :: again k r := by subst hprog6; simp [upd]
  have c60 : pc6 0 = .recv k := by subst hpc6; simpa [upd] using c50
  have c61 : pc6 1 = .send k 0 := by subst hpc6; simp [upd]
  have c6p : pc6 p = .recv k := by subst hpc6; simpa [upd, p1] using c5p
  -- 1 sends
  have s6 : WinMutex.step n num 1 ⟨win6, mail4, pc6, prog6, .freed 1 k :: .asked 0 k :: .got 1 k :: .freed 0 k :: hist, false⟩ =
      some ⟨win6, upd mail4 0 (upd (mail4 0) i (mail4 0 i + 1)), upd pc6 1 .run, prog6, .freed 1 k :: .asked 0 k :: .got 1 k :: .freed 0 k :: hist, false⟩ := by
    simp [WinMutex.step, n1, c61, hi]
  generalize hmail7 : upd mail4 0 (upd (mail4 0) i (mail4 0 i + 1)) = mail7 at s6
  generalize hpc7 : upd pc6 1 .run = pc7 at s6
  have m70 : mail7 0 i = 1 := by subst hmail7; simpa [upd] using m40
  have m71 : mail7 1 i = 0 := by subst hmail7; simpa [upd] using m41
  have c70 : pc7 0 = .recv k := by subst hpc7; simpa [upd] using c60
  have c71 : pc7 1 = .run := by subst hpc7; simp [upd]
  have c7p : pc7 p = .recv k := by subst hpc7; simpa [upd, p1] using c6p
  -- 0 receives
  have s7 : WinMutex.step n num 0 ⟨win6, mail7, pc7, prog6, .freed 1 k :: .asked 0 k :: .got 1 k :: .freed 0 k :: hist, false⟩ =
      some ⟨win6, upd mail7 0 (upd (mail7 0) i 0), upd pc7 0 .run, prog6, .got 0 k :: .freed 1 k :: .asked 0 k :: .got 1 k :: .freed 0 k :: hist, false⟩ := by
    simp [WinMutex.step, n0, c70, hi, m70]
  generalize hmail8 : upd mail7 0 (upd (mail7 0) i 0) = mail8 at s7
  generalize hpc8 : upd pc7 0 .run = pc8 at s7
  have m80 : mail8 0 i = 0 := by subst hmail8; simp [upd]
  have m81 : mail8 1 i = 0 := by subst hmail8; simpa [upd] using m71
  have c80 : pc8 0 = .run := by subst hpc8; simp [upd]
  have c81 : pc8 1 = .run := by subst hpc8; simpa [upd] using c71
  have c8p : pc8 p = .recv k := by subst hpc8; simpa [upd, p0] using c7p
  have f8 : firstOther n 1 (win6 i) = some 0 :=
    firstOther_eq (by omega) (by omega) w60 (fun j hj hne => absurd hj (by omega))
  -- 1 asks again
  have s8 : WinMutex.step n num 1 ⟨win6, mail8, pc8, prog6, .got 0 k :: .freed 1 k :: .asked 0 k :: .got 1 k :: .freed 0 k :: hist, false⟩ =
      some ⟨setSlot win6 i 1 1, mail8, upd pc8 1 (.recv k), upd prog6 1 (.unlock k :: again k r), .asked 1 k :: .got 0 k :: .freed 1 k :: .asked 0 k :: .got 1 k :: .freed 0 k :: hist, false⟩ := by
    simp [WinMutex.step, n1, c81, q61, hlt, f8, hi]
  simp only [WinMutex.exec, s1, s2, s3, s4, s5, s6, s7, s8, Option.getD_some]
  refine ⟨rfl, ?_, ?_, ?_, ?_, ?_, ?_, ?_, ?_, ?_, ?_, ?_⟩
  · simpa [upd] using c80
  · simp [upd]
  · simpa [upd, p1] using c8p
  · simpa [setSlot, upd, hi] using w60
  · simp [setSlot, upd, hi]
  · simpa [hi] using m80
  · simpa [hi] using m81
  · simpa [upd] using q60
  · simp [upd]
  · simpa [waits, p0', p1'] using h11
  · simp [passed, p0', p1', h12]

private theorem rounds {n : Nat} {num : Nat → Nat} {k : Spec.LockHist.Key} {p : Nat}
    (hk : c87Exists n num k) (hp : 2 ≤ p) (hpn : p < n) : ∀ (r c : Nat) (s : WinMutex.State),
    Shape n num k p r c s → ∃ sched, waits p k (WinMutex.exec n num sched s).hist = true ∧
      passed p k (WinMutex.exec n num sched s).hist = c + 2 * r
  | 0, c, s, h => ⟨[], h.wait, h.pass⟩
  | r + 1, c, s, h => by
      obtain ⟨l, h1, h2⟩ := rounds hk hp hpn r (c + 2) _ (round hk hp hpn h)
      refine ⟨[0, 0, 1, 0, 1, 1, 0, 1] ++ l, ?_, ?_⟩
      · rw [exec_append]; exact h1
      · rw [exec_append, h2]; omega

/-- **C87, the others may wait for ever.**  For every process of rank 2 or more
and every number there are correct programs and a schedule in which the process
waits for a mutex while others get it more than that often. -/
theorem C87_starvation {n : Nat} {num : Nat → Nat} {k : Spec.LockHist.Key}
    (hk : c87Exists n num k) {p : Nat} (hp : 2 ≤ p) (hpn : p < n) (r : Nat) :
    ∃ (prog : Nat → List Spec.LockHist.Op) (sched : List Nat),
      (∀ q, q < n → Proper (c87Exists n num) [] (prog q) ∧ Ordered [] (prog q)) ∧
      waits p k (WinMutex.exec n num sched (WinMutex.start prog)).hist = true ∧
      r ≤ passed p k (WinMutex.exec n num sched (WinMutex.start prog)).hist := by
  have hlt : ¬ offset num n ≤ index num k := by have := index_lt hk; omega
  refine ⟨fun _ => again k (r + 1), ?_⟩
  have hsh : Shape n num k p r 0
      (WinMutex.exec n num [0, p, 1] (WinMutex.start fun _ => again k (r + 1))) := by
    have n0 : ¬ n ≤ 0 := by omega
    have n1 : ¬ n ≤ 1 := by omega
    have np : ¬ n ≤ p := by omega
    have p0 : ¬ p = 0 := by omega
    have p1 : ¬ p = 1 := by omega
    have p0' : ¬ 0 = p := by omega
    have p1' : ¬ 1 = p := by omega
    have f1 : firstOther n 0 (fun _ => 0) = none := by
      cases h : firstOther n 0 (fun _ => 0) with
      | none => rfl
      | some x => exact absurd rfl (firstOther_some h).2.2.1
    have e1 : WinMutex.step n num 0 (WinMutex.start fun _ => again k (r + 1)) =
        some ⟨setSlot (fun _ _ => 0) (index num k) 0 1, fun _ _ => 0, fun _ => .run, upd (fun _ => again k (r + 1)) 0 (.unlock k :: again k r), [.got 0 k, .asked 0 k], false⟩ := by
      simp [WinMutex.step, WinMutex.start, again, n0, hlt, f1]
    generalize hwin : setSlot (fun _ _ => 0) (index num k) 0 1 = win at e1
    have w0 : win (index num k) 0 ≠ 0 := by subst hwin; simp [setSlot, upd]
    have f2 : firstOther n p (win (index num k)) = some 0 :=
      firstOther_eq (by omega) (by omega) w0 (fun j hj hne => absurd hj (by omega))
    have e2 : WinMutex.step n num p ⟨win, fun _ _ => 0, fun _ => .run, upd (fun _ => again k (r + 1)) 0 (.unlock k :: again k r), [.got 0 k, .asked 0 k], false⟩ =
        some ⟨setSlot win (index num k) p 1, fun _ _ => 0, upd (fun _ => .run) p (.recv k), upd (upd (fun _ => again k (r + 1)) 0 (.unlock k :: again k r)) p (.unlock k :: again k r), [.asked p k, .got 0 k, .asked 0 k], false⟩ := by
      simp only [WinMutex.step, np, false_or, Bool.false_eq_true, if_false]
      have : upd (fun _ => again k (r + 1)) 0 (.unlock k :: again k r) p =
          .lock k :: .unlock k :: again k r := by simp [upd, p0, again]
      simp only [this, hlt, if_false, f2]
    generalize hwin2 : setSlot win (index num k) p 1 = win2 at e2
    have w20 : win2 (index num k) 0 ≠ 0 := by subst hwin2; simpa [setSlot, upd, p0'] using w0
    have f3 : firstOther n 1 (win2 (index num k)) = some 0 :=
      firstOther_eq (by omega) (by omega) w20 (fun j hj hne => absurd hj (by omega))
    generalize hpr : upd (upd (fun _ => again k (r + 1)) 0 (.unlock k :: again k r)) p (.unlock k :: again k r) = pr at e2
    have pr0 : pr 0 = .unlock k :: again k r := by subst hpr; simp [upd, p0']
    have pr1 : pr 1 = .lock k :: .unlock k :: again k r := by subst hpr; simp [upd, p1', again]
    have e3 : WinMutex.step n num 1 ⟨win2, fun _ _ => 0, upd (fun _ => .run) p (.recv k), pr, [.asked p k, .got 0 k, .asked 0 k], false⟩ =
        some ⟨setSlot win2 (index num k) 1 1, fun _ _ => 0, upd (upd (fun _ => .run) p (.recv k)) 1 (.recv k), upd pr 1 (.unlock k :: again k r), [.asked 1 k, .asked p k, .got 0 k, .asked 0 k], false⟩ := by
      have : upd (fun _ => Pc.run) p (.recv k) 1 = .run := by simp [upd, p1']
      simp [WinMutex.step, n1, this, pr1, hlt, f3]
    simp only [WinMutex.exec, e1, e2, e3, Option.getD_some]
    refine ⟨rfl, ?_, ?_, ?_, ?_, ?_, rfl, rfl, ?_, ?_, ?_, ?_⟩
    · simp [upd, p0']
    · simp [upd]
    · simp [upd, p1]
    · simpa [setSlot, upd] using w20
    · simp [setSlot, upd]
    · simpa [upd] using pr0
    · simp [upd]
    · simp [waits, p1']
    · simp [passed, p1']
  obtain ⟨l, h1, h2⟩ := rounds hk hp hpn r 0 _ hsh
  refine ⟨[0, p, 1] ++ l, fun q hq => ⟨again_proper _ k hk _, again_ordered k _⟩, ?_, ?_⟩
  · rw [exec_append]; exact h1
  · rw [exec_append, h2]; omega

/-- **C87, the end.**  The number of turns of a schedule that are not lost is
bounded: two for each call. -/
theorem C87_bounded {n : Nat} {num : Nat → Nat} {prog : Nat → List Spec.LockHist.Op}
    (hp : ∀ p, p < n → Proper (c87Exists n num) [] (prog p)) (sched : List Nat) :
    c87Moves n num sched (WinMutex.start prog) ≤
      2 * ((List.range n).map fun p => (prog p).length).sum := by
  have key : ∀ (l : List Nat) (s : WinMutex.State) (tok : Spec.LockHist.Key → Tok),
      WinMutex.Inv n num prog s tok → c87Moves n num l s ≤ WinMutex.totalN (WinMutex.work s) n := by
    intro l
    induction l with
    | nil => intro s tok h; exact Nat.zero_le _
    | cons p l ih =>
      intro s tok h
      rw [c87Moves]
      cases hs : WinMutex.step n num p s with
      | none => exact ih s tok h
      | some s' =>
        obtain ⟨tok', h'⟩ := WinMutex.inv_step h hs
        have h1 := WinMutex.step_work h'.nofail hs
        have h2 := ih s' tok' h'
        dsimp only
        omega
  refine Nat.le_trans (key sched _ _ (inv_start hp)) ?_
  have : ∀ m, WinMutex.totalN (WinMutex.work (WinMutex.start prog)) m =
      2 * ((List.range m).map fun p => (prog p).length).sum := by
    intro m
    induction m with
    | zero => rfl
    | succ m ih =>
      rw [WinMutex.totalN, ih, List.range_succ, List.map_append, List.sum_append]
      simp [WinMutex.work, WinMutex.start]
      omega
  rw [this]
  exact Nat.le_refl _

/-- **C87, creation.**  Mutexes can be created when there are none; when there are
some already, the second call reads through a null pointer. -/
theorem C87_create {n : Nat} (hn : 0 < n) (num num' : Nat → Nat) :
    ∃ t, create n num ⟨none, 0, false⟩ = some t ∧ t.num = some num ∧ t.total = offset num n ∧
      create n num' t = none ∧ create n num' (destroy t) = create n num' ⟨none, 0, false⟩ := by
  refine ⟨⟨some num, offset num n, true⟩, rfl, rfl, rfl, ?_, rfl⟩
  have : ¬ n = 0 := by omega
  simp [create, destroy, this]

/-! ## examples -/

/-- three processes, two mutexes on process 0 and one on process 1 -/
private def exNum : Nat → Nat := fun p => if p = 0 then 2 else if p = 1 then 1 else 0
private def exProg : Nat → List Spec.LockHist.Op := fun p =>
  if p = 0 then [.lock (0, 1), .lock (1, 0), .unlock (0, 1), .unlock (1, 0)]
  else if p = 1 then [.lock (1, 0), .unlock (1, 0)]
  else [.lock (0, 0), .lock (0, 1), .unlock (0, 1), .unlock (0, 0)]

example : ∀ p, p < 3 → Proper (c87Exists 3 exNum) [] (exProg p) ∧ Ordered [] (exProg p) := by
  intro p hp
  have : p = 0 ∨ p = 1 ∨ p = 2 := by omega
  rcases this with rfl | rfl | rfl <;>
    simp [exProg, Proper, Ordered, c87Exists, exNum, Before]

/-- process 1 gets mutex 0 of process 1, process 0 waits for it and gets it later -/
example : (WinMutex.exec 3 exNum [1, 0, 0, 1, 2, 1, 0] (WinMutex.start exProg)).hist =
    [.got 0 (1, 0), .got 2 (0, 0), .asked 2 (0, 0), .freed 1 (1, 0), .asked 0 (1, 0),
      .got 0 (0, 1), .asked 0 (0, 1), .got 1 (1, 0), .asked 1 (1, 0)] := by decide

/-- locks taken in different orders can end in a deadlock: the order is needed -/
example :
    let prog : Nat → List Spec.LockHist.Op := fun p =>
      if p = 0 then [.lock (0, 0), .lock (0, 1), .unlock (0, 1), .unlock (0, 0)]
      else [.lock (0, 1), .lock (0, 0), .unlock (0, 0), .unlock (0, 1)]
    let s := WinMutex.exec 2 exNum [0, 1, 0, 1] (WinMutex.start prog)
    (WinMutex.step 2 exNum 0 s).isNone ∧ (WinMutex.step 2 exNum 1 s).isNone ∧
      s.prog 0 ≠ [] := by decide

end GA
