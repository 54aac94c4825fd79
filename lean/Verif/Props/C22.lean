import Verif.Lemmas.ReqExec

/-!
# C22: request slots

Every statement is about the state after an arbitrary history `cs` of issue, wait, test and wait-all
calls, with arbitrary answers of MPI to the tests, for any number `N` of slots. Messages are numbered
in the order of issue; `log` lists the messages that have been processed (delivered and freed).
-/

namespace GA.Req

/-- No history makes an assertion fail, uses a freed message or loops for ever. -/
theorem C22_no_error {N : Nat} (hN : 0 < N) (cs : List Call) (hcs : ∀ c ∈ cs, CallOK N c) :
    (run N init cs).err = false := by
  obtain ⟨P, h⟩ := reach_inv cs hcs (Inv.init hN)
  exact h.err

/-- Every issued message is processed once or still pending, in one place. -/
theorem C22_accounting {N : Nat} (hN : 0 < N) (cs : List Call) (hcs : ∀ c ∈ cs, CallOK N c) :
    let s := run N init cs
    (∀ m, m < s.fresh ↔ (m ∈ s.log ∨ ∃ i b, m ∈ pending s i b)) ∧ s.log.Nodup ∧
      (∀ i b, (pending s i b).Nodup ∧ ((pending s i b) ≠ [] → i < N)) ∧
      (∀ m i b, m ∈ pending s i b → m ∉ s.log) ∧
      (∀ m i b j c, m ∈ pending s i b → m ∈ pending s j c → i = j ∧ b = c) := by
  obtain ⟨P, h⟩ := reach_inv cs hcs (Inv.init hN)
  simp only [h.pending]
  refine ⟨h.all, h.lognd, fun i b => ⟨h.nodup i b, ?_⟩, h.logdj, fun m i b j c h1 h2 => h.disj m j c i b h2 h1⟩
  intro hne
  by_contra hlt
  exact hne (h.range i b (by omega))

/-- Issuing: the slot handed out holds exactly the new messages, in order; other slots are not
touched; messages the slot still held have been completed first, and this happens only when every
slot is in use. -/
theorem C22_issue {N : Nat} (hN : 0 < N) (cs : List Call) (hcs : ∀ c ∈ cs, CallOK N c) (ks : List Bool) :
    let s := run N init cs
    let h := (exec N s (.issue ks)).2
    let s' := (exec N s (.issue ks)).1
    h < N ∧ s'.fresh = s.fresh + ks.length ∧ (∀ b, pending s' h b = newMsgs s.fresh ks b) ∧
      (∀ j b, j ≠ h → pending s' j b = pending s j b) ∧
      (∃ L, s'.log = s.log ++ L ∧ L.Perm (pending s h false ++ pending s h true)) ∧
      ((pending s h false ≠ [] ∨ pending s h true ≠ []) → ∀ j, j < N → s.inUse j = true) := by
  obtain ⟨P, h⟩ := reach_inv cs hcs (Inv.init hN)
  obtain ⟨i, a1, a2, a3, ⟨L, a4, a5, _⟩, a6, _, a7⟩ := exec_issue h ks
  simp only [a1, h.pending, a3.pending]
  exact ⟨a2, a6, by simp, fun j b hj => by simp [hj], ⟨L, a4, a5⟩, a7⟩

/-- Waiting: afterwards nothing is pending in the slot; exactly the messages that were pending have
been processed, those of one side in the order in which they were issued; other slots are not
touched. -/
theorem C22_wait {N : Nat} (hN : 0 < N) (cs : List Call) (hcs : ∀ c ∈ cs, CallOK N c) (i : Nat) (hi : i < N) :
    let s := run N init cs
    let s' := (exec N s (.wait i)).1
    (∀ b, pending s' i b = []) ∧ (∀ j b, j ≠ i → pending s' j b = pending s j b) ∧
      s'.fresh = s.fresh ∧
      ∃ L, s'.log = s.log ++ L ∧ L.Perm (pending s i false ++ pending s i true) ∧
        ∀ b, (pending s i b).Sublist L := by
  obtain ⟨P, h⟩ := reach_inv cs hcs (Inv.init hN)
  obtain ⟨a1, ⟨L, a2, a3, a4, a5⟩, a6, _⟩ := exec_wait h hi
  simp only [h.pending, a1.pending]
  refine ⟨by simp [cleared], fun j b hj => by simp [cleared, hj], a6, L, a2, a3, ?_⟩
  intro b; cases b <;> assumption

/-- Testing: whatever MPI answers, exactly the messages reported complete are processed and leave
the slot; the others stay, in order; the result is 0 exactly when nothing is left. -/
theorem C22_test {N : Nat} (hN : 0 < N) (cs : List Call) (hcs : ∀ c ∈ cs, CallOK N c) (i : Nat) (hi : i < N)
    (fl : Nat → Bool) :
    let s := run N init cs
    let s' := (exec N s (.test i fl)).1
    (∀ b, pending s' i b = (pending s i b).filter (fun m => !fl m)) ∧
      (∀ j b, j ≠ i → pending s' j b = pending s j b) ∧ s'.fresh = s.fresh ∧
      (∃ L, s'.log = s.log ++ L ∧ L.Perm ((pending s i false ++ pending s i true).filter fl) ∧
        ∀ b, ((pending s i b).filter fl).Sublist L) ∧
      ((exec N s (.test i fl)).2 = 0 ↔ ∀ b, pending s' i b = []) := by
  obtain ⟨P, h⟩ := reach_inv cs hcs (Inv.init hN)
  obtain ⟨P', a1, a2, a3, ⟨L, a4, a5, a6, a7⟩, a8, a9⟩ := exec_test h hi fl
  simp only [h.pending, a1.pending]
  refine ⟨fun b => a2 b, fun j b hj => a3 j b hj, a9, ⟨L, a4, by rw [List.filter_append]; exact a5, ?_⟩, ?_⟩
  · intro b; cases b <;> assumption
  · rw [a8]
    split
    · rename_i e
      simp only [true_iff]
      intro b; cases b; exacts [e.1, e.2]
    · rename_i e
      simp only [Nat.one_ne_zero, false_iff]
      exact fun hb => e ⟨hb false, hb true⟩

/-- Waiting for everything: afterwards nothing is pending anywhere and every message issued so far
has been processed. -/
theorem C22_wait_all {N : Nat} (hN : 0 < N) (cs : List Call) (hcs : ∀ c ∈ cs, CallOK N c) :
    let s := run N init cs
    let s' := (exec N s .waitAll).1
    (∀ i b, pending s' i b = []) ∧ s'.err = false ∧ s'.fresh = s.fresh ∧
      s.log <+: s'.log ∧ s'.log.Nodup ∧ ∀ m, m < s.fresh → m ∈ s'.log := by
  obtain ⟨P, h⟩ := reach_inv cs hcs (Inv.init hN)
  obtain ⟨a1, a2, L, a3, a4⟩ := exec_waitAll h
  simp only [a1.pending]
  refine ⟨fun _ _ => trivial, a1.err, a2, ⟨L, a3.symm⟩, a1.lognd, ?_⟩
  intro m hm
  rcases (a1.all m).1 (by rw [a2]; exact hm) with h1 | ⟨_, _, h1⟩
  · exact h1
  · simp at h1

/-- Processed messages stay processed. -/
theorem C22_log_grows {N : Nat} (hN : 0 < N) (cs cs' : List Call) (hcs : ∀ c ∈ cs ++ cs', CallOK N c) :
    (run N init cs).log <+: (run N init (cs ++ cs')).log := by
  have happ : ∀ (cs : List Call) s, run N s (cs ++ cs') = run N (run N s cs) cs' := by
    intro cs
    induction cs with
    | nil => intro s; rfl
    | cons c cs ih => intro s; exact ih _
  rw [happ]
  obtain ⟨P, h⟩ := reach_inv cs (fun c hc => hcs c (by simp [hc])) (Inv.init hN)
  have h2 : ∀ c ∈ cs', CallOK N c := fun c hc => hcs c (by simp [hc])
  clear happ
  generalize run N init cs = s at *
  clear hcs
  induction cs' generalizing s P with
  | nil => exact List.prefix_rfl
  | cons c cs' ih =>
    obtain ⟨P', h'⟩ := h.exec c (h2 c (by simp))
    refine List.IsPrefix.trans ?_ (ih _ (fun c hc => h2 c (by simp [hc])) _ h')
    have hc := h2 c (by simp)
    cases c with
    | issue ks => obtain ⟨_, _, _, _, ⟨L, e, _⟩, _⟩ := exec_issue h ks; exact ⟨L, e.symm⟩
    | wait i => obtain ⟨_, ⟨L, e, _⟩, _⟩ := exec_wait h hc; exact ⟨L, e.symm⟩
    | test i fl => obtain ⟨_, _, _, _, ⟨L, e, _⟩, _⟩ := exec_test h hc fl; exact ⟨L, e.symm⟩
    | waitAll => obtain ⟨_, _, L, e, _⟩ := exec_waitAll h; exact ⟨L, e.symm⟩

/-- A message that was pending under a handle is processed after a wait for this handle, whatever
happened between (including the reuse of the slot by other operations). -/
theorem C22_issue_then_wait {N : Nat} (hN : 0 < N) (cs cs' : List Call) (ks : List Bool)
    (hcs : ∀ c ∈ cs ++ cs', CallOK N c) (m : Nat) (hm : (run N init cs).fresh ≤ m)
    (hm2 : m < (run N init cs).fresh + ks.length) :
    let h := (exec N (run N init cs) (.issue ks)).2
    m ∈ (run N init (cs ++ .issue ks :: cs' ++ [.wait h])).log := by
  intro h
  have happ : ∀ (cs cs' : List Call) s, run N s (cs ++ cs') = run N (run N s cs) cs' := by
    intro cs cs'
    induction cs with
    | nil => intro s; rfl
    | cons c cs ih => intro s; exact ih _
  obtain ⟨P, hI⟩ := reach_inv cs (fun c hc => hcs c (by simp [hc])) (Inv.init hN)
  obtain ⟨i, a1, a2, a3, -, a6, -⟩ := exec_issue hI ks
  have hh : h = i := a1
  rw [hh]
  rw [List.append_assoc, happ, List.cons_append]
  show m ∈ (run N (exec N (run N init cs) (.issue ks)).1 (cs' ++ [.wait i])).log
  rw [happ]
  -- pending in slot i or processed
  have key : ∀ (cs' : List Call) (s : St) (Q : Nat → Bool → List Nat), Inv N s Q →
      (∀ c ∈ cs', CallOK N c) → (m ∈ s.log ∨ ∃ b, m ∈ Q i b) →
      ∃ Q', Inv N (run N s cs') Q' ∧ (m ∈ (run N s cs').log ∨ ∃ b, m ∈ Q' i b) := by
    intro cs'
    induction cs' with
    | nil => intro s Q hQ _ h; exact ⟨Q, hQ, h⟩
    | cons c cs' ih =>
      intro s Q hQ hok hmem
      have hc := hok c (by simp)
      have ht : ∀ c ∈ cs', CallOK N c := fun c hc => hok c (by simp [hc])
      have step : ∃ Q', Inv N (exec N s c).1 Q' ∧ (m ∈ (exec N s c).1.log ∨ ∃ b, m ∈ Q' i b) := by
        cases c with
        | issue ks =>
          obtain ⟨j, b1, b2, b3, ⟨L, b4, b5, _⟩, _⟩ := exec_issue hQ ks
          refine ⟨_, b3, ?_⟩
          rw [b4, List.mem_append, b5.mem_iff]
          rcases hmem with h1 | ⟨b, h1⟩
          · left; left; exact h1
          · by_cases e : i = j
            · subst e; left; right; cases b <;> simp [h1]
            · right; exact ⟨b, by simp [e, h1]⟩
        | wait j =>
          obtain ⟨b3, ⟨L, b4, b5, _⟩, _⟩ := exec_wait hQ hc
          refine ⟨_, b3, ?_⟩
          rw [b4, List.mem_append, b5.mem_iff]
          rcases hmem with h1 | ⟨b, h1⟩
          · left; left; exact h1
          · by_cases e : i = j
            · subst e; left; right; cases b <;> simp [h1]
            · right; exact ⟨b, by simp [cleared, e, h1]⟩
        | test j fl =>
          obtain ⟨Q', b3, b6, b7, ⟨L, b4, b5, _⟩, _⟩ := exec_test hQ hc fl
          refine ⟨_, b3, ?_⟩
          rw [b4, List.mem_append, b5.mem_iff]
          rcases hmem with h1 | ⟨b, h1⟩
          · left; left; exact h1
          · by_cases e : i = j
            · subst e
              by_cases hf : fl m = true
              · left; right; cases b <;> simp [h1, hf]
              · right; exact ⟨b, by rw [b6]; simp [keep, h1, hf]⟩
            · right; exact ⟨b, by rw [b7 i b e]; exact h1⟩
        | waitAll =>
          obtain ⟨b3, _, L, b4, b5⟩ := exec_waitAll hQ
          refine ⟨_, b3, ?_⟩
          rw [b4, List.mem_append, b5]
          left
          rcases hmem with h1 | ⟨b, h1⟩
          · left; exact h1
          · right; exact ⟨i, b, h1⟩
      obtain ⟨Q', c1, c2⟩ := step
      exact ih _ _ c1 ht c2
  have hnew : ∀ (ks : List Bool) n, n ≤ m → m < n + ks.length → ∃ b, m ∈ newMsgs n ks b := by
    intro ks
    induction ks with
    | nil => intro n h1 h2; simp at h2; omega
    | cons k ks ih =>
      intro n h1 h2
      by_cases e : m = n
      · exact ⟨k, by simp [newMsgs, e]⟩
      · obtain ⟨b, hb⟩ := ih (n + 1) (by omega) (by simp at h2; omega)
        exact ⟨b, by simp [newMsgs, hb]⟩
  obtain ⟨b, hb⟩ := hnew ks _ hm hm2
  obtain ⟨Q, c1, c2⟩ := key cs' _ _ a3 (fun c hc => hcs c (by simp [hc])) (Or.inr ⟨b, by simpa using hb⟩)
  obtain ⟨-, ⟨L, d1, d2, -⟩, -⟩ := exec_wait c1 a2
  show m ∈ (exec N _ (.wait i)).1.log
  rw [d1, List.mem_append, d2.mem_iff]
  rcases c2 with h1 | ⟨b, h1⟩
  · left; exact h1
  · right; cases b <;> simp [h1]

/-! ### The statements are not vacuous -/

/-- two slots; three operations, so the first slot is recycled -/
def exCalls : List Call :=
  [.issue [false, true, true, false], .test 0 (fun m => m == 0 || m == 2), .issue [false],
    .test 1 (fun _ => false), .issue [true], .wait 0]

example : ∀ c ∈ exCalls, CallOK 2 c := by simp [exCalls, CallOK]
example : (exec 2 init (.issue [false, true, true, false])).2 = 0 := by decide +kernel
/-- the test leaves messages 3 (send) and 1 (receive), and reports that something is outstanding -/
example : pending (run 2 init (exCalls.take 2)) 0 false = [3] ∧
    pending (run 2 init (exCalls.take 2)) 0 true = [1] ∧ (run 2 init (exCalls.take 2)).log = [0, 2] := by
  decide +kernel
example : (exec 2 (run 2 init (exCalls.take 1)) (.test 0 (fun m => m == 0 || m == 2))).2 = 1 := by
  decide +kernel
/-- all slots in use: the third operation completes the messages of slot 0 and takes it over -/
example : (exec 2 (run 2 init (exCalls.take 4)) (.issue [true])).2 = 0 ∧
    (run 2 init (exCalls.take 5)).log = [0, 2, 3, 1] ∧
    pending (run 2 init (exCalls.take 5)) 0 true = [5] ∧
    pending (run 2 init (exCalls.take 5)) 1 false = [4] := by
  decide +kernel
example : pending (run 2 init exCalls) 0 true = [] ∧ (run 2 init exCalls).log = [0, 2, 3, 1, 5] := by
  decide +kernel

end GA.Req
