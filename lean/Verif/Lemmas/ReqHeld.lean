import Verif.Lemmas.ReqExec

/-! # Request slots: what a layer above may rely on -/

namespace GA.Req

/-- a state in which the request layer is well-formed -/
def CxOK (N : Nat) (s : St) : Prop := ∃ P, Inv N s P

/-- message `m` is processed or pending in slot `i` -/
def Held (s : St) (i m : Nat) : Prop := m ∈ s.log ∨ ∃ b, m ∈ pending s i b

theorem cxok_init {N : Nat} (hN : 0 < N) : CxOK N init := ⟨_, Inv.init hN⟩

theorem CxOK.exec {N : Nat} {s : St} (h : CxOK N s) (c : Call) (hc : CallOK N c) :
    CxOK N (exec N s c).1 ∧ (∀ i m, Held s i m → Held (exec N s c).1 i m) ∧
      (∀ m, m ∈ s.log → m ∈ (exec N s c).1.log) := by
  obtain ⟨Q, hQ⟩ := h
  unfold Held
  simp only [hQ.pending]
  cases c with
  | issue ks =>
    obtain ⟨j, b1, b2, b3, ⟨L, b4, b5, _⟩, _⟩ := exec_issue hQ ks
    refine ⟨⟨_, b3⟩, ?_, ?_⟩
    · intro i m hmem
      rw [b4, List.mem_append, b5.mem_iff]
      simp only [b3.pending]
      rcases hmem with h1 | ⟨b, h1⟩
      · left; left; exact h1
      · by_cases e : i = j
        · subst e; left; right; cases b <;> simp [h1]
        · right; exact ⟨b, by simp [e, h1]⟩
    · intro m hm; rw [b4]; simp [hm]
  | wait j =>
    obtain ⟨b3, ⟨L, b4, b5, _⟩, _⟩ := exec_wait hQ hc
    refine ⟨⟨_, b3⟩, ?_, ?_⟩
    · intro i m hmem
      rw [b4, List.mem_append, b5.mem_iff]
      simp only [b3.pending]
      rcases hmem with h1 | ⟨b, h1⟩
      · left; left; exact h1
      · by_cases e : i = j
        · subst e; left; right; cases b <;> simp [h1]
        · right; exact ⟨b, by simp [cleared, e, h1]⟩
    · intro m hm; rw [b4]; simp [hm]
  | test j fl =>
    obtain ⟨Q', b3, b6, b7, ⟨L, b4, b5, _⟩, _⟩ := exec_test hQ hc fl
    refine ⟨⟨_, b3⟩, ?_, ?_⟩
    · intro i m hmem
      rw [b4, List.mem_append, b5.mem_iff]
      simp only [b3.pending]
      rcases hmem with h1 | ⟨b, h1⟩
      · left; left; exact h1
      · by_cases e : i = j
        · subst e
          by_cases hf : fl m = true
          · left; right; cases b <;> simp [h1, hf]
          · right; exact ⟨b, by rw [b6]; simp [keep, h1, hf]⟩
        · right; exact ⟨b, by rw [b7 i b e]; exact h1⟩
    · intro m hm; rw [b4]; simp [hm]
  | waitAll =>
    obtain ⟨b3, _, L, b4, b5⟩ := exec_waitAll hQ
    refine ⟨⟨_, b3⟩, ?_, ?_⟩
    · intro i m hmem
      rw [b4, List.mem_append, b5]
      left
      rcases hmem with h1 | ⟨b, h1⟩
      · left; exact h1
      · right; exact ⟨i, b, h1⟩
    · intro m hm; rw [b4]; simp [hm]

theorem CxOK.wait {N : Nat} {s : St} (h : CxOK N s) {i : Nat} (hi : i < N) {m : Nat} (hm : Held s i m) :
    m ∈ (Req.exec N s (.wait i)).1.log := by
  obtain ⟨Q, hQ⟩ := h
  unfold Held at hm
  simp only [hQ.pending] at hm
  obtain ⟨b3, ⟨L, b4, b5, _⟩, _⟩ := exec_wait hQ hi
  rw [b4, List.mem_append, b5.mem_iff]
  rcases hm with h1 | ⟨b, h1⟩
  · left; exact h1
  · right; cases b <;> simp [h1]

theorem CxOK.test {N : Nat} {s : St} (h : CxOK N s) {i : Nat} (hi : i < N) (fl : Nat → Bool)
    (hr : (Req.exec N s (.test i fl)).2 = 0) {m : Nat} (hm : Held s i m) :
    m ∈ (Req.exec N s (.test i fl)).1.log := by
  have h1 := (h.exec (.test i fl) hi).2.1 i m hm
  obtain ⟨Q, hQ⟩ := h
  obtain ⟨Q', b3, b6, b7, _, b8, _⟩ := exec_test hQ hi fl
  rcases h1 with h1 | ⟨b, h1⟩
  · exact h1
  · rw [b3.pending] at h1
    rw [b8] at hr
    split at hr
    · rename_i e
      cases b
      · rw [e.1] at h1; simp at h1
      · rw [e.2] at h1; simp at h1
    · simp at hr

/-- when MPI reports everything as complete, so does the test -/
theorem CxOK.test_all {N : Nat} {s : St} (h : CxOK N s) {i : Nat} (hi : i < N) (fl : Nat → Bool)
    (hfl : ∀ m, fl m = true) : (Req.exec N s (.test i fl)).2 = 0 := by
  obtain ⟨Q, hQ⟩ := h
  obtain ⟨Q', b3, b6, b7, _, b8, _⟩ := exec_test hQ hi fl
  rw [b8, if_pos]
  rw [b6, b6]
  simp [keep, hfl]

theorem mem_newMsgs {m : Nat} (ks : List Bool) (n : Nat) (h1 : n ≤ m) (h2 : m < n + ks.length) :
    ∃ b, m ∈ newMsgs n ks b := by
  induction ks generalizing n with
  | nil => simp at h2; omega
  | cons k ks ih =>
    by_cases e : m = n
    · exact ⟨k, by simp [newMsgs, e]⟩
    · obtain ⟨b, hb⟩ := ih (n + 1) (by omega) (by simp at h2; omega)
      exact ⟨b, by simp [newMsgs, hb]⟩

theorem CxOK.issue {N : Nat} {s : St} (h : CxOK N s) (ks : List Bool) :
    (Req.exec N s (.issue ks)).2 < N ∧ (Req.exec N s (.issue ks)).1.fresh = s.fresh + ks.length ∧
      ∀ m, s.fresh ≤ m → m < s.fresh + ks.length →
        Held (Req.exec N s (.issue ks)).1 (Req.exec N s (.issue ks)).2 m := by
  obtain ⟨Q, hQ⟩ := h
  obtain ⟨j, b1, b2, b3, _, b6, _⟩ := exec_issue hQ ks
  rw [b1]
  refine ⟨b2, b6, fun m h1 h2 => Or.inr ?_⟩
  simp only [b3.pending]
  simpa using mem_newMsgs ks _ h1 h2

theorem CxOK.fresh_wait {N : Nat} {s : St} (h : CxOK N s) {i : Nat} (hi : i < N) :
    (Req.exec N s (.wait i)).1.fresh = s.fresh := by
  obtain ⟨Q, hQ⟩ := h
  exact (exec_wait hQ hi).2.2.1

theorem CxOK.fresh_test {N : Nat} {s : St} (h : CxOK N s) {i : Nat} (hi : i < N) (fl : Nat → Bool) :
    (Req.exec N s (.test i fl)).1.fresh = s.fresh := by
  obtain ⟨Q, hQ⟩ := h
  obtain ⟨Q', _, _, _, _, _, b⟩ := exec_test hQ hi fl
  exact b

theorem CxOK.noErr {N : Nat} {s : St} (h : CxOK N s) : s.err = false := by
  obtain ⟨Q, hQ⟩ := h
  exact hQ.err

end GA.Req
