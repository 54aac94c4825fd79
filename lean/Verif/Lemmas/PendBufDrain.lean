import Verif.Lemmas.PendBufFail

/-! No request stays behind for ever. -/

namespace GA.Model.PendBuf

theorem step_len {op : Op} {st st' : St} {i : Nat} (h : step op st i = some st') : st'.order.length ≤ st.order.length ∧ st'.wait = st.wait := by
  have hlen : st.order.length = (st.order.take i).length + (st.order.drop i).length := by
    rw [← List.length_append, List.take_append_drop]
  have key : (progressPutAcc st i = some st' ∨ progressGet st i = some st') → st'.order.length ≤ st.order.length ∧ st'.wait = st.wait := by
    rintro (h | h)
    · unfold progressPutAcc at h
      split at h
      · cases h
      rename_i p post hd
      rw [hd, List.length_cons] at hlen
      repeat' (split at h)
      all_goals first
        | cases h; done
        | (cases h; refine ⟨?_, rfl⟩; simp only [List.length_append, List.length_cons]; omega)
    · unfold progressGet at h
      split at h
      · cases h
      rename_i p post hd
      rw [hd, List.length_cons] at hlen
      repeat' (split at h)
      all_goals first
        | cases h; done
        | (cases h; refine ⟨?_, rfl⟩; simp only [List.length_append, List.length_cons]; omega)
  cases op with
  | put => exact key (.inl h)
  | acc => exact key (.inl h)
  | get => exact key (.inr h)
  | other => cases h

theorem loop_len {op : Op} : ∀ {n : Nat} {st st' : St}, commitLoop op n st = some st' → st'.order.length ≤ st.order.length ∧ st'.wait = st.wait := by
  intro n
  induction n with
  | zero => intro st st' h; cases h; exact ⟨Nat.le_refl _, rfl⟩
  | succ n ih =>
    intro st st' h
    rw [commitLoop] at h
    split at h
    · cases h; exact ⟨Nat.le_refl _, rfl⟩
    · split at h
      · obtain ⟨s1, h1, h2⟩ := Option.bind_eq_some_iff.1 h
        obtain ⟨a1, a2⟩ := step_len h1
        obtain ⟨b1, b2⟩ := ih h2
        exact ⟨Nat.le_trans b1 a1, b2.trans a2⟩
      · cases h; exact ⟨Nat.le_refl _, rfl⟩

/-- the end of the first transfer frees its buffer -/
theorem ended_first {st st' : St} (h : Alive st) (hs : ended st 0 = some st') : st'.order.length < st.order.length ∧ st'.wait = st.wait := by
  rw [ended] at hs
  cases ho : st.order with
  | nil => rw [ho] at hs; cases hs
  | cons p post =>
    have hc := h.head p (by rw [ho]; rfl)
    obtain ⟨h1, h2⟩ := h.ap p (by rw [ho]; simp)
    have h3 : p.stat = .recvPending := by
      rcases h2 with h2 | h2
      · exact h2.1
      · rw [hc] at h2; cases h2.2.1
    rw [ho] at hs
    simp only [List.drop_zero, h3, List.take_zero, List.nil_append] at hs
    obtain ⟨s1, e1, e2⟩ := Option.bind_eq_some_iff.1 hs
    have : s1 = { st with order := post, done := st.done ++ [p.req] } := by
      have : step p.req.op { st with order := { p with stat := .recvDone } :: post } 0 = some { st with order := post, done := st.done ++ [p.req] } := by
        rcases h1 with h1 | h1 <;> simp [h1, step, progressPutAcc]
      rw [this] at e1
      cases e1
      rfl
    subst this
    obtain ⟨b1, b2⟩ := loop_len e2
    refine ⟨?_, b2⟩
    dsimp only at b1
    rw [List.length_cons]
    omega

theorem promote_first {st : St} (ho : st.order = []) {r : Req} {w : List Req} (hw : st.wait = r :: w) (hr : Allowed r) :
    ∃ st', promote st false = some st' ∧ st'.wait = w ∧ st'.order.length ≤ 1 := by
  have hc : canProgress st false true r = true := by
    simp only [canProgress, ho]
    cases r.imm <;> cases r.op <;> simp
  rw [promote, hw]
  dsimp only
  rw [if_pos hc]
  cases hi : r.imm with
  | true => exact ⟨{ st with wait := w, done := st.done ++ [r] }, rfl, rfl, by simp [ho]⟩
  | false =>
    have hro := hr.resolve_left (by simp [hi])
    rw [if_neg (by simp)]
    rcases hro with hop | hop <;> simp [assign, progress, ho, step, progressPutAcc, hop, commitLoop]

theorem drain : ∀ (n : Nat) (st : St), Alive st → 2 * st.wait.length + st.order.length ≤ n →
    ∃ es st', (∀ e ∈ es, e.req = []) ∧ run es st = some st' ∧ st'.order = [] ∧ st'.wait = [] := by
  intro n
  induction n with
  | zero =>
    intro st _ hn
    exact ⟨[], st, by simp, rfl, List.eq_nil_of_length_eq_zero (by omega), List.eq_nil_of_length_eq_zero (by omega)⟩
  | succ n ih =>
    intro st h hn
    cases ho : st.order with
    | cons p post =>
      have hc := h.head p (by rw [ho]; rfl)
      obtain ⟨-, h2⟩ := h.ap p (by rw [ho]; simp)
      have h3 : p.stat = .recvPending := by
        rcases h2 with h2 | h2
        · exact h2.1
        · rw [hc] at h2; cases h2.2.1
      obtain ⟨s1, e1, e2⟩ := ended_alive h (i := 0) ⟨p, by rw [ho]; rfl, .inl h3⟩
      obtain ⟨l1, l2⟩ := ended_first h e1
      obtain ⟨es, st', g1, g2, g3⟩ := ih s1 e2 (by rw [l2]; omega)
      refine ⟨.ended 0 :: es, st', ?_, ?_, g3⟩
      · intro e he
        rcases List.mem_cons.1 he with rfl | he
        · rfl
        · exact g1 e he
      · rw [run, next, e1]
        exact g2
    | nil =>
      cases hw : st.wait with
      | nil => exact ⟨[], st, by simp, rfl, ho, hw⟩
      | cons r w =>
        obtain ⟨s1, e1, e2, e3⟩ := promote_first ho hw (h.wait r (by rw [hw]; simp))
        obtain ⟨s2, f1, f2⟩ := next_alive h (e := .promote false) (by simp [Event.req]) (by simp)
        have : s2 = s1 := by
          have f1 : promote st false = some s2 := f1
          rw [e1] at f1
          cases f1
          rfl
        subst this
        obtain ⟨es, st', g1, g2, g3⟩ := ih s2 f2 (by rw [hw, List.length_cons] at hn; rw [e2]; omega)
        refine ⟨.promote false :: es, st', ?_, ?_, g3⟩
        · intro e he
          rcases List.mem_cons.1 he with rfl | he
          · rfl
          · exact g1 e he
        · rw [run, next, e1]
          exact g2

theorem run_alive {es : List Event} : ∀ {st st' : St}, Alive st → (∀ e ∈ es, ∀ r ∈ e.req, Allowed r) → run es st = some st' → Alive st' := by
  induction es with
  | nil => intro st st' h _ hs; cases hs; exact h
  | cons e es ih =>
    intro st st' h hr hs
    obtain ⟨s1, h1, h2⟩ := Option.bind_eq_some_iff.1 hs
    refine ih ?_ (fun e he => hr e (by simp [he])) h2
    obtain ⟨s2, f1, f2⟩ := next_alive h (hr e (by simp)) fun i hi => by
      subst hi
      exact ended_transfer h1
    rw [h1] at f1
    cases f1
    exact f2

theorem run_append {es es' : List Event} : ∀ {st : St}, run (es ++ es') st = (run es st).bind (run es') := by
  induction es with
  | nil => intro st; rfl
  | cons e es ih =>
    intro st
    rw [List.cons_append, run, run, Option.bind_assoc]
    congr 1
    funext s
    exact ih

end GA.Model.PendBuf
