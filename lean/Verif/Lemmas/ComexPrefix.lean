import Verif.Lemmas.ComexTerm

/-!
# Prefixes of traces
-/

namespace GA.Comex

theorem run_snoc {c : Cfg} {s : State} {as : List Act} {a : Act} :
    Comex.run c s (as ++ [a]) = (Comex.run c s as).bind fun s' => Comex.step c s' a := by
  induction as generalizing s with
  | nil => simp only [List.nil_append, Comex.run, Option.bind_some]; cases Comex.step c s a <;> rfl
  | cons b as ih =>
    simp only [List.cons_append, Comex.run]
    cases Comex.step c s b with
    | none => rfl
    | some s1 => simp only [Option.bind_some]; exact ih

/-- events of one step: at most one, or two of which the first changes no memory -/
theorem step_events {c : Cfg} {mem0 : Nat → Nat → Int} {s s' : State} (hc : c.OK) (hI : Inv c mem0 s)
    {a : Act} (hs : Comex.step c s a = some s') :
    ∃ evs, s'.tr = s.tr ++ evs ∧ (evs = [] ∨ (∃ e, evs = [e]) ∨
      ∃ e1 e2, evs = [e1, e2] ∧ applied [e1] = []) := by
  cases a with
  | call p op =>
    obtain ⟨_, htr, _⟩ := call_shape hc hI hs
    rcases htr with e | e
    · exact ⟨_, e, .inr (.inl ⟨_, rfl⟩)⟩
    · exact ⟨[.call p op, .ret p (s.cnt p) []], by rw [e]; simp, .inr (.inr ⟨_, _, rfl, rfl⟩)⟩
  | resume p =>
    simp only [Comex.step, Comex.resume] at hs
    split at hs
    · split at hs
      · simp at hs
      · split at hs <;> (simp only [State.goto, State.log, Option.some.injEq] at hs; subst hs)
        · exact ⟨_, rfl, .inr (.inl ⟨_, rfl⟩)⟩
        · exact ⟨[], by simp, .inl rfl⟩
    · split at hs
      · simp at hs
      · rw [clearFlags_eq] at hs
        split at hs <;> (simp only [State.goto, State.log, Option.some.injEq] at hs; subst hs)
        · exact ⟨[], by simp, .inl rfl⟩
        · exact ⟨_, rfl, .inr (.inl ⟨_, rfl⟩)⟩
    · split at hs
      · simp at hs
      · simp only [State.goto, Option.some.injEq] at hs
        subst hs
        exact ⟨[], by simp, .inl rfl⟩
    · split at hs
      · simp at hs
      · simp only [State.goto, State.log, Option.some.injEq] at hs
        subst hs
        exact ⟨_, rfl, .inr (.inl ⟨_, rfl⟩)⟩
    · split at hs
      · simp only [State.goto, State.log, Option.some.injEq] at hs
        subst hs
        exact ⟨_, rfl, .inr (.inl ⟨_, rfl⟩)⟩
      · simp at hs
    · simp at hs
  | direct p =>
    simp only [Comex.step, Comex.direct] at hs
    split at hs
    case h_4 => simp at hs
    all_goals
      simp only [State.goto, State.log, Option.some.injEq] at hs
      subst hs
      first
      | exact ⟨_, rfl, .inr (.inl ⟨_, rfl⟩)⟩
      | exact ⟨_, rfl, .inr (.inr ⟨_, _, rfl, rfl⟩)⟩
  | recv p m =>
    simp only [Comex.step, Comex.recv] at hs
    split at hs
    case h_2 => simp at hs
    rename_i sl ps sl0 vals rs hpo hre
    cases sl with
    | ack =>
      simp only [Option.some.injEq] at hs
      subst hs
      split <;> exact ⟨[], by simp, .inl rfl⟩
    | buf tag len =>
      simp only [Option.some.injEq] at hs
      split at hs <;> subst hs
      · exact ⟨_, rfl, .inr (.inl ⟨_, rfl⟩)⟩
      · exact ⟨[], by simp, .inl rfl⟩
  | serve m p =>
    simp only [Comex.step, Comex.serve] at hs
    split at hs
    case isFalse => simp at hs
    split at hs
    case h_1 => simp at hs
    split at hs
    · simp only [Option.some.injEq] at hs
      subst hs
      exact ⟨[], by simp, .inl rfl⟩
    · simp only [Option.some.injEq] at hs
      subst hs
      refine ⟨_, rfl, .inr (.inl ?_)⟩
      split <;> exact ⟨_, rfl⟩

/-- Every prefix of a trace is the trace of a run, up to one event that changes no memory. -/
theorem prefix_reach {c : Cfg} {mem0 : Nat → Nat → Int} (hc : c.OK) {as : List Act} :
    ∀ {s : State}, Comex.run c (Comex.start mem0) as = some s → ∀ pre post, s.tr = pre ++ post →
    ∃ as1 s1, Comex.run c (Comex.start mem0) as1 = some s1 ∧
      ∃ evs, pre = s1.tr ++ evs ∧ applied evs = [] := by
  induction as using List.reverseRecOn with
  | nil =>
    intro s hs pre post h
    simp only [Comex.run, Option.some.injEq] at hs
    subst hs
    simp only [Comex.start, List.nil_eq, List.append_eq_nil_iff] at h
    exact ⟨[], _, rfl, [], by simp [h.1, Comex.start], rfl⟩
  | append_singleton as a ih =>
    intro s hs pre post h
    have hs' := hs
    rw [run_snoc] at hs
    obtain ⟨s0, h0, h1⟩ := Option.bind_eq_some_iff.1 hs
    obtain ⟨evs, he, hcases⟩ := step_events hc (reach hc h0).1 h1
    rw [he] at h
    rcases List.append_eq_append_iff.1 h with ⟨l, h2, h3⟩ | ⟨l, h2, h3⟩
    · -- pre extends the trace of s0
      rcases hcases with e | ⟨e, rfl⟩ | ⟨e1, e2, rfl, hap⟩
      · rw [e] at h3
        have : l = [] := by
          cases l with
          | nil => rfl
          | cons x l => simp at h3
        exact ⟨as, s0, h0, [], by rw [h2, this], rfl⟩
      · cases l with
        | nil => exact ⟨as, s0, h0, [], by rw [h2], rfl⟩
        | cons x l =>
          simp only [List.cons_append, List.cons.injEq] at h3
          obtain ⟨rfl, h3⟩ := h3
          have : l = [] := by
            cases l with
            | nil => rfl
            | cons x l => simp at h3
          exact ⟨_, s, hs', [], by rw [he, h2, this]; simp, rfl⟩
      · cases l with
        | nil => exact ⟨as, s0, h0, [], by rw [h2], rfl⟩
        | cons x l =>
          simp only [List.cons_append, List.cons.injEq] at h3
          obtain ⟨rfl, h3⟩ := h3
          cases l with
          | nil => exact ⟨as, s0, h0, [e1], by rw [h2], hap⟩
          | cons y l =>
            simp only [List.cons_append, List.cons.injEq] at h3
            obtain ⟨rfl, h3⟩ := h3
            have : l = [] := by
              cases l with
              | nil => rfl
              | cons x l => simp at h3
            exact ⟨_, s, hs', [], by rw [he, h2, this]; simp, rfl⟩
    · exact ih h0 pre l (by rw [h2])

/-- effects that have happened were asked for before -/
theorem applied_called {c : Cfg} {mem0 : Nat → Nat → Int} (hc : c.OK) {as : List Act} {s : State}
    (hs : Comex.run c (Comex.start mem0) as = some s) {pre post : List Ev} (htr : s.tr = pre ++ post)
    {p : Nat} {f : Fx} (hf : f ∈ appliedBy p pre) :
    ∃ op, (calls p pre)[f.tag]? = some op ∧ f ∈ opFx f.tag op := by
  obtain ⟨as1, s1, h1, evs, rfl, h3⟩ := prefix_reach hc hs pre post htr
  have hf' : f ∈ appliedBy p s1.tr := by
    rw [appliedBy_append] at hf
    rcases List.mem_append.1 hf with h | h
    · exact h
    · simp [appliedBy, h3] at h
  obtain ⟨F, R, _, _, h4, _⟩ := ((reach hc h1).1.pm p (c.master f.rank)).stream
  have : f ∈ (issued p s1.tr).filter (onM c (c.master f.rank)) := by
    rw [← h4]
    simp [List.mem_filter, hf', onM]
  obtain ⟨op, h5, h6⟩ := issued_mem (List.mem_filter.1 this).1
  exact ⟨op, by rw [calls_append]; exact getElem?_app h5, h6⟩

end GA.Comex
