import Verif.Lemmas.ComexServe

/-!
# Gets are answered or still expected
-/

namespace GA.Comex

/-- every `get` has returned, has a posted receive, or is about to read memory directly -/
def Got (c : Cfg) (s : State) : Prop :=
  ∀ p t r a len, (calls p s.tr)[t]? = some (.get r a len) → r < c.size ∧
    ((∃ vals, .ret p t vals ∈ s.tr) ∨ Slot.buf t len ∈ s.posted p (c.master r) ∨
      s.ctl p = .fencing (c.master r) t (some (.get r a len)) ∨ s.ctl p = .direct t (.get r a len))

theorem snoc_getElem? {α} {l : List α} {x y : α} {n : Nat} (h : (l ++ [x])[n]? = some y) :
    l[n]? = some y ∨ (n = l.length ∧ x = y) := by
  by_cases hn : n < l.length
  · rw [List.getElem?_append_left hn] at h; exact .inl h
  · rw [List.getElem?_append_right (by omega)] at h
    by_cases h0 : n - l.length = 0
    · rw [h0] at h; simp at h; exact .inr ⟨by omega, h⟩
    · rw [List.getElem?_eq_none (by simp; omega)] at h; simp at h

/-- A call that is no `get` keeps everything; a `get` is added. -/
theorem Got.calling {c : Cfg} {s s' : State} (h : Got c s) {p : Nat} {op : Op} (evs : List Ev)
    (hidle : s.ctl p = .idle) (htr : s'.tr = s.tr ++ [.call p op] ++ evs) (hev : ∀ q, calls q evs = [])
    (hpo : ∀ q m, ∀ x ∈ s.posted q m, x ∈ s'.posted q m) (hctl : ∀ q, q ≠ p → s'.ctl q = s.ctl q)
    (hop : ∀ r a len, op = .get r a len → r < c.size ∧
      (Slot.buf (calls p s.tr).length len ∈ s'.posted p (c.master r) ∨
        s'.ctl p = .fencing (c.master r) (calls p s.tr).length (some op) ∨
        s'.ctl p = .direct (calls p s.tr).length op)) : Got c s' := by
  intro q t r a len hq
  have old : (calls q s.tr)[t]? = some (.get r a len) → r < c.size ∧
    ((∃ vals, .ret q t vals ∈ s'.tr) ∨ Slot.buf t len ∈ s'.posted q (c.master r) ∨
      s'.ctl q = .fencing (c.master r) t (some (.get r a len)) ∨ s'.ctl q = .direct t (.get r a len)) := by
    intro h1
    obtain ⟨h0, h1⟩ := h q t r a len h1
    refine ⟨h0, ?_⟩
    rcases h1 with ⟨v, h1⟩ | h1 | h1
    · exact .inl ⟨v, by rw [htr]; simp [h1]⟩
    · exact .inr (.inl (hpo q _ _ h1))
    · by_cases hqp : q = p
      · subst hqp
        rcases h1 with h1 | h1 <;> (rw [hidle] at h1; simp at h1)
      · rw [hctl q hqp]; exact .inr (.inr h1)
  rw [htr, calls_append, calls_append, hev, List.append_nil] at hq
  simp only [calls] at hq
  split at hq
  · rename_i e
    subst e
    rcases snoc_getElem? hq with h1 | ⟨rfl, rfl⟩
    · exact old h1
    · obtain ⟨h1, h2⟩ := hop r a len rfl
      exact ⟨h1, .inr h2⟩
  · rw [List.append_nil] at hq
    exact old hq

theorem Got.call {c : Cfg} {mem0 : Nat → Nat → Int} {s s' : State} (hI : Inv c mem0 s) (h : Got c s)
    {p : Nat} {op : Op} (hs : Comex.call c s p op = some s') : Got c s' := by
  have hpre : s.ctl p = .idle ∧ op.valid c = true ∧ p < c.size ∧ c.user p = true := by
    by_contra hn
    unfold Comex.call at hs
    rw [if_neg hn] at hs
    simp at hs
  obtain ⟨hi, hv, hp, hu⟩ := hpre
  have hfl : ∀ x y, flagged c { s with cnt := x, tr := y } p = flagged c s p := fun _ _ => rfl
  have hset : ∀ (ms : List Nat) (t : Nat) (k : Ctl) (e : List Ev) (op : Op) (hno : ∀ r a len, op ≠ .get r a len)
      (s1 : State) (h1 : s1.posted = s.posted) (h2 : s1.ctl = s.ctl) (h3 : s1.tr = s.tr ++ [.call p op]), ms.Nodup →
      Got c ((s1.sendFences p t ms).goto p k) := by
    intro ms t k e op hno s1 h1 h2 h3 hn
    rw [sendFences_eq hn]
    refine h.calling (op := op) [] hi (by simp [State.goto, h3]) (fun _ => rfl) ?_ ?_ ?_
    · intro q m x hx
      simp only [State.goto, h1]
      split
      · exact List.mem_append.2 (.inl hx)
      · exact hx
    · intro q hq
      simp [State.goto, set1, hq, h2]
    · intro r a len e; exact absurd e (hno r a len)
  have hsend : ∀ (q m m' : Nat) (l : List Slot) (x : Slot), x ∈ s.posted q m →
      x ∈ set2 s.posted p m' (s.posted p m' ++ l) q m := by
    intro q m m' l x hx
    simp only [set2]
    split
    · rename_i e; rw [e.1, e.2] at hx; exact List.mem_append.2 (.inl hx)
    · exact hx
  cases op with
  | fence r =>
    unfold Comex.call at hs
    rw [if_pos ⟨hi, hv, hp, hu⟩] at hs
    simp only [State.log] at hs
    cases hf : s.flag p (c.master r)
    · simp only [hf, Bool.false_eq_true, if_false, Option.some.injEq] at hs
      subst hs
      exact h.calling [_] hi rfl (by simp [calls]) (fun q m x hx => hx) (fun q hq => rfl) (by simp)
    · simp only [hf, if_true, Option.some.injEq] at hs
      subst hs
      refine h.calling (op := .fence r) [] hi (by simp [State.goto, State.send]) (by simp [calls])
        (fun q m x hx => hsend q m _ _ x hx) (fun q hq => by simp [State.goto, State.send, set1, hq]) (by simp)
  | fenceAll =>
    unfold Comex.call at hs
    rw [if_pos ⟨hi, hv, hp, hu⟩] at hs
    simp only [State.log, hfl, flagged_ok hI, Bool.false_eq_true, if_false] at hs
    split at hs
    · simp only [Option.some.injEq] at hs
      subst hs
      exact h.calling [_] hi rfl (by simp [calls]) (fun q m x hx => hx) (fun q hq => rfl) (by simp)
    · simp only [Option.some.injEq] at hs
      subst hs
      exact hset _ _ _ [] .fenceAll (by simp) _ rfl rfl rfl flagged_nodup
  | barrier =>
    unfold Comex.call at hs
    rw [if_pos ⟨hi, hv, hp, hu⟩] at hs
    simp only [State.log, hfl, flagged_ok hI, Bool.false_eq_true, if_false] at hs
    split at hs
    · simp only [Option.some.injEq] at hs
      subst hs
      exact h.calling (op := .barrier) [] hi (by simp [State.goto]) (by simp [calls]) (fun q m x hx => hx)
        (fun q hq => by simp [State.goto, set1, hq]) (by simp)
    · simp only [Option.some.injEq] at hs
      subst hs
      exact hset _ _ _ [] .barrier (by simp) _ rfl rfl rfl flagged_nodup
  | wait t =>
    unfold Comex.call at hs
    rw [if_pos ⟨hi, hv, hp, hu⟩] at hs
    simp only [State.log, Option.some.injEq] at hs
    subst hs
    exact h.calling (op := .wait t) [] hi (by simp [State.goto]) (by simp [calls]) (fun q m x hx => hx)
      (fun q hq => by simp [State.goto, set1, hq]) (by simp)
  | get r a len =>
    rw [call_oneSided rfl, if_pos ⟨hi, hv, hp, hu⟩] at hs
    have hr : r < c.size := by simp [Op.valid] at hv; exact hv.1
    cases hd : isDirect c p (.get r a len)
    · simp only [hd, Bool.false_eq_true, if_false, setsFlag, isRmw, Option.some.injEq] at hs
      subst hs
      refine h.calling (op := .get r a len) [] hi (by simp [State.send]) (by simp [calls])
        (fun q m x hx => hsend q m _ _ x hx) (fun q hq => rfl) ?_
      intro r' a' len' e
      simp only [Op.get.injEq] at e
      obtain ⟨rfl, rfl, rfl⟩ := e
      refine ⟨hr, .inl ?_⟩
      simp [State.send, set2, Op.target, slotsOf, hI.cnt p]
    · simp only [hd, if_true] at hs
      cases hf : s.flag p (c.master r)
      · simp only [Op.target, hf, Bool.false_eq_true, if_false, Option.some.injEq] at hs
        subst hs
        refine h.calling (op := .get r a len) [] hi (by simp [State.goto]) (by simp [calls]) (fun q m x hx => hx)
          (fun q hq => by simp [State.goto, set1, hq]) ?_
        intro r' a' len' e
        simp only [Op.get.injEq] at e
        obtain ⟨rfl, rfl, rfl⟩ := e
        refine ⟨hr, .inr (.inr ?_)⟩
        simp [State.goto, set1, hI.cnt p]
      · simp only [Op.target, hf, if_true, Option.some.injEq] at hs
        subst hs
        refine h.calling (op := .get r a len) [] hi (by simp [State.goto, State.send]) (by simp [calls])
          (fun q m x hx => hsend q m _ _ x hx) (fun q hq => by simp [State.goto, State.send, set1, hq]) ?_
        intro r' a' len' e
        simp only [Op.get.injEq] at e
        obtain ⟨rfl, rfl, rfl⟩ := e
        refine ⟨hr, .inr (.inl ?_)⟩
        simp [State.goto, set1, hI.cnt p]
  | _ =>
    rw [call_oneSided rfl, if_pos ⟨hi, hv, hp, hu⟩] at hs
    simp only at hs
    split at hs
    · split at hs
      · simp only [Option.some.injEq] at hs
        subst hs
        refine h.calling [] hi (by simp [State.goto, State.send]; rfl) (by simp [calls])
          (fun q m x hx => hsend q m _ _ x hx) (fun q hq => by simp [State.goto, State.send, set1, hq]) (by simp)
      · simp only [Option.some.injEq] at hs
        subst hs
        refine h.calling [] hi (by simp [State.goto]; rfl) (by simp [calls])
          (fun q m x hx => hx) (fun q hq => by simp [State.goto, set1, hq]) (by simp)
    · simp only [setsFlag, isRmw, if_true, Bool.false_eq_true, if_false, Option.some.injEq] at hs
      subst hs
      refine h.calling [] hi (by simp [State.goto, State.send]; rfl) (by simp [calls])
        (fun q m x hx => hsend q m _ _ x hx) (fun q hq => by simp [State.goto, State.send, set1, hq]) (by simp)

/-- Steps that make no call. -/
theorem Got.other {c : Cfg} {s s' : State} (h : Got c s) (evs : List Ev)
    (htr : s'.tr = s.tr ++ evs) (hev : ∀ q, calls q evs = [])
    (hpo : ∀ q m t len, Slot.buf t len ∈ s.posted q m →
      Slot.buf t len ∈ s'.posted q m ∨ ∃ vals, .ret q t vals ∈ evs)
    (hctl : ∀ q m t op, (s.ctl q = .fencing m t (some op) ∨ s.ctl q = .direct t op) →
      s'.ctl q = .fencing m t (some op) ∨ s'.ctl q = .direct t op ∨ ∃ vals, .ret q t vals ∈ evs ∨
        ∀ r a len, op ≠ .get r a len) : Got c s' := by
  intro q t r a len hq
  rw [htr, calls_append, hev, List.append_nil] at hq
  obtain ⟨h0, h1⟩ := h q t r a len hq
  refine ⟨h0, ?_⟩
  rcases h1 with ⟨v, h1⟩ | h1 | h1
  · exact .inl ⟨v, by rw [htr]; simp [h1]⟩
  · rcases hpo q _ _ _ h1 with h2 | ⟨v, h2⟩
    · exact .inr (.inl h2)
    · exact .inl ⟨v, by rw [htr]; simp [h2]⟩
  · rcases hctl q (c.master r) t (.get r a len) h1 with h2 | h2 | ⟨v, h2 | h2⟩
    · exact .inr (.inr (.inl h2))
    · exact .inr (.inr (.inr h2))
    · exact .inl ⟨v, by rw [htr]; simp [h2]⟩
    · exact absurd rfl (h2 r a len)

theorem Got.resume {c : Cfg} {s s' : State} (h : Got c s) {p : Nat} (hs : Comex.resume c s p = some s') :
    Got c s' := by
  -- the control state of `p` changes, nothing else matters
  have key : ∀ k evs (s1 : State), s1.posted = s.posted → s1.tr = s.tr ++ evs → (∀ q, calls q evs = []) →
      s1.ctl = set1 s.ctl p k →
      (∀ m t op, (s.ctl p = .fencing m t (some op) ∨ s.ctl p = .direct t op) → k = .direct t op) → Got c s1 := by
    intro k evs s1 h1 h2 h3 h4 h5
    refine h.other evs h2 h3 (fun q m t len hx => .inl (by rw [h1]; exact hx)) ?_
    intro q m t op hq
    by_cases hqp : q = p
    · subst hqp
      have := h5 m t op hq
      right; left
      rw [h4, this]; simp [set1]
    · rw [h4]
      simp only [set1, hqp, if_false]
      tauto
  unfold Comex.resume at hs
  split at hs
  · rename_i m tag k hk
    split at hs
    · simp at hs
    · cases k with
      | none =>
        simp only [State.goto, State.log, Option.some.injEq] at hs
        subst hs
        exact key .idle _ _ rfl rfl (by simp [calls]) rfl (by rw [hk]; simp)
      | some op =>
        simp only [State.goto, Option.some.injEq] at hs
        subst hs
        refine key (.direct tag op) [] _ rfl (by simp) (by simp [calls]) rfl ?_
        intro m' t' op' e
        rw [hk] at e
        simp at e
        simp [e]
  · rename_i ms tag bb hk
    split at hs
    · simp at hs
    · rw [clearFlags_eq] at hs
      cases bb
      · simp only [State.goto, State.log, Bool.false_eq_true, if_false, Option.some.injEq] at hs
        subst hs
        exact key .idle _ _ rfl rfl (by simp [calls]) rfl (by rw [hk]; simp)
      · simp only [State.goto, if_true, Option.some.injEq] at hs
        subst hs
        exact key (.barrier tag) [] _ rfl (by simp) (by simp [calls]) rfl (by rw [hk]; simp)
  · rename_i m tag hk
    split at hs
    · simp at hs
    · simp only [State.goto, Option.some.injEq] at hs
      subst hs
      exact key .idle [] _ rfl (by simp) (by simp [calls]) rfl (by rw [hk]; simp)
  · rename_i t tag hk
    split at hs
    · simp at hs
    · simp only [State.goto, State.log, Option.some.injEq] at hs
      subst hs
      exact key .idle _ _ rfl rfl (by simp [calls]) rfl (by rw [hk]; simp)
  · rename_i tag hk
    split at hs
    · simp only [State.goto, State.log, Option.some.injEq] at hs
      subst hs
      exact key .idle _ _ rfl rfl (by simp [calls]) rfl (by rw [hk]; simp)
    · simp at hs
  · simp at hs

theorem Got.direct {c : Cfg} {s s' : State} (h : Got c s) {p : Nat} (hs : Comex.direct s p = some s') :
    Got c s' := by
  unfold Comex.direct at hs
  split at hs
  · rename_i tag r a vs hk
    simp only [State.goto, State.log, Option.some.injEq] at hs
    subst hs
    refine h.other _ rfl (by simp [calls]) (fun q m t len hx => .inl hx) ?_
    intro q m t op hq
    by_cases hqp : q = p
    · subst hqp
      rw [hk] at hq
      simp at hq
      exact .inr (.inr ⟨[], .inr (by rw [← hq.2]; simp)⟩)
    · simp only [set1, hqp, if_false]; tauto
  · rename_i tag r a sc vs hk
    simp only [State.goto, State.log, Option.some.injEq] at hs
    subst hs
    refine h.other _ rfl (by simp [calls]) (fun q m t len hx => .inl hx) ?_
    intro q m t op hq
    by_cases hqp : q = p
    · subst hqp
      rw [hk] at hq
      simp at hq
      exact .inr (.inr ⟨[], .inr (by rw [← hq.2]; simp)⟩)
    · simp only [set1, hqp, if_false]; tauto
  · rename_i tag r a len hk
    simp only [State.goto, State.log, Option.some.injEq] at hs
    subst hs
    refine h.other _ rfl (by simp [calls]) (fun q m t len hx => .inl hx) ?_
    intro q m t op hq
    by_cases hqp : q = p
    · subst hqp
      rw [hk] at hq
      simp at hq
      exact .inr (.inr ⟨readMem s.mem r a len, .inl (by simp [hq.1])⟩)
    · simp only [set1, hqp, if_false]; tauto
  · simp at hs

theorem Got.recv {c : Cfg} {s s' : State} (h : Got c s) {p m : Nat} (hs : Comex.recv s p m = some s')
    (he : s'.err = false) : Got c s' := by
  unfold Comex.recv at hs
  split at hs
  case h_2 => simp at hs
  rename_i sl ps sl0 vals rs hpo hre
  cases sl with
  | ack =>
    have : s'.posted = set2 s.posted p m ps ∧ s'.tr = s.tr ∧ s'.ctl = s.ctl := by
      simp only [Option.some.injEq] at hs
      subst hs
      split <;> exact ⟨rfl, rfl, rfl⟩
    obtain ⟨h1, h2, h3⟩ := this
    refine h.other [] (by simp [h2]) (by simp [calls]) ?_ (by rw [h3]; tauto)
    intro q m' t len hx
    left
    rw [h1]
    simp only [set2]
    split
    · rename_i e
      rw [e.1, e.2, hpo] at hx
      simpa using hx
    · exact hx
  | buf tag len =>
    simp only [Option.some.injEq] at hs
    split at hs
    · subst hs
      refine h.other [.ret p tag vals] rfl (by simp [calls]) ?_ (by simp only [State.log]; tauto)
      intro q m' t len' hx
      simp only [State.log, set2]
      split
      · rename_i e
        rw [e.1, e.2, hpo] at hx
        rcases List.mem_cons.1 hx with hx | hx
        · simp only [Slot.buf.injEq] at hx
          right
          exact ⟨vals, by simp [e.1, hx.1]⟩
        · exact .inl hx
      · exact .inl hx
    · subst hs; simp at he

theorem Got.serve {c : Cfg} {s s' : State} (h : Got c s) {p m : Nat} (hs : Comex.serve c s m p = some s') :
    Got c s' := by
  unfold Comex.serve at hs
  split at hs
  case isFalse => simp at hs
  split at hs
  case h_1 => simp at hs
  split at hs
  · simp only [Option.some.injEq] at hs
    subst hs
    exact h
  · simp only [Option.some.injEq] at hs
    subst hs
    refine h.other _ rfl ?_ (fun q m t len hx => .inl hx) (by intro q m t op; tauto)
    intro q
    split <;> simp [calls]

theorem Got.step {c : Cfg} {mem0 : Nat → Nat → Int} {s s' : State} (hc : c.OK) (hI : Inv c mem0 s)
    (h : Got c s) {a : Act} (hs : Comex.step c s a = some s') : Got c s' := by
  cases a with
  | call p op => exact h.call hI hs
  | resume p => exact h.resume hs
  | direct p => exact h.direct hs
  | recv p m => exact h.recv hs (hI.recv hs).err
  | serve m p => exact h.serve hs

/-- when a wait returns, the call waited for has returned -/
def WaitOK (tr : List Ev) : Prop :=
  ∀ pre post p t tag vals, tr = pre ++ .ret p tag vals :: post → (calls p pre)[tag]? = some (.wait t) →
    ∀ r a len, (calls p pre)[t]? = some (.get r a len) → ∃ vs, .ret p t vs ∈ pre

theorem WaitOK.snoc {tr : List Ev} {e : Ev} (h : WaitOK tr)
    (he : ∀ p t tag vals, e = .ret p tag vals → (calls p tr)[tag]? = some (.wait t) →
      ∀ r a len, (calls p tr)[t]? = some (.get r a len) → ∃ vs, .ret p t vs ∈ tr) : WaitOK (tr ++ [e]) := by
  intro pre post p t tag vals heq
  rcases List.append_eq_append_iff.1 heq with ⟨a, h1, h2⟩ | ⟨a, h1, h2⟩
  · cases a with
    | nil =>
      simp only [List.nil_append, List.cons.injEq] at h2
      rw [h1]
      simpa using he p t tag vals h2.1
    | cons x a => simp at h2
  · cases a with
    | nil =>
      simp only [List.nil_append, List.cons.injEq] at h2
      simp only [List.append_nil] at h1
      rw [← h1]
      exact he p t tag vals h2.1.symm
    | cons x a =>
      simp only [List.cons_append, List.cons.injEq] at h2
      exact h pre a p t tag vals (by rw [h1, h2.1])

theorem WaitOK.snoc_other {tr : List Ev} {e : Ev} (h : WaitOK tr) (he : ∀ p tag vals, e ≠ .ret p tag vals) :
    WaitOK (tr ++ [e]) :=
  h.snoc fun p _ tag vals e' => absurd e' (he p tag vals)

theorem WaitOK.snoc_ret {tr : List Ev} {p tag : Nat} {vals : List Int} {op : Op} (h : WaitOK tr)
    (hop : (calls p tr)[tag]? = some op) (hn : ∀ t, op ≠ .wait t) : WaitOK (tr ++ [.ret p tag vals]) := by
  refine h.snoc ?_
  intro p' t tag' vals' e h1
  simp only [Ev.ret.injEq] at e
  obtain ⟨rfl, rfl, rfl⟩ := e
  rw [hop] at h1
  simp only [Option.some.injEq] at h1
  exact absurd h1 (hn t)

theorem WaitOK.call {c : Cfg} {mem0 : Nat → Nat → Int} {s s' : State} (hI : Inv c mem0 s) (h : WaitOK s.tr)
    {p : Nat} {op : Op} (hs : Comex.call c s p op = some s') : WaitOK s'.tr := by
  have hpre : s.ctl p = .idle ∧ op.valid c = true ∧ p < c.size ∧ c.user p = true := by
    by_contra hn
    unfold Comex.call at hs
    rw [if_neg hn] at hs
    simp at hs
  have h1 : WaitOK (s.tr ++ [.call p op]) := h.snoc_other (by simp)
  have hop : (calls p (s.tr ++ [.call p op]))[s.cnt p]? = some op := by
    rw [calls_append]
    simp only [calls, if_true]
    exact getElem?_snoc (hI.cnt p)
  have hfl : ∀ x y, flagged c { s with cnt := x, tr := y } p = flagged c s p := fun _ _ => rfl
  cases op with
  | fence r =>
    unfold Comex.call at hs
    rw [if_pos hpre] at hs
    simp only [State.log] at hs
    cases hf : s.flag p (c.master r)
    · simp only [hf, Bool.false_eq_true, if_false, Option.some.injEq] at hs
      subst hs
      exact h1.snoc_ret hop (by simp)
    · simp only [hf, if_true, Option.some.injEq] at hs
      subst hs
      exact h1
  | fenceAll =>
    unfold Comex.call at hs
    rw [if_pos hpre] at hs
    simp only [State.log, hfl, flagged_ok hI, Bool.false_eq_true, if_false] at hs
    split at hs
    · simp only [Option.some.injEq] at hs
      subst hs
      exact h1.snoc_ret hop (by simp)
    · simp only [Option.some.injEq] at hs
      subst hs
      rw [sendFences_eq flagged_nodup]
      exact h1
  | barrier =>
    unfold Comex.call at hs
    rw [if_pos hpre] at hs
    simp only [State.log, hfl, flagged_ok hI, Bool.false_eq_true, if_false] at hs
    split at hs
    · simp only [Option.some.injEq] at hs
      subst hs
      exact h1
    · simp only [Option.some.injEq] at hs
      subst hs
      rw [sendFences_eq flagged_nodup]
      exact h1
  | wait t =>
    unfold Comex.call at hs
    rw [if_pos hpre] at hs
    simp only [State.log, Option.some.injEq] at hs
    subst hs
    exact h1
  | _ =>
    rw [call_oneSided rfl, if_pos hpre] at hs
    simp only at hs
    split at hs
    · split at hs <;> (simp only [Option.some.injEq] at hs; subst hs; exact h1)
    · simp only [setsFlag, isRmw, if_true, Bool.false_eq_true, if_false, Option.some.injEq] at hs
      subst hs
      exact h1

theorem WaitOK.resume {c : Cfg} {mem0 : Nat → Nat → Int} {s s' : State} (hc : c.OK) (hI : Inv c mem0 s)
    (hG : Got c s) (h : WaitOK s.tr) {p : Nat} (hs : Comex.resume c s p = some s') : WaitOK s'.tr := by
  have hctl := hI.ctl p
  unfold Comex.resume at hs
  split at hs
  · rename_i m tag k hk
    split at hs
    · simp at hs
    · rw [hk] at hctl
      cases k with
      | none =>
        simp only [State.goto, State.log, Option.some.injEq] at hs
        subst hs
        obtain ⟨r, hctl, _⟩ := hctl
        exact h.snoc_ret hctl (by simp)
      | some op =>
        simp only [State.goto, Option.some.injEq] at hs
        subst hs
        exact h
  · rename_i ms tag bb hk
    split at hs
    · simp at hs
    · rw [clearFlags_eq] at hs
      rw [hk] at hctl
      cases bb
      · simp only [State.goto, State.log, Bool.false_eq_true, if_false, Option.some.injEq] at hs
        subst hs
        exact h.snoc_ret hctl.1 (by simp)
      · simp only [State.goto, if_true, Option.some.injEq] at hs
        subst hs
        exact h
  · rename_i m tag hk
    split at hs
    · simp at hs
    · simp only [State.goto, Option.some.injEq] at hs
      subst hs
      exact h
  · rename_i t tag hk
    split at hs
    · simp at hs
    · rename_i hno
      simp only [State.goto, State.log, Option.some.injEq] at hs
      subst hs
      rw [hk] at hctl
      refine h.snoc ?_
      intro p' t' tag' vals' e h1 r a len h2
      simp only [Ev.ret.injEq] at e
      obtain ⟨rfl, rfl, rfl⟩ := e
      have hctl : (calls p s.tr)[tag]? = some (.wait t) := hctl
      rw [hctl] at h1
      simp only [Option.some.injEq, Op.wait.injEq] at h1
      subst h1
      obtain ⟨hr, h3⟩ := hG p t r a len h2
      rcases h3 with h3 | h3 | h3 | h3
      · exact h3
      · exfalso
        apply hno
        rw [List.any_eq_true]
        refine ⟨c.master r, List.mem_range.2 (hc.master r hr).1, ?_⟩
        rw [List.any_eq_true]
        exact ⟨_, h3, by simp⟩
      · rw [hk] at h3; simp at h3
      · rw [hk] at h3; simp at h3
  · rename_i tag hk
    split at hs
    · simp only [State.goto, State.log, Option.some.injEq] at hs
      subst hs
      rw [hk] at hctl
      exact h.snoc_ret hctl.1 (by simp)
    · simp at hs
  · simp at hs

theorem WaitOK.direct {c : Cfg} {mem0 : Nat → Nat → Int} {s s' : State} (hI : Inv c mem0 s)
    (h : WaitOK s.tr) {p : Nat} (hs : Comex.direct s p = some s') : WaitOK s'.tr := by
  have hctl := hI.ctl p
  unfold Comex.direct at hs
  split at hs
  · simp only [State.goto, State.log, Option.some.injEq] at hs
    subst hs
    exact h.snoc_other (by simp)
  · simp only [State.goto, State.log, Option.some.injEq] at hs
    subst hs
    exact h.snoc_other (by simp)
  · rename_i tag r a len hk
    simp only [State.goto, State.log, Option.some.injEq] at hs
    subst hs
    rw [hk] at hctl
    have h1 := h.snoc_other (e := .load p tag r a (readMem s.mem r a len)) (by simp)
    have h2 := h1.snoc_ret (p := p) (tag := tag) (vals := readMem s.mem r a len) (op := .get r a len)
      (by rw [calls_append]; simpa [calls] using hctl.1) (by simp)
    simpa using h2
  · simp at hs

theorem WaitOK.recv {c : Cfg} {mem0 : Nat → Nat → Int} {s s' : State} (hI : Inv c mem0 s)
    (h : WaitOK s.tr) {p m : Nat} (hs : Comex.recv s p m = some s') : WaitOK s'.tr := by
  unfold Comex.recv at hs
  split at hs
  case h_2 => simp at hs
  rename_i sl ps sl0 vals rs hpo hre
  have hsl := hI.slot p m sl (by rw [hpo]; simp)
  cases sl with
  | ack =>
    simp only [Option.some.injEq] at hs
    subst hs
    split <;> exact h
  | buf tag len =>
    simp only [Option.some.injEq] at hs
    split at hs
    · subst hs
      rcases hsl with ⟨r, a, h1⟩ | ⟨_, r, a, v, h1 | h1⟩
      · exact h.snoc_ret h1 (by simp)
      · exact h.snoc_ret h1 (by simp)
      · exact h.snoc_ret h1 (by simp)
    · subst hs; exact h

theorem WaitOK.serve {c : Cfg} {s s' : State}
    (h : WaitOK s.tr) {p m : Nat} (hs : Comex.serve c s m p = some s') : WaitOK s'.tr := by
  unfold Comex.serve at hs
  split at hs
  case isFalse => simp at hs
  split at hs
  case h_1 => simp at hs
  split at hs
  · simp only [Option.some.injEq] at hs
    subst hs
    exact h
  · simp only [Option.some.injEq] at hs
    subst hs
    simp only
    split <;> exact h.snoc_other (by simp)

theorem WaitOK.step {c : Cfg} {mem0 : Nat → Nat → Int} {s s' : State} (hc : c.OK) (hI : Inv c mem0 s)
    (hG : Got c s) (h : WaitOK s.tr) {a : Act} (hs : Comex.step c s a = some s') : WaitOK s'.tr := by
  cases a with
  | call p op => exact h.call hI hs
  | resume p => exact h.resume hc hI hG hs
  | direct p => exact h.direct hI hs
  | recv p m => exact h.recv hI hs
  | serve m p => exact h.serve hs

theorem run_inv {c : Cfg} {mem0 : Nat → Nat → Int} {s s' : State} (hc : c.OK) {as : List Act}
    (hI : Inv c mem0 s) (hG : Got c s) (h : WaitOK s.tr) (hs : Comex.run c s as = some s') :
    Inv c mem0 s' ∧ Got c s' ∧ WaitOK s'.tr := by
  induction as generalizing s with
  | nil => simp only [Comex.run, Option.some.injEq] at hs; subst hs; exact ⟨hI, hG, h⟩
  | cons a as ih =>
    simp only [Comex.run] at hs
    obtain ⟨s1, h1, h2⟩ := Option.bind_eq_some_iff.1 hs
    exact ih (hI.step hc h1) (hG.step hc hI h1) (h.step hc hI hG h1) h2

theorem reach {c : Cfg} {mem0 : Nat → Nat → Int} {s : State} (hc : c.OK) {as : List Act}
    (hs : Comex.run c (Comex.start mem0) as = some s) : Inv c mem0 s ∧ Got c s ∧ WaitOK s.tr := by
  refine run_inv hc Inv.start ?_ ?_ hs
  · intro p t r a len h; simp [Comex.start, calls] at h
  · intro pre post p t tag vals h; simp [Comex.start] at h

end GA.Comex
