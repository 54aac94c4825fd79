import Verif.Model.PendBuf

namespace GA.Model.PendBuf

/-- what a buffer between events looks like -/
def OkP (p : Pend) : Prop :=
  (p.req.op = .get ∧ (p.stat = .sendPending ∨ p.stat = .sendDone)) ∨ (p.req.op = .put ∧ (p.stat = .recvPending ∨ p.stat = .recvDone))

def isPut (p : Pend) : Bool := p.req.op = .put

/-- requests issued so far are those carried out, then the puts in buffers, then those that wait -/
structure Inv (issued : List Req) (st : St) : Prop where
  ok : ∀ p ∈ st.order, OkP p
  sorted : st.order.Pairwise fun a b => b.req.op = .get → a.req.op = .get
  all : issued = st.done ++ (st.order.filter isPut).map (·.req) ++ st.wait
  noacc : ∀ r ∈ st.wait, r.op ≠ .acc

theorem Inv.get {issued : List Req} {st st' : St} (h : Inv issued st) {i : Nat} (hs : progressGet st i = some st') : Inv issued st' := by
  rw [progressGet] at hs
  have hsplit := List.take_append_drop i st.order
  cases hd : st.order.drop i with
  | nil => rw [hd] at hs; cases hs
  | cons p post =>
    rw [hd] at hs hsplit
    have hp : OkP p := h.ok p (by rw [← hsplit]; simp)
    cases hst : p.stat with
    | init => simp [OkP, hst] at hp
    | recvPending => simp [hst] at hs
    | recvDone => simp [hst] at hs
    | sendPending => simp [hst] at hs
    | sendDone =>
      have hget : p.req.op = .get := by simpa [OkP, hst] using hp
      simp only [hst, Option.some.injEq] at hs
      subst hs
      have hsub : (st.order.take i ++ post).Sublist st.order := by
        conv_rhs => rw [← hsplit]
        exact List.Sublist.append (List.Sublist.refl _) (List.sublist_cons_self _ _)
      refine ⟨fun q hq => h.ok q (hsub.subset hq), h.sorted.sublist hsub, ?_, h.noacc⟩
      have := h.all
      rw [← hsplit] at this
      simpa [isPut, hget] using this

theorem Inv.putacc {issued : List Req} {st st' : St} (h : Inv issued st) {i : Nat} (hs : progressPutAcc st i = some st') : Inv issued st' := by
  rw [progressPutAcc] at hs
  have hsplit := List.take_append_drop i st.order
  cases hd : st.order.drop i with
  | nil => rw [hd] at hs; cases hs
  | cons p post =>
    rw [hd] at hs hsplit
    have hp : OkP p := h.ok p (by rw [← hsplit]; simp)
    have hso := h.sorted
    have hall := h.all
    have hok := h.ok
    rw [← hsplit] at hso hall hok
    dsimp only at hs
    split at hs
    · cases hs
    rename_i hop
    cases hst : p.stat with
    | init => simp [OkP, hst] at hp
    | recvPending => simp [hst] at hs
    | sendPending => simp [hst] at hs
    | sendDone => simp [hst] at hs
    | recvDone =>
      have hput : p.req.op = .put := by simpa [OkP, hst] using hp
      simp only [hst] at hs
      by_cases hi : i = 0
      · rw [if_neg (by simp [hi])] at hs
        cases hs
        subst hi
        simp only [List.take_zero, List.nil_append] at *
        refine ⟨fun q hq => hok q (by simp [hq]), (List.pairwise_cons.1 hso).2, ?_, h.noacc⟩
        simpa [isPut, hput] using hall
      · rw [if_pos ⟨hput, hi⟩] at hs
        split at hs
        · cases hs
        cases hs
        refine ⟨?_, ?_, ?_, h.noacc⟩
        · intro q hq
          rcases List.mem_append.1 hq with hq | hq
          · exact hok q (by simp [hq])
          · rcases List.mem_cons.1 hq with rfl | hq
            · exact .inr ⟨hput, .inr rfl⟩
            · exact hok q (by simp [hq])
        · simpa [List.pairwise_append, List.pairwise_cons] using hso
        · simpa [isPut, hput] using hall

theorem Inv.step {issued : List Req} {st st' : St} (h : Inv issued st) {op : Op} {i : Nat} (hs : step op st i = some st') : Inv issued st' := by
  cases op with
  | put => exact h.putacc hs
  | acc => exact h.putacc hs
  | get => exact h.get hs
  | other => cases hs

theorem Inv.loop {issued : List Req} {op : Op} : ∀ {fuel : Nat} {st st' : St}, Inv issued st → commitLoop op fuel st = some st' → Inv issued st' := by
  intro fuel
  induction fuel with
  | zero => intro st st' h hs; cases hs; exact h
  | succ fuel ih =>
    intro st st' h hs
    rw [commitLoop] at hs
    split at hs
    · cases hs; exact h
    · split at hs
      · obtain ⟨s1, h1, h2⟩ := Option.bind_eq_some_iff.1 hs
        exact ih (h.step h1) h2
      · cases hs; exact h

theorem Inv.prog {issued : List Req} {st st' : St} (h : Inv issued st) {op : Op} {i : Nat} (hs : progress op st i = some st') : Inv issued st' := by
  obtain ⟨s1, h1, h2⟩ := Option.bind_eq_some_iff.1 hs
  exact (h.step h1).loop h2

/-- a request that is given a buffer; `st` has the request no more among those that wait -/
theorem Inv.assign {issued : List Req} {st st' : St} {r : Req} (hok : ∀ p ∈ st.order, OkP p) (hso : st.order.Pairwise fun a b => b.req.op = .get → a.req.op = .get)
    (hall : issued = st.done ++ (st.order.filter isPut).map (·.req) ++ r :: st.wait) (hno : ∀ r ∈ st.wait, r.op ≠ .acc) (hr : r.op ≠ .acc)
    (hg : r.op = .get → ∀ p ∈ st.order, p.req.op = .get) (hs : assign st r = some st') : Inv issued st' := by
  obtain ⟨s1, h1, h2⟩ := Option.bind_eq_some_iff.1 hs
  refine Inv.loop ?_ h2
  cases hop : r.op with
  | acc => exact absurd hop hr
  | other => rw [hop] at h1; cases h1
  | get =>
    have hgs := hg hop
    have hf : st.order.filter isPut = [] := by
      rw [List.filter_eq_nil_iff]
      intro p hp
      simp [isPut, hgs p hp]
    rw [hf] at hall
    simp only [hop, PendBuf.step, progressGet, List.drop_left, List.take_left] at h1
    split at h1
    · cases h1
      refine ⟨by simpa using hok, by simpa using hso, ?_, hno⟩
      simp [hf, hall]
    · cases h1
      refine ⟨?_, ?_, ?_, hno⟩
      · intro q hq
        rcases List.mem_append.1 hq with hq | hq
        · exact hok q hq
        · rw [List.mem_singleton.1 hq]
          exact .inl ⟨hop, .inl rfl⟩
      · refine List.pairwise_append.2 ⟨hso, List.pairwise_singleton _ _, fun a ha b _ _ => hgs a ha⟩
      · simp [hf, hall, isPut, hop]
  | put =>
    simp only [hop, PendBuf.step, progressPutAcc, List.drop_left, List.take_left] at h1
    simp only [ne_eq, not_true_eq_false, false_and, if_false, Option.some.injEq] at h1
    subst h1
    refine ⟨?_, ?_, ?_, hno⟩
    · intro q hq
      rcases List.mem_append.1 hq with hq | hq
      · exact hok q hq
      · rw [List.mem_singleton.1 hq]
        exact .inr ⟨hop, .inl rfl⟩
    · refine List.pairwise_append.2 ⟨hso, List.pairwise_singleton _ _, fun a _ b hb hbg => ?_⟩
      rw [List.mem_singleton.1 hb] at hbg
      have : r.op = .get := hbg
      rw [hop] at this
      cases this
    · simp [hall, isPut, hop]

/-- the last buffer holds a get: then all do -/
theorem Inv.gets {issued : List Req} {st : St} (h : Inv issued st) (hl : ∀ t, st.order.getLast? = some t → t.req.op = .get) : ∀ p ∈ st.order, p.req.op = .get := by
  intro p hp
  have hne : st.order ≠ [] := List.ne_nil_of_mem hp
  have hlast := hl _ (List.getLast?_eq_some_getLast hne)
  have hso := h.sorted
  rw [← List.dropLast_append_getLast hne] at hp hso
  rcases List.mem_append.1 hp with hp | hp
  · exact (List.pairwise_append.1 hso).2.2 p hp _ (by simp) hlast
  · rw [List.mem_singleton.1 hp]
    exact hlast

/-- what an admitted request finds -/
theorem can_spec {issued : List Req} {st : St} (h : Inv issued st) {full first : Bool} {r : Req} (hr : r.op ≠ .acc) (hc : canProgress st full first r = true) :
    first = true ∧ (r.op ≠ .put → ∀ p ∈ st.order, p.req.op = .get) ∧ (r.imm = true → r.op = .put → st.order = []) := by
  unfold canProgress at hc
  split at hc
  · cases hc
  rw [if_neg (by simp [hr])] at hc
  split at hc
  · cases hc
  rename_i hf
  refine ⟨by simpa using hf, ?_, ?_⟩
  · intro hp
    rw [if_pos ⟨hp, hr⟩] at hc
    refine h.gets fun t ht => ?_
    rw [ht] at hc
    simp only [decide_eq_true_eq] at hc
    exact hc.2
  · intro hi hp
    rw [if_neg (by simp [hp])] at hc
    simpa [hi] using hc

theorem filter_gets {l : List Pend} (h : ∀ p ∈ l, p.req.op = .get) : l.filter isPut = [] := by
  rw [List.filter_eq_nil_iff]
  intro p hp
  simp [isPut, h p hp]

/-- an admitted request, immediate or not -/
theorem Inv.admit {issued : List Req} {st st' : St} {w : List Req} {full first : Bool} {r : Req} (h : Inv issued st) (hr : r.op ≠ .acc)
    (hc : canProgress st full first r = true) {issued' : List Req} (hall : issued' = st.done ++ (st.order.filter isPut).map (·.req) ++ r :: w)
    (hno : ∀ r ∈ w, r.op ≠ .acc) (hs : (if r.imm then some { st with wait := w, done := st.done ++ [r] } else PendBuf.assign { st with wait := w } r) = some st') :
    Inv issued' st' := by
  obtain ⟨-, h2, h3⟩ := can_spec h hr hc
  split at hs
  · rename_i hi
    cases hs
    have hf : st.order.filter isPut = [] := by
      by_cases hp : r.op = .put
      · rw [h3 hi hp]; rfl
      · exact filter_gets (h2 hp)
    refine ⟨h.ok, h.sorted, ?_, hno⟩
    rw [hall]
    simp [hf]
  · exact Inv.assign (st := { st with wait := w }) h.ok h.sorted hall hno hr (fun hg => h2 (by rw [hg]; simp)) hs

/-- the request an event brings -/
def Event.req : Event → List Req
  | .service r _ => [r]
  | _ => []

theorem Inv.next {issued : List Req} {st st' : St} (h : Inv issued st) {e : Event} (hr : ∀ r ∈ e.req, r.op ≠ .acc) (hs : next st e = some st') :
    Inv (issued ++ e.req) st' := by
  cases e with
  | service r full =>
    have hr : r.op ≠ .acc := hr r (by simp [Event.req])
    simp only [PendBuf.next, service] at hs
    split at hs
    · rename_i hc
      have hw : st.wait = [] := by simpa using (can_spec h hr hc).1
      refine h.admit hr hc (w := []) ?_ (by simp) ?_
      · rw [h.all, hw]
        simp [Event.req]
      · have he : st = { st with wait := [] } := by rw [← hw]
        rw [he] at hs
        exact hs
    · cases hs
      refine ⟨h.ok, h.sorted, ?_, ?_⟩
      · rw [h.all]
        simp [Event.req]
      · intro q hq
        rcases List.mem_append.1 hq with hq | hq
        · exact h.noacc q hq
        · rw [List.mem_singleton.1 hq]
          exact hr
  | ended i =>
    simp only [PendBuf.next, ended] at hs
    simp only [Event.req, List.append_nil]
    have hsplit := List.take_append_drop i st.order
    cases hd : st.order.drop i with
    | nil => rw [hd] at hs; cases hs
    | cons p post =>
      rw [hd] at hs hsplit
      have hp : OkP p := h.ok p (by rw [← hsplit]; simp)
      have hso := h.sorted
      have hall := h.all
      have hok := h.ok
      rw [← hsplit] at hso hall hok
      have key : ∀ s : Stat, OkP { p with stat := s } → Inv issued { st with order := st.order.take i ++ { p with stat := s } :: post } := by
        intro s hs
        refine ⟨?_, ?_, ?_, h.noacc⟩
        · intro q hq
          rcases List.mem_append.1 hq with hq | hq
          · exact hok q (by simp [hq])
          · rcases List.mem_cons.1 hq with rfl | hq
            · exact hs
            · exact hok q (by simp [hq])
        · simpa [List.pairwise_append, List.pairwise_cons] using hso
        · rw [hall]
          by_cases hput : p.req.op = .put <;> simp [isPut, hput]
      cases hst : p.stat with
      | init => simp [hst] at hs
      | recvDone => simp [hst] at hs
      | sendDone => simp [hst] at hs
      | recvPending =>
        simp only [hst] at hs
        refine (key .recvDone ?_).prog hs
        have : p.req.op = .put := by simpa [OkP, hst] using hp
        exact .inr ⟨this, .inr rfl⟩
      | sendPending =>
        simp only [hst] at hs
        refine (key .sendDone ?_).prog hs
        have : p.req.op = .get := by simpa [OkP, hst] using hp
        exact .inl ⟨this, .inr rfl⟩
  | promote full =>
    simp only [PendBuf.next, promote] at hs
    simp only [Event.req, List.append_nil]
    cases hw : st.wait with
    | nil => rw [hw] at hs; cases hs; exact h
    | cons r w =>
      rw [hw] at hs
      dsimp only at hs
      split at hs
      · rename_i hc
        refine h.admit (h.noacc r (by rw [hw]; simp)) hc (w := w) ?_ (fun q hq => h.noacc q (by rw [hw]; simp [hq])) hs
        rw [h.all, hw]
      · cases hs
        exact h

theorem Inv.run {es : List Event} : ∀ {issued : List Req} {st st' : St}, Inv issued st → (∀ e ∈ es, ∀ r ∈ e.req, r.op ≠ .acc) → run es st = some st' →
    Inv (issued ++ es.flatMap Event.req) st' := by
  induction es with
  | nil => intro issued st st' h _ hs; cases hs; simpa using h
  | cons e es ih =>
    intro issued st st' h hr hs
    obtain ⟨s1, h1, h2⟩ := Option.bind_eq_some_iff.1 hs
    have := ih (h.next (hr e (by simp)) h1) (fun e he => hr e (by simp [he])) h2
    simpa [List.append_assoc] using this

end GA.Model.PendBuf

namespace GA.Model.PendBuf

/-- a buffer that holds a put or an accumulate, between events -/
def Ap (p : Pend) : Prop :=
  (p.req.op = .put ∨ p.req.op = .acc) ∧ (p.stat = .recvPending ∧ p.commit = false ∨ p.stat = .recvDone ∧ p.commit = true ∧ p.req.op = .put)

/-- requests that need no buffer unless they are puts or accumulates -/
def Allowed (r : Req) : Prop := r.imm = true ∨ r.op = .put ∨ r.op = .acc

structure Alive (st : St) : Prop where
  ap : ∀ p ∈ st.order, Ap p
  wait : ∀ r ∈ st.wait, Allowed r
  head : ∀ p, st.order.head? = some p → p.commit = false

theorem loop_alive {op : Op} (hop : op = .put ∨ op = .acc) : ∀ (l : List Pend) (st : St), st.order = l → (∀ p ∈ l, Ap p) → (∀ r ∈ st.wait, Allowed r) →
    ∃ st', commitLoop op l.length st = some st' ∧ Alive st' := by
  intro l
  induction l with
  | nil => intro st hl _ hw; exact ⟨st, rfl, by simp [hl], hw, by simp [hl]⟩
  | cons p l ih =>
    intro st hl hap hw
    rw [List.length_cons, commitLoop, hl]
    dsimp only
    by_cases hc : p.commit = true
    · rw [if_pos hc]
      obtain ⟨h1, h2⟩ := hap p (by simp)
      obtain ⟨h3, -, h4⟩ := h2.resolve_left (by simp [hc])
      have hs : step op st 0 = some { st with order := l, done := st.done ++ [p.req] } := by
        have : progressPutAcc st 0 = some { st with order := l, done := st.done ++ [p.req] } := by
          simp [progressPutAcc, hl, h4, h3]
        rcases hop with rfl | rfl <;> exact this
      rw [hs]
      exact ih { st with order := l, done := st.done ++ [p.req] } rfl (fun q hq => hap q (by simp [hq])) hw
    · rw [if_neg hc]
      refine ⟨st, rfl, by rw [hl]; exact hap, hw, ?_⟩
      intro q hq
      rw [hl] at hq
      cases hq
      simpa using hc

theorem assign_alive {st : St} {r : Req} (hap : ∀ p ∈ st.order, Ap p) (hw : ∀ r ∈ st.wait, Allowed r) (hr : r.op = .put ∨ r.op = .acc) :
    ∃ st', assign st r = some st' ∧ Alive st' := by
  have hs : step r.op { st with order := st.order ++ [⟨r, .init, false⟩] } st.order.length =
      some { st with order := st.order ++ [⟨r, .recvPending, false⟩] } := by
    rcases hr with h | h <;> simp [h, step, progressPutAcc]
  rw [assign, progress, hs]
  refine loop_alive hr _ _ rfl ?_ hw
  intro q hq
  rcases List.mem_append.1 hq with hq | hq
  · exact hap q hq
  · rw [List.mem_singleton.1 hq]
    exact ⟨hr, .inl ⟨rfl, rfl⟩⟩

/-- the transfer of the buffer at place `i` is under way -/
def InTransfer (st : St) (i : Nat) : Prop := ∃ p, st.order[i]? = some p ∧ (p.stat = .recvPending ∨ p.stat = .sendPending)

theorem ended_alive {st : St} (h : Alive st) {i : Nat} (hi : InTransfer st i) : ∃ st', ended st i = some st' ∧ Alive st' := by
  obtain ⟨p, hp, hst⟩ := hi
  obtain ⟨hlt, hpe⟩ := List.getElem?_eq_some_iff.1 hp
  have hd : st.order.drop i = p :: st.order.drop (i + 1) := by rw [List.drop_eq_getElem_cons hlt, hpe]
  obtain ⟨h1, h2⟩ := h.ap p (hpe ▸ List.getElem_mem hlt)
  obtain ⟨h3, h4⟩ : p.stat = .recvPending ∧ p.commit = false := by
    rcases h2 with h2 | ⟨h2, -⟩
    · exact h2
    · rw [h2] at hst
      simp at hst
  have hpre : ∀ q ∈ st.order.take i, Ap q := fun q hq => h.ap q (List.mem_of_mem_take hq)
  have hpost : ∀ q ∈ st.order.drop (i + 1), Ap q := fun q hq => h.ap q (List.mem_of_mem_drop hq)
  have hlen : (st.order.take i).length = i := by rw [List.length_take]; omega
  rw [ended, hd]
  simp only [h3, progress]
  have hs : step p.req.op { st with order := st.order.take i ++ { p with stat := .recvDone } :: st.order.drop (i + 1) } i =
      if p.req.op = .put ∧ i ≠ 0 then some { st with order := st.order.take i ++ { p with stat := .recvDone, commit := true } :: st.order.drop (i + 1) }
      else some { st with order := st.order.take i ++ st.order.drop (i + 1), done := st.done ++ [p.req] } := by
    have : progressPutAcc { st with order := st.order.take i ++ { p with stat := .recvDone } :: st.order.drop (i + 1) } i =
        if p.req.op = .put ∧ i ≠ 0 then some { st with order := st.order.take i ++ { p with stat := .recvDone, commit := true } :: st.order.drop (i + 1) }
        else some { st with order := st.order.take i ++ st.order.drop (i + 1), done := st.done ++ [p.req] } := by
      rw [progressPutAcc]
      dsimp only
      rw [List.drop_left' hlen, List.take_left' hlen]
      dsimp only
      rw [if_neg (by rcases h1 with h1 | h1 <;> simp [h1]), h4]
      simp
    rcases h1 with h | h <;> rw [← this, h] <;> rfl
  rw [hs]
  split
  · rename_i hc
    refine loop_alive h1 _ _ rfl ?_ h.wait
    intro q hq
    rcases List.mem_append.1 hq with hq | hq
    · exact hpre q hq
    · rcases List.mem_cons.1 hq with rfl | hq
      · exact ⟨.inl hc.1, .inr ⟨rfl, rfl, hc.1⟩⟩
      · exact hpost q hq
  · refine loop_alive h1 _ _ rfl ?_ h.wait
    intro q hq
    rcases List.mem_append.1 hq with hq | hq
    · exact hpre q hq
    · exact hpost q hq

theorem next_alive {st : St} (h : Alive st) {e : Event} (hr : ∀ r ∈ e.req, Allowed r) (hi : ∀ i, e = .ended i → InTransfer st i) :
    ∃ st', next st e = some st' ∧ Alive st' := by
  cases e with
  | service r full =>
    have hr := hr r (by simp [Event.req])
    simp only [PendBuf.next, service]
    split
    · split
      · exact ⟨_, rfl, h.ap, h.wait, h.head⟩
      · rename_i hni
        exact assign_alive h.ap h.wait (hr.resolve_left hni)
    · refine ⟨_, rfl, h.ap, ?_, h.head⟩
      intro q hq
      rcases List.mem_append.1 hq with hq | hq
      · exact h.wait q hq
      · rw [List.mem_singleton.1 hq]
        exact hr
  | ended i => exact ended_alive h (hi i rfl)
  | promote full =>
    simp only [PendBuf.next, promote]
    cases hw : st.wait with
    | nil => exact ⟨st, rfl, h⟩
    | cons r w =>
      have hww : ∀ q ∈ w, Allowed q := fun q hq => h.wait q (by rw [hw]; simp [hq])
      dsimp only
      split
      · split
        · exact ⟨_, rfl, h.ap, hww, h.head⟩
        · rename_i hni
          exact assign_alive (st := { st with wait := w }) h.ap hww ((h.wait r (by rw [hw]; simp)).resolve_left hni)
      · exact ⟨st, rfl, h⟩

end GA.Model.PendBuf
