import Verif.Lemmas.PendBuf

/-! Requests with accumulates: what is left of the order. -/

namespace GA.Model.PendBuf

/-- what a buffer between events looks like -/
def OkA (p : Pend) : Prop :=
  (p.req.op = .get ∧ (p.stat = .sendPending ∨ p.stat = .sendDone)) ∨ ((p.req.op = .put ∨ p.req.op = .acc) ∧ (p.stat = .recvPending ∨ p.stat = .recvDone))

def isPA (p : Pend) : Bool := p.req.op = .put ∨ p.req.op = .acc

def na (r : Req) : Bool := r.op ≠ .acc

structure InvA (issued : List Req) (st : St) : Prop where
  ok : ∀ p ∈ st.order, OkA p
  sorted : st.order.Pairwise fun a b => b.req.op = .get → a.req.op = .get
  all : issued.filter na = st.done.filter na ++ (st.order.filter isPut).map (·.req) ++ st.wait.filter na
  cnt : ∀ r, issued.count r = st.done.count r + ((st.order.filter isPA).map (·.req)).count r + st.wait.count r

theorem InvA.get {issued : List Req} {st st' : St} (h : InvA issued st) {i : Nat} (hs : progressGet st i = some st') : InvA issued st' := by
  rw [progressGet] at hs
  have hsplit := List.take_append_drop i st.order
  cases hd : st.order.drop i with
  | nil => rw [hd] at hs; cases hs
  | cons p post =>
    rw [hd] at hs hsplit
    have hp : OkA p := h.ok p (by rw [← hsplit]; simp)
    cases hst : p.stat with
    | init => simp [OkA, hst] at hp
    | recvPending => simp [hst] at hs
    | recvDone => simp [hst] at hs
    | sendPending => simp [hst] at hs
    | sendDone =>
      have hget : p.req.op = .get := by simpa [OkA, hst] using hp
      simp only [hst, Option.some.injEq] at hs
      subst hs
      have hsub : (st.order.take i ++ post).Sublist st.order := by
        conv_rhs => rw [← hsplit]
        exact List.Sublist.append (List.Sublist.refl _) (List.sublist_cons_self _ _)
      refine ⟨fun q hq => h.ok q (hsub.subset hq), h.sorted.sublist hsub, ?_, fun r => ?_⟩
      · have := h.all
        rw [← hsplit] at this
        simpa [isPut, hget] using this
      · have := h.cnt r
        rw [← hsplit] at this
        simpa [isPA, hget] using this

theorem InvA.putacc {issued : List Req} {st st' : St} (h : InvA issued st) {i : Nat} (hs : progressPutAcc st i = some st') : InvA issued st' := by
  rw [progressPutAcc] at hs
  have hsplit := List.take_append_drop i st.order
  cases hd : st.order.drop i with
  | nil => rw [hd] at hs; cases hs
  | cons p post =>
    rw [hd] at hs hsplit
    have hp : OkA p := h.ok p (by rw [← hsplit]; simp)
    have hso := h.sorted
    have hall := h.all
    have hcnt : ∀ r, issued.count r = st.done.count r + (((st.order.take i ++ p :: post).filter isPA).map (·.req)).count r + st.wait.count r := by
      rw [hsplit]
      exact h.cnt
    have hok := h.ok
    rw [← hsplit] at hso hall hok
    dsimp only at hs
    split at hs
    · cases hs
    cases hst : p.stat with
    | init => simp [OkA, hst] at hp
    | recvPending => simp [hst] at hs
    | sendPending => simp [hst] at hs
    | sendDone => simp [hst] at hs
    | recvDone =>
      have hpa : p.req.op = .put ∨ p.req.op = .acc := by simpa [OkA, hst] using hp
      simp only [hst] at hs
      by_cases hi : p.req.op = .put ∧ i ≠ 0
      · rw [if_pos hi] at hs
        have hput := hi.1
        split at hs
        · cases hs
        cases hs
        refine ⟨?_, ?_, ?_, fun r => ?_⟩
        · intro q hq
          rcases List.mem_append.1 hq with hq | hq
          · exact hok q (by simp [hq])
          · rcases List.mem_cons.1 hq with rfl | hq
            · exact .inr ⟨.inl hput, .inr rfl⟩
            · exact hok q (by simp [hq])
        · simpa [List.pairwise_append, List.pairwise_cons] using hso
        · simpa [isPut, hput] using hall
        · simpa [isPA, hput] using hcnt r
      · rw [if_neg hi] at hs
        cases hs
        have hsub : (st.order.take i ++ post).Sublist (st.order.take i ++ p :: post) :=
          List.Sublist.append (List.Sublist.refl _) (List.sublist_cons_self _ _)
        refine ⟨fun q hq => hok q (hsub.subset hq), hso.sublist hsub, ?_, fun r => ?_⟩
        · rcases hpa with hput | hacc
          · have hi0 : i = 0 := by
              by_contra h0
              exact hi ⟨hput, h0⟩
            subst hi0
            simp only [List.take_zero, List.nil_append] at *
            simpa [isPut, hput, na] using hall
          · simpa [isPut, hacc, na] using hall
        · have := hcnt r
          rcases hpa with hput | hacc
          · simp [isPA, hput, List.count_cons] at this ⊢
            omega
          · simp [isPA, hacc, List.count_cons] at this ⊢
            omega

theorem InvA.step {issued : List Req} {st st' : St} (h : InvA issued st) {op : Op} {i : Nat} (hs : step op st i = some st') : InvA issued st' := by
  cases op with
  | put => exact h.putacc hs
  | acc => exact h.putacc hs
  | get => exact h.get hs
  | other => cases hs

theorem InvA.loop {issued : List Req} {op : Op} : ∀ {fuel : Nat} {st st' : St}, InvA issued st → commitLoop op fuel st = some st' → InvA issued st' := by
  intro fuel
  induction fuel with
  | zero => intro st st' h hs; cases hs; exact h
  | succ fuel ih =>
    intro st st' h hs
    rw [commitLoop] at hs
    split at hs
    · cases hs; exact h
    · split at hs
      · obtain ⟨s1, h1, h2⟩ := Option.bind_eq_some_iff.1 hs
        exact ih (h.step h1) h2
      · cases hs; exact h

theorem InvA.prog {issued : List Req} {st st' : St} (h : InvA issued st) {op : Op} {i : Nat} (hs : progress op st i = some st') : InvA issued st' := by
  obtain ⟨s1, h1, h2⟩ := Option.bind_eq_some_iff.1 hs
  exact (h.step h1).loop h2

/-- a request that is given a buffer; `st` has the request no more among those that wait -/
theorem InvA.assign {issued : List Req} {st st' : St} {r : Req} (hok : ∀ p ∈ st.order, OkA p) (hso : st.order.Pairwise fun a b => b.req.op = .get → a.req.op = .get)
    (hall : issued.filter na = st.done.filter na ++ (st.order.filter isPut).map (·.req) ++ (r :: st.wait).filter na)
    (hcnt : ∀ q, issued.count q = st.done.count q + ((st.order.filter isPA).map (·.req)).count q + (r :: st.wait).count q)
    (hg : r.op = .get → ∀ p ∈ st.order, p.req.op = .get) (hs : assign st r = some st') : InvA issued st' := by
  obtain ⟨s1, h1, h2⟩ := Option.bind_eq_some_iff.1 hs
  refine InvA.loop ?_ h2
  have hpa : r.op = .put ∨ r.op = .acc → s1 = { st with order := st.order ++ [⟨r, .recvPending, false⟩] } → InvA issued s1 := by
    intro hop he
    subst he
    refine ⟨?_, ?_, ?_, fun q => ?_⟩
    · intro q hq
      rcases List.mem_append.1 hq with hq | hq
      · exact hok q hq
      · rw [List.mem_singleton.1 hq]
        exact .inr ⟨hop, .inl rfl⟩
    · refine List.pairwise_append.2 ⟨hso, List.pairwise_singleton _ _, fun a _ b hb hbg => ?_⟩
      rw [List.mem_singleton.1 hb] at hbg
      have hbg : r.op = .get := hbg
      rcases hop with hop | hop <;> rw [hop] at hbg <;> cases hbg
    · rcases hop with hop | hop <;> simp [hall, isPut, hop, na]
    · have := hcnt q
      rcases hop with hop | hop <;> simp [isPA, hop, List.count_cons] at this ⊢ <;> omega
  cases hop : r.op with
  | other => rw [hop] at h1; cases h1
  | get =>
    have hgs := hg hop
    have hf : st.order.filter isPut = [] := by
      rw [List.filter_eq_nil_iff]
      intro p hp
      simp [isPut, hgs p hp]
    rw [hf] at hall
    simp only [hop, PendBuf.step, progressGet, List.drop_left, List.take_left] at h1
    split at h1
    · cases h1
      refine ⟨by simpa using hok, by simpa using hso, ?_, fun q => ?_⟩
      · simp [hf, hall, na, hop]
      · have := hcnt q
        simp [List.count_cons] at this ⊢
        omega
    · cases h1
      refine ⟨?_, ?_, ?_, fun q => ?_⟩
      · intro q hq
        rcases List.mem_append.1 hq with hq | hq
        · exact hok q hq
        · rw [List.mem_singleton.1 hq]
          exact .inl ⟨hop, .inl rfl⟩
      · refine List.pairwise_append.2 ⟨hso, List.pairwise_singleton _ _, fun a ha b _ _ => hgs a ha⟩
      · simp [hf, hall, isPut, hop, na]
      · have := hcnt q
        simp [isPA, hop, List.count_cons] at this ⊢
        omega
  | put =>
    simp only [hop, PendBuf.step, progressPutAcc, List.drop_left, List.take_left] at h1
    simp only [ne_eq, not_true_eq_false, false_and, if_false, Option.some.injEq] at h1
    exact hpa (.inl hop) h1.symm
  | acc =>
    simp only [hop, PendBuf.step, progressPutAcc, List.drop_left, List.take_left] at h1
    simp only [ne_eq, not_true_eq_false, and_false, if_false, Option.some.injEq] at h1
    exact hpa (.inr hop) h1.symm

/-- the last buffer holds a get: then all do -/
theorem InvA.gets {issued : List Req} {st : St} (h : InvA issued st) (hl : ∀ t, st.order.getLast? = some t → t.req.op = .get) : ∀ p ∈ st.order, p.req.op = .get := by
  intro p hp
  have hne : st.order ≠ [] := List.ne_nil_of_mem hp
  have hlast := hl _ (List.getLast?_eq_some_getLast hne)
  have hso := h.sorted
  rw [← List.dropLast_append_getLast hne] at hp hso
  rcases List.mem_append.1 hp with hp | hp
  · exact (List.pairwise_append.1 hso).2.2 p hp _ (by simp) hlast
  · rw [List.mem_singleton.1 hp]
    exact hlast

/-- what an admitted request finds -/
theorem can_specA {issued : List Req} {st : St} (h : InvA issued st) {full first : Bool} {r : Req} (hc : canProgress st full first r = true) :
    (r.op = .acc ∧ r.imm = true) ∨ first = true ∧ (r.op ≠ .put → r.op ≠ .acc → ∀ p ∈ st.order, p.req.op = .get) ∧ (r.imm = true → r.op = .put → st.order = []) := by
  by_cases hia : r.op = .acc ∧ r.imm = true
  · exact .inl hia
  right
  unfold canProgress at hc
  split at hc
  · cases hc
  rw [if_neg (by simp only [Bool.and_eq_true, decide_eq_true_eq]; exact fun h => hia ⟨h.2, h.1⟩)] at hc
  split at hc
  · cases hc
  rename_i hf
  refine ⟨by simpa using hf, ?_, ?_⟩
  · intro hp hr
    rw [if_pos ⟨hp, hr⟩] at hc
    refine h.gets fun t ht => ?_
    rw [ht] at hc
    simp only [decide_eq_true_eq] at hc
    exact hc.2
  · intro hi hp
    rw [if_neg (by simp [hp])] at hc
    simpa [hi] using hc

/-- an admitted request, immediate or not -/
theorem InvA.admit {issued : List Req} {st st' : St} {w : List Req} {full first : Bool} {r : Req} (h : InvA issued st)
    (hc : canProgress st full first r = true) {issued' : List Req}
    (hall : issued'.filter na = st.done.filter na ++ (st.order.filter isPut).map (·.req) ++ (r :: w).filter na)
    (hcnt : ∀ q, issued'.count q = st.done.count q + ((st.order.filter isPA).map (·.req)).count q + (r :: w).count q)
    (hs : (if r.imm then some { st with wait := w, done := st.done ++ [r] } else PendBuf.assign { st with wait := w } r) = some st') :
    InvA issued' st' := by
  split at hs
  · rename_i hi
    cases hs
    refine ⟨h.ok, h.sorted, ?_, fun q => ?_⟩
    · rw [hall]
      by_cases hacc : r.op = .acc
      · simp [na, hacc]
      · obtain ⟨-, h2, h3⟩ := (can_specA h hc).resolve_left (fun h => hacc h.1)
        have hf : st.order.filter isPut = [] := by
          by_cases hp : r.op = .put
          · rw [h3 hi hp]; rfl
          · exact filter_gets (h2 hp hacc)
        simp [hf, na, hacc]
    · have := hcnt q
      simp [List.count_cons] at this ⊢
      omega
  · rename_i hi
    obtain ⟨-, h2, -⟩ := (can_specA h hc).resolve_left (fun h => hi h.2)
    exact InvA.assign (st := { st with wait := w }) h.ok h.sorted hall hcnt (fun hg => h2 (by rw [hg]; simp) (by rw [hg]; simp)) hs

theorem InvA.next {issued : List Req} {st st' : St} (h : InvA issued st) {e : Event} (hs : next st e = some st') : InvA (issued ++ e.req) st' := by
  cases e with
  | service r full =>
    simp only [PendBuf.next, service] at hs
    simp only [Event.req]
    split at hs
    · rename_i hc
      refine h.admit hc (w := st.wait) ?_ ?_ hs
      · rw [List.filter_append, h.all]
        rcases can_specA h hc with ⟨hacc, -⟩ | ⟨hf, -⟩
        · simp [na, hacc]
        · have hw : st.wait = [] := by simpa using hf
          simp [hw]
      · intro q
        have := h.cnt q
        simp [List.count_cons] at this ⊢
        omega
    · cases hs
      refine ⟨h.ok, h.sorted, ?_, fun q => ?_⟩
      · rw [List.filter_append, h.all]
        simp
      · have := h.cnt q
        simp [List.count_cons] at this ⊢
        omega
  | ended i =>
    simp only [PendBuf.next, ended] at hs
    simp only [Event.req, List.append_nil]
    have hsplit := List.take_append_drop i st.order
    cases hd : st.order.drop i with
    | nil => rw [hd] at hs; cases hs
    | cons p post =>
      rw [hd] at hs hsplit
      have hp : OkA p := h.ok p (by rw [← hsplit]; simp)
      have hso := h.sorted
      have hall := h.all
      have hcnt : ∀ r, issued.count r = st.done.count r + (((st.order.take i ++ p :: post).filter isPA).map (·.req)).count r + st.wait.count r := by
        rw [hsplit]
        exact h.cnt
      have hok := h.ok
      rw [← hsplit] at hso hall hok
      have key : ∀ s : Stat, OkA { p with stat := s } → InvA issued { st with order := st.order.take i ++ { p with stat := s } :: post } := by
        intro s hs
        refine ⟨?_, ?_, ?_, fun q => ?_⟩
        · intro q hq
          rcases List.mem_append.1 hq with hq | hq
          · exact hok q (by simp [hq])
          · rcases List.mem_cons.1 hq with rfl | hq
            · exact hs
            · exact hok q (by simp [hq])
        · simpa [List.pairwise_append, List.pairwise_cons] using hso
        · rw [hall]
          by_cases hput : p.req.op = .put <;> simp [isPut, hput]
        · rw [hcnt q]
          by_cases hput : p.req.op = .put ∨ p.req.op = .acc <;> simp [isPA, hput]
      cases hst : p.stat with
      | init => simp [hst] at hs
      | recvDone => simp [hst] at hs
      | sendDone => simp [hst] at hs
      | recvPending =>
        simp only [hst] at hs
        refine (key .recvDone ?_).prog hs
        have : p.req.op = .put ∨ p.req.op = .acc := by simpa [OkA, hst] using hp
        exact .inr ⟨this, .inr rfl⟩
      | sendPending =>
        simp only [hst] at hs
        refine (key .sendDone ?_).prog hs
        have : p.req.op = .get := by simpa [OkA, hst] using hp
        exact .inl ⟨this, .inr rfl⟩
  | promote full =>
    simp only [PendBuf.next, promote] at hs
    simp only [Event.req, List.append_nil]
    cases hw : st.wait with
    | nil => rw [hw] at hs; cases hs; exact h
    | cons r w =>
      rw [hw] at hs
      dsimp only at hs
      split at hs
      · rename_i hc
        refine h.admit hc (w := w) ?_ ?_ hs
        · rw [h.all, hw]
        · intro q
          rw [h.cnt q, hw]
      · cases hs
        exact h

theorem InvA.run {es : List Event} : ∀ {issued : List Req} {st st' : St}, InvA issued st → run es st = some st' → InvA (issued ++ es.flatMap Event.req) st' := by
  induction es with
  | nil => intro issued st st' h hs; cases hs; simpa using h
  | cons e es ih =>
    intro issued st st' h hs
    obtain ⟨s1, h1, h2⟩ := Option.bind_eq_some_iff.1 hs
    have := ih (h.next h1) h2
    simpa [List.append_assoc] using this

end GA.Model.PendBuf
