import Verif.Lemmas.PendBufAcc

/-! Which events stop the server. -/

namespace GA.Model.PendBuf

/-- a buffer between events -/
def Ag (p : Pend) : Prop := (p.req.op = .get ∧ p.stat = .sendPending ∧ p.commit = false) ∨ Ap p

/-- requests that have a handler -/
def Handled (r : Req) : Prop := r.imm = true ∨ r.op ≠ .other

structure AliveG (st : St) : Prop where
  ag : ∀ p ∈ st.order, Ag p
  wait : ∀ r ∈ st.wait, Handled r
  head : ∀ p, st.order.head? = some p → p.commit = false

theorem loop_stop {op : Op} {st : St} (h : ∀ p, st.order.head? = some p → p.commit = false) (n : Nat) : commitLoop op n st = some st := by
  cases n with
  | zero => rfl
  | succ n =>
    rw [commitLoop]
    cases ho : st.order with
    | nil => rfl
    | cons p l =>
      have := h p (by rw [ho]; rfl)
      simp [this]

theorem loop_aliveG {op : Op} (hop : op = .put ∨ op = .acc) : ∀ (l : List Pend) (st : St), st.order = l → (∀ p ∈ l, Ag p) → (∀ r ∈ st.wait, Handled r) →
    ∃ st', commitLoop op l.length st = some st' ∧ AliveG st' := by
  intro l
  induction l with
  | nil => intro st hl _ hw; exact ⟨st, rfl, by simp [hl], hw, by simp [hl]⟩
  | cons p l ih =>
    intro st hl hap hw
    rw [List.length_cons, commitLoop, hl]
    dsimp only
    by_cases hc : p.commit = true
    · rw [if_pos hc]
      obtain ⟨h1, h2⟩ := (hap p (by simp)).resolve_left (by simp [hc])
      obtain ⟨h3, -, h4⟩ := h2.resolve_left (by simp [hc])
      have hs : step op st 0 = some { st with order := l, done := st.done ++ [p.req] } := by
        have : progressPutAcc st 0 = some { st with order := l, done := st.done ++ [p.req] } := by
          simp [progressPutAcc, hl, h4, h3]
        rcases hop with rfl | rfl <;> exact this
      rw [hs]
      exact ih { st with order := l, done := st.done ++ [p.req] } rfl (fun q hq => hap q (by simp [hq])) hw
    · rw [if_neg hc]
      refine ⟨st, rfl, by rw [hl]; exact hap, hw, ?_⟩
      intro q hq
      rw [hl] at hq
      cases hq
      simpa using hc

theorem head_append {l m : List Pend} {P : Pend → Prop} (hl : ∀ p, l.head? = some p → P p) (hm : ∀ p, m.head? = some p → P p) : ∀ p, (l ++ m).head? = some p → P p := by
  intro p hp
  cases l with
  | nil => exact hm p hp
  | cons q l => exact hl p hp

theorem assign_aliveG {st : St} {r : Req} (h : AliveG st) (hr : r.op ≠ .other) : ∃ st', assign st r = some st' ∧ AliveG st' := by
  have hpa : r.op = .put ∨ r.op = .acc → ∃ st', assign st r = some st' ∧ AliveG st' := by
    intro hr
    have hs : step r.op { st with order := st.order ++ [⟨r, .init, false⟩] } st.order.length =
        some { st with order := st.order ++ [⟨r, .recvPending, false⟩] } := by
      rcases hr with h | h <;> simp [h, step, progressPutAcc]
    rw [assign, progress, hs]
    refine loop_aliveG hr _ _ rfl ?_ h.wait
    intro q hq
    rcases List.mem_append.1 hq with hq | hq
    · exact h.ag q hq
    · rw [List.mem_singleton.1 hq]
      exact .inr ⟨hr, .inl ⟨rfl, rfl⟩⟩
  cases hop : r.op with
  | other => exact absurd hop hr
  | put => exact hpa (.inl hop)
  | acc => exact hpa (.inr hop)
  | get =>
    cases hp : r.pinned with
    | true =>
      have hs : step r.op { st with order := st.order ++ [⟨r, .init, false⟩] } st.order.length = some { st with done := st.done ++ [r] } := by
        simp [hop, step, progressGet, hp]
      rw [assign, progress, hs]
      exact ⟨{ st with done := st.done ++ [r] }, loop_stop (st := { st with done := st.done ++ [r] }) h.head _, h.ag, h.wait, h.head⟩
    | false =>
      have hs : step r.op { st with order := st.order ++ [⟨r, .init, false⟩] } st.order.length =
          some { st with order := st.order ++ [⟨r, .sendPending, false⟩], done := st.done ++ [r] } := by
        simp [hop, step, progressGet, hp]
      have hh : ∀ p, (st.order ++ [(⟨r, .sendPending, false⟩ : Pend)]).head? = some p → p.commit = false :=
        head_append (P := fun p => p.commit = false) h.head (fun p hp => by cases hp; rfl)
      rw [assign, progress, hs]
      refine ⟨_, loop_stop (st := { st with order := st.order ++ [⟨r, .sendPending, false⟩], done := st.done ++ [r] }) hh _, ?_, h.wait, hh⟩
      intro q hq
      rcases List.mem_append.1 hq with hq | hq
      · exact h.ag q hq
      · rw [List.mem_singleton.1 hq]
        exact .inl ⟨hop, rfl, rfl⟩

theorem service_aliveG {st : St} (h : AliveG st) {r : Req} (hr : Handled r) (full : Bool) : ∃ st', service st r full = some st' ∧ AliveG st' := by
  simp only [service]
  split
  · split
    · exact ⟨_, rfl, h.ag, h.wait, h.head⟩
    · rename_i hni
      exact assign_aliveG h (hr.resolve_left hni)
  · refine ⟨_, rfl, h.ag, ?_, h.head⟩
    intro q hq
    rcases List.mem_append.1 hq with hq | hq
    · exact h.wait q hq
    · rw [List.mem_singleton.1 hq]
      exact hr

theorem promote_aliveG {st : St} (h : AliveG st) (full : Bool) : ∃ st', promote st full = some st' ∧ AliveG st' := by
  simp only [promote]
  cases hw : st.wait with
  | nil => exact ⟨st, rfl, h⟩
  | cons r w =>
    have hww : ∀ q ∈ w, Handled q := fun q hq => h.wait q (by rw [hw]; simp [hq])
    dsimp only
    split
    · split
      · exact ⟨_, rfl, h.ag, hww, h.head⟩
      · rename_i hni
        exact assign_aliveG (st := { st with wait := w }) ⟨h.ag, hww, h.head⟩ ((h.wait r (by rw [hw]; simp)).resolve_left hni)
    · exact ⟨st, rfl, h⟩

/-- the first buffer holds a get and the second one a put that has been received -/
def Blocked (st : St) : Prop := ∃ p q, st.order[0]? = some p ∧ p.req.op = .get ∧ st.order[1]? = some q ∧ q.commit = true

theorem ended_aliveG {st : St} (h : AliveG st) {i : Nat} (hi : InTransfer st i) :
    (i = 0 ∧ Blocked st ∧ ended st i = none) ∨ (¬ (i = 0 ∧ Blocked st) ∧ ∃ st', ended st i = some st' ∧ AliveG st') := by
  obtain ⟨p, hp, hst⟩ := hi
  obtain ⟨hlt, hpe⟩ := List.getElem?_eq_some_iff.1 hp
  have hd : st.order.drop i = p :: st.order.drop (i + 1) := by rw [List.drop_eq_getElem_cons hlt, hpe]
  have hpre : ∀ q ∈ st.order.take i, Ag q := fun q hq => h.ag q (List.mem_of_mem_take hq)
  have hpost : ∀ q ∈ st.order.drop (i + 1), Ag q := fun q hq => h.ag q (List.mem_of_mem_drop hq)
  have hlen : (st.order.take i).length = i := by rw [List.length_take]; omega
  rcases h.ag p (hpe ▸ List.getElem_mem hlt) with ⟨hg, hsp, hcp⟩ | ⟨h1, h2⟩
  · have he : ended st i = commitLoop .get (st.order.take i ++ st.order.drop (i + 1)).length { st with order := st.order.take i ++ st.order.drop (i + 1) } := by
      rw [ended, hd]
      simp only [hsp, progress, hg, step, progressGet]
      rw [List.drop_left' hlen, List.take_left' hlen]
      rfl
    have hag : ∀ q ∈ st.order.take i ++ st.order.drop (i + 1), Ag q := by
      intro q hq
      rcases List.mem_append.1 hq with hq | hq
      · exact hpre q hq
      · exact hpost q hq
    by_cases hhead : ∀ q, (st.order.take i ++ st.order.drop (i + 1)).head? = some q → q.commit = false
    · right
      refine ⟨?_, { st with order := st.order.take i ++ st.order.drop (i + 1) }, by rw [he]; exact loop_stop (st := { st with order := _ }) hhead _, hag, h.wait, hhead⟩
      rintro ⟨rfl, a, b, -, -, hb, hbc⟩
      have := hhead b (by simpa [List.head?_drop] using hb)
      rw [this] at hbc
      cases hbc
    · left
      simp only [not_forall, Bool.not_eq_false] at hhead
      obtain ⟨q, hq, hqc⟩ := hhead
      have hi0 : i = 0 := by
        by_contra hne
        have : st.order.head? = some q := by
          obtain ⟨j, rfl⟩ : ∃ j, i = j + 1 := ⟨i - 1, by omega⟩
          cases ho : st.order with
          | nil => rw [ho] at hlt; simp at hlt
          | cons a l =>
            rw [ho] at hq
            simpa using hq
        have := h.head q this
        rw [this] at hqc
        cases hqc
      subst hi0
      simp only [List.take_zero, List.nil_append, Nat.zero_add] at *
      refine ⟨trivial, ⟨p, q, hp, hg, by simpa [List.head?_drop] using hq, hqc⟩, ?_⟩
      obtain ⟨h3, h4⟩ := (hag q (List.mem_of_mem_head? (by rw [hq]; rfl))).resolve_left (by simp [hqc])
      obtain ⟨h5, -, -⟩ := h4.resolve_left (by simp [hqc])
      rw [he]
      cases hl : st.order.drop 1 with
      | nil => rw [hl] at hq; cases hq
      | cons a l =>
        rw [hl] at hq
        cases hq
        simp [commitLoop, hqc, step, progressGet, h5]
  · right
    obtain ⟨h3, h4⟩ : p.stat = .recvPending ∧ p.commit = false := by
      rcases h2 with h2 | ⟨h2, -⟩
      · exact h2
      · rw [h2] at hst
        simp at hst
    refine ⟨?_, ?_⟩
    · rintro ⟨rfl, a, b, ha, hag, -⟩
      rw [hp] at ha
      cases ha
      rw [hag] at h1
      simp at h1
    rw [ended, hd]
    simp only [h3, progress]
    have hs : step p.req.op { st with order := st.order.take i ++ { p with stat := .recvDone } :: st.order.drop (i + 1) } i =
        if p.req.op = .put ∧ i ≠ 0 then some { st with order := st.order.take i ++ { p with stat := .recvDone, commit := true } :: st.order.drop (i + 1) }
        else some { st with order := st.order.take i ++ st.order.drop (i + 1), done := st.done ++ [p.req] } := by
      have : progressPutAcc { st with order := st.order.take i ++ { p with stat := .recvDone } :: st.order.drop (i + 1) } i =
          if p.req.op = .put ∧ i ≠ 0 then some { st with order := st.order.take i ++ { p with stat := .recvDone, commit := true } :: st.order.drop (i + 1) }
          else some { st with order := st.order.take i ++ st.order.drop (i + 1), done := st.done ++ [p.req] } := by
        rw [progressPutAcc]
        dsimp only
        rw [List.drop_left' hlen, List.take_left' hlen]
        dsimp only
        rw [if_neg (by rcases h1 with h1 | h1 <;> simp [h1]), h4]
        simp
      rcases h1 with h | h <;> rw [← this, h] <;> rfl
    rw [hs]
    split
    · rename_i hc
      refine loop_aliveG h1 _ _ rfl ?_ h.wait
      intro q hq
      rcases List.mem_append.1 hq with hq | hq
      · exact hpre q hq
      · rcases List.mem_cons.1 hq with rfl | hq
        · exact .inr ⟨.inl hc.1, .inr ⟨rfl, rfl, hc.1⟩⟩
        · exact hpost q hq
    · refine loop_aliveG h1 _ _ rfl ?_ h.wait
      intro q hq
      rcases List.mem_append.1 hq with hq | hq
      · exact hpre q hq
      · exact hpost q hq

theorem ended_transfer {st st' : St} {i : Nat} (h : ended st i = some st') : InTransfer st i := by
  rw [ended] at h
  cases hd : st.order.drop i with
  | nil => rw [hd] at h; cases h
  | cons p post =>
    have hp : st.order[i]? = some p := by
      have := congrArg List.head? hd
      simpa [List.head?_drop] using this
    rw [hd] at h
    refine ⟨p, hp, ?_⟩
    cases hst : p.stat with
    | recvPending => exact .inl rfl
    | sendPending => exact .inr rfl
    | init => simp [hst] at h
    | recvDone => simp [hst] at h
    | sendDone => simp [hst] at h

theorem run_aliveG {es : List Event} : ∀ {st st' : St}, AliveG st → (∀ e ∈ es, ∀ r ∈ e.req, Handled r) → run es st = some st' → AliveG st' := by
  induction es with
  | nil => intro st st' h _ hs; cases hs; exact h
  | cons e es ih =>
    intro st st' h hr hs
    obtain ⟨s1, h1, h2⟩ := Option.bind_eq_some_iff.1 hs
    refine ih ?_ (fun e he => hr e (by simp [he])) h2
    cases e with
    | service r full =>
      obtain ⟨s, e1, e2⟩ := service_aliveG h (hr (.service r full) (by simp) r (by simp [Event.req])) full
      have h1 : service st r full = some s1 := h1
      rw [e1] at h1
      cases h1
      exact e2
    | promote full =>
      obtain ⟨s, e1, e2⟩ := promote_aliveG h full
      have h1 : promote st full = some s1 := h1
      rw [e1] at h1
      cases h1
      exact e2
    | ended i =>
      have h1 : ended st i = some s1 := h1
      rcases ended_aliveG h (ended_transfer h1) with ⟨-, -, e1⟩ | ⟨-, s, e1, e2⟩
      · rw [h1] at e1; cases e1
      · rw [h1] at e1; cases e1; exact e2

end GA.Model.PendBuf
