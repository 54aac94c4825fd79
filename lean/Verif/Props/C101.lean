import Verif.Lemmas.PendBufDrain

/-!
# C101: the data server carries out the requests of a client in order
-/

namespace GA
open Model.PendBuf

/-- the requests of the client, in the order of their arrival -/
def C101_issued : List Event → List Req
  | [] => []
  | .service r _ :: es => r :: C101_issued es
  | _ :: es => C101_issued es

private theorem issued_eq (es : List Event) : es.flatMap Event.req = C101_issued es := by
  induction es with
  | nil => rfl
  | cons e es ih => cases e <;> simp [C101_issued, Event.req, ih]

private theorem noacc_events {es : List Event} (h : ∀ r ∈ C101_issued es, r.op ≠ .acc) : ∀ e ∈ es, ∀ r ∈ e.req, r.op ≠ .acc := by
  intro e he r hr
  exact h r (by rw [← issued_eq]; exact List.mem_flatMap.2 ⟨e, he, hr⟩)

private theorem inv_start : Inv [] start := ⟨by simp [start], by simp [start], by simp [start], by simp [start]⟩

private theorem inv_startA : InvA [] start := ⟨by simp [start], by simp [start], by simp [start], by simp [start]⟩

/-- **C101, order.** Requests of a client that uses no accumulates are carried out in the order of their arrival, whatever the network and the other clients do: those carried
out are the first ones, no request is lost or carried out twice, and those left are puts in buffers and waiting requests, in order. -/
theorem C101_order {es : List Event} (hno : ∀ r ∈ C101_issued es, r.op ≠ .acc) {st : St} (h : run es start = some st) :
    C101_issued es = st.done ++ (st.order.filter fun p => p.req.op = .put).map (·.req) ++ st.wait := by
  have := (inv_start.run (noacc_events hno) h).all
  rw [List.nil_append, issued_eq] at this
  exact this

/-- **C101, the end.** When nothing is in a buffer and nothing waits, every request has been carried out, in order. -/
theorem C101_all {es : List Event} (hno : ∀ r ∈ C101_issued es, r.op ≠ .acc) {st : St} (h : run es start = some st) (ho : st.order = []) (hw : st.wait = []) :
    st.done = C101_issued es := by
  rw [C101_order hno h, ho, hw]
  simp

/-- **C101, order with accumulates.** Whatever a client sends, its requests other than accumulates are carried out in the order of their arrival: those carried out are the
first ones, those left are puts in buffers and waiting requests, in order. -/
theorem C101_others {es : List Event} {st : St} (h : run es start = some st) :
    (C101_issued es).filter (fun r => r.op ≠ .acc) =
      st.done.filter (fun r => r.op ≠ .acc) ++ (st.order.filter fun p => p.req.op = .put).map (·.req) ++ st.wait.filter (fun r => r.op ≠ .acc) := by
  have := (inv_startA.run h).all
  rw [List.nil_append, issued_eq] at this
  exact this

/-- **C101, exactly once.** Every request, accumulates included, is carried out as often as it was sent, or it is still in a buffer or waits. Gets stay in buffers after they
have been carried out. -/
theorem C101_once {es : List Event} {st : St} (h : run es start = some st) (r : Req) :
    (C101_issued es).count r = st.done.count r + ((st.order.filter fun p => p.req.op = .put ∨ p.req.op = .acc).map (·.req)).count r + st.wait.count r := by
  have := (inv_startA.run h).cnt r
  rw [List.nil_append, issued_eq] at this
  exact this

/-- **C101, nothing waits for ever.** When the transfers of a client have ended and there is a free buffer, the first waiting request, of any kind that has a
handler, is taken out. -/
theorem C101_promoted {st : St} (ho : st.order = []) {r : Req} {w : List Req} (hw : st.wait = r :: w) (hr : r.imm = true ∨ r.op ≠ .other) :
    ∃ st', promote st false = some st' ∧ st'.wait = w := by
  have hc : canProgress st false true r = true := by
    simp only [canProgress, ho]
    cases r.imm <;> cases r.op <;> simp
  rw [promote, hw]
  dsimp only
  rw [if_pos hc]
  cases hi : r.imm with
  | true => exact ⟨_, rfl, rfl⟩
  | false =>
    have hro := hr.resolve_left (by simp [hi])
    rw [if_neg (by simp)]
    simp only [assign, progress, ho, List.nil_append, List.length_nil]
    cases hop : r.op with
    | other => exact absurd hop hro
    | put => simp [step, progressPutAcc, hop, commitLoop]
    | acc => simp [step, progressPutAcc, hop, commitLoop]
    | get =>
      simp only [step, progressGet, List.drop_zero, List.take_zero, List.nil_append]
      cases hp : r.pinned with
      | true => exact ⟨_, rfl, rfl⟩
      | false => exact ⟨_, rfl, rfl⟩

/-- **C101, no failure.** While no get of the client needs a buffer, no assertion fails and the server does not stop, for all further events that report only transfers
under way; and the transfer of the first buffer is always under way: no put that has been received waits for nothing. -/
theorem C101_alive {es : List Event} (ha : ∀ r ∈ C101_issued es, r.imm = true ∨ r.op = .put ∨ r.op = .acc)
    (hi : ∀ pre i post, es = pre ++ .ended i :: post → ∀ st, run pre start = some st → InTransfer st i) :
    ∃ st, run es start = some st ∧ ∀ p, st.order.head? = some p → p.stat = .recvPending := by
  have key : ∀ (es : List Event) (s0 : St), Alive s0 → (∀ e ∈ es, ∀ r ∈ e.req, Allowed r) →
      (∀ pre i post, es = pre ++ .ended i :: post → ∀ st, run pre s0 = some st → InTransfer st i) → ∃ st, run es s0 = some st ∧ Alive st := by
    intro es
    induction es with
    | nil => intro s0 h _ _; exact ⟨s0, rfl, h⟩
    | cons e es ih =>
      intro s0 h hr hi
      obtain ⟨s1, h1, h2⟩ := next_alive h (hr e (by simp)) fun i he => hi [] i es (by rw [he]; rfl) s0 rfl
      obtain ⟨st, h3, h4⟩ := ih s1 h2 (fun e he => hr e (by simp [he])) fun pre i post he st hst => by
        refine hi (e :: pre) i post (by rw [he]; rfl) st ?_
        rw [run, h1]
        exact hst
      refine ⟨st, ?_, h4⟩
      rw [run, h1]
      exact h3
  obtain ⟨st, h1, h2⟩ := key es start ⟨by simp [start], by simp [start], by simp [start]⟩
    (fun e he r hr => ha r (by rw [← issued_eq]; exact List.mem_flatMap.2 ⟨e, he, hr⟩)) hi
  refine ⟨st, h1, fun p hp => ?_⟩
  have hc := h2.head p hp
  have hap := (h2.ap p (List.mem_of_mem_head? (by rw [hp]; exact rfl))).2
  rcases hap with h | h
  · exact h.1
  · rw [hc] at h
    cases h.2.1

/-- **C101, exactly when the server stops.** After any history with requests that have handlers: arriving requests and promotions never stop the server, and a completed
transfer stops it exactly when it is that of a get in the first buffer and the second buffer holds a put whose data have arrived. -/
theorem C101_stops_iff {es : List Event} (ha : ∀ r ∈ C101_issued es, r.imm = true ∨ r.op ≠ .other) {st : St} (h : run es start = some st) :
    (∀ r full, r.imm = true ∨ r.op ≠ .other → service st r full ≠ none) ∧ (∀ full, promote st full ≠ none) ∧
    ∀ i, InTransfer st i → (ended st i = none ↔
      i = 0 ∧ ∃ p q, st.order[0]? = some p ∧ p.req.op = .get ∧ st.order[1]? = some q ∧ q.req.op = .put ∧ q.stat = .recvDone) := by
  have hal : AliveG st := run_aliveG ⟨by simp [start], by simp [start], by simp [start]⟩
    (fun e he r hr => ha r (by rw [← issued_eq]; exact List.mem_flatMap.2 ⟨e, he, hr⟩)) h
  refine ⟨fun r full hr => ?_, fun full => ?_, fun i hi => ?_⟩
  · obtain ⟨s, e, -⟩ := service_aliveG hal hr full
    rw [e]
    simp
  · obtain ⟨s, e, -⟩ := promote_aliveG hal full
    rw [e]
    simp
  · have hb : Blocked st ↔ ∃ p q, st.order[0]? = some p ∧ p.req.op = .get ∧ st.order[1]? = some q ∧ q.req.op = .put ∧ q.stat = .recvDone := by
      constructor
      · rintro ⟨p, q, h1, h2, h3, h4⟩
        obtain ⟨-, h5⟩ := (hal.ag q (List.mem_of_getElem? h3)).resolve_left (by simp [h4])
        obtain ⟨h6, -, h7⟩ := h5.resolve_left (by simp [h4])
        exact ⟨p, q, h1, h2, h3, h7, h6⟩
      · rintro ⟨p, q, h1, h2, h3, h4, h5⟩
        obtain ⟨-, h6⟩ := (hal.ag q (List.mem_of_getElem? h3)).resolve_left (by simp [h4])
        obtain ⟨-, h7, -⟩ := h6.resolve_left (by simp [h5])
        exact ⟨p, q, h1, h2, h3, h7⟩
    rw [← hb]
    rcases ended_aliveG hal hi with ⟨h1, h2, h3⟩ | ⟨h1, s, h2, -⟩
    · exact ⟨fun _ => ⟨h1, h2⟩, fun _ => h3⟩
    · exact ⟨fun h => (by rw [h2] at h; cases h), fun h => absurd h h1⟩

/-- **C101, everything can be finished.** After every history without gets that need a buffer, transfers that end and attempts to promote, without further requests, lead to a
state in which every request has been carried out exactly once; no deadlock is reached. -/
theorem C101_drains {es : List Event} (ha : ∀ r ∈ C101_issued es, r.imm = true ∨ r.op = .put ∨ r.op = .acc) {st : St} (h : run es start = some st) :
    ∃ more st', C101_issued more = [] ∧ run more st = some st' ∧ st'.order = [] ∧ st'.wait = [] ∧ ∀ r, st'.done.count r = (C101_issued es).count r := by
  have hal : Alive st := run_alive ⟨by simp [start], by simp [start], by simp [start]⟩
    (fun e he r hr => ha r (by rw [← issued_eq]; exact List.mem_flatMap.2 ⟨e, he, hr⟩)) h
  obtain ⟨more, st', h1, h2, h3, h4⟩ := drain _ st hal (Nat.le_refl _)
  have hm : C101_issued more = [] := by
    rw [← issued_eq, List.flatMap_eq_nil_iff]
    exact h1
  refine ⟨more, st', hm, h2, h3, h4, fun r => ?_⟩
  have hr : run (es ++ more) start = some st' := by
    rw [run_append, h]
    exact h2
  have := C101_once hr r
  rw [h3, h4, ← issued_eq, List.flatMap_append, issued_eq, issued_eq, hm] at this
  simpa using this.symm

/-- **C101, buffers.** While all pending buffers are in use no request is given one, neither on arrival nor later. -/
theorem C101_full (st : St) :
    (∀ r, ∃ st', service st r true = some st' ∧ st'.order = st.order) ∧ ∃ st', promote st true = some st' ∧ st'.order = st.order := by
  constructor
  · intro r
    cases hi : r.imm with
    | true =>
      simp only [service, hi]
      split <;> exact ⟨_, rfl, rfl⟩
    | false => exact ⟨{ st with wait := st.wait ++ [r] }, by simp [service, canProgress, hi], rfl⟩
  · rw [promote]
    cases hw : st.wait with
    | nil => exact ⟨st, rfl, rfl⟩
    | cons r w =>
      cases hi : r.imm with
      | true =>
        dsimp only
        simp only [hi]
        split <;> exact ⟨_, rfl, rfl⟩
      | false => exact ⟨st, by simp [canProgress, hi], rfl⟩

/-- **C101, negation: accumulates overtake.** A small accumulate is carried out at once, before a large put that the same client issued earlier. -/
theorem C101_overtakes (p a : Req) (hp : p.op = .put ∧ p.imm = false) (ha : a.op = .acc ∧ a.imm = true) (full : Bool) :
    ∃ st, run [.service p false, .service a full] start = some st ∧ st.done = [a] ∧ st.order.map (·.req) = [p] := by
  simp [run, next, service, canProgress, hp, ha, start, assign, progress, step, progressPutAcc, commitLoop]

/-- **C101, negation: large accumulates overtake.** It is carried out when its data have arrived, although those of the earlier put have not. -/
theorem C101_overtakes_large (p a : Req) (hp : p.op = .put ∧ p.imm = false) (ha : a.op = .acc ∧ a.imm = false) :
    ∃ st, run [.service p false, .service a false, .ended 1] start = some st ∧ st.done = [a] ∧ st.order.map (·.req) = [p] := by
  simp [run, next, service, canProgress, hp, ha, start, assign, progress, step, progressPutAcc, commitLoop, ended]

/-- **C101, negation: a put behind a get stops the server.** The get is answered, the data of a put that the client issued after it arrive before the server is told that
the answer has been sent: then the server stops. -/
theorem C101_dies (g p : Req) (hg : g.op = .get ∧ g.imm = false ∧ g.pinned = false) (hp : p.op = .put ∧ p.imm = false) :
    (∃ st, run [.service g false, .service p false, .ended 1] start = some st ∧ st.done = [g] ∧ InTransfer st 0) ∧
    run [.service g false, .service p false, .ended 1, .ended 0] start = none := by
  constructor
  · simp [run, next, service, canProgress, hp, hg, start, assign, progress, step, progressPutAcc, progressGet, commitLoop, ended, InTransfer]
  · simp [run, next, service, canProgress, hp, hg, start, assign, progress, step, progressPutAcc, progressGet, commitLoop, ended]

/-! ## concrete cases -/

/-- three large puts whose data arrive in the opposite order, and a small get behind them -/
example : (run [.service ⟨1, .put, false, false⟩ false, .service ⟨2, .put, false, false⟩ false, .service ⟨3, .put, false, false⟩ true, .service ⟨4, .get, true, false⟩ false,
    .ended 1, .promote false, .ended 2, .ended 0, .promote false] start).map (fun st => (st.done.map (·.id), st.order.length, st.wait.length)) =
    some ([1, 2, 3, 4], 0, 0) := by decide

/-- the hypotheses of `C101_drains`: one transfer is under way, another request waits for a buffer -/
example : ∃ st more st', run [.service ⟨1, .put, false, false⟩ false, .service ⟨2, .put, false, false⟩ true] start = some st ∧ st.order.length = 1 ∧ st.wait.length = 1 ∧
    run more st = some st' ∧ st'.order = [] ∧ st'.wait = [] := by
  have h : run [.service ⟨1, .put, false, false⟩ false, .service ⟨2, .put, false, false⟩ true] start =
      some ⟨[⟨⟨1, .put, false, false⟩, .recvPending, false⟩], [⟨2, .put, false, false⟩], []⟩ := by decide
  obtain ⟨more, st', -, h1, h2, h3, -⟩ := C101_drains (by simp [C101_issued]) h
  exact ⟨_, more, st', h, rfl, rfl, h1, h2, h3⟩

/-- two large gets whose answers are sent in the opposite order, then a put -/
example : (run [.service ⟨1, .get, false, false⟩ false, .service ⟨2, .get, false, false⟩ false, .service ⟨3, .put, true, false⟩ false, .ended 1, .promote false, .ended 0,
    .promote false] start).map (fun st => (st.done.map (·.id), st.order.length, st.wait.length)) = some ([1, 2, 3], 0, 0) := by decide

/-- a large put, a large accumulate that overtakes it, a small get that does not -/
example : (run [.service ⟨1, .put, false, false⟩ false, .service ⟨2, .acc, false, false⟩ false, .service ⟨3, .get, true, false⟩ false, .ended 1, .promote false, .ended 0,
    .promote false] start).map (fun st => (st.done.map (·.id), st.order.length, st.wait.length)) = some ([2, 1, 3], 0, 0) := by decide

/-- the hypotheses of `C101_alive`: the transfer that is reported is under way -/
example : InTransfer ⟨[⟨⟨1, .put, false, false⟩, .recvPending, false⟩, ⟨⟨2, .put, false, false⟩, .recvPending, false⟩], [], []⟩ 1 := ⟨_, rfl, .inl rfl⟩

example : ∃ st, run [.service ⟨1, .put, false, false⟩ false, .ended 0] start = some st ∧ ∀ p, st.order.head? = some p → p.stat = .recvPending := by
  refine C101_alive (by simp [C101_issued]) ?_
  intro pre i post h st hst
  rcases pre with _ | ⟨e, _ | ⟨e', pre⟩⟩
  · simp at h
  · simp only [List.cons_append, List.nil_append, List.cons.injEq, Event.ended.injEq] at h
    obtain ⟨rfl, rfl, rfl⟩ := h
    cases hst
    exact ⟨_, rfl, .inl rfl⟩
  · simp at h

end GA
