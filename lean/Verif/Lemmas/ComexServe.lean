import Verif.Lemmas.ComexResume

/-!
# Servers and replies keep the invariant
-/

namespace GA.Comex

theorem Inv.recv {c : Cfg} {mem0 : Nat → Nat → Int} {s s' : State} (h : Inv c mem0 s)
    {p m : Nat} (hs : Comex.recv s p m = some s') : Inv c mem0 s' := by
  unfold Comex.recv at hs
  split at hs
  case h_2 => simp at hs
  rename_i sl ps sl0 vals rs hpo hre
  obtain ⟨F, R, e1, e2, e3, e4⟩ := (h.pm p m).stream
  rw [hpo, hre] at e2
  simp only [List.map_cons, List.cons_append, List.cons.injEq] at e2
  obtain ⟨rfl, e2⟩ := e2
  have hrep := h.rep p m (sl, vals) (by rw [hre]; simp)
  -- the state without the event
  have main : ∀ evs, applied evs = [] → (∀ q, calls q evs = []) → Hist c mem0 (s.tr ++ evs) →
      Inv c mem0 { s with posted := set2 s.posted p m ps, rep := set2 s.rep p m rs, tr := s.tr ++ evs } := by
    intro evs h1 h2 h3
    have hc : ∀ q, calls q (s.tr ++ evs) = calls q s.tr := by
      intro q; rw [calls_append, h2, List.append_nil]
    have hi : ∀ q, issued q (s.tr ++ evs) = issued q s.tr := by
      intro q; unfold issued; rw [hc]
    have ha : applied (s.tr ++ evs) = applied s.tr := by rw [applied_append, h1, List.append_nil]
    refine ⟨h.err, ?_, ?_, h.flag, ?_, ?_, ?_, ?_, ?_, ?_, ?_, h3⟩
    · intro q m'
      have hq := h.pm q m'
      simp only [hi, appliedBy, ha]
      by_cases hqm : q = p ∧ m' = m
      · obtain ⟨rfl, rfl⟩ := hqm
        simp only [set2, true_and, if_true]
        exact ⟨⟨F, R, e1, e2, e3, e4⟩, hq.tail, hq.sorted, hq.lt⟩
      · simp only [set2, if_neg hqm]
        exact hq
    · intro q; rw [hc]; exact h.ctl q
    · intro q m' x hx
      rw [hc]
      simp only [set2] at hx
      split at hx
      · rename_i hqm
        rw [hqm.1]
        exact h.slot p m x (by rw [hpo]; simp [hx])
      · exact h.slot q m' x hx
    · intro q m' x hx; rw [hc]; exact h.msg q m' x hx
    · intro q m' x hx
      simp only [set2] at hx
      split at hx
      · rename_i hqm
        rw [hqm.1]
        exact (h.rep p m x (by rw [hre]; simp [hx])).mono
      · exact (h.rep q m' x hx).mono
    · intro r a; rw [ha]; exact h.mem r a
    · intro q; rw [hc]; exact h.cnt q
    · intro q k h4 h5
      simp only at h5
      refine (h.bar q k h4 h5).mono ?_
      rw [h.barn q]; omega
    · intro q; rw [hc]; exact h.barn q
  cases sl with
  | ack =>
    simp only [RepOK] at hrep
    subst hrep
    simp only [List.length_nil, if_true, Option.some.injEq] at hs
    subst hs
    have := main [] rfl (fun _ => rfl) (by simpa using h.hist)
    simpa using this
  | buf tag len =>
    obtain ⟨h1, h2⟩ := hrep
    simp only [h1, if_true, State.log, Option.some.injEq] at hs
    subst hs
    refine main [.ret p tag vals] rfl (fun q => by simp [calls]) (h.hist.snoc ?_)
    rcases h2 with ⟨r, a, h3, h4⟩ | ⟨op, old, fx, h3, h4, h5, h6, h7⟩
    · exact ⟨_, h3, h4⟩
    · refine ⟨op, h3, ?_⟩
      rcases h6 with ⟨r, a, v, rfl⟩ | ⟨r, a, v, rfl⟩
      · simp only [opFx, List.cons.injEq, and_true] at h4
        subst h4
        exact ⟨old, h5, h7⟩
      · simp only [opFx, List.cons.injEq, and_true] at h4
        subst h4
        exact ⟨old, h5, h7⟩

theorem FenceLast.tail {x : Msg} {l : List Msg} (h : FenceLast (x :: l)) : FenceLast l := by
  rcases h with h | ⟨l', t, h⟩
  · simp at h
  · cases l' with
    | nil => simp only [List.nil_append, List.cons.injEq] at h; exact .inl h.2
    | cons y l' => simp only [List.cons_append, List.cons.injEq] at h; exact .inr ⟨l', t, h.2⟩

theorem RmwLast.tail {tag : Nat} {x : Msg} {l : List Msg} (h : RmwLast tag (x :: l)) : RmwLast tag l := by
  rcases h with h | ⟨l', r, a, v, h | h⟩
  · simp at h
  · cases l' with
    | nil => simp only [List.nil_append, List.cons.injEq] at h; exact .inl h.2
    | cons y l' => simp only [List.cons_append, List.cons.injEq] at h; exact .inr ⟨l', r, a, v, .inl h.2⟩
  · cases l' with
    | nil => simp only [List.nil_append, List.cons.injEq] at h; exact .inl h.2
    | cons y l' => simp only [List.cons_append, List.cons.injEq] at h; exact .inr ⟨l', r, a, v, .inr h.2⟩

theorem TailOK.tail {m : Nat} {k : Ctl} {x : Msg} {l : List Msg} (h : TailOK m k (x :: l)) : TailOK m k l := by
  cases k with
  | fencing m' t k => exact fun e => (h e).tail
  | fencingAll ms t b => exact fun e => (h e).tail
  | rmw m' t => exact fun e => (h e).tail
  | _ => trivial

/-- what the server reads, for the requests that want an answer -/
theorem handle_rd {c : Cfg} {cur : Cur} {m : Msg} {d : Done} (h : handle c cur m = some d) :
    (d.rd = none ∧ (d.reply = none ∨ d.reply = some .ack)) ∨
    (cur = .idle ∧ ∃ r a len, m.body = .get r a len ∧
      d = { cur := .idle, rd := some (r, a, len), reply := some (.buf m.tag len) }) ∨
    (cur = .idle ∧ ∃ r a v, m.body = .fadd r a v ∧
      d = { cur := .idle, fx := [⟨m.tag, r, a, .add v⟩], rd := some (r, a, 1), reply := some (.buf m.tag 1) }) ∨
    (cur = .idle ∧ ∃ r a v, m.body = .swap r a v ∧
      d = { cur := .idle, fx := [⟨m.tag, r, a, .put v⟩], rd := some (r, a, 1), reply := some (.buf m.tag 1) }) := by
  unfold handle at h
  split at h <;> (try split at h) <;> (try split at h) <;>
    (try simp only [reduceCtorEq, Option.some.injEq] at h) <;> (try subst h) <;> (try contradiction)
  all_goals first
    | exact .inl ⟨rfl, .inl rfl⟩
    | exact .inl ⟨rfl, .inr rfl⟩
    | exact .inr (.inl ⟨rfl, _, _, _, by assumption, rfl⟩)
    | exact .inr (.inr (.inl ⟨rfl, _, _, _, by assumption, rfl⟩))
    | exact .inr (.inr (.inr ⟨rfl, _, _, _, by assumption, rfl⟩))

theorem Inv.serve {c : Cfg} {mem0 : Nat → Nat → Int} {s s' : State} (h : Inv c mem0 s)
    {p m : Nat} (hs : Comex.serve c s m p = some s') : Inv c mem0 s' := by
  unfold Comex.serve at hs
  split at hs
  case isFalse => simp at hs
  rename_i hen
  split at hs
  case h_1 => simp at hs
  rename_i msg rest hch
  have hpm := h.pm p m
  obtain ⟨F, R, e1, e2, e3, e4⟩ := hpm.stream
  rw [hch] at e1
  simp only [runChan] at e1
  obtain ⟨d, f1, f2⟩ := Option.bind_eq_some_iff.1 e1
  obtain ⟨y, f3, f4⟩ := Option.map_eq_some_iff.1 f2
  obtain ⟨y1, F', R'⟩ := y
  simp only [Prod.mk.injEq] at f4
  obtain ⟨rfl, rfl, rfl⟩ := f4
  rw [f1] at hs
  simp only [Option.some.injEq] at hs
  -- effects in the channel are for this server and were asked for
  have hFm : ∀ f ∈ d.fx ++ F', f ∈ (issued p s.tr).filter (onM c m) := by
    intro f hf
    rw [← e3]
    simp only [List.mem_append] at hf ⊢
    tauto
  have hdm : ∀ f ∈ d.fx, onM c m f = true := fun f hf =>
    (List.mem_filter.1 (hFm f (List.mem_append.2 (.inl hf)))).2
  have hmsg := h.msg p m msg (by rw [hch]; simp)
  have hcurOf : ∀ q, q ≠ p → ∀ m', (if set1 s.src m p m' = q then set1 s.cur m d.cur m' else .idle) =
      curOf s m' q := by
    intro q hq m'
    unfold curOf
    by_cases hm : m' = m
    · subst hm
      simp only [set1, if_true, if_neg (Ne.symm hq)]
      rcases hen with h1 | h1
      · rw [h1]; simp
      · rw [if_neg (by rw [h1]; exact Ne.symm hq)]
    · simp [set1, hm]
  have build : ∀ evs vals, applied evs = d.fx.map (fun f => (p, f)) → (∀ q, calls q evs = []) →
      (∀ sl, d.reply = some sl → RepOK p (s.tr ++ evs) (sl, vals)) → Hist c mem0 (s.tr ++ evs) →
      Inv c mem0 { s with
          mem := applyFx s.mem d.fx
          chan := set2 s.chan p m rest
          src := set1 s.src m p
          cur := set1 s.cur m d.cur
          rep := match d.reply with
            | some sl => set2 s.rep p m (s.rep p m ++ [(sl, vals)])
            | none => s.rep
          tr := s.tr ++ evs } := by
    intro evs vals h1 h2 h3 h4
    have hrepp : ∀ m', (match d.reply with
            | some sl => set2 s.rep p m (s.rep p m ++ [(sl, vals)])
            | none => s.rep) p m' = s.rep p m' ++
              (if m' = m then d.reply.toList.map (fun sl => (sl, vals)) else []) := by
      intro m'
      cases d.reply with
      | none => simp
      | some sl =>
        simp only [set2, true_and]
        split
        · rename_i e; subst e; simp
        · simp
    refine h.memory p evs d.fx rfl h1 h2 rfl rfl rfl rfl rfl rfl ?_ ?_ ?_ ?_ ?_ ?_ ?_
    · intro q hq
      refine ⟨set2_ne hq, ?_, rfl, ?_⟩
      · cases d.reply with
        | none => rfl
        | some sl => exact set2_ne hq
      · exact fun m' => hcurOf q hq m'
    · intro m'
      simp only [hrepp]
      by_cases hm : m' = m
      · subst hm
        rw [hch] at hpm
        simp only [curOf, set1, set2, true_and, if_true]
        refine ⟨⟨F', R', f3, ?_, ?_, ?_⟩, hpm.tail.tail, (List.pairwise_cons.1 hpm.sorted).2,
          fun x hx => hpm.lt x (by simp [hx])⟩
        · rw [e2, List.map_append, List.map_map, List.append_assoc]
          simp [Function.comp_def]
        · rw [← e3, List.filter_append, List.filter_eq_self.2 hdm]
          simp
        · intro g1 g2
          have := e4 g1 g2
          rw [List.append_eq_nil_iff] at this
          exact this.2
      · have hq := h.pm p m'
        have hnil : d.fx.filter (onM c m') = [] := by
          rw [List.filter_eq_nil_iff]
          intro f hf
          have := hdm f hf
          simp only [onM, decide_eq_true_eq] at this ⊢
          rw [this]
          exact Ne.symm hm
        simp only [curOf, set1, set2, true_and, if_neg hm, List.append_nil]
        obtain ⟨F, R, g1, g2, g3, g4⟩ := hq.stream
        refine ⟨⟨F, R, g1, g2, ?_, g4⟩, hq.tail, hq.sorted, hq.lt⟩
        rw [List.filter_append, hnil, List.append_nil]
        exact g3
    · exact h.ctl p
    · intro m' x hx
      simp only [set2, true_and] at hx
      split at hx
      · rename_i e; subst e; rw [hch]; simp [hx]
      · exact hx
    · intro m' e he
      simp only [hrepp] at he
      rcases List.mem_append.1 he with he | he
      · exact .inl he
      · right
        split at he
        · obtain ⟨sl, hsl, rfl⟩ := List.mem_map.1 he
          exact h3 sl (by simpa using hsl)
        · simp at he
    · exact h.barn p
    · exact h4
  rcases handle_rd f1 with ⟨hrd, hrep⟩ | ⟨hcur, r, a, len, hb, rfl⟩ | ⟨hcur, r, a, v, hb, rfl⟩ | ⟨hcur, r, a, v, hb, rfl⟩
  · have hevs : s' = { s with
          mem := applyFx s.mem d.fx
          chan := set2 s.chan p m rest
          src := set1 s.src m p
          cur := set1 s.cur m d.cur
          rep := match d.reply with
            | some sl => set2 s.rep p m (s.rep p m ++ [(sl, [])])
            | none => s.rep
          tr := s.tr ++ [Ev.mem p d.fx] } := by
      rw [← hs]
      simp only [hrd]
      cases d.reply <;> rfl
    rw [hevs]
    refine build [.mem p d.fx] [] (by simp [applied]) (by simp [calls]) ?_ (h.hist.snoc trivial)
    intro sl hsl
    rcases hrep with h1 | h1
    · rw [h1] at hsl; simp at hsl
    · rw [h1] at hsl
      simp only [Option.some.injEq] at hsl
      subst hsl
      rfl
  · -- get
    simp only [MsgOK, hb] at hmsg
    subst hs
    refine build [.load p msg.tag r a (readMem s.mem r a len)] (readMem s.mem r a len) rfl
      (by simp [calls]) ?_ (h.hist.snoc ⟨?_, ?_, ?_⟩)
    · intro sl hsl
      simp only [Option.some.injEq] at hsl
      subst hsl
      refine ⟨readMem_length, .inl ⟨r, a, ?_, by simp⟩⟩
      rw [calls_append, readMem_length]
      exact getElem?_app hmsg.1
    · rw [readMem_length]; exact readMem_congr h.mem
    · rw [readMem_length]; exact hmsg.1
    · -- effects still in the channel belong to later calls
      have hrest : ∀ x ∈ rest, msg.tag ≤ x.tag := by
        have := hpm.sorted
        rw [hch] at this
        exact (List.pairwise_cons.1 this).1
      have hF : ∀ f ∈ F', before msg.tag f = false := by
        intro f hf
        have := runChan_tag f3 hrest (by simp [curTag]) f hf
        simp only [before, decide_eq_false_iff_not]
        omega
      have hC : ∀ f ∈ (ctlFx (s.ctl p)).filter (onM c m), before msg.tag f = false := by
        intro f hf
        have hf := (List.mem_filter.1 hf).1
        have hct := h.ctl p
        have hlt := hpm.lt msg (by rw [hch]; simp)
        rw [h.cnt p] at hlt
        simp only [before, decide_eq_false_iff_not]
        cases hk : s.ctl p with
        | fencing m' t k =>
          cases k with
          | none => rw [hk] at hf; simp [ctlFx] at hf
          | some op =>
            rw [hk] at hf hct
            have := (opFx_tag hf).1
            have := hct.2.1
            omega
        | direct t op =>
          rw [hk] at hf hct
          have := (opFx_tag hf).1
          have := hct.2.1
          omega
        | _ => rw [hk] at hf; simp [ctlFx] at hf
      rw [hmsg.2, ← e3]
      simp only [List.filter_append, List.nil_append]
      have e5 : F'.filter (before msg.tag) = [] := by
        rw [List.filter_eq_nil_iff]
        intro f hf; rw [hF f hf]; simp
      have e6 : ((ctlFx (s.ctl p)).filter (onM c m)).filter (before msg.tag) = [] := by
        rw [List.filter_eq_nil_iff]
        intro f hf; rw [hC f hf]; simp
      rw [e5, e6]
      simp only [List.append_nil]
  · simp only [MsgOK, hb] at hmsg
    subst hs
    refine build [.rmw p ((readMem s.mem r a 1).headD 0) ⟨msg.tag, r, a, .add v⟩] (readMem s.mem r a 1) rfl
      (by simp [calls]) ?_ (h.hist.snoc ⟨?_, ?_⟩)
    · intro sl hsl
      simp only [Option.some.injEq] at hsl
      subst hsl
      refine ⟨readMem_length, .inr ⟨.fadd r a v, s.mem r a, ⟨msg.tag, r, a, .add v⟩, ?_, rfl, rfl,
        .inl ⟨_, _, _, rfl⟩, by simp [readMem]⟩⟩
      rw [calls_append]
      exact getElem?_app hmsg
    · simp only [readMem, List.headD_cons]; exact h.mem r a
    · exact ⟨.fadd r a v, hmsg, rfl, .inl ⟨_, _, _, rfl⟩⟩
  · simp only [MsgOK, hb] at hmsg
    subst hs
    refine build [.rmw p ((readMem s.mem r a 1).headD 0) ⟨msg.tag, r, a, .put v⟩] (readMem s.mem r a 1) rfl
      (by simp [calls]) ?_ (h.hist.snoc ⟨?_, ?_⟩)
    · intro sl hsl
      simp only [Option.some.injEq] at hsl
      subst hsl
      refine ⟨readMem_length, .inr ⟨.swap r a v, s.mem r a, ⟨msg.tag, r, a, .put v⟩, ?_, rfl, rfl,
        .inr ⟨_, _, _, rfl⟩, by simp [readMem]⟩⟩
      rw [calls_append]
      exact getElem?_app hmsg
    · simp only [readMem, List.headD_cons]; exact h.mem r a
    · exact ⟨.swap r a v, hmsg, rfl, .inr ⟨_, _, _, rfl⟩⟩

theorem Inv.start {c : Cfg} {mem0 : Nat → Nat → Int} : Inv c mem0 (Comex.start mem0) := by
  refine ⟨rfl, ?_, ?_, ?_, ?_, ?_, ?_, ?_, ?_, ?_, ?_, ?_⟩
  · intro p m
    refine ⟨⟨[], [], ?_, rfl, rfl, fun _ _ => rfl⟩, trivial, by simp [Comex.start], by simp [Comex.start]⟩
    have hcur : curOf (Comex.start mem0) m p = .idle := by unfold curOf; split <;> rfl
    rw [hcur]; rfl
  · intro p; trivial
  · intro p m h; simp [Comex.start] at h
  · intro p m x hx; simp [Comex.start] at hx
  · intro p m x hx; simp [Comex.start] at hx
  · intro p m x hx; simp [Comex.start] at hx
  · intro r a; rfl
  · intro p; rfl
  · intro q k h1 h2; simp [Comex.start] at h2; omega
  · intro q; rfl
  · intro pre e post h; simp [Comex.start] at h

theorem Inv.step {c : Cfg} {mem0 : Nat → Nat → Int} {s s' : State} (hc : c.OK) (h : Inv c mem0 s)
    {a : Act} (hs : Comex.step c s a = some s') : Inv c mem0 s' := by
  cases a with
  | call p op => exact h.call hc hs
  | resume p => exact h.resume hs
  | direct p => exact h.direct hs
  | recv p m => exact h.recv hs
  | serve m p => exact h.serve hs

theorem Inv.run {c : Cfg} {mem0 : Nat → Nat → Int} {s s' : State} (hc : c.OK) (h : Inv c mem0 s)
    {as : List Act} (hs : Comex.run c s as = some s') : Inv c mem0 s' := by
  induction as generalizing s with
  | nil => simp only [Comex.run, Option.some.injEq] at hs; subst hs; exact h
  | cons a as ih =>
    simp only [Comex.run] at hs
    obtain ⟨s1, h1, h2⟩ := Option.bind_eq_some_iff.1 hs
    exact ih (h.step hc h1) h2

end GA.Comex
