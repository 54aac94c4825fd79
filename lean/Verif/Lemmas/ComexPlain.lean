import Verif.Lemmas.ComexGot

/-!
# Which events change memory, and where requests can be
-/

namespace GA.Comex

/-- call `t` is not an atomic read-modify-write -/
def PlainTag (ops : List Op) (t : Nat) : Prop := ∃ op, ops[t]? = some op ∧ isRmw op = false

theorem PlainTag.mono {ops ops' : List Op} {t : Nat} (h : PlainTag ops t) : PlainTag (ops ++ ops') t := by
  obtain ⟨op, h1, h2⟩ := h
  exact ⟨op, getElem?_app h1, h2⟩

/-- messages that store or add without answering belong to such calls -/
def MsgPlain (ops : List Op) (x : Msg) : Prop :=
  match x.body with
  | .put _ _ _ _ => PlainTag ops x.tag
  | .acc _ _ _ _ _ => PlainTag ops x.tag
  | .data _ => PlainTag ops x.tag
  | .unlock _ _ => PlainTag ops x.tag
  | _ => True

theorem MsgPlain.mono {ops ops' : List Op} {x : Msg} (h : MsgPlain ops x) : MsgPlain (ops ++ ops') x := by
  revert h
  unfold MsgPlain
  split <;> intro h <;> first | exact h.mono | trivial

/-- the process is about to access memory itself -/
def DirCtl (k : Ctl) (op : Op) : Prop := (∃ tag, k = .direct tag op) ∨ ∃ m tag, k = .fencing m tag (some op)

structure Plain (c : Cfg) (s : State) : Prop where
  chan : ∀ p m, ∀ x ∈ s.chan p m, MsgPlain (calls p s.tr) x
  cur : ∀ m t, curTag (s.cur m) = some t → PlainTag (calls (s.src m) s.tr) t
  mem : ∀ p fx, .mem p fx ∈ s.tr → ∀ f ∈ fx, PlainTag (calls p s.tr) f.tag
  chanlt : ∀ p m, s.chan p m ≠ [] → p < c.size ∧ m < c.size
  replt : ∀ p m, s.rep p m ≠ [] → p < c.size ∧ m < c.size
  ctllt : ∀ p, s.ctl p ≠ .idle → p < c.size
  dir : ∀ p op, DirCtl (s.ctl p) op → isDirect c p op = true
  callslt : ∀ p op, .call p op ∈ s.tr → p < c.size

/-- What a call does apart from its effects on the caller. -/
theorem call_shape {c : Cfg} {mem0 : Nat → Nat → Int} {s s' : State} (hc : c.OK) (hI : Inv c mem0 s)
    {p : Nat} {op : Op} (hs : Comex.call c s p op = some s') :
    p < c.size ∧ (s'.tr = s.tr ++ [.call p op] ∨ s'.tr = s.tr ++ [.call p op] ++ [.ret p (s.cnt p) []]) ∧
    (∀ q m, s'.chan q m = s.chan q m ∨ (q = p ∧ m < c.size ∧ ∃ l, s'.chan q m = s.chan q m ++ l ∧
      ∀ x ∈ l, x.body = .fence ∨ x ∈ msgsOf c (s.cnt p) op)) ∧
    s'.rep = s.rep ∧ s'.src = s.src ∧ s'.cur = s.cur ∧ (∀ q, q ≠ p → s'.ctl q = s.ctl q) ∧
    (∀ op', DirCtl (s'.ctl p) op' → isDirect c p op' = true) := by
  have hpre : s.ctl p = .idle ∧ op.valid c = true ∧ p < c.size ∧ c.user p = true := by
    by_contra hn
    unfold Comex.call at hs
    rw [if_neg hn] at hs
    simp at hs
  have hfl : ∀ x y, flagged c { s with cnt := x, tr := y } p = flagged c s p := fun _ _ => rfl
  refine ⟨hpre.2.2.1, ?_⟩
  have hm : ∀ r, r < c.size → c.master r < c.size := fun r hr => (hc.master r hr).1
  have hsend : ∀ (m : Nat) (l : List Msg) (hml : m < c.size)
      (hl : ∀ x ∈ l, x.body = .fence ∨ x ∈ msgsOf c (s.cnt p) op), ∀ q m',
      set2 s.chan p m (s.chan p m ++ l) q m' = s.chan q m' ∨ (q = p ∧ m' < c.size ∧
        ∃ l', set2 s.chan p m (s.chan p m ++ l) q m' = s.chan q m' ++ l' ∧
        ∀ x ∈ l', x.body = .fence ∨ x ∈ msgsOf c (s.cnt p) op) := by
    intro m l hml hl q m'
    by_cases e : q = p ∧ m' = m
    · right
      refine ⟨e.1, by rw [e.2]; exact hml, l, ?_, hl⟩
      simp only [set2, e, and_self, if_true]
    · left
      simp only [set2, e, if_false]
  cases op with
  | fence r =>
    have hr : r < c.size := by have := hpre.2.1; simpa [Op.valid] using this
    unfold Comex.call at hs
    rw [if_pos hpre] at hs
    simp only [State.log] at hs
    cases hf : s.flag p (c.master r)
    · simp only [hf, Bool.false_eq_true, if_false, Option.some.injEq] at hs
      subst hs
      exact ⟨.inr rfl, fun q m => .inl rfl, rfl, rfl, rfl, fun q hq => rfl, by simp [DirCtl, hpre]⟩
    · simp only [hf, if_true, Option.some.injEq] at hs
      subst hs
      exact ⟨.inl rfl, hsend _ [⟨s.cnt p, .fence⟩] (hm r hr) (by simp), rfl, rfl, rfl,
        fun q hq => by simp [State.goto, State.send, set1, hq], by simp [State.goto, State.send, set1, DirCtl, hpre, *]⟩
  | fenceAll =>
    unfold Comex.call at hs
    rw [if_pos hpre] at hs
    simp only [State.log, hfl, flagged_ok hI, Bool.false_eq_true, if_false] at hs
    split at hs
    · simp only [Option.some.injEq] at hs
      subst hs
      exact ⟨.inr rfl, fun q m => .inl rfl, rfl, rfl, rfl, fun q hq => rfl, by simp [DirCtl, hpre]⟩
    · simp only [Option.some.injEq] at hs
      subst hs
      rw [sendFences_eq flagged_nodup]
      refine ⟨.inl rfl, ?_, rfl, rfl, rfl, fun q hq => by simp [State.goto, set1, hq], by simp [State.goto, set1, DirCtl, hpre, *]⟩
      intro q m
      simp only [State.goto]
      split
      · rename_i e
        exact .inr ⟨e.1, by have := e.2; simp [flagged] at this; exact this.1, _, rfl, by simp⟩
      · exact .inl rfl
  | barrier =>
    unfold Comex.call at hs
    rw [if_pos hpre] at hs
    simp only [State.log, hfl, flagged_ok hI, Bool.false_eq_true, if_false] at hs
    split at hs
    · simp only [Option.some.injEq] at hs
      subst hs
      exact ⟨.inl rfl, fun q m => .inl rfl, rfl, rfl, rfl, fun q hq => by simp [State.goto, set1, hq], by simp [State.goto, set1, DirCtl, hpre, *]⟩
    · simp only [Option.some.injEq] at hs
      subst hs
      rw [sendFences_eq flagged_nodup]
      refine ⟨.inl rfl, ?_, rfl, rfl, rfl, fun q hq => by simp [State.goto, set1, hq], by simp [State.goto, set1, DirCtl, hpre, *]⟩
      intro q m
      simp only [State.goto]
      split
      · rename_i e
        exact .inr ⟨e.1, by have := e.2; simp [flagged] at this; exact this.1, _, rfl, by simp⟩
      · exact .inl rfl
  | wait t =>
    unfold Comex.call at hs
    rw [if_pos hpre] at hs
    simp only [State.log, Option.some.injEq] at hs
    subst hs
    exact ⟨.inl rfl, fun q m => .inl rfl, rfl, rfl, rfl, fun q hq => by simp [State.goto, set1, hq], by simp [State.goto, set1, DirCtl, hpre, *]⟩
  | _ =>
    have hr := hm _ (target_lt rfl hpre.2.1)
    rw [call_oneSided rfl, if_pos hpre] at hs
    simp only at hs
    split at hs
    · split at hs
      · simp only [Option.some.injEq] at hs
        subst hs
        exact ⟨.inl rfl, hsend _ [⟨s.cnt p, .fence⟩] hr (by simp), rfl, rfl, rfl,
          fun q hq => by simp [State.goto, State.send, set1, hq], by simp [State.goto, State.send, set1, DirCtl, hpre, *]⟩
      · simp only [Option.some.injEq] at hs
        subst hs
        exact ⟨.inl rfl, fun q m => .inl rfl, rfl, rfl, rfl, fun q hq => by simp [State.goto, set1, hq], by simp [State.goto, set1, DirCtl, hpre, *]⟩
    · simp only [setsFlag, isRmw, if_true, Bool.false_eq_true, if_false, Option.some.injEq] at hs
      subst hs
      exact ⟨.inl rfl, hsend _ _ hr (fun x hx => .inr hx), rfl, rfl, rfl,
          fun q hq => by simp [State.goto, State.send, set1, hq], by simp [State.goto, State.send, set1, DirCtl, hpre, *]⟩

theorem msgsOf_plain {c : Cfg} {tag : Nat} {op : Op} {ops : List Op} (h : ops[tag]? = some op) :
    ∀ x ∈ msgsOf c tag op, MsgPlain ops x := by
  intro x hx
  have ht := msgsOf_tag x hx
  cases op with
  | fadd r a v => simp [msgsOf] at hx; subst hx; trivial
  | swap r a v => simp [msgsOf] at hx; subst hx; trivial
  | _ =>
    have : PlainTag ops x.tag := by rw [ht]; exact ⟨_, h, rfl⟩
    unfold MsgPlain
    split <;> first | exact this | trivial

theorem Plain.call {c : Cfg} {mem0 : Nat → Nat → Int} {s s' : State} (hc : c.OK) (hI : Inv c mem0 s)
    (h : Plain c s) {p : Nat} {op : Op} (hs : Comex.call c s p op = some s') : Plain c s' := by
  obtain ⟨hp, htr, hch, hrep, hsrc, hcur, hctl, hdir⟩ := call_shape hc hI hs
  have hcalls : ∀ q, ∃ l, calls q s'.tr = calls q s.tr ++ l := by
    intro q
    rcases htr with e | e <;> rw [e]
    · rw [calls_append]; exact ⟨_, rfl⟩
    · rw [calls_append, calls_append, List.append_assoc]; exact ⟨_, rfl⟩
  have hp' : (calls p s'.tr)[s.cnt p]? = some op := by
    rcases htr with e | e <;> rw [e]
    · rw [calls_call]; exact getElem?_snoc (hI.cnt p)
    · rw [calls_append, calls_call]; exact getElem?_app (getElem?_snoc (hI.cnt p))
  refine ⟨?_, ?_, ?_, ?_, ?_, ?_, ?_, ?_⟩
  · intro q m x hx
    obtain ⟨l, hl⟩ := hcalls q
    rcases hch q m with e | ⟨rfl, _, l', e, h2⟩
    · rw [e] at hx
      rw [hl]; exact (h.chan q m x hx).mono
    · rw [e] at hx
      rcases List.mem_append.1 hx with hx | hx
      · rw [hl]; exact (h.chan q m x hx).mono
      · rcases h2 x hx with h3 | h3
        · simp [MsgPlain, h3]
        · exact msgsOf_plain hp' x h3
  · intro m t ht
    rw [hcur] at ht
    rw [hsrc]
    obtain ⟨l, hl⟩ := hcalls (s.src m)
    rw [hl]; exact (h.cur m t ht).mono
  · intro q fx hq f hf
    obtain ⟨l, hl⟩ := hcalls q
    rw [hl]
    refine (h.mem q fx ?_ f hf).mono
    rcases htr with e | e <;> rw [e] at hq <;> simpa using hq
  · intro q m hne
    rcases hch q m with e | ⟨rfl, h2, l', e, _⟩
    · rw [e] at hne; exact h.chanlt q m hne
    · exact ⟨hp, h2⟩
  · rw [hrep]; exact h.replt
  · intro q hq
    by_cases e : q = p
    · rw [e]; exact hp
    · rw [hctl q e] at hq; exact h.ctllt q hq
  · intro q op' hq
    by_cases e : q = p
    · subst e; exact hdir op' hq
    · rw [hctl q e] at hq; exact h.dir q op' hq
  · intro q op' hq
    rcases htr with e | e <;> rw [e] at hq <;> simp at hq <;> rcases hq with hq | hq
    · exact h.callslt q op' hq
    · rw [hq.1]; exact hp
    · exact h.callslt q op' hq
    · rw [hq.1]; exact hp

/-- Steps without calls. -/
theorem Plain.client {c : Cfg} {s s' : State} (h : Plain c s) (evs : List Ev)
    (htr : s'.tr = s.tr ++ evs) (hev : ∀ q, calls q evs = []) (hev' : ∀ q op, .call q op ∉ evs)
    (hch : s'.chan = s.chan) (hsrc : s'.src = s.src) (hcur : s'.cur = s.cur)
    (hmem : ∀ p fx, .mem p fx ∈ evs → ∀ f ∈ fx, PlainTag (Comex.calls p s.tr) f.tag)
    (hrep : ∀ p m, s'.rep p m ≠ [] → s.rep p m ≠ []) (hctl : ∀ p, s'.ctl p ≠ .idle → s.ctl p ≠ .idle)
    (hdir : ∀ p op, DirCtl (s'.ctl p) op → DirCtl (s.ctl p) op) :
    Plain c s' := by
  have hcalls : ∀ q, Comex.calls q s'.tr = Comex.calls q s.tr := by
    intro q; rw [htr, calls_append, hev, List.append_nil]
  refine ⟨?_, ?_, ?_, ?_, ?_, ?_, ?_, ?_⟩
  · intro q m x hx
    rw [hch] at hx
    rw [hcalls]; exact h.chan q m x hx
  · intro m t ht
    rw [hcur] at ht
    rw [hcalls, hsrc]; exact h.cur m t ht
  · intro q fx hq f hf
    rw [hcalls]
    rw [htr] at hq
    rcases List.mem_append.1 hq with hq | hq
    · exact h.mem q fx hq f hf
    · exact hmem q fx hq f hf
  · rw [hch]; exact h.chanlt
  · exact fun p m hne => h.replt p m (hrep p m hne)
  · exact fun p hne => h.ctllt p (hctl p hne)
  · exact fun p op ho => h.dir p op (hdir p op ho)
  · intro q op hq
    rw [htr] at hq
    rcases List.mem_append.1 hq with hq | hq
    · exact h.callslt q op hq
    · exact absurd hq (hev' q op)

theorem Plain.resume {c : Cfg} {s s' : State} (h : Plain c s) {p : Nat} (hs : Comex.resume c s p = some s') :
    Plain c s' := by
  have key : ∀ k evs (s1 : State), s.ctl p ≠ .idle → s1.tr = s.tr ++ evs → (∀ q, Comex.calls q evs = []) →
      (∀ e ∈ evs, ∃ t, e = .ret p t []) →
      s1.ctl = set1 s.ctl p k → (∀ op, DirCtl k op → DirCtl (s.ctl p) op) → s1.chan = s.chan → s1.src = s.src → s1.cur = s.cur → s1.rep = s.rep →
      Plain c s1 := by
    intro k evs s1 h0 h2 h3 h3' h4 h4' h5 h6 h7 h8
    refine h.client evs h2 h3 ?_ h5 h6 h7 ?_ (by rw [h8]; exact fun _ _ => id) ?_ ?_
    · intro q op hq
      obtain ⟨t, ht⟩ := h3' _ hq
      simp at ht
    · intro q op hq
      obtain ⟨t, ht⟩ := h3' _ hq
      simp at ht
    · intro q hq
      by_cases hqp : q = p
      · rw [hqp]; exact h0
      · rw [h4] at hq; simpa [set1, hqp] using hq
    · intro q op hq
      by_cases hqp : q = p
      · rw [hqp] at hq ⊢; rw [h4] at hq; exact h4' op (by simpa [set1] using hq)
      · rw [h4] at hq; simpa [set1, hqp] using hq
  unfold Comex.resume at hs
  split at hs
  · rename_i m tag k hk
    have h0 : s.ctl p ≠ .idle := by rw [hk]; simp
    split at hs
    · simp at hs
    · cases k with
      | none =>
        simp only [State.goto, State.log, Option.some.injEq] at hs
        subst hs
        exact key .idle _ _ h0 rfl (by simp [Comex.calls]) (by simp) rfl (by simp [DirCtl, hk]) rfl rfl rfl rfl
      | some op =>
        simp only [State.goto, Option.some.injEq] at hs
        subst hs
        exact key (.direct tag op) [] _ h0 (by simp) (by simp [Comex.calls]) (by simp) rfl (by simp [DirCtl, hk]) rfl rfl rfl rfl
  · rename_i ms tag bb hk
    have h0 : s.ctl p ≠ .idle := by rw [hk]; simp
    split at hs
    · simp at hs
    · rw [clearFlags_eq] at hs
      cases bb
      · simp only [State.goto, State.log, Bool.false_eq_true, if_false, Option.some.injEq] at hs
        subst hs
        exact key .idle _ _ h0 rfl (by simp [Comex.calls]) (by simp) rfl (by simp [DirCtl, hk]) rfl rfl rfl rfl
      · simp only [State.goto, if_true, Option.some.injEq] at hs
        subst hs
        exact key (.barrier tag) [] _ h0 (by simp) (by simp [Comex.calls]) (by simp) rfl (by simp [DirCtl, hk]) rfl rfl rfl rfl
  · rename_i m tag hk
    have h0 : s.ctl p ≠ .idle := by rw [hk]; simp
    split at hs
    · simp at hs
    · simp only [State.goto, Option.some.injEq] at hs
      subst hs
      exact key .idle [] _ h0 (by simp) (by simp [Comex.calls]) (by simp) rfl (by simp [DirCtl, hk]) rfl rfl rfl rfl
  · rename_i t tag hk
    have h0 : s.ctl p ≠ .idle := by rw [hk]; simp
    split at hs
    · simp at hs
    · simp only [State.goto, State.log, Option.some.injEq] at hs
      subst hs
      exact key .idle _ _ h0 rfl (by simp [Comex.calls]) (by simp) rfl (by simp [DirCtl, hk]) rfl rfl rfl rfl
  · rename_i tag hk
    have h0 : s.ctl p ≠ .idle := by rw [hk]; simp
    split at hs
    · simp only [State.goto, State.log, Option.some.injEq] at hs
      subst hs
      exact key .idle _ _ h0 rfl (by simp [Comex.calls]) (by simp) rfl (by simp [DirCtl, hk]) rfl rfl rfl rfl
    · simp at hs
  · simp at hs

theorem Plain.direct {c : Cfg} {mem0 : Nat → Nat → Int} {s s' : State} (hI : Inv c mem0 s) (h : Plain c s)
    {p : Nat} (hs : Comex.direct s p = some s') : Plain c s' := by
  have hctl := hI.ctl p
  have hc' : ∀ q, set1 s.ctl p .idle q ≠ .idle → s.ctl q ≠ .idle := by
    intro q hq
    by_cases hqp : q = p
    · simp [set1, hqp] at hq
    · simpa [set1, hqp] using hq
  have hd' : ∀ q op, DirCtl (set1 s.ctl p .idle q) op → DirCtl (s.ctl q) op := by
    intro q op hq
    by_cases hqp : q = p
    · simp [set1, hqp, DirCtl] at hq
    · simpa [set1, hqp] using hq
  unfold Comex.direct at hs
  split at hs
  · rename_i tag r a vs hk
    simp only [State.goto, State.log, Option.some.injEq] at hs
    subst hs
    rw [hk] at hctl
    refine h.client _ rfl (by simp [Comex.calls]) (by simp) rfl rfl rfl ?_ (fun _ _ => id) hc' hd'
    intro q fx hq f hf
    simp at hq
    obtain ⟨rfl, rfl⟩ := hq
    rw [(putFx_mem hf).1]
    exact ⟨_, hctl.1, rfl⟩
  · rename_i tag r a sc vs hk
    simp only [State.goto, State.log, Option.some.injEq] at hs
    subst hs
    rw [hk] at hctl
    refine h.client _ rfl (by simp [Comex.calls]) (by simp) rfl rfl rfl ?_ (fun _ _ => id) hc' hd'
    intro q fx hq f hf
    simp at hq
    obtain ⟨rfl, rfl⟩ := hq
    rw [(accFx_mem hf).1]
    exact ⟨_, hctl.1, rfl⟩
  · rename_i tag r a len hk
    simp only [State.goto, State.log, Option.some.injEq] at hs
    subst hs
    exact h.client _ rfl (by simp [Comex.calls]) (by simp) rfl rfl rfl (by simp) (fun _ _ => id) hc' hd'
  · simp at hs

theorem Plain.recv {c : Cfg} {s s' : State} (h : Plain c s) {p m : Nat} (hs : Comex.recv s p m = some s') :
    Plain c s' := by
  unfold Comex.recv at hs
  split at hs
  case h_2 => simp at hs
  rename_i sl ps sl0 vals rs hpo hre
  have hr : ∀ q m', set2 s.rep p m rs q m' ≠ [] → s.rep q m' ≠ [] := by
    intro q m' hne
    by_cases e : q = p ∧ m' = m
    · rw [e.1, e.2, hre]; simp
    · simpa [set2, e] using hne
  cases sl with
  | ack =>
    simp only [Option.some.injEq] at hs
    subst hs
    split
    · exact h.client [] (by simp) (by simp [Comex.calls]) (by simp) rfl rfl rfl (by simp) hr (fun _ => id) (fun _ _ => id)
    · exact h.client [] (by simp) (by simp [Comex.calls]) (by simp) rfl rfl rfl (by simp) hr (fun _ => id) (fun _ _ => id)
  | buf tag len =>
    simp only [Option.some.injEq] at hs
    split at hs
    · subst hs
      exact h.client [_] rfl (by simp [Comex.calls]) (by simp) rfl rfl rfl (by simp) hr (fun _ => id) (fun _ _ => id)
    · subst hs
      exact h.client [] (by simp) (by simp [Comex.calls]) (by simp) rfl rfl rfl (by simp) hr (fun _ => id) (fun _ _ => id)

/-- a message handled -/
theorem handle_plain {c : Cfg} {ops : List Op} {cur : Cur} {x : Msg} {d : Done}
    (h : handle c cur x = some d) (hx : MsgPlain ops x) (hcur : ∀ t, curTag cur = some t → PlainTag ops t) :
    (∀ t, curTag d.cur = some t → PlainTag ops t) ∧ (d.rd = none → ∀ f ∈ d.fx, PlainTag ops f.tag) := by
  unfold MsgPlain at hx
  unfold handle at h
  split at h <;> (try split at h) <;> (try split at h) <;>
    (try simp only [reduceCtorEq, Option.some.injEq] at h) <;> (try subst h) <;> (try contradiction)
  all_goals
    rename_i hb
    simp_all only [curTag, reduceCtorEq, false_implies, implies_true, true_and, and_true, Option.some.injEq,
      forall_eq', List.not_mem_nil, List.mem_singleton, forall_eq]
  all_goals first
    | (intro _ f hf; first
        | (rw [(putFx_mem hf).1]; assumption)
        | (rw [(accFx_mem hf).1]; assumption))
    | skip

theorem Plain.serve {c : Cfg} {s s' : State} (h : Plain c s) {p m : Nat}
    (hs : Comex.serve c s m p = some s') : Plain c s' := by
  unfold Comex.serve at hs
  split at hs
  case isFalse => simp at hs
  split at hs
  case h_1 => simp at hs
  rename_i msg rest hch
  have hne : s.chan p m ≠ [] := by rw [hch]; simp
  split at hs
  · simp only [Option.some.injEq] at hs
    subst hs
    exact ⟨h.chan, h.cur, h.mem, h.chanlt, h.replt, h.ctllt, h.dir, h.callslt⟩
  rename_i d hd
  simp only [Option.some.injEq] at hs
  have hcur : ∀ t, curTag (curOf s m p) = some t → PlainTag (calls p s.tr) t := by
    intro t ht
    unfold curOf at ht
    split at ht
    · rename_i e
      rw [← e]; exact h.cur m t ht
    · simp [curTag] at ht
  obtain ⟨h1, h2⟩ := handle_plain hd (h.chan p m msg (by rw [hch]; simp)) hcur
  have htr : ∃ e, s'.tr = s.tr ++ [e] ∧ (∀ q op, e ≠ .call q op) ∧
      ∀ q fx, e = .mem q fx → q = p ∧ ∀ f ∈ fx, PlainTag (calls p s.tr) f.tag := by
    subst hs
    simp only
    split
    · exact ⟨_, rfl, by simp, by simp⟩
    · exact ⟨_, rfl, by simp, by simp⟩
    · rename_i hrd
      refine ⟨_, rfl, by simp, ?_⟩
      intro q fx e
      simp only [Ev.mem.injEq] at e
      rw [← e.2]
      exact ⟨e.1.symm, h2 hrd⟩
  obtain ⟨e, htr, he1, he2⟩ := htr
  have hcalls : ∀ q, calls q s'.tr = calls q s.tr := by
    intro q
    rw [htr, calls_append]
    cases e with
    | call q op => exact absurd rfl (he1 q op)
    | _ => simp [calls]
  refine ⟨?_, ?_, ?_, ?_, ?_, ?_, ?_, ?_⟩
  · intro q m' x hx
    rw [hcalls]
    subst hs
    simp only [set2] at hx
    split at hx
    · rename_i e
      rw [e.1]
      exact h.chan p m x (by rw [hch]; simp [hx])
    · exact h.chan q m' x hx
  · intro m' t ht
    rw [hcalls]
    subst hs
    simp only [set1] at ht ⊢
    by_cases e : m' = m
    · simp only [e, if_true] at ht ⊢
      exact h1 t ht
    · simp only [e, if_false] at ht ⊢
      exact h.cur m' t ht
  · intro q fx hq f hf
    rw [hcalls]
    rw [htr] at hq
    rcases List.mem_append.1 hq with hq | hq
    · exact h.mem q fx hq f hf
    · simp only [List.mem_singleton] at hq
      obtain ⟨rfl, h3⟩ := he2 q fx hq.symm
      exact h3 f hf
  · intro q m' hq
    subst hs
    simp only [set2] at hq
    split at hq
    · rename_i e
      rw [e.1, e.2]; exact h.chanlt p m hne
    · exact h.chanlt q m' hq
  · intro q m' hq
    subst hs
    cases hrp : d.reply with
    | none => simp only [hrp] at hq; exact h.replt q m' hq
    | some sl =>
      simp only [hrp, set2] at hq
      split at hq
      · rename_i e
        rw [e.1, e.2]; exact h.chanlt p m hne
      · exact h.replt q m' hq
  · subst hs
    exact h.ctllt
  · subst hs
    exact h.dir
  · intro q op hq
    rw [htr] at hq
    rcases List.mem_append.1 hq with hq | hq
    · exact h.callslt q op hq
    · simp only [List.mem_singleton] at hq
      exact absurd hq.symm (he1 q op)

theorem Plain.step {c : Cfg} {mem0 : Nat → Nat → Int} {s s' : State} (hc : c.OK) (hI : Inv c mem0 s)
    (h : Plain c s) {a : Act} (hs : Comex.step c s a = some s') : Plain c s' := by
  cases a with
  | call p op => exact h.call hc hI hs
  | resume p => exact h.resume hs
  | direct p => exact h.direct hI hs
  | recv p m => exact h.recv hs
  | serve m p => exact h.serve hs

theorem reachPlain {c : Cfg} {mem0 : Nat → Nat → Int} {s : State} (hc : c.OK) {as : List Act}
    (hs : Comex.run c (Comex.start mem0) as = some s) : Plain c s := by
  have key : ∀ (as : List Act) (s s' : State), Inv c mem0 s → Plain c s → Comex.run c s as = some s' →
      Plain c s' := by
    intro as
    induction as with
    | nil => intro s s' _ h hs; simp only [Comex.run, Option.some.injEq] at hs; subst hs; exact h
    | cons a as ih =>
      intro s s' hI h hs
      simp only [Comex.run] at hs
      obtain ⟨s1, h1, h2⟩ := Option.bind_eq_some_iff.1 hs
      exact ih s1 s' (hI.step hc h1) (h.step hc hI h1) h2
  refine key as _ s Inv.start ?_ hs
  constructor <;> simp [Comex.start, curTag, DirCtl]

/-! ## Progress -/

/-- a pending receive means that the system can move -/
theorem posted_progress {c : Cfg} {mem0 : Nat → Nat → Int} {s : State} (hI : Inv c mem0 s) {p m : Nat}
    (hp : s.posted p m ≠ []) :
    ∃ a, (∀ q op, a ≠ .call q op) ∧ ∃ s', Comex.step c s a = some s' := by
  obtain ⟨F, R, h1, h2, _, _⟩ := (hI.pm p m).stream
  cases hr : s.rep p m with
  | cons x xs =>
    obtain ⟨y, ys, hy⟩ := List.exists_cons_of_ne_nil hp
    refine ⟨.recv p m, by simp, ?_⟩
    simp only [Comex.step, Comex.recv, hy, hr]
    cases y <;> exact ⟨_, rfl⟩
  | nil =>
    rw [hr] at h2
    simp only [List.map_nil, List.nil_append] at h2
    have hch : s.chan p m ≠ [] := by
      intro e
      rw [e] at h1
      rw [(runChan_nil h1).2.1] at h2
      exact hp h2
    have serveOK : ∀ q, (s.cur m = .idle ∨ s.src m = q) → s.chan q m ≠ [] →
        ∃ s', Comex.step c s (.serve m q) = some s' := by
      intro q hq hne
      obtain ⟨y, ys, hy⟩ := List.exists_cons_of_ne_nil hne
      simp only [Comex.step, Comex.serve, if_pos hq, hy]
      split <;> exact ⟨_, rfl⟩
    by_cases hidle : s.cur m = .idle
    · exact ⟨.serve m p, by simp, serveOK p (.inl hidle) hch⟩
    · refine ⟨.serve m (s.src m), by simp, serveOK _ (.inr rfl) ?_⟩
      intro e
      obtain ⟨F', R', h3, _⟩ := (hI.pm (s.src m) m).stream
      rw [e] at h3
      have := (runChan_nil h3).2.2
      simp [curOf] at this
      exact hidle this

theorem ctl_progress {c : Cfg} {mem0 : Nat → Nat → Int} {s : State} (hI : Inv c mem0 s) (hP : Plain c s) {p : Nat}
    (h1 : s.ctl p ≠ .idle) (h2 : ∀ tag, s.ctl p ≠ .barrier tag) :
    ∃ a, (∀ q op, a ≠ .call q op) ∧ ∃ s', Comex.step c s a = some s' := by
  by_cases hen : ∃ s', Comex.resume c s p = some s'
  · exact ⟨.resume p, by simp, hen⟩
  · cases hk : s.ctl p with
    | idle => exact absurd hk h1
    | barrier tag => exact absurd hk (h2 tag)
    | direct tag op =>
      refine ⟨.direct p, by simp, ?_⟩
      have hd := hP.dir p op (.inl ⟨tag, hk⟩)
      cases op <;> first
        | (simp only [Comex.step, Comex.direct, hk]; exact ⟨_, rfl⟩)
        | simp [isDirect] at hd
    | fencing m tag k =>
      refine posted_progress hI (p := p) (m := m) ?_
      intro e
      apply hen
      simp only [Comex.resume, hk, e, List.not_mem_nil, if_false]
      cases k <;> exact ⟨_, rfl⟩
    | fencingAll ms tag bb =>
      by_cases hex : ∃ m, s.posted p m ≠ []
      · obtain ⟨m, hm⟩ := hex
        exact posted_progress hI hm
      · exfalso
        push Not at hex
        apply hen
        simp only [Comex.resume, hk]
        rw [if_neg (by simp [hex])]
        cases bb <;> exact ⟨_, rfl⟩
    | rmw m tag =>
      refine posted_progress hI (p := p) (m := m) ?_
      intro e
      apply hen
      simp only [Comex.resume, hk, e, List.not_mem_nil, if_false]
      exact ⟨_, rfl⟩
    | waiting t tag =>
      by_cases hex : ∃ m, s.posted p m ≠ []
      · obtain ⟨m, hm⟩ := hex
        exact posted_progress hI hm
      · exfalso
        push Not at hex
        apply hen
        simp only [Comex.resume, hk]
        rw [if_neg (by simp [hex])]
        exact ⟨_, rfl⟩

end GA.Comex
