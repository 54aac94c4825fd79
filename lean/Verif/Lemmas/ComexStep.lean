import Verif.Lemmas.ComexInv

/-!
# The invariant of the communication layer is kept by every step
-/

namespace GA.Comex

theorem getElem?_app {α} {l l' : List α} {i : Nat} {x : α} (h : l[i]? = some x) :
    (l ++ l')[i]? = some x := by
  rw [List.getElem?_append_left (List.getElem?_eq_some_iff.1 h).1]
  exact h

theorem SlotOK.mono {ops ops' : List Op} {sl : Slot} (h : SlotOK ops sl) : SlotOK (ops ++ ops') sl := by
  cases sl with
  | ack => trivial
  | buf tag len =>
    rcases h with ⟨r, a, h⟩ | ⟨h1, r, a, v, h | h⟩
    · exact .inl ⟨r, a, getElem?_app h⟩
    · exact .inr ⟨h1, r, a, v, .inl (getElem?_app h)⟩
    · exact .inr ⟨h1, r, a, v, .inr (getElem?_app h)⟩

theorem MsgOK.mono {c : Cfg} {m : Nat} {ops ops' : List Op} {x : Msg} (h : MsgOK c m ops x) :
    MsgOK c m (ops ++ ops') x := by
  unfold MsgOK at *
  split <;> first | trivial | (simp_all only []; first | exact getElem?_app h | exact ⟨getElem?_app h.1, trivial⟩)

theorem ReadOK.mono {p : Nat} {tr evs : List Ev} {tag : Nat} {vals : List Int}
    (h : ReadOK p tr tag vals) : ReadOK p (tr ++ evs) tag vals := by
  unfold ReadOK at *
  rw [calls_append]
  rcases h with ⟨r, a, h1, h2⟩ | ⟨op, old, fx, h1, h2, h3, h4, h5⟩
  · exact .inl ⟨r, a, getElem?_app h1, List.mem_append.2 (.inl h2)⟩
  · exact .inr ⟨op, old, fx, getElem?_app h1, h2, h3, h4, List.mem_append.2 (.inl h5)⟩

theorem RepOK.mono {p : Nat} {tr evs : List Ev} {e : Slot × List Int} (h : RepOK p tr e) :
    RepOK p (tr ++ evs) e := by
  obtain ⟨sl, vals⟩ := e
  cases sl with
  | ack => exact h
  | buf tag len => exact ⟨h.1, h.2.mono⟩

theorem bars_append {a b : List Op} : bars (a ++ b) = bars a + bars b := by
  induction a with
  | nil => simp [bars]
  | cons op a ih => cases op <;> simp [bars, ih] <;> omega

theorem beforeBar_append {k : Nat} {a b : List Op} (hk : k ≤ bars a) :
    beforeBar k (a ++ b) = beforeBar k a := by
  induction a generalizing k with
  | nil => simp only [bars, Nat.le_zero] at hk; subst hk; simp [beforeBar]
  | cons op a ih =>
    cases k with
    | zero => simp [beforeBar]
    | succ k =>
      cases op <;> simp only [List.cons_append, beforeBar, bars] at * <;>
        first
        | (rw [ih hk])
        | (split
           · rfl
           · rw [ih (by omega)])

theorem BarOK.mono {c : Cfg} {q k : Nat} {tr evs : List Ev} (h : BarOK c q k tr)
    (hk : k ≤ bars (calls q tr)) : BarOK c q k (tr ++ evs) := by
  intro m
  rw [calls_append, beforeBar_append hk, appliedBy_append, List.filter_append]
  exact (h m).trans (List.prefix_append _ _)

/-! ## Facts about one process and one server -/

theorem ack_of_fenceLast {c : Cfg} {cur : Cur} {ch : List Msg} {x : Cur × List Fx × List Slot}
    (h : runChan c cur ch = some x) (hf : FenceLast ch) (hn : Slot.ack ∉ x.2.2) : ch = [] := by
  rcases hf with hf | ⟨l, t, rfl⟩
  · exact hf
  · exfalso
    rw [runChan_append] at h
    obtain ⟨y, h1, h2⟩ := Option.bind_eq_some_iff.1 h
    obtain ⟨z, h3, rfl⟩ := Option.map_eq_some_iff.1 h2
    apply hn
    simp only [runChan] at h3
    obtain ⟨d, h4, h5⟩ := Option.bind_eq_some_iff.1 h3
    obtain ⟨w, h6, rfl⟩ := Option.map_eq_some_iff.1 h5
    have : d.reply = some .ack := by
      unfold handle at h4
      split at h4 <;> simp_all
      subst h4; simp_all
    simp [this]

theorem buf_of_rmwLast {c : Cfg} {cur : Cur} {ch : List Msg} {x : Cur × List Fx × List Slot} {tag : Nat}
    (h : runChan c cur ch = some x) (hf : RmwLast tag ch) (hn : Slot.buf tag 1 ∉ x.2.2) : ch = [] := by
  rcases hf with hf | ⟨l, r, a, v, rfl | rfl⟩
  · exact hf
  all_goals
    exfalso
    rw [runChan_append] at h
    obtain ⟨y, h1, h2⟩ := Option.bind_eq_some_iff.1 h
    obtain ⟨z, h3, rfl⟩ := Option.map_eq_some_iff.1 h2
    apply hn
    simp only [runChan] at h3
    obtain ⟨d, h4, h5⟩ := Option.bind_eq_some_iff.1 h3
    obtain ⟨w, h6, rfl⟩ := Option.map_eq_some_iff.1 h5
    have : d.reply = some (.buf tag 1) := by
      unfold handle at h4
      split at h4 <;> simp_all
      subst h4; simp_all
    simp [this]

theorem runChan_nil {c : Cfg} {cur : Cur} {F : List Fx} {R : List Slot}
    (h : runChan c cur [] = some (.idle, F, R)) : F = [] ∧ R = [] ∧ cur = .idle := by
  simp only [runChan, Option.some.injEq, Prod.mk.injEq] at h
  exact ⟨h.2.1.symm, h.2.2.symm, h.1⟩

theorem issued_call {c : Cfg} {mem0 : Nat → Nat → Int} {s : State} (h : Inv c mem0 s) {p : Nat} {op : Op} :
    issued p (s.tr ++ [.call p op]) = issued p s.tr ++ opFx (s.cnt p) op := by
  unfold issued
  rw [calls_append, opsFx_append, h.cnt p]
  simp [calls, opsFx]

theorem calls_call {p : Nat} {op : Op} {tr : List Ev} :
    calls p (tr ++ [.call p op]) = calls p tr ++ [op] := by
  rw [calls_append]; simp [calls]

theorem opFx_onM {c : Cfg} {tag m : Nat} {op : Op} (h : c.master op.target ≠ m) :
    (opFx tag op).filter (onM c m) = [] := by
  rw [List.filter_eq_nil_iff]
  intro f hf
  simp only [onM, decide_eq_true_eq, (opFx_tag hf).2]
  exact h

theorem opFx_onM_self {c : Cfg} {tag : Nat} {op : Op} :
    (opFx tag op).filter (onM c (c.master op.target)) = opFx tag op := by
  rw [List.filter_eq_self]
  intro f hf
  simp [onM, (opFx_tag hf).2]

/-- A step of process `p` that leaves memory, servers and replies alone. -/
theorem Inv.client {c : Cfg} {mem0 : Nat → Nat → Int} {s s' : State} (h : Inv c mem0 s) (p : Nat)
    (evs : List Ev) (htr : s'.tr = s.tr ++ evs) (hap : applied evs = [])
    (hcalls : ∀ q, q ≠ p → calls q evs = []) (herr : s'.err = s.err)
    (hmem : s'.mem = s.mem) (hsrc : s'.src = s.src) (hcur : s'.cur = s.cur) (hrep : s'.rep = s.rep)
    (hoth : ∀ q, q ≠ p → s'.chan q = s.chan q ∧ s'.posted q = s.posted q ∧ s'.flag q = s.flag q ∧
      s'.ctl q = s.ctl q ∧ s'.cnt q = s.cnt q ∧ s'.bars q = s.bars q)
    (hpm : ∀ m, PM c m (curOf s m p) (s'.chan p m) (s.rep p m) (s'.posted p m) (s'.flag p m)
      (s'.ctl p) (s'.cnt p) (appliedBy p s.tr) (issued p s'.tr))
    (hctl : CtlOK c p (calls p s'.tr) (s'.flag p) (s'.ctl p))
    (hflag : ∀ m, s'.flag p m = true → m < c.size ∧ c.master m = m)
    (hslot : ∀ m, ∀ sl ∈ s'.posted p m, SlotOK (calls p s'.tr) sl)
    (hmsg : ∀ m, ∀ x ∈ s'.chan p m, MsgOK c m (calls p s'.tr) x)
    (hcnt : s'.cnt p = (calls p s'.tr).length)
    (hbar : ∀ k, 1 ≤ k → s.bars p < k → k ≤ s'.bars p → BarOK c p k s'.tr)
    (hbarn : bars (calls p s'.tr) =
      s'.bars p + (match s'.ctl p with | .fencingAll _ _ true => 1 | _ => 0))
    (hhist : Hist c mem0 s'.tr) : Inv c mem0 s' := by
  have hcq : ∀ q, q ≠ p → calls q s'.tr = calls q s.tr := by
    intro q hq; rw [htr, calls_append, hcalls q hq, List.append_nil]
  have hap' : ∀ q, appliedBy q s'.tr = appliedBy q s.tr := by
    intro q; rw [htr, appliedBy_append]; simp [appliedBy, hap]
  have hiq : ∀ q, q ≠ p → issued q s'.tr = issued q s.tr := by
    intro q hq; unfold issued; rw [hcq q hq]
  have hco : ∀ m q, curOf s' m q = curOf s m q := by intro m q; unfold curOf; rw [hsrc, hcur]
  refine ⟨by rw [herr]; exact h.err, ?_, ?_, ?_, ?_, ?_, ?_, ?_, ?_, ?_, ?_, hhist⟩
  · intro q m
    rw [hco, hap', hrep]
    by_cases hq : q = p
    · subst hq; exact hpm m
    · obtain ⟨e1, e2, e3, e4, e5, e6⟩ := hoth q hq
      rw [e1, e2, e3, e4, e5, hiq q hq]
      exact h.pm q m
  · intro q
    by_cases hq : q = p
    · subst hq; exact hctl
    · obtain ⟨e1, e2, e3, e4, e5, e6⟩ := hoth q hq
      rw [e3, e4, hcq q hq]
      exact h.ctl q
  · intro q m
    by_cases hq : q = p
    · subst hq; exact hflag m
    · rw [(hoth q hq).2.2.1]; exact h.flag q m
  · intro q m
    by_cases hq : q = p
    · subst hq; exact hslot m
    · rw [(hoth q hq).2.1, hcq q hq]; exact h.slot q m
  · intro q m
    by_cases hq : q = p
    · subst hq; exact hmsg m
    · rw [(hoth q hq).1, hcq q hq]; exact h.msg q m
  · intro q m e he
    rw [hrep] at he
    rw [htr]
    exact (h.rep q m e he).mono
  · intro r a
    rw [hmem, htr, applied_append, hap, List.append_nil]
    exact h.mem r a
  · intro q
    by_cases hq : q = p
    · subst hq; exact hcnt
    · rw [(hoth q hq).2.2.2.2.1, hcq q hq]; exact h.cnt q
  · intro q k h1 h2
    by_cases hk : k ≤ s.bars q
    · rw [htr]
      refine (h.bar q k h1 hk).mono ?_
      rw [h.barn q]; omega
    · by_cases hq : q = p
      · subst hq; exact hbar k h1 (by omega) h2
      · rw [(hoth q hq).2.2.2.2.2] at h2; omega
  · intro q
    by_cases hq : q = p
    · subst hq; exact hbarn
    · rw [hcq q hq, (hoth q hq).2.2.2.2.2, (hoth q hq).2.2.2.1]
      exact h.barn q

theorem PM.send {c : Cfg} {m : Nat} {cur : Cur} {ch : List Msg} {rep : List (Slot × List Int)}
    {posted : List Slot} {flag : Bool} {cnt : Nat} {ap is : List Fx}
    (h : PM c m cur ch rep posted flag .idle cnt ap is) {ctl' : Ctl} {cnt' : Nat} {flag' : Bool}
    {is' : List Fx} {ms : List Msg} {G : List Fx} {Q : List Slot}
    (hr : runChan c .idle ms = some (.idle, G, Q)) (htag : ∀ x ∈ ms, x.tag = cnt) (hlt : cnt < cnt')
    (his : is'.filter (onM c m) = is.filter (onM c m) ++ G ++ (ctlFx ctl').filter (onM c m))
    (hfl : flag' = false → (∀ tag, ctl' ≠ .rmw m tag) → flag = false ∧ G = [])
    (htail : TailOK m ctl' (ch ++ ms)) :
    PM c m cur (ch ++ ms) rep (posted ++ Q) flag' ctl' cnt' ap is' := by
  obtain ⟨F, R, e1, e2, e3, e4⟩ := h.stream
  refine ⟨⟨F ++ G, R ++ Q, ?_, ?_, ?_, ?_⟩, htail, ?_, ?_⟩
  · rw [runChan_append, e1]
    simp [hr]
  · rw [e2]; simp
  · rw [his, ← e3]
    simp [ctlFx]
  · intro h1 h2
    obtain ⟨h3, h4⟩ := hfl h1 h2
    rw [e4 h3 (by simp), h4]
    rfl
  · rw [List.pairwise_append]
    refine ⟨h.sorted, ?_, ?_⟩
    · refine List.Pairwise.imp_of_mem (R := fun _ _ => True) ?_ (List.pairwise_of_forall (fun _ _ => trivial))
      intro a b ha hb _
      rw [htag a ha, htag b hb]
    · intro a ha b hb
      rw [htag b hb]
      exact Nat.le_of_lt (h.lt a ha)
  · intro x hx
    rcases List.mem_append.1 hx with hx | hx
    · exact Nat.lt_trans (h.lt x hx) hlt
    · rw [htag x hx]; exact hlt

theorem PM.goto {c : Cfg} {m : Nat} {cur : Cur} {ch : List Msg} {rep : List (Slot × List Int)}
    {posted : List Slot} {flag : Bool} {cnt : Nat} {ap is : List Fx} {ctl : Ctl}
    (h : PM c m cur ch rep posted flag ctl cnt ap is) {ctl' : Ctl} {flag' : Bool}
    (hfx : (ctlFx ctl').filter (onM c m) = (ctlFx ctl).filter (onM c m))
    (hfl : flag' = false → (∀ tag, ctl' ≠ .rmw m tag) →
      ∀ F R, runChan c cur ch = some (.idle, F, R) → posted = rep.map Prod.fst ++ R →
        (flag = false → (∀ tag, ctl ≠ .rmw m tag) → F = []) → F = [])
    (htail : TailOK m ctl' ch) :
    PM c m cur ch rep posted flag' ctl' cnt ap is := by
  obtain ⟨F, R, e1, e2, e3, e4⟩ := h.stream
  refine ⟨⟨F, R, e1, e2, by rw [hfx]; exact e3, fun h1 h2 => hfl h1 h2 F R e1 e2 e4⟩, htail, h.sorted, h.lt⟩

/-- nothing pending: everything asked for has happened -/
theorem PM.done {c : Cfg} {m : Nat} {cur : Cur} {ch : List Msg} {rep : List (Slot × List Int)}
    {posted : List Slot} {flag : Bool} {cnt : Nat} {ap is : List Fx} {ctl : Ctl}
    (h : PM c m cur ch rep posted flag ctl cnt ap is) (hc : (ctlFx ctl).filter (onM c m) = [])
    (hf : (flag = false ∧ ∀ tag, ctl ≠ .rmw m tag) ∨ ch = []) :
    ap.filter (onM c m) = is.filter (onM c m) := by
  obtain ⟨F, R, e1, e2, e3, e4⟩ := h.stream
  have : F = [] := by
    rcases hf with ⟨h1, h2⟩ | h1
    · exact e4 h1 h2
    · subst h1; exact (runChan_nil e1).1
  rw [← e3, this, hc]
  simp

theorem PM.fence_empty {c : Cfg} {m : Nat} {cur : Cur} {ch : List Msg} {rep : List (Slot × List Int)}
    {posted : List Slot} {flag : Bool} {cnt : Nat} {ap is : List Fx} {ctl : Ctl}
    (h : PM c m cur ch rep posted flag ctl cnt ap is) (hf : FenceLast ch) (hn : Slot.ack ∉ posted) :
    ch = [] := by
  obtain ⟨F, R, e1, e2, e3, e4⟩ := h.stream
  refine ack_of_fenceLast e1 hf ?_
  intro hm
  exact hn (by rw [e2]; exact List.mem_append.2 (.inr hm))

theorem PM.rmw_empty {c : Cfg} {m : Nat} {cur : Cur} {ch : List Msg} {rep : List (Slot × List Int)}
    {posted : List Slot} {flag : Bool} {cnt : Nat} {ap is : List Fx} {ctl : Ctl} {tag : Nat}
    (h : PM c m cur ch rep posted flag ctl cnt ap is) (hf : RmwLast tag ch)
    (hn : Slot.buf tag 1 ∉ posted) : ch = [] := by
  obtain ⟨F, R, e1, e2, e3, e4⟩ := h.stream
  refine buf_of_rmwLast e1 hf ?_
  intro hm
  exact hn (by rw [e2]; exact List.mem_append.2 (.inr hm))

theorem runChan_fence {c : Cfg} {t : Nat} :
    runChan c .idle [⟨t, .fence⟩] = some (.idle, [], [.ack]) := by
  simp [runChan, handle]

theorem getElem?_snoc {α} {l : List α} {x : α} {n : Nat} (h : n = l.length) : (l ++ [x])[n]? = some x := by
  subst h; simp

/-- A call: messages `ms m` with receives `Q m` go to server `m`. -/
theorem Inv.calling {c : Cfg} {mem0 : Nat → Nat → Int} {s s' : State} (h : Inv c mem0 s) (p : Nat)
    (op : Op) (evs : List Ev) (hidle : s.ctl p = .idle) (ms : Nat → List Msg) (Q : Nat → List Slot)
    (G : Nat → List Fx)
    (hret : evs = [] ∨ evs = [.ret p (s.cnt p) []])
    (htr : s'.tr = (s.tr ++ [.call p op]) ++ evs) (herr : s'.err = s.err)
    (hmem : s'.mem = s.mem) (hsrc : s'.src = s.src) (hcur : s'.cur = s.cur) (hrep : s'.rep = s.rep)
    (hoth : ∀ q, q ≠ p → s'.chan q = s.chan q ∧ s'.posted q = s.posted q ∧ s'.flag q = s.flag q ∧
      s'.ctl q = s.ctl q ∧ s'.cnt q = s.cnt q ∧ s'.bars q = s.bars q)
    (hcnt : s'.cnt p = s.cnt p + 1)
    (hchan : ∀ m, s'.chan p m = s.chan p m ++ ms m)
    (hposted : ∀ m, s'.posted p m = s.posted p m ++ Q m)
    (hrun : ∀ m, runChan c .idle (ms m) = some (.idle, G m, Q m))
    (htag : ∀ m, ∀ x ∈ ms m, x.tag = s.cnt p)
    (his : ∀ m, (opFx (s.cnt p) op).filter (onM c m) = G m ++ (ctlFx (s'.ctl p)).filter (onM c m))
    (hfl : ∀ m, s'.flag p m = false → (∀ tag, s'.ctl p ≠ .rmw m tag) → s.flag p m = false ∧ G m = [])
    (htail : ∀ m, TailOK m (s'.ctl p) (s.chan p m ++ ms m))
    (hctl : CtlOK c p (calls p s.tr ++ [op]) (s'.flag p) (s'.ctl p))
    (hflag : ∀ m, s'.flag p m = true → s.flag p m = true ∨ (m < c.size ∧ c.master m = m))
    (hslot : ∀ m, ∀ sl ∈ Q m, SlotOK (calls p s.tr ++ [op]) sl)
    (hmsg : ∀ m, ∀ x ∈ ms m, MsgOK c m (calls p s.tr ++ [op]) x)
    (hbar : ∀ k, 1 ≤ k → s.bars p < k → k ≤ s'.bars p → BarOK c p k (s.tr ++ [.call p op]))
    (hbarn : bars [op] + s.bars p =
      s'.bars p + (match s'.ctl p with | .fencingAll _ _ true => 1 | _ => 0))
    (hev : evs ≠ [] → EvOK c mem0 (s.tr ++ [.call p op]) (.ret p (s.cnt p) [])) : Inv c mem0 s' := by
  have hcalls : calls p s'.tr = calls p s.tr ++ [op] := by
    rw [htr, calls_append, calls_call]
    rcases hret with rfl | rfl <;> simp [calls]
  have hiss : issued p s'.tr = issued p s.tr ++ opFx (s.cnt p) op := by
    rw [← issued_call h]
    unfold issued
    rw [hcalls, calls_call]
  have hb : bars (calls p s.tr) = s.bars p := by
    have := h.barn p
    rw [hidle] at this
    exact this
  refine h.client p ([.call p op] ++ evs) (by rw [htr, List.append_assoc]) ?_ ?_ herr hmem hsrc hcur hrep hoth
    ?_ ?_ ?_ ?_ ?_ ?_ ?_ ?_ ?_
  · rcases hret with rfl | rfl <;> rfl
  · intro q hq
    rcases hret with rfl | rfl <;> simp [calls, Ne.symm hq]
  · intro m
    have := h.pm p m
    rw [hidle] at this
    rw [hchan, hposted, hcnt]
    refine this.send (hrun m) (htag m) (by omega) ?_ (hfl m) (htail m)
    rw [hiss, List.filter_append, his m, List.append_assoc]
  · rw [hcalls]; exact hctl
  · intro m hm
    rcases hflag m hm with h1 | h1
    · exact h.flag p m h1
    · exact h1
  · intro m sl hsl
    rw [hcalls]
    rw [hposted] at hsl
    rcases List.mem_append.1 hsl with hsl | hsl
    · exact (h.slot p m sl hsl).mono
    · exact hslot m sl hsl
  · intro m x hx
    rw [hcalls]
    rw [hchan] at hx
    rcases List.mem_append.1 hx with hx | hx
    · exact (h.msg p m x hx).mono
    · exact hmsg m x hx
  · rw [hcnt, hcalls, h.cnt p]; simp
  · intro k h1 h2 h3
    rw [htr]
    refine (hbar k h1 h2 h3).mono ?_
    rw [calls_call, bars_append, hb]
    split at hbarn <;> omega
  · rw [hcalls, bars_append, hb]; omega
  · rw [htr]
    have h1 : Hist c mem0 (s.tr ++ [.call p op]) := h.hist.snoc trivial
    rcases hret with rfl | rfl
    · simpa using h1
    · exact h1.snoc (hev (by simp))

/-- a list of calls up to some barrier -/
theorem beforeBar_prefix {k : Nat} {ops : List Op} : (beforeBar k ops).IsPrefix ops := by
  induction ops generalizing k with
  | nil => cases k <;> simp [beforeBar]
  | cons op ops ih =>
    cases k with
    | zero => simp [beforeBar]
    | succ k =>
      cases op <;> simp only [beforeBar] <;>
        first
        | (exact List.prefix_cons_iff.2 (.inr ⟨_, rfl, ih⟩))
        | (split
           · simp
           · exact List.prefix_cons_iff.2 (.inr ⟨_, rfl, ih⟩))

theorem opsFx_prefix {n : Nat} {a b : List Op} (h : a.IsPrefix b) : (opsFx n a).IsPrefix (opsFx n b) := by
  obtain ⟨t, rfl⟩ := h
  rw [opsFx_append]
  exact List.prefix_append _ _

theorem barOK_of_done {c : Cfg} {p k : Nat} {tr : List Ev}
    (h : ∀ m, (appliedBy p tr).filter (onM c m) = (issued p tr).filter (onM c m)) : BarOK c p k tr := by
  intro m
  rw [h m]
  exact (opsFx_prefix beforeBar_prefix).filter _

theorem sendFences_eq {s : State} {p tag : Nat} {ms : List Nat} (hn : ms.Nodup) :
    s.sendFences p tag ms = { s with
      chan := fun q m => if q = p ∧ m ∈ ms then s.chan q m ++ [⟨tag, .fence⟩] else s.chan q m
      posted := fun q m => if q = p ∧ m ∈ ms then s.posted q m ++ [.ack] else s.posted q m } := by
  induction ms generalizing s with
  | nil => simp [State.sendFences]
  | cons m0 ms ih =>
    rw [List.nodup_cons] at hn
    simp only [State.sendFences]
    rw [ih hn.2]
    simp only [State.send, set2]
    congr 1
    all_goals
      funext q m
      by_cases hq : q = p
      · subst hq
        by_cases h1 : m = m0
        · subst h1; simp [hn.1]
        · simp [h1]
      · simp [hq]

theorem clearFlags_eq {s : State} {p : Nat} {ms : List Nat} :
    s.clearFlags p ms = { s with
      flag := fun q m => if q = p ∧ m ∈ ms then false else s.flag q m } := by
  induction ms generalizing s with
  | nil => simp [State.clearFlags]
  | cons m0 ms ih =>
    simp only [State.clearFlags]
    rw [ih]
    simp only [set2]
    congr 1
    funext q m
    by_cases hq : q = p
    · subst hq
      by_cases h1 : m = m0
      · subst h1; simp
      · simp [h1]
    · simp [hq]

end GA.Comex
