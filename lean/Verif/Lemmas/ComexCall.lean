import Verif.Lemmas.ComexStep

/-!
# Calls keep the invariant
-/

namespace GA.Comex

theorem set2_ne {α} {f : Nat → Nat → α} {p m q : Nat} {v : α} (h : q ≠ p) : set2 f p m v q = f q := by
  funext x
  simp [set2, h]

theorem flag_idle {c : Cfg} {mem0 : Nat → Nat → Int} {s : State} (h : Inv c mem0 s) {p m : Nat}
    (hi : s.ctl p = .idle) (hf : s.flag p m = false) :
    (appliedBy p s.tr).filter (onM c m) = (issued p s.tr).filter (onM c m) := by
  refine (h.pm p m).done ?_ (.inl ⟨hf, ?_⟩)
  · rw [hi]; rfl
  · rw [hi]; simp

theorem appliedBy_call {p q : Nat} {op : Op} {tr : List Ev} :
    appliedBy p (tr ++ [.call q op]) = appliedBy p tr := by
  rw [appliedBy_append]
  simp [appliedBy, applied]

theorem Inv.call_fence {c : Cfg} {mem0 : Nat → Nat → Int} {s s' : State} (hc : c.OK) (h : Inv c mem0 s)
    {p r : Nat} (hs : call c s p (.fence r) = some s') : Inv c mem0 s' := by
  unfold call at hs
  split at hs
  · rename_i hpre
    obtain ⟨hi, hv, hp, hu⟩ := hpre
    have hb : s.bars p = bars (calls p s.tr) := by
      have := h.barn p
      rw [hi] at this
      exact this.symm
    simp only [State.log] at hs
    cases hf : s.flag p (c.master r)
    case true =>
      simp only [hf, if_true, Option.some.injEq] at hs
      subst hs
      refine h.calling p (.fence r) [] hi (fun m => if m = c.master r then [⟨s.cnt p, .fence⟩] else [])
        (fun m => if m = c.master r then [.ack] else []) (fun _ => []) (.inl rfl)
        ?_ rfl rfl rfl rfl rfl ?_ ?_ ?_ ?_ ?_ ?_ ?_ ?_ ?_ ?_ ?_ ?_ ?_ ?_ ?_ ?_
      · simp [State.goto, State.send]
      · intro q hq
        simp [State.goto, State.send, set1, set2_ne, hq]
      · simp [State.goto, State.send, set1]
      · intro m
        simp only [State.goto, State.send, set2, true_and]
        split
        · rename_i e; subst e; rfl
        · simp
      · intro m
        simp only [State.goto, State.send, set2, true_and]
        split
        · rename_i e; subst e; rfl
        · simp
      · intro m
        split
        · exact runChan_fence
        · rfl
      · intro m x hx
        split at hx <;> simp at hx
        rw [hx]
      · intro m
        simp [opFx, State.goto, set1, ctlFx]
      · intro m h1 _
        exact ⟨h1, rfl⟩
      · intro m
        simp only [State.goto, set1, if_true, TailOK]
        intro e
        rw [if_pos e.symm]
        exact .inr ⟨_, _, rfl⟩
      · simp only [State.goto, set1, if_true, CtlOK]
        exact ⟨r, getElem?_snoc (h.cnt p), rfl⟩
      · intro m h1
        exact .inl h1
      · intro m sl hsl
        split at hsl <;> simp at hsl
        subst hsl; trivial
      · intro m x hx
        split at hx <;> simp at hx
        subst hx; trivial
      · intro k _ h1 h2
        simp only [State.goto, State.send] at h2
        omega
      · simp [State.goto, State.send, set1, bars]
      · simp
    case false =>
      simp only [hf, Bool.false_eq_true, if_false, Option.some.injEq] at hs
      subst hs
      refine h.calling p (.fence r) [.ret p (s.cnt p) []] hi (fun m => []) (fun m => []) (fun _ => []) (.inr rfl)
        rfl rfl rfl rfl rfl rfl ?_ ?_ ?_ ?_ ?_ ?_ ?_ ?_ ?_ ?_ ?_ ?_ ?_ ?_ ?_ ?_
      · intro q hq
        simp [set1, hq]
      · simp [set1]
      · simp
      · simp
      · intro m; rfl
      · intro m x hx; simp at hx
      · intro m
        simp [opFx, hi, ctlFx]
      · intro m h1 _
        exact ⟨h1, rfl⟩
      · intro m
        simp only [hi]; trivial
      · simp only [hi]; trivial
      · intro m h1
        exact .inl h1
      · intro m sl hsl
        simp at hsl
      · intro m x hx
        simp at hx
      · intro k _ h1 h2
        simp only at h2
        omega
      · simp [hi, bars]
      · intro _
        refine ⟨.fence r, ?_, ?_⟩
        · rw [calls_call]; exact getElem?_snoc (h.cnt p)
        · simp only
          rw [appliedBy_call, issued_call h, List.filter_append, flag_idle h hi hf]
          simp [opFx]
  · simp at hs

theorem flagged_ok {c : Cfg} {mem0 : Nat → Nat → Int} {s : State} (h : Inv c mem0 s) {p : Nat} :
    (flagged c s p).any (fun m => decide (c.master m ≠ m)) = false := by
  rw [List.any_eq_false]
  intro m hm
  simp only [flagged, List.mem_filter] at hm
  simp [(h.flag p m hm.2).2]

theorem flagged_mem {c : Cfg} {mem0 : Nat → Nat → Int} {s : State} (h : Inv c mem0 s) {p m : Nat} :
    m ∈ flagged c s p ↔ s.flag p m = true := by
  simp only [flagged, List.mem_filter, List.mem_range]
  exact ⟨fun h => h.2, fun h1 => ⟨(h.flag p m h1).1, h1⟩⟩

theorem flagged_nodup {c : Cfg} {s : State} {p : Nat} : (flagged c s p).Nodup :=
  List.nodup_range.filter _

/-- `comex_fence_all` and the first half of `comex_barrier` -/
theorem Inv.call_all {c : Cfg} {mem0 : Nat → Nat → Int} {s s' : State} (h : Inv c mem0 s)
    {p : Nat} {bb : Bool} (hs : call c s p (if bb then .barrier else .fenceAll) = some s') :
    Inv c mem0 s' := by
  have hpre : s.ctl p = .idle ∧ (if bb then Op.barrier else Op.fenceAll).valid c = true ∧ p < c.size ∧
      c.user p = true := by
    by_contra hn
    unfold call at hs
    rw [if_neg hn] at hs
    simp at hs
  unfold call at hs
  rw [if_pos hpre] at hs
  · obtain ⟨hi, hv, hp, hu⟩ := hpre
    have hfl : ∀ x y, flagged c { s with cnt := x, tr := y } p = flagged c s p := fun _ _ => rfl
    simp only [State.log] at hs
    -- waiting for acknowledgements
    have main : Inv c mem0 ((State.sendFences { s with
          cnt := set1 s.cnt p (s.cnt p + 1),
          tr := s.tr ++ [.call p (if bb then .barrier else .fenceAll)] } p (s.cnt p)
            (flagged c s p)).goto p (.fencingAll (flagged c s p) (s.cnt p) bb)) := by
      rw [sendFences_eq flagged_nodup]
      refine h.calling p (if bb then .barrier else .fenceAll) [] hi
        (fun m => if m ∈ flagged c s p then [⟨s.cnt p, .fence⟩] else [])
        (fun m => if m ∈ flagged c s p then [.ack] else []) (fun _ => []) (.inl rfl)
        ?_ rfl rfl rfl rfl rfl ?_ ?_ ?_ ?_ ?_ ?_ ?_ ?_ ?_ ?_ ?_ ?_ ?_ ?_ ?_ ?_
      · simp [State.goto]
      · intro q hq
        simp [State.goto, set1, hq]
      · simp [State.goto, set1]
      · intro m
        simp only [State.goto, true_and]
        split <;> simp
      · intro m
        simp only [State.goto, true_and]
        split <;> simp
      · intro m
        split
        · exact runChan_fence
        · rfl
      · intro m x hx
        split at hx <;> simp at hx
        rw [hx]
      · intro m
        cases bb <;> simp [opFx, State.goto, set1, ctlFx]
      · intro m h1 _
        exact ⟨h1, rfl⟩
      · intro m
        simp only [State.goto, set1, if_true, TailOK]
        intro e
        rw [if_pos e]
        exact .inr ⟨_, _, rfl⟩
      · simp only [State.goto, set1, if_true, CtlOK]
        exact ⟨getElem?_snoc (h.cnt p), fun m hm => (flagged_mem h).2 hm⟩
      · intro m h1
        exact .inl h1
      · intro m sl hsl
        split at hsl <;> simp at hsl
        subst hsl; trivial
      · intro m x hx
        split at hx <;> simp at hx
        subst hx; trivial
      · intro k _ h1 h2
        simp only [State.goto] at h2
        omega
      · cases bb <;> simp [State.goto, set1, bars]; omega
      · simp
    -- nothing to wait for
    have hdone : flagged c s p = [] → ∀ m,
        (appliedBy p (s.tr ++ [.call p (if bb then .barrier else .fenceAll)])).filter (onM c m) =
        (issued p (s.tr ++ [.call p (if bb then .barrier else .fenceAll)])).filter (onM c m) := by
      intro he m
      have hf : s.flag p m = false := by
        cases hh : s.flag p m with
        | false => rfl
        | true => have := (flagged_mem h).2 hh; rw [he] at this; simp at this
      rw [appliedBy_call, issued_call h, List.filter_append, flag_idle h hi hf]
      cases bb <;> simp [opFx]
    cases bb with
    | true =>
      simp only [if_true, hfl, flagged_ok h, Bool.false_eq_true, if_false] at hs main hdone
      split at hs
      · rename_i he
        simp only [List.isEmpty_iff] at he
        simp only [Option.some.injEq] at hs
        subst hs
        refine h.calling p .barrier [] hi (fun m => []) (fun m => []) (fun _ => []) (.inl rfl)
          ?_ rfl rfl rfl rfl rfl ?_ ?_ ?_ ?_ ?_ ?_ ?_ ?_ ?_ ?_ ?_ ?_ ?_ ?_ ?_ ?_
        · simp [State.goto]
        · intro q hq
          simp [State.goto, set1, hq]
        · simp [State.goto, set1]
        · simp [State.goto]
        · simp [State.goto]
        · intro m; rfl
        · intro m x hx; simp at hx
        · intro m
          simp [opFx, State.goto, set1, ctlFx]
        · intro m h1 _
          exact ⟨h1, rfl⟩
        · intro m
          simp only [State.goto, set1, if_true, TailOK]
        · simp only [State.goto, set1, if_true, CtlOK]
          refine ⟨getElem?_snoc (h.cnt p), ?_⟩
          intro m
          cases hh : s.flag p m with
          | false => rfl
          | true => have := (flagged_mem h).2 hh; rw [he] at this; simp at this
        · intro m h1
          exact .inl h1
        · intro m sl hsl
          simp at hsl
        · intro m x hx
          simp at hx
        · intro k _ _ _
          exact barOK_of_done (hdone he)
        · simp [State.goto, set1, bars]; omega
        · simp
      · simp only [Option.some.injEq] at hs
        subst hs
        exact main
    | false =>
      simp only [hfl, flagged_ok h, Bool.false_eq_true, if_false] at hs main hdone
      split at hs
      · rename_i he
        simp only [List.isEmpty_iff] at he
        simp only [Option.some.injEq] at hs
        subst hs
        refine h.calling p .fenceAll [.ret p (s.cnt p) []] hi (fun m => []) (fun m => []) (fun _ => []) (.inr rfl)
          rfl rfl rfl rfl rfl rfl ?_ ?_ ?_ ?_ ?_ ?_ ?_ ?_ ?_ ?_ ?_ ?_ ?_ ?_ ?_ ?_
        · intro q hq
          simp [set1, hq]
        · simp [set1]
        · simp
        · simp
        · intro m; rfl
        · intro m x hx; simp at hx
        · intro m
          simp [opFx, hi, ctlFx]
        · intro m h1 _
          exact ⟨h1, rfl⟩
        · intro m
          simp only [hi]; trivial
        · simp only [hi]; trivial
        · intro m h1
          exact .inl h1
        · intro m sl hsl
          simp at hsl
        · intro m x hx
          simp at hx
        · intro k _ h1 h2
          simp only at h2
          omega
        · simp [hi, bars]
        · intro _
          refine ⟨.fenceAll, ?_, ?_⟩
          · rw [calls_call]; exact getElem?_snoc (h.cnt p)
          · exact hdone he
      · simp only [Option.some.injEq] at hs
        subst hs
        exact main

theorem Inv.call_wait {c : Cfg} {mem0 : Nat → Nat → Int} {s s' : State} (h : Inv c mem0 s)
    {p t : Nat} (hs : call c s p (.wait t) = some s') : Inv c mem0 s' := by
  unfold call at hs
  split at hs
  · rename_i hpre
    obtain ⟨hi, hv, hp, hu⟩ := hpre
    simp only [State.log, Option.some.injEq] at hs
    subst hs
    refine h.calling p (.wait t) [] hi (fun m => []) (fun m => []) (fun _ => []) (.inl rfl)
      ?_ rfl rfl rfl rfl rfl ?_ ?_ ?_ ?_ ?_ ?_ ?_ ?_ ?_ ?_ ?_ ?_ ?_ ?_ ?_ ?_
    · simp [State.goto]
    · intro q hq
      simp [State.goto, set1, hq]
    · simp [State.goto, set1]
    · simp [State.goto]
    · simp [State.goto]
    · intro m; rfl
    · intro m x hx; simp at hx
    · intro m
      simp [opFx, State.goto, set1, ctlFx]
    · intro m h1 _
      exact ⟨h1, rfl⟩
    · intro m
      simp only [State.goto, set1, if_true, TailOK]
    · simp only [State.goto, set1, if_true, CtlOK]
      exact getElem?_snoc (h.cnt p)
    · intro m h1
      exact .inl h1
    · intro m sl hsl
      simp at hsl
    · intro m x hx
      simp at hx
    · intro k _ h1 h2
      simp only [State.goto] at h2
      omega
    · simp [State.goto, set1, bars]
    · simp
  · simp at hs

def isRmw : Op → Bool
  | .fadd _ _ _ => true
  | .swap _ _ _ => true
  | _ => false

theorem call_oneSided {c : Cfg} {s : State} {p : Nat} {op : Op} (ho : op.oneSided = true) :
    call c s p op = if s.ctl p = .idle ∧ op.valid c = true ∧ p < c.size ∧ c.user p = true then
      let tag := s.cnt p
      let s := { s with cnt := set1 s.cnt p (tag + 1), tr := s.tr ++ [Ev.call p op] }
      let m := c.master op.target
      if isDirect c p op then
        if s.flag p m then
          some ((s.send p m [.ack] [⟨tag, .fence⟩]).goto p (.fencing m tag (some op)))
        else some (s.goto p (.direct tag op))
      else
        let s := if setsFlag op then { s with flag := set2 s.flag p m true } else s
        let s := s.send p m (slotsOf tag op) (msgsOf c tag op)
        if isRmw op then some (s.goto p (.rmw m tag)) else some s
    else none := by
  cases op <;> first | rfl | simp [Op.oneSided] at ho

theorem dataMsgs_body {chunk tag n : Nat} {vs : List Int} :
    ∀ m ∈ dataMsgs chunk tag n vs, ∃ ws, m.body = .data ws := by
  induction n generalizing vs with
  | zero => simp [dataMsgs]
  | succ n ih =>
    simp only [dataMsgs]
    split
    · intro m hm
      rcases List.mem_cons.1 hm with rfl | hm
      · exact ⟨_, rfl⟩
      · exact ih m hm
    · simp

theorem msgsOf_ok {c : Cfg} {tag : Nat} {op : Op} {ops : List Op} (h : ops[tag]? = some op) :
    ∀ x ∈ msgsOf c tag op, MsgOK c (c.master op.target) ops x := by
  intro x hx
  cases op with
  | put r a vs =>
    simp only [msgsOf] at hx
    split at hx
    · simp at hx; subst hx; trivial
    · rcases List.mem_cons.1 hx with rfl | hx
      · trivial
      · obtain ⟨ws, hw⟩ := dataMsgs_body x hx
        simp [MsgOK, hw]
  | acc r a sc vs =>
    simp only [msgsOf] at hx
    split at hx
    · simp at hx; subst hx; trivial
    · rcases List.mem_cons.1 hx with rfl | hx
      · trivial
      · obtain ⟨ws, hw⟩ := dataMsgs_body x hx
        simp [MsgOK, hw]
  | _ => simp [msgsOf] at hx <;> (subst hx; simp [MsgOK, h, Op.target])

theorem slotsOf_ok {tag : Nat} {op : Op} {ops : List Op} (h : ops[tag]? = some op) :
    ∀ x ∈ slotsOf tag op, SlotOK ops x := by
  intro x hx
  cases op with
  | get r a len => simp [slotsOf] at hx; subst hx; exact .inl ⟨r, a, h⟩
  | fadd r a v => simp [slotsOf] at hx; subst hx; exact .inr ⟨rfl, r, a, v, .inl h⟩
  | swap r a v => simp [slotsOf] at hx; subst hx; exact .inr ⟨rfl, r, a, v, .inr h⟩
  | _ => simp [slotsOf] at hx

theorem target_lt {c : Cfg} {op : Op} (ho : op.oneSided = true) (hv : op.valid c = true) :
    op.target < c.size := by
  cases op <;> simp [Op.oneSided] at ho <;> simp [Op.valid] at hv <;> simp [Op.target, hv]

theorem Inv.call_op {c : Cfg} {mem0 : Nat → Nat → Int} {s s' : State} (hc : c.OK) (h : Inv c mem0 s)
    {p : Nat} {op : Op} (ho : op.oneSided = true) (hs : call c s p op = some s') : Inv c mem0 s' := by
  rw [call_oneSided ho] at hs
  split at hs
  case isFalse => simp at hs
  rename_i hpre
  obtain ⟨hi, hv, hp, hu⟩ := hpre
  have hnb : bars [op] = 0 := by cases op <;> simp [Op.oneSided] at ho <;> rfl
  have hmm := hc.master op.target (target_lt ho hv)
  have hop : (calls p s.tr ++ [op])[s.cnt p]? = some op := getElem?_snoc (h.cnt p)
  cases hd : isDirect c p op
  case true =>
    simp only [hd, if_true] at hs
    cases hf : s.flag p (c.master op.target)
    case true =>
      simp only [hf, if_true, Option.some.injEq] at hs
      subst hs
      refine h.calling p op [] hi (fun m => if m = c.master op.target then [⟨s.cnt p, .fence⟩] else [])
        (fun m => if m = c.master op.target then [.ack] else []) (fun _ => []) (.inl rfl)
        ?_ rfl rfl rfl rfl rfl ?_ ?_ ?_ ?_ ?_ ?_ ?_ ?_ ?_ ?_ ?_ ?_ ?_ ?_ ?_ ?_
      · simp [State.goto, State.send]
      · intro q hq
        simp [State.goto, State.send, set1, set2_ne, hq]
      · simp [State.goto, State.send, set1]
      · intro m
        simp only [State.goto, State.send, set2, true_and]
        split
        · rename_i e; subst e; rfl
        · simp
      · intro m
        simp only [State.goto, State.send, set2, true_and]
        split
        · rename_i e; subst e; rfl
        · simp
      · intro m
        split
        · exact runChan_fence
        · rfl
      · intro m x hx
        split at hx <;> simp at hx
        rw [hx]
      · intro m
        simp [State.goto, set1, ctlFx]
      · intro m h1 _
        exact ⟨h1, rfl⟩
      · intro m
        simp only [State.goto, set1, if_true, TailOK]
        intro e
        rw [if_pos e.symm]
        exact .inr ⟨_, _, rfl⟩
      · simp only [State.goto, set1, if_true, CtlOK]
        exact ⟨hop, by simp [h.cnt p], trivial⟩
      · intro m h1
        exact .inl h1
      · intro m sl hsl
        split at hsl <;> simp at hsl
        subst hsl; trivial
      · intro m x hx
        split at hx <;> simp at hx
        subst hx; trivial
      · intro k _ h1 h2
        simp only [State.goto, State.send] at h2
        omega
      · simp [State.goto, State.send, set1, hnb]
      · simp
    case false =>
      simp only [hf, Bool.false_eq_true, if_false, Option.some.injEq] at hs
      subst hs
      refine h.calling p op [] hi (fun m => []) (fun m => []) (fun _ => []) (.inl rfl)
        ?_ rfl rfl rfl rfl rfl ?_ ?_ ?_ ?_ ?_ ?_ ?_ ?_ ?_ ?_ ?_ ?_ ?_ ?_ ?_ ?_
      · simp [State.goto]
      · intro q hq
        simp [State.goto, set1, hq]
      · simp [State.goto, set1]
      · simp [State.goto]
      · simp [State.goto]
      · intro m; rfl
      · intro m x hx; simp at hx
      · intro m
        simp [State.goto, set1, ctlFx]
      · intro m h1 _
        exact ⟨h1, rfl⟩
      · intro m
        simp only [State.goto, set1, if_true, TailOK]
      · simp only [State.goto, set1, if_true, CtlOK]
        exact ⟨hop, by simp [h.cnt p], hf⟩
      · intro m h1
        exact .inl h1
      · intro m sl hsl
        simp at hsl
      · intro m x hx
        simp at hx
      · intro k _ h1 h2
        simp only [State.goto] at h2
        omega
      · simp [State.goto, set1, hnb]
      · simp
  case false =>
    simp only [hd, Bool.false_eq_true, if_false] at hs
    have hs' : s' = { s with
        cnt := set1 s.cnt p (s.cnt p + 1), tr := s.tr ++ [Ev.call p op]
        flag := if setsFlag op then set2 s.flag p (c.master op.target) true else s.flag
        posted := set2 s.posted p (c.master op.target) (s.posted p (c.master op.target) ++ slotsOf (s.cnt p) op)
        chan := set2 s.chan p (c.master op.target) (s.chan p (c.master op.target) ++ msgsOf c (s.cnt p) op)
        ctl := if isRmw op then set1 s.ctl p (.rmw (c.master op.target) (s.cnt p)) else s.ctl } := by
      cases h1 : setsFlag op <;> cases h2 : isRmw op <;>
        simp only [h1, h2, if_true, Bool.false_eq_true, if_false, Option.some.injEq, State.send, State.goto] at hs ⊢ <;>
        exact hs.symm
    clear hs
    subst hs'
    refine h.calling p op [] hi (fun m => if m = c.master op.target then msgsOf c (s.cnt p) op else [])
      (fun m => if m = c.master op.target then slotsOf (s.cnt p) op else [])
      (fun m => if m = c.master op.target then opFx (s.cnt p) op else []) (.inl rfl)
      ?_ rfl rfl rfl rfl rfl ?_ ?_ ?_ ?_ ?_ ?_ ?_ ?_ ?_ ?_ ?_ ?_ ?_ ?_ ?_ ?_
    · simp
    · intro q hq
      refine ⟨?_, ?_, ?_, ?_, ?_, rfl⟩
      · simp [set2_ne, hq]
      · simp [set2_ne, hq]
      · cases setsFlag op <;> simp [set2_ne, hq]
      · cases isRmw op <;> simp [set1, hq]
      · simp [set1, hq]
    · simp [set1]
    · intro m
      simp only [set2, true_and]
      split
      · rename_i e; subst e; rfl
      · simp
    · intro m
      simp only [set2, true_and]
      split
      · rename_i e; subst e; rfl
      · simp
    · intro m
      split
      · exact runChan_msgsOf hc.chunk hv
      · rfl
    · intro m x hx
      split at hx
      · exact msgsOf_tag x hx
      · simp at hx
    · intro m
      have : (ctlFx ((if isRmw op = true then set1 s.ctl p (.rmw (c.master op.target) (s.cnt p)) else s.ctl) p)) = [] := by
        cases isRmw op <;> simp [set1, ctlFx, hi]
      simp only [this, List.filter_nil, List.append_nil]
      split
      · rename_i e; subst e; exact opFx_onM_self
      · rename_i e; exact opFx_onM (Ne.symm e)
    · intro m h1 h2
      simp only at h1 h2 ⊢
      by_cases hm : m = c.master op.target
      · subst hm
        cases e1 : setsFlag op
        · cases e2 : isRmw op
          · simp only [e1, Bool.false_eq_true, if_false] at h1
            refine ⟨h1, ?_⟩
            rw [if_pos rfl]
            cases op <;> simp [Op.oneSided] at ho <;> simp [setsFlag] at e1 <;> simp [isRmw] at e2 <;> rfl
          · exfalso
            refine h2 (s.cnt p) ?_
            simp [e2, set1]
        · simp [e1, set2] at h1
      · rw [if_neg hm]
        refine ⟨?_, rfl⟩
        cases e1 : setsFlag op
        · simpa [e1] using h1
        · simpa [e1, set2, hm] using h1
    · intro m
      cases e2 : isRmw op
      · simp only [Bool.false_eq_true, if_false, hi]; trivial
      · simp only [if_true, set1, TailOK]
        intro e
        rw [if_pos e.symm]
        cases op <;> simp [isRmw] at e2
        · exact .inr ⟨_, _, _, _, .inl rfl⟩
        · exact .inr ⟨_, _, _, _, .inr rfl⟩
    · cases e2 : isRmw op
      · simp only [Bool.false_eq_true, if_false, hi]; trivial
      · simp only [if_true, set1, CtlOK]
        cases op <;> simp [isRmw] at e2
        · exact ⟨_, _, _, .inl hop⟩
        · exact ⟨_, _, _, .inr hop⟩
    · intro m h1
      by_cases hm : m = c.master op.target
      · subst hm; exact .inr hmm
      · left
        cases e1 : setsFlag op
        · simpa [e1] using h1
        · simpa [e1, set2, hm] using h1
    · intro m sl hsl
      split at hsl
      · exact slotsOf_ok hop sl hsl
      · simp at hsl
    · intro m x hx
      split at hx
      · rename_i e; subst e; exact msgsOf_ok hop x hx
      · simp at hx
    · intro k _ h1 h2
      simp only at h2
      omega
    · cases e2 : isRmw op <;> simp [hi, set1, hnb]
    · simp

theorem Inv.call {c : Cfg} {mem0 : Nat → Nat → Int} {s s' : State} (hc : c.OK) (h : Inv c mem0 s)
    {p : Nat} {op : Op} (hs : Comex.call c s p op = some s') : Inv c mem0 s' := by
  cases op with
  | fence r => exact h.call_fence hc hs
  | fenceAll => exact h.call_all (bb := false) hs
  | barrier => exact h.call_all (bb := true) hs
  | wait t => exact h.call_wait hs
  | _ => exact h.call_op hc rfl hs

end GA.Comex
