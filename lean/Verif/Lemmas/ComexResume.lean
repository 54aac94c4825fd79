import Verif.Lemmas.ComexCall

/-!
# Leaving a wait and direct accesses keep the invariant
-/

namespace GA.Comex

theorem appliedBy_ret {p q t : Nat} {vals : List Int} {tr : List Ev} :
    appliedBy p (tr ++ [.ret q t vals]) = appliedBy p tr := by
  rw [appliedBy_append]
  simp [appliedBy, applied]

/-- A process leaves a wait. -/
theorem Inv.leaving {c : Cfg} {mem0 : Nat → Nat → Int} {s s' : State} (h : Inv c mem0 s) (p : Nat)
    (evs : List Ev) (tag : Nat) (vals : List Int)
    (hret : evs = [] ∨ evs = [.ret p tag vals])
    (htr : s'.tr = s.tr ++ evs) (herr : s'.err = s.err)
    (hmem : s'.mem = s.mem) (hsrc : s'.src = s.src) (hcur : s'.cur = s.cur) (hrep : s'.rep = s.rep)
    (hchan : s'.chan = s.chan) (hposted : s'.posted = s.posted) (hcnt : s'.cnt = s.cnt)
    (hoth : ∀ q, q ≠ p → s'.flag q = s.flag q ∧ s'.ctl q = s.ctl q ∧ s'.bars q = s.bars q)
    (hpm : ∀ m, PM c m (curOf s m p) (s.chan p m) (s.rep p m) (s.posted p m) (s'.flag p m) (s'.ctl p)
      (s.cnt p) (appliedBy p s.tr) (issued p s.tr))
    (hctl : CtlOK c p (calls p s.tr) (s'.flag p) (s'.ctl p))
    (hflag : ∀ m, s'.flag p m = true → s.flag p m = true)
    (hbar : ∀ k, 1 ≤ k → s.bars p < k → k ≤ s'.bars p → BarOK c p k s.tr)
    (hbarn : bars (calls p s.tr) =
      s'.bars p + (match s'.ctl p with | .fencingAll _ _ true => 1 | _ => 0))
    (hev : evs ≠ [] → EvOK c mem0 s.tr (.ret p tag vals)) : Inv c mem0 s' := by
  have hc : ∀ q, calls q s'.tr = calls q s.tr := by
    intro q
    rw [htr, calls_append]
    rcases hret with rfl | rfl <;> simp [calls]
  have hi : issued p s'.tr = issued p s.tr := by unfold issued; rw [hc]
  refine h.client p evs htr ?_ ?_ herr hmem hsrc hcur hrep ?_ ?_ ?_ ?_ ?_ ?_ ?_ ?_ ?_ ?_
  · rcases hret with rfl | rfl <;> rfl
  · intro q hq
    rcases hret with rfl | rfl <;> simp [calls]
  · intro q hq
    rw [hchan, hposted, hcnt]
    exact ⟨rfl, rfl, (hoth q hq).1, (hoth q hq).2.1, rfl, (hoth q hq).2.2⟩
  · intro m
    rw [hchan, hposted, hcnt, hi]
    exact hpm m
  · rw [hc]; exact hctl
  · intro m hm
    exact h.flag p m (hflag m hm)
  · rw [hc, hposted]; exact h.slot p
  · rw [hc, hchan]; exact h.msg p
  · rw [hc, hcnt]; exact h.cnt p
  · intro k h1 h2 h3
    rw [htr]
    refine (hbar k h1 h2 h3).mono ?_
    rw [hbarn]
    omega
  · rw [hc]; exact hbarn
  · rw [htr]
    rcases hret with rfl | rfl
    · simpa using h.hist
    · exact h.hist.snoc (hev (by simp))

theorem Inv.resume {c : Cfg} {mem0 : Nat → Nat → Int} {s s' : State} (h : Inv c mem0 s)
    {p : Nat} (hs : Comex.resume c s p = some s') : Inv c mem0 s' := by
  unfold Comex.resume at hs
  have hct := h.ctl p
  have hbn := h.barn p
  split at hs
  · -- fencing
    rename_i m tag k hk
    split at hs
    · simp at hs
    · rename_i hn
      rw [hk] at hct hbn
      have hempty : s.chan p m = [] := by
        have := h.pm p m
        refine this.fence_empty ?_ hn
        have := this.tail
        rw [hk] at this
        exact this rfl
      -- the stream after the fence
      have key : ∀ m' ctl', (ctlFx ctl').filter (onM c m') = (ctlFx (.fencing m tag k)).filter (onM c m') →
          TailOK m' ctl' (s.chan p m') → (∀ tag, ctl' ≠ .rmw m' tag) →
          PM c m' (curOf s m' p) (s.chan p m') (s.rep p m') (s.posted p m')
            (set2 s.flag p m false p m') ctl' (s.cnt p) (appliedBy p s.tr) (issued p s.tr) := by
        intro m' ctl' h1 h2 h3
        have := h.pm p m'
        rw [hk] at this
        refine this.goto h1 ?_ h2
        intro h4 _ F R h5 _ h6
        by_cases hm : m' = m
        · subst hm
          rw [hempty] at h5
          exact (runChan_nil h5).1
        · refine h6 ?_ (by simp)
          simpa [set2, hm] using h4
      cases k with
      | none =>
        simp only [State.goto, State.log, Option.some.injEq] at hs
        subst hs
        obtain ⟨r, hr1, hr2⟩ := hct
        refine h.leaving p [.ret p tag []] tag [] (.inr rfl) rfl rfl rfl rfl rfl rfl rfl rfl rfl
          ?_ ?_ ?_ ?_ ?_ ?_ ?_
        · intro q hq
          exact ⟨set2_ne hq, by simp [set1, hq], rfl⟩
        · intro m'
          simp only [set1, if_true]
          exact key m' .idle rfl trivial (by simp)
        · simp only [set1, if_true]; trivial
        · intro m' hm
          simp only [set2] at hm
          split at hm <;> simp_all
        · intro k _ h1 h2
          simp only at h2
          omega
        · simp only [set1, if_true] at hbn ⊢
          exact hbn
        · intro _
          refine ⟨.fence r, hr1, ?_⟩
          simp only
          rw [hr2]
          refine (h.pm p m).done ?_ (.inr hempty)
          rw [hk]; rfl
      | some op =>
        simp only [State.goto, Option.some.injEq] at hs
        subst hs
        obtain ⟨hr1, hr2, hr3⟩ := hct
        refine h.leaving p [] tag [] (.inl rfl) (by simp) rfl rfl rfl rfl rfl rfl rfl rfl
          ?_ ?_ ?_ ?_ ?_ ?_ ?_
        · intro q hq
          exact ⟨set2_ne hq, by simp [set1, hq], rfl⟩
        · intro m'
          simp only [set1, if_true]
          exact key m' _ rfl trivial (by simp)
        · simp only [set1, if_true]
          refine ⟨hr1, hr2, ?_⟩
          rw [hr3]; simp [set2]
        · intro m' hm
          simp only [set2] at hm
          split at hm <;> simp_all
        · intro k _ h1 h2
          simp only at h2
          omega
        · simp only [set1, if_true] at hbn ⊢
          exact hbn
        · simp
  · -- fencing all
    rename_i ms tag bb hk
    split at hs
    · simp at hs
    · rename_i hn
      simp only [Bool.not_eq_true, List.any_eq_false, decide_eq_true_eq] at hn
      rw [hk] at hct hbn
      obtain ⟨hr1, hr2⟩ := hct
      have hempty : ∀ m ∈ ms, s.chan p m = [] := by
        intro m hm
        have := h.pm p m
        refine this.fence_empty ?_ (hn m hm)
        have := this.tail
        rw [hk] at this
        exact this hm
      have key : ∀ m' ctl', ctlFx ctl' = [] →
          TailOK m' ctl' (s.chan p m') → (∀ tag, ctl' ≠ .rmw m' tag) →
          PM c m' (curOf s m' p) (s.chan p m') (s.rep p m') (s.posted p m')
            (if m' ∈ ms then false else s.flag p m') ctl' (s.cnt p) (appliedBy p s.tr) (issued p s.tr) := by
        intro m' ctl' h1 h2 h3
        have := h.pm p m'
        rw [hk] at this
        refine this.goto (by rw [h1]; rfl) ?_ h2
        intro h4 _ F R h5 _ h6
        by_cases hm : m' ∈ ms
        · rw [hempty m' hm] at h5
          exact (runChan_nil h5).1
        · refine h6 ?_ (by simp)
          rw [if_neg hm] at h4
          exact h4
      have hdone : ∀ m, (appliedBy p s.tr).filter (onM c m) = (issued p s.tr).filter (onM c m) := by
        intro m
        refine (h.pm p m).done (by rw [hk]; rfl) ?_
        by_cases hm : m ∈ ms
        · exact .inr (hempty m hm)
        · refine .inl ⟨?_, by rw [hk]; simp⟩
          cases hh : s.flag p m with
          | false => rfl
          | true => exact absurd (hr2 m hh) hm
      rw [clearFlags_eq] at hs
      cases bb with
      | true =>
        simp only [if_true, State.goto, Option.some.injEq] at hs hbn
        subst hs
        refine h.leaving p [] tag [] (.inl rfl) (by simp) rfl rfl rfl rfl rfl rfl rfl rfl
          ?_ ?_ ?_ ?_ ?_ ?_ ?_
        · intro q hq
          refine ⟨?_, by simp [set1, hq], by simp [set1, hq]⟩
          funext m; simp [hq]
        · intro m'
          simp only [set1, if_true, true_and]
          exact key m' _ rfl trivial (by simp)
        · simp only [set1, if_true, true_and]
          refine ⟨by simpa using hr1, ?_⟩
          intro m
          simp only
          split
          · rfl
          · rename_i hm
            cases hh : s.flag p m with
            | false => rfl
            | true => exact absurd (hr2 m hh) hm
        · intro m' hm
          simp only at hm
          split at hm <;> simp_all
        · intro k _ _ _
          exact barOK_of_done hdone
        · simp only [set1, if_true]
          exact hbn
        · simp
      | false =>
        simp only [Bool.false_eq_true, if_false, State.goto, State.log, Option.some.injEq] at hs hbn
        subst hs
        refine h.leaving p [.ret p tag []] tag [] (.inr rfl) rfl rfl rfl rfl rfl rfl rfl rfl rfl
          ?_ ?_ ?_ ?_ ?_ ?_ ?_
        · intro q hq
          refine ⟨?_, by simp [set1, hq], rfl⟩
          funext m; simp [hq]
        · intro m'
          simp only [set1, if_true, true_and]
          exact key m' _ rfl trivial (by simp)
        · simp only [set1, if_true]; trivial
        · intro m' hm
          simp only at hm
          split at hm <;> simp_all
        · intro k _ h1 h2
          simp only at h2
          omega
        · simp only [set1, if_true]
          exact hbn
        · intro _
          exact ⟨.fenceAll, by simpa using hr1, hdone⟩
  · -- rmw
    rename_i m tag hk
    split at hs
    · simp at hs
    · rename_i hn
      rw [hk] at hct hbn
      have hempty : s.chan p m = [] := by
        have := h.pm p m
        refine this.rmw_empty ?_ hn
        have := this.tail
        rw [hk] at this
        exact this rfl
      simp only [State.goto, Option.some.injEq] at hs
      subst hs
      refine h.leaving p [] tag [] (.inl rfl) (by simp) rfl rfl rfl rfl rfl rfl rfl rfl
        ?_ ?_ ?_ ?_ ?_ ?_ ?_
      · intro q hq
        exact ⟨rfl, by simp [set1, hq], rfl⟩
      · intro m'
        simp only [set1, if_true]
        have := h.pm p m'
        rw [hk] at this
        refine this.goto rfl ?_ trivial
        intro h4 _ F R h5 _ h6
        by_cases hm : m' = m
        · subst hm
          rw [hempty] at h5
          exact (runChan_nil h5).1
        · exact h6 h4 (by simp [Ne.symm hm])
      · simp only [set1, if_true]; trivial
      · intro m' hm
        exact hm
      · intro k _ h1 h2
        simp only at h2
        omega
      · simp only [set1, if_true] at hbn ⊢
        exact hbn
      · simp
  · -- waiting
    rename_i t tag hk
    split at hs
    · simp at hs
    · rw [hk] at hct hbn
      simp only [State.goto, State.log, Option.some.injEq] at hs
      subst hs
      refine h.leaving p [.ret p tag []] tag [] (.inr rfl) rfl rfl rfl rfl rfl rfl rfl rfl rfl
        ?_ ?_ ?_ ?_ ?_ ?_ ?_
      · intro q hq
        exact ⟨rfl, by simp [set1, hq], rfl⟩
      · intro m'
        simp only [set1, if_true]
        have := h.pm p m'
        rw [hk] at this
        refine this.goto rfl ?_ trivial
        intro h4 _ F R h5 _ h6
        exact h6 h4 (by simp)
      · simp only [set1, if_true]; trivial
      · intro m' hm
        exact hm
      · intro k _ h1 h2
        simp only at h2
        omega
      · simp only [set1, if_true] at hbn ⊢
        exact hbn
      · intro _
        exact ⟨_, hct, trivial⟩
  · -- barrier
    rename_i tag hk
    split at hs
    · rename_i hall
      rw [hk] at hct hbn
      simp only [State.goto, State.log, Option.some.injEq] at hs
      subst hs
      refine h.leaving p [.ret p tag []] tag [] (.inr rfl) rfl rfl rfl rfl rfl rfl rfl rfl rfl
        ?_ ?_ ?_ ?_ ?_ ?_ ?_
      · intro q hq
        exact ⟨rfl, by simp [set1, hq], rfl⟩
      · intro m'
        simp only [set1, if_true]
        have := h.pm p m'
        rw [hk] at this
        refine this.goto rfl ?_ trivial
        intro h4 _ F R h5 _ h6
        exact h6 h4 (by simp)
      · simp only [set1, if_true]; trivial
      · intro m' hm
        exact hm
      · intro k _ h1 h2
        simp only at h2
        omega
      · simp only [set1, if_true] at hbn ⊢
        exact hbn
      · intro _
        refine ⟨_, hct.1, ?_⟩
        intro q hq hu
        simp only [List.all_eq_true, List.mem_range, Bool.or_eq_true, Bool.not_eq_true',
          decide_eq_true_eq] at hall
        have hle : s.bars p ≤ s.bars q := by
          rcases hall q hq with h1 | h1
          · rw [hu] at h1; simp at h1
          · exact h1
        simp only [Nat.add_zero] at hbn
        rw [hbn]
        refine ⟨by rw [h.barn q]; omega, ?_⟩
        by_cases h0 : s.bars p = 0
        · rw [h0]
          intro m
          simp [beforeBar, opsFx]
        · exact h.bar q _ (by omega) hle
    · simp at hs
  · simp at hs

theorem applyFx_cellVal {mem : Nat → Nat → Int} {fx : List Fx} {p r a : Nat} :
    applyFx mem fx r a = cellVal mem (fx.map (fun f => (p, f))) r a := by
  induction fx generalizing mem with
  | nil => rfl
  | cons f fx ih =>
    simp only [applyFx]
    rw [ih]
    simp only [cellVal, List.map_cons, List.foldl_cons]
    congr 1
    unfold Fx.on
    cases f.upd <;> simp only [set2]
    · by_cases h : f.rank = r ∧ f.addr = a
      · rw [if_pos h, if_pos ⟨h.1.symm, h.2.symm⟩]
      · rw [if_neg h, if_neg (fun e => h ⟨e.1.symm, e.2.symm⟩)]
    · by_cases h : f.rank = r ∧ f.addr = a
      · rw [if_pos h, if_pos ⟨h.1.symm, h.2.symm⟩, h.1, h.2]
      · rw [if_neg h, if_neg (fun e => h ⟨e.1.symm, e.2.symm⟩)]
    · simp

theorem readMem_congr {m1 m2 : Nat → Nat → Int} (h : ∀ r a, m1 r a = m2 r a) {r a len : Nat} :
    readMem m1 r a len = readMem m2 r a len := by
  have : m1 = m2 := by funext r a; exact h r a
  rw [this]

theorem readMem_length {mem : Nat → Nat → Int} {r a len : Nat} : (readMem mem r a len).length = len := by
  induction len generalizing a with
  | zero => rfl
  | succ n ih => simp [readMem, ih]

/-- A step that changes memory on behalf of process `p`. -/
theorem Inv.memory {c : Cfg} {mem0 : Nat → Nat → Int} {s s' : State} (h : Inv c mem0 s) (p : Nat)
    (evs : List Ev) (fx : List Fx)
    (htr : s'.tr = s.tr ++ evs) (hap : applied evs = fx.map (fun f => (p, f)))
    (hcalls : ∀ q, calls q evs = []) (herr : s'.err = s.err)
    (hmem : s'.mem = applyFx s.mem fx)
    (hposted : s'.posted = s.posted) (hflag : s'.flag = s.flag) (hcnt : s'.cnt = s.cnt)
    (hbars : s'.bars = s.bars)
    (hoth : ∀ q, q ≠ p → s'.chan q = s.chan q ∧ s'.rep q = s.rep q ∧ s'.ctl q = s.ctl q ∧
      ∀ m, curOf s' m q = curOf s m q)
    (hpm : ∀ m, PM c m (curOf s' m p) (s'.chan p m) (s'.rep p m) (s.posted p m) (s.flag p m)
      (s'.ctl p) (s.cnt p) (appliedBy p s.tr ++ fx) (issued p s.tr))
    (hctl : CtlOK c p (calls p s.tr) (s.flag p) (s'.ctl p))
    (hmsg : ∀ m, ∀ x ∈ s'.chan p m, x ∈ s.chan p m)
    (hrep : ∀ m, ∀ e ∈ s'.rep p m, e ∈ s.rep p m ∨ RepOK p s'.tr e)
    (hbarn : bars (calls p s.tr) =
      s.bars p + (match s'.ctl p with | .fencingAll _ _ true => 1 | _ => 0))
    (hhist : Hist c mem0 s'.tr) : Inv c mem0 s' := by
  have hc : ∀ q, calls q s'.tr = calls q s.tr := by
    intro q; rw [htr, calls_append, hcalls, List.append_nil]
  have hi : ∀ q, issued q s'.tr = issued q s.tr := by
    intro q; unfold issued; rw [hc]
  have ha : ∀ q, appliedBy q s'.tr = appliedBy q s.tr ++ (if q = p then fx else []) := by
    intro q
    rw [htr, appliedBy_append]
    congr 1
    simp only [appliedBy, hap, List.filter_map, List.map_map]
    by_cases hq : q = p
    · subst hq
      simp [Function.comp_def]
    · simp [Function.comp_def, hq, Ne.symm hq]
  refine ⟨by rw [herr]; exact h.err, ?_, ?_, ?_, ?_, ?_, ?_, ?_, ?_, ?_, ?_, hhist⟩
  · intro q m
    rw [hposted, hflag, hcnt, hi, ha]
    by_cases hq : q = p
    · subst hq; rw [if_pos rfl]; exact hpm m
    · obtain ⟨e1, e2, e3, e4⟩ := hoth q hq
      rw [e1, e2, e3, e4, if_neg hq, List.append_nil]
      exact h.pm q m
  · intro q
    rw [hc, hflag]
    by_cases hq : q = p
    · subst hq; exact hctl
    · rw [(hoth q hq).2.2.1]; exact h.ctl q
  · rw [hflag]; exact h.flag
  · intro q; rw [hposted, hc]; exact h.slot q
  · intro q m x hx
    rw [hc]
    by_cases hq : q = p
    · subst hq; exact h.msg q m x (hmsg m x hx)
    · rw [(hoth q hq).1] at hx; exact h.msg q m x hx
  · intro q m e he
    by_cases hq : q = p
    · subst hq
      rcases hrep m e he with h1 | h1
      · rw [htr]; exact (h.rep q m e h1).mono
      · exact h1
    · rw [(hoth q hq).2.1] at he
      rw [htr]; exact (h.rep q m e he).mono
  · intro r a
    rw [hmem, htr, applied_append, hap, cellVal_append, applyFx_cellVal (p := p)]
    simp only [cellVal]
    rw [h.mem r a]
    rfl
  · intro q; rw [hcnt, hc]; exact h.cnt q
  · intro q k h1 h2
    rw [hbars] at h2
    rw [htr]
    refine (h.bar q k h1 h2).mono ?_
    rw [h.barn q]; omega
  · intro q
    rw [hc, hbars]
    by_cases hq : q = p
    · subst hq; exact hbarn
    · rw [(hoth q hq).2.2.1]; exact h.barn q

theorem issued_filter_before {p t : Nat} {tr : List Ev} (ht : (calls p tr).length ≤ t) (l : List Fx)
    (hl : ∀ f ∈ l, f ∈ issued p tr) : l.filter (before t) = l := by
  rw [List.filter_eq_self]
  intro f hf
  obtain ⟨op, h1, _⟩ := issued_mem (hl f hf)
  have := (List.getElem?_eq_some_iff.1 h1).1
  simp only [before, decide_eq_true_eq]
  omega

theorem Inv.direct {c : Cfg} {mem0 : Nat → Nat → Int} {s s' : State} (h : Inv c mem0 s)
    {p : Nat} (hs : Comex.direct s p = some s') : Inv c mem0 s' := by
  have hct := h.ctl p
  have hbn := h.barn p
  -- the store or accumulate
  have main : ∀ tag op, s.ctl p = .direct tag op →
      Inv c mem0 { s with mem := applyFx s.mem (opFx tag op), ctl := set1 s.ctl p .idle,
                          tr := s.tr ++ [.mem p (opFx tag op)] } := by
    intro tag op hk
    rw [hk] at hct hbn
    obtain ⟨hr1, hr2, hr3⟩ := hct
    refine h.memory p [.mem p (opFx tag op)] (opFx tag op) rfl (by simp [applied])
      (by simp [calls]) rfl rfl rfl rfl rfl rfl ?_ ?_ ?_ ?_ ?_ ?_ ?_
    · intro q hq
      exact ⟨rfl, rfl, by simp [set1, hq], fun m => rfl⟩
    · intro m
      simp only [set1, if_true]
      obtain ⟨F, R, e1, e2, e3, e4⟩ := (h.pm p m).stream
      rw [hk] at e3 e4
      refine ⟨⟨F, R, e1, e2, ?_, fun h1 _ => e4 h1 (by simp)⟩, trivial, (h.pm p m).sorted, (h.pm p m).lt⟩
      rw [← e3, List.filter_append]
      simp only [ctlFx, List.filter_nil, List.append_nil]
      by_cases hm : c.master op.target = m
      · subst hm
        rw [e4 hr3 (by simp)]
        simp
      · rw [opFx_onM hm]
        simp
    · simp only [set1, if_true]; trivial
    · intro m x hx; exact hx
    · intro m e he; exact .inl he
    · simp only [set1, if_true]
      exact hbn
    · exact h.hist.snoc trivial
  unfold Comex.direct at hs
  split at hs
  · rename_i tag r a vs hk
    simp only [State.goto, State.log, Option.some.injEq] at hs
    subst hs
    exact main _ _ hk
  · rename_i tag r a sc vs hk
    simp only [State.goto, State.log, Option.some.injEq] at hs
    subst hs
    exact main _ _ hk
  · rename_i tag r a len hk
    simp only [State.goto, State.log, Option.some.injEq] at hs
    subst hs
    rw [hk] at hct hbn
    obtain ⟨hr1, hr2, hr3⟩ := hct
    refine h.memory p [.load p tag r a (readMem s.mem r a len), .ret p tag (readMem s.mem r a len)] []
      rfl rfl (by simp [calls]) rfl rfl rfl rfl rfl rfl ?_ ?_ ?_ ?_ ?_ ?_ ?_
    · intro q hq
      exact ⟨rfl, rfl, by simp [set1, hq], fun m => rfl⟩
    · intro m
      simp only [set1, if_true, List.append_nil]
      have := h.pm p m
      rw [hk] at this
      refine this.goto rfl ?_ trivial
      intro h1 _ F R _ _ h2
      exact h2 h1 (by simp)
    · simp only [set1, if_true]; trivial
    · intro m x hx; exact hx
    · intro m e he; exact .inl he
    · simp only [set1, if_true]
      exact hbn
    · have h1 : Hist c mem0 (s.tr ++ [.load p tag r a (readMem s.mem r a len)]) := by
        refine h.hist.snoc ⟨?_, ?_, ?_⟩
        · rw [readMem_length]; exact readMem_congr h.mem
        · rw [readMem_length]; exact hr1
        · rw [(h.pm p (c.master r)).done (by rw [hk]; rfl) (.inl ⟨hr3, by rw [hk]; simp⟩)]
      have := h1.snoc (e := .ret p tag (readMem s.mem r a len))
        ⟨.get r a len, by rw [calls_append]; exact getElem?_app hr1, by simp⟩
      simpa using this
  · simp at hs

end GA.Comex
