import Verif.Lemmas.ComexPrefix

/-!
# C17 and C18: fences, barriers and reading one's own writes

All theorems are about every run of the communication layer: any number of processes and servers,
any calls, any schedule of the messages, any of the shared-memory switches. The words used in the
statements (`calls`, `issued`, `appliedBy`, ...) are defined on traces in `Spec.Comm`.
-/

namespace GA.Comex

/-! ## C17 -/

/-- The servers never receive a message they cannot interpret, and the layer's own assertions hold. -/
theorem C17_no_protocol_error (c : Cfg) (hc : c.OK) (mem0 : Nat → Nat → Int) (as : List Act) (s : State)
    (hrun : run c (start mem0) as = some s) : s.err = false :=
  (reach hc hrun).1.err

/-- Memory always is the result of the effects that have happened, in the order they happened. -/
theorem C17_memory (c : Cfg) (hc : c.OK) (mem0 : Nat → Nat → Int) (as : List Act) (s : State)
    (hrun : run c (start mem0) as = some s) (r a : Nat) : s.mem r a = cellVal mem0 (applied s.tr) r a :=
  (reach hc hrun).1.mem r a

private theorem filter_rank {c : Cfg} {m r : Nat} (hm : c.master r = m) (l : List Fx) :
    (l.filter (onM c m)).filter (fun f => decide (f.rank = r)) = l.filter (fun f => decide (f.rank = r)) := by
  rw [List.filter_filter]
  refine List.filter_congr ?_
  intro f _
  by_cases h : f.rank = r
  · simp [onM, h, hm]
  · simp [h]

/-- What happens to a process is what was asked for: at any time the effects a process has had on rank
`r` are among those it asked for, in the same order, each at most once. -/
theorem C17_effects_in_order (c : Cfg) (hc : c.OK) (mem0 : Nat → Nat → Int) (as : List Act) (s : State)
    (hrun : run c (start mem0) as = some s) (p r : Nat) :
    ((appliedBy p s.tr).filter (fun f => decide (f.rank = r))).IsPrefix
      ((issued p s.tr).filter (fun f => decide (f.rank = r))) := by
  obtain ⟨F, R, _, _, h3, _⟩ := ((reach hc hrun).1.pm p (c.master r)).stream
  rw [← filter_rank rfl (appliedBy p s.tr), ← filter_rank rfl (issued p s.tr), ← h3]
  refine List.IsPrefix.filter _ ?_
  rw [List.append_assoc]
  exact List.prefix_append _ _

/-- When a fence towards rank `r` returns, everything the process asked for before on rank `r`, or on
any other rank with the same server, has happened: nothing is missing, and nothing happened twice. -/
theorem C17_fence (c : Cfg) (hc : c.OK) (mem0 : Nat → Nat → Int) (as : List Act) (s : State)
    (hrun : run c (start mem0) as = some s) (pre post : List Ev) (p t r : Nat) (vals : List Int)
    (htr : s.tr = pre ++ .ret p t vals :: post) (hcall : (calls p pre)[t]? = some (.fence r))
    (r' : Nat) (hr' : c.master r' = c.master r) :
    (appliedBy p pre).filter (fun f => decide (f.rank = r')) =
      (issued p pre).filter (fun f => decide (f.rank = r')) := by
  obtain ⟨op, h1, h2⟩ := (reach hc hrun).1.hist pre _ post htr
  rw [hcall] at h1
  simp only [Option.some.injEq] at h1
  subst h1
  rw [← filter_rank hr' (appliedBy p pre), ← filter_rank hr' (issued p pre)]
  exact congrArg _ h2

/-- When a fence towards all processes returns, everything the process asked for before has happened. -/
theorem C17_fence_all (c : Cfg) (hc : c.OK) (mem0 : Nat → Nat → Int) (as : List Act) (s : State)
    (hrun : run c (start mem0) as = some s) (pre post : List Ev) (p t : Nat) (vals : List Int)
    (htr : s.tr = pre ++ .ret p t vals :: post) (hcall : (calls p pre)[t]? = some .fenceAll) (r : Nat) :
    (appliedBy p pre).filter (fun f => decide (f.rank = r)) =
      (issued p pre).filter (fun f => decide (f.rank = r)) := by
  obtain ⟨op, h1, h2⟩ := (reach hc hrun).1.hist pre _ post htr
  rw [hcall] at h1
  simp only [Option.some.injEq] at h1
  subst h1
  rw [← filter_rank rfl (appliedBy p pre), ← filter_rank rfl (issued p pre)]
  exact congrArg _ (h2 (c.master r))

/-- When the `k`-th barrier returns on some process, every process has called it, and everything any
process asked for before its `k`-th barrier has happened. -/
theorem C17_barrier (c : Cfg) (hc : c.OK) (mem0 : Nat → Nat → Int) (as : List Act) (s : State)
    (hrun : run c (start mem0) as = some s) (pre post : List Ev) (p t : Nat) (vals : List Int)
    (htr : s.tr = pre ++ .ret p t vals :: post) (hcall : (calls p pre)[t]? = some .barrier)
    (q : Nat) (hq : q < c.size) (hu : c.user q = true) :
    bars (calls p pre) ≤ bars (calls q pre) ∧
    ∀ r, ((opsFx 0 (beforeBar (bars (calls p pre)) (calls q pre))).filter (fun f => decide (f.rank = r))).IsPrefix
      ((appliedBy q pre).filter (fun f => decide (f.rank = r))) := by
  obtain ⟨op, h1, h2⟩ := (reach hc hrun).1.hist pre _ post htr
  rw [hcall] at h1
  simp only [Option.some.injEq] at h1
  subst h1
  obtain ⟨h3, h4⟩ := h2 q hq hu
  refine ⟨h3, fun r => ?_⟩
  rw [← filter_rank rfl (appliedBy q pre), ← filter_rank rfl (opsFx 0 _)]
  exact (h4 (c.master r)).filter _

/-- Without new calls the system stops after a bounded number of steps, whatever the schedule. -/
theorem C17_terminates (c : Cfg) (hc : c.OK) (mem0 : Nat → Nat → Int) (as : List Act) (s : State)
    (hrun : run c (start mem0) as = some s) :
    ∃ n, ∀ (bs : List Act) (s' : State), (∀ b ∈ bs, ∀ q op, b ≠ .call q op) → run c s bs = some s' →
      bs.length ≤ n := by
  refine ⟨work c s, fun bs s' hb hs => ?_⟩
  have := work_run hc (reach hc hrun).1 (reachPlain hc hrun) hb hs
  omega

/-- And when it has stopped, no process is waiting inside a fence, a read-modify-write, a wait or a
direct access: a process that is not outside the library is in a barrier that some other process has
not entered. So fences, waits and atomic operations always return, and barriers once all have come. -/
theorem C17_no_deadlock (c : Cfg) (hc : c.OK) (mem0 : Nat → Nat → Int) (as : List Act) (s : State)
    (hrun : run c (start mem0) as = some s)
    (hstop : ∀ b, (∀ q op, b ≠ .call q op) → step c s b = none) (p : Nat) (hp : s.ctl p ≠ .idle) :
    (∃ t, (calls p s.tr)[t]? = some .barrier ∧ s.ctl p = .barrier t) ∧
    ∃ q, q < c.size ∧ c.user q = true ∧ bars (calls q s.tr) < bars (calls p s.tr) := by
  obtain ⟨hI, _, _⟩ := reach hc hrun
  have hP := reachPlain hc hrun
  have hno : ∀ q, s.ctl q ≠ .idle → ∃ t, s.ctl q = .barrier t := by
    intro q hq
    by_contra hb
    push Not at hb
    obtain ⟨a, ha, s', hs'⟩ := ctl_progress hI hP hq hb
    rw [hstop a ha] at hs'
    simp at hs'
  obtain ⟨t, ht⟩ := hno p hp
  have hbars : ∀ q, bars (calls q s.tr) = s.bars q := by
    intro q
    rw [hI.barn q]
    by_cases hq : s.ctl q = .idle
    · simp [hq]
    · obtain ⟨t', ht'⟩ := hno q hq
      simp [ht']
  have hctl := hI.ctl p
  rw [ht] at hctl
  refine ⟨⟨t, hctl.1, ht⟩, ?_⟩
  have hst := hstop (.resume p) (by simp)
  simp only [step, resume, ht] at hst
  split at hst
  · simp at hst
  · rename_i hall
    rw [List.all_eq_true] at hall
    push Not at hall
    obtain ⟨q, hq, hlt⟩ := hall
    simp only [Bool.not_eq_true, Bool.or_eq_false_iff, Bool.not_eq_false', decide_eq_false_iff_not,
      Nat.not_le] at hlt
    exact ⟨q, List.mem_range.1 hq, hlt.1, by rw [hbars, hbars]; exact hlt.2⟩

/-! ## C18 -/

/-- Whatever a `get` of process `p` (call number `t`) reads, everything `p` asked for on that rank
with calls before the `get` has happened by then. -/
theorem C18_own_effects_first (c : Cfg) (hc : c.OK) (mem0 : Nat → Nat → Int) (as : List Act) (s : State)
    (hrun : run c (start mem0) as = some s) (pre post : List Ev) (p t r a : Nat) (vals : List Int)
    (htr : s.tr = pre ++ .load p t r a vals :: post) :
    (appliedBy p pre).filter (fun f => decide (f.rank = r ∧ f.tag < t)) =
      (issued p pre).filter (fun f => decide (f.rank = r ∧ f.tag < t)) := by
  obtain ⟨_, _, h3⟩ := (reach hc hrun).1.hist pre _ post htr
  have e : ∀ l : List Fx, l.filter (fun f => decide (f.rank = r ∧ f.tag < t)) =
      ((l.filter (onM c (c.master r))).filter (before t)).filter (fun f => decide (f.rank = r)) := by
    intro l
    rw [List.filter_filter, List.filter_filter]
    refine List.filter_congr ?_
    intro f _
    by_cases h : f.rank = r <;> simp [onM, before, h]
  rw [e, e, h3]

/-- A `get` reads memory as it is at one moment. -/
theorem C18_get_reads_memory (c : Cfg) (hc : c.OK) (mem0 : Nat → Nat → Int) (as : List Act) (s : State)
    (hrun : run c (start mem0) as = some s) (pre post : List Ev) (p t r a : Nat) (vals : List Int)
    (htr : s.tr = pre ++ .load p t r a vals :: post) :
    (calls p pre)[t]? = some (.get r a vals.length) ∧
    ∀ i, i < vals.length → vals[i]? = some (cellVal mem0 (applied pre) r (a + i)) := by
  obtain ⟨h1, h2, _⟩ := (reach hc hrun).1.hist pre _ post htr
  refine ⟨h2, ?_⟩
  have key : ∀ (mem : Nat → Nat → Int) n a i, i < n → (readMem mem r a n)[i]? = some (mem r (a + i)) := by
    intro mem n
    induction n with
    | zero => intro a i h; omega
    | succ n ih =>
      intro a i h
      cases i with
      | zero => simp [readMem]
      | succ i =>
        simp only [readMem, List.getElem?_cons_succ]
        rw [ih (a + 1) i (by omega), show a + 1 + i = a + (i + 1) by omega]
  intro i hi
  rw [h1]
  exact key _ _ _ _ hi

/-- The result handed back by a `get` is what it read before. -/
theorem C18_result (c : Cfg) (hc : c.OK) (mem0 : Nat → Nat → Int) (as : List Act) (s : State)
    (hrun : run c (start mem0) as = some s) (pre post : List Ev) (p t r a len : Nat) (vals : List Int)
    (htr : s.tr = pre ++ .ret p t vals :: post) (hcall : (calls p pre)[t]? = some (.get r a len)) :
    .load p t r a vals ∈ pre := by
  obtain ⟨op, h1, h2⟩ := (reach hc hrun).1.hist pre _ post htr
  rw [hcall] at h1
  simp only [Option.some.injEq] at h1
  subst h1
  exact h2

/-- When waiting for a `get` returns, the `get` has delivered its result. -/
theorem C18_wait (c : Cfg) (hc : c.OK) (mem0 : Nat → Nat → Int) (as : List Act) (s : State)
    (hrun : run c (start mem0) as = some s) (pre post : List Ev) (p t tag r a len : Nat) (vals : List Int)
    (htr : s.tr = pre ++ .ret p tag vals :: post) (hwait : (calls p pre)[tag]? = some (.wait t))
    (hget : (calls p pre)[t]? = some (.get r a len)) : ∃ vs, .ret p t vs ∈ pre ∧ .load p t r a vs ∈ pre := by
  obtain ⟨vs, h⟩ := (reach hc hrun).2.2 pre post p t tag vals htr hwait r a len hget
  refine ⟨vs, h, ?_⟩
  obtain ⟨p1, p2, hp⟩ := List.append_of_mem h
  have htr' : s.tr = p1 ++ .ret p t vs :: (p2 ++ .ret p tag vals :: post) := by rw [htr, hp]; simp
  obtain ⟨op, h1, h2⟩ := (reach hc hrun).1.hist p1 _ _ htr'
  have h1' : (calls p pre)[t]? = some op := by rw [hp, calls_append]; exact getElem?_app h1
  rw [hget] at h1'
  simp only [Option.some.injEq] at h1'
  subst h1'
  rw [hp]
  exact List.mem_append.2 (.inl h2)

private theorem opsFx_sorted {n : Nat} {ops : List Op} : (opsFx n ops).Pairwise (fun f g => f.tag ≤ g.tag) := by
  induction ops generalizing n with
  | nil => simp [opsFx]
  | cons op ops ih =>
    simp only [opsFx]
    rw [List.pairwise_append]
    refine ⟨?_, ih, ?_⟩
    · rw [List.pairwise_iff_getElem]
      intro i j hi hj _
      rw [(opFx_tag (List.getElem_mem hi)).1, (opFx_tag (List.getElem_mem hj)).1]
    · intro f hf g hg
      obtain ⟨i, _, _, h2, _⟩ := opsFx_mem hg
      rw [(opFx_tag hf).1]; omega

private theorem putFx_get {t r a : Nat} {vs : List Int} {i : Nat} {v : Int} (h : vs[i]? = some v) :
    (⟨t, r, a + i, .put v⟩ : Fx) ∈ putFx t r a vs := by
  induction vs generalizing a i with
  | nil => simp at h
  | cons w vs ih =>
    cases i with
    | zero => simp at h; subst h; simp [putFx]
    | succ i =>
      refine List.mem_cons.2 (.inr ?_)
      have := ih (a := a + 1) (i := i) (by simpa using h)
      rwa [show a + 1 + i = a + (i + 1) by omega] at this

private theorem last_split {α} {a : α} {l : List α} (h : a ∈ l) : ∃ u w, l = u ++ a :: w ∧ a ∉ w := by
  induction l with
  | nil => simp at h
  | cons x l ih =>
    by_cases hl : a ∈ l
    · obtain ⟨u, w, h1, h2⟩ := ih hl
      exact ⟨x :: u, w, by rw [h1]; rfl, h2⟩
    · rcases List.mem_cons.1 h with rfl | h
      · exact ⟨[], l, rfl, hl⟩
      · exact absurd h hl

private def appliedBy' (p : Nat) (l : List (Nat × Fx)) : List Fx :=
  (l.filter (fun e => decide (e.1 = p))).map Prod.snd

/-- A process reads its own writes. Process `p` stores `v` in cell `x` of rank `r` with call `t0` and
reads that cell with the later call `t`; none of its calls in between changes the cell. When the
memory is read, the store has happened; the only changes to the cell after it are those of other
processes, and those of calls `p` made after the `get` (which need not have been completed). If there
was no such change the value read is `v`. -/
theorem C18_read_own_write (c : Cfg) (hc : c.OK) (mem0 : Nat → Nat → Int) (as : List Act) (s : State)
    (hrun : run c (start mem0) as = some s) (pre post : List Ev) (p t0 t r a0 a x : Nat) (vs vals : List Int)
    (v : Int) (htr : s.tr = pre ++ .load p t r a vals :: post) (ht : t0 < t)
    (hput : (calls p pre)[t0]? = some (.put r a0 vs)) (hx0 : a0 ≤ x) (hv : vs[x - a0]? = some v)
    (hx : a ≤ x ∧ x < a + vals.length)
    (hlast : ∀ t' op, t0 < t' → t' < t → (calls p pre)[t']? = some op → ∀ f ∈ opFx t' op, ¬ f.touches r x) :
    ∃ u w, applied pre = u ++ (p, ⟨t0, r, x, .put v⟩) :: w ∧
      (∀ e ∈ w, e.2.touches r x → e.1 ≠ p ∨ t < e.2.tag) ∧
      vals[x - a]? = some (w.foldl (fun y e => e.2.on r x y) v) ∧
      ((∀ e ∈ w, ¬ e.2.touches r x) → vals[x - a]? = some v) := by
  have hown := C18_own_effects_first c hc mem0 as s hrun pre post p t r a vals htr
  obtain ⟨hgetc, hread⟩ := C18_get_reads_memory c hc mem0 as s hrun pre post p t r a vals htr
  -- the store was asked for, so it has happened
  have hf0 : (⟨t0, r, x, .put v⟩ : Fx) ∈ putFx t0 r a0 vs := by
    have := putFx_get (t := t0) (r := r) (a := a0) hv
    rwa [show a0 + (x - a0) = x by omega] at this
  have hiss : (⟨t0, r, x, .put v⟩ : Fx) ∈ issued p pre :=
    opsFx_mem_of hput (by simpa [opFx] using hf0)
  have happ : (⟨t0, r, x, .put v⟩ : Fx) ∈ appliedBy p pre := by
    have h1 : (⟨t0, r, x, .put v⟩ : Fx) ∈ (issued p pre).filter (fun f => decide (f.rank = r ∧ f.tag < t)) := by
      simp [List.mem_filter, hiss, ht]
    rw [← hown] at h1
    exact (List.mem_filter.1 h1).1
  have hmem : (p, (⟨t0, r, x, .put v⟩ : Fx)) ∈ applied pre := by
    simp only [appliedBy, List.mem_map, List.mem_filter, decide_eq_true_eq] at happ
    obtain ⟨e, ⟨h1, h2⟩, h3⟩ := happ
    obtain ⟨e1, e2⟩ := e
    simp only at h2 h3
    subst h2 h3
    exact h1
  obtain ⟨u, w, hsplit, hnot⟩ := last_split hmem
  -- its own later changes to the cell come from calls after the `get`
  have hlater : ∀ e ∈ w, e.2.touches r x → e.1 ≠ p ∨ t < e.2.tag := by
    intro e he hto
    by_contra hcon
    push Not at hcon
    obtain ⟨hep, hle⟩ := hcon
    obtain ⟨e1, g⟩ := e
    simp only at hep hle hto
    subst hep
    have hab : appliedBy e1 pre = appliedBy' e1 u ++ ⟨t0, r, x, .put v⟩ :: appliedBy' e1 w := by
      simp [appliedBy, appliedBy', hsplit]
    have hgw : g ∈ appliedBy' e1 w := by
      simp only [appliedBy', List.mem_map, List.mem_filter, decide_eq_true_eq]
      exact ⟨(e1, g), ⟨he, rfl⟩, rfl⟩
    have hpref := C17_effects_in_order c hc mem0 as s hrun e1 r
    rw [htr, appliedBy_append, List.filter_append] at hpref
    replace hpref := (List.prefix_append _ _).trans hpref
    have hgiss : g ∈ issued e1 s.tr := by
      have : g ∈ (appliedBy e1 pre).filter (fun f => decide (f.rank = r)) := by
        rw [List.mem_filter, hab]
        exact ⟨by simp [hgw], by simp [hto.1]⟩
      rw [htr]
      exact (List.mem_filter.1 (hpref.subset this)).1
    obtain ⟨op, hop, hgop⟩ := issued_mem hgiss
    replace hop : (calls e1 pre)[g.tag]? = some op := by
      rw [htr, calls_append] at hop
      have hlen : t < (calls e1 pre).length := by
        by_contra hcon
        rw [List.getElem?_eq_none (by omega)] at hgetc
        simp at hgetc
      rwa [List.getElem?_append_left (by omega)] at hop
    -- order
    have hord : t0 ≤ g.tag := by
      have hs := (opsFx_sorted (n := 0) (ops := calls e1 s.tr)).filter (fun f : Fx => decide (f.rank = r))
      rw [htr] at hs
      have hs' := hs.sublist hpref.sublist
      rw [hab, List.filter_append, List.filter_cons] at hs'
      simp only [decide_true, if_true] at hs'
      have h2 := (List.pairwise_append.1 hs').2.1
      exact (List.pairwise_cons.1 h2).1 g (List.mem_filter.2 ⟨hgw, by simp [hto.1]⟩)
    rcases Nat.lt_or_ge t0 g.tag with h1 | h1
    · rcases Nat.lt_or_ge g.tag t with h2 | h2
      · exact hlast g.tag op h1 h2 hop g hgop hto
      · have : g.tag = t := by omega
        rw [this, hgetc] at hop
        simp only [Option.some.injEq] at hop
        rw [← hop] at hgop
        simp [opFx] at hgop
    · have heq : g.tag = t0 := by omega
      rw [heq, hput] at hop
      simp only [Option.some.injEq] at hop
      rw [← hop] at hgop
      simp only [opFx] at hgop
      obtain ⟨_, h3, i, y, h4, h5, h6⟩ := putFx_mem hgop
      have hi : i = x - a0 := by have := hto.2.1; omega
      rw [hi, hv] at h4
      simp only [Option.some.injEq] at h4
      apply hnot
      have : g = ⟨t0, r, x, .put v⟩ := by
        obtain ⟨g1, g2, g3, g4⟩ := g
        simp only at heq h3 h6
        have := hto.2.1
        simp only at this
        subst heq h3 h6 h4 this
        rfl
      rw [← this]; exact he
  have hval : vals[x - a]? = some (w.foldl (fun y e => e.2.on r x y) v) := by
    rw [hread (x - a) (by omega), show a + (x - a) = x by omega, hsplit]
    simp [cellVal, Fx.on]
  refine ⟨u, w, hsplit, hlater, hval, ?_⟩
  intro hno
  rw [hval]
  have key : ∀ (l : List (Nat × Fx)) (y : Int), (∀ e ∈ l, ¬ e.2.touches r x) →
      l.foldl (fun y e => e.2.on r x y) y = y := by
    intro l
    induction l with
    | nil => intros; rfl
    | cons e l ih =>
      intro y h
      rw [List.foldl_cons]
      have : e.2.on r x y = y := by
        unfold Fx.on
        split
        · rename_i h1
          split
          · rename_i hu; exact absurd ⟨h1.1, h1.2, by rw [hu]; simp⟩ (h e (by simp))
          · rename_i hu; exact absurd ⟨h1.1, h1.2, by rw [hu]; simp⟩ (h e (by simp))
          · rfl
        · rfl
      rw [this]
      exact ih y (fun e' he' => h e' (by simp [he']))
  rw [key w v hno]

/-- If the process waits for the `get` before it makes other calls, only other processes can have
changed the cell in between. -/
theorem C18_blocking_get (c : Cfg) (hc : c.OK) (mem0 : Nat → Nat → Int) (as : List Act) (s : State)
    (hrun : run c (start mem0) as = some s) (pre post : List Ev) (p t0 t r a0 a x : Nat) (vs vals : List Int)
    (v : Int) (htr : s.tr = pre ++ .load p t r a vals :: post) (ht : t0 < t)
    (hput : (calls p pre)[t0]? = some (.put r a0 vs)) (hx0 : a0 ≤ x) (hv : vs[x - a0]? = some v)
    (hx : a ≤ x ∧ x < a + vals.length)
    (hlast : ∀ t' op, t0 < t' → t' < t → (calls p pre)[t']? = some op → ∀ f ∈ opFx t' op, ¬ f.touches r x)
    (hwait : ∀ t' op, t < t' → (calls p pre)[t']? = some op → ∃ u, op = .wait u) :
    ∃ u w, applied pre = u ++ (p, ⟨t0, r, x, .put v⟩) :: w ∧ (∀ e ∈ w, e.2.touches r x → e.1 ≠ p) ∧
      ((∀ e ∈ w, e.1 ≠ p → ¬ e.2.touches r x) → vals[x - a]? = some v) := by
  obtain ⟨u, w, h1, h2, h3, h4⟩ :=
    C18_read_own_write c hc mem0 as s hrun pre post p t0 t r a0 a x vs vals v htr ht hput hx0 hv hx hlast
  have key : ∀ e ∈ w, e.2.touches r x → e.1 ≠ p := by
    intro e he hto hep
    have hlt : t < e.2.tag := (h2 e he hto).resolve_left (by simp [hep])
    -- the effect was asked for by a call made before
    have hin : e.2 ∈ appliedBy p pre := by
      simp only [appliedBy, List.mem_map, List.mem_filter, decide_eq_true_eq]
      exact ⟨e, ⟨by rw [h1]; simp [he], hep⟩, rfl⟩
    have hpre : ∃ op, (calls p pre)[e.2.tag]? = some op ∧ e.2 ∈ opFx e.2.tag op :=
      applied_called hc hrun htr hin
    obtain ⟨op, ho1, ho2⟩ := hpre
    obtain ⟨v, rfl⟩ := hwait _ op hlt ho1
    simp [opFx] at ho2
  refine ⟨u, w, h1, key, fun hno => h4 fun e he hto => hno e he (key e he hto) hto⟩

/-! ## The hypotheses are met

Two nodes with servers 1 and 3, users 0 and 2; process 2 stores directly into its own memory, process
0 sends messages of one cell. -/

private def exCfg : Cfg :=
  { size := 4, master := fun r => if r < 2 then 1 else 3, user := fun r => r == 0 || r == 2,
    putSelf := true, getSelf := true, accSelf := true, putSmp := false, getSmp := true, accSmp := false,
    eager := fun n => n < 2, chunk := 1 }

private def exActs : List Act :=
  [.call 0 (.put 2 5 [7, 8]), .call 2 (.acc 2 5 2 [1]), .direct 2, .call 0 (.get 2 5 2), .serve 3 0,
   .serve 3 0, .call 2 (.put 2 6 [4]), .direct 2, .serve 3 0, .serve 3 0, .call 0 (.wait 1), .recv 0 3,
   .resume 0, .call 0 (.fence 3), .serve 3 0, .recv 0 3, .resume 0, .call 0 .barrier, .call 2 .barrier,
   .resume 0]

private def exPre : List Ev :=
  [.call 0 (.put 2 5 [7, 8]), .call 2 (.acc 2 5 2 [1]), .mem 2 [⟨0, 2, 5, .add 2⟩], .call 0 (.get 2 5 2),
   .mem 0 [], .mem 0 [⟨0, 2, 5, .put 7⟩], .call 2 (.put 2 6 [4]), .mem 2 [⟨1, 2, 6, .put 4⟩],
   .mem 0 [⟨0, 2, 6, .put 8⟩]]

private def exPost1 : List Ev := [.call 0 (.wait 1), .ret 0 1 [7, 8]]

private def exPost2 : List Ev := [.call 0 (.fence 3), .mem 0 []]

private def exPost3 : List Ev := [.call 0 .barrier, .call 2 .barrier]

example : exCfg.OK := by
  refine ⟨by decide, ?_⟩
  intro r hr
  have hr : r < 4 := hr
  simp only [exCfg]
  split <;> simp

/-- the run exists; its trace has the shape asked for by the theorems on `get`, `wait`, `fence` and
`barrier` (calls 1, 2, 3 and 4 of process 0) -/
example : (run exCfg (start fun _ _ => 0) exActs).map (·.tr) =
    some (exPre ++ .load 0 1 2 5 [7, 8] :: (exPost1 ++ .ret 0 2 [] :: (exPost2 ++ .ret 0 3 [] ::
      (exPost3 ++ [.ret 0 4 []])))) := by decide +kernel

example : (calls 0 exPre)[0]? = some (.put 2 5 [7, 8]) ∧ (calls 0 exPre)[1]? = some (.get 2 5 2) ∧
    (calls 0 (exPre ++ exPost1 ++ exPost2))[3]? = some (.fence 3) ∧
    (calls 0 (exPre ++ exPost1 ++ exPost2 ++ exPost3))[4]? = some .barrier := by decide +kernel

/-- both kinds of effects occur: those of process 0 through the server, those of 2 directly -/
example : appliedBy 0 exPre = [⟨0, 2, 5, .put 7⟩, ⟨0, 2, 6, .put 8⟩] ∧
    appliedBy 2 exPre = [⟨0, 2, 5, .add 2⟩, ⟨1, 2, 6, .put 4⟩] := by decide +kernel

/-- a state in which nothing but new calls is possible: process 0 alone in a barrier -/
example : (run exCfg (start fun _ _ => 0) [.call 0 .barrier]).map (fun s => (s.ctl 0, resume exCfg s 0 |>.isSome)) =
    some (.barrier 0, false) := by decide +kernel

end GA.Comex
