import Verif.Lemmas.TwoSidedFence

/-! # Lemmas on the port over two-sided MPI: barriers and the end -/

namespace GA.TwoSided

open GA.Spec.Rma

variable {M R : Type}

/-! ## all invariants -/

structure AI (n : Nat) (prog : Nat → List (Op M R)) (mem : Nat → M) (s : State M R) : Prop where
  gi : GI n prog s
  mi : MI n prog mem s
  fi : FI n prog s
  pc : ∀ p, p < n → (s.loc p).pc ≤ (prog p).length
  src : ∀ p, p < n → ∀ x ∈ (s.loc p).log, x.1 < n
  gq : ∀ p, p < n → ∀ k ∈ (s.loc p).gq, ∃ q, q < n ∧
    ((∃ r, .get k r ∈ s.chan p q) ∨ (∃ v, .getResp k v ∈ s.chan q p))

theorem lt_of_some {prog : List (Op M R)} {k : Nat} {op : Op M R} (h : prog[k]? = some op) :
    k < prog.length := (List.getElem?_eq_some_iff.1 h).1

theorem own_misc {n me : Nat} {prog : List (Op M R)} {l l' : Loc M R}
    {o : Option (Nat × Msg M R)} (h : Own n me prog l l' o) (hi : LI n me prog l)
    (hpc : l.pc ≤ prog.length) :
    l'.pc ≤ prog.length ∧
    (l'.gq = l.gq ∨ ∃ q r, o = some (q, .get l.pc r) ∧ l'.gq = l.gq ++ [l.pc] ∧ prog[l.pc]? = some (.get q r)) := by
  have hph := hi.phase
  cases h with
  | updSelf f h1 h2 => exact ⟨lt_of_some h2, .inl rfl⟩
  | updRem q f h1 h2 h3 => exact ⟨lt_of_some h2, .inl rfl⟩
  | getSelf f h1 h2 => exact ⟨lt_of_some h2, .inl rfl⟩
  | getRem q f h1 h2 h3 => exact ⟨lt_of_some h2, .inr ⟨q, f, rfl, rfl, h2⟩⟩
  | wait h1 h2 h3 => exact ⟨lt_of_some h2, .inl rfl⟩
  | fenceSkip q h1 h2 h3 => exact ⟨lt_of_some h2, .inl rfl⟩
  | fallSkip h1 h2 h3 => exact ⟨lt_of_some h2, .inl rfl⟩
  | rmwEnd h1 h2 => rw [h1] at hph; obtain ⟨_, _, _, hp⟩ := hph; exact ⟨lt_of_some hp, .inl rfl⟩
  | fenceEnd q h1 h2 => rw [h1] at hph; exact ⟨lt_of_some hph.2, .inl rfl⟩
  | fallwEnd h1 h2 => rw [h1] at hph; exact ⟨lt_of_some (prog := prog) (k := l.pc) hph, .inl rfl⟩
  | bwaitEnd h1 h2 => rw [h1] at hph; exact ⟨lt_of_some hph.1, .inl rfl⟩
  | _ => exact ⟨hpc, .inl rfl⟩

theorem AI.step {n : Nat} {prog : Nat → List (Op M R)} {mem : Nat → M} {s s' : State M R}
    (hv : Valid n prog) (h : AI n prog mem s) (hs : Step n prog s s') : AI n prog mem s' := by
  refine ⟨h.gi.step hv hs, h.mi.step h.gi hs, h.fi.step hv h.gi hs, ?_, ?_, ?_⟩
  · cases hs with
    | own p l o c hp ho hc =>
      intro a ha
      dsimp only
      by_cases e : a = p
      · subst e; rw [set1_same]; exact (own_misc ho (h.gi.li a ha) (h.pc a ha)).1
      · rw [set1_ne _ _ e]; exact h.pc a ha
    | recv p q m rest c hp hq hpc hm hc =>
      intro a ha
      dsimp only
      by_cases e : a = p
      · subst e; rw [set1_same]
        have : (TwoSided.recv q m (s.loc a)).1.pc = (s.loc a).pc := by cases m <;> rfl
        rw [this]; exact h.pc a ha
      · rw [set1_ne _ _ e]; exact h.pc a ha
  · cases hs with
    | own p l o c hp ho hc =>
      intro a ha x hx
      dsimp only at hx
      by_cases e : a = p
      · subst e
        rw [set1_same] at hx
        obtain ⟨A, hA, _⟩ := own_iss ho ha (h.gi.li a ha)
        rw [hA] at hx
        rcases List.mem_append.1 hx with hx | hx
        · exact h.src a ha x hx
        · obtain ⟨y, _, hy⟩ := List.mem_map.1 hx
          rw [← hy]; exact ha
      · rw [set1_ne _ _ e] at hx; exact h.src a ha x hx
    | recv p q m rest c hp hq hpc hm hc =>
      intro a ha x hx
      dsimp only at hx
      by_cases e : a = p
      · subst e
        rw [set1_same, (recv_log (s.loc a)).1] at hx
        rcases List.mem_append.1 hx with hx | hx
        · exact h.src a ha x hx
        · obtain ⟨y, _, hy⟩ := List.mem_map.1 hx
          rw [← hy]; exact hq
      · rw [set1_ne _ _ e] at hx; exact h.src a ha x hx
  · cases hs with
    | own p l o c hp ho hc =>
      have hsub : ∀ a b x, x ∈ s.chan a b → x ∈ c a b := by
        intro a b x hx
        rw [hc]
        split
        · exact List.mem_append_left _ hx
        · exact hx
      intro a ha k hk
      dsimp only at hk ⊢
      have old : k ∈ (s.loc a).gq → ∃ q, q < n ∧
          ((∃ r, .get k r ∈ c a q) ∨ (∃ v, .getResp k v ∈ c q a)) := by
        intro hk
        obtain ⟨q, hq, hx⟩ := h.gq a ha k hk
        rcases hx with ⟨r, hx⟩ | ⟨v, hx⟩
        · exact ⟨q, hq, .inl ⟨r, hsub _ _ _ hx⟩⟩
        · exact ⟨q, hq, .inr ⟨v, hsub _ _ _ hx⟩⟩
      by_cases e : a = p
      · subst e
        rw [set1_same] at hk
        rcases (own_misc ho (h.gi.li a ha) (h.pc a ha)).2 with h1 | ⟨q, r, h1, h2, h3⟩
        · rw [h1] at hk; exact old hk
        · rw [h2] at hk
          rcases List.mem_append.1 hk with hk | hk
          · exact old hk
          · refine ⟨q, hv a ha _ (List.mem_of_getElem? h3) q rfl, .inl ⟨r, ?_⟩⟩
            rw [hc, if_pos rfl, h1, List.mem_singleton.1 hk]
            simp [sent]
      · rw [set1_ne _ _ e] at hk; exact old hk
    | recv p q m rest c hp hq hpc hm hc =>
      have hsub : ∀ a b x, x ∈ s.chan a b → x ∈ c a b ∨ (a = q ∧ b = p ∧ x = m) := by
        intro a b x hx
        rw [hc]
        by_cases e : a = q ∧ b = p
        · rw [if_pos e]
          rw [e.1, e.2, hm] at hx
          rcases List.mem_cons.1 hx with hx | hx
          · exact .inr ⟨e.1, e.2, hx⟩
          · exact .inl (List.mem_append_left _ hx)
        · rw [if_neg e]; exact .inl (List.mem_append_left _ hx)
      intro a ha k hk
      dsimp only at hk ⊢
      have hk2 : k ∈ (s.loc a).gq ∧ (a = p → ∀ v, m ≠ .getResp k v) := by
        by_cases e : a = p
        · subst e
          rw [set1_same] at hk
          cases m with
          | getResp k' v =>
            simp only [TwoSided.recv, List.mem_filter] at hk
            refine ⟨hk.1, fun _ v' hx => ?_⟩
            cases hx
            simp at hk
          | _ => exact ⟨hk, by simp⟩
        · rw [set1_ne _ _ e] at hk; exact ⟨hk, fun x => absurd x e⟩
      obtain ⟨q', hq', hx⟩ := h.gq a ha k hk2.1
      rcases hx with ⟨r, hx⟩ | ⟨v, hx⟩
      · rcases hsub _ _ _ hx with hy | ⟨e1, e2, e3⟩
        · exact ⟨q', hq', .inl ⟨r, hy⟩⟩
        · refine ⟨q', hq', .inr ⟨r (s.loc p).mem, ?_⟩⟩
          rw [hc, ← e3, if_pos (c := q' = p ∧ a = q) ⟨e2, e1⟩]
          simp [TwoSided.recv]
      · rcases hsub _ _ _ hx with hy | ⟨e1, e2, e3⟩
        · exact ⟨q', hq', .inr ⟨v, hy⟩⟩
        · exact absurd e3.symm (hk2.2 e2 v)

theorem AI.exec {n : Nat} {prog : Nat → List (Op M R)} {mem : Nat → M} (hv : Valid n prog) :
    ∀ (sched : List (Nat × Turn)) {s : State M R}, AI n prog mem s →
      AI n prog mem (exec n prog sched s)
  | [], _, h => h
  | t :: ts, s, h => by
      simp only [TwoSided.exec]
      cases hs : TwoSided.step n prog t.1 t.2 s with
      | none => exact AI.exec hv ts h
      | some s' => exact AI.exec hv ts (h.step hv (step_cases hs))

theorem AI.init {n : Nat} {prog : Nat → List (Op M R)} (mem : Nat → M) :
    AI n prog mem (start mem) := by
  refine ⟨⟨fun p hp => ⟨?_, ?_, ?_⟩, ?_, ?_, ?_, ?_, ?_⟩, ⟨?_, ?_, ?_, ?_, ?_⟩, ⟨?_, ?_, ?_, ?_, ?_⟩, ?_, ?_, ?_⟩
  · trivial
  · simp [start, queue]
  · intro q _ _; simp [start, cL, cQ, cR, queue, respTo, bars]
  · intro p q _ _ _; simp [start, cS, cL, sentTo, bars]
  · intro p q _ _ _; simp [start, cR, cT, respTo, inBar, bars]
  · simp [start]
  · intro p q _ _; simp [start, rwt]
  · intro p q _ _; simp [start, fromLog, iss, extra, sentTo]
  · intro p _; rfl
  · simp [start]
  · simp [start]
  · intro p _; exact ⟨by simp [start], by simp [start], by simp [start], by simp [start]⟩
  · simp [start]
  · intro p _; rfl
  · simp [start]
  · intro p q _ _ h; exact absurd h (by simp [start, fsent])
  · intro p _
    rw [sumN_zero]
    · rfl
    · intro x _; rfl
  · simp [start]
  · intro p _; exact Nat.zero_le _
  · simp [start]
  · simp [start]

/-! ## order -/

theorem bars_mono (prog : List (Op M R)) {i j : Nat} (h : i ≤ j) : bars prog i ≤ bars prog j := by
  unfold bars
  have : prog.take i <+: prog.take j := List.take_prefix_take_left h
  exact (List.IsPrefix.filter _ this).length_le

theorem count_none (prog : List (Op M R)) {me q : Nat} (h : q ≠ me) : ∀ m,
    ((List.range m).filterMap (callItem me prog q)).count none = bars prog m
  | 0 => by simp [bars]
  | m + 1 => by
      rw [List.range_succ, List.filterMap_append, List.count_append, count_none prog h m]
      cases hp : prog[m]? with
      | none =>
        have : bars prog (m + 1) = bars prog m := by
          unfold bars
          have hm : prog.length ≤ m := List.getElem?_eq_none_iff.1 hp
          rw [List.take_of_length_le (by omega), List.take_of_length_le hm]
        rw [this]
        simp [callItem, hp]
      | some op =>
        rw [bars_succ hp]
        cases op with
        | upd q' f => by_cases e : q' = q <;> simp [callItem, hp, Op.isBarrier, e]
        | get q' f => by_cases e : q' = q <;> simp [callItem, hp, Op.isBarrier, e]
        | rmw q' f r => by_cases e : q' = q <;> simp [callItem, hp, Op.isBarrier, e]
        | barrier => simp [callItem, hp, Op.isBarrier, h]
        | _ => simp [callItem, hp, Op.isBarrier]

theorem callItem_target {prog : List (Op M R)} {me q k : Nat}
    (h : prog[k]?.bind Op.target = some q) : callItem me prog q k = some (some k) := by
  cases hp : prog[k]? with
  | none => rw [hp] at h; exact absurd h (by simp)
  | some op =>
    rw [hp] at h
    cases op <;> simp [Op.target] at h <;> simp [callItem, hp, h]

theorem sentTo_bar {n me : Nat} {prog : List (Op M R)} {l : Loc M R} (hi : LI n me prog l) {q : Nat}
    (h : sentTo n me l q = true) : prog[l.pc]? = some .barrier := by
  have hph := hi.phase
  unfold sentTo at h
  split at h
  · rename_i e; rw [e] at hph; exact hph.1
  · rename_i e; rw [e] at hph; exact hph.1
  · rename_i e; rw [e] at hph; exact hph.1
  · rename_i e; rw [e] at hph; exact hph.1
  · exact absurd h (by simp)

/-- a process that has sent the request of its `b`-th barrier has made the calls before it -/
theorem reached {n me : Nat} {prog : List (Op M R)} {l : Loc M R} (hi : LI n me prog l) {q b k : Nat}
    (hb : b ≤ cS n me prog l q) (hk : bars prog k < b) (hop : prog[k]? ≠ some .barrier) :
    k < l.pc := by
  apply Classical.byContradiction
  intro hc
  have hle := bars_mono prog (show l.pc ≤ k by omega)
  unfold cS at hb
  cases hs : sentTo n me l q
  · rw [hs] at hb; simp at hb; omega
  · have hbar := sentTo_bar hi hs
    have h1 := bars_succ hbar
    simp [Op.isBarrier] at h1
    rw [hs] at hb
    simp at hb
    have : k ≠ l.pc := by rintro rfl; exact hop hbar
    have := bars_mono prog (show l.pc + 1 ≤ k by omega)
    omega

theorem cL_eq (l : Loc M R) (a : Nat) : cL l a = (fromLog l.log a).count none := by
  unfold cL fromLog
  induction l.log with
  | nil => rfl
  | cons x log ih =>
    obtain ⟨p, k⟩ := x
    rw [List.filterMap_cons, List.count_cons]
    by_cases e : p = a
    · subst e
      cases k <;> simp [ih]
    · have : ¬ (p, k) = (a, none) := by simp [e]
      simp [e, ih]

theorem mem_fromLog {log : List (Nat × Option Nat)} {a : Nat} {x : Option Nat}
    (h : x ∈ fromLog log a) : (a, x) ∈ log := by
  obtain ⟨y, hy, he⟩ := List.mem_filterMap.1 h
  split at he
  · rename_i e
    obtain ⟨y1, y2⟩ := y
    cases he
    dsimp only at e
    rw [← e]; exact hy
  · exact absurd he (by simp)

theorem range_prefix {a : Nat} : ∀ {b : Nat}, a ≤ b → List.range a <+: List.range b
  | 0, h => by rw [Nat.le_zero.1 h]; exact List.prefix_refl _
  | b + 1, h => by
      by_cases e : a = b + 1
      · rw [e]; exact List.prefix_refl _
      · rw [List.range_succ]
        exact (range_prefix (by omega)).trans (List.prefix_append _ _)

/-- the requests before a barrier request that has arrived were carried out -/
theorem logged_before {n : Nat} {prog : Nat → List (Op M R)} {s : State M R} (h : GI n prog s)
    {p q b k : Nat} (hp : p < n) (hq : q < n) (hpq : p ≠ q) (hb : b ≤ cL (s.loc q) p)
    (hk : bars (prog p) k < b) (ht : (prog p)[k]?.bind Op.target = some q) :
    (p, some k) ∈ (s.loc q).log := by
  have hne : (prog p)[k]? ≠ some .barrier := by
    intro e; rw [e] at ht; exact absurd ht (by simp [Op.target])
  have hS := h.bS p q hp hq hpq
  have hkpc := reached (h.li p hp) (q := q) (b := b) (by omega) hk hne
  have hf := h.fifo p q hp hq
  have h1 : fromLog (s.loc q).log p <+: iss n p (prog p) (s.loc p) q := ⟨_, hf⟩
  have h2 : ((List.range k).filterMap (callItem p (prog p) q) ++ [some k]) <+:
      iss n p (prog p) (s.loc p) q := by
    unfold iss
    refine List.IsPrefix.trans ?_ (List.prefix_append _ _)
    have e1 : (List.range k).filterMap (callItem p (prog p) q) ++ [some k] =
        (List.range (k + 1)).filterMap (callItem p (prog p) q) := by
      rw [List.range_succ, List.filterMap_append]
      simp [callItem_target ht]
    rw [e1]
    refine List.IsPrefix.filterMap _ ?_
    exact range_prefix (by omega)
  by_cases hl : (fromLog (s.loc q).log p).length ≤ ((List.range k).filterMap (callItem p (prog p) q)).length
  · exfalso
    have h3 : (List.range k).filterMap (callItem p (prog p) q) <+: iss n p (prog p) (s.loc p) q :=
      (List.prefix_append _ _).trans h2
    have h4 := List.prefix_of_prefix_length_le h1 h3 hl
    have h5 := h4.sublist.count_le none
    rw [count_none _ (fun e => hpq e.symm), ← cL_eq] at h5
    omega
  · have h4 := List.prefix_of_prefix_length_le h2 h1 (by simp; omega)
    exact mem_fromLog (h4.subset (by simp))

/-- requests of a process to itself are carried out before the next call -/
theorem logged_self {n : Nat} {prog : Nat → List (Op M R)} {mem : Nat → M} {s : State M R}
    (h : AI n prog mem s) {p k : Nat} (hp : p < n) (hk : k < (s.loc p).pc)
    (ht : (prog p)[k]?.bind Op.target = some p) : (p, some k) ∈ (s.loc p).log := by
  have hf := h.gi.fifo p p hp hp
  have h1 : some k ∈ iss n p (prog p) (s.loc p) p := by
    unfold iss
    refine List.mem_append_left _ (List.mem_filterMap.2 ⟨k, by simpa using hk, callItem_target ht⟩)
  rw [← hf] at h1
  rcases List.mem_append.1 h1 with h1 | h1
  · exact mem_fromLog h1
  · exfalso
    obtain ⟨m, hm, he⟩ := List.mem_filterMap.1 h1
    have h2 := h.gi.self p hp m hm
    cases m <;> simp [isRmw, isRmwResp] at h2 <;> simp [item] at he
    have := (h.mi.cur p p hp hp).1 _ _ _ hm
    omega

/-- **the barrier**: if a process has completed `b` barriers, all requests before the `b`-th
barrier have arrived everywhere -/
theorem barrier_req {n : Nat} {prog : Nat → List (Op M R)} {s : State M R} (h : GI n prog s)
    {p b : Nat} (hp : p < n) (hb : b ≤ bars (prog p) (s.loc p).pc) {r p' : Nat} (hr : r < n)
    (hp' : p' < n) (hne : p' ≠ r) : b ≤ cL (s.loc r) p' := by
  have hlog := (h.li r hr).logc p' hp' hne
  by_cases e : r = p
  · subst e
    have : bars (prog r) (s.loc r).pc ≤ cR (prog r) (s.loc r) p' := Nat.le_add_right _ _
    omega
  · have h1 := h.bR p r hp hr (fun x => e x.symm)
    have h2 : bars (prog p) (s.loc p).pc ≤ cT (prog p) (s.loc p) r := Nat.le_add_right _ _
    have h3 : b ≤ cR (prog r) (s.loc r) p := by omega
    unfold cR at h3
    have h4 : bars (prog r) (s.loc r).pc ≤ cR (prog r) (s.loc r) p' := Nat.le_add_right _ _
    by_cases h5 : b ≤ bars (prog r) (s.loc r).pc
    · omega
    · have h6 : respTo (s.loc r) p = true := by
        cases hx : respTo (s.loc r) p
        · rw [hx] at h3; simp at h3; omega
        · rfl
      have h7 : bars (prog r) (s.loc r).pc + 1 ≤ cL (s.loc r) p' := by
        have hph := (h.li r hr).phase
        unfold respTo at h6
        split at h6
        · rename_i kept hk
          rw [hk] at hph
          cases hm : (s.loc r).reqm p'
          · have : cR (prog r) (s.loc r) p' = bars (prog r) (s.loc r).pc + 1 := by
              simp [cR, respTo, hk, hm]
            omega
          · have hin := (hph.2.2 p' hm).2
            have : 0 < cQ (s.loc r) p' := by
              unfold cQ
              rw [List.count_pos_iff]
              simp [queue, hk, hin]
            omega
        · rename_i hk
          have : cR (prog r) (s.loc r) p' = bars (prog r) (s.loc r).pc + 1 := by
            simp [cR, respTo, hk]
          omega
        · exact absurd h6 (by simp)
      rw [h6] at h3
      simp at h3
      omega

theorem barrier_logged {n : Nat} {prog : Nat → List (Op M R)} {mem : Nat → M} {s : State M R}
    (h : AI n prog mem s) {p b : Nat} (hp : p < n) (hb : b ≤ bars (prog p) (s.loc p).pc)
    {p' q k : Nat} (hp' : p' < n) (hq : q < n) (hk : bars (prog p') k < b) :
    ((prog p')[k]? ≠ some .barrier → k < (s.loc p').pc) ∧
    ((prog p')[k]?.bind Op.target = some q → (p', some k) ∈ (s.loc q).log) := by
  have h1 : (prog p')[k]? ≠ some .barrier → k < (s.loc p').pc := by
    intro hop
    by_cases e : p' = p
    · subst e
      apply Classical.byContradiction
      intro hc
      have := bars_mono (prog p') (show (s.loc p').pc ≤ k by omega)
      omega
    · have h2 := barrier_req h.gi hp hb hp hp' e
      have h3 := h.gi.bS p' p hp' hp e
      exact reached (h.gi.li p' hp') (q := p) (b := b) (by omega) hk hop
  refine ⟨h1, fun ht => ?_⟩
  by_cases e : p' = q
  · subst e
    refine logged_self h hp' (h1 ?_) ht
    intro x; rw [x] at ht; exact absurd ht (by simp [Op.target])
  · exact logged_before h.gi hp' hq e (barrier_req h.gi hp hb hq hp' e) hk ht

/-! ## the work that is left -/

theorem length_sum : ∀ {n : Nat} (l : List Nat), (∀ x ∈ l, x < n) → l.length = sumN (fun x => l.count x) n
  | n, [], _ => by rw [sumN_zero]; · rfl
                   · intro x _; rfl
  | n, a :: l, h => by
      have h1 : ∀ x, x < n → (a :: l).count x = l.count x + if x = a then 1 else 0 := by
        intro x _
        rw [List.count_cons]
        by_cases e : a = x
        · simp [e]
        · have e' : ¬ x = a := fun y => e y.symm
          simp [e, e']
      rw [sumN_congr h1, sumN_add, sumN_one (h a (by simp)), ← length_sum l fun x hx => h x (List.mem_cons_of_mem _ hx)]
      rfl

theorem sumN_le : ∀ {n : Nat} {f g : Nat → Nat}, (∀ x, x < n → f x ≤ g x) → sumN f n ≤ sumN g n
  | 0, _, _, _ => Nat.le_refl _
  | n + 1, f, g, h => by
      simp only [sumN]
      have := sumN_le (n := n) fun x hx => h x (by omega)
      have := h n (by omega)
      omega

/-- a request of a process is queued once at most -/
theorem queue_once {n : Nat} {prog : Nat → List (Op M R)} {s : State M R} (h : GI n prog s)
    {p q : Nat} (hp : p < n) (hq : q < n) (hne : q ≠ p) : cQ (s.loc p) q ≤ 1 := by
  have h1 := h.bS q p hq hp hne
  have h2 := h.bR q p hq hp hne
  have h3 := (h.li p hp).logc q hq hne
  have h4 : bars (prog q) (s.loc q).pc ≤ cT (prog q) (s.loc q) p := Nat.le_add_right _ _
  have h5 : cS n q (prog q) (s.loc q) p ≤ bars (prog q) (s.loc q).pc + 1 := by
    unfold cS; split <;> omega
  omega

theorem queue_len {n : Nat} {prog : Nat → List (Op M R)} {s : State M R} (h : GI n prog s)
    {p : Nat} (hp : p < n) : (queue (s.loc p)).length < n := by
  have hq := (h.li p hp).que
  rw [length_sum (n := n) _ fun x hx => (hq x hx).1]
  have h1 : ∀ x, x < n → (queue (s.loc p)).count x + (if x = p then 1 else 0) ≤ 1 := by
    intro x hx
    by_cases e : x = p
    · subst e
      have : (queue (s.loc x)).count x = 0 := List.count_eq_zero.2 fun hm => (hq x hm).2 rfl
      rw [this]; simp
    · rw [if_neg e]
      exact queue_once h hp hx e
  have h2 := sumN_le h1
  rw [sumN_add, sumN_one hp] at h2
  have h3 : ∀ n, sumN (fun _ => 1) n = n := by
    intro n
    induction n with
    | zero => rfl
    | succ n ih => simp only [sumN]; omega
  rw [h3] at h2
  omega

def rank (n : Nat) (l : Loc M R) : Nat :=
  match l.ph with
  | .run => 3 * n + 8
  | .rmw => 1
  | .fence _ => 1
  | .fall i => n - i + 2
  | .fallw => 1
  | .bsend i => n - i + 2 * n + 6
  | .bcoll => 2 * n + 5
  | .bresp kept => n - kept.length + countN l.reqm n + 3
  | .bwait => 1

/-- the work a process has left -/
def work (n : Nat) (prog : List (Op M R)) (l : Loc M R) : Nat :=
  (prog.length - l.pc) * (3 * n + 8) + rank n l

theorem countN_clear {b : Nat → Bool} {q : Nat} (hb : b q = true) : ∀ {n : Nat}, q < n →
    countN (set1 b q false) n + 1 = countN b n
  | n + 1, h => by
      simp only [countN]
      by_cases e : q = n
      · subst e
        have : ∀ m, m ≤ q → countN (set1 b q false) m = countN b m := by
          intro m
          induction m with
          | zero => intro _; rfl
          | succ m ih =>
            intro hm
            simp only [countN]
            rw [ih (by omega), set1_ne _ _ (by omega)]
        rw [this q (Nat.le_refl _), set1_same, hb]
        simp
      · have := countN_clear hb (n := n) (by omega)
        rw [set1_ne _ _ (fun x => e x.symm)]
        omega

theorem own_work {n me : Nat} {prog : List (Op M R)} {l l' : Loc M R}
    {o : Option (Nat × Msg M R)} (h : Own n me prog l l' o) (hi : LI n me prog l)
    (hk : (queue l).length < n) : work n prog l' + 1 ≤ work n prog l := by
  have hph := hi.phase
  have hmul : ∀ {op : Op M R}, prog[l.pc]? = some op →
      (prog.length - (l.pc + 1)) * (3 * n + 8) + (3 * n + 8) = (prog.length - l.pc) * (3 * n + 8) := by
    intro op hp
    have := lt_of_some hp
    rw [show prog.length - l.pc = prog.length - (l.pc + 1) + 1 by omega, Nat.add_mul, Nat.one_mul]
  cases h with
  | updSelf f h1 h2 => have := hmul h2; simp only [work, rank, h1]; omega
  | updRem q f h1 h2 h3 => have := hmul h2; simp only [work, rank, h1]; omega
  | getSelf f h1 h2 => have := hmul h2; simp only [work, rank, h1]; omega
  | getRem q f h1 h2 h3 => have := hmul h2; simp only [work, rank, h1]; omega
  | rmw q f r h1 h2 => simp only [work, rank, h1]; omega
  | wait h1 h2 h3 => have := hmul h2; simp only [work, rank, h1]; omega
  | fenceSkip q h1 h2 h3 => have := hmul h2; simp only [work, rank, h1]; omega
  | fence q h1 h2 h3 h4 => simp only [work, rank, h1]; omega
  | fallSkip h1 h2 h3 => have := hmul h2; simp only [work, rank, h1]; omega
  | fall0 h1 h2 => simp only [work, rank, h1]; omega
  | barrier h1 h2 => simp only [work, rank, h1]; omega
  | rmwEnd h1 h2 =>
    rw [h1] at hph
    obtain ⟨_, _, _, hp⟩ := hph
    have := hmul hp; simp only [work, rank, h1]; omega
  | fenceEnd q h1 h2 => rw [h1] at hph; have := hmul hph.2; simp only [work, rank, h1]; omega
  | fallSend i h1 h2 h3 h4 => simp only [work, rank, h1]; omega
  | fallNext i h1 h2 h3 => simp only [work, rank, h1]; omega
  | fallEnd i h1 h2 => simp only [work, rank, h1]; omega
  | fallwEnd h1 h2 => rw [h1] at hph; have := hmul hph; simp only [work, rank, h1]; omega
  | bself i h1 h2 h3 => simp only [work, rank, h1]; omega
  | bsend i h1 h2 h3 => simp only [work, rank, h1]; omega
  | bsendEnd i h1 h2 => simp only [work, rank, h1]; omega
  | bcoll h1 h2 =>
    have := countN_le (set1 (fun q => l.reqm q || l.bq.contains q) me false) n
    simp only [work, rank, h1, List.length_nil]; omega
  | brespYes kept q rest h1 h2 h3 =>
    have hq : q ∈ queue l := by simp [queue, h1, h2]
    have := countN_clear h3 (hi.que q hq).1
    simp only [work, rank, h1]; omega
  | brespKeep kept q rest h1 h2 h3 =>
    have : (queue l).length = kept.length + (rest.length + 1) := by simp [queue, h1, h2]
    simp only [work, rank, h1, List.length_append, List.length_singleton]; omega
  | brespEnd kept h1 h2 h3 => simp only [work, rank, h1]; omega
  | brespAgain kept h1 h2 h3 =>
    exfalso
    rw [h1] at hph
    apply h3
    have : ∀ q, l.reqm q = false := by
      intro q
      cases hr : l.reqm q
      · rfl
      · have := (hph.2.2 q hr).2
        rw [h2] at this
        exact absurd this (by simp)
    exact countN_none (fun q _ => this q)
  | bwaitEnd h1 h2 => rw [h1] at hph; have := hmul hph.1; simp only [work, rank, h1]; omega

/-- an answer weighs less than the request -/
def wt : Msg M R → Nat
  | .getResp .. => 1
  | .rmwResp .. => 1
  | .fresp => 1
  | .bresp => 1
  | _ => 2

def mw (c : List (Msg M R)) : Nat := (c.map wt).sum

def total (n : Nat) (prog : Nat → List (Op M R)) (s : State M R) : Nat :=
  3 * sumN (fun p => work n (prog p) (s.loc p)) n + sumN (fun a => sumN (fun b => mw (s.chan a b)) n) n

theorem mw_append (c d : List (Msg M R)) : mw (c ++ d) = mw c + mw d := by simp [mw]

theorem sumN_set {f g : Nat → Nat} {n p : Nat} (hp : p < n) (h : ∀ x, x ≠ p → f x = g x) :
    sumN f n + g p = sumN g n + f p := by
  have h1 : ∀ x, x < n → f x + (if x = p then g p else 0) = g x + (if x = p then f p else 0) := by
    intro x _
    by_cases e : x = p
    · subst e; simp; omega
    · simp [e, h x e]
  have h2 := sumN_congr h1
  rw [sumN_add, sumN_add, sumN_one hp, sumN_one hp] at h2
  exact h2

theorem sumN_two {n p q v : Nat} (hp : p < n) (hq : q < n) :
    sumN (fun a => sumN (fun b => if a = p ∧ b = q then v else 0) n) n = v := by
  have : ∀ a, a < n → sumN (fun b => if a = p ∧ b = q then v else 0) n = if a = p then v else 0 := by
    intro a _
    by_cases e : a = p
    · simp only [e, true_and, if_true]; exact sumN_one hq
    · simp only [e, false_and, if_false]; exact sumN_zero fun _ _ => rfl
  rw [sumN_congr this, sumN_one hp]

theorem recv_wt {src : Nat} (m : Msg M R) (l : Loc M R) :
    mw (recv src m l).2.toList + 1 ≤ wt m := by
  cases m <;> simp [recv, mw, wt]

theorem total_step {n : Nat} {prog : Nat → List (Op M R)} {s s' : State M R} (hv : Valid n prog)
    (h : GI n prog s) (hs : Step n prog s s') : total n prog s' < total n prog s := by
  cases hs with
  | own p l o c hp ho hc =>
    have h1 := own_work ho (h.li p hp) (queue_len h hp)
    have h2 := sumN_set (f := fun x => work n (prog x) (set1 s.loc p l x)) (g := fun x => work n (prog x) (s.loc x)) hp
      (fun x hx => by rw [set1_ne _ _ hx])
    simp only [set1_same] at h2
    have h3 : sumN (fun a => sumN (fun b => mw (c a b)) n) n ≤ sumN (fun a => sumN (fun b => mw (s.chan a b)) n) n + 2 := by
      match o, ho, hc with
      | none, ho, hc =>
        have : ∀ a, a < n → sumN (fun b => mw (c a b)) n = sumN (fun b => mw (s.chan a b)) n := by
          intro a _
          refine sumN_congr fun b _ => ?_
          rw [hc]; simp [sent]
        rw [sumN_congr this]; omega
      | some (q, m), ho, hc =>
        have hq := (own_sent ho hp (h.li p hp) (hv p hp)).1
        have : ∀ a, a < n → sumN (fun b => mw (c a b)) n = sumN (fun b => mw (s.chan a b)) n +
            sumN (fun b => if a = p ∧ b = q then wt m else 0) n := by
          intro a _
          rw [← sumN_add]
          refine sumN_congr fun b _ => ?_
          rw [hc]
          by_cases e : a = p
          · by_cases e2 : q = b
            · simp [e, e2, sent, mw]
            · have : ¬ b = q := fun x => e2 x.symm
              simp [e, e2, this, sent]
          · simp [e]
        rw [sumN_congr this, sumN_add, sumN_two hp hq]
        have : wt m ≤ 2 := by cases m <;> simp [wt]
        omega
    unfold total
    dsimp only
    omega
  | recv p q m rest c hp hq hpc hm hc =>
    have h1 : ∀ x, work n (prog x) (set1 s.loc p (TwoSided.recv q m (s.loc p)).1 x) = work n (prog x) (s.loc x) := by
      intro x
      by_cases e : x = p
      · subst e
        rw [set1_same]
        cases m <;> rfl
      · rw [set1_ne _ _ e]
    have h3 : ∀ a, a < n → sumN (fun b => mw (c a b)) n + sumN (fun b => if a = q ∧ b = p then wt m else 0) n =
        sumN (fun b => mw (s.chan a b)) n +
          sumN (fun b => if a = p ∧ b = q then mw (TwoSided.recv q m (s.loc p)).2.toList else 0) n := by
      intro a _
      rw [← sumN_add, ← sumN_add]
      refine sumN_congr fun b _ => ?_
      rw [hc, mw_append]
      have e1 : mw (if a = p ∧ b = q then (TwoSided.recv q m (s.loc p)).2.toList else []) =
          if a = p ∧ b = q then mw (TwoSided.recv q m (s.loc p)).2.toList else 0 := by
        split
        · rfl
        · rfl
      rw [e1]
      by_cases e2 : a = q ∧ b = p
      · rw [if_pos e2, if_pos e2]
        have : mw (s.chan a b) = wt m + mw rest := by rw [e2.1, e2.2, hm]; simp [mw]
        omega
      · rw [if_neg e2, if_neg e2]; omega
    have h4 := sumN_congr h3
    rw [sumN_add, sumN_add, sumN_two hq hp, sumN_two hp hq] at h4
    have h5 := recv_wt (src := q) m (s.loc p)
    unfold total
    dsimp only
    rw [sumN_congr fun x _ => h1 x]
    omega

/-! ## no deadlock -/

/-- the last call of every process is a barrier and all call it equally often -/
def Closed (n : Nat) (prog : Nat → List (Op M R)) : Prop :=
  (∀ p, p < n → ∃ pre, prog p = pre ++ [.barrier]) ∧
  ∀ p q, p < n → q < n → bars (prog p) (prog p).length = bars (prog q) (prog q).length

theorem closed_lt {prog pre : List (Op M R)} (h : prog = pre ++ [.barrier]) {m : Nat}
    (hm : m < prog.length) : bars prog m + 1 ≤ bars prog prog.length := by
  have h1 : prog[pre.length]? = some .barrier := by rw [h]; simp
  have h2 : prog.length = pre.length + 1 := by rw [h]; simp
  have h3 := bars_succ h1
  have h4 := bars_mono prog (show m ≤ pre.length by omega)
  rw [h2, h3]
  simp [Op.isBarrier]
  exact h4

theorem exists_min (n : Nat) (f : Nat → Nat) (h : 0 < n) : ∃ p, p < n ∧ ∀ q, q < n → f p ≤ f q := by
  induction n with
  | zero => omega
  | succ n ih =>
    by_cases e : n = 0
    · subst e; exact ⟨0, by omega, fun q hq => by rw [show q = 0 by omega]; exact Nat.le_refl _⟩
    · obtain ⟨p, hp, hm⟩ := ih (by omega)
      by_cases hle : f p ≤ f n
      · refine ⟨p, by omega, fun q hq => ?_⟩
        by_cases e : q = n
        · rw [e]; exact hle
        · exact hm q (by omega)
      · refine ⟨n, by omega, fun q hq => ?_⟩
        by_cases e : q = n
        · rw [e]; exact Nat.le_refl _
        · have := hm q (by omega); omega

/-- where a process can be that has to wait -/
inductive Waits (n : Nat) (prog : List (Op M R)) (l : Loc M R) : Prop
  | fin : l.ph = .run → prog[l.pc]? = none → Waits n prog l
  | wait : l.ph = .run → l.gq ≠ [] → Waits n prog l
  | rmw : l.ph = .rmw → l.notify = true → Waits n prog l
  | fence : 0 < fcnt l → toSend n l = 0 → Waits n prog l
  | bcoll : l.ph = .bcoll → countN (fun q => l.reqm q || l.bq.contains q) n ≠ n → Waits n prog l
  | bwait : l.ph = .bwait → countN (fun q => l.resm q == 1) n ≠ n → Waits n prog l

theorem own_none {n me : Nat} {prog : List (Op M R)} {l : Loc M R} (h : own n me prog l = none) :
    Waits n prog l := by
  unfold own at h
  split at h
  · rename_i hph
    split at h
    · rename_i hp; exact .fin hph hp
    · split at h <;> exact absurd h (by simp)
    · split at h <;> exact absurd h (by simp)
    · exact absurd h (by simp)
    · split at h
      · exact absurd h (by simp)
      · rename_i e; exact .wait hph e
    · split at h <;> exact absurd h (by simp)
    · split at h <;> exact absurd h (by simp)
    · exact absurd h (by simp)
  · rename_i hph
    split at h
    · rename_i e; exact .rmw hph e
    · exact absurd h (by simp)
  · rename_i hph
    split at h
    · rename_i e; exact .fence (by simp [fcnt, hph, e]) (by simp [toSend, hph])
    · exact absurd h (by simp)
  · split at h <;> exact absurd h (by simp)
  · rename_i hph
    split at h
    · rename_i e; exact .fence (by simp [fcnt, hph, e]) (by simp [toSend, hph])
    · exact absurd h (by simp)
  · split at h
    · split at h <;> exact absurd h (by simp)
    · exact absurd h (by simp)
  · rename_i hph
    dsimp only at h
    split at h
    · exact absurd h (by simp)
    · rename_i e; exact .bcoll hph e
  · split at h
    · split at h <;> exact absurd h (by simp)
    · split at h <;> exact absurd h (by simp)
  · rename_i hph
    split at h
    · exact absurd h (by simp)
    · rename_i e; exact .bwait hph e

theorem countN_ne {b : Nat → Bool} {n : Nat} (h : countN b n ≠ n) : ∃ q, q < n ∧ b q = false := by
  apply Classical.byContradiction
  intro hc
  apply h
  refine countN_all fun q hq => ?_
  cases hb : b q
  · exact absurd ⟨q, hq, hb⟩ hc
  · rfl

theorem step_own_none {n : Nat} {prog : Nat → List (Op M R)} {s : State M R} {p : Nat} (hp : p < n)
    (h : step n prog p .own s = none) : own n p (prog p) (s.loc p) = none := by
  unfold step at h
  rw [if_neg (by omega)] at h
  dsimp only at h
  split at h
  · rename_i e; exact e
  · exact absurd h (by simp)
  · exact absurd h (by simp)

theorem step_recv_none {n : Nat} {prog : Nat → List (Op M R)} {s : State M R} {p q : Nat} (hp : p < n)
    (hq : q < n) (hpc : (s.loc p).pc < (prog p).length)
    (h : step n prog p (.recv q) s = none) : s.chan q p = [] := by
  unfold step at h
  rw [if_neg (by omega)] at h
  dsimp only at h
  rw [if_neg (by omega)] at h
  split at h
  · rename_i e; exact e
  · split at h <;> exact absurd h (by simp)

theorem stuck_done {n : Nat} {prog : Nat → List (Op M R)} {mem : Nat → M} {s : State M R}
    (hv : Valid n prog) (hcl : Closed n prog) (h : AI n prog mem s)
    (hst : ∀ p t, p < n → step n prog p t s = none) : Done n prog s := by
  have hw : ∀ p, p < n → Waits n (prog p) (s.loc p) := fun p hp => own_none (step_own_none hp (hst p _ hp))
  have hemp : ∀ p q, p < n → q < n → (s.loc p).pc < (prog p).length → s.chan q p = [] :=
    fun p q hp hq hpc => step_recv_none hp hq hpc (hst p _ hp)
  -- a process that has ended
  by_cases hex : ∃ p, p < n ∧ (s.loc p).pc = (prog p).length
  · obtain ⟨p, hp, hpe⟩ := hex
    obtain ⟨pre, hpre⟩ := hcl.1 p hp
    -- the others are in the last barrier and have answered
    have hlast : ∀ q, q < n → (s.loc q).pc < (prog q).length →
        (s.loc q).ph = .bwait ∧ bars (prog q) (s.loc q).pc + 1 = bars (prog p) (prog p).length := by
      intro q hq hqc
      have hne : q ≠ p := by rintro rfl; omega
      obtain ⟨pre', hpre'⟩ := hcl.1 q hq
      have h1 := closed_lt hpre' hqc
      have h2 := h.gi.bR p q hp hq (fun x => hne x.symm)
      have h3 : bars (prog p) (s.loc p).pc ≤ cT (prog p) (s.loc p) q := Nat.le_add_right _ _
      rw [hpe] at h3
      have h4 := hcl.2 p q hp hq
      unfold cR at h2
      have h5 : respTo (s.loc q) p = true := by
        cases hx : respTo (s.loc q) p
        · rw [hx] at h2; simp at h2; omega
        · rfl
      rw [h5] at h2
      simp at h2
      refine ⟨?_, by omega⟩
      have hwq := hw q hq
      unfold respTo at h5
      split at h5
      · rename_i kept hk
        cases hwq with
        | fin h6 => rw [hk] at h6; exact absurd h6 (by simp)
        | wait h6 => rw [hk] at h6; exact absurd h6 (by simp)
        | rmw h6 => rw [hk] at h6; exact absurd h6 (by simp)
        | fence h6 => simp [fcnt, hk] at h6
        | bcoll h6 => rw [hk] at h6; exact absurd h6 (by simp)
        | bwait h6 => rw [hk] at h6; exact absurd h6 (by simp)
      · rename_i hk; exact hk
      · exact absurd h5 (by simp)
    have hall : ∀ q, q < n → (s.loc q).pc = (prog q).length := by
      intro q hq
      apply Classical.byContradiction
      intro hc
      have hqc : (s.loc q).pc < (prog q).length := by have := h.pc q hq; omega
      obtain ⟨h1, h2⟩ := hlast q hq hqc
      have hr : ∃ r, r < n ∧ (s.loc q).resm r ≠ 1 := by
        cases hw q hq with
        | fin h6 => rw [h1] at h6; exact absurd h6 (by simp)
        | wait h6 => rw [h1] at h6; exact absurd h6 (by simp)
        | rmw h6 => rw [h1] at h6; exact absurd h6 (by simp)
        | fence h6 => simp [fcnt, h1] at h6
        | bcoll h6 => rw [h1] at h6; exact absurd h6 (by simp)
        | bwait h6 h7 =>
          obtain ⟨r, hr, hb⟩ := countN_ne h7
          exact ⟨r, hr, by simpa using hb⟩
      obtain ⟨r, hr, hrr⟩ := hr
      have hph := (h.gi.li q hq).phase
      rw [h1] at hph
      have hne : r ≠ q := by rintro rfl; exact hrr hph.2
      have h3 := h.gi.bR q r hq hr (fun x => hne x.symm)
      rw [hemp q r hq hr hqc] at h3
      simp [cT, inBar, h1] at h3
      have h4 := hcl.2 p r hp hr
      by_cases e : (s.loc r).pc < (prog r).length
      · obtain ⟨h5, h6⟩ := hlast r hr e
        simp [cR, respTo, h5] at h3
        omega
      · have h5 : (s.loc r).pc = (prog r).length := by have := h.pc r hr; omega
        have h6 : respTo (s.loc r) q = false := by
          cases hx : respTo (s.loc r) q
          · rfl
          · exfalso
            have hph := (h.gi.li r hr).phase
            unfold respTo at hx
            split at hx
            · rename_i kept hk
              rw [hk] at hph
              have := lt_of_some hph.1
              omega
            · rename_i hk
              rw [hk] at hph
              have := lt_of_some hph.1
              omega
            · exact absurd hx (by simp)
        simp [cR, h6, h5] at h3
        omega
    intro q hq
    refine ⟨hall q hq, ?_⟩
    have hph := (h.gi.li q hq).phase
    have hnone : ∀ op, (prog q)[(s.loc q).pc]? ≠ some op := by
      intro op hx; have := lt_of_some hx; have := hall q hq; omega
    cases hk : (s.loc q).ph <;> rw [hk] at hph
    · obtain ⟨_, _, _, hx⟩ := hph; exact absurd hx (hnone _)
    · exact absurd hph.2 (hnone _)
    · exact absurd hph (hnone _)
    · exact absurd hph (hnone _)
    · exact absurd hph.1 (hnone _)
    · exact absurd hph.1 (hnone _)
    · exact absurd hph.1 (hnone _)
    · exact absurd hph.1 (hnone _)
  · -- nobody has ended: no messages are on their way
    intro p0 hp0
    exfalso
    have hpc : ∀ p, p < n → (s.loc p).pc < (prog p).length := by
      intro p hp
      have h1 := h.pc p hp
      have h2 : (s.loc p).pc ≠ (prog p).length := fun x => hex ⟨p, hp, x⟩
      omega
    have hch : ∀ p q, p < n → q < n → s.chan p q = [] := fun p q hp hq => hemp q p hq hp (hpc q hq)
    -- everybody is in a barrier
    have hbar : ∀ p, p < n → ((s.loc p).ph = .bcoll ∧ countN (fun q => (s.loc p).reqm q || (s.loc p).bq.contains q) n ≠ n) ∨
        ((s.loc p).ph = .bwait ∧ countN (fun q => (s.loc p).resm q == 1) n ≠ n) := by
      intro p hp
      cases hw p hp with
      | fin h1 h2 =>
        have := List.getElem?_eq_none_iff.1 h2
        have := hpc p hp
        omega
      | wait h1 h2 =>
        obtain ⟨k, hk⟩ := List.exists_mem_of_ne_nil _ h2
        obtain ⟨q, hq, hx⟩ := h.gq p hp k hk
        rw [hch p q hp hq, hch q p hq hp] at hx
        simp at hx
      | rmw h1 h2 =>
        have hph := (h.gi.li p hp).phase
        rw [h1] at hph
        obtain ⟨q, f, r, hx⟩ := hph
        have hq := hv p hp _ (List.mem_of_getElem? hx) q rfl
        have h3 := h.gi.rw p q hp hq
        rw [hch p q hp hq, hch q p hq hp] at h3
        simp [rwt, h1, h2, hx, Op.target] at h3
      | fence h1 h2 =>
        have h3 := h.fi.sum p hp
        rw [sumN_zero] at h3
        · omega
        · intro q hq
          simp [fmsg, hch p q hp hq, hch q p hq hp]
      | bcoll h1 h2 => exact .inl ⟨h1, h2⟩
      | bwait h1 h2 => exact .inr ⟨h1, h2⟩
    have hS : ∀ p q, p < n → q < n → p ≠ q → cS n p (prog p) (s.loc p) q = cQ (s.loc q) p + cR (prog q) (s.loc q) p := by
      intro p q hp hq hpq
      have h1 := h.gi.bS p q hp hq hpq
      rw [hch p q hp hq] at h1
      have h2 := (h.gi.li q hq).logc p hp hpq
      simp at h1
      omega
    have hSv : ∀ p q, p < n → cS n p (prog p) (s.loc p) q = bars (prog p) (s.loc p).pc + 1 := by
      intro p q hp
      rcases hbar p hp with h1 | h1 <;> simp [cS, sentTo, h1.1]
    have hR : ∀ p q, p < n → q < n → p ≠ q → cR (prog q) (s.loc q) p = cT (prog p) (s.loc p) q := by
      intro p q hp hq hpq
      have h1 := h.gi.bR p q hp hq hpq
      rw [hch q p hq hp] at h1
      simpa using h1
    obtain ⟨p, hp, hmin⟩ := exists_min n (fun p => bars (prog p) (s.loc p).pc) (by omega)
    -- a process in its first phase has all requests
    have hnocoll : ∀ p', p' < n → bars (prog p') (s.loc p').pc = bars (prog p) (s.loc p).pc → (s.loc p').ph ≠ .bcoll := by
      intro p' hp' he hk
      rcases hbar p' hp' with h1 | h1
      · obtain ⟨q, hq, hb⟩ := countN_ne h1.2
        have hph := (h.gi.li p' hp').phase
        rw [hk] at hph
        have hqm := hph.2 q
        have hne : q ≠ p' := by
          rintro rfl
          rw [hqm] at hb
          simp at hb
        have hq0 : cQ (s.loc p') q = 0 := by
          unfold cQ
          rw [List.count_eq_zero]
          simp only [queue, hk]
          intro hm
          simp [hm] at hb
        have h2 := hS q p' hq hp' hne
        rw [hSv q p' hq, hq0] at h2
        simp [cR, respTo, hk] at h2
        have := hmin q hq
        omega
      · rw [hk] at h1; exact absurd h1.1 (by simp)
    rcases hbar p hp with h1 | h1
    · exact hnocoll p hp rfl h1.1
    · obtain ⟨q, hq, hb⟩ := countN_ne h1.2
      have hb : (s.loc p).resm q ≠ 1 := by simpa using hb
      have hph := (h.gi.li p hp).phase
      rw [h1.1] at hph
      have hne : q ≠ p := by rintro rfl; exact hb hph.2
      have h2 := hR p q hp hq (fun x => hne x.symm)
      simp [cT, inBar, h1.1] at h2
      have h3 := hS p q hp hq (fun x => hne x.symm)
      rw [hSv p q hp] at h3
      have h4 := hmin q hq
      by_cases e : bars (prog q) (s.loc q).pc = bars (prog p) (s.loc p).pc
      · rcases hbar q hq with h5 | h5
        · exact hnocoll q hq e h5.1
        · simp [cR, respTo, h5.1] at h2
          omega
      · have h5 : bars (prog q) (s.loc q).pc ≤ cR (prog q) (s.loc q) p := Nat.le_add_right _ _
        omega

/-! ## fair schedules -/

/-- the state after the first `t` turns of an infinite schedule -/
def runTo (n : Nat) (prog : Nat → List (Op M R)) (σ : Nat → Nat × Turn) (s : State M R) (t : Nat) :
    State M R := exec n prog ((List.range t).map σ) s

theorem exec_append (n : Nat) (prog : Nat → List (Op M R)) : ∀ (a b : List (Nat × Turn)) (s : State M R),
    exec n prog (a ++ b) s = exec n prog b (exec n prog a s)
  | [], _, _ => rfl
  | t :: a, b, s => by simp only [List.cons_append, exec]; exact exec_append n prog a b _

theorem runTo_succ (n : Nat) (prog : Nat → List (Op M R)) (σ : Nat → Nat × Turn) (s : State M R) (t : Nat) :
    runTo n prog σ s (t + 1) = (step n prog (σ t).1 (σ t).2 (runTo n prog σ s t)).getD (runTo n prog σ s t) := by
  unfold runTo
  rw [List.range_succ, List.map_append, exec_append]
  rfl

theorem fair_done {n : Nat} {prog : Nat → List (Op M R)} {mem : Nat → M} {σ : Nat → Nat × Turn} {s : State M R}
    (hv : Valid n prog) (hcl : Closed n prog)
    (hi : ∀ t, AI n prog mem (runTo n prog σ s t))
    (hfair : ∀ p t, p < n → (∀ q, t = Turn.recv q → q < n) → ∀ i, ∃ j, i ≤ j ∧ σ j = (p, t)) :
    ∀ w t, total n prog (runTo n prog σ s t) = w → ∃ t', t ≤ t' ∧ Done n prog (runTo n prog σ s t') := by
  intro w
  induction w using Nat.strongRecOn with
  | ind w ih =>
    intro t hw
    have h := hi t
    by_cases hst : ∀ p u, p < n → step n prog p u (runTo n prog σ s t) = none
    · exact ⟨t, Nat.le_refl _, stuck_done hv hcl h hst⟩
    · have : ∃ p u, p < n ∧ step n prog p u (runTo n prog σ s t) ≠ none := by
        apply Classical.byContradiction
        intro hc
        exact hst fun p u hp => Classical.byContradiction fun x => hc ⟨p, u, hp, x⟩
      obtain ⟨p, u, hp, hstep⟩ := this
      have hu : ∀ q, u = Turn.recv q → q < n := by
        rintro q rfl
        apply Classical.byContradiction
        intro hc
        apply hstep
        unfold step
        rw [if_neg (by omega)]
        dsimp only
        rw [if_pos (.inl (by omega))]
      obtain ⟨t', ht', hσ⟩ := hfair p u hp hu t
      -- the first turn from t on that changes anything
      have key : ∀ d u', t' = u' + d → runTo n prog σ s u' = runTo n prog σ s t →
          ∃ v, u' ≤ v ∧ total n prog (runTo n prog σ s v) < w := by
        intro d
        induction d with
        | zero =>
          intro u' hu' he
          refine ⟨u' + 1, by omega, ?_⟩
          rw [runTo_succ, he]
          have hu'' : σ u' = (p, u) := by rw [← hσ, hu']; rfl
          rw [hu'']
          cases hs : step n prog p u (runTo n prog σ s t) with
          | none => exact absurd hs hstep
          | some s' =>
            have := total_step hv h.gi (step_cases hs)
            simp only [Option.getD_some]
            omega
        | succ d ihd =>
          intro u' hu' he
          have hsu := runTo_succ n prog σ s u'
          rw [he] at hsu
          cases hs : step n prog (σ u').1 (σ u').2 (runTo n prog σ s t) with
          | none =>
            rw [hs, Option.getD_none] at hsu
            obtain ⟨v, hv1, hv2⟩ := ihd (u' + 1) (by omega) hsu
            exact ⟨v, by omega, hv2⟩
          | some s' =>
            rw [hs, Option.getD_some] at hsu
            have := total_step hv h.gi (step_cases hs)
            exact ⟨u' + 1, by omega, by rw [hsu]; omega⟩
      obtain ⟨v, hv1, hv2⟩ := key (t' - t) t (by omega) rfl
      obtain ⟨t'', h1, h2⟩ := ih _ hv2 v rfl
      exact ⟨t'', by omega, h2⟩

/-! ## the calls carried out -/

theorem iss_calls {n me q : Nat} {prog : List (Op M R)} {l : Loc M R} (hpc : l.pc ≤ prog.length)
    (hi : LI n me prog l) : (iss n me prog l q).filterMap id <+: callsTo prog q := by
  have h0 : ∀ m, ((List.range m).filterMap (callItem me prog q)).filterMap id =
      (List.range m).filter fun k => (prog[k]?.bind Op.target) == some q := by
    intro m
    induction m with
    | zero => rfl
    | succ m ih =>
      rw [List.range_succ, List.filterMap_append, List.filterMap_append, ih, List.filter_append]
      congr 1
      cases hp : prog[m]? with
      | none => simp [callItem, hp]
      | some op =>
        cases op with
        | upd q' f => by_cases e : q' = q <;> simp [callItem, hp, Op.target, e]
        | get q' f => by_cases e : q' = q <;> simp [callItem, hp, Op.target, e]
        | rmw q' f r => by_cases e : q' = q <;> simp [callItem, hp, Op.target, e]
        | barrier => by_cases e : q = me <;> simp [callItem, hp, Op.target, e]
        | _ => simp [callItem, hp, Op.target]
  have hpre : ∀ m, m ≤ prog.length → ((List.range m).filter fun k => (prog[k]?.bind Op.target) == some q) <+: callsTo prog q := by
    intro m hm
    exact List.IsPrefix.filter _ (range_prefix hm)
  unfold iss
  rw [List.filterMap_append, h0]
  by_cases hk : l.ph = .rmw
  · have hph := hi.phase
    rw [hk] at hph
    obtain ⟨q', f, r, hp⟩ := hph
    have h1 := hpre (l.pc + 1) (lt_of_some hp)
    rw [← h0, List.range_succ, List.filterMap_append, List.filterMap_append, h0] at h1
    have h2 : extra n me prog l q = [l.pc].filterMap (callItem me prog q) := by
      cases hc : callItem me prog q l.pc <;> simp [extra, hk, hc, List.filterMap_cons]
    rw [h2]
    exact h1
  · have h2 : (extra n me prog l q).filterMap id = [] := by
      unfold extra
      split
      · rename_i e; exact absurd e hk
      · split <;> rfl
    rw [h2, List.append_nil]
    exact hpre _ hpc

theorem fromLog_calls (log : List (Nat × Option Nat)) (p : Nat) :
    (fromLog log p).filterMap id = ((calls log).filter fun c => c.1 == p).map fun c => c.2 := by
  induction log with
  | nil => rfl
  | cons x log ih =>
    obtain ⟨a, k⟩ := x
    unfold fromLog calls at ih ⊢
    by_cases e : a = p
    · cases k with
      | none => simpa [List.filterMap_cons, e] using ih
      | some k => simpa [List.filterMap_cons, e] using ih
    · cases k with
      | none => simpa [List.filterMap_cons, e] using ih
      | some k => simpa [List.filterMap_cons, e] using ih

end GA.TwoSided
