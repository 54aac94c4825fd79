import Verif.Lemmas.MsgLock

/-! # Lemmas on the mutexes over two-sided MPI: who owns a mutex -/

namespace GA.MsgLock

open GA.Spec.LockUse

/-- the second invariant: requests, grants and owners -/
structure TI (n K : Nat) (prog : Nat → List Call) (s : State) : Prop where
  tok : ∀ p h m, p < n → h < n → TokS prog s p h m
  early : ∀ p h m, p < n → h < n → (s.loc p).pc < 2 → (s.chan p h).filter (isReq m) = []
  rngq : ∀ h, h < n → ∀ e ∈ (s.loc h).lq, e.1 < n
  rngm : ∀ h, h < n → ∀ m p, (s.loc h).mtx m = some p → p < n ∧ m < K

theorem kind_ne {P : List Call} {l : Loc} {x : Mutex} (h : ¬ (l.ph = .lockw ∧ P[l.pc]? = some (.lock x))) :
    kind P l x = if holding (P.take l.pc) x then .hold else .idle := by
  unfold kind; rw [if_neg h]

theorem kind_wait {P : List Call} {l : Loc} {x : Mutex} (h : kind P l x = .wait) :
    l.ph = .lockw ∧ P[l.pc]? = some (.lock x) ∧ l.notify = true := by
  unfold kind at h
  split at h
  · rename_i e
    refine ⟨e.1, e.2, ?_⟩
    cases hn : l.notify
    · simp [hn] at h
    · rfl
  · split at h <;> cases h

theorem hold_early {n K : Nat} {P : List Call} (hs : Shape n K P) {k : Nat} (hk : k ≤ 2) (x : Mutex) :
    holding (P.take k) x = false := by
  have hl := hs.len
  have h0 : P[0]? = some P[0] := List.getElem?_eq_getElem (by omega)
  have h1 : P[1]? = some P[1] := List.getElem?_eq_getElem (by omega)
  have e0 : P[0] = .create K := by
    rcases hs.at' _ _ h0 with ⟨_, h⟩ | ⟨h, _⟩ | ⟨h, _⟩ | ⟨h, _⟩
    · exact h
    · omega
    · omega
    · omega
  have e1 : P[1] = .sync := by
    rcases hs.at' _ _ h1 with ⟨h, _⟩ | ⟨_, h⟩ | ⟨h, _⟩ | ⟨h, _⟩
    · omega
    · exact h
    · omega
    · omega
  have z : holding (P.take 0) x = false := by simp [holding]
  have z1 : holding (P.take 1) x = false := by rw [holding_succ h0, e0]; simpa using z
  match k, hk with
  | 0, _ => exact z
  | 1, _ => exact z1
  | 2, _ => rw [holding_succ h1, e1]; simpa using z1

theorem kind_early {n K : Nat} {P : List Call} (hs : Shape n K P) {l : Loc} (hk : l.pc < 2) (x : Mutex) :
    kind P l x = .idle := by
  rw [kind_ne, hold_early hs (by omega)]
  · rfl
  · rintro ⟨_, h⟩
    rcases hs.at' _ _ h with ⟨_, h⟩ | ⟨_, h⟩ | ⟨h, _⟩ | ⟨_, h⟩
    · cases h
    · cases h
    · omega
    · cases h

theorem early_idle {n K : Nat} {prog : Nat → List Call} {s : State} (hs : ∀ p, p < n → Shape n K (prog p))
    (ht : TI n K prog s) {p h : Nat} (m : Nat) (hp : p < n) (hh : h < n) (he : (s.loc p).pc < 2) :
    (s.loc h).mtx m ≠ some p ∧ ((s.loc h).lq.filter fun e => e.1 == p && e.2.1 == m) = [] := by
  have h1 := ht.tok p h m hp hh
  unfold TokS at h1
  rw [kind_early (hs p hp) he, ht.early p h m hp hh he] at h1
  generalize ho : isOwner (s.loc h) m p = o at h1
  generalize hq : ((s.loc h).lq.filter fun e => e.1 == p && e.2.1 == m) = q at h1
  generalize (s.chan h p).filter (isResp m) = r at h1
  cases h1 with
  | idle => exact ⟨by simpa [isOwner] using ho, rfl⟩

theorem own_noresp {n me : Nat} {P : List Call} {l l' : Loc} {f : Nat → List Msg} (h : Own n me P l l' f)
    (b m : Nat) : (f b).filter (isResp m) = [] := by
  cases h <;> simp [one, isResp] <;> split <;> simp [isResp]

theorem own_mtx {n me : Nat} {P : List Call} {l l' : Loc} {f : Nat → List Msg} (h : Own n me P l l' f) :
    l'.mtx = l.mtx ∨ (∃ K, P[l.pc]? = some (.create K)) ∧ l'.mtx = fun _ => none := by
  cases h <;> first | exact .inl rfl | skip
  rename_i K _ hp
  exact .inr ⟨⟨K, hp⟩, rfl⟩

/-- the state of the pair of a process and a mutex after a turn of the process itself -/
theorem tok_own {n K p h m : Nat} {P : List Call} (hs : Shape n K P) {l l' : Loc} {f : Nat → List Msg}
    (ho : Own n p P l l' f) (hP : Pos K P l) {c : List Msg} {q : List Ent} {o : Bool} {r : List Msg}
    (ht : Tok l.pc m p (kind P l (h, m)) c q o r) :
    Tok l'.pc m p (kind P l' (h, m)) (c ++ (f h).filter (isReq m)) q o r := by
  -- calls that do not concern mutexes
  have plain : ∀ cl, P[l.pc]? = some cl → cl ≠ .lock (h, m) → cl ≠ .unlock (h, m) → l.ph ≠ .lockw →
      l'.ph ≠ .lockw → l'.pc = l.pc + 1 → (f h).filter (isReq m) = [] →
      Tok l'.pc m p (kind P l' (h, m)) (c ++ (f h).filter (isReq m)) q o r := by
    intro cl hc h1 h2 h3 h4 h5 h6
    rw [kind_ne (fun x => h3 x.1)] at ht
    rw [h6, List.append_nil, kind_ne (fun x => h4 x.1), h5, holding_succ hc, if_neg h1, if_neg h2]
    refine ht.pc ?_
    split <;> simp
  have stay : l'.pc = l.pc → l.ph ≠ .lockw → l'.ph ≠ .lockw → (f h).filter (isReq m) = [] →
      Tok l'.pc m p (kind P l' (h, m)) (c ++ (f h).filter (isReq m)) q o r := by
    intro h5 h3 h4 h6
    rw [kind_ne (fun x => h3 x.1)] at ht
    rw [h6, List.append_nil, kind_ne (fun x => h4 x.1), h5]
    exact ht
  cases ho with
  | create K' hph hp =>
    exact plain _ hp (by simp) (by simp) (by simp [hph]) (by simp [hph]) rfl rfl
  | lock x hph hp =>
    by_cases e : x = (h, m)
    · subst e
      have hf : ((one h (.lockReq m l.pc)) h).filter (isReq m) = [.lockReq m l.pc] := by
        simp [one, isReq]
      rw [hf]
      have hk : kind P { l with notify := true, ph := .lockw } (h, m) = .wait := by
        unfold kind; rw [if_pos ⟨rfl, hp⟩]; rfl
      rw [hk]
      rw [kind_ne (by simp [hph])] at ht
      rcases hs.at' _ _ hp with ⟨_, h2⟩ | ⟨_, h2⟩ | ⟨_, _, h2⟩ | ⟨_, h2⟩
      · cases h2
      · cases h2
      · rw [h2.2.2] at ht
        dsimp only at ht ⊢
        cases ht with
        | freed => exact .sent2
        | idle => exact .sent
      · cases h2
    · have hf : ((one x.1 (.lockReq x.2 l.pc)) h).filter (isReq m) = [] := by
        unfold one
        split
        · rename_i e1
          have : ¬ x.2 = m := fun e2 => e (by rw [← e2, e1])
          simp [isReq, this]
        · rfl
      rw [hf, List.append_nil]
      rw [kind_ne (by simp [hph])] at ht
      rw [kind_ne (by rintro ⟨_, h2⟩; dsimp only at h2; rw [hp] at h2; cases h2; exact e rfl)]
      exact ht
  | unlock x hph hp =>
    by_cases e : x = (h, m)
    · subst e
      have hf : ((one h (.unlock m)) h).filter (isReq m) = [.unlock m] := by simp [one, isReq]
      rw [hf]
      rw [kind_ne (by simp [hph])] at ht ⊢
      dsimp only
      rw [holding_succ hp]
      rcases hs.at' _ _ hp with ⟨_, h2⟩ | ⟨_, h2⟩ | ⟨_, _, h2⟩ | ⟨_, h2⟩
      · cases h2
      · cases h2
      · have h3 : holding (P.take l.pc) (h, m) = true := h2
        rw [h3] at ht
        simp only [if_true] at ht
        cases ht with
        | hold => simp; exact .freed
      · cases h2
    · have hf : ((one x.1 (.unlock x.2)) h).filter (isReq m) = [] := by
        unfold one
        split
        · rename_i e1
          have : ¬ x.2 = m := fun e2 => e (by rw [← e2, e1])
          simp [isReq, this]
        · rfl
      exact plain _ hp (by simp) (by simpa using e) (by simp [hph]) (by simp [hph]) rfl hf
  | updS hph hp => exact plain _ hp (by simp) (by simp) (by simp [hph]) (by simp [hph]) rfl rfl
  | upd x hph hp hx =>
    refine plain _ hp (by simp) (by simp) (by simp [hph]) (by simp [hph]) rfl ?_
    unfold one; split <;> simp [isReq]
  | sync hph hp => exact stay rfl (by simp [hph]) (by simp) (by simp [isReq])
  | destroy hph hp => exact stay rfl (by simp [hph]) (by simp) (by simp [isReq])
  | lockw hph hn =>
    unfold Pos at hP
    simp only [hph] at hP
    obtain ⟨⟨x, hx⟩, -⟩ := hP.1
    rw [List.filter_nil, List.append_nil]
    rw [kind_ne (by simp)]
    dsimp only
    by_cases e : x = (h, m)
    · subst e
      unfold kind at ht
      rw [if_pos ⟨hph, hx⟩, hn] at ht
      rw [holding_succ hx]
      simp only [if_true]
      simp only [Bool.false_eq_true, if_false] at ht
      exact ht.pc (by simp)
    · rw [kind_ne (by rintro ⟨_, h2⟩; rw [hx] at h2; cases h2; exact e rfl)] at ht
      have h3 : holding (P.take (l.pc + 1)) (h, m) = holding (P.take l.pc) (h, m) := by
        rw [holding_succ hx]; simp [e]
      rw [h3]
      refine ht.pc ?_
      split <;> simp
  | bar hph hm =>
    have hl := hs.len
    unfold Pos at hP
    simp only [hph] at hP
    have h1 : P[l.pc]? = some P[l.pc] := List.getElem?_eq_getElem (by omega)
    rcases hs.at' _ _ h1 with ⟨h2, h3⟩ | ⟨h2, h3⟩ | ⟨h2, _⟩ | ⟨h2, h3⟩
    · omega
    · exact plain _ h1 (by rw [h3]; simp) (by rw [h3]; simp) (by simp [hph]) (by simp) rfl rfl
    · omega
    · omega
  | barD hph hm => exact stay rfl (by simp [hph]) (by simp) rfl
  | dloop hph hq hm =>
    have hl := hs.len
    unfold Pos at hP
    simp only [hph] at hP
    have h1 : P[l.pc]? = some P[l.pc] := List.getElem?_eq_getElem (by omega)
    rcases hs.at' _ _ h1 with ⟨h2, h3⟩ | ⟨h2, h3⟩ | ⟨h2, h3, _⟩ | ⟨h2, h3⟩
    · omega
    · omega
    · omega
    · exact plain _ h1 (by rw [h3]; simp) (by rw [h3]; simp) (by simp [hph]) (by simp) rfl rfl

theorem create_zero {n K k : Nat} {P : List Call} (hs : Shape n K P) {K' : Nat} (h : P[k]? = some (.create K')) :
    k = 0 ∧ K' = K := by
  rcases hs.at' _ _ h with ⟨h1, h2⟩ | ⟨_, h2⟩ | ⟨_, _, h2⟩ | ⟨_, h2⟩
  · cases h2; exact ⟨h1, rfl⟩
  · cases h2
  · exact absurd h2 (by simp [Legal])
  · cases h2

theorem lock_at {n K k : Nat} {P : List Call} (hs : Shape n K P) {x : Mutex} (h : P[k]? = some (.lock x)) :
    2 ≤ k ∧ k + 1 < P.length ∧ x.1 < n ∧ x.2 < K ∧ holding (P.take k) x = false := by
  rcases hs.at' _ _ h with ⟨h1, h2⟩ | ⟨_, h2⟩ | ⟨h1, h3, h2⟩ | ⟨_, h2⟩
  · cases h2
  · cases h2
  · exact ⟨h1, h3, h2⟩
  · cases h2

theorem unlock_at {n K k : Nat} {P : List Call} (hs : Shape n K P) {x : Mutex} (h : P[k]? = some (.unlock x)) :
    2 ≤ k ∧ k + 1 < P.length ∧ holding (P.take k) x = true := by
  rcases hs.at' _ _ h with ⟨h1, h2⟩ | ⟨_, h2⟩ | ⟨h1, h3, h2⟩ | ⟨_, h2⟩
  · cases h2
  · cases h2
  · exact ⟨h1, h3, h2⟩
  · cases h2

/-- requests are sent by processes that have left the first barrier -/
theorem own_req {n K p : Nat} {P : List Call} (hs : Shape n K P) {l l' : Loc} {f : Nat → List Msg}
    (ho : Own n p P l l' f) (hl : l'.pc < 2) (h m : Nat) : l.pc < 2 ∧ (f h).filter (isReq m) = [] := by
  have hle := (own_arr ho).2.2.2
  refine ⟨by omega, ?_⟩
  cases ho with
  | lock x hph hp => have := lock_at hs hp; dsimp only at hl; omega
  | unlock x hph hp => have := unlock_at hs hp; dsimp only at hl; omega
  | upd q hph hp hq => unfold one; split <;> simp [isReq]
  | _ => simp [isReq]

theorem passOut_req (l : Loc) (b m : Nat) : (passOut l b).filter (isReq m) = [] := by
  unfold passOut
  rw [List.filter_eq_nil_iff]
  intro x hx
  obtain ⟨e, -, rfl⟩ := List.mem_map.1 hx
  simp [isReq]

/-- an entry of the list belongs to a process that waits -/
theorem entry_waits {n K : Nat} {prog : Nat → List Call} {s : State}
    (ht : TI n K prog s) {h : Nat} (hh : h < n) {e : Ent} (he : e ∈ (s.loc h).lq) :
    kind (prog e.1) (s.loc e.1) (h, e.2.1) = .wait ∧ e.2.2 = (s.loc e.1).pc ∧ (s.loc h).mtx e.2.1 ≠ some e.1 := by
  have h1 := ht.tok e.1 h e.2.1 (ht.rngq h hh e he) hh
  unfold TokS at h1
  have hm : e ∈ ((s.loc h).lq.filter fun e' => e'.1 == e.1 && e'.2.1 == e.2.1) := by simp [he]
  generalize ho : isOwner (s.loc h) e.2.1 e.1 = o at h1
  generalize hq : ((s.loc h).lq.filter fun e' => e'.1 == e.1 && e'.2.1 == e.2.1) = q at h1 hm
  generalize (s.chan h e.1).filter (isResp e.2.1) = r at h1
  generalize (s.chan e.1 h).filter (isReq e.2.1) = c at h1
  generalize hk : kind (prog e.1) (s.loc e.1) (h, e.2.1) = kd at h1
  cases h1 with
  | queued =>
    simp at hm
    refine ⟨rfl, by rw [hm], by simpa [isOwner] using ho⟩
  | sent => cases hm
  | sent2 => cases hm
  | granted => cases hm
  | hold => cases hm
  | freed => cases hm
  | idle => cases hm

/-- a process that serves a request has created its mutexes -/
theorem num_served {n K : Nat} {prog : Nat → List Call} {s : State} (hs : ∀ p, p < n → Shape n K (prog p)) (hb : BI n K prog s) {p h : Nat}
    (hp : p < n) (hh : h < n) (h2 : 2 ≤ (s.loc p).pc) (hl : (s.loc h).pc < (prog h).length) :
    (s.loc h).num = K ∧ 0 < (s.loc h).pc := by
  have h1 := hb.g1 p h hp hh h2
  have h3 := hb.pos h hh
  unfold Pos at h3
  have h4 : 0 < (s.loc h).pc := by
    apply Classical.byContradiction
    intro hc
    have h5 := h3.1
    have hlen := (hs h hh).len
    cases hph : (s.loc h).ph <;> simp only [hph] at h5 <;> omega
  refine ⟨?_, h4⟩
  rw [h3.2, if_pos ⟨h4, hl⟩]

theorem entries_ok {n K : Nat} {prog : Nat → List Call} {s : State} (hs : ∀ p, p < n → Shape n K (prog p))
    (hb : BI n K prog s) (ht : TI n K prog s) {h : Nat} (hh : h < n) (hl : (s.loc h).pc < (prog h).length) :
    ∀ e ∈ (s.loc h).lq, e.2.1 < (s.loc h).num ∧ (s.loc h).num = K := by
  intro e he
  obtain ⟨hk, -⟩ := entry_waits ht hh he
  have hr := ht.rngq h hh e he
  obtain ⟨-, h1, -⟩ := kind_wait hk
  obtain ⟨h2, -, -, h3, -⟩ := lock_at (hs _ hr) h1
  have h4 := (num_served hs hb hr hh h2 hl).1
  exact ⟨by omega, h4⟩

theorem TI.step {n K : Nat} {prog : Nat → List Call} {s s' : State} (hs : ∀ p, p < n → Shape n K (prog p))
    (hb : BI n K prog s) (ht : TI n K prog s) (st : Step n prog s s') : TI n K prog s' := by
  cases st with
  | own p0 l f hp0 ho =>
    obtain ⟨-, -, hlq, -⟩ := own_arr ho
    have hlq' : ∀ h, (set1 s.loc p0 l h).lq = (s.loc h).lq := by
      intro h
      by_cases e : h = p0
      · subst e; rw [set1_same, hlq]
      · rw [set1_ne _ _ e]
    have hmt : ∀ h m p, h < n → p < n → ((set1 s.loc p0 l h).mtx m = some p ↔ (s.loc h).mtx m = some p) := by
      intro h m p hh hp
      by_cases e : h = p0
      · subst e
        rw [set1_same]
        rcases own_mtx ho with e1 | ⟨⟨K', hc⟩, e1⟩
        · rw [e1]
        · rw [e1]
          have h0 := (create_zero (hs h hh) hc).1
          have h2 : (s.loc p).pc < 2 := by
            apply Classical.byContradiction
            intro hc2
            have h3 := hb.g1 p h hp hh (by omega)
            have h4 := (hb.pos h hh).1
            have hlen := (hs h hh).len
            cases hph : (s.loc h).ph <;> simp only [hph] at h4 <;> omega
          have := (early_idle hs ht m hp hh h2).1
          simp [this]
      · rw [set1_ne _ _ e]
    refine ⟨?_, ?_, ?_, ?_⟩
    · intro p h m hp hh
      have h1 := ht.tok p h m hp hh
      unfold TokS at h1 ⊢
      dsimp only
      rw [hlq', show isOwner (set1 s.loc p0 l h) m p = isOwner (s.loc h) m p from
        decide_eq_decide.2 (hmt h m p hh hp)]
      have hr : (send s.chan p0 f h p).filter (isResp m) = (s.chan h p).filter (isResp m) := by
        by_cases e : h = p0
        · subst e; rw [send_eq, List.filter_append, own_noresp ho, List.append_nil]
        · rw [send_ne _ _ _ e]
      rw [hr]
      by_cases e : p = p0
      · subst e
        rw [set1_same, send_eq, List.filter_append]
        exact tok_own (hs p hp) ho (hb.pos p hp) h1
      · rw [set1_ne _ _ e, send_ne _ _ _ e]; exact h1
    · intro p h m hp hh hpc
      dsimp only at hpc ⊢
      by_cases e : p = p0
      · subst e
        rw [set1_same] at hpc
        obtain ⟨h1, h2⟩ := own_req (hs p hp) ho hpc h m
        rw [send_eq, List.filter_append, h2, ht.early p h m hp hh h1]; rfl
      · rw [set1_ne _ _ e] at hpc
        rw [send_ne _ _ _ e]
        exact ht.early p h m hp hh hpc
    · intro h hh e he
      dsimp only at he
      rw [hlq'] at he
      exact ht.rngq h hh e he
    · intro h hh m p hm
      dsimp only at hm
      by_cases e : h = p0
      · subst e
        rw [set1_same] at hm
        rcases own_mtx ho with e1 | ⟨-, e1⟩
        · rw [e1] at hm; exact ht.rngm h hh m p hm
        · rw [e1] at hm; cases hm
      · rw [set1_ne _ _ e] at hm; exact ht.rngm h hh m p hm
  | recv p0 q0 msg rest hp0 hq0 hpc hm =>
    have hpcs : ∀ r, (set1 s.loc p0 (MsgLock.recv q0 msg (s.loc p0)) r).pc = (s.loc r).pc := by
      intro r
      by_cases e : r = p0
      · subst e; rw [set1_same]; exact (recv_same q0 msg _).2.1
      · rw [set1_ne _ _ e]
    have hearly : ∀ p h m, p < n → h < n → (set1 s.loc p0 (MsgLock.recv q0 msg (s.loc p0)) p).pc < 2 →
        (pop s.chan q0 p0 p h).filter (isReq m) = [] := by
      intro p h m hp hh hlt
      rw [hpcs] at hlt
      have h1 := ht.early p h m hp hh hlt
      by_cases e : p = q0 ∧ h = p0
      · obtain ⟨rfl, rfl⟩ := e
        rw [pop_eq _ _ _ hm]
        rw [hm] at h1
        rw [List.filter_cons] at h1
        split at h1
        · cases h1
        · exact h1
      · rw [pop_ne _ e]; exact h1
    -- the filters that a message does not concern
    have hc : ∀ p h m, ¬ (p = q0 ∧ h = p0 ∧ isReq m msg = true) →
        (pop s.chan q0 p0 p h).filter (isReq m) = (s.chan p h).filter (isReq m) := by
      intro p h m hx
      by_cases e : p = q0 ∧ h = p0
      · obtain ⟨rfl, rfl⟩ := e
        rw [pop_eq _ _ _ hm, hm, List.filter_cons, if_neg (fun y => hx ⟨rfl, rfl, y⟩)]
      · rw [pop_ne _ e]
    have hr : ∀ p h m, ¬ (h = q0 ∧ p = p0 ∧ isResp m msg = true) →
        (pop s.chan q0 p0 h p).filter (isResp m) = (s.chan h p).filter (isResp m) := by
      intro p h m hx
      by_cases e : h = q0 ∧ p = p0
      · obtain ⟨rfl, rfl⟩ := e
        rw [pop_eq _ _ _ hm, hm, List.filter_cons, if_neg (fun y => hx ⟨rfl, rfl, y⟩)]
      · rw [pop_ne _ e]
    cases msg with
    | mark =>
      have hl : ∀ r, (set1 s.loc p0 (MsgLock.recv q0 .mark (s.loc p0)) r).lq = (s.loc r).lq ∧
          (set1 s.loc p0 (MsgLock.recv q0 .mark (s.loc p0)) r).mtx = (s.loc r).mtx ∧
          ∀ P x, kind P (set1 s.loc p0 (MsgLock.recv q0 .mark (s.loc p0)) r) x = kind P (s.loc r) x := by
        intro r
        by_cases e : r = p0
        · subst e; rw [set1_same]; exact ⟨rfl, rfl, fun _ _ => rfl⟩
        · rw [set1_ne _ _ e]; exact ⟨rfl, rfl, fun _ _ => rfl⟩
      refine ⟨?_, hearly, ?_, ?_⟩
      · intro p h m hp hh
        have h1 := ht.tok p h m hp hh
        unfold TokS at h1 ⊢
        dsimp only
        rw [hpcs, (hl p).2.2, (hl h).1, isOwner_eq (congrFun (hl h).2.1 m), hc p h m (by simp [isReq]), hr p h m (by simp [isResp])]
        exact h1
      · intro h hh; dsimp only; rw [(hl h).1]; exact ht.rngq h hh
      · intro h hh; dsimp only; rw [(hl h).2.1]; exact ht.rngm h hh
    | upd k =>
      have hl : ∀ r, (set1 s.loc p0 (MsgLock.recv q0 (.upd k) (s.loc p0)) r).lq = (s.loc r).lq ∧
          (set1 s.loc p0 (MsgLock.recv q0 (.upd k) (s.loc p0)) r).mtx = (s.loc r).mtx ∧
          ∀ P x, kind P (set1 s.loc p0 (MsgLock.recv q0 (.upd k) (s.loc p0)) r) x = kind P (s.loc r) x := by
        intro r
        by_cases e : r = p0
        · subst e; rw [set1_same]; exact ⟨rfl, rfl, fun _ _ => rfl⟩
        · rw [set1_ne _ _ e]; exact ⟨rfl, rfl, fun _ _ => rfl⟩
      refine ⟨?_, hearly, ?_, ?_⟩
      · intro p h m hp hh
        have h1 := ht.tok p h m hp hh
        unfold TokS at h1 ⊢
        dsimp only
        rw [hpcs, (hl p).2.2, (hl h).1, isOwner_eq (congrFun (hl h).2.1 m), hc p h m (by simp [isReq]), hr p h m (by simp [isResp])]
        exact h1
      · intro h hh; dsimp only; rw [(hl h).1]; exact ht.rngq h hh
      · intro h hh; dsimp only; rw [(hl h).2.1]; exact ht.rngm h hh
    | lockReq m0 k0 =>
      have hl : ∀ r, (set1 s.loc p0 (MsgLock.recv q0 (.lockReq m0 k0) (s.loc p0)) r).mtx = (s.loc r).mtx ∧
          ∀ P x, kind P (set1 s.loc p0 (MsgLock.recv q0 (.lockReq m0 k0) (s.loc p0)) r) x = kind P (s.loc r) x := by
        intro r
        by_cases e : r = p0
        · subst e; rw [set1_same]; exact ⟨rfl, fun _ _ => rfl⟩
        · rw [set1_ne _ _ e]; exact ⟨rfl, fun _ _ => rfl⟩
      refine ⟨?_, hearly, ?_, ?_⟩
      · intro p h m hp hh
        have h1 := ht.tok p h m hp hh
        unfold TokS at h1 ⊢
        dsimp only
        rw [hpcs, (hl p).2, isOwner_eq (congrFun (hl h).1 m), hr p h m (by simp [isResp])]
        change Tok _ _ _ _ _ _ (isOwner (s.loc h) m p) _
        by_cases e : p = q0 ∧ h = p0 ∧ m0 = m
        · obtain ⟨rfl, rfl, rfl⟩ := e
          rw [set1_same, pop_eq _ _ _ hm]
          rw [hm, List.filter_cons, if_pos (by simp [isReq])] at h1
          simp only [MsgLock.recv, List.filter_append]
          rw [List.filter_cons, if_pos (by simp), List.filter_nil]
          generalize (rest.filter (isReq m0)) = c at h1 ⊢
          generalize isOwner (s.loc h) m0 p = o at h1 ⊢
          generalize ((s.loc h).lq.filter fun e => e.1 == p && e.2.1 == m0) = q at h1 ⊢
          generalize (s.chan h p).filter (isResp m0) = r at h1 ⊢
          generalize kind (prog p) (s.loc p) (h, m0) = kd at h1 ⊢
          cases h1 with
          | sent => exact .queued
        · rw [hc p h m (by rintro ⟨a, b, c⟩; simp [isReq] at c; exact e ⟨a, b, c⟩)]
          have : ((set1 s.loc p0 (MsgLock.recv q0 (.lockReq m0 k0) (s.loc p0)) h).lq.filter fun e => e.1 == p && e.2.1 == m) =
              ((s.loc h).lq.filter fun e => e.1 == p && e.2.1 == m) := by
            by_cases e1 : h = p0
            · subst e1
              rw [set1_same]
              simp only [MsgLock.recv, List.filter_append]
              have : ¬ ((q0 == p && m0 == m) = true) := by
                simp only [Bool.and_eq_true, beq_iff_eq]
                rintro ⟨a, b⟩
                exact e ⟨a.symm, rfl, b⟩
              rw [List.filter_cons, if_neg this, List.filter_nil, List.append_nil]
            · rw [set1_ne _ _ e1]
          rw [this]
          exact h1
      · intro h hh e he
        dsimp only at he
        by_cases e1 : h = p0
        · subst e1
          rw [set1_same] at he
          simp only [MsgLock.recv, List.mem_append, List.mem_singleton] at he
          rcases he with he | he
          · exact ht.rngq h hh e he
          · rw [he]; exact hq0
        · rw [set1_ne _ _ e1] at he; exact ht.rngq h hh e he
      · intro h hh; dsimp only; rw [(hl h).1]; exact ht.rngm h hh
    | unlock m0 =>
      have hl : ∀ r, (set1 s.loc p0 (MsgLock.recv q0 (.unlock m0) (s.loc p0)) r).lq = (s.loc r).lq ∧
          ∀ P x, kind P (set1 s.loc p0 (MsgLock.recv q0 (.unlock m0) (s.loc p0)) r) x = kind P (s.loc r) x := by
        intro r
        by_cases e : r = p0
        · subst e; rw [set1_same]; exact ⟨rfl, fun _ _ => rfl⟩
        · rw [set1_ne _ _ e]; exact ⟨rfl, fun _ _ => rfl⟩
      -- the sender is the owner
      have howner : (s.loc p0).mtx m0 = some q0 := by
        have h1 := ht.tok q0 p0 m0 hq0 hp0
        unfold TokS at h1
        rw [hm, List.filter_cons, if_pos (by simp [isReq])] at h1
        generalize (rest.filter (isReq m0)) = c at h1
        generalize ho : isOwner (s.loc p0) m0 q0 = o at h1
        generalize ((s.loc p0).lq.filter fun e => e.1 == q0 && e.2.1 == m0) = q at h1
        generalize (s.chan p0 q0).filter (isResp m0) = r at h1
        generalize kind (prog q0) (s.loc q0) (p0, m0) = kd at h1
        cases h1 <;> simpa [isOwner] using ho
      refine ⟨?_, hearly, ?_, ?_⟩
      · intro p h m hp hh
        have h1 := ht.tok p h m hp hh
        unfold TokS at h1 ⊢
        dsimp only
        rw [hpcs, (hl p).2, (hl h).1, hr p h m (by simp [isResp])]
        by_cases e : p = q0 ∧ h = p0 ∧ m0 = m
        · obtain ⟨rfl, rfl, rfl⟩ := e
          rw [set1_same, pop_eq _ _ _ hm]
          rw [hm, List.filter_cons, if_pos (by simp [isReq])] at h1
          have : isOwner (MsgLock.recv p (.unlock m0) (s.loc h)) m0 p = false := by
            simp [isOwner, MsgLock.recv, set1_same]
          rw [this]
          generalize (rest.filter (isReq m0)) = c at h1 ⊢
          generalize isOwner (s.loc h) m0 p = o at h1
          generalize ((s.loc h).lq.filter fun e => e.1 == p && e.2.1 == m0) = q at h1 ⊢
          generalize (s.chan h p).filter (isResp m0) = r at h1 ⊢
          generalize kind (prog p) (s.loc p) (h, m0) = kd at h1 ⊢
          cases h1 with
          | sent2 => exact .sent
          | freed => exact .idle
        · rw [hc p h m (by rintro ⟨a, b, c⟩; simp [isReq] at c; exact e ⟨a, b, c⟩)]
          have : isOwner (set1 s.loc p0 (MsgLock.recv q0 (.unlock m0) (s.loc p0)) h) m p =
              isOwner (s.loc h) m p := by
            by_cases e1 : h = p0
            · subst e1
              rw [set1_same]
              by_cases e2 : m = m0
              · subst e2
                have : ¬ q0 = p := fun x => e ⟨x.symm, rfl, rfl⟩
                simp [isOwner, MsgLock.recv, set1_same, howner, this]
              · simp [isOwner, MsgLock.recv, set1_ne _ _ e2]
            · rw [set1_ne _ _ e1]
          rw [this]
          exact h1
      · intro h hh; dsimp only; rw [(hl h).1]; exact ht.rngq h hh
      · intro h hh m p hx
        dsimp only at hx
        by_cases e1 : h = p0
        · subst e1
          rw [set1_same] at hx
          simp only [MsgLock.recv] at hx
          by_cases e2 : m = m0
          · subst e2; rw [set1_same] at hx; cases hx
          · rw [set1_ne _ _ e2] at hx; exact ht.rngm h hh m p hx
        · rw [set1_ne _ _ e1] at hx; exact ht.rngm h hh m p hx
    | lockResp m0 k0 =>
      have hl : ∀ r, (set1 s.loc p0 (MsgLock.recv q0 (.lockResp m0 k0) (s.loc p0)) r).lq = (s.loc r).lq ∧
          (set1 s.loc p0 (MsgLock.recv q0 (.lockResp m0 k0) (s.loc p0)) r).mtx = (s.loc r).mtx := by
        intro r
        by_cases e : r = p0
        · subst e; rw [set1_same]; exact ⟨rfl, rfl⟩
        · rw [set1_ne _ _ e]; exact ⟨rfl, rfl⟩
      have hw : kind (prog p0) (s.loc p0) (q0, m0) = .wait := by
        have h1 := ht.tok p0 q0 m0 hp0 hq0
        unfold TokS at h1
        rw [hm, List.filter_cons (x := Msg.lockResp m0 k0), if_pos (by simp [isResp])] at h1
        generalize (rest.filter (isResp m0)) = r at h1
        generalize isOwner (s.loc q0) m0 p0 = o at h1
        generalize ((s.loc q0).lq.filter fun e => e.1 == p0 && e.2.1 == m0) = q at h1
        generalize (s.chan p0 q0).filter (isReq m0) = c at h1
        generalize kind (prog p0) (s.loc p0) (q0, m0) = kd at h1 ⊢
        cases h1 with
        | granted => rfl
      obtain ⟨hw1, hw2, hw3⟩ := kind_wait hw
      refine ⟨?_, hearly, ?_, ?_⟩
      · intro p h m hp hh
        have h1 := ht.tok p h m hp hh
        unfold TokS at h1 ⊢
        dsimp only
        rw [hpcs, (hl h).1, isOwner_eq (congrFun (hl h).2 m), hc p h m (by simp [isReq])]
        change Tok _ _ _ _ _ _ (isOwner (s.loc h) m p) _
        by_cases e : p = p0 ∧ h = q0 ∧ m0 = m
        · obtain ⟨rfl, rfl, rfl⟩ := e
          rw [set1_same, pop_eq _ _ _ hm]
          have hk : kind (prog p) (MsgLock.recv h (.lockResp m0 k0) (s.loc p)) (h, m0) = .hold := by
            unfold kind MsgLock.recv
            dsimp only
            rw [if_pos ⟨hw1, hw2⟩]; rfl
          rw [hk]
          rw [hw, hm, List.filter_cons (x := Msg.lockResp m0 k0), if_pos (by simp [isResp])] at h1
          generalize (rest.filter (isResp m0)) = r at h1 ⊢
          generalize isOwner (s.loc h) m0 p = o at h1 ⊢
          generalize ((s.loc h).lq.filter fun e => e.1 == p && e.2.1 == m0) = q at h1 ⊢
          generalize (s.chan p h).filter (isReq m0) = c at h1 ⊢
          cases h1 with
          | granted => exact .hold
        · rw [hr p h m (by rintro ⟨a, b, c⟩; simp [isResp] at c; exact e ⟨b, a, c⟩)]
          have : kind (prog p) (set1 s.loc p0 (MsgLock.recv q0 (.lockResp m0 k0) (s.loc p0)) p) (h, m) =
              kind (prog p) (s.loc p) (h, m) := by
            by_cases e1 : p = p0
            · subst e1
              rw [set1_same]
              have h2 : ¬ ((s.loc p).ph = .lockw ∧ (prog p)[(s.loc p).pc]? = some (.lock (h, m))) := by
                rintro ⟨_, h3⟩
                rw [hw2] at h3
                cases h3
                exact e ⟨rfl, rfl, rfl⟩
              rw [kind_ne h2, kind_ne (by exact h2)]
              rfl
            · rw [set1_ne _ _ e1]
          rw [this]
          exact h1
      · intro h hh; dsimp only; rw [(hl h).1]; exact ht.rngq h hh
      · intro h hh; dsimp only; rw [(hl h).2]; exact ht.rngm h hh
  | pass p0 hp0 hpc hx =>
    have hk : ∀ r, (set1 s.loc p0 (passLoc (s.loc p0)) r).pc = (s.loc r).pc ∧
        ∀ P x, kind P (set1 s.loc p0 (passLoc (s.loc p0)) r) x = kind P (s.loc r) x := by
      intro r
      by_cases e : r = p0
      · subst e; rw [set1_same]; exact ⟨rfl, fun _ _ => rfl⟩
      · rw [set1_ne _ _ e]; exact ⟨rfl, fun _ _ => rfl⟩
    have hok := fun e he => (entries_ok hs hb ht hp0 hpc e he).1
    have hc : ∀ p h m, (send s.chan p0 (passOut (s.loc p0)) p h).filter (isReq m) = (s.chan p h).filter (isReq m) := by
      intro p h m
      by_cases e : p = p0
      · subst e; rw [send_eq, List.filter_append, passOut_req, List.append_nil]
      · rw [send_ne _ _ _ e]
    refine ⟨?_, ?_, ?_, ?_⟩
    · intro p h m hp hh
      have h1 := ht.tok p h m hp hh
      unfold TokS at h1 ⊢
      dsimp only
      rw [(hk p).1, (hk p).2, hc]
      by_cases e : h = p0
      · subst e
        rw [set1_same, send_eq, List.filter_append]
        have hq1 : ∀ l : List Ent, (l.filter fun e => e.1 == p && e.2.1 == m) =
            (l.filter fun e => e.2.1 == m).filter fun e => e.1 == p := by
          intro l; rw [List.filter_filter]
        have ho1 : (passOut (s.loc h) p).filter (isResp m) =
            (((pass (s.loc h).num (s.loc h).lq (s.loc h).mtx).2.2.1.filter fun e => e.2.1 == m).filter
              fun e => e.1 == p).map fun e => .lockResp e.2.1 e.2.2 := by
          unfold passOut
          rw [List.filter_map, List.filter_filter, List.filter_filter]
          congr 1
          apply List.filter_congr
          intro x _
          simp [isResp, Function.comp, Bool.and_comm]
        rw [ho1]
        have hsp := pass_spec m (num := (s.loc h).num) (t := (s.loc h).mtx) hok
        have hown : isOwner (passLoc (s.loc h)) m p =
            decide ((pass (s.loc h).num (s.loc h).lq (s.loc h).mtx).1 m = some p) := rfl
        rw [hown]
        simp only [passLoc]
        rw [hq1] at h1 ⊢
        cases hmt : (s.loc h).mtx m with
        | some v =>
          simp only [hmt] at hsp
          rw [hsp.1, hsp.2.1, hsp.2.2]
          rw [isOwner_eq hmt] at h1
          simpa using h1
        | none =>
          cases hL : (s.loc h).lq.filter fun e => e.2.1 == m with
          | nil =>
            simp only [hmt, hL] at hsp
            rw [hsp.1, hsp.2.1, hsp.2.2]
            rw [isOwner_eq hmt, hL] at h1
            simpa using h1
          | cons e L =>
            simp only [hmt, hL] at hsp
            rw [hsp.1, hsp.2.1, hsp.2.2]
            rw [isOwner_eq hmt, hL] at h1
            have hem : e.2.1 = m := by
              have : e ∈ (s.loc h).lq.filter fun e => e.2.1 == m := by rw [hL]; simp
              simpa using (List.mem_filter.1 this).2
            by_cases ep : e.1 = p
            · rw [List.filter_cons, if_pos (by simp [ep])] at h1
              rw [List.filter_cons, if_pos (by simp [ep]), List.filter_nil]
              have h2 : decide ((none : Option Nat) = some p) = false := by simp
              have h3 : decide (some e.1 = some p) = true := by simp [ep]
              rw [h2] at h1
              rw [h3]
              generalize (L.filter fun e => e.1 == p) = q at h1 ⊢
              generalize (s.chan h p).filter (isResp m) = r at h1 ⊢
              generalize (s.chan p h).filter (isReq m) = c at h1 ⊢
              generalize kind (prog p) (s.loc p) (h, m) = kd at h1 ⊢
              cases h1 with
              | queued => exact .granted
            · rw [List.filter_cons, if_neg (by simp [ep])] at h1
              rw [List.filter_cons, if_neg (by simp [ep]), List.filter_nil]
              have h3 : decide (some e.1 = some p) = decide ((none : Option Nat) = some p) := by simp [ep]
              rw [h3]
              simpa using h1
      · rw [set1_ne _ _ e, send_ne _ _ _ e]; exact h1
    · intro p h m hp hh hlt
      dsimp only at hlt ⊢
      rw [(hk p).1] at hlt
      rw [hc]
      exact ht.early p h m hp hh hlt
    · intro h hh e he
      dsimp only at he
      by_cases e1 : h = p0
      · subst e1
        rw [set1_same] at he
        exact ht.rngq h hh e (pass_sub (.inl he))
      · rw [set1_ne _ _ e1] at he; exact ht.rngq h hh e he
    · intro h hh m p hx
      dsimp only at hx
      by_cases e1 : h = p0
      · subst e1
        rw [set1_same] at hx
        have hsp := pass_spec m (num := (s.loc h).num) (t := (s.loc h).mtx) hok
        simp only [passLoc] at hx
        cases hmt : (s.loc h).mtx m with
        | some v =>
          simp only [hmt] at hsp
          rw [hsp.1] at hx
          exact ht.rngm h hh m p (by rw [hmt, hx])
        | none =>
          cases hL : (s.loc h).lq.filter fun e => e.2.1 == m with
          | nil =>
            simp only [hmt, hL] at hsp
            rw [hsp.1] at hx; cases hx
          | cons e L =>
            simp only [hmt, hL] at hsp
            rw [hsp.1] at hx
            cases hx
            have hem : e ∈ (s.loc h).lq.filter fun e => e.2.1 == m := by rw [hL]; simp
            obtain ⟨he, he2⟩ := List.mem_filter.1 hem
            have := entries_ok hs hb ht hh hpc e he
            simp at he2
            exact ⟨ht.rngq h hh e he, by omega⟩
      · rw [set1_ne _ _ e1] at hx; exact ht.rngm h hh m p hx

end GA.MsgLock
