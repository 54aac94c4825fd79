import Verif.Model.MsgLock

/-! # Lemmas on the mutexes over two-sided MPI: programs, steps, the invariant of one mutex and one process -/

namespace GA.MsgLock

open GA.Spec.LockUse

/-! ## programs -/

theorem holding_snoc (l : List Call) (c : Call) (x : Mutex) :
    holding (l ++ [c]) x = if c = .lock x then true else if c = .unlock x then false else holding l x := by
  simp [holding, List.foldl_append]

/-- a program of the form `program K body` with a proper body -/
structure Shape (n K : Nat) (P : List Call) : Prop where
  len : 3 ≤ P.length
  at' : ∀ k c, P[k]? = some c → (k = 0 ∧ c = .create K) ∨ (k = 1 ∧ c = .sync) ∨
    (2 ≤ k ∧ k + 1 < P.length ∧ Legal n K (holding (P.take k)) c) ∨ (k + 1 = P.length ∧ c = .destroy)
  fin : ∀ x, holding (P.take (P.length - 1)) x = false

theorem holding_two (K : Nat) (l : List Call) (x : Mutex) :
    holding (.create K :: .sync :: l) x = holding l x := by simp [holding]

theorem shape_program {n K : Nat} {body : List Call} (h : Proper n K body) : Shape n K (program K body) := by
  refine ⟨by simp [program], ?_, ?_⟩
  · intro k c hk
    match k with
    | 0 => simp [program] at hk; exact .inl ⟨rfl, hk.symm⟩
    | 1 => simp [program] at hk; exact .inr (.inl ⟨rfl, hk.symm⟩)
    | k + 2 =>
      simp only [program, List.getElem?_cons_succ] at hk
      by_cases e : k < body.length
      · right; right; left
        rw [List.getElem?_append_left e] at hk
        refine ⟨by omega, by simp [program]; omega, ?_⟩
        have := h.1 k c hk
        have e2 : holding ((program K body).take (k + 2)) = holding (body.take k) := by
          funext x
          simp only [program, List.take_succ_cons]
          rw [holding_two, List.take_append_of_le_length (by omega)]
        rw [e2]; exact this
      · right; right; right
        rw [List.getElem?_append_right (by omega)] at hk
        have h2 : k - body.length = 0 := by
          apply Classical.byContradiction
          intro hc
          rw [List.getElem?_eq_none (by simp; omega)] at hk
          exact absurd hk (by simp)
        rw [h2] at hk
        simp at hk
        refine ⟨by simp [program]; omega, hk.symm⟩
  · intro x
    have : (program K body).take ((program K body).length - 1) = .create K :: .sync :: body := by
      simp [program]
    rw [this, holding_two]
    exact h.2 x

theorem some_lt {P : List Call} {k : Nat} {c : Call} (h : P[k]? = some c) : k < P.length :=
  (List.getElem?_eq_some_iff.1 h).1

theorem holding_succ {P : List Call} {k : Nat} {c : Call} (h : P[k]? = some c) (x : Mutex) :
    holding (P.take (k + 1)) x = if c = .lock x then true else if c = .unlock x then false else holding (P.take k) x := by
  obtain ⟨hk, he⟩ := List.getElem?_eq_some_iff.1 h
  rw [List.take_succ_eq_append_getElem hk, holding_snoc, he]

/-! ## steps -/

theorem set1_same {β : Type} (f : Nat → β) (i : Nat) (v : β) : set1 f i v i = v := by simp [set1]
theorem set1_ne {β : Type} (f : Nat → β) {i j : Nat} (v : β) (h : j ≠ i) : set1 f i v j = f j := by
  simp [set1, h]

/-- The cases of `own`. -/
inductive Own (n me : Nat) (P : List Call) (l : Loc) : Loc → (Nat → List Msg) → Prop
  | create (K) : l.ph = .run → P[l.pc]? = some (.create K) →
      Own n me P l { l with num := K, mtx := fun _ => none, fault := l.fault || l.num != 0 || !l.lq.isEmpty, pc := l.pc + 1 } (fun _ => [])
  | lock (x) : l.ph = .run → P[l.pc]? = some (.lock x) →
      Own n me P l { l with notify := true, ph := .lockw } (one x.1 (.lockReq x.2 l.pc))
  | unlock (x) : l.ph = .run → P[l.pc]? = some (.unlock x) →
      Own n me P l { l with pc := l.pc + 1 } (one x.1 (.unlock x.2))
  | updS : l.ph = .run → P[l.pc]? = some (.upd me) →
      Own n me P l { l with log := l.log ++ [(me, l.pc)], pc := l.pc + 1 } (fun _ => [])
  | upd (q) : l.ph = .run → P[l.pc]? = some (.upd q) → q ≠ me →
      Own n me P l { l with pc := l.pc + 1 } (one q (.upd l.pc))
  | sync : l.ph = .run → P[l.pc]? = some .sync →
      Own n me P l { l with arr := l.arr + 1, ph := .bar } (fun _ => [.mark])
  | destroy : l.ph = .run → P[l.pc]? = some .destroy →
      Own n me P l { l with arr := l.arr + 1, ph := .barD } (fun _ => [.mark])
  | lockw : l.ph = .lockw → l.notify = false → Own n me P l { l with ph := .run, pc := l.pc + 1 } (fun _ => [])
  | bar : l.ph = .bar → (∀ q, q < n → l.arr ≤ l.marks q) →
      Own n me P l { l with ph := .run, pc := l.pc + 1 } (fun _ => [])
  | barD : l.ph = .barD → (∀ q, q < n → l.arr ≤ l.marks q) → Own n me P l { l with ph := .dloop } (fun _ => [])
  | dloop : l.ph = .dloop → l.lq = [] → (∀ m, m < l.num → l.mtx m = none) →
      Own n me P l { l with num := 0, ph := .run, pc := l.pc + 1 } (fun _ => [])

theorem own_cases {n me : Nat} {P : List Call} {l l' : Loc} {f : Nat → List Msg}
    (h : own n me P l = some (l', f)) : Own n me P l l' f := by
  unfold own at h
  split at h
  · rename_i hph
    split at h
    · exact absurd h (by simp)
    · rename_i K hp; cases h; exact .create K hph hp
    · rename_i x hp; cases h; exact .lock x hph hp
    · rename_i x hp; cases h; exact .unlock x hph hp
    · rename_i q hp
      split at h
      · rename_i e; subst e; cases h; exact .updS hph hp
      · rename_i e; cases h; exact .upd q hph hp e
    · rename_i hp; cases h; exact .sync hph hp
    · rename_i hp; cases h; exact .destroy hph hp
  · rename_i hph
    split at h
    · exact absurd h (by simp)
    · rename_i e; cases h; exact .lockw hph (by simpa using e)
  · rename_i hph
    split at h
    · rename_i e; cases h; exact .bar hph (by simpa using e)
    · exact absurd h (by simp)
  · rename_i hph
    split at h
    · rename_i e; cases h; exact .barD hph (by simpa using e)
    · exact absurd h (by simp)
  · rename_i hph
    split at h
    · rename_i e; cases h
      simp at e
      exact .dloop hph e.1 e.2
    · exact absurd h (by simp)

inductive Step (n : Nat) (prog : Nat → List Call) (s : State) : State → Prop
  | own (p l f) : p < n → Own n p (prog p) (s.loc p) l f → Step n prog s ⟨set1 s.loc p l, send s.chan p f⟩
  | recv (p q m rest) : p < n → q < n → (s.loc p).pc < (prog p).length → s.chan q p = m :: rest →
      Step n prog s ⟨set1 s.loc p (recv q m (s.loc p)), pop s.chan q p⟩
  | pass (p) : p < n → (s.loc p).pc < (prog p).length →
      (pass (s.loc p).num (s.loc p).lq (s.loc p).mtx).2.2.1 ≠ [] ∨
        (pass (s.loc p).num (s.loc p).lq (s.loc p).mtx).2.2.2 = true →
      Step n prog s ⟨set1 s.loc p (passLoc (s.loc p)), send s.chan p (passOut (s.loc p))⟩

theorem step_cases {n : Nat} {prog : Nat → List Call} {p : Nat} {t : Turn} {s s' : State}
    (h : step n prog p t s = some s') : Step n prog s s' := by
  unfold step at h
  split at h
  · exact absurd h (by simp)
  · rename_i hp
    split at h
    · split at h
      · exact absurd h (by simp)
      · rename_i l f ho
        cases h
        exact .own p l f (by omega) (own_cases ho)
    · rename_i q
      split at h
      · exact absurd h (by simp)
      · rename_i hq
        split at h
        · exact absurd h (by simp)
        · rename_i m rest hm
          cases h
          exact .recv p q m rest (by omega) (by omega) (by omega) hm
    · split at h
      · exact absurd h (by simp)
      · rename_i hl
        dsimp only at h
        split at h
        · exact absurd h (by simp)
        · rename_i e
          cases h
          refine .pass p (by omega) (by omega) ?_
          simp at e
          by_cases e2 : (pass (s.loc p).num (s.loc p).lq (s.loc p).mtx).2.2.1 = []
          · exact .inr (e e2)
          · exact .inl e2

theorem send_eq (c : Nat → Nat → List Msg) (p : Nat) (f : Nat → List Msg) (b : Nat) :
    send c p f p b = c p b ++ f b := by simp [send]
theorem send_ne (c : Nat → Nat → List Msg) {p a : Nat} (f : Nat → List Msg) (b : Nat) (h : a ≠ p) :
    send c p f a b = c a b := by simp [send, h]
theorem pop_eq (c : Nat → Nat → List Msg) (p q : Nat) {m : Msg} {rest : List Msg} (h : c p q = m :: rest) :
    pop c p q p q = rest := by simp [pop, h]
theorem pop_ne (c : Nat → Nat → List Msg) {p q a b : Nat} (h : ¬ (a = p ∧ b = q)) : pop c p q a b = c a b := by
  simp [pop, h]

/-! ## the pass over the list -/

theorem pass_ok {num : Nat} : ∀ {es : List Ent} {t : Nat → Option Nat}, (∀ e ∈ es, e.2.1 < num) →
    (pass num es t).2.2.2 = false
  | [], _, _ => rfl
  | e :: es, t, h => by
      have h1 := h e (by simp)
      have h2 : ∀ e ∈ es, e.2.1 < num := fun e he => h e (List.mem_cons_of_mem _ he)
      unfold pass
      rw [if_neg (by omega)]
      cases ht : t e.2.1 with
      | none => exact pass_ok h2
      | some v => exact pass_ok h2

/-- what a pass does to one mutex -/
theorem pass_spec {num : Nat} (m : Nat) : ∀ {es : List Ent} {t : Nat → Option Nat}, (∀ e ∈ es, e.2.1 < num) →
    match t m, es.filter fun e => e.2.1 == m with
    | none, e :: es' => (pass num es t).1 m = some e.1 ∧ ((pass num es t).2.1.filter fun e => e.2.1 == m) = es' ∧
        ((pass num es t).2.2.1.filter fun e => e.2.1 == m) = [e]
    | o, l => (pass num es t).1 m = o ∧ ((pass num es t).2.1.filter fun e => e.2.1 == m) = l ∧
        ((pass num es t).2.2.1.filter fun e => e.2.1 == m) = []
  | [], t, _ => by
      cases ht : t m <;> simp [pass, ht]
  | e :: es, t, h => by
      have h1 := h e (by simp)
      have h2 : ∀ e ∈ es, e.2.1 < num := fun e he => h e (List.mem_cons_of_mem _ he)
      unfold pass
      rw [if_neg (by omega)]
      cases he : t e.2.1 with
      | none =>
        have ih := pass_spec m (t := set1 t e.2.1 (some e.1)) h2
        by_cases em : e.2.1 = m
        · subst em
          rw [set1_same] at ih
          simp only [he]
          simp only [List.filter_cons, beq_self_eq_true, if_true]
          refine ⟨ih.1, ih.2.1, ?_⟩
          rw [ih.2.2]
        · have em' : ¬ m = e.2.1 := fun x => em x.symm
          rw [set1_ne _ _ em'] at ih
          simp only [List.filter_cons, beq_iff_eq, em, if_false]
          exact ih
      | some v =>
        have ih := pass_spec m (t := t) h2
        by_cases em : e.2.1 = m
        · subst em
          rw [he] at ih
          simp only [he]
          simp only [List.filter_cons, beq_self_eq_true, if_true]
          exact ⟨ih.1, by rw [ih.2.1], ih.2.2⟩
        · simp only [List.filter_cons, beq_iff_eq, em, if_false]
          exact ih

theorem pass_sub {num : Nat} : ∀ {es : List Ent} {t : Nat → Option Nat} {e : Ent},
    e ∈ (pass num es t).2.1 ∨ e ∈ (pass num es t).2.2.1 → e ∈ es
  | [], _, _, h => by simp [pass] at h
  | a :: es, t, e, h => by
      unfold pass at h
      split at h
      · dsimp only at h
        rcases h with h | h
        · rcases List.mem_cons.1 h with h | h
          · simp [h]
          · exact List.mem_cons_of_mem _ (pass_sub (.inl h))
        · exact List.mem_cons_of_mem _ (pass_sub (.inr h))
      · split at h
        · dsimp only at h
          rcases h with h | h
          · exact List.mem_cons_of_mem _ (pass_sub (.inl h))
          · rcases List.mem_cons.1 h with h | h
            · simp [h]
            · exact List.mem_cons_of_mem _ (pass_sub (.inr h))
        · dsimp only at h
          rcases h with h | h
          · rcases List.mem_cons.1 h with h | h
            · simp [h]
            · exact List.mem_cons_of_mem _ (pass_sub (.inl h))
          · exact List.mem_cons_of_mem _ (pass_sub (.inr h))

theorem pass_len {num : Nat} : ∀ (es : List Ent) (t : Nat → Option Nat),
    (pass num es t).2.1.length + (pass num es t).2.2.1.length = es.length
  | [], _ => rfl
  | e :: es, t => by
      unfold pass
      split
      · have := pass_len (num := num) es t; simp; omega
      · split
        · rename_i e1 e2
          have := pass_len (num := num) es (set1 t e.2.1 (some e.1)); simp; omega
        · have := pass_len (num := num) es t; simp; omega

/-! ## one process and one mutex -/

inductive Kind where
  | wait
  | hold
  | idle
deriving DecidableEq

def kind (P : List Call) (l : Loc) (x : Mutex) : Kind :=
  if l.ph = .lockw ∧ P[l.pc]? = some (.lock x) then (if l.notify then .wait else .hold)
  else if holding (P.take l.pc) x then .hold else .idle

/-- a process `p` and the mutex `m` of another: the requests on their way, the entries of the list, whether
`p` is the owner, the responses on their way -/
inductive Tok (k m p : Nat) : Kind → List Msg → List Ent → Bool → List Msg → Prop
  | sent : Tok k m p .wait [.lockReq m k] [] false []
  | sent2 : Tok k m p .wait [.unlock m, .lockReq m k] [] true []
  | queued : Tok k m p .wait [] [(p, m, k)] false []
  | granted : Tok k m p .wait [] [] true [.lockResp m k]
  | hold : Tok k m p .hold [] [] true []
  | freed : Tok k m p .idle [.unlock m] [] true []
  | idle : Tok k m p .idle [] [] false []

def isReq (m : Nat) : Msg → Bool
  | .lockReq m' _ => m' == m
  | .unlock m' => m' == m
  | _ => false

def isResp (m : Nat) : Msg → Bool
  | .lockResp m' _ => m' == m
  | _ => false

def isOwner (l : Loc) (m p : Nat) : Bool := decide (l.mtx m = some p)

theorem isOwner_eq {l : Loc} {m p : Nat} {v : Option Nat} (h : l.mtx m = v) : isOwner l m p = decide (v = some p) := by
  subst h; rfl

def TokS (prog : Nat → List Call) (s : State) (p h m : Nat) : Prop :=
  Tok (s.loc p).pc m p (kind (prog p) (s.loc p) (h, m)) ((s.chan p h).filter (isReq m))
    ((s.loc h).lq.filter fun e => e.1 == p && e.2.1 == m) (isOwner (s.loc h) m p)
    ((s.chan h p).filter (isResp m))

theorem Tok.pc {k k' m p : Nat} {K : Kind} {c : List Msg} {q : List Ent} {o : Bool} {r : List Msg}
    (h : Tok k m p K c q o r) (hk : K ≠ .wait) : Tok k' m p K c q o r := by
  cases h with
  | hold => exact .hold
  | freed => exact .freed
  | idle => exact .idle
  | sent => exact absurd rfl hk
  | sent2 => exact absurd rfl hk
  | queued => exact absurd rfl hk
  | granted => exact absurd rfl hk

/-! ## the places in the program -/

def Pos (K : Nat) (P : List Call) (l : Loc) : Prop :=
  (match l.ph with
  | .run => (l.pc = 0 ∧ l.arr = 0) ∨ (l.pc = 1 ∧ l.arr = 0) ∨ (2 ≤ l.pc ∧ l.pc < P.length ∧ l.arr = 1) ∨
      (l.pc = P.length ∧ l.arr = 2)
  | .lockw => (∃ x, P[l.pc]? = some (.lock x)) ∧ 2 ≤ l.pc ∧ l.pc + 1 < P.length ∧ l.arr = 1
  | .bar => l.pc = 1 ∧ l.arr = 1
  | .barD => l.pc + 1 = P.length ∧ l.arr = 2
  | .dloop => l.pc + 1 = P.length ∧ l.arr = 2) ∧
  l.num = if 0 < l.pc ∧ l.pc < P.length then K else 0

/-- the first invariant: places and barriers -/
structure BI (n K : Nat) (prog : Nat → List Call) (s : State) : Prop where
  pos : ∀ p, p < n → Pos K (prog p) (s.loc p)
  mks : ∀ p h, p < n → h < n → (s.loc h).marks p + (s.chan p h).count .mark = (s.loc p).arr
  g1 : ∀ p q, p < n → q < n → 2 ≤ (s.loc p).pc → 1 ≤ (s.loc q).arr
  g2 : ∀ p q, p < n → q < n → (s.loc p).ph = .dloop ∨ (s.loc p).pc = (prog p).length → 2 ≤ (s.loc p).marks q

theorem own_pos {n K me : Nat} {P : List Call} (hs : Shape n K P) {l l' : Loc} {f : Nat → List Msg}
    (ho : Own n me P l l' f) (h : Pos K P l) : Pos K P l' := by
  have hlen := hs.len
  cases ho with
  | create K' hph hp =>
    have h0 := some_lt hp
    rcases hs.at' _ _ hp with ⟨h1, h2⟩ | ⟨_, h2⟩ | ⟨_, _, h2⟩ | ⟨_, h2⟩
    · cases h2
      unfold Pos at h ⊢
      simp only [hph] at h ⊢
      refine ⟨by omega, ?_⟩
      rw [if_pos (by omega)]
    · cases h2
    · exact absurd h2 (by simp [Legal])
    · cases h2
  | lock x hph hp =>
    rcases hs.at' _ _ hp with ⟨h1, h2⟩ | ⟨_, h2⟩ | ⟨h1, h3, h2⟩ | ⟨_, h2⟩
    · cases h2
    · cases h2
    · unfold Pos at h ⊢
      simp only [hph] at h ⊢
      exact ⟨⟨⟨x, hp⟩, h1, h3, by omega⟩, h.2⟩
    · cases h2
  | unlock x hph hp =>
    rcases hs.at' _ _ hp with ⟨h1, h2⟩ | ⟨_, h2⟩ | ⟨h1, h3, h2⟩ | ⟨_, h2⟩
    · cases h2
    · cases h2
    · unfold Pos at h ⊢
      simp only [hph] at h ⊢
      refine ⟨by omega, ?_⟩
      rw [h.2, if_pos (by omega), if_pos (by omega)]
    · cases h2
  | updS hph hp =>
    rcases hs.at' _ _ hp with ⟨h1, h2⟩ | ⟨_, h2⟩ | ⟨h1, h3, h2⟩ | ⟨_, h2⟩
    · cases h2
    · cases h2
    · unfold Pos at h ⊢
      simp only [hph] at h ⊢
      refine ⟨by omega, ?_⟩
      rw [h.2, if_pos (by omega), if_pos (by omega)]
    · cases h2
  | upd q hph hp hq =>
    rcases hs.at' _ _ hp with ⟨h1, h2⟩ | ⟨_, h2⟩ | ⟨h1, h3, h2⟩ | ⟨_, h2⟩
    · cases h2
    · cases h2
    · unfold Pos at h ⊢
      simp only [hph] at h ⊢
      refine ⟨by omega, ?_⟩
      rw [h.2, if_pos (by omega), if_pos (by omega)]
    · cases h2
  | sync hph hp =>
    rcases hs.at' _ _ hp with ⟨h1, h2⟩ | ⟨h1, h2⟩ | ⟨h1, h3, h2⟩ | ⟨_, h2⟩
    · cases h2
    · unfold Pos at h ⊢
      simp only [hph] at h ⊢
      exact ⟨by omega, h.2⟩
    · exact absurd h2 (by simp [Legal])
    · cases h2
  | destroy hph hp =>
    rcases hs.at' _ _ hp with ⟨h1, h2⟩ | ⟨h1, h2⟩ | ⟨h1, h3, h2⟩ | ⟨h1, h2⟩
    · cases h2
    · cases h2
    · exact absurd h2 (by simp [Legal])
    · unfold Pos at h ⊢
      simp only [hph] at h ⊢
      exact ⟨by omega, h.2⟩
  | lockw hph hn =>
    unfold Pos at h ⊢
    simp only [hph] at h ⊢
    refine ⟨by omega, ?_⟩
    rw [h.2, if_pos (by omega), if_pos (by omega)]
  | bar hph hm =>
    unfold Pos at h ⊢
    simp only [hph] at h ⊢
    refine ⟨by omega, ?_⟩
    rw [h.2, if_pos (by omega), if_pos (by omega)]
  | barD hph hm =>
    unfold Pos at h ⊢
    simp only [hph] at h ⊢
    exact h
  | dloop hph hq hm =>
    unfold Pos at h ⊢
    simp only [hph] at h ⊢
    refine ⟨by omega, ?_⟩
    rw [if_neg (by omega)]

theorem Pos.congr {K : Nat} {P : List Call} {l l' : Loc} (h : Pos K P l) (h1 : l'.ph = l.ph) (h2 : l'.pc = l.pc)
    (h3 : l'.arr = l.arr) (h4 : l'.num = l.num) : Pos K P l' := by
  unfold Pos at h ⊢
  rw [h1, h2, h3, h4]
  exact h

theorem recv_same (q : Nat) (m : Msg) (l : Loc) :
    (recv q m l).ph = l.ph ∧ (recv q m l).pc = l.pc ∧ (recv q m l).arr = l.arr ∧ (recv q m l).num = l.num := by
  cases m <;> exact ⟨rfl, rfl, rfl, rfl⟩

theorem recv_marks (q : Nat) (m : Msg) (l : Loc) (r : Nat) :
    (recv q m l).marks r = l.marks r + if m = .mark ∧ r = q then 1 else 0 := by
  cases m <;> simp [recv]
  by_cases e : r = q
  · subst e; simp [set1_same]
  · simp [set1_ne _ _ e, e]

theorem own_arr {n me : Nat} {P : List Call} {l l' : Loc} {f : Nat → List Msg} (h : Own n me P l l' f) :
    (∀ b, l'.arr = l.arr + (f b).count .mark) ∧ l'.marks = l.marks ∧ l'.lq = l.lq ∧ l.pc ≤ l'.pc := by
  cases h <;> refine ⟨fun b => ?_, rfl, rfl, by simp⟩ <;> simp [one] <;> split <;> simp [List.count_cons]

theorem passOut_count (l : Loc) (b : Nat) : (passOut l b).count .mark = 0 := by
  unfold passOut
  rw [List.count_eq_zero]
  simp

theorem BI.step {n K : Nat} {prog : Nat → List Call} {s s' : State} (hs : ∀ p, p < n → Shape n K (prog p))
    (h : BI n K prog s) (st : Step n prog s s') : BI n K prog s' := by
  cases st with
  | own p l f hp ho =>
    obtain ⟨ha, hm, -, hpc⟩ := own_arr ho
    have hpos : ∀ p', p' < n → Pos K (prog p') (set1 s.loc p l p') := by
      intro p' hp'
      by_cases e : p' = p
      · subst e; rw [set1_same]; exact own_pos (hs _ hp) ho (h.pos _ hp)
      · rw [set1_ne _ _ e]; exact h.pos _ hp'
    have hmk : ∀ p' h', p' < n → h' < n →
        (set1 s.loc p l h').marks p' + (send s.chan p f p' h').count .mark = (set1 s.loc p l p').arr := by
      intro p' h' hp' hh'
      have h1 := h.mks p' h' hp' hh'
      have h2 : (set1 s.loc p l h').marks = (s.loc h').marks := by
        by_cases e : h' = p
        · subst e; rw [set1_same, hm]
        · rw [set1_ne _ _ e]
      rw [h2]
      by_cases e : p' = p
      · subst e
        rw [set1_same, send_eq, List.count_append, ha h']
        omega
      · rw [set1_ne _ _ e, send_ne _ _ _ e]; exact h1
    refine ⟨hpos, hmk, ?_, ?_⟩
    · intro p' q hp' hq hpc'
      have hmono : (s.loc q).arr ≤ (set1 s.loc p l q).arr := by
        by_cases e : q = p
        · subst e; rw [set1_same, ha 0]; omega
        · rw [set1_ne _ _ e]; omega
      by_cases e : p' = p
      · subst e
        simp only [set1_same] at hpc'
        by_cases h2 : 2 ≤ (s.loc p').pc
        · have := h.g1 p' q hp' hq h2
          dsimp only; omega
        · -- the barrier is left
          have hP := h.pos p' hp'
          have : (s.loc p').arr ≤ (s.loc p').marks q := by
            cases ho with
            | bar hph hmm => exact hmm q hq
            | lockw hph hn =>
              unfold Pos at hP; simp only [hph] at hP; omega
            | dloop hph hn =>
              have := (hs p' hp').len
              unfold Pos at hP; simp only [hph] at hP; omega
            | barD hph hn => exact absurd hpc' h2
            | destroy hph hn => exact absurd hpc' h2
            | sync hph hn => exact absurd hpc' h2
            | lock x hph hn => exact absurd hpc' h2
            | create K' hph hc =>
              rcases (hs p' hp').at' _ _ hc with ⟨h1, _⟩ | ⟨_, h3⟩ | ⟨_, _, h3⟩ | ⟨_, h3⟩
              · dsimp only at hpc'; omega
              · cases h3
              · exact absurd h3 (by simp [Legal])
              · cases h3
            | unlock x hph hc =>
              rcases (hs p' hp').at' _ _ hc with ⟨h1, h3⟩ | ⟨_, h3⟩ | ⟨h1, _, h3⟩ | ⟨_, h3⟩
              · cases h3
              · cases h3
              · omega
              · cases h3
            | updS hph hc =>
              rcases (hs p' hp').at' _ _ hc with ⟨h1, h3⟩ | ⟨_, h3⟩ | ⟨h1, _, h3⟩ | ⟨_, h3⟩
              · cases h3
              · cases h3
              · omega
              · cases h3
            | upd x hph hc =>
              rcases (hs p' hp').at' _ _ hc with ⟨h1, h3⟩ | ⟨_, h3⟩ | ⟨h1, _, h3⟩ | ⟨_, h3⟩
              · cases h3
              · cases h3
              · omega
              · cases h3
          have h3 := h.mks q p' hq hp'
          have h4 : 1 ≤ (s.loc p').arr := by
            cases ho with
            | bar hph hmm => unfold Pos at hP; simp only [hph] at hP; omega
            | upd x hph hc hx =>
              have := hpos p' hp'
              rw [set1_same] at this
              unfold Pos at this
              simp only [hph] at this
              dsimp only at hpc' this
              omega
            | _ =>
              unfold Pos at hP
              rename_i hph _
              first
                | (simp only [hph] at hP; dsimp only at hpc'; omega)
                | skip
              all_goals
                have := hpos p' hp'
                rw [set1_same] at this
                unfold Pos at this
                simp only [hph] at this
                dsimp only at hpc' this
                omega
          dsimp only; omega
      · simp only [set1_ne _ _ e] at hpc'
        have := h.g1 p' q hp' hq hpc'
        dsimp only; omega
    · intro p' q hp' hq hd
      dsimp only at hd ⊢
      by_cases e : p' = p
      · subst e
        rw [set1_same] at hd ⊢
        rw [hm]
        have hP := h.pos p' hp'
        have hP' := hpos p' hp'
        have hlen := (hs p' hp').len
        rw [set1_same] at hP'
        cases ho with
        | barD hph hmm =>
          unfold Pos at hP; simp only [hph] at hP
          have := hmm q hq
          omega
        | dloop hph hx hmm => exact h.g2 p' q hp' hq (.inl hph)
        | lock x hph hc => exact h.g2 p' q hp' hq (by rcases hd with hd | hd; · cases hd
                                                      · exact .inr hd)
        | sync hph hc => exact h.g2 p' q hp' hq (by rcases hd with hd | hd; · cases hd
                                                    · exact .inr hd)
        | destroy hph hc => exact h.g2 p' q hp' hq (by rcases hd with hd | hd; · cases hd
                                                       · exact .inr hd)
        | lockw hph hn =>
          exfalso
          unfold Pos at hP; simp only [hph] at hP
          rcases hd with hd | hd
          · cases hd
          · dsimp only at hd; omega
        | bar hph hn =>
          exfalso
          unfold Pos at hP; simp only [hph] at hP
          rcases hd with hd | hd
          · cases hd
          · dsimp only at hd; omega
        | create K' hph hc =>
          exfalso
          rcases hd with hd | hd
          · rw [hph] at hd; cases hd
          · dsimp only at hd
            rcases (hs p' hp').at' _ _ hc with ⟨h1, _⟩ | ⟨_, h3⟩ | ⟨_, _, h3⟩ | ⟨_, h3⟩
            · omega
            · cases h3
            · exact absurd h3 (by simp [Legal])
            · cases h3
        | unlock x hph hc =>
          exfalso
          rcases hd with hd | hd
          · dsimp only at hd; rw [hph] at hd; cases hd
          · dsimp only at hd
            rcases (hs p' hp').at' _ _ hc with ⟨h1, h3⟩ | ⟨_, h3⟩ | ⟨h1, _, h3⟩ | ⟨_, h3⟩
            · cases h3
            · cases h3
            · omega
            · cases h3
        | updS hph hc =>
          exfalso
          rcases hd with hd | hd
          · dsimp only at hd; rw [hph] at hd; cases hd
          · dsimp only at hd
            rcases (hs p' hp').at' _ _ hc with ⟨h1, h3⟩ | ⟨_, h3⟩ | ⟨h1, _, h3⟩ | ⟨_, h3⟩
            · cases h3
            · cases h3
            · omega
            · cases h3
        | upd x hph hc =>
          exfalso
          rcases hd with hd | hd
          · dsimp only at hd; rw [hph] at hd; cases hd
          · dsimp only at hd
            rcases (hs p' hp').at' _ _ hc with ⟨h1, h3⟩ | ⟨_, h3⟩ | ⟨h1, _, h3⟩ | ⟨_, h3⟩
            · cases h3
            · cases h3
            · omega
            · cases h3
      · rw [set1_ne _ _ e] at hd ⊢
        exact h.g2 p' q hp' hq hd
  | recv p q m rest hp hq hpc hm =>
    have same : ∀ r, (set1 s.loc p (MsgLock.recv q m (s.loc p)) r).ph = (s.loc r).ph ∧
        (set1 s.loc p (MsgLock.recv q m (s.loc p)) r).pc = (s.loc r).pc ∧
        (set1 s.loc p (MsgLock.recv q m (s.loc p)) r).arr = (s.loc r).arr ∧
        (set1 s.loc p (MsgLock.recv q m (s.loc p)) r).num = (s.loc r).num := by
      intro r
      by_cases e : r = p
      · subst e; rw [set1_same]; exact recv_same q m _
      · rw [set1_ne _ _ e]; exact ⟨rfl, rfl, rfl, rfl⟩
    refine ⟨?_, ?_, ?_, ?_⟩
    · intro r hr
      obtain ⟨a, b, c, d⟩ := same r
      exact (h.pos r hr).congr a b c d
    · intro r h' hr hh'
      dsimp only
      rw [(same r).2.2.1]
      have h1 := h.mks r h' hr hh'
      by_cases e : h' = p
      · subst e
        rw [set1_same, recv_marks]
        by_cases e2 : r = q
        · subst e2
          rw [pop_eq _ _ _ hm]
          rw [hm, List.count_cons] at h1
          by_cases e3 : m = .mark
          · subst e3; simp at h1 ⊢; omega
          · simp [e3] at h1 ⊢; omega
        · rw [pop_ne _ (by simp [e2])]
          simp [e2]; omega
      · rw [set1_ne _ _ e, pop_ne _ (by simp [e])]; exact h1
    · intro a b ha hb hpc'
      dsimp only at hpc' ⊢
      rw [(same a).2.1] at hpc'
      rw [(same b).2.2.1]
      exact h.g1 a b ha hb hpc'
    · intro a b ha hb hd
      dsimp only at hd ⊢
      rw [(same a).1, (same a).2.1] at hd
      have h1 := h.g2 a b ha hb hd
      by_cases e : a = p
      · subst e; rw [set1_same, recv_marks]; omega
      · rw [set1_ne _ _ e]; exact h1
  | pass p hp hpc hx =>
    have same : ∀ r, (set1 s.loc p (passLoc (s.loc p)) r).ph = (s.loc r).ph ∧
        (set1 s.loc p (passLoc (s.loc p)) r).pc = (s.loc r).pc ∧
        (set1 s.loc p (passLoc (s.loc p)) r).arr = (s.loc r).arr ∧
        (set1 s.loc p (passLoc (s.loc p)) r).num = (s.loc r).num ∧
        (set1 s.loc p (passLoc (s.loc p)) r).marks = (s.loc r).marks := by
      intro r
      by_cases e : r = p
      · subst e; rw [set1_same]; exact ⟨rfl, rfl, rfl, rfl, rfl⟩
      · rw [set1_ne _ _ e]; exact ⟨rfl, rfl, rfl, rfl, rfl⟩
    refine ⟨?_, ?_, ?_, ?_⟩
    · intro r hr
      obtain ⟨a, b, c, d, -⟩ := same r
      exact (h.pos r hr).congr a b c d
    · intro r h' hr hh'
      dsimp only
      rw [(same r).2.2.1, (same h').2.2.2.2]
      have h1 := h.mks r h' hr hh'
      by_cases e : r = p
      · subst e
        rw [send_eq, List.count_append, passOut_count]; exact h1
      · rw [send_ne _ _ _ e]; exact h1
    · intro a b ha hb hpc'
      dsimp only at hpc' ⊢
      rw [(same a).2.1] at hpc'
      rw [(same b).2.2.1]
      exact h.g1 a b ha hb hpc'
    · intro a b ha hb hd
      dsimp only at hd ⊢
      rw [(same a).1, (same a).2.1] at hd
      rw [(same a).2.2.2.2]
      exact h.g2 a b ha hb hd

end GA.MsgLock
