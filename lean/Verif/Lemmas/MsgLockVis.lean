import Verif.Lemmas.MsgLockInv

/-! # Lemmas on the mutexes over two-sided MPI: order of messages, updates, no fault -/

namespace GA.MsgLock

open GA.Spec.LockUse

def isBody : Msg → Bool
  | .lockReq _ _ => true
  | .unlock _ => true
  | .upd _ => true
  | _ => false

/-- the third invariant -/
structure XI (n : Nat) (prog : Nat → List Call) (s : State) : Prop where
  nofault : ∀ p, p < n → (s.loc p).fault = false
  fq : ∀ h m, ((s.loc h).grants.filter fun e => e.2.1 == m) ++ ((s.loc h).lq.filter fun e => e.2.1 == m) =
    (s.loc h).reqs.filter fun e => e.2.1 == m
  last : ∀ p h, p < n → h < n → (s.loc p).arr = 2 → ∀ a b, s.chan p h = a ++ b →
    (s.loc h).marks p + a.count .mark = 2 → ∀ x ∈ b, isBody x = false
  updl : ∀ p h, p < n → h < n → ∀ j, j < (s.loc p).pc → (prog p)[j]? = some (.upd h) →
    (p, j) ∈ (s.loc h).log ∨ .upd j ∈ s.chan p h
  vis : ∀ p h, p < n → h < n → ∀ a j b, s.chan p h = a ++ .upd j :: b → ∀ k m, j < k → k < (s.loc p).pc →
    (prog p)[k]? = some (.unlock (h, m)) → .unlock m ∈ b

theorem split_append {α : Type} {c d a b : List α} {x : α} (h : c ++ d = a ++ x :: b) :
    (∃ a', d = a' ++ x :: b) ∨ ∃ b', c = a ++ x :: b' ∧ b = b' ++ d := by
  rcases List.append_eq_append_iff.1 h with ⟨as, h1, h2⟩ | ⟨bs, h1, h2⟩
  · exact .inl ⟨as, h2⟩
  · cases bs with
    | nil => exact .inl ⟨[], by simpa using h2.symm⟩
    | cons y bs =>
      simp at h2
      obtain ⟨rfl, h2⟩ := h2
      exact .inr ⟨bs, h1, h2⟩

theorem own_body {n K me : Nat} {P : List Call} (hs : Shape n K P) {l l' : Loc} {f : Nat → List Msg}
    (ho : Own n me P l l' f) (hP : Pos K P l) (ha : l.arr = 2) : l'.arr = 2 ∧ ∀ b, f b = [] := by
  have hl := hs.len
  unfold Pos at hP
  cases ho with
  | barD hph hm => exact ⟨ha, fun _ => rfl⟩
  | dloop hph hq hm => exact ⟨ha, fun _ => rfl⟩
  | lockw hph hm => simp only [hph] at hP; omega
  | bar hph hm => simp only [hph] at hP; omega
  | create K' hph hp => have := some_lt hp; simp only [hph] at hP; omega
  | lock x hph hp => have := some_lt hp; simp only [hph] at hP; omega
  | unlock x hph hp => have := some_lt hp; simp only [hph] at hP; omega
  | updS hph hp => have := some_lt hp; simp only [hph] at hP; omega
  | upd q hph hp hq => have := some_lt hp; simp only [hph] at hP; omega
  | sync hph hp => have := some_lt hp; simp only [hph] at hP; omega
  | destroy hph hp => have := some_lt hp; simp only [hph] at hP; omega

/-- a process reaches the second barrier -/
theorem own_mark {n me : Nat} {P : List Call} {l l' : Loc} {f : Nat → List Msg}
    (ho : Own n me P l l' f) (h : l'.arr ≠ l.arr) : ∀ b, f b = [.mark] := by
  cases ho <;> first | exact absurd rfl h | exact fun _ => rfl

theorem own_hist {n me : Nat} {P : List Call} {l l' : Loc} {f : Nat → List Msg} (ho : Own n me P l l' f) :
    l'.grants = l.grants ∧ l'.reqs = l.reqs ∧ (∀ x ∈ l.log, x ∈ l'.log) := by
  cases ho <;> refine ⟨rfl, rfl, ?_⟩ <;> intro x hx <;> first | exact hx | simp [hx]

theorem recv_hist (q : Nat) (m : Msg) (l : Loc) :
    (recv q m l).grants = l.grants ∧ (∀ x ∈ l.log, x ∈ (recv q m l).log) := by
  cases m <;> refine ⟨rfl, ?_⟩ <;> intro x hx <;> first | exact hx | simp [recv, hx]

theorem XI.step {n K : Nat} {prog : Nat → List Call} {s s' : State} (hs : ∀ p, p < n → Shape n K (prog p))
    (hb : BI n K prog s) (ht : TI n K prog s) (h : XI n prog s) (st : Step n prog s s') : XI n prog s' := by
  cases st with
  | own p0 l f hp0 ho =>
    obtain ⟨ha, hmk, hlq, hpcle⟩ := own_arr ho
    obtain ⟨hgr, hre, hlog⟩ := own_hist ho
    have hlog' : ∀ r x, x ∈ (s.loc r).log → x ∈ (set1 s.loc p0 l r).log := by
      intro r x hx
      by_cases e : r = p0
      · subst e; rw [set1_same]; exact hlog x hx
      · rw [set1_ne _ _ e]; exact hx
    have hmk' : ∀ r, (set1 s.loc p0 l r).marks = (s.loc r).marks := by
      intro r
      by_cases e : r = p0
      · subst e; rw [set1_same]; exact hmk
      · rw [set1_ne _ _ e]
    refine ⟨?_, ?_, ?_, ?_, ?_⟩
    · intro p hp
      dsimp only
      by_cases e : p = p0
      · subst e
        rw [set1_same]
        have h1 := h.nofault p hp
        cases ho with
        | create K' hph hc =>
          dsimp only
          have h0 := (create_zero (hs p hp) hc).1
          have h2 := (hb.pos p hp).2
          rw [if_neg (by omega)] at h2
          have h3 : (s.loc p).lq = [] := by
            apply List.eq_nil_iff_forall_not_mem.2
            intro e he
            have h4 := (entry_waits ht hp he).1
            obtain ⟨-, h5, -⟩ := kind_wait h4
            have hr := ht.rngq p hp e he
            have h6 := lock_at (hs _ hr) h5
            have h7 := hb.g1 e.1 p hr hp h6.1
            have h8 := (hb.pos p hp).1
            simp only [hph] at h8
            have := (hs p hp).len
            omega
          rw [h1, h2, h3]; rfl
        | _ => exact h1
      · rw [set1_ne _ _ e]; exact h.nofault p hp
    · intro r m
      dsimp only
      by_cases e : r = p0
      · subst e; rw [set1_same, hgr, hlq, hre]; exact h.fq r m
      · rw [set1_ne _ _ e]; exact h.fq r m
    · intro p r hp hr harr a b hab hcnt
      dsimp only at harr hab hcnt
      rw [hmk'] at hcnt
      by_cases e : p = p0
      · subst e
        rw [set1_same] at harr
        rw [send_eq] at hab
        by_cases h2 : (s.loc p).arr = 2
        · have := (own_body (hs p hp) ho (hb.pos p hp) h2).2 r
          rw [this, List.append_nil] at hab
          exact h.last p r hp hr h2 a b hab hcnt
        · have hf := own_mark ho (by omega) r
          rw [hf] at hab
          have h3 := hb.mks p r hp hr
          have h4 := ha r
          rw [hf] at h4
          simp at h4
          have h5 : (s.chan p r).count .mark + 1 = a.count .mark + b.count .mark := by
            rw [← List.count_append, ← hab, List.count_append]; simp
          have h6 : b.count .mark = 0 := by omega
          have h7 : b = [] := by
            rcases List.eq_nil_or_concat b with h7 | ⟨b', y, h7⟩
            · exact h7
            · exfalso
              rw [h7, List.concat_eq_append, ← List.append_assoc] at hab
              have := List.append_inj_right' hab rfl
              simp at this
              rw [h7, ← this] at h6
              simp at h6
          rw [h7]
          intro x hx; cases hx
      · rw [set1_ne _ _ e] at harr
        rw [send_ne _ _ _ e] at hab
        exact h.last p r hp hr harr a b hab hcnt
    · intro p r hp hr j hj hc
      dsimp only at hj ⊢
      by_cases e : p = p0
      · subst e
        rw [set1_same] at hj
        by_cases hjj : j < (s.loc p).pc
        · rcases h.updl p r hp hr j hjj hc with h1 | h1
          · exact .inl (hlog' r _ h1)
          · right; rw [send_eq]; exact List.mem_append_left _ h1
        · -- the call that was just made
          cases ho with
          | updS hph hc' =>
            have : j = (s.loc p).pc := by dsimp only at hj; omega
            subst this
            rw [hc'] at hc; cases hc
            left; rw [set1_same]; simp
          | upd q hph hc' hq =>
            have : j = (s.loc p).pc := by dsimp only at hj; omega
            subst this
            rw [hc'] at hc; cases hc
            right; rw [send_eq]; simp [one]
          | create K' hph hc' =>
            have : j = (s.loc p).pc := by dsimp only at hj; omega
            subst this
            rw [hc'] at hc; cases hc
          | unlock x hph hc' =>
            have : j = (s.loc p).pc := by dsimp only at hj; omega
            subst this
            rw [hc'] at hc; cases hc
          | lock x hph hc' => exact absurd hj hjj
          | sync hph hc' => exact absurd hj hjj
          | destroy hph hc' => exact absurd hj hjj
          | barD hph hc' => exact absurd hj hjj
          | lockw hph hc' =>
            have : j = (s.loc p).pc := by dsimp only at hj; omega
            subst this
            have hP := (hb.pos p hp).1
            simp only [hph] at hP
            obtain ⟨⟨x, hx⟩, -⟩ := hP
            rw [hx] at hc; cases hc
          | bar hph hc' =>
            have : j = (s.loc p).pc := by dsimp only at hj; omega
            subst this
            have hP := (hb.pos p hp).1
            simp only [hph] at hP
            rcases (hs p hp).at' _ _ hc with ⟨_, h2⟩ | ⟨_, h2⟩ | ⟨h1, _⟩ | ⟨_, h2⟩
            · cases h2
            · cases h2
            · omega
            · cases h2
          | dloop hph hc' =>
            have : j = (s.loc p).pc := by dsimp only at hj; omega
            subst this
            have hP := (hb.pos p hp).1
            simp only [hph] at hP
            rcases (hs p hp).at' _ _ hc with ⟨_, h2⟩ | ⟨_, h2⟩ | ⟨_, h1, _⟩ | ⟨_, h2⟩
            · cases h2
            · cases h2
            · omega
            · cases h2
      · rw [set1_ne _ _ e] at hj
        rw [send_ne _ _ _ e]
        rcases h.updl p r hp hr j hj hc with h1 | h1
        · exact .inl (hlog' r _ h1)
        · exact .inr h1
    · intro p r hp hr a j b hab k m hjk hk hc
      dsimp only at hab hk
      by_cases e : p = p0
      · subst e
        rw [set1_same] at hk
        rw [send_eq] at hab
        rcases split_append hab with ⟨a', h1⟩ | ⟨b', h1, h2⟩
        · -- a new update
          exfalso
          cases ho with
          | upd q hph hc' hq =>
            unfold one at h1
            split at h1
            · have h3 : Msg.upd j ∈ [Msg.upd (s.loc p).pc] := by rw [h1]; simp
              simp at h3
              dsimp only at hk
              omega
            · simp at h1
          | lock x hph hc' =>
            unfold one at h1
            split at h1
            · have h3 : Msg.upd j ∈ [Msg.lockReq x.2 (s.loc p).pc] := by rw [h1]; simp
              simp at h3
            · simp at h1
          | unlock x hph hc' =>
            unfold one at h1
            split at h1
            · have h3 : Msg.upd j ∈ [Msg.unlock x.2] := by rw [h1]; simp
              simp at h3
            · simp at h1
          | sync hph hc' =>
            dsimp only at h1
            have h3 : Msg.upd j ∈ [Msg.mark] := by rw [h1]; simp
            simp at h3
          | destroy hph hc' =>
            dsimp only at h1
            have h3 : Msg.upd j ∈ [Msg.mark] := by rw [h1]; simp
            simp at h3
          | _ => simp at h1
        · rw [h2]
          by_cases hkk : k < (s.loc p).pc
          · exact List.mem_append_left _ (h.vis p r hp hr a j b' h1 k m hjk hkk hc)
          · refine List.mem_append_right _ ?_
            cases ho with
            | unlock x hph hc' =>
              have : k = (s.loc p).pc := by dsimp only at hk; omega
              subst this
              rw [hc'] at hc; cases hc
              simp [one]
            | create K' hph hc' =>
              have : k = (s.loc p).pc := by dsimp only at hk; omega
              subst this
              rw [hc'] at hc; cases hc
            | updS hph hc' =>
              have : k = (s.loc p).pc := by dsimp only at hk; omega
              subst this
              rw [hc'] at hc; cases hc
            | upd q hph hc' hq =>
              have : k = (s.loc p).pc := by dsimp only at hk; omega
              subst this
              rw [hc'] at hc; cases hc
            | lock x hph hc' => exact absurd hk hkk
            | sync hph hc' => exact absurd hk hkk
            | destroy hph hc' => exact absurd hk hkk
            | barD hph hc' => exact absurd hk hkk
            | lockw hph hc' =>
              have : k = (s.loc p).pc := by dsimp only at hk; omega
              subst this
              have hP := (hb.pos p hp).1
              simp only [hph] at hP
              obtain ⟨⟨x, hx⟩, -⟩ := hP
              rw [hx] at hc; cases hc
            | bar hph hc' =>
              have : k = (s.loc p).pc := by dsimp only at hk; omega
              subst this
              have hP := (hb.pos p hp).1
              simp only [hph] at hP
              have := unlock_at (hs p hp) hc
              omega
            | dloop hph hc' =>
              have : k = (s.loc p).pc := by dsimp only at hk; omega
              subst this
              have hP := (hb.pos p hp).1
              simp only [hph] at hP
              have := unlock_at (hs p hp) hc
              omega
      · rw [set1_ne _ _ e] at hk
        rw [send_ne _ _ _ e] at hab
        exact h.vis p r hp hr a j b hab k m hjk hk hc
  | recv p0 q0 msg rest hp0 hq0 hpc hm =>
    obtain ⟨hgr, hlog⟩ := recv_hist q0 msg (s.loc p0)
    have hsame : ∀ r, (set1 s.loc p0 (MsgLock.recv q0 msg (s.loc p0)) r).pc = (s.loc r).pc ∧
        (set1 s.loc p0 (MsgLock.recv q0 msg (s.loc p0)) r).arr = (s.loc r).arr := by
      intro r
      by_cases e : r = p0
      · subst e; rw [set1_same]
        have := recv_same q0 msg (s.loc r)
        exact ⟨this.2.1, this.2.2.1⟩
      · rw [set1_ne _ _ e]; exact ⟨rfl, rfl⟩
    refine ⟨?_, ?_, ?_, ?_, ?_⟩
    · intro p hp
      dsimp only
      by_cases e : p = p0
      · subst e
        rw [set1_same]
        have h1 := h.nofault p hp
        cases msg with
        | unlock m0 =>
          simp only [MsgLock.recv]
          -- the sender is the owner
          have howner : (s.loc p).mtx m0 = some q0 ∧ 2 ≤ (s.loc q0).pc := by
            have h1 := ht.tok q0 p m0 hq0 hp
            have h2 : 2 ≤ (s.loc q0).pc := by
              apply Classical.byContradiction
              intro hc
              have := ht.early q0 p m0 hq0 hp (by omega)
              rw [hm, List.filter_cons, if_pos (by simp [isReq])] at this
              cases this
            refine ⟨?_, h2⟩
            unfold TokS at h1
            rw [hm, List.filter_cons, if_pos (by simp [isReq])] at h1
            generalize (rest.filter (isReq m0)) = c at h1
            generalize ho : isOwner (s.loc p) m0 q0 = o at h1
            generalize ((s.loc p).lq.filter fun e => e.1 == q0 && e.2.1 == m0) = q at h1
            generalize (s.chan p q0).filter (isResp m0) = r at h1
            generalize kind (prog q0) (s.loc q0) (p, m0) = kd at h1
            cases h1 <;> simpa [isOwner] using ho
          have h3 := (num_served hs hb hq0 hp howner.2 hpc).1
          have h4 := (ht.rngm p hp m0 q0 howner.1).2
          rw [h1, howner.1, h3]
          simp; omega
        | _ => exact h1
      · rw [set1_ne _ _ e]; exact h.nofault p hp
    · intro r m
      dsimp only
      by_cases e : r = p0
      · subst e
        rw [set1_same]
        have h1 := h.fq r m
        cases msg with
        | lockReq m0 k0 =>
          simp only [MsgLock.recv, List.filter_append]
          rw [← List.append_assoc, h1]
        | _ => exact h1
      · rw [set1_ne _ _ e]; exact h.fq r m
    · intro p r hp hr harr a b hab hcnt
      dsimp only at harr hab hcnt
      rw [(hsame p).2] at harr
      by_cases e : p = q0 ∧ r = p0
      · obtain ⟨rfl, rfl⟩ := e
        rw [pop_eq _ _ _ hm] at hab
        rw [set1_same, recv_marks] at hcnt
        refine h.last p r hp hr harr (msg :: a) b (by rw [hm, hab]; rfl) ?_
        rw [List.count_cons]
        by_cases e3 : msg = .mark
        · subst e3; simp at hcnt ⊢; omega
        · simp [e3] at hcnt ⊢; omega
      · rw [pop_ne _ e] at hab
        refine h.last p r hp hr harr a b hab ?_
        by_cases e1 : r = p0
        · subst e1
          rw [set1_same, recv_marks, if_neg (fun x => e ⟨x.2, rfl⟩)] at hcnt
          exact hcnt
        · rw [set1_ne _ _ e1] at hcnt; exact hcnt
    · intro p r hp hr j hj hc
      dsimp only at hj ⊢
      rw [(hsame p).1] at hj
      rcases h.updl p r hp hr j hj hc with h1 | h1
      · left
        by_cases e1 : r = p0
        · subst e1; rw [set1_same]; exact hlog _ h1
        · rw [set1_ne _ _ e1]; exact h1
      · by_cases e : p = q0 ∧ r = p0
        · obtain ⟨rfl, rfl⟩ := e
          rw [pop_eq _ _ _ hm, set1_same]
          rw [hm] at h1
          rcases List.mem_cons.1 h1 with h1 | h1
          · left; rw [← h1]; simp [MsgLock.recv]
          · exact .inr h1
        · rw [pop_ne _ e]; exact .inr h1
    · intro p r hp hr a j b hab k m hjk hk hc
      dsimp only at hab hk
      rw [(hsame p).1] at hk
      by_cases e : p = q0 ∧ r = p0
      · obtain ⟨rfl, rfl⟩ := e
        rw [pop_eq _ _ _ hm] at hab
        exact h.vis p r hp hr (msg :: a) j b (by rw [hm, hab]; rfl) k m hjk hk hc
      · rw [pop_ne _ e] at hab
        exact h.vis p r hp hr a j b hab k m hjk hk hc
  | pass p0 hp0 hpc hx =>
    have hok := fun e he => (entries_ok hs hb ht hp0 hpc e he).1
    have hbody : ∀ b, ∀ x ∈ passOut (s.loc p0) b, ∃ m k, x = .lockResp m k := by
      intro b x hx
      obtain ⟨e, -, rfl⟩ := List.mem_map.1 hx
      exact ⟨_, _, rfl⟩
    have hsame : ∀ r, (set1 s.loc p0 (passLoc (s.loc p0)) r).pc = (s.loc r).pc ∧
        (set1 s.loc p0 (passLoc (s.loc p0)) r).arr = (s.loc r).arr ∧
        (set1 s.loc p0 (passLoc (s.loc p0)) r).marks = (s.loc r).marks ∧
        (set1 s.loc p0 (passLoc (s.loc p0)) r).log = (s.loc r).log := by
      intro r
      by_cases e : r = p0
      · subst e; rw [set1_same]; exact ⟨rfl, rfl, rfl, rfl⟩
      · rw [set1_ne _ _ e]; exact ⟨rfl, rfl, rfl, rfl⟩
    refine ⟨?_, ?_, ?_, ?_, ?_⟩
    · intro p hp
      dsimp only
      by_cases e : p = p0
      · subst e
        rw [set1_same]
        simp only [passLoc]
        rw [h.nofault p hp, pass_ok hok]; rfl
      · rw [set1_ne _ _ e]; exact h.nofault p hp
    · intro r m
      dsimp only
      by_cases e : r = p0
      · subst e
        rw [set1_same]
        have h1 := h.fq r m
        have hsp := pass_spec m (num := (s.loc r).num) (t := (s.loc r).mtx) hok
        simp only [passLoc, List.filter_append]
        rw [← h1]
        cases hmt : (s.loc r).mtx m with
        | some v =>
          simp only [hmt] at hsp
          rw [hsp.2.1, hsp.2.2, List.append_nil]
        | none =>
          cases hL : (s.loc r).lq.filter fun e => e.2.1 == m with
          | nil =>
            simp only [hmt, hL] at hsp
            rw [hsp.2.1, hsp.2.2, List.append_nil]
          | cons e L =>
            simp only [hmt, hL] at hsp
            rw [hsp.2.1, hsp.2.2]
            simp
      · rw [set1_ne _ _ e]; exact h.fq r m
    · intro p r hp hr harr a b hab hcnt
      dsimp only at harr hab hcnt
      rw [(hsame p).2.1] at harr
      rw [(hsame r).2.2.1] at hcnt
      by_cases e : p = p0
      · subst e
        rw [send_eq] at hab
        rcases List.append_eq_append_iff.1 hab with ⟨as, h1, h2⟩ | ⟨bs, h1, h2⟩
        · intro x hx
          obtain ⟨m, k, rfl⟩ := hbody r x (by rw [h2]; exact List.mem_append_right _ hx)
          rfl
        · intro x hx
          rw [h2] at hx
          rcases List.mem_append.1 hx with hx | hx
          · exact h.last p r hp hr harr a bs h1 hcnt x hx
          · obtain ⟨m, k, rfl⟩ := hbody r x hx
            rfl
      · rw [send_ne _ _ _ e] at hab
        exact h.last p r hp hr harr a b hab hcnt
    · intro p r hp hr j hj hc
      dsimp only at hj ⊢
      rw [(hsame p).1] at hj
      rw [(hsame r).2.2.2]
      rcases h.updl p r hp hr j hj hc with h1 | h1
      · exact .inl h1
      · right
        by_cases e : p = p0
        · subst e; rw [send_eq]; exact List.mem_append_left _ h1
        · rw [send_ne _ _ _ e]; exact h1
    · intro p r hp hr a j b hab k m hjk hk hc
      dsimp only at hab hk
      rw [(hsame p).1] at hk
      by_cases e : p = p0
      · subst e
        rw [send_eq] at hab
        rcases split_append hab with ⟨a', h1⟩ | ⟨b', h1, h2⟩
        · obtain ⟨m', k', h3⟩ := hbody r (.upd j) (by rw [h1]; simp)
          cases h3
        · rw [h2]
          exact List.mem_append_left _ (h.vis p r hp hr a j b' h1 k m hjk hk hc)
      · rw [send_ne _ _ _ e] at hab
        exact h.vis p r hp hr a j b hab k m hjk hk hc

/-! ## all states of an execution -/

structure AI (n K : Nat) (prog : Nat → List Call) (s : State) : Prop where
  bi : BI n K prog s
  ti : TI n K prog s
  xi : XI n prog s

theorem AI.init {n K : Nat} {prog : Nat → List Call} (hs : ∀ p, p < n → Shape n K (prog p)) :
    AI n K prog start := by
  refine ⟨⟨?_, ?_, ?_, ?_⟩, ⟨?_, ?_, ?_, ?_⟩, ⟨?_, ?_, ?_, ?_, ?_⟩⟩
  · intro p hp; simp [Pos, start]
  · intro p h _ _; simp [start]
  · intro p q _ _ h; simp [start] at h
  · intro p q hp _ h
    have := (hs p hp).len
    simp [start] at h
    exfalso; omega
  · intro p h m hp hh
    unfold TokS
    rw [kind_early (hs p hp) (by simp [start])]
    simp [start, isOwner]
    exact .idle
  · intro p h m _ _ _; simp [start]
  · intro h _ e he; simp [start] at he
  · intro h _ m p he; simp [start] at he
  · intro p _; rfl
  · intro h m; rfl
  · intro p h _ _ ha; simp [start] at ha
  · intro p h _ _ j hj; simp [start] at hj
  · intro p h _ _ a j b hab; simp [start] at hab

theorem AI.step {n K : Nat} {prog : Nat → List Call} {s s' : State} (hs : ∀ p, p < n → Shape n K (prog p))
    (h : AI n K prog s) (st : Step n prog s s') : AI n K prog s' :=
  ⟨h.bi.step hs st, h.ti.step hs h.bi st, h.xi.step hs h.bi h.ti st⟩

theorem AI.exec {n K : Nat} {prog : Nat → List Call} (hs : ∀ p, p < n → Shape n K (prog p)) :
    ∀ (sched : List (Nat × Turn)) {s : State}, AI n K prog s → AI n K prog (exec n prog sched s)
  | [], _, h => h
  | t :: ts, s, h => by
      unfold MsgLock.exec
      refine AI.exec hs ts ?_
      cases hst : MsgLock.step n prog t.1 t.2 s with
      | none => exact h
      | some s' => exact h.step hs (step_cases hst)

/-! ## consequences -/

theorem owner_of_hold {n K : Nat} {prog : Nat → List Call} {s : State} (hs : ∀ p, p < n → Shape n K (prog p))
    (h : AI n K prog s) {p : Nat} {x : Mutex}
    (hp : p < n) (hx : x.1 < n) (hh : holding ((prog p).take (s.loc p).pc) x = true) :
    (s.loc x.1).mtx x.2 = some p := by
  have hk : kind (prog p) (s.loc p) (x.1, x.2) = .hold := by
    rw [kind_ne]
    · rw [show (x.1, x.2) = x from rfl, hh]; rfl
    · rintro ⟨_, h2⟩
      have := (lock_at (hs p hp) h2).2.2.2.2
      rw [show (x.1, x.2) = x from rfl, hh] at this
      cases this
  have h1 := h.ti.tok p x.1 x.2 hp hx
  unfold TokS at h1
  rw [hk] at h1
  generalize ho : isOwner (s.loc x.1) x.2 p = o at h1
  generalize ((s.loc x.1).lq.filter fun e => e.1 == p && e.2.1 == x.2) = q at h1
  generalize (s.chan x.1 p).filter (isResp x.2) = r at h1
  generalize (s.chan p x.1).filter (isReq x.2) = c at h1
  cases h1 with
  | hold => simpa [isOwner] using ho

theorem held_home {n K : Nat} {P : List Call} (hs : Shape n K P) {x : Mutex} : ∀ {k : Nat},
    holding (P.take k) x = true → x.1 < n ∧ x.2 < K
  | 0, h => by simp [holding] at h
  | k + 1, h => by
      cases hc : P[k]? with
      | none =>
        have : P.length ≤ k := by simpa using hc
        rw [List.take_of_length_le (by omega)] at h
        refine held_home hs (k := k) ?_
        rw [List.take_of_length_le (by omega)]; exact h
      | some c =>
        rw [holding_succ hc] at h
        by_cases e : c = .lock x
        · subst e
          have := lock_at hs hc
          exact ⟨this.2.2.1, this.2.2.2.1⟩
        · rw [if_neg e] at h
          split at h
          · cases h
          · exact held_home hs h

/-- no unlock is on its way from a process while another one owns the mutex -/
theorem no_unlock {n K : Nat} {prog : Nat → List Call} {s : State} (h : AI n K prog s) {p hm m : Nat}
    (hp : p < n) (hh : hm < n) (ho : (s.loc hm).mtx m ≠ some p) : .unlock m ∉ s.chan p hm := by
  intro hmem
  have h1 := h.ti.tok p hm m hp hh
  unfold TokS at h1
  have h2 : Msg.unlock m ∈ (s.chan p hm).filter (isReq m) := by simp [hmem, isReq]
  have h3 : isOwner (s.loc hm) m p = false := by simpa [isOwner] using ho
  rw [h3] at h1
  generalize ((s.loc hm).lq.filter fun e => e.1 == p && e.2.1 == m) = q at h1
  generalize (s.chan hm p).filter (isResp m) = r at h1
  generalize (s.chan p hm).filter (isReq m) = c at h1 h2
  generalize kind (prog p) (s.loc p) (hm, m) = kd at h1
  cases h1 with
  | sent => simp at h2
  | queued => simp at h2
  | idle => simp at h2

theorem visible {n K : Nat} {prog : Nat → List Call} {s : State} (hs : ∀ p, p < n → Shape n K (prog p))
    (h : AI n K prog s) {p p' : Nat} {x : Mutex}
    (hp : p < n) (hp' : p' < n) (hne : p' ≠ p) (hh : holding ((prog p').take (s.loc p').pc) x = true)
    {j k : Nat} (hj : (prog p)[j]? = some (.upd x.1)) (hk : (prog p)[k]? = some (.unlock x)) (hjk : j < k)
    (hkp : k < (s.loc p).pc) : (p, j) ∈ (s.loc x.1).log := by
  have hx := (held_home (hs p' hp') hh).1
  have ho := owner_of_hold hs h hp' hx hh
  rcases h.xi.updl p x.1 hp hx j (by omega) hj with h1 | h1
  · exact h1
  · exfalso
    obtain ⟨a, b, hab⟩ := List.append_of_mem h1
    have h2 := h.xi.vis p x.1 hp hx a j b hab k x.2 hjk hkp hk
    refine no_unlock h hp hx (m := x.2) (by rw [ho]; simpa using hne) ?_
    rw [hab]
    exact List.mem_append_right _ (List.mem_cons_of_mem _ h2)

/-- in the loop of the destruction nothing is left to wait for -/
theorem destroy_free {n K : Nat} {prog : Nat → List Call} {s : State} (hs : ∀ p, p < n → Shape n K (prog p))
    (h : AI n K prog s) {p : Nat} (hp : p < n) (hd : (s.loc p).ph = .dloop ∨ (s.loc p).pc = (prog p).length) :
    (s.loc p).lq = [] ∧ ∀ m, (s.loc p).mtx m = none := by
  have harr : ∀ q, q < n → (s.loc q).arr = 2 ∧ (s.loc p).marks q = 2 := by
    intro q hq
    have h1 := h.bi.g2 p q hp hq hd
    have h2 := h.bi.mks q p hq hp
    have h3 := (h.bi.pos q hq).1
    have : (s.loc q).arr ≤ 2 := by
      cases hph : (s.loc q).ph <;> simp only [hph] at h3 <;> omega
    omega
  have hnw : ∀ q, q < n → ∀ x, kind (prog q) (s.loc q) x = .idle := by
    intro q hq x
    have h3 := (h.bi.pos q hq).1
    have hlen := (hs q hq).len
    have hpc : (prog q).length ≤ (s.loc q).pc + 1 ∧ (s.loc q).ph ≠ .lockw := by
      have := (harr q hq).1
      cases hph : (s.loc q).ph <;> simp only [hph] at h3 <;> simp <;> omega
    rw [kind_ne (fun y => hpc.2 y.1)]
    have h4 : holding ((prog q).take (s.loc q).pc) x = false := by
      by_cases e : (s.loc q).pc = (prog q).length - 1
      · rw [e]; exact (hs q hq).fin x
      · have h5 := (hs q hq).fin x
        have hl : (prog q).length - 1 < (prog q).length := by omega
        have hc : (prog q)[(prog q).length - 1]? = some (prog q)[(prog q).length - 1] :=
          List.getElem?_eq_getElem hl
        have h6 := holding_succ hc x
        rw [show (prog q).length - 1 + 1 = (prog q).length by omega] at h6
        rw [List.take_of_length_le (by omega)] at h6 ⊢
        rw [h6]
        rcases (hs q hq).at' _ _ hc with ⟨h7, _⟩ | ⟨h7, _⟩ | ⟨_, h7, _⟩ | ⟨_, h7⟩
        · omega
        · omega
        · omega
        · rw [h7]; simpa using h5
    rw [h4]; rfl
  constructor
  · apply List.eq_nil_iff_forall_not_mem.2
    intro e he
    have h1 := (entry_waits h.ti hp he).1
    rw [hnw _ (h.ti.rngq p hp e he)] at h1
    cases h1
  · intro m
    cases hm : (s.loc p).mtx m with
    | none => rfl
    | some q =>
      exfalso
      have hq := (h.ti.rngm p hp m q hm).1
      have h1 := h.ti.tok q p m hq hp
      unfold TokS at h1
      rw [hnw q hq, isOwner_eq hm] at h1
      simp only [decide_true] at h1
      have h2 : Msg.unlock m ∈ (s.chan q p).filter (isReq m) := by
        generalize ((s.loc p).lq.filter fun e => e.1 == q && e.2.1 == m) = qq at h1
        generalize (s.chan p q).filter (isResp m) = r at h1
        generalize (s.chan q p).filter (isReq m) = c at h1 ⊢
        cases h1 with
        | freed => simp
      have h3 := (List.mem_filter.1 h2).1
      have h4 := h.xi.last q p hq hp (harr q hq).1 [] (s.chan q p) rfl (by simp [(harr q hq).2]) _ h3
      cases h4

end GA.MsgLock
