import Verif.Model.WinMutex

/-! # Lemmas on mutexes over windows -/

namespace GA.WinMutex

open GA.Spec.LockHist

/-- The mutex exists: `num` mutexes on each of `n` processes. -/
def Valid (n : Nat) (num : Nat → Nat) (k : Key) : Prop := k.1 < n ∧ k.2 < num k.1

theorem offset_mono (num : Nat → Nat) : ∀ {a b : Nat}, a ≤ b → offset num a ≤ offset num b
  | a, 0, h => by obtain rfl : a = 0 := by omega
                  exact Nat.le_refl _
  | a, b + 1, h => by
      by_cases e : a = b + 1
      · subst e; exact Nat.le_refl _
      · have := offset_mono num (show a ≤ b by omega)
        simp only [offset]; omega

theorem index_lt {n : Nat} {num : Nat → Nat} {k : Key} (h : Valid n num k) :
    index num k < offset num n := by
  have h1 := offset_mono num (show k.1 + 1 ≤ n from h.1)
  have h2 := h.2
  simp only [offset] at h1
  unfold index
  omega

theorem index_inj {n : Nat} {num : Nat → Nat} {k k' : Key} (h : Valid n num k)
    (h' : Valid n num k') (e : index num k = index num k') : k = k' := by
  obtain ⟨a, b⟩ := k
  obtain ⟨a', b'⟩ := k'
  unfold index at e
  dsimp only at e
  have h2 := h.2
  have h2' := h'.2
  dsimp only at h2 h2'
  by_cases ha : a = a'
  · subst ha
    have : b = b' := by omega
    rw [this]
  · exfalso
    by_cases hl : a < a'
    · have := offset_mono num (show a + 1 ≤ a' from hl)
      simp only [offset] at this; omega
    · have := offset_mono num (show a' + 1 ≤ a by omega)
      simp only [offset] at this; omega

theorem firstOther_none {n me : Nat} {c : Nat → Nat} (h : firstOther n me c = none) {i : Nat}
    (hi : i < n) (hne : i ≠ me) : c i = 0 := by
  unfold firstOther at h
  have := List.find?_eq_none.1 h i (by simpa using hi)
  simpa [hne] using this

theorem firstOther_some {n me q : Nat} {c : Nat → Nat} (h : firstOther n me c = some q) :
    q < n ∧ q ≠ me ∧ c q ≠ 0 ∧ ∀ i, i < q → i ≠ me → c i = 0 := by
  unfold firstOther at h
  obtain ⟨hq, as, bs, e, hall⟩ := List.find?_eq_some_iff_append.1 h
  have hm : q ∈ List.range n := List.mem_of_find?_eq_some h
  have hqn : q < n := by simpa using hm
  have hq' : c q ≠ 0 ∧ q ≠ me := by simpa using hq
  refine ⟨hqn, hq'.2, hq'.1, fun i hi hne => ?_⟩
  have hlen : as.length = q := by
    have h1 : (List.range n)[as.length]? = some q := by rw [e]; simp
    have h2 : as.length < n := by
      have := congrArg List.length e
      simp at this; omega
    rw [List.getElem?_range h2] at h1
    simpa using h1
  have hia : i ∈ as := by
    have h1 : (List.range n)[i]? = some i := List.getElem?_range (by omega)
    rw [e, List.getElem?_append_left (by omega)] at h1
    exact List.mem_of_getElem? h1
  have := hall i hia
  simpa [hne] using this

/-- Where the right to a mutex is. -/
inductive Tok where
  | free
  | held (p : Nat)
  /-- `p` is about to tell `q` -/
  | sending (p q : Nat)
  /-- a message to `q` has arrived -/
  | mailed (q : Nat)
deriving DecidableEq

def Tok.holder : Tok → Option Nat
  | .held p => some p
  | _ => none

/-- How many others may still get the mutex before process `p`, which waits. -/
def pot (p : Nat) : Tok → Nat
  | .free => 0
  | .held h => if p = 0 ∨ h = 0 then 0 else 1
  | .sending _ q => if q = p then 0 else if p = 0 ∨ q = 0 then 1 else 2
  | .mailed q => if q = p then 0 else if p = 0 ∨ q = 0 then 1 else 2

theorem pot_le (p : Nat) (hp : p < 2) (t : Tok) : pot p t ≤ p + 1 := by
  cases t <;> simp only [pot] <;> (repeat' split) <;> omega

def kupd {β : Type} (f : Key → β) (k : Key) (v : β) : Key → β := fun j => if j = k then v else f j

/-- The mutexes a process has once it goes on. -/
def ownWith (pc : Pc) (own : List Key) : List Key :=
  match pc with
  | .recv k => k :: own
  | _ => own

structure Inv (n : Nat) (num : Nat → Nat) (prog0 : Nat → List Op) (s : State) (tok : Key → Tok) :
    Prop where
  nofail : s.failed = false
  slot : ∀ k, Valid n num k → ∀ p, p < n →
    (s.win (index num k) p ≠ 0 ↔ s.pc p = .recv k ∨ tok k = .held p)
  mail : ∀ k, Valid n num k → ∀ p, s.mail p (index num k) = if tok k = .mailed p then 1 else 0
  snd : ∀ p k q, s.pc p = .send k q ↔ tok k = .sending p q
  rcv : ∀ p k, s.pc p = .recv k → Valid n num k ∧ p < n ∧ tok k ≠ .free ∧ tok k ≠ .held p
  toSend : ∀ k p q, tok k = .sending p q → s.pc q = .recv k ∧ p < n
  toMail : ∀ k q, tok k = .mailed q → s.pc q = .recv k
  heldlt : ∀ k p, tok k = .held p → p < n ∧ Valid n num k
  hold : ∀ k, holder k s.hist = (tok k).holder
  excl : Exclusive s.hist
  own : ∀ p, p < n → ∃ own, (∀ k, k ∈ own ↔ tok k = .held p) ∧
    Proper (Valid n num) (ownWith (s.pc p) own) (s.prog p) ∧
    (Ordered [] (prog0 p) → Ordered (ownWith (s.pc p) own) (s.prog p) ∧
      ∀ k, s.pc p = .recv k → ∀ a ∈ own, Before a k)
  time : ∀ p, p < n → ∀ k, times p k s.hist + locks k (s.prog p) +
    (if s.pc p = .recv k then 1 else 0) = locks k (prog0 p)
  wait : ∀ p k, waits p k s.hist = decide (s.pc p = .recv k)
  pass : ∀ p, p < 2 → ∀ k, s.pc p = .recv k → passed p k s.hist + pot p (tok k) ≤ p + 1

theorem inv_start {n : Nat} {num : Nat → Nat} {prog : Nat → List Op}
    (h : ∀ p, p < n → Proper (Valid n num) [] (prog p)) :
    Inv n num prog (start prog) fun _ => .free := by
  constructor <;> try simp [start, holder, Tok.holder, Exclusive, times, waits]
  intro p hp
  exact ⟨[], by simp, h p hp, fun ho => ho⟩

section
variable {n : Nat} {num : Nat → Nat} {prog0 : Nat → List Op} {s : State} {tok : Key → Tok}

theorem setSlot_val {k k' : Key} (hk : Valid n num k)
    (hk' : Valid n num k') (me v p : Nat) :
    setSlot s.win (index num k) me v (index num k') p =
      if k' = k ∧ p = me then v else s.win (index num k') p := by
  unfold setSlot upd
  by_cases e : k' = k
  · subst e
    simp
  · have : index num k' ≠ index num k := fun x => e (index_inj hk' hk x)
    simp [e, this]

theorem mail_val {k k' : Key} (hk : Valid n num k) (hk' : Valid n num k')
    (m : Nat → Nat → Nat) (q v p : Nat) :
    upd m q (upd (m q) (index num k) v) p (index num k') =
      if k' = k ∧ p = q then v else m p (index num k') := by
  unfold upd
  by_cases e : k' = k
  · subst e
    by_cases hp : p = q
    · subst hp; simp
    · simp [hp]
  · have : index num k' ≠ index num k := fun x => e (index_inj hk' hk x)
    by_cases hp : p = q
    · subst hp; simp [e, this]
    · simp [hp]

/-- a lock that nobody has -/
theorem inv_lock_free (h : Inv n num prog0 s tok) {me : Nat} (hme : me < n) {k : Key} {l : List Op}
    (hpc : s.pc me = .run) (hpr : s.prog me = .lock k :: l) (hk : Valid n num k)
    (hf : firstOther n me (s.win (index num k)) = none) :
    Inv n num prog0 { s with win := setSlot s.win (index num k) me 1, prog := upd s.prog me l, hist := .got me k :: .asked me k :: s.hist } (kupd tok k (.held me)) := by
  obtain ⟨ow, hmem, hpp, hord⟩ := h.own me hme
  rw [hpc, hpr] at hpp hord
  simp only [ownWith, Proper, Ordered] at hpp hord
  have hfree : tok k = .free := by
    cases ht : tok k with
    | free => rfl
    | held p =>
      have hp := (h.heldlt k p ht).1
      by_cases e : p = me
      · subst e; exact absurd ((hmem k).2 ht) hpp.2.1
      · exact absurd (firstOther_none hf hp e) ((h.slot k hk p hp).2 (.inr ht))
    | sending p q =>
      have hq := (h.toSend k p q ht).1
      have hq2 := (h.rcv q k hq).2.1
      have e : q ≠ me := by rintro rfl; rw [hpc] at hq; exact absurd hq (by simp)
      exact absurd (firstOther_none hf hq2 e) ((h.slot k hk q hq2).2 (.inl hq))
    | mailed q =>
      have hq := h.toMail k q ht
      have hq2 := (h.rcv q k hq).2.1
      have e : q ≠ me := by rintro rfl; rw [hpc] at hq; exact absurd hq (by simp)
      exact absurd (firstOther_none hf hq2 e) ((h.slot k hk q hq2).2 (.inl hq))
  have hnr : ∀ p, s.pc p ≠ .recv k := fun p hp => (h.rcv p k hp).2.2.1 hfree
  refine ⟨h.nofail, ?_, ?_, ?_, ?_, ?_, ?_, ?_, ?_, ?_, ?_, ?_, ?_, ?_⟩
  · intro k' hk' p hp
    dsimp only
    rw [setSlot_val hk hk']
    have := h.slot k' hk' p hp
    unfold kupd
    by_cases e : k' = k
    · subst e
      have := hnr p
      by_cases hp' : p = me
      · subst hp'; simp
      · have hp'' : me ≠ p := fun x => hp' x.symm
        have h0 := firstOther_none hf hp hp'
        simp [hp', hp'', h0, this]
    · simp only [e, false_and, if_false]; exact this
  · intro k' hk' p
    have := h.mail k' hk' p
    unfold kupd
    by_cases e : k' = k
    · subst e
      rw [hfree] at this
      simpa using this
    · simpa only [e, if_false] using this
  · intro p k' q
    have := h.snd p k' q
    unfold kupd
    by_cases e : k' = k
    · subst e
      rw [hfree] at this
      simpa using this
    · simpa only [e, if_false] using this
  · intro p k' hp
    have := h.rcv p k' hp
    unfold kupd
    by_cases e : k' = k
    · subst e; exact absurd hp (hnr p)
    · simpa only [e, if_false] using this
  · intro k' p q ht
    unfold kupd at ht
    split at ht
    · exact absurd ht (by simp)
    · exact h.toSend k' p q ht
  · intro k' q ht
    unfold kupd at ht
    split at ht
    · exact absurd ht (by simp)
    · exact h.toMail k' q ht
  · intro k' p ht
    unfold kupd at ht
    split at ht
    · rename_i e
      subst e
      injection ht with ht
      subst ht
      exact ⟨hme, hk⟩
    · exact h.heldlt k' p ht
  · intro k'
    have := h.hold k'
    simp only [holder, kupd]
    by_cases e : k' = k
    · subst e; simp [Tok.holder]
    · have e' : ¬ k = k' := fun x => e x.symm
      simp only [e, e', if_false]; exact this
  · refine ⟨?_, h.excl⟩
    have := h.hold k
    rw [hfree] at this
    simpa [holder, Tok.holder] using this
  · intro p hp
    by_cases e : p = me
    · subst e
      refine ⟨k :: ow, ?_, ?_, ?_⟩
      · intro k'
        unfold kupd
        by_cases e : k' = k
        · simp [e]
        · simp [e, hmem k']
      · dsimp only
        rw [hpc]
        simpa [upd, ownWith] using hpp.2.2
      · intro ho
        dsimp only
        rw [hpc]
        refine ⟨?_, by simp⟩
        simpa [upd, ownWith] using (hord ho).1.2
    · obtain ⟨ow', h1, h2, h3⟩ := h.own p hp
      refine ⟨ow', ?_, ?_, ?_⟩
      · intro k'
        rw [h1 k']
        unfold kupd
        by_cases e' : k' = k
        · subst e'
          have : me ≠ p := fun x => e x.symm
          simp [hfree, this]
        · simp [e']
      · simpa [upd, e] using h2
      · simpa [upd, e] using h3
  · intro p hp k'
    have := h.time p hp k'
    simp only [times, upd]
    by_cases e : p = me
    · subst e
      rw [hpr] at this
      simp only [locks] at this
      rw [if_pos rfl]
      by_cases e' : k = k'
      · simp only [e', and_self, if_true] at this ⊢
        omega
      · simp only [e', and_false, if_false] at this ⊢
        omega
    · have e' : ¬ me = p := fun x => e x.symm
      simp only [e, e', false_and, if_false]
      exact this
  · intro p k'
    have := h.wait p k'
    simp only [waits]
    by_cases e : me = p ∧ k = k'
    · obtain ⟨rfl, rfl⟩ := e
      simp [hpc]
    · simp only [e, if_false]; exact this
  · intro p hp k' hr
    have hkk : k' ≠ k := by rintro rfl; exact hnr p hr
    have := h.pass p hp k' hr
    have e' : ¬ k = k' := fun x => hkk x.symm
    simp only [passed, kupd, hkk, e', and_false, if_false]
    exact this

/-- a lock that somebody has or waits for -/
theorem inv_lock_wait (h : Inv n num prog0 s tok) {me : Nat} (hme : me < n) {k : Key} {l : List Op}
    (hpc : s.pc me = .run) (hpr : s.prog me = .lock k :: l) (hk : Valid n num k) {q : Nat}
    (hf : firstOther n me (s.win (index num k)) = some q) :
    Inv n num prog0 { s with win := setSlot s.win (index num k) me 1, prog := upd s.prog me l, hist := .asked me k :: s.hist, pc := upd s.pc me (.recv k) } tok := by
  obtain ⟨ow, hmem, hpp, hord⟩ := h.own me hme
  rw [hpc, hpr] at hpp hord
  simp only [ownWith, Proper, Ordered] at hpp hord
  obtain ⟨hq, hqm, hqw, -⟩ := firstOther_some hf
  have hnf : tok k ≠ .free := by
    rcases (h.slot k hk q hq).1 hqw with e | e
    · exact (h.rcv q k e).2.2.1
    · rw [e]; simp
  have hnh : tok k ≠ .held me := fun e => hpp.2.1 ((hmem k).2 e)
  have hpcne : ∀ {p : Nat} {x : Pc}, s.pc p = x → x ≠ .run → p ≠ me := by
    rintro p x e1 e2 rfl; exact e2 (e1.symm.trans hpc)
  refine ⟨h.nofail, ?_, h.mail, ?_, ?_, ?_, ?_, h.heldlt, ?_, ?_, ?_, ?_, ?_, ?_⟩
  · intro k' hk' p hp
    dsimp only
    rw [setSlot_val hk hk']
    have := h.slot k' hk' p hp
    unfold upd
    by_cases hp' : p = me
    · subst hp'
      rw [hpc] at this
      by_cases e : k' = k
      · simp [e]
      · have e' : ¬ k = k' := fun x => e x.symm
        simpa [e, e'] using this
    · simpa [hp'] using this
  · intro p k' q'
    have := h.snd p k' q'
    unfold upd
    by_cases e : p = me
    · subst e; rw [hpc] at this; simpa using this
    · simpa [e] using this
  · intro p k' hp
    unfold upd at hp
    dsimp only at hp
    split at hp
    · rename_i e
      subst e
      injection hp with hp
      subst hp
      exact ⟨hk, hme, hnf, hnh⟩
    · exact h.rcv p k' hp
  · intro k' p q' ht
    have := h.toSend k' p q' ht
    have hne := hpcne this.1 (by simp)
    simpa [upd, hne] using this
  · intro k' q' ht
    have := h.toMail k' q' ht
    have hne := hpcne this (by simp)
    simpa [upd, hne] using this
  · exact h.hold
  · exact h.excl
  · intro p hp
    by_cases e : p = me
    · subst e
      refine ⟨ow, hmem, ?_, ?_⟩
      · simpa [upd, ownWith] using hpp.2.2
      · intro ho
        have := hord ho
        refine ⟨by simpa [upd, ownWith] using this.1.2, ?_⟩
        intro k' hk' a ha
        have : k = k' := by simpa [upd] using hk'
        subst this
        exact (hord ho).1.1 a ha
    · have := h.own p hp
      simpa [upd, e] using this
  · intro p hp k'
    have := h.time p hp k'
    simp only [times, upd]
    by_cases e : p = me
    · subst e
      rw [hpr, hpc] at this
      simp only [locks] at this
      simp only [if_true]
      by_cases e' : k = k'
      · subst e'
        simp at this ⊢
        omega
      · simp [e'] at this ⊢
        omega
    · simp only [e, if_false]; exact this
  · intro p k'
    have := h.wait p k'
    simp only [waits, upd]
    by_cases e : p = me
    · subst e
      by_cases e' : k = k'
      · simp [e']
      · rw [hpc] at this
        simpa [e'] using this
    · have e' : ¬ me = p := fun x => e x.symm
      simp only [e, e', false_and, if_false]; exact this
  · intro p hp k' hr
    simp only [passed]
    by_cases e : p = me
    · subst e
      have : k = k' := by simpa [upd] using hr
      subst this
      have := pot_le p hp (tok k)
      simpa using this
    · have e' : ¬ me = p := fun x => e x.symm
      simp only [e', false_and, if_false]
      refine h.pass p hp k' ?_
      simpa [upd, e] using hr

theorem own_unlock {me : Nat} {ow : List Key} {k : Key} {t : Tok}
    (hmem : ∀ k', k' ∈ ow ↔ tok k' = .held me) (ht : t ≠ .held me) (k' : Key) :
    k' ∈ ow.filter (· ≠ k) ↔ kupd tok k t k' = .held me := by
  rw [List.mem_filter, hmem k']
  unfold kupd
  by_cases e : k' = k
  · simp [e, ht]
  · simp [e]

/-- an unlock nobody waits for -/
theorem inv_unlock_free (h : Inv n num prog0 s tok) {me : Nat} (hme : me < n) {k : Key} {l : List Op}
    (hpc : s.pc me = .run) (hpr : s.prog me = .unlock k :: l)
    (hf : firstOther n me (s.win (index num k)) = none) :
    Inv n num prog0 { s with win := setSlot s.win (index num k) me 0, prog := upd s.prog me l, hist := .freed me k :: s.hist } (kupd tok k .free) := by
  obtain ⟨ow, hmem, hpp, hord⟩ := h.own me hme
  rw [hpc, hpr] at hpp hord
  simp only [ownWith, Proper, Ordered] at hpp hord
  have hheld : tok k = .held me := (hmem k).1 hpp.1
  have hk := (h.heldlt k me hheld).2
  have hnr : ∀ p, s.pc p ≠ .recv k := fun p hp => by
    have := h.rcv p k hp
    have hpm : p ≠ me := by rintro rfl; exact this.2.2.2 hheld
    exact (h.slot k hk p this.2.1).2 (.inl hp) (firstOther_none hf this.2.1 hpm)
  refine ⟨h.nofail, ?_, ?_, ?_, ?_, ?_, ?_, ?_, ?_, ?_, ?_, ?_, ?_, ?_⟩
  · intro k' hk' p hp
    dsimp only
    rw [setSlot_val hk hk']
    have := h.slot k' hk' p hp
    unfold kupd
    by_cases e : k' = k
    · subst e
      have := hnr p
      by_cases hp' : p = me
      · subst hp'; simp [this]
      · have h0 := firstOther_none hf hp hp'
        simp [hp', h0, this]
    · simp only [e, false_and, if_false]; exact this
  · intro k' hk' p
    have := h.mail k' hk' p
    unfold kupd
    by_cases e : k' = k
    · subst e
      rw [hheld] at this
      simpa using this
    · simpa only [e, if_false] using this
  · intro p k' q
    have := h.snd p k' q
    unfold kupd
    by_cases e : k' = k
    · subst e
      rw [hheld] at this
      simpa using this
    · simpa only [e, if_false] using this
  · intro p k' hp
    have := h.rcv p k' hp
    unfold kupd
    by_cases e : k' = k
    · subst e; exact absurd hp (hnr p)
    · simpa only [e, if_false] using this
  · intro k' p q ht
    unfold kupd at ht
    split at ht
    · exact absurd ht (by simp)
    · exact h.toSend k' p q ht
  · intro k' q ht
    unfold kupd at ht
    split at ht
    · exact absurd ht (by simp)
    · exact h.toMail k' q ht
  · intro k' p ht
    unfold kupd at ht
    split at ht
    · exact absurd ht (by simp)
    · exact h.heldlt k' p ht
  · intro k'
    have := h.hold k'
    simp only [holder, kupd]
    by_cases e : k' = k
    · subst e; simp [Tok.holder]
    · have e' : ¬ k = k' := fun x => e x.symm
      simp only [e, e', if_false]; exact this
  · refine ⟨?_, h.excl⟩
    rw [h.hold k, hheld]
    rfl
  · intro p hp
    by_cases e : p = me
    · subst e
      refine ⟨ow.filter (· ≠ k), own_unlock hmem (by simp), ?_, ?_⟩
      · dsimp only
        rw [hpc]
        simpa [upd, ownWith] using hpp.2
      · intro ho
        dsimp only
        rw [hpc]
        refine ⟨?_, by simp⟩
        simpa [upd, ownWith] using (hord ho).1
    · obtain ⟨ow', h1, h2, h3⟩ := h.own p hp
      refine ⟨ow', ?_, ?_, ?_⟩
      · intro k'
        rw [h1 k']
        unfold kupd
        by_cases e' : k' = k
        · subst e'
          have : me ≠ p := fun x => e x.symm
          simp [hheld, this]
        · simp [e']
      · simpa [upd, e] using h2
      · simpa [upd, e] using h3
  · intro p hp k'
    have := h.time p hp k'
    simp only [times, upd]
    by_cases e : p = me
    · subst e
      rw [hpr] at this
      simpa [locks] using this
    · simp only [e, if_false]
      exact this
  · exact h.wait
  · intro p hp k' hr
    have hkk : k' ≠ k := by rintro rfl; exact hnr p hr
    have := h.pass p hp k' hr
    simp only [passed, kupd, hkk, if_false]
    exact this

/-- an unlock that hands the mutex on -/
theorem inv_unlock_next (h : Inv n num prog0 s tok) {me : Nat} (hme : me < n) {k : Key} {l : List Op}
    (hpc : s.pc me = .run) (hpr : s.prog me = .unlock k :: l) {q : Nat}
    (hf : firstOther n me (s.win (index num k)) = some q) :
    Inv n num prog0 { s with win := setSlot s.win (index num k) me 0, prog := upd s.prog me l, hist := .freed me k :: s.hist, pc := upd s.pc me (.send k q) } (kupd tok k (.sending me q)) := by
  obtain ⟨ow, hmem, hpp, hord⟩ := h.own me hme
  rw [hpc, hpr] at hpp hord
  simp only [ownWith, Proper, Ordered] at hpp hord
  have hheld : tok k = .held me := (hmem k).1 hpp.1
  have hk := (h.heldlt k me hheld).2
  obtain ⟨hq, hqm, hqw, hfirst⟩ := firstOther_some hf
  have hqr : s.pc q = .recv k := by
    rcases (h.slot k hk q hq).1 hqw with e | e
    · exact e
    · rw [hheld] at e; injection e with e; exact absurd e.symm hqm
  have hpcne : ∀ {p : Nat} {x : Pc}, s.pc p = x → x ≠ .run → p ≠ me := by
    rintro p x e1 e2 rfl; exact e2 (e1.symm.trans hpc)
  refine ⟨h.nofail, ?_, ?_, ?_, ?_, ?_, ?_, ?_, ?_, ?_, ?_, ?_, ?_, ?_⟩
  · intro k' hk' p hp
    dsimp only
    rw [setSlot_val hk hk']
    have := h.slot k' hk' p hp
    unfold kupd upd
    by_cases e : k' = k
    · subst e
      rw [hheld] at this
      by_cases hp' : p = me
      · subst hp'; simp
      · have hp'' : me ≠ p := fun x => hp' x.symm
        simpa [hp', hp''] using this
    · by_cases hp' : p = me
      · subst hp'; rw [hpc] at this; simpa [e] using this
      · simpa [e, hp'] using this
  · intro k' hk' p
    have := h.mail k' hk' p
    unfold kupd
    by_cases e : k' = k
    · subst e
      rw [hheld] at this
      simpa using this
    · simpa only [e, if_false] using this
  · intro p k' q'
    have := h.snd p k' q'
    unfold kupd upd
    by_cases e : p = me
    · subst e
      rw [hpc] at this
      by_cases e' : k' = k
      · subst e'; simp
      · have e'' : ¬ k = k' := fun x => e' x.symm
        simpa [e', e''] using this
    · by_cases e' : k' = k
      · subst e'
        rw [hheld] at this
        have e'' : ¬ me = p := fun x => e x.symm
        simpa [e, e''] using this
      · simpa [e, e'] using this
  · intro p k' hp
    unfold upd at hp
    dsimp only at hp
    split at hp
    · exact absurd hp (by simp)
    · have := h.rcv p k' hp
      unfold kupd
      by_cases e : k' = k
      · subst e; exact ⟨hk, this.2.1, by simp, by simp⟩
      · simpa only [e, if_false] using this
  · intro k' p q' ht
    unfold kupd at ht
    split at ht
    · rename_i e
      subst e
      injection ht with e1 e2
      subst e1 e2
      exact ⟨by simpa [upd, hqm] using hqr, hme⟩
    · have := h.toSend k' p q' ht
      have hne := hpcne this.1 (by simp)
      simpa [upd, hne] using this
  · intro k' q' ht
    unfold kupd at ht
    split at ht
    · exact absurd ht (by simp)
    · have := h.toMail k' q' ht
      have hne := hpcne this (by simp)
      simpa [upd, hne] using this
  · intro k' p ht
    unfold kupd at ht
    split at ht
    · exact absurd ht (by simp)
    · exact h.heldlt k' p ht
  · intro k'
    have := h.hold k'
    simp only [holder, kupd]
    by_cases e : k' = k
    · subst e; simp [Tok.holder]
    · have e' : ¬ k = k' := fun x => e x.symm
      simp only [e, e', if_false]; exact this
  · refine ⟨?_, h.excl⟩
    rw [h.hold k, hheld]
    rfl
  · intro p hp
    by_cases e : p = me
    · subst e
      refine ⟨ow.filter (· ≠ k), own_unlock hmem (by simp), ?_, ?_⟩
      · simpa [upd, ownWith] using hpp.2
      · intro ho
        refine ⟨?_, by simp [upd]⟩
        simpa [upd, ownWith] using (hord ho).1
    · obtain ⟨ow', h1, h2, h3⟩ := h.own p hp
      refine ⟨ow', ?_, ?_, ?_⟩
      · intro k'
        rw [h1 k']
        unfold kupd
        by_cases e' : k' = k
        · subst e'
          have : me ≠ p := fun x => e x.symm
          simp [hheld, this]
        · simp [e']
      · simpa [upd, e] using h2
      · simpa [upd, e] using h3
  · intro p hp k'
    have := h.time p hp k'
    simp only [times, upd]
    by_cases e : p = me
    · subst e
      rw [hpr, hpc] at this
      simpa [locks] using this
    · simp only [e, if_false]
      exact this
  · intro p k'
    have := h.wait p k'
    simp only [waits, upd]
    by_cases e : p = me
    · subst e; rw [hpc] at this; simpa using this
    · simp only [e, if_false]; exact this
  · intro p hp k' hr
    have hpm : p ≠ me := by
      rintro rfl
      simp [upd] at hr
    have hr' : s.pc p = .recv k' := by simpa [upd, hpm] using hr
    have := h.pass p hp k' hr'
    simp only [passed, kupd]
    by_cases e : k' = k
    · subst e
      rw [hheld] at this
      rw [if_pos rfl]
      have hpn := (h.rcv p k' hr').2.1
      have hpw := (h.slot k' hk p hpn).2 (.inl hr')
      have hle : q ≤ p := by
        by_cases hc : q ≤ p
        · exact hc
        · exact absurd (hfirst p (by omega) hpm) hpw
      have hpp : pot p (.sending me q) ≤ pot p (.held me) := by
        simp only [pot]
        (repeat' split) <;> omega
      omega
    · simp only [e, if_false]; exact this

/-- a message arrives at its reader -/
theorem inv_recv (h : Inv n num prog0 s tok) {me : Nat} {k : Key}
    (hpc : s.pc me = .recv k) (hm : s.mail me (index num k) ≠ 0) :
    Inv n num prog0 { s with mail := upd s.mail me (upd (s.mail me) (index num k) (s.mail me (index num k) - 1)), pc := upd s.pc me .run, hist := .got me k :: s.hist } (kupd tok k (.held me)) := by
  obtain ⟨hk, hme, -, hnh⟩ := h.rcv me k hpc
  obtain ⟨ow, hmem, hpp, hord⟩ := h.own me hme
  rw [hpc] at hpp hord
  simp only [ownWith] at hpp hord
  have hmail := h.mail k hk me
  have ht : tok k = .mailed me := by
    by_cases e : tok k = .mailed me
    · exact e
    · rw [if_neg e] at hmail; exact absurd hmail hm
  rw [if_pos ht] at hmail
  refine ⟨h.nofail, ?_, ?_, ?_, ?_, ?_, ?_, ?_, ?_, ?_, ?_, ?_, ?_, ?_⟩
  · intro k' hk' p hp
    have := h.slot k' hk' p hp
    dsimp only
    unfold kupd upd
    by_cases e : k' = k
    · subst e
      rw [ht] at this
      by_cases hp' : p = me
      · subst hp'
        rw [hpc] at this
        simpa using this
      · have hp'' : me ≠ p := fun x => hp' x.symm
        simpa [hp', hp''] using this
    · have e' : ¬ k = k' := fun x => e x.symm
      by_cases hp' : p = me
      · subst hp'; rw [hpc] at this; simpa [e, e'] using this
      · simpa [e, hp'] using this
  · intro k' hk' p
    dsimp only
    rw [mail_val hk hk', hmail]
    have := h.mail k' hk' p
    unfold kupd
    by_cases e : k' = k
    · subst e
      rw [ht] at this
      by_cases hp : p = me
      · simp [hp]
      · have hp'' : me ≠ p := fun x => hp x.symm
        simpa [hp, hp''] using this
    · simpa only [e, false_and, if_false] using this
  · intro p k' q'
    have := h.snd p k' q'
    unfold kupd upd
    by_cases e : p = me
    · subst e
      rw [hpc] at this
      by_cases e' : k' = k
      · subst e'; simp
      · simpa [e'] using this
    · by_cases e' : k' = k
      · subst e'
        rw [ht] at this
        simpa [e] using this
      · simpa [e, e'] using this
  · intro p k' hp
    unfold upd at hp
    dsimp only at hp
    split at hp
    · exact absurd hp (by simp)
    · rename_i hpm
      have := h.rcv p k' hp
      unfold kupd
      by_cases e : k' = k
      · subst e
        refine ⟨hk, this.2.1, by simp, ?_⟩
        rw [if_pos rfl]
        intro x; injection x with x; exact hpm x.symm
      · simpa only [e, if_false] using this
  · intro k' p q' ht'
    unfold kupd at ht'
    split at ht'
    · exact absurd ht' (by simp)
    · rename_i e
      have := h.toSend k' p q' ht'
      have hne : q' ≠ me := by
        rintro rfl; rw [hpc] at this; have := this.1; injection this with this; exact e this.symm
      simpa [upd, hne] using this
  · intro k' q' ht'
    unfold kupd at ht'
    split at ht'
    · exact absurd ht' (by simp)
    · rename_i e
      have := h.toMail k' q' ht'
      have hne : q' ≠ me := by
        rintro rfl; rw [hpc] at this; injection this with this; exact e this.symm
      simpa [upd, hne] using this
  · intro k' p ht'
    unfold kupd at ht'
    split at ht'
    · rename_i e
      subst e
      injection ht' with ht'
      subst ht'
      exact ⟨hme, hk⟩
    · exact h.heldlt k' p ht'
  · intro k'
    have := h.hold k'
    simp only [holder, kupd]
    by_cases e : k' = k
    · subst e; simp [Tok.holder]
    · have e' : ¬ k = k' := fun x => e x.symm
      simp only [e, e', if_false]; exact this
  · refine ⟨?_, h.excl⟩
    rw [h.hold k, ht]
    rfl
  · intro p hp
    by_cases e : p = me
    · subst e
      refine ⟨k :: ow, ?_, ?_, ?_⟩
      · intro k'
        unfold kupd
        by_cases e : k' = k
        · simp [e]
        · simp [e, hmem k']
      · simpa [upd, ownWith] using hpp
      · intro ho
        refine ⟨?_, by simp [upd]⟩
        simpa [upd, ownWith] using (hord ho).1
    · obtain ⟨ow', h1, h2, h3⟩ := h.own p hp
      refine ⟨ow', ?_, ?_, ?_⟩
      · intro k'
        rw [h1 k']
        unfold kupd
        by_cases e' : k' = k
        · subst e'
          have : me ≠ p := fun x => e x.symm
          simp [ht, this]
        · simp [e']
      · simpa [upd, e] using h2
      · simpa [upd, e] using h3
  · intro p hp k'
    have := h.time p hp k'
    simp only [times, upd]
    by_cases e : p = me
    · subst e
      rw [hpc] at this
      by_cases e' : k = k'
      · subst e'
        simp at this ⊢
        omega
      · simp [e'] at this ⊢
        exact this
    · have e' : ¬ me = p := fun x => e x.symm
      simp only [e, e', false_and, if_false]
      exact this
  · intro p k'
    have := h.wait p k'
    simp only [waits, upd]
    by_cases e : p = me
    · subst e
      rw [hpc] at this
      by_cases e' : k = k'
      · simp [e']
      · simpa [e'] using this
    · have e' : ¬ me = p := fun x => e x.symm
      simp only [e, e', false_and, if_false]; exact this
  · intro p hp k' hr
    have hpm : p ≠ me := by
      rintro rfl
      simp [upd] at hr
    have hpm' : me ≠ p := fun x => hpm x.symm
    have hr' : s.pc p = .recv k' := by simpa [upd, hpm] using hr
    have := h.pass p hp k' hr'
    simp only [passed, kupd]
    by_cases e : k' = k
    · subst e
      rw [ht] at this
      simp only [if_true, hpm', ne_eq, not_false_iff, and_self]
      have hpp : pot p (.held me) + 1 ≤ pot p (.mailed me) := by
        simp only [pot]
        (repeat' split) <;> omega
      omega
    · have e' : ¬ k = k' := fun x => e x.symm
      simp only [e, e', and_false, if_false]; exact this

/-- a message is sent -/
theorem inv_send (h : Inv n num prog0 s tok) {me : Nat} {k : Key} {q : Nat}
    (hpc : s.pc me = .send k q) :
    Inv n num prog0 { s with mail := upd s.mail q (upd (s.mail q) (index num k) (s.mail q (index num k) + 1)), pc := upd s.pc me .run } (kupd tok k (.mailed q)) := by
  have ht := (h.snd me k q).1 hpc
  obtain ⟨hqr, hme⟩ := h.toSend k me q ht
  obtain ⟨hk, hq, -, -⟩ := h.rcv q k hqr
  have hmail := h.mail k hk q
  rw [ht, if_neg (by simp)] at hmail
  have hrne : ∀ {p : Nat} {k' : Key}, s.pc p = .recv k' → p ≠ me := by
    rintro p k' e rfl; rw [hpc] at e; exact absurd e (by simp)
  refine ⟨h.nofail, ?_, ?_, ?_, ?_, ?_, ?_, ?_, ?_, h.excl, ?_, ?_, ?_, ?_⟩
  · intro k' hk' p hp
    have := h.slot k' hk' p hp
    dsimp only
    unfold kupd upd
    by_cases e : k' = k
    · subst e
      rw [ht] at this
      by_cases hp' : p = me
      · subst hp'
        rw [hpc] at this
        simpa using this
      · simpa [hp'] using this
    · by_cases hp' : p = me
      · subst hp'; rw [hpc] at this; simpa [e] using this
      · simpa [e, hp'] using this
  · intro k' hk' p
    dsimp only
    rw [mail_val hk hk', hmail]
    have := h.mail k' hk' p
    unfold kupd
    by_cases e : k' = k
    · subst e
      rw [ht] at this
      by_cases hp : p = q
      · simp [hp]
      · have hp'' : q ≠ p := fun x => hp x.symm
        simpa [hp, hp''] using this
    · simpa only [e, false_and, if_false] using this
  · intro p k' q'
    have := h.snd p k' q'
    unfold kupd upd
    by_cases e : p = me
    · subst e
      rw [hpc] at this
      by_cases e' : k' = k
      · subst e'; simp
      · have e'' : ¬ k = k' := fun x => e' x.symm
        simpa [e', e''] using this
    · by_cases e' : k' = k
      · subst e'
        have e'' : ¬ me = p := fun x => e x.symm
        rw [ht] at this
        simpa [e, e''] using this
      · simpa [e, e'] using this
  · intro p k' hp
    unfold upd at hp
    dsimp only at hp
    split at hp
    · exact absurd hp (by simp)
    · have := h.rcv p k' hp
      unfold kupd
      by_cases e : k' = k
      · subst e
        exact ⟨hk, this.2.1, by simp, by simp⟩
      · simpa only [e, if_false] using this
  · intro k' p q' ht'
    unfold kupd at ht'
    split at ht'
    · exact absurd ht' (by simp)
    · have := h.toSend k' p q' ht'
      have hne := hrne this.1
      simpa [upd, hne] using this
  · intro k' q' ht'
    unfold kupd at ht'
    split at ht'
    · rename_i e
      subst e
      injection ht' with ht'
      subst ht'
      have hne := hrne hqr
      simpa [upd, hne] using hqr
    · have := h.toMail k' q' ht'
      have hne := hrne this
      simpa [upd, hne] using this
  · intro k' p ht'
    unfold kupd at ht'
    split at ht'
    · exact absurd ht' (by simp)
    · exact h.heldlt k' p ht'
  · intro k'
    have := h.hold k'
    simp only [kupd]
    by_cases e : k' = k
    · subst e
      rw [ht] at this
      simpa [Tok.holder] using this
    · simp only [e, if_false]; exact this
  · intro p hp
    obtain ⟨ow', h1, h2, h3⟩ := h.own p hp
    refine ⟨ow', ?_, ?_, ?_⟩
    · intro k'
      rw [h1 k']
      unfold kupd
      by_cases e' : k' = k
      · subst e'
        simp [ht]
      · simp [e']
    · by_cases e : p = me
      · subst e; rw [hpc] at h2; simpa [upd, ownWith] using h2
      · simpa [upd, e] using h2
    · by_cases e : p = me
      · subst e; rw [hpc] at h3; simpa [upd, ownWith] using h3
      · simpa [upd, e] using h3
  · intro p hp k'
    have := h.time p hp k'
    simp only [upd]
    by_cases e : p = me
    · subst e
      rw [hpc] at this
      simpa using this
    · simp only [e, if_false]
      exact this
  · intro p k'
    have := h.wait p k'
    simp only [upd]
    by_cases e : p = me
    · subst e
      rw [hpc] at this
      simpa using this
    · simp only [e, if_false]; exact this
  · intro p hp k' hr
    have hpm : p ≠ me := by
      rintro rfl
      simp [upd] at hr
    have hr' : s.pc p = .recv k' := by simpa [upd, hpm] using hr
    have := h.pass p hp k' hr'
    simp only [kupd]
    by_cases e : k' = k
    · subst e
      rw [ht] at this
      simpa [pot] using this
    · simp only [e, if_false]; exact this

theorem inv_step (h : Inv n num prog0 s tok) {me : Nat} {s' : State}
    (hs : step n num me s = some s') : ∃ tok', Inv n num prog0 s' tok' := by
  unfold step at hs
  split at hs
  · exact absurd hs (by simp)
  · rename_i hme
    have hme : me < n := by omega
    cases hpc : s.pc me with
    | run =>
      rw [hpc] at hs
      dsimp only at hs
      cases hpr : s.prog me with
      | nil => rw [hpr] at hs; exact absurd hs (by simp)
      | cons o l =>
        rw [hpr] at hs
        obtain ⟨ow, hmem, hpp, -⟩ := h.own me hme
        rw [hpc, hpr] at hpp
        simp only [ownWith] at hpp
        cases o with
        | lock k =>
          have hk : Valid n num k := hpp.1
          have hlt := index_lt hk
          dsimp only at hs
          rw [if_neg (by omega)] at hs
          cases hf : firstOther n me (s.win (index num k)) with
          | none =>
            rw [hf] at hs
            injection hs with hs
            subst hs
            exact ⟨_, inv_lock_free h hme hpc hpr hk hf⟩
          | some q =>
            rw [hf] at hs
            injection hs with hs
            subst hs
            exact ⟨_, inv_lock_wait h hme hpc hpr hk hf⟩
        | unlock k =>
          have hk : Valid n num k := (h.heldlt k me ((hmem k).1 hpp.1)).2
          have hlt := index_lt hk
          dsimp only at hs
          rw [if_neg (by omega)] at hs
          cases hf : firstOther n me (s.win (index num k)) with
          | none =>
            rw [hf] at hs
            injection hs with hs
            subst hs
            exact ⟨_, inv_unlock_free h hme hpc hpr hf⟩
          | some q =>
            rw [hf] at hs
            injection hs with hs
            subst hs
            exact ⟨_, inv_unlock_next h hme hpc hpr hf⟩
    | recv k =>
      rw [hpc] at hs
      dsimp only at hs
      split at hs
      · exact absurd hs (by simp)
      · rename_i hm
        injection hs with hs
        subst hs
        exact ⟨_, inv_recv h hpc hm⟩
    | send k q =>
      rw [hpc] at hs
      dsimp only at hs
      injection hs with hs
      subst hs
      exact ⟨_, inv_send h hpc⟩

theorem inv_exec (h : Inv n num prog0 s tok) (sched : List Nat) :
    ∃ tok', Inv n num prog0 (exec n num sched s) tok' := by
  induction sched generalizing s tok with
  | nil => exact ⟨tok, h⟩
  | cons p l ih =>
    rw [exec]
    cases hs : step n num p s with
    | none => exact ih h
    | some s' =>
      obtain ⟨t', h'⟩ := inv_step h hs
      exact ih h'

end

/-! ## progress -/

/-- Turns a process has still to take. -/
def work (s : State) (p : Nat) : Nat := 2 * (s.prog p).length + if s.pc p = .run then 0 else 1

def totalN (f : Nat → Nat) : Nat → Nat
  | 0 => 0
  | n + 1 => totalN f n + f n

theorem totalN_lt {f g : Nat → Nat} {me : Nat} (hlt : g me < f me)
    (ho : ∀ p, p ≠ me → g p = f p) : ∀ n, me < n → totalN g n < totalN f n
  | 0, h => absurd h (by omega)
  | n + 1, h => by
      simp only [totalN]
      by_cases e : me = n
      · subst e
        have : ∀ m, m ≤ me → totalN g m = totalN f m := by
          intro m
          induction m with
          | zero => intro _; rfl
          | succ m ih => intro hm; simp only [totalN]; rw [ih (by omega), ho m (by omega)]
        rw [this me (Nat.le_refl _)]
        omega
      · have := totalN_lt hlt ho n (by omega)
        rw [ho n (fun x => e x.symm)]
        omega

theorem step_work {n : Nat} {num : Nat → Nat} {me : Nat} {s s' : State} (hf' : s'.failed = false)
    (hs : step n num me s = some s') : totalN (work s') n < totalN (work s) n := by
  unfold step at hs
  split at hs
  · exact absurd hs (by simp)
  rename_i hme
  have hme : me < n := by omega
  refine totalN_lt (me := me) ?_ ?_ n hme
  · unfold work
    split at hs
    · rename_i hpc
      split at hs
      · exact absurd hs (by simp)
      · rename_i k l hpr
        dsimp only at hs
        split at hs
        · injection hs with hs; subst hs; simp at hf'
        · split at hs <;> (injection hs with hs; subst hs; simp [upd, hpc, hpr]) <;> omega
      · rename_i k l hpr
        dsimp only at hs
        split at hs
        · injection hs with hs; subst hs; simp at hf'
        · split at hs <;> (injection hs with hs; subst hs; simp [upd, hpc, hpr]) <;> omega
    · rename_i hpc
      dsimp only at hs
      split at hs
      · exact absurd hs (by simp)
      · injection hs with hs; subst hs; simp [upd, hpc]
    · rename_i hpc
      injection hs with hs; subst hs; simp [upd, hpc]
  · intro p hp
    unfold work
    split at hs
    · rename_i hpc
      split at hs
      · exact absurd hs (by simp)
      · dsimp only at hs
        split at hs
        · injection hs with hs; subst hs; rfl
        · split at hs <;> (injection hs with hs; subst hs; simp [upd, hp])
      · dsimp only at hs
        split at hs
        · injection hs with hs; subst hs; rfl
        · split at hs <;> (injection hs with hs; subst hs; simp [upd, hp])
    · rename_i hpc
      dsimp only at hs
      split at hs
      · exact absurd hs (by simp)
      · injection hs with hs; subst hs; simp [upd, hp]
    · rename_i hpc
      injection hs with hs; subst hs; simp [upd, hp]

theorem before_index {n : Nat} {num : Nat → Nat} {a b : Key} (ha : Valid n num a)
    (h : Before a b) : index num a < index num b := by
  unfold index
  have h2 := ha.2
  rcases h with h | ⟨h, h'⟩
  · have := offset_mono num (show a.1 + 1 ≤ b.1 from h)
    simp only [offset] at this; omega
  · rw [h]; omega

/-- what it means that a process cannot take a turn -/
theorem lost_turn {n : Nat} {num : Nat → Nat} {me : Nat} {s : State} (hme : me < n)
    (hf : s.failed = false) (hs : step n num me s = none) :
    (s.pc me = .run ∧ s.prog me = []) ∨ ∃ k, s.pc me = .recv k ∧ s.mail me (index num k) = 0 := by
  unfold step at hs
  rw [if_neg (by simp [hf]; omega)] at hs
  split at hs
  · rename_i hpc
    split at hs
    · rename_i hpr; exact .inl ⟨hpc, hpr⟩
    · dsimp only at hs
      split at hs
      · exact absurd hs (by simp)
      · split at hs <;> exact absurd hs (by simp)
    · dsimp only at hs
      split at hs
      · exact absurd hs (by simp)
      · split at hs <;> exact absurd hs (by simp)
  · rename_i k hpc
    dsimp only at hs
    split at hs
    · rename_i hm; exact .inr ⟨k, hpc, hm⟩
    · exact absurd hs (by simp)
  · exact absurd hs (by simp)

/-- a process that waits makes somebody able to run -/
theorem not_stuck {n : Nat} {num : Nat → Nat} {prog0 : Nat → List Op} {s : State} {tok : Key → Tok}
    (h : Inv n num prog0 s tok) (ho : ∀ p, p < n → Ordered [] (prog0 p))
    (hst : ∀ p, p < n → step n num p s = none) :
    ∀ d p k, s.pc p = .recv k → offset num n - index num k = d → False := by
  intro d
  induction d using Nat.strongRecOn with
  | ind d ih =>
    intro p k hp hd
    obtain ⟨hk, hpn, hnf, -⟩ := h.rcv p k hp
    cases ht : tok k with
    | free => exact hnf ht
    | held q =>
      have hq := (h.heldlt k q ht).1
      obtain ⟨ow, hmem, hpp, hord⟩ := h.own q hq
      rcases lost_turn hq h.nofail (hst q hq) with ⟨h1, h2⟩ | ⟨k', h1, -⟩
      · rw [h1, h2] at hpp
        simp only [ownWith, Proper] at hpp
        have := (hmem k).2 ht
        rw [hpp] at this
        exact absurd this (by simp)
      · have hb := (hord (ho q hq)).2 k' h1 k ((hmem k).2 ht)
        have hk' := (h.rcv q k' h1).1
        have hlt := before_index hk hb
        have := index_lt hk'
        exact ih (offset num n - index num k') (by omega) q k' h1 rfl
    | sending q r =>
      have hq := (h.toSend k q r ht).2
      have hs := (h.snd q k r).2 ht
      rcases lost_turn hq h.nofail (hst q hq) with ⟨h1, -⟩ | ⟨k', h1, -⟩ <;>
        (rw [hs] at h1; exact absurd h1 (by simp))
    | mailed q =>
      have hr := h.toMail k q ht
      have hq := (h.rcv q k hr).2.1
      have hm := h.mail k hk q
      rw [if_pos ht] at hm
      rcases lost_turn hq h.nofail (hst q hq) with ⟨h1, -⟩ | ⟨k', h1, h2⟩
      · rw [hr] at h1; exact absurd h1 (by simp)
      · rw [hr] at h1
        injection h1 with h1
        subst h1
        omega

theorem stuck_done {n : Nat} {num : Nat → Nat} {prog0 : Nat → List Op} {s : State}
    {tok : Key → Tok} (h : Inv n num prog0 s tok) (ho : ∀ p, p < n → Ordered [] (prog0 p))
    (hst : ∀ p, p < n → step n num p s = none) : Done n s := by
  intro p hp
  rcases lost_turn hp h.nofail (hst p hp) with ⟨h1, h2⟩ | ⟨k, h1, -⟩
  · exact ⟨h2, h1⟩
  · exact (not_stuck h ho hst _ p k h1 rfl).elim

theorem exec_append (n : Nat) (num : Nat → Nat) (a b : List Nat) (s : State) :
    exec n num (a ++ b) s = exec n num b (exec n num a s) := by
  induction a generalizing s with
  | nil => rfl
  | cons p a ih => exact ih _

/-- the state after `t` turns of an infinite schedule -/
def runTo (n : Nat) (num : Nat → Nat) (σ : Nat → Nat) (s : State) (t : Nat) : State :=
  exec n num ((List.range t).map σ) s

theorem runTo_succ (n : Nat) (num : Nat → Nat) (σ : Nat → Nat) (s : State) (t : Nat) :
    runTo n num σ s (t + 1) =
      (step n num (σ t) (runTo n num σ s t)).getD (runTo n num σ s t) := by
  unfold runTo
  rw [List.range_succ, List.map_append, exec_append]
  rfl

/-- under a fair schedule everything ends -/
theorem fair_done {n : Nat} {num σ : Nat → Nat} {prog0 : Nat → List Op} {s : State}
    (hi : ∀ t, ∃ tok, Inv n num prog0 (runTo n num σ s t) tok)
    (ho : ∀ p, p < n → Ordered [] (prog0 p))
    (hfair : ∀ p, p < n → ∀ t, ∃ t', t ≤ t' ∧ σ t' = p) :
    ∀ w t, totalN (work (runTo n num σ s t)) n = w → ∃ t', t ≤ t' ∧ Done n (runTo n num σ s t') := by
  intro w
  induction w using Nat.strongRecOn with
  | ind w ih =>
    intro t hw
    obtain ⟨tok, h⟩ := hi t
    by_cases hst : ∀ p, p < n → step n num p (runTo n num σ s t) = none
    · exact ⟨t, Nat.le_refl _, stuck_done h ho hst⟩
    · have : ∃ p, p < n ∧ step n num p (runTo n num σ s t) ≠ none := by
        apply Classical.byContradiction
        intro hc
        exact hst fun p hp => Classical.byContradiction fun x => hc ⟨p, hp, x⟩
      obtain ⟨p, hp, hstep⟩ := this
      obtain ⟨t', ht', hσ⟩ := hfair p hp t
      -- the first turn from t on that changes anything
      have key : ∀ d u, t' = u + d → runTo n num σ s u = runTo n num σ s t →
          ∃ v, u ≤ v ∧ totalN (work (runTo n num σ s v)) n < w := by
        intro d
        induction d with
        | zero =>
          intro u hu he
          refine ⟨u + 1, by omega, ?_⟩
          rw [runTo_succ, he]
          have hu' : σ u = p := by rw [← hσ, hu]; rfl
          rw [hu']
          cases hs : step n num p (runTo n num σ s t) with
          | none => exact absurd hs hstep
          | some s' =>
            obtain ⟨tok', h'⟩ := inv_step h hs
            have := step_work h'.nofail hs
            simp only [Option.getD_some]
            omega
        | succ d ihd =>
          intro u hu he
          have hsu := runTo_succ n num σ s u
          rw [he] at hsu
          cases hs : step n num (σ u) (runTo n num σ s t) with
          | none =>
            rw [hs, Option.getD_none] at hsu
            obtain ⟨v, hv1, hv2⟩ := ihd (u + 1) (by omega) hsu
            exact ⟨v, by omega, hv2⟩
          | some s' =>
            rw [hs, Option.getD_some] at hsu
            obtain ⟨tok', h'⟩ := inv_step h hs
            have := step_work h'.nofail hs
            exact ⟨u + 1, by omega, by rw [hsu]; omega⟩
      obtain ⟨v, hv1, hv2⟩ := key (t' - t) t (by omega) rfl
      obtain ⟨t'', h1, h2⟩ := ih _ hv2 v rfl
      exact ⟨t'', by omega, h2⟩

end GA.WinMutex
