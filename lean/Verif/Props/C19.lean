import Verif.Model.Mutex
import Mathlib.Data.List.Induction

/-! # C19: mutual exclusion of remote mutexes -/

namespace GA.Mutex

/-! ## the server alone: first come, first served -/

private theorem askers_append (k : Key) (a b : List Req) : askers k (a ++ b) = askers k a ++ askers k b := by
  induction a with
  | nil => rfl
  | cons r a ih =>
    cases r with
    | lock p k' => simp only [List.cons_append, askers, ih]; split <;> simp
    | unlock p k' => simpa [askers] using ih

private theorem releases_append (k : Key) (a b : List Req) :
    releases k (a ++ b) = releases k a + releases k b := by
  induction a with
  | nil => simp [releases]
  | cons r a ih =>
    cases r with
    | lock p k' => simpa [releases] using ih
    | unlock p k' => simp only [List.cons_append, releases, ih]; omega

private theorem given_append (k : Key) (a b : List (Nat × Key)) : given k (a ++ b) = given k a ++ given k b := by
  induction a with
  | nil => rfl
  | cons g a ih =>
    obtain ⟨p, k'⟩ := g
    simp only [List.cons_append, given, ih]; split <;> simp

/-- the server state after the requests `rs` -/
private def stateAfter (s : Server) : List Req → Server
  | [] => s
  | r :: rs => stateAfter (handle s r).1 rs

private theorem stateAfter_append (s : Server) (a b : List Req) :
    stateAfter s (a ++ b) = stateAfter (stateAfter s a) b := by
  induction a generalizing s with
  | nil => rfl
  | cons r a ih => exact ih _

private theorem grants_append (s : Server) (a b : List Req) :
    grants s (a ++ b) = grants s a ++ grants (stateAfter s a) b := by
  induction a generalizing s with
  | nil => rfl
  | cons r a ih => simp [grants, stateAfter, ih]

/-- what the server's tables hold after `rs`: the owner is the first asker not yet served and
released, the queue those behind -/
private def Good (rs : List Req) : Prop :=
  ∀ k, (stateAfter .init rs).owner k = (askers k rs)[releases k rs]? ∧
    (stateAfter .init rs).queue k = (askers k rs).drop (releases k rs + 1) ∧
    releases k rs ≤ (askers k rs).length ∧
    given k (grants .init rs) = mustHold k rs

private theorem proper_append {a b : List Req} (h : Proper (a ++ b)) : Proper a := by
  intro pre p k post e
  exact h pre p k (post ++ b) (by rw [e]; simp)

private theorem lockHandler_some {s : Server} {k : Key} {o : Nat} (ho : s.owner k = some o) (p : Nat) :
    lockHandler s p k = ({ s with queue := fset s.queue k (s.queue k ++ [p]) }, []) := by
  unfold lockHandler
  rw [ho]
  cases s.queue k <;> simp

private theorem good_all (rs : List Req) (h : Proper rs) : Good rs := by
  induction rs using List.reverseRecOn with
  | nil => intro k; simp [stateAfter, Server.init, askers, releases, given, grants, mustHold]
  | append_singleton rs r ih =>
    have hg := ih (proper_append h)
    intro k
    obtain ⟨h1, h2, h3, h4⟩ := hg k
    rw [stateAfter_append, grants_append, given_append, h4]
    unfold mustHold
    rw [askers_append, releases_append]
    generalize hs : stateAfter Server.init rs = s at *
    cases r with
    | lock p k' =>
      by_cases e : k' = k
      · subst e
        simp only [stateAfter, handle, askers, releases, if_true, Nat.add_zero, grants,
          List.append_nil, mustHold]
        cases ho : s.owner k' with
        | none =>
          simp only [lockHandler, ho]
          rw [ho] at h1
          have hl : (askers k' rs).length ≤ releases k' rs := by
            simpa using h1.symm
          have he : releases k' rs = (askers k' rs).length := by omega
          refine ⟨?_, ?_, by simp; omega, ?_⟩
          · simp [fset, he]
          · simp only [h2, he]
            simp
          · simp [given, he, List.take_append]
        | some q =>
          rw [lockHandler_some ho]
          rw [ho] at h1
          have hl : releases k' rs < (askers k' rs).length := by
            have := List.getElem?_eq_some_iff.1 h1.symm
            exact this.1
          refine ⟨?_, ?_, by simp; omega, ?_⟩
          · simp only [ho]
            rw [List.getElem?_append_left hl, h1]
          · simp only [fset, if_true, h2]
            rw [List.drop_append_of_le_length (by omega)]
          · simp only [given, List.append_nil]
            rw [List.take_append_of_le_length (by omega)]
      · have hne : ¬ k = k' := fun x => e x.symm
        have hu : (stateAfter s [Req.lock p k']).owner k = s.owner k ∧
            (stateAfter s [Req.lock p k']).queue k = s.queue k ∧
            given k (grants s [Req.lock p k']) = [] := by
          simp only [stateAfter, handle, lockHandler, grants]
          cases s.owner k' with
          | none => simp [fset, hne, given, e]
          | some q => cases s.queue k' <;> simp [fset, hne, given]
        simp only [askers, e, if_false, releases, List.append_nil, Nat.add_zero]
        exact ⟨hu.1.trans h1, hu.2.1.trans h2, h3, by rw [hu.2.2]; simp [mustHold]⟩
    | unlock p k' =>
      by_cases e : k' = k
      · subst e
        have hp := h rs p k' [] rfl
        simp only [stateAfter, handle, unlockHandler, askers, releases, if_true, Nat.add_zero, grants,
          List.append_nil, mustHold]
        cases hq : s.queue k' with
        | nil =>
          have hd : (askers k' rs).length = releases k' rs + 1 := by
            have : (askers k' rs).drop (releases k' rs + 1) = [] := by rw [← h2, hq]
            have := List.drop_eq_nil_iff.1 this
            omega
          refine ⟨?_, ?_, by omega, ?_⟩
          · simp only [fset, if_true]
            rw [eq_comm, List.getElem?_eq_none_iff]; omega
          · simp only [hq]
            rw [eq_comm, List.drop_eq_nil_iff]; omega
          · simp only [given, List.append_nil]
            rw [List.take_of_length_le (by omega), List.take_of_length_le (by omega)]
        | cons q l =>
          rw [hq] at h2
          have hlt : releases k' rs + 1 < (askers k' rs).length := by
            have := congrArg List.length h2
            simp at this; omega
          have hget : (askers k' rs)[releases k' rs + 1]? = some q := by
            have := congrArg (fun l => l[0]?) h2
            simpa using this.symm
          refine ⟨?_, ?_, by omega, ?_⟩
          · simp [fset, hget]
          · simp only [fset, if_true]
            have := congrArg List.tail h2
            simpa using this
          · simp only [given, if_true]
            rw [List.take_succ (i := releases k' rs + 1), hget]
            rfl
      · have hne : ¬ k = k' := fun x => e x.symm
        have hu : (stateAfter s [Req.unlock p k']).owner k = s.owner k ∧
            (stateAfter s [Req.unlock p k']).queue k = s.queue k ∧
            given k (grants s [Req.unlock p k']) = [] := by
          simp only [stateAfter, handle, unlockHandler, grants]
          cases s.queue k' <;> simp [fset, hne, given, e]
        simp only [askers, e, if_false, releases, List.append_nil, Nat.add_zero]
        exact ⟨hu.1.trans h1, hu.2.1.trans h2, h3, by rw [hu.2.2]; simp [mustHold]⟩

/-- **C19, order.** Whatever lock and unlock requests arrive at the server, in any order from any
number of processes, provided only that a mutex is released by the process it was given to: after
`r` releases of a mutex exactly the first `r + 1` requests for it (or all, if there are fewer) have been granted, each
once, in order of arrival. -/
theorem C19_first_come_first_served (rs : List Req) (h : Proper rs) (k : Key) :
    given k (grants .init rs) = mustHold k rs := (good_all rs h k).2.2.2

/-- three processes contend for one mutex, another one is used in between -/
example : Proper [.lock 1 (0, 0), .lock 2 (0, 0), .lock 2 (0, 1), .lock 3 (0, 0), .unlock 1 (0, 0)] ∧
    grants .init [.lock 1 (0, 0), .lock 2 (0, 0), .lock 2 (0, 1), .lock 3 (0, 0), .unlock 1 (0, 0)] =
      [(1, (0, 0)), (2, (0, 1)), (2, (0, 0))] := by
  refine ⟨?_, by decide⟩
  intro pre p k post e
  have : pre = [.lock 1 (0, 0), .lock 2 (0, 0), .lock 2 (0, 1), .lock 3 (0, 0)] ∧ p = 1 ∧ k = (0, 0) := by
    rcases pre with _ | ⟨a1, _ | ⟨a2, _ | ⟨a3, _ | ⟨a4, _ | ⟨a5, pre⟩⟩⟩⟩⟩ <;> simp at e
    · obtain ⟨rfl, rfl, rfl, rfl, ⟨rfl, rfl⟩, -⟩ := e
      exact ⟨rfl, rfl, rfl⟩
  obtain ⟨rfl, rfl, rfl⟩ := this
  decide

/-! ## processes, channels and servers -/

/-- the places where the permission of `p` to use `k` can be -/
private def tokens (srv : Nat → Nat) (s : Sys) (p : Nat) (k : Key) : Nat :=
  (if s.held p k then 1 else 0) + (s.acks p).count k + (s.chan p (srv k.1)).count (.unlock k)

/-- pending requests of `p` for `k` -/
private def pend (srv : Nat → Nat) (s : Sys) (p : Nat) (k : Key) : Nat :=
  (s.chan p (srv k.1)).count (.lock k) + (s.server.queue k).count p + (s.acks p).count k

private structure Ok (srv : Nat → Nat) (s : Sys) : Prop where
  tok : ∀ p k, tokens srv s p k = if s.server.owner k = some p then 1 else 0
  pend : ∀ p k, pend srv s p k = if s.waiting p = some k then 1 else 0
  queue : ∀ k, s.server.owner k = none → s.server.queue k = []
  /-- messages go to the server of the mutex -/
  route : ∀ p v m, m ∈ s.chan p v → ∀ k, (m = .lock k ∨ m = .unlock k) → v = srv k.1

private theorem count_snoc {α : Type} [BEq α] (l : List α) (a b : α) :
    (l ++ [a]).count b = l.count b + if (a == b) then 1 else 0 := by
  rw [List.count_append]; simp [List.count_cons]

private theorem ok_sendLock {srv s} (h : Ok srv s) {p : Nat} {k : Key} (hw : s.waiting p = none) :
    Ok srv { s with
        waiting := set1 s.waiting p (some k)
        chan := set1 s.chan p (set1 (s.chan p) (srv k.1) (s.chan p (srv k.1) ++ [.lock k])) } := by
  constructor
  · intro q k'
    rw [← h.tok q k']
    simp only [tokens, set1]
    by_cases hq : q = p
    · subst hq
      by_cases hv : srv k'.1 = srv k.1
      · simp [set1, hv, count_snoc]
      · simp [set1, hv]
    · simp [set1, hq]
  · intro q k'
    have hp := h.pend q k'
    simp only [pend, set1] at hp ⊢
    by_cases hq : q = p
    · subst hq
      rw [hw] at hp
      by_cases hk : k = k'
      · subst hk
        simp [set1, count_snoc] at hp ⊢
        omega
      · have hk' : ¬ (Msg.lock k = Msg.lock k') := by simpa using hk
        by_cases hv : srv k'.1 = srv k.1
        · simp [set1, hv, count_snoc, hk] at hp ⊢
          omega
        · simp [set1, hv, hk] at hp ⊢
          omega
    · simpa [set1, hq] using hp
  · exact h.queue
  · intro q v m hm k' hk'
    simp only [set1] at hm
    by_cases hq : q = p
    · subst hq
      by_cases hv : v = srv k.1
      · subst hv
        simp [set1] at hm
        rcases hm with hm | hm
        · exact h.route q _ m hm k' hk'
        · subst hm
          rcases hk' with hk' | hk' <;> cases hk'
          rfl
      · simp [set1, hv] at hm
        exact h.route q v m hm k' hk'
    · simp [set1, hq] at hm
      exact h.route q v m hm k' hk'

private theorem ok_sendUnlock {srv s} (h : Ok srv s) {p : Nat} {k : Key} (hh : s.held p k = true) :
    Ok srv { s with
        held := set1 s.held p (fset (s.held p) k false)
        chan := set1 s.chan p (set1 (s.chan p) (srv k.1) (s.chan p (srv k.1) ++ [.unlock k])) } := by
  constructor
  · intro q k'
    rw [← h.tok q k']
    simp only [tokens, set1]
    by_cases hq : q = p
    · subst hq
      by_cases hk : k = k'
      · subst hk
        simp [set1, count_snoc, fset, hh]
        omega
      · have hk2 : ¬ k' = k := fun e => hk e.symm
        by_cases hv : srv k'.1 = srv k.1
        · simp [set1, hv, count_snoc, hk, fset, hk2]
        · simp [set1, hv, fset, hk2]
    · simp [set1, hq]
  · intro q k'
    rw [← h.pend q k']
    simp only [pend, set1]
    by_cases hq : q = p
    · subst hq
      by_cases hv : srv k'.1 = srv k.1
      · simp [set1, hv, count_snoc]
      · simp [set1, hv]
    · simp [set1, hq]
  · exact h.queue
  · intro q v m hm k' hk'
    simp only [set1] at hm
    by_cases hq : q = p
    · subst hq
      by_cases hv : v = srv k.1
      · subst hv
        simp [set1] at hm
        rcases hm with hm | hm
        · exact h.route q _ m hm k' hk'
        · subst hm
          rcases hk' with hk' | hk' <;> cases hk'
          rfl
      · simp [set1, hv] at hm
        exact h.route q v m hm k' hk'
    · simp [set1, hq] at hm
      exact h.route q v m hm k' hk'

private theorem route_pop {srv} {s : Sys} (h : Ok srv s) {p v : Nat} {m : Msg} {l : List Msg}
    (hc : s.chan p v = m :: l) :
    ∀ q w m, m ∈ set1 s.chan p (set1 (s.chan p) v l) q w → ∀ k, (m = .lock k ∨ m = .unlock k) →
      w = srv k.1 := by
  intro q w m' hm k' hk'
  refine h.route q w m' ?_ k' hk'
  simp only [set1] at hm
  by_cases hq : q = p
  · subst hq
    by_cases hv : w = v
    · subst hv; simp [set1] at hm; rw [hc]; simp [set1, hm]
    · simpa [set1, hv] using hm
  · simpa [set1, hq] using hm

private theorem ok_lock {srv s} (h : Ok srv s) {p v : Nat} {k : Key} {l : List Msg}
    (hc : s.chan p v = .lock k :: l) :
    Ok srv { s with
        server := (lockHandler s.server p k).1
        acks := pushAcks s.acks (lockHandler s.server p k).2
        chan := set1 s.chan p (set1 (s.chan p) v l) } := by
  have hv : v = srv k.1 := h.route p v (.lock k) (by rw [hc]; simp) k (.inl rfl)
  subst hv
  have hp := h.pend p k
  have hpl : (s.chan p (srv k.1)).count (.lock k) = 1 + l.count (.lock k) := by rw [hc]; simp; omega
  cases ho : s.server.owner k with
  | none =>
    simp only [lockHandler, ho, pushAcks]
    constructor
    · intro q k'
      have ht := h.tok q k'
      simp only [tokens, set1, fset] at ht ⊢
      by_cases hk : k' = k
      · subst hk
        rw [ho] at ht
        by_cases hq : q = p
        · subst hq
          simp [set1, hc] at ht
          simp [set1, count_snoc, ht]
        · have hq' : ¬ p = q := fun e => hq e.symm
          simp [set1, hq, hq'] at ht ⊢
          exact ht
      · have hk2 : ¬ k = k' := fun e => hk e.symm
        by_cases hq : q = p
        · subst hq
          by_cases hw : srv k'.1 = srv k.1
          · simp [set1, hw, hc, hk, count_snoc, hk2] at ht ⊢
            exact ht
          · simp [set1, hw, hk, count_snoc, hk2] at ht ⊢
            exact ht
        · simp [set1, hq, hk] at ht ⊢
          exact ht
    · intro q k'
      have ht := h.pend q k'
      simp only [pend, set1, fset] at ht ⊢
      by_cases hq : q = p
      · subst hq
        by_cases hk : k' = k
        · subst hk
          simp only [hpl] at ht
          simp [set1, count_snoc]
          rw [← ht]; omega
        · have hk2 : ¬ k = k' := fun e => hk e.symm
          by_cases hw : srv k'.1 = srv k.1
          · simp [set1, hw, hc, hk, count_snoc, hk2] at ht ⊢
            exact ht
          · simp [set1, hw, count_snoc, hk2] at ht ⊢
            exact ht
      · simpa [set1, hq] using ht
    · intro k' hk'
      simp only [fset] at hk'
      split at hk'
      · simp [set1] at hk'
      · exact h.queue k' hk'
    · exact route_pop h hc
  | some o =>
    simp only [lockHandler_some ho, pushAcks]
    constructor
    · intro q k'
      have ht := h.tok q k'
      simp only [tokens, set1] at ht ⊢
      by_cases hq : q = p
      · subst hq
        by_cases hw : srv k'.1 = srv k.1
        · simp [set1, hw, hc] at ht ⊢
          exact ht
        · simp [set1, hw] at ht ⊢
          exact ht
      · simp [set1, hq] at ht ⊢
        exact ht
    · intro q k'
      have ht := h.pend q k'
      simp only [pend, set1, fset] at ht ⊢
      by_cases hk : k' = k
      · subst hk
        by_cases hq : q = p
        · subst hq
          simp only [hpl] at ht
          simp [set1, count_snoc]
          rw [← ht]; omega
        · have hq' : ¬ p = q := fun e => hq e.symm
          simp [set1, hq, hq', count_snoc] at ht ⊢
          exact ht
      · have hk2 : ¬ k = k' := fun e => hk e.symm
        by_cases hq : q = p
        · subst hq
          by_cases hw : srv k'.1 = srv k.1
          · simp [set1, hw, hc, hk, hk2] at ht ⊢
            exact ht
          · simp [set1, hw, hk] at ht ⊢
            exact ht
        · simp [set1, hq, hk] at ht ⊢
          exact ht
    · intro k' hk'
      simp only [fset]
      split
      · next e => subst e; simp [set1, ho] at hk'
      · exact h.queue k' hk'
    · exact route_pop h hc

private theorem ok_unlock {srv s} (h : Ok srv s) {p v : Nat} {k : Key} {l : List Msg}
    (hc : s.chan p v = .unlock k :: l) :
    Ok srv { s with
        server := (unlockHandler s.server p k).1
        acks := pushAcks s.acks (unlockHandler s.server p k).2
        chan := set1 s.chan p (set1 (s.chan p) v l) } := by
  have hv : v = srv k.1 := h.route p v (.unlock k) (by rw [hc]; simp) k (.inr rfl)
  subst hv
  have hpl : (s.chan p (srv k.1)).count (.unlock k) = 1 + l.count (.unlock k) := by rw [hc]; simp; omega
  have htp := h.tok p k
  have hown : s.server.owner k = some p := by
    simp only [tokens, hpl] at htp
    by_cases e : s.server.owner k = some p
    · exact e
    · simp [set1, e] at htp
  unfold unlockHandler
  cases hq0 : s.server.queue k with
  | nil =>
    simp only [pushAcks]
    constructor
    · intro q k'
      have ht := h.tok q k'
      simp only [tokens, set1, fset] at ht ⊢
      by_cases hk : k' = k
      · subst hk
        rw [hown] at ht
        by_cases hq : q = p
        · subst hq
          simp only [hpl, reduceIte] at ht
          simp only [reduceIte, set1, reduceCtorEq]
          omega
        · have hq' : ¬ p = q := fun e => hq e.symm
          simp [set1, hq, hq'] at ht ⊢
          exact ht
      · have hk2 : ¬ k = k' := fun e => hk e.symm
        by_cases hq : q = p
        · subst hq
          by_cases hw : srv k'.1 = srv k.1
          · simp [set1, hw, hc, hk, hk2] at ht ⊢
            exact ht
          · simp [set1, hw, hk] at ht ⊢
            exact ht
        · simp [set1, hq, hk] at ht ⊢
          exact ht
    · intro q k'
      have ht := h.pend q k'
      simp only [pend, set1] at ht ⊢
      by_cases hq : q = p
      · subst hq
        by_cases hw : srv k'.1 = srv k.1
        · simp [set1, hw, hc] at ht ⊢
          exact ht
        · simp [set1, hw] at ht ⊢
          exact ht
      · simpa [set1, hq] using ht
    · intro k' hk'
      simp only [fset] at hk'
      split at hk'
      · next e => subst e; exact hq0
      · exact h.queue k' hk'
    · exact route_pop h hc
  | cons r rest =>
    simp only [pushAcks]
    constructor
    · intro q k'
      have ht := h.tok q k'
      simp only [tokens, set1, fset] at ht ⊢
      by_cases hk : k' = k
      · subst hk
        rw [hown] at ht
        by_cases hq : q = p
        · subst hq
          simp only [hpl] at ht
          by_cases hr : q = r
          · subst hr
            simp [set1, count_snoc] at ht ⊢
            omega
          · have hr' : ¬ r = q := fun e => hr e.symm
            simp only [reduceIte] at ht
            simp only [reduceIte, set1, Option.some.injEq, hr, hr']
            omega
        · have hq' : ¬ p = q := fun e => hq e.symm
          by_cases hr : q = r
          · subst hr
            simp [set1, hq, hq', count_snoc] at ht ⊢
            simp [set1, ht]
          · have hr' : ¬ r = q := fun e => hr e.symm
            simp [set1, hq, hq', hr, hr'] at ht ⊢
            exact ht
      · have hk2 : ¬ k = k' := fun e => hk e.symm
        have hack : (if q = r then s.acks r ++ [k] else s.acks q).count k' = (s.acks q).count k' := by
          split
          · next e => subst e; simp [set1, count_snoc, hk2]
          · rfl
        rw [hack]
        by_cases hq : q = p
        · subst hq
          by_cases hw : srv k'.1 = srv k.1
          · simp [set1, hw, hc, hk, hk2] at ht ⊢
            exact ht
          · simp [set1, hw, hk] at ht ⊢
            exact ht
        · simp [set1, hq, hk] at ht ⊢
          exact ht
    · intro q k'
      have ht := h.pend q k'
      show ((set1 s.chan p (set1 (s.chan p) (srv k.1) l)) q (srv k'.1)).count (.lock k') +
        (fset s.server.queue k rest k').count q + (set1 s.acks r (s.acks r ++ [k]) q).count k' = _
      simp only [pend] at ht
      have hch : ((set1 s.chan p (set1 (s.chan p) (srv k.1) l)) q (srv k'.1)).count (.lock k') =
          (s.chan q (srv k'.1)).count (.lock k') := by
        by_cases hq : q = p
        · subst hq
          by_cases hw : srv k'.1 = srv k.1
          · simp [set1, hw, hc]
          · simp [set1, hw]
        · simp [set1, hq]
      rw [hch]
      simp only [fset, set1]
      by_cases hk : k' = k
      · subst hk
        rw [hq0] at ht
        simp only [if_true]
        by_cases hr : q = r
        · subst hr
          simp [set1, count_snoc] at ht ⊢
          omega
        · have hr' : ¬ r = q := fun e => hr e.symm
          simp [set1, hr, hr'] at ht ⊢
          exact ht
      · have hk2 : ¬ k = k' := fun e => hk e.symm
        have hack : (if q = r then s.acks r ++ [k] else s.acks q).count k' = (s.acks q).count k' := by
          split
          · next e => subst e; simp [set1, count_snoc, hk2]
          · rfl
        rw [hack]
        simpa [set1, hk] using ht
    · intro k' hk'
      simp only [fset] at hk' ⊢
      split at hk'
      · simp [set1] at hk'
      · next e => rw [if_neg e]; exact h.queue k' hk'
    · exact route_pop h hc

private theorem ok_ack {srv s} (h : Ok srv s) {p : Nat} {k : Key} {l : List Key}
    (ha : s.acks p = k :: l) :
    Ok srv { s with
        acks := set1 s.acks p l
        waiting := set1 s.waiting p none
        held := set1 s.held p (fset (s.held p) k true) } := by
  have hcnt : (s.acks p).count k = 1 + l.count k := by rw [ha]; simp; omega
  constructor
  · intro q k'
    have ht := h.tok q k'
    rw [← ht]
    simp only [tokens, set1, fset] at ht ⊢
    by_cases hq : q = p
    · subst hq
      by_cases hk : k' = k
      · subst hk
        rw [hcnt] at ht ⊢
        have hh : s.held q k' = false := by
          cases e : s.held q k' with
          | false => rfl
          | true => rw [e, if_pos rfl] at ht; split at ht <;> omega
        simp only [hh, fset, reduceIte, Bool.false_eq_true]
        omega
      · have hk2 : ¬ k = k' := fun e => hk e.symm
        simp [set1, fset, hk, ha, hk2]
    · simp [set1, hq]
  · intro q k'
    have ht := h.pend q k'
    simp only [pend, set1] at ht ⊢
    by_cases hq : q = p
    · subst hq
      have hw : s.waiting q = some k := by
        have := h.pend q k
        simp only [pend, hcnt] at this
        by_cases e : s.waiting q = some k
        · exact e
        · simp [set1, e] at this
      by_cases hk : k' = k
      · subst hk
        rw [hcnt, hw] at ht
        simp [set1] at ht ⊢
        omega
      · have hk2 : ¬ k = k' := fun e => hk e.symm
        rw [ha, hw] at ht
        simp [set1, hk2] at ht ⊢
        exact ht
    · simpa [set1, hq] using ht
  · exact h.queue
  · exact h.route

private theorem reach_ok {srv s} (h : Reach srv s) : Ok srv s := by
  induction h with
  | init =>
    constructor
    · intro p k; simp [set1, tokens, Sys.init, Server.init]
    · intro p k; simp [set1, pend, Sys.init, Server.init]
    · intro k _; rfl
    · intro p v m hm; simp [set1, Sys.init] at hm
  | step _ hs ih =>
    cases hs with
    | sendLock p k hw => exact ok_sendLock ih hw
    | sendUnlock p k _ hh => exact ok_sendUnlock ih hh
    | lock p v k l hc => exact ok_lock ih hc
    | unlock p v k l hc => exact ok_unlock ih hc
    | ack p k l ha => exact ok_ack ih ha

/-- **C19.** In every state the processes and servers can reach, under every schedule of the messages
on their way, at most one process has locked a given mutex. -/
theorem C19_mutual_exclusion (srv : Nat → Nat) (s : Sys) (h : Reach srv s) (p q : Nat) (k : Key)
    (hp : s.held p k = true) (hq : s.held q k = true) : p = q := by
  have ho := reach_ok h
  have h1 := ho.tok p k
  have h2 := ho.tok q k
  simp only [tokens, hp, hq, if_true] at h1 h2
  by_cases e1 : s.server.owner k = some p
  · by_cases e2 : s.server.owner k = some q
    · rw [e1] at e2; exact Option.some.inj e2
    · rw [if_neg e2] at h2; omega
  · rw [if_neg e1] at h1; omega

/-- **C19, no request is lost.** A process waits for a mutex only while a message is on its way or
another process (or itself) has the mutex locked. -/
theorem C19_no_lost_request (srv : Nat → Nat) (s : Sys) (h : Reach srv s) (p : Nat) (k : Key)
    (hw : s.waiting p = some k) :
    (∃ q v, s.chan q v ≠ []) ∨ (∃ q, s.acks q ≠ []) ∨ ∃ q, s.held q k = true := by
  have ho := reach_ok h
  have h1 := ho.pend p k
  rw [if_pos hw] at h1
  simp only [pend] at h1
  by_cases c1 : (s.chan p (srv k.1)).count (.lock k) = 0
  · by_cases c2 : (s.acks p).count k = 0
    · have c3 : p ∈ s.server.queue k := by
        rw [← List.count_pos_iff]; omega
      cases e : s.server.owner k with
      | none => rw [ho.queue k e] at c3; simp [set1] at c3
      | some q =>
        have h2 := ho.tok q k
        rw [if_pos e] at h2
        simp only [tokens] at h2
        by_cases d1 : s.held q k = true
        · exact .inr (.inr ⟨q, d1⟩)
        · by_cases d2 : s.acks q = []
          · refine .inl ⟨q, srv k.1, fun d3 => ?_⟩
            simp [set1, d1, d2, d3] at h2
          · exact .inr (.inl ⟨q, d2⟩)
    · exact .inr (.inl ⟨p, fun e => c2 (by simp [set1, e])⟩)
  · exact .inl ⟨p, srv k.1, fun e => c1 (by simp [set1, e])⟩

/-- An acknowledgement is only on its way to a process that waits for that mutex and does not have
it. -/
theorem C19_ack_for_waiter {srv : Nat → Nat} {s : Sys} (h : Reach srv s) {p : Nat} {k : Key} {l : List Key}
    (ha : s.acks p = k :: l) : s.waiting p = some k ∧ s.held p k = false := by
  have ho := reach_ok h
  have hcnt : (s.acks p).count k = 1 + l.count k := by rw [ha]; simp; omega
  have h1 := ho.pend p k
  have h2 := ho.tok p k
  simp only [pend, tokens, hcnt] at h1 h2
  constructor
  · by_cases e : s.waiting p = some k
    · exact e
    · rw [if_neg e] at h1; omega
  · cases e : s.held p k with
    | false => rfl
    | true => rw [e, if_pos rfl] at h2; split at h2 <;> omega

/-- a reachable state in which one process has the mutex and another one waits -/
example : ∃ s, Reach (fun _ => 0) s ∧ s.held 1 (0, 0) = true ∧ s.waiting 2 = some (0, 0) := by
  refine ⟨_, .step (.step (.step (.step .init (.sendLock 1 (0, 0) rfl)) (.lock 1 0 (0, 0) [] rfl))
    (.ack 1 (0, 0) [] rfl)) (.sendLock 2 (0, 0) rfl), by decide, by decide⟩

end GA.Mutex
