import Verif.Lemmas.Requests

/-! # Request slots: testing -/

namespace GA.Req

/-- invariant inside `nb_test_for_all` for slot `i`: the first `K b` of the pending messages of side
`b` have been stepped over, `R b` are still to be tested -/
structure TInv (N : Nat) (s : St) (P : Nat → Bool → List Nat) (i : Nat) (K R : Bool → List Nat) :
    Prop extends Core N s P where
  split : ∀ b, P i b = K b ++ R b
  heads : ∀ j c, j ≠ i → (s.q j c).head = (P j c).head?
  headi : ∀ b, (s.q i b).head = (R b).head?

/-- the messages kept of a list -/
def keep (fl : Nat → Bool) (L : List Nat) : List Nat := L.filter fun m => !fl m

/-- the local variables after stepping over `K` -/
def locOf (K : List Nat) : Loc := ⟨K.getLast?, K.head?⟩

theorem testSide_ok {N : Nat} (fl : Nat → Bool) {i : Nat} {s : St} {P : Nat → Bool → List Nat}
    {K R : Bool → List Nat} (h : TInv N s P i K R) (b : Bool) (ret : Bool)
    (hr : ret = false → K b = []) :
    ∃ s' K' P', testSide fl i b s ret (locOf (K b)) = (s', ret || !(keep fl ((R b).take 1)).isEmpty, locOf (K' b)) ∧
      TInv N s' P' i K' (set R b (R b).tail) ∧
      K' = set K b (K b ++ keep fl ((R b).take 1)) ∧
      (∀ j c, ¬ (j = i ∧ c = b) → P' j c = P j c) ∧
      s'.log = s.log ++ ((R b).take 1).filter fl ∧ s'.inUse = s.inUse ∧ s'.fresh = s.fresh ∧
      s'.idx = s.idx := by
  unfold testSide
  cases hR : R b with
  | nil =>
    have hh : (s.q i b).head = none := by rw [h.headi, hR]; rfl
    rw [if_pos hh]
    have e1 : set K b (K b ++ keep fl ([].take 1)) = K := by
      funext c; unfold set; split
      · rename_i e; subst e; simp [keep]
      · rfl
    have e2 : set R b ([] : List Nat).tail = R := by
      funext c; unfold set; split
      · rename_i e; subst e; simp [hR]
      · rfl
    refine ⟨s, K, P, ?_, ?_, e1.symm, fun _ _ _ => rfl, by simp, rfl, rfl, rfl⟩
    · simp [keep]
    · rw [e2]; exact h
  | cons m T =>
    have hh : (s.q i b).head = some m := by rw [h.headi, hR]; rfl
    have hP : P i b = K b ++ m :: T := by rw [h.split, hR]
    have hmem : m ∈ P i b := by rw [hP]; simp
    have hlive : s.live m = true := (h.live m).2 ⟨i, b, hmem⟩
    have hnx : s.next m = T.head? := (Linked.right (K := K b) (R := m :: T) (hP ▸ h.linked i b)).1
    have hsz : (s.q i b).size ≠ 0 := by rw [h.size, hP]; simp
    rw [if_neg (by rw [hh]; simp)]
    by_cases hf : fl m = true
    · -- complete
      have ht : test1 fl s i b (K b).getLast? =
          (removed s i b (K b).getLast? m T.head? (if T = [] then none else (s.q i b).tail),
            (K b).getLast?, none, true) := by
        unfold test1 removed
        simp only [hh, hf, if_true, hnx, h.err, hlive]
        have hpl : ∀ p, (K b).getLast? = some p → s.live p = true := by
          intro p hp
          exact (h.live p).2 ⟨i, b, by rw [hP]; simp [List.mem_of_getLast? hp]⟩
        cases hK : (K b).getLast? with
        | none => cases T <;> simp [unlink, hsz]
        | some p => cases T <;> simp [unlink, hsz, hpl p hK, hnx]
      have hk : keep fl ((m :: T).take 1) = [] := by simp [keep, hf]
      have eK : set K b (K b ++ []) = K := by
        funext c; unfold set; split
        · rename_i e; subst e; simp
        · rfl
      refine ⟨_, K, setP P i b (K b ++ T), ?_, ⟨h.toCore.remove hP, ?_, ?_, ?_⟩, ?_, ?_, ?_, rfl, rfl, rfl⟩
      · show ((test1 fl s i b (K b).getLast?).1, _, _) = _
        simp only [locOf, ht, hk]
        simp
        intro e _; simp [e]
      · intro c
        by_cases hc : c = b
        · subst hc; rw [setP_same, set_same]; rfl
        · rw [setP_ne _ _ (fun e => hc e.2), set_ne _ _ hc, h.split]
      · intro j c hj
        rw [removed_other (fun e => hj e.1), setP_ne _ _ (fun e => hj e.1), h.heads j c hj]
      · intro c
        by_cases hc : c = b
        · subst hc; rw [removed_head, set_same]; rfl
        · rw [removed_other (fun e => hc e.2), set_ne _ _ hc, h.headi]
      · rw [hk, eK]
      · intro j c hjc; rw [setP_ne _ _ hjc]
      · simp [removed, hf]
    · -- still pending
      have hf' : fl m = false := by simpa using hf
      have ht : test1 fl s i b (K b).getLast? =
          ({ setQ s i b ⟨T.head?, (s.q i b).tail, (s.q i b).size⟩ with err := false }, some m, some m, false) := by
        unfold test1
        simp only [hh, hf', Bool.false_eq_true, if_false, hnx, h.err, hlive]
        rfl
      have hk : keep fl ((m :: T).take 1) = [m] := by simp [keep, hf']
      refine ⟨{ setQ s i b ⟨T.head?, (s.q i b).tail, (s.q i b).size⟩ with err := false },
        set K b (K b ++ [m]), P, ?_, ⟨⟨h.linked, ?_, ?_, ?_, h.range, h.nodup, h.disj, h.lognd, h.logdj, h.all,
        h.live, h.cnt, h.ev, h.evP, rfl⟩, ?_, ?_, ?_⟩, by rw [hk], fun _ _ _ => rfl, ?_, rfl, rfl, rfl⟩
      · show ((test1 fl s i b (K b).getLast?).1, _, _) = _
        simp only [locOf, ht, hk, set_same]
        have : (K b).head? = none → K b = [] := List.head?_eq_none_iff.1
        cases hK : K b with
        | nil => simp
        | cons a A => simp; rw [← List.cons_append, List.getLast?_concat]
      · intro j c hj
        show ((setQ s i b _).q j c).tail = none
        by_cases hjc : j = i ∧ c = b
        · obtain ⟨rfl, rfl⟩ := hjc; rw [setQ_same]; exact h.tail0 _ _ hj
        · rw [setQ_ne _ _ hjc]; exact h.tail0 _ _ hj
      · intro j c t
        show ((setQ s i b _).q j c).tail = some t → _
        by_cases hjc : j = i ∧ c = b
        · obtain ⟨rfl, rfl⟩ := hjc; rw [setQ_same]; exact h.tailL _ _ t
        · rw [setQ_ne _ _ hjc]; exact h.tailL _ _ t
      · intro j c
        show ((setQ s i b _).q j c).size = _
        by_cases hjc : j = i ∧ c = b
        · obtain ⟨rfl, rfl⟩ := hjc; rw [setQ_same]; exact h.size _ _
        · rw [setQ_ne _ _ hjc]; exact h.size _ _
      · intro c
        by_cases hc : c = b
        · subst hc; rw [set_same, set_same, hP]; simp
        · rw [set_ne _ _ hc, set_ne _ _ hc, h.split]
      · intro j c hj
        show ((setQ s i b _).q j c).head = _
        rw [setQ_ne _ _ (fun e => hj e.1)]; exact h.heads j c hj
      · intro c
        show ((setQ s i b _).q i c).head = _
        by_cases hc : c = b
        · subst hc; rw [setQ_same, set_same]; rfl
        · rw [setQ_ne _ _ (fun e => hc e.2), set_ne _ _ hc]; exact h.headi c
      · show s.log = s.log ++ _
        simp [hf']

theorem keep_append (fl : Nat → Bool) (A B : List Nat) : keep fl (A ++ B) = keep fl A ++ keep fl B := by
  simp [keep]

theorem take_tail (L : List Nat) : L.take 1 ++ L.tail = L := by
  rw [← List.drop_one, List.take_append_drop]

theorem testEnd_ok {N : Nat} (fl : Nat → Bool) (i : Nat) (fuel : Nat) {s : St}
    {P : Nat → Bool → List Nat} {K R : Bool → List Nat} (h : TInv N s P i K R) (ret : Bool)
    (hr : ret = false ↔ K false = [] ∧ K true = []) (h1 : R false = []) (h2 : R true = []) :
    ∃ s', testLoop fl i fuel s ret (locOf (K false)) (locOf (K true)) =
        (s', !((P i false).isEmpty && (P i true).isEmpty)) ∧
      Core N s' P ∧ (∀ j c, (s'.q j c).head = (P j c).head?) ∧
      s'.log = s.log ∧
      s'.inUse = (if (P i false).isEmpty && (P i true).isEmpty then set s.inUse i false else s.inUse) ∧
      s'.fresh = s.fresh ∧ s'.idx = s.idx := by
  have hd : (s.q i false).head = none ∧ (s.q i true).head = none := by
    rw [h.headi, h.headi, h1, h2]; exact ⟨rfl, rfl⟩
  have p1 : P i false = K false := by rw [h.split, h1]; simp
  have p2 : P i true = K true := by rw [h.split, h2]; simp
  have hret : ret = !((P i false).isEmpty && (P i true).isEmpty) := by
    rw [p1, p2]
    cases ret
    · have := hr.1 rfl; simp [this.1, this.2]
    · by_contra hc
      have : K false = [] ∧ K true = [] := by simpa using hc
      exact absurd (hr.2 this) (by simp)
  have hq : ∀ j c, ∃ hd', ((setQ (setQ s i false { s.q i false with head := (locOf (K false)).save }) i true
      { (setQ s i false { s.q i false with head := (locOf (K false)).save }).q i true with
        head := (locOf (K true)).save }).q j c) = { s.q j c with head := hd' } ∧ hd' = (P j c).head? := by
    intro j c
    by_cases hj : j = i
    · subst hj
      cases c
      · rw [setQ_ne _ _ (by simp), setQ_same]
        exact ⟨_, rfl, by rw [p1]; rfl⟩
      · rw [setQ_same, setQ_ne _ _ (by simp)]
        exact ⟨_, rfl, by rw [p2]; rfl⟩
    · rw [setQ_ne _ _ (fun e => hj e.1), setQ_ne _ _ (fun e => hj e.1)]
      exact ⟨_, rfl, h.heads j c hj⟩
  obtain ⟨S, hS, hrun⟩ : ∃ S : St, S = { setQ (setQ s i false { s.q i false with head := (locOf (K false)).save }) i true
          { (setQ s i false { s.q i false with head := (locOf (K false)).save }).q i true with
            head := (locOf (K true)).save } with
          inUse := if ret then s.inUse else set s.inUse i false } ∧
      testLoop fl i fuel s ret (locOf (K false)) (locOf (K true)) = (S, ret) := by
    refine ⟨_, rfl, ?_⟩
    unfold testLoop
    rw [if_pos hd]
    rfl
  refine ⟨S, by rw [hrun, ← hret], ?_⟩
  subst hS
  refine ⟨⟨h.linked, ?_, ?_, ?_, h.range, h.nodup, h.disj, h.lognd, h.logdj,
    h.all, h.live, h.cnt, h.ev, h.evP, h.err⟩, ?_, rfl, ?_, rfl, rfl⟩
  · intro j c hj
    obtain ⟨x, e, _⟩ := hq j c
    simp only [e]; exact h.tail0 j c hj
  · intro j c t
    obtain ⟨x, e, _⟩ := hq j c
    simp only [e]; exact h.tailL j c t
  · intro j c
    obtain ⟨x, e, _⟩ := hq j c
    simp only [e]; exact h.size j c
  · intro j c
    obtain ⟨x, e, e'⟩ := hq j c
    simp only [e]; exact e'
  · simp only [hret]
    cases (P i false).isEmpty && (P i true).isEmpty <;> simp

theorem testLoop_ok {N : Nat} (fl : Nat → Bool) (i : Nat) (fuel : Nat) {s : St}
    {P : Nat → Bool → List Nat} {K R : Bool → List Nat} (h : TInv N s P i K R) (ret : Bool)
    (hr : ret = false ↔ K false = [] ∧ K true = [])
    (hf : (R false).length ≤ fuel ∧ (R true).length ≤ fuel) :
    ∃ s' P', testLoop fl i fuel s ret (locOf (K false)) (locOf (K true)) =
        (s', !((P' i false).isEmpty && (P' i true).isEmpty)) ∧
      Core N s' P' ∧ (∀ j c, (s'.q j c).head = (P' j c).head?) ∧
      (∀ b, P' i b = K b ++ keep fl (R b)) ∧ (∀ j c, j ≠ i → P' j c = P j c) ∧
      (∃ L, s'.log = s.log ++ L ∧ L.Perm ((R false).filter fl ++ (R true).filter fl) ∧
        ((R false).filter fl).Sublist L ∧ ((R true).filter fl).Sublist L) ∧
      s'.inUse = (if (P' i false).isEmpty && (P' i true).isEmpty then set s.inUse i false else s.inUse) ∧
      s'.fresh = s.fresh ∧ s'.idx = s.idx := by
  induction fuel generalizing s P K R ret with
  | zero =>
    have h1 : R false = [] := List.length_eq_zero_iff.1 (by omega)
    have h2 : R true = [] := List.length_eq_zero_iff.1 (by omega)
    obtain ⟨s', e1, e2, e3, e4, e5, e6, e7⟩ := testEnd_ok fl i 0 h ret hr h1 h2
    refine ⟨s', P, e1, e2, e3, ?_, fun _ _ _ => rfl, ⟨[], by simp [e4], by simp [h1, h2], by simp [h1], by simp [h2]⟩,
      e5, e6, e7⟩
    intro b
    rw [h.split]
    cases b <;> simp [h1, h2, keep]
  | succ f ih =>
    by_cases hd : (s.q i false).head = none ∧ (s.q i true).head = none
    · have h1 : R false = [] := by
        have := h.headi false; rw [hd.1] at this; exact List.head?_eq_none_iff.1 this.symm
      have h2 : R true = [] := by
        have := h.headi true; rw [hd.2] at this; exact List.head?_eq_none_iff.1 this.symm
      obtain ⟨s', e1, e2, e3, e4, e5, e6, e7⟩ := testEnd_ok fl i (f + 1) h ret hr h1 h2
      refine ⟨s', P, e1, e2, e3, ?_, fun _ _ _ => rfl, ⟨[], by simp [e4], by simp [h1, h2], by simp [h1], by simp [h2]⟩,
        e5, e6, e7⟩
      intro b
      rw [h.split]
      cases b <;> simp [h1, h2, keep]
    · obtain ⟨s1, K1, P1, a1, a2, a3, a4, a5, a6, a7, a8⟩ := testSide_ok fl h false ret (fun e => (hr.1 e).1)
      have hK1t : K1 true = K true := by rw [a3]; exact set_ne _ _ (by simp)
      have hK1f : K1 false = K false ++ keep fl ((R false).take 1) := by rw [a3, set_same]
      obtain ⟨s2, K2, P2, b1, b2, b3, b4, b5, b6, b7, b8⟩ := testSide_ok fl a2 true
        (ret || !(keep fl ((R false).take 1)).isEmpty) (by
          intro e
          rw [hK1t]
          have : ret = false := by revert e; cases ret <;> simp
          exact (hr.1 this).2)
      have hR1t : set R false (R false).tail true = R true := set_ne _ _ (by simp)
      rw [hR1t] at b1 b2 b3 b5
      have hK2f : K2 false = K1 false := by rw [b3]; exact set_ne _ _ (by simp)
      have hK2t : K2 true = K true ++ keep fl ((R true).take 1) := by rw [b3, set_same, hK1t]
      have hR2f : set (set R false (R false).tail) true (R true).tail false = (R false).tail := by
        rw [set_ne _ _ (by simp), set_same]
      have hR2t : set (set R false (R false).tail) true (R true).tail true = (R true).tail := set_same ..
      obtain ⟨s3, P3, c1, c2, c3, c4, c5, ⟨L, c6, c7, c8, c9⟩, c10, c11, c12⟩ := ih b2
        (ret || !(keep fl ((R false).take 1)).isEmpty || !(keep fl ((R true).take 1)).isEmpty) (by
          rw [hK2f, hK2t, hK1f]
          have : ret = false ↔ K false = [] ∧ K true = [] := hr
          simp only [Bool.or_eq_false_iff, this, Bool.not_eq_false', List.isEmpty_iff, List.append_eq_nil_iff]
          tauto) (by rw [hR2f, hR2t]; simp only [List.length_tail]; omega)
      rw [hR2f] at c7 c8
      rw [hR2t] at c7 c9
      have hrun : testLoop fl i (f + 1) s ret (locOf (K false)) (locOf (K true)) =
          testLoop fl i f s2 (ret || !(keep fl ((R false).take 1)).isEmpty || !(keep fl ((R true).take 1)).isEmpty)
            (locOf (K2 false)) (locOf (K2 true)) := by
        conv => lhs; unfold testLoop
        rw [if_neg hd]
        simp only [a1]
        rw [← hK1t]
        simp only [b1]
        rw [hK2f]
      refine ⟨s3, P3, by rw [hrun]; exact c1, c2, c3, ?_, ?_, ?_, ?_, by rw [c11, b7, a7], by rw [c12, b8, a8]⟩
      · intro b
        rw [c4]
        cases b
        · rw [hR2f, hK2f, hK1f, List.append_assoc, ← keep_append, take_tail]
        · rw [hR2t, hK2t, List.append_assoc, ← keep_append, take_tail]
      · intro j c hj
        rw [c5 j c hj, b4 j c (fun e => hj e.1), a4 j c (fun e => hj e.1)]
      · have q1 : (R false).filter fl = ((R false).take 1).filter fl ++ (R false).tail.filter fl := by
          rw [← List.filter_append, take_tail]
        have q2 : (R true).filter fl = ((R true).take 1).filter fl ++ (R true).tail.filter fl := by
          rw [← List.filter_append, take_tail]
        refine ⟨((R false).take 1).filter fl ++ ((R true).take 1).filter fl ++ L, ?_, ?_, ?_, ?_⟩
        · rw [c6, b5, a5]; simp only [List.append_assoc]
        · rw [q1, q2]
          refine (List.Perm.append_left _ c7).trans ?_
          rw [List.append_assoc, List.append_assoc]
          apply List.Perm.append_left
          rw [← List.append_assoc, ← List.append_assoc]
          apply List.Perm.append_right
          exact List.perm_append_comm
        · rw [q1, List.append_assoc]
          exact List.Sublist.append_left (c8.trans (List.sublist_append_right _ _)) _
        · rw [q2, List.append_assoc]
          exact (List.Sublist.append_left c9 _).trans (List.sublist_append_right _ _)
      · rw [c10, b6, a6]

theorem Inv.testFor {N : Nat} {s : St} {P : Nat → Bool → List Nat} (h : Inv N s P) (fl : Nat → Bool)
    (i : Nat) :
    ∃ s' P', testFor fl s i = (s', !((P' i false).isEmpty && (P' i true).isEmpty)) ∧
      Inv N s' P' ∧ (∀ b, P' i b = keep fl (P i b)) ∧ (∀ j c, j ≠ i → P' j c = P j c) ∧
      (∃ L, s'.log = s.log ++ L ∧ L.Perm ((P i false).filter fl ++ (P i true).filter fl) ∧
        ((P i false).filter fl).Sublist L ∧ ((P i true).filter fl).Sublist L) ∧
      s'.inUse = (if (P' i false).isEmpty && (P' i true).isEmpty then set s.inUse i false else s.inUse) ∧
      s'.fresh = s.fresh := by
  have ht : TInv N s P i (fun _ => []) (P i) :=
    ⟨h.toCore, fun _ => rfl, fun j c _ => h.head j c, fun b => h.head i b⟩
  obtain ⟨s', P', a1, a2, a3, a4, a5, a6, a7, a8, a9⟩ := testLoop_ok fl i s.fresh ht false (by simp)
    ⟨length_le_fresh h.toCore i false, length_le_fresh h.toCore i true⟩
  refine ⟨s', P', a1, ⟨a2, a3, ?_, by rw [a9]; exact h.idx⟩, fun b => by rw [a4]; rfl, a5, a6, a7, a8⟩
  intro j c hj
  rw [a7] at hj
  by_cases e : j = i
  · subst e
    split at hj
    · rename_i he
      simp only [Bool.and_eq_true, List.isEmpty_iff] at he
      cases c
      · exact he.1
      · exact he.2
    · rw [a4, h.free j c hj]; rfl
  · rw [a5 j c e]
    split at hj
    · exact h.free j c (by rwa [set_ne _ _ e] at hj)
    · exact h.free j c hj

end GA.Req
